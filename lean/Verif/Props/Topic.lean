import Verif.Model.TopicLookup

/-!
# C15, C16, C17: which stored topics a query finds
-/

namespace Verif

/-- The current offset of a topic hash, read off the operations: set by the first `add` and by every later `setOffset`. -/
def Spec.offsetOf (h : UInt64) (ops : List TopicOp) : Option Int64 :=
  ops.foldl (fun o op => match op, o with
    | .add c key off, none => if topicHash c key = h then some off else none
    | .setOffset t, some o => if t.hash = h then some t.offset else some o
    | _, o => o) none

theorem offsetOf_eq (h : UInt64) (ops : List TopicOp) :
    Spec.offsetOf h ops = ((Spec.trieRun (ops.map TopicOp.toTrie)).find? (·.hash = h)).map TEntry.offset := by
  suffices ∀ (ops : List TopicOp) (l : List TEntry), ops.foldl (fun o op => match op, o with
    | .add c key off, none => if topicHash c key = h then some off else none
    | .setOffset t, some o => if t.hash = h then some t.offset else some o
    | _, o => o) ((l.find? (·.hash = h)).map TEntry.offset) =
      (((ops.map TopicOp.toTrie).foldl Spec.trieStep l).find? (·.hash = h)).map TEntry.offset from this ops []
  intro ops
  induction ops with
  | nil => intro l; rfl
  | cons op ops ih =>
    intro l
    rw [List.foldl_cons, List.map_cons, List.foldl_cons, ← ih]
    congr 1
    cases op with
    | add c key off =>
      simp only [TopicOp.toTrie, Spec.trieStep]
      cases hf : l.find? (·.hash = h) with
      | none =>
        simp only [Option.map_none]
        have hnot := find?_hash_none.1 hf
        by_cases e : topicHash c key = h
        · rw [if_pos e, if_neg (by rw [e]; exact hnot), List.find?_append, hf]
          simp [e]
        · rw [if_neg e]
          split
          · rw [hf]; rfl
          · rw [List.find?_append, hf]
            simp [e]
      | some a =>
        simp only [Option.map_some]
        split
        · rw [hf]; rfl
        · rw [List.find?_append, hf]; rfl
    | setOffset t =>
      simp only [TopicOp.toTrie, Spec.trieStep, List.find?_map]
      have hc : ((fun e : TEntry => decide (e.hash = h)) ∘ fun e => if e.hash = t.hash then { e with offset := t.offset } else e)
          = fun e => decide (e.hash = h) := by
        funext e
        simp only [Function.comp]
        split <;> rfl
      rw [hc]
      cases hf : l.find? (·.hash = h) with
      | none => rfl
      | some a =>
        have ha : a.hash = h := by simpa using List.find?_some hf
        simp only [Option.map_some, ha]
        by_cases e : t.hash = h
        · simp [e]
        · simp [e, Ne.symm e]

/-- All stored topic names that do not begin with a star have the depth their parts say. -/
theorem depth_consistent (ops : List TopicOp)
    (hw : ∀ c key off, TopicOp.add c key off ∈ ops → Spec.startsWithStar (Spec.topicText key) = false) :
    ∀ a ∈ Spec.trieRun (ops.map TopicOp.toTrie), a.depth = depthOf a.parts := by
  intro a ha
  obtain ⟨off, h⟩ := mem_trieRun _ a ha
  obtain ⟨op, hop, e⟩ := List.mem_map.1 h
  cases op with
  | setOffset t => simp [TopicOp.toTrie] at e
  | add c key off' =>
    simp only [TopicOp.toTrie, TrieOp.add.injEq] at e
    rw [← e.2.1, ← e.2.2]
    exact depth_parseTopic c key (hw c key off' hop)

/-- The entry kept for a stored topic, when every topic with its hash has its parts. -/
theorem entry_of_add (ops : List TopicOp) (c : UInt32) (key : Bytes) (off : Int64) (hin : TopicOp.add c key off ∈ ops)
    (hown : ∀ c' key' off', TopicOp.add c' key' off' ∈ ops → topicHash c' key' = topicHash c key →
      (parseTopic c' key').1.parts = (parseTopic c key).1.parts) :
    ∃ a ∈ Spec.trieRun (ops.map TopicOp.toTrie), a.hash = topicHash c key ∧ a.parts = (parseTopic c key).1.parts := by
  obtain ⟨a, ha, he⟩ := hash_mem_trieRun (ops.map TopicOp.toTrie) ⟨topicHash c key, off⟩ _ _
    (List.mem_map.2 ⟨_, hin, rfl⟩)
  refine ⟨a, ha, he, ?_⟩
  obtain ⟨off', h⟩ := mem_trieRun _ a ha
  obtain ⟨op, hop, e⟩ := List.mem_map.1 h
  cases op with
  | setOffset t => simp [TopicOp.toTrie] at e
  | add c' key' off'' =>
    simp only [TopicOp.toTrie, TrieOp.add.injEq, TTopic.mk.injEq] at e
    rw [← e.2.1]
    exact hown c' key' off'' hop (by rw [e.1.1, he])

theorem reach_refl_lit (ps : List Part) (h : ∀ p ∈ ps, p.wildchars = 0) : reach ps ps := by
  induction ps with
  | nil => trivial
  | cons p ps ih =>
    simp only [reach, true_and, if_true]
    exact ih fun q hq => h q (List.mem_cons_of_mem _ hq)

/-- C15. After every history of stored topics and offset updates, a query for exactly a stored topic without wildcards finds
that topic with its current offset, provided no different topic of the history has the same 64-bit topic hash and no topic of
the history begins with a star. (Both conditions are needed: `C15_hash_clash_violated`, and see C16.) -/
theorem C15_exact_topic_found_partial (ops : List TopicOp) (c : UInt32) (key : Bytes) (off : Int64)
    (hin : TopicOp.add c key off ∈ ops) (hst : Spec.isStatic (Spec.topicText key) = true)
    (hw : ∀ c key off, TopicOp.add c key off ∈ ops → Spec.startsWithStar (Spec.topicText key) = false)
    (hown : ∀ c' key' off', TopicOp.add c' key' off' ∈ ops → topicHash c' key' = topicHash c key →
      (parseTopic c' key').1.parts = (parseTopic c key).1.parts) :
    ∃ o, Spec.offsetOf (topicHash c key) ops = some o ∧ ⟨topicHash c key, o⟩ ∈ (Trie.ofTopics ops).find c key := by
  obtain ⟨a, ha, h1, h2⟩ := entry_of_add ops c key off hin hown
  have hI := trieInv_run (ops.map TopicOp.toTrie)
  refine ⟨a.offset, ?_, ?_⟩
  · rw [offsetOf_eq]
    cases hf : (Spec.trieRun (ops.map TopicOp.toTrie)).find? (·.hash = topicHash c key) with
    | none => exact absurd (List.mem_map.2 ⟨a, ha, h1⟩) (find?_hash_none.1 hf)
    | some b =>
      have hb := List.mem_of_find?_eq_some hf
      have hbh : b.hash = topicHash c key := by simpa using List.find?_some hf
      have : b = a := List.inj_on_of_nodup_map hI.nodup hb ha (by rw [hbh, h1])
      rw [this]; rfl
  · have hp := parseTopic_static c key hst
    have hdep := depth_parseTopic c key (hw c key off hin)
    rw [Trie.find]
    rw [hp] at h2 hdep ⊢
    simp only at h2 hdep ⊢
    refine (lookup_iff hI depthOf (depth_consistent ops hw) _ _ _ _).2 ⟨a, ha, ?_, ?_, .inl ?_⟩
    · rw [TEntry.topic, h1]
    · rw [h2]
      apply reach_refl_lit
      intro p hp
      simp only [litParts, List.mem_cons, List.mem_map] at hp
      rcases hp with rfl | ⟨l, _, rfl⟩ <;> rfl
    · rw [h2, ← hdep]

/-- "unit.b" -/
def exTopicUB : Bytes := [117, 110, 105, 116, 46, 98]

example : TopicOp.add 1 exTopicUB 0 ∈ [TopicOp.add 1 [97] 0, .add 1 exTopicUB 0, .setOffset ⟨topicHash 1 exTopicUB, 8192⟩] ∧
    Spec.isStatic (Spec.topicText exTopicUB) = true ∧ Spec.startsWithStar (Spec.topicText [97]) = false ∧
    topicHash 1 [97] ≠ topicHash 1 exTopicUB := by decide +kernel

/-- C15, full statement. -/
def C15_statement : Prop := ∀ (ops : List TopicOp) (c : UInt32) (key : Bytes) (off : Int64), TopicOp.add c key off ∈ ops →
  Spec.isStatic (Spec.topicText key) = true → topicHash c key ∈ ((Trie.ofTopics ops).find c key).map TTopic.hash

/-- C15 fails for two topics with the same hash: after storing to "a.b" and then to "b.a", a query for "b.a" finds nothing,
because the trie refuses the second topic as already present (trie.go:122). -/
theorem C15_hash_clash_violated : ¬ C15_statement := by
  intro h
  have := h [.add masterContract [97, 46, 98] 0, .add masterContract [98, 46, 97] 0] masterContract [98, 46, 97] 0
    (by simp) (by decide +kernel)
  revert this
  decide +kernel

/-- C16. After every history of stored topics whose names do not begin with a star, a query without wildcards finds a stored
topic exactly when they belong to the same contract and the stored name covers the queried one level by level.
Hash collisions between the literal levels of the two names, a level that hashes to the wildcard constant, and more than 254
levels are excluded. Insertion order is irrelevant: it appears only through `ops`. -/
theorem C16_covers_exact_partial (ops : List TopicOp) (c : UInt32) (key : Bytes) (off : Int64)
    (hin : TopicOp.add c key off ∈ ops)
    (hw : ∀ c key off, TopicOp.add c key off ∈ ops → Spec.startsWithStar (Spec.topicText key) = false)
    (hown : ∀ c' key' off', TopicOp.add c' key' off' ∈ ops → topicHash c' key' = topicHash c key →
      (parseTopic c' key').1.parts = (parseTopic c key).1.parts)
    (cq : UInt32) (q : Bytes) (hst : Spec.isStatic (Spec.topicText q) = true)
    (hlp : (Spec.levels (Spec.topicText key)).length ≤ 254) (hlq : (Spec.levels (Spec.topicText q)).length ≤ 255)
    (hc : c ≠ wildcardHash)
    (hh : ∀ p ∈ Spec.levels (Spec.topicText key), Spec.isStar p = false → Hash.withSalt p c ≠ wildcardHash ∧
      ∀ t ∈ Spec.levels (Spec.topicText q), Hash.withSalt p c = Hash.withSalt t c → p = t) :
    topicHash c key ∈ ((Trie.ofTopics ops).find cq q).map TTopic.hash ↔
      c = cq ∧ Spec.covers (Spec.topicText key) (Spec.topicText q) = true := by
  obtain ⟨a, ha, h1, h2⟩ := entry_of_add ops c key off hin hown
  have hI := trieInv_run (ops.map TopicOp.toTrie)
  have hP := parseTopic_eq c key (hw c key off hin)
  have hdep := depth_parseTopic c key (hw c key off hin)
  have hstart := hw c key off hin
  have hQ := parseTopic_static cq q hst
  have hfind : topicHash c key ∈ ((Trie.ofTopics ops).find cq q).map TTopic.hash ↔
      reach a.parts (parseTopic cq q).1.parts ∧
        (depthOf a.parts = (parseTopic cq q).1.depth ∨ lastHash a.parts = some wildcardHash) := by
    have hty : (parseTopic cq q).2 = .static := by rw [hQ]
    have hl := lookup_iff hI depthOf (depth_consistent ops hw) (parseTopic cq q).1.parts (parseTopic cq q).1.depth
      (parseTopic cq q).2
    simp only [List.mem_map, Trie.find]
    constructor
    · rintro ⟨t, ht, he⟩
      obtain ⟨b, hb, rfl, hr⟩ := (hl t).1 ht
      have : b = a := List.inj_on_of_nodup_map hI.nodup hb ha (by rw [h1]; exact he)
      subst this
      rw [hty] at hr
      exact ⟨hr.1, hr.2.imp id And.right⟩
    · rintro ⟨hr, hd⟩
      exact ⟨a.topic, (hl _).2 ⟨a, ha, rfl, hr, hd.imp id fun h => ⟨hty, h⟩⟩, h1⟩
  rw [hfind, h2, ← hdep, hP, hQ]
  simp only
  generalize hP' : Spec.levels (Spec.topicText key) = P at *
  generalize hQ' : Spec.levels (Spec.topicText q) = Q at *
  rw [Spec.covers, hP', hQ', levelsMatch_consume]
  have h0 : (P.head?.map Spec.isStar).getD false = false := by
    rw [← hP']; exact hstart
  by_cases hcc : c = cq
  · subst hcc
    simp only [reach, true_and, if_true]
    rw [reach_encLevels c _ P Q h0 (by omega) hlq hh]
    cases hm : Spec.isMulti (Spec.topicText key)
    · -- no trailing dots
      simp only [Bool.false_eq_true, if_false, List.append_nil, reach, and_true, UInt8.zero_add]
      have hlast : lastHash (⟨c, 0⟩ :: encLevels c P) ≠ some wildcardHash := by
        cases P with
        | nil => simp [encLevels, lastHash, hc]
        | cons l ls =>
          obtain ⟨x, hx1, hx2⟩ := getLast?_encFrom_hash c (Hash.withSalt l c) 0 ls
          have : lastHash (⟨c, 0⟩ :: encLevels c (l :: ls)) = some x := by
            rw [← hx1, encLevels]
            unfold lastHash
            cases he : encFrom c (Hash.withSalt l c) 0 ls with
            | nil => exact absurd he (encFrom_ne_nil _ _ _ _)
            | cons p ps => rw [List.getLast?_cons_cons]
          rw [this]
          simp only [ne_eq, Option.some.injEq]
          rcases hx2 with rfl | ⟨l', hl', hs', rfl⟩
          · exact (hh l List.mem_cons_self (by simpa using h0)).1
          · exact (hh l' (List.mem_cons_of_mem _ hl') hs').1
      simp only [hlast, or_false]
      constructor
      · rintro ⟨⟨r, hr⟩, hd⟩
        refine ⟨r, hr, ?_⟩
        have hlen := consume_length hr
        have := congrArg UInt8.toNat hd
        simp only [UInt8.toNat_ofNat'] at this
        have : r.length = 0 := by omega
        exact List.length_eq_zero_iff.1 this
      · rintro ⟨r, hr, rfl⟩
        refine ⟨⟨[], hr⟩, ?_⟩
        have hlen := consume_length hr
        simp only [List.length_nil, Nat.add_zero] at hlen
        rw [hlen]
    · -- trailing dots
      simp only [if_true]
      have hlast : lastHash (⟨c, 0⟩ :: (encLevels c P ++ [⟨wildcardHash, 0⟩])) = some wildcardHash := by
        unfold lastHash
        rw [← List.cons_append, List.getLast?_append]
        simp
      simp only [hlast, or_true, and_true]
      refine exists_congr fun r => and_congr_right fun _ => ?_
      cases r with
      | nil => simp [litParts, reach]
      | cons y ys =>
        simp only [litParts, List.map_cons, reach, ne_eq, reduceCtorEq, not_false_eq_true, iff_true]
        split
        · trivial
        · split
          · trivial
          · simp
  · simp only [reach, hcc, false_and, if_false, hc]

/-- "teams.*.ch1" stored, "teams.alpha.ch1" queried -/
example : Spec.covers [116, 46, 42, 46, 99] [116, 46, 97, 46, 99] = true ∧ Spec.isStatic [116, 46, 97, 46, 99] = true ∧
    Spec.startsWithStar [116, 46, 42, 46, 99] = false ∧ (7 : UInt32) ≠ wildcardHash ∧
    (∀ p ∈ Spec.levels [116, 46, 42, 46, 99], Spec.isStar p = false → Hash.withSalt p 7 ≠ wildcardHash ∧
      ∀ t ∈ Spec.levels [116, 46, 97, 46, 99], Hash.withSalt p 7 = Hash.withSalt t 7 → p = t) ∧
    topicHash 7 [116, 46, 42, 46, 99] ∈ ((Trie.ofTopics [.add 7 [116, 46, 42, 46, 99] 0]).find 7 [116, 46, 97, 46, 99]).map TTopic.hash := by
  decide +kernel

/-- C16, full statement: also for stored names that begin with a star (docs/utp.md: "can be used at any level in the Topic,
including first and last levels"). -/
def C16_statement : Prop := ∀ (c : UInt32) (key q : Bytes), Spec.isStatic (Spec.topicText q) = true →
  (topicHash c key ∈ ((Trie.ofTopics [.add c key 0]).find c q).map TTopic.hash ↔
    Spec.covers (Spec.topicText key) (Spec.topicText q) = true)

/-- C16 fails for a leading star, in both directions: a message for "*.b" is not found by a query for "x.b" and is found by a
query for "b.x". The hash of "*" is the wildcard constant, which the trie treats as matching without consuming a level. -/
theorem C16_leading_star_violated : ¬ C16_statement ∧
    topicHash masterContract [42, 46, 98] ∉ ((Trie.ofTopics [.add masterContract [42, 46, 98] 0]).find masterContract [120, 46, 98]).map TTopic.hash ∧
    topicHash masterContract [42, 46, 98] ∈ ((Trie.ofTopics [.add masterContract [42, 46, 98] 0]).find masterContract [98, 46, 120]).map TTopic.hash := by
  have h1 : topicHash masterContract [42, 46, 98] ∉ ((Trie.ofTopics [.add masterContract [42, 46, 98] 0]).find masterContract [120, 46, 98]).map TTopic.hash := by
    decide +kernel
  refine ⟨fun h => h1 ((h masterContract [42, 46, 98] [120, 46, 98] (by decide +kernel)).2 (by decide +kernel)), h1, ?_⟩
  decide +kernel

/-- docs/utp.md says a multi-level topic "represents parent and any number of child levels". The parent is never matched: a
query whose name has exactly the levels before the three dots does not find the topic. -/
theorem C16_parent_not_matched : topicHash masterContract [116, 46, 46, 46] ∉
    ((Trie.ofTopics [.add masterContract [116, 46, 46, 46] 0]).find masterContract [116]).map TTopic.hash := by
  decide +kernel

/-! ## C17 -/

/-- C17, full statement: messages are kept per topic hash, so two different topic names need different hashes. -/
def C17_statement : Prop := ∀ (c : UInt32) (t t' : Bytes), Spec.isStatic (Spec.topicText t) = true →
  Spec.isStatic (Spec.topicText t') = true → Spec.levels (Spec.topicText t) ≠ Spec.levels (Spec.topicText t') →
  topicHash c t ≠ topicHash c t'

theorem foldl_xor (ps : List Part) (z : UInt32) :
    ps.foldl (fun h p => h ^^^ p.hash) z = z ^^^ ps.foldr (fun p h => p.hash ^^^ h) 0 := by
  induction ps generalizing z with
  | nil => simp
  | cons p ps ih => rw [List.foldl_cons, ih, List.foldr_cons, UInt32.xor_assoc]

theorem foldr_xor_perm {ps ps' : List Part} (h : ps.Perm ps') :
    ps.foldr (fun p h => p.hash ^^^ h) 0 = ps'.foldr (fun p h => p.hash ^^^ h) 0 := by
  induction h with
  | nil => rfl
  | cons p _ ih => rw [List.foldr_cons, List.foldr_cons, ih]
  | swap p q l => simp only [List.foldr_cons, ← UInt32.xor_assoc, UInt32.xor_comm p.hash]
  | trans _ _ ih1 ih2 => rw [ih1, ih2]

/-- Any two topics whose levels are the same up to order have the same hash, for every contract. -/
theorem C17_reordered_levels_clash (c : UInt32) (t t' : Bytes) (hs : Spec.isStatic (Spec.topicText t) = true)
    (hs' : Spec.isStatic (Spec.topicText t') = true)
    (hp : (Spec.levels (Spec.topicText t)).Perm (Spec.levels (Spec.topicText t'))) : topicHash c t = topicHash c t' := by
  simp only [topicHash, parseTopic_static c t hs, parseTopic_static c t' hs', Topic.getHash, xorHashes, foldl_xor, hp.length_eq,
    litParts, List.length_cons, List.length_map]
  have : (⟨c, 0⟩ :: (Spec.levels (Spec.topicText t)).map fun l => (⟨Hash.withSalt l c, 0⟩ : Part)).Perm
      (⟨c, 0⟩ :: (Spec.levels (Spec.topicText t')).map fun l => ⟨Hash.withSalt l c, 0⟩) := (hp.map _).cons _
  rw [foldr_xor_perm this]

example : (Spec.levels (Spec.topicText [97, 46, 98])).Perm (Spec.levels (Spec.topicText [98, 46, 97])) := by decide +kernel

/-- C17 fails: "a.b" and "b.a" share their messages. -/
theorem C17_violated : ¬ C17_statement := fun h =>
  h 1 [97, 46, 98] [98, 46, 97] (by decide +kernel) (by decide +kernel) (by decide +kernel)
    (C17_reordered_levels_clash 1 _ _ (by decide +kernel) (by decide +kernel) (by decide +kernel))

/-- C17 fails in a second way: a plain topic whose level hashes to the wildcard constant ("i6xhoaa" for the default contract)
is returned for a query of any other topic, here "x". -/
theorem C17_wildcard_preimage_violated :
    Spec.isStatic (Spec.topicText [105, 54, 120, 104, 111, 97, 97]) = true ∧
    topicHash masterContract [105, 54, 120, 104, 111, 97, 97] ∈
      ((Trie.ofTopics [.add masterContract [105, 54, 120, 104, 111, 97, 97] 0]).find masterContract [120]).map TTopic.hash := by
  decide +kernel

/-- What does hold of C17: within a contract, plain topics with the same hash have the same number of levels (up to 255), and
the exclusive-or of their level hashes is the same; so one-level topics share messages only if their level hashes are equal. -/
theorem C17_same_hash_partial (c : UInt32) (t t' : Bytes) (hs : Spec.isStatic (Spec.topicText t) = true)
    (hs' : Spec.isStatic (Spec.topicText t') = true)
    (hl : 0 < (Spec.levels (Spec.topicText t)).length ∧ (Spec.levels (Spec.topicText t)).length ≤ 255)
    (hl' : 0 < (Spec.levels (Spec.topicText t')).length ∧ (Spec.levels (Spec.topicText t')).length ≤ 255)
    (he : topicHash c t = topicHash c t') :
    (Spec.levels (Spec.topicText t)).length = (Spec.levels (Spec.topicText t')).length ∧
    (Spec.levels (Spec.topicText t)).foldr (fun l h => Hash.withSalt l c ^^^ h) 0 =
      (Spec.levels (Spec.topicText t')).foldr (fun l h => Hash.withSalt l c ^^^ h) 0 := by
  simp only [topicHash, parseTopic_static c t hs, parseTopic_static c t' hs', Topic.getHash, litParts, List.length_cons,
    List.length_map] at he
  rw [if_neg (by omega), if_neg (by omega)] at he
  simp only [xorHashes, foldl_xor, List.foldr_cons, List.foldr_map] at he
  generalize Spec.levels (Spec.topicText t) = L at *
  generalize Spec.levels (Spec.topicText t') = L' at *
  generalize hx : L.foldr (fun l h => Hash.withSalt l c ^^^ h) 0 = x at *
  generalize hx' : L'.foldr (fun l h => Hash.withSalt l c ^^^ h) 0 = x' at *
  have hsum : ∀ (a : UInt32) (b : UInt32), (a.toUInt64 <<< 32 + b.toUInt64).toNat = a.toNat * 2 ^ 32 + b.toNat := by
    intro a b
    have ha := a.toNat_lt
    have hb := b.toNat_lt
    rw [UInt64.toNat_add, UInt64.toNat_shiftLeft]
    simp only [UInt32.toNat_toUInt64, Nat.shiftLeft_eq]
    rw [show (32 : UInt64).toNat % 64 = 32 by rfl]
    omega
  have h := congrArg UInt64.toNat he
  rw [hsum, hsum] at h
  have b1 := ((c <<< 8) ||| (UInt8.ofNat L.length).toUInt32).toNat_lt
  have b2 := ((c <<< 8) ||| (UInt8.ofNat L'.length).toUInt32).toNat_lt
  have e1 : ((0 : UInt32) ^^^ (c ^^^ x)).toNat = ((0 : UInt32) ^^^ (c ^^^ x')).toNat := by omega
  have e2 : ((c <<< 8) ||| (UInt8.ofNat L.length).toUInt32).toNat = ((c <<< 8) ||| (UInt8.ofNat L'.length).toUInt32).toNat := by omega
  refine ⟨?_, ?_⟩
  · have hlow : ∀ n : Nat, n ≤ 255 → ((c <<< 8) ||| (UInt8.ofNat n).toUInt32).toNat % 256 = n := by
      intro n hn
      rw [UInt32.toNat_or, UInt32.toNat_shiftLeft]
      simp only [UInt8.toNat_toUInt32, UInt8.toNat_ofNat', Nat.shiftLeft_eq]
      rw [show (8 : UInt32).toNat % 32 = 8 by rfl, show 256 = 2 ^ 8 by rfl, Nat.or_mod_two_pow]
      have : c.toNat * 2 ^ 8 % 2 ^ 32 % 2 ^ 8 = 0 := by omega
      rw [this]
      simp; omega
    rw [← hlow L.length hl.2, e2, hlow L'.length hl'.2]
  · have := UInt32.toNat.inj e1
    simp only [UInt32.zero_xor] at this
    have h3 := congrArg (fun z => c ^^^ z) this
    simpa [← UInt32.xor_assoc] using h3

example : topicHash 5 [97] ≠ topicHash 5 [98] := by decide +kernel

end Verif
