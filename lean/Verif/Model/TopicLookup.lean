import Verif.Model.TopicLemmas

/-!
# Lookup over histories of stored topics
-/

namespace Verif

/-- A history of the trie in terms of topic names. `add` is what Put/Sync and loadTrie do for a topic name
(db_internal.go:262-276, db_sync.go/`trie.add`), `setOffset` what the window writer does. -/
inductive TopicOp where
  | add (contract : UInt32) (key : Bytes) (offset : Int64)
  | setOffset (t : TTopic)
deriving DecidableEq

/-- db_internal.go:264-271: the hash under which messages of a topic are kept. -/
def topicHash (c : UInt32) (key : Bytes) : UInt64 := (parseTopic c key).1.getHash c

def TopicOp.toTrie : TopicOp → TrieOp
  | .add c key off => .add ⟨topicHash c key, off⟩ (parseTopic c key).1.parts (parseTopic c key).1.depth
  | .setOffset t => .setOffset t

def Trie.ofTopics (ops : List TopicOp) : Trie := Trie.run (ops.map TopicOp.toTrie)

/-- db_internal.go:218 with query.go:94-102: the topics a query for `key` visits. -/
def Trie.find (s : Trie) (c : UInt32) (key : Bytes) : List TTopic :=
  let (t, ty) := parseTopic c key
  s.lookup t.parts t.depth ty

def lastHash (parts : List Part) : Option UInt32 := parts.getLast?.map Part.hash

theorem lookup_iff {s : Trie} {l : List TEntry} (hI : TrieInv s l) (D : List Part → UInt8)
    (hD : ∀ a ∈ l, a.depth = D a.parts) (q : List Part) (d : UInt8) (ty : TopicType) (t : TTopic) :
    t ∈ s.lookup q d ty ↔ ∃ a ∈ l, t = a.topic ∧ reach a.parts q ∧
      (D a.parts = d ∨ (ty = .static ∧ lastHash a.parts = some wildcardHash)) := by
  have hcol : ∀ t, Collects d ty s.root q t ↔ ∃ a ∈ l, t = a.topic ∧ reach a.parts q ∧
      (D a.parts = d ∨ (ty = .static ∧ lastHash a.parts = some wildcardHash)) := by
    intro t
    have hhit : ∀ path m x, HasPath s.root path m → x ∈ m.topics →
        (m.hit d ty = true ↔ (D path = d ∨ (ty = .static ∧ lastHash path = some wildcardHash))) := by
      intro path m x hp hx
      obtain ⟨a, ha, h1, h2⟩ := hI.depth path x m.depth ⟨m, hp, hx, rfl⟩
      have hdep : m.depth = D path := by rw [← h2, hD a ha, h1]
      have hpart : (m.part.hash = wildcardHash ↔ lastHash path = some wildcardHash) := by
        cases hl : path.getLast? with
        | none =>
          rw [List.getLast?_eq_none_iff] at hl
          subst hl
          cases hp
          simp [lastHash, hI.rootPart, wildcardHash]
        | some p => simp [lastHash, hl, hasPath_part hp p hl]
      simp only [TNode.hit, hdep, Bool.or_eq_true, beq_iff_eq, Bool.and_eq_true, hpart]
    constructor
    · rintro ⟨path, m, hp, hr, hh, ht⟩
      obtain ⟨a, ha, h1, h2⟩ := (hI.holds path t).1 ⟨m.depth, m, hp, ht, rfl⟩
      subst h1
      exact ⟨a, ha, h2, hr, (hhit _ m t hp ht).1 hh⟩
    · rintro ⟨a, ha, rfl, hr, hh⟩
      obtain ⟨e, m, hp, hm, _⟩ := (hI.holds a.parts a.topic).2 ⟨a, ha, rfl, rfl⟩
      exact ⟨a.parts, m, hp, hr, (hhit _ m _ hp hm).2 hh, hm⟩
  constructor
  · intro h
    rcases mem_look d ty s.root q [] t h with h | h
    · simp at h
    · exact (hcol t).1 h
  · intro h
    have hh := hash_mem_look d ty s.root q [] t.hash (.inr ⟨t, (hcol t).2 h, rfl⟩)
    obtain ⟨t', ht', he⟩ := List.mem_map.1 hh
    have h' : ∃ a ∈ l, t' = a.topic ∧ reach a.parts q ∧
      (D a.parts = d ∨ (ty = .static ∧ lastHash a.parts = some wildcardHash)) := by
      rcases mem_look d ty s.root q [] t' ht' with h | h
      · simp at h
      · exact (hcol t').1 h
    obtain ⟨a, ha, rfl, _⟩ := h
    obtain ⟨a', ha', rfl, _⟩ := h'
    have : a' = a := List.inj_on_of_nodup_map hI.nodup ha' ha he
    subst this
    exact ht'

/-- Levels counted by the parts behind the contract. -/
def depthOf (parts : List Part) : UInt8 := (parts.drop 1).foldr (fun p s => 1 + p.wildchars + s) 0

theorem foldr_encFrom (c h : UInt32) (k : UInt8) (ls : List Bytes) (z : UInt8) :
    (encFrom c h k ls).foldr (fun p s => 1 + p.wildchars + s) z = 1 + k + UInt8.ofNat ls.length + z := by
  induction ls generalizing h k with
  | nil => simp [encFrom]
  | cons l ls ih =>
    have hlen : UInt8.ofNat (l :: ls).length = 1 + UInt8.ofNat ls.length := by
      rw [List.length_cons, Nat.add_comm ls.length 1, UInt8.ofNat_add]; rfl
    simp only [encFrom]
    split
    · rw [ih, hlen]; simp only [UInt8.add_assoc]
    · rw [List.foldr_cons, ih, hlen]; simp only [UInt8.add_assoc, UInt8.zero_add]

theorem depth_parseTopic (c : UInt32) (key : Bytes) (h : Spec.startsWithStar (Spec.topicText key) = false) :
    (parseTopic c key).1.depth = depthOf (parseTopic c key).1.parts := by
  rw [parseTopic_eq c key h]
  simp only [depthOf, List.drop_succ_cons, List.drop_zero, List.foldr_append]
  cases hl : Spec.levels (Spec.topicText key) with
  | nil => cases Spec.isMulti (Spec.topicText key) <;> simp [encLevels]
  | cons l ls =>
    have hlen : UInt8.ofNat (l :: ls).length = 1 + UInt8.ofNat ls.length := by
      rw [List.length_cons, Nat.add_comm ls.length 1, UInt8.ofNat_add]; rfl
    simp only [encLevels, foldr_encFrom, hlen]
    cases Spec.isMulti (Spec.topicText key)
    · simp
    · simp only [if_true, List.foldr_cons, List.foldr_nil, UInt8.add_zero]; ac_rfl

/-- Where the entries of a history come from. -/
theorem mem_trieRun (ops : List TrieOp) (a : TEntry) (h : a ∈ Spec.trieRun ops) :
    ∃ off, TrieOp.add ⟨a.hash, off⟩ a.parts a.depth ∈ ops := by
  suffices ∀ (ops : List TrieOp) (l : List TEntry), ∀ a ∈ ops.foldl Spec.trieStep l, (∃ b ∈ l, b.hash = a.hash ∧ b.parts = a.parts ∧ b.depth = a.depth) ∨
        ∃ off, TrieOp.add ⟨a.hash, off⟩ a.parts a.depth ∈ ops by
    rcases this ops [] a h with ⟨b, hb, _⟩ | h
    · simp at hb
    · exact h
  intro ops
  induction ops with
  | nil => intro l a ha; exact .inl ⟨a, ha, rfl, rfl, rfl⟩
  | cons o ops ih =>
    intro l a ha
    rcases ih (Spec.trieStep l o) a ha with ⟨b, hb, h1, h2, h3⟩ | ⟨off, h⟩
    · cases o with
      | add t ps d =>
        simp only [Spec.trieStep] at hb
        split at hb
        · exact .inl ⟨b, hb, h1, h2, h3⟩
        · rcases List.mem_append.1 hb with hb | hb
          · exact .inl ⟨b, hb, h1, h2, h3⟩
          · simp only [List.mem_singleton] at hb
            subst hb
            right
            refine ⟨t.offset, ?_⟩
            simp only at h1 h2 h3
            rw [← h1, ← h2, ← h3]
            exact List.mem_cons_self
      | setOffset t =>
        simp only [Spec.trieStep] at hb
        obtain ⟨b', hb', rfl⟩ := List.mem_map.1 hb
        left
        refine ⟨b', hb', ?_⟩
        split at h1 <;> simp_all
    · exact .inr ⟨off, List.mem_cons_of_mem _ h⟩

theorem hash_mem_trieRun (ops : List TrieOp) (t : TTopic) (ps : List Part) (d : UInt8) (h : TrieOp.add t ps d ∈ ops) :
    ∃ a ∈ Spec.trieRun ops, a.hash = t.hash := by
  have mono : ∀ (ops : List TrieOp) l, ∀ x ∈ l.map TEntry.hash, x ∈ (ops.foldl Spec.trieStep l).map TEntry.hash := by
    intro ops
    induction ops with
    | nil => intro l x hx; exact hx
    | cons o ops ih =>
      intro l x hx
      apply ih
      cases o with
      | add t ps d =>
        simp only [Spec.trieStep]
        split
        · exact hx
        · rw [List.map_append]; exact List.mem_append_left _ hx
      | setOffset t =>
        obtain ⟨b, hb, rfl⟩ := List.mem_map.1 hx
        simp only [Spec.trieStep, List.map_map]
        refine List.mem_map.2 ⟨b, hb, ?_⟩
        simp only [Function.comp]
        split <;> rfl
  suffices ∀ (ops : List TrieOp) l, TrieOp.add t ps d ∈ ops → t.hash ∈ (ops.foldl Spec.trieStep l).map TEntry.hash by
    obtain ⟨a, ha, e⟩ := List.mem_map.1 (this ops [] h)
    exact ⟨a, ha, e⟩
  intro ops
  induction ops with
  | nil => intro l h; simp at h
  | cons o ops ih =>
    intro l h
    rcases List.mem_cons.1 h with rfl | h
    · rw [List.foldl_cons]
      apply mono
      simp only [Spec.trieStep]
      split
      · assumption
      · simp
    · exact ih _ h

/-! ## Matching -/

/-- Consume a pattern from the front of a topic. -/
def consume : List Bytes → List Bytes → Option (List Bytes)
  | [], ts => some ts
  | _ :: _, [] => none
  | p :: ps, t :: ts => if Spec.isStar p ∨ p = t then consume ps ts else none

theorem levelsMatch_consume (m : Bool) (ps ts : List Bytes) :
    Spec.levelsMatch m ps ts = true ↔ ∃ r, consume ps ts = some r ∧ (if m then r ≠ [] else r = []) := by
  induction ps generalizing ts with
  | nil => cases m <;> cases ts <;> simp [Spec.levelsMatch, consume]
  | cons p ps ih =>
    cases ts with
    | nil => simp [Spec.levelsMatch, consume]
    | cons t ts =>
      simp only [Spec.levelsMatch, consume, Bool.and_eq_true, ih, Bool.or_eq_true, beq_iff_eq]
      by_cases h : Spec.isStar p = true ∨ p = t
      · simp [h]
      · simp [h]

theorem consume_length {ps ts r : List Bytes} (h : consume ps ts = some r) : ts.length = ps.length + r.length := by
  induction ps generalizing ts with
  | nil => simp only [consume, Option.some.injEq] at h; simp [h]
  | cons p ps ih =>
    cases ts with
    | nil => simp [consume] at h
    | cons t ts =>
      simp only [consume] at h
      split at h
      · have := ih h; simp; omega
      · simp at h

def litParts (c : UInt32) (ls : List Bytes) : List Part := ls.map fun l => ⟨Hash.withSalt l c, 0⟩

theorem encFrom_ne_nil (c h : UInt32) (k : UInt8) (ls : List Bytes) : encFrom c h k ls ≠ [] := by
  induction ls generalizing k with
  | nil => simp [encFrom]
  | cons l ls ih => simp only [encFrom]; split <;> simp [ih]

/-- One step of the walk for a part that is neither the multi-level wildcard nor hash-colliding. -/
theorem reach_step (c h : UInt32) (k : UInt8) (ps : List Part) (x : Bytes) (xs : List Bytes)
    (hw : h ≠ wildcardHash) (hk : k.toNat ≤ 254) (hx : xs.length ≤ 254) :
    reach (⟨h, k⟩ :: ps) (litParts c (x :: xs)) ↔
      h = Hash.withSalt x c ∧ k.toNat ≤ xs.length ∧ reach ps (litParts c (xs.drop k.toNat)) := by
  have hk1 : (k + 1).toNat = k.toNat + 1 := by
    rw [UInt8.toNat_add]; simp; omega
  simp only [litParts, List.map_cons, reach, if_neg hw]
  by_cases e : h = Hash.withSalt x c
  · simp only [e, true_and]
    by_cases e0 : (0 : UInt8) = k
    · simp [← e0]
    · rw [if_neg e0]
      have hge : (UInt8.ofNat ((⟨Hash.withSalt x c, 0⟩ : Part) :: xs.map fun l => (⟨Hash.withSalt l c, 0⟩ : Part)).length ≥ k + 1) ↔
          k.toNat ≤ xs.length := by
        rw [ge_iff_le, UInt8.le_iff_toNat_le, hk1]
        simp only [List.length_cons, List.length_map, UInt8.toNat_ofNat']
        omega
      rw [hk1]
      by_cases hle : k.toNat ≤ xs.length
      · rw [if_pos (hge.2 hle)]
        simp [hle, List.map_drop]
      · rw [if_neg (fun h => hle (hge.1 h))]
        simp [hle]
  · simp [e]

theorem reach_encFrom (c : UInt32) (T : List Part) (ls : List Bytes) :
    ∀ (l0 : Bytes) (k : UInt8) (x : Bytes) (xs : List Bytes), k.toNat + ls.length ≤ 254 → xs.length ≤ 254 →
    (∀ l, l = l0 ∨ l ∈ ls ∧ Spec.isStar l = false → Hash.withSalt l c ≠ wildcardHash ∧
      ∀ y, y = x ∨ y ∈ xs → Hash.withSalt l c = Hash.withSalt y c → l = y) →
    (reach (encFrom c (Hash.withSalt l0 c) k ls ++ T) (litParts c (x :: xs)) ↔
      l0 = x ∧ k.toNat ≤ xs.length ∧ ∃ r, consume ls (xs.drop k.toNat) = some r ∧ reach T (litParts c r)) := by
  induction ls with
  | nil =>
    intro l0 k x xs hk hx hh
    simp only [encFrom, List.singleton_append, consume]
    rw [reach_step c _ k T x xs (hh l0 (.inl rfl)).1 (by simpa using hk) hx]
    have : Hash.withSalt l0 c = Hash.withSalt x c ↔ l0 = x :=
      ⟨(hh l0 (.inl rfl)).2 x (.inl rfl), fun h => by rw [h]⟩
    simp [this]
  | cons l ls ih =>
    intro l0 k x xs hk hx hh
    simp only [List.length_cons] at hk
    simp only [encFrom]
    by_cases hs : Spec.isStar l = true
    · have hk1 : (k + 1).toNat = k.toNat + 1 := by
        rw [UInt8.toNat_add]; simp; omega
      rw [if_pos hs, ih l0 (k + 1) x xs (by omega) hx (by
        rintro l' (h | ⟨h, h2⟩)
        · exact hh l' (.inl h)
        · exact hh l' (.inr ⟨List.mem_cons_of_mem _ h, h2⟩)), hk1]
      constructor
      · rintro ⟨h1, h2, r, h3, h4⟩
        refine ⟨h1, by omega, r, ?_, h4⟩
        rw [List.drop_eq_getElem_cons (by omega)]
        simp only [consume, hs, true_or, if_true]
        exact h3
      · rintro ⟨h1, h2, r, h3, h4⟩
        have hlt : k.toNat < xs.length := by
          rcases Nat.lt_or_ge k.toNat xs.length with h | h
          · exact h
          · rw [List.drop_eq_nil_of_le h] at h3; simp [consume] at h3
        refine ⟨h1, by omega, r, ?_, h4⟩
        rw [List.drop_eq_getElem_cons hlt] at h3
        simp only [consume, hs, true_or, if_true] at h3
        exact h3
    · have hs' : Spec.isStar l = false := by simpa using hs
      rw [if_neg hs, List.cons_append, reach_step c _ k _ x xs (hh l0 (.inl rfl)).1 (by omega) hx]
      have : Hash.withSalt l0 c = Hash.withSalt x c ↔ l0 = x :=
        ⟨(hh l0 (.inl rfl)).2 x (.inl rfl), fun h => by rw [h]⟩
      rw [this]
      refine and_congr_right fun _ => and_congr_right fun hle => ?_
      cases hd : xs.drop k.toNat with
      | nil =>
        obtain ⟨p, ps, hp⟩ : ∃ p ps, encFrom c (Hash.withSalt l c) 0 ls = p :: ps := by
          cases he : encFrom c (Hash.withSalt l c) 0 ls with
          | nil => exact absurd he (encFrom_ne_nil _ _ _ _)
          | cons p ps => exact ⟨p, ps, rfl⟩
        rw [hp]
        simp [litParts, reach, consume]
      | cons y ys =>
        have hsub : ∀ z, z = y ∨ z ∈ ys → z ∈ xs := by
          intro z hz
          apply List.mem_of_mem_drop (i := k.toNat)
          rw [hd]
          rcases hz with rfl | hz
          · simp
          · simp [hz]
        have hlen : ys.length ≤ 254 := by
          have := congrArg List.length hd
          simp at this; omega
        rw [ih l 0 y ys (by simp; omega) hlen (by
          intro l' hl'
          have h1 : l' = l0 ∨ l' ∈ l :: ls ∧ Spec.isStar l' = false := by
            rcases hl' with rfl | ⟨h, h2⟩
            · exact .inr ⟨List.mem_cons_self, hs'⟩
            · exact .inr ⟨List.mem_cons_of_mem _ h, h2⟩
          exact ⟨(hh l' h1).1, fun z hz => (hh l' h1).2 z (.inr (hsub z hz))⟩)]
        simp only [consume, hs', Bool.false_eq_true, false_or, UInt8.toNat_zero, Nat.zero_le, true_and, List.drop_zero]
        by_cases hly : l = y
        · simp [hly]
        · simp [hly]

/-- The walk along the parts of a pattern that does not start with a star. -/
theorem reach_encLevels (c : UInt32) (T : List Part) (ps ts : List Bytes)
    (h0 : (ps.head?.map Spec.isStar).getD false = false) (hp : ps.length ≤ 255) (ht : ts.length ≤ 255)
    (hh : ∀ p ∈ ps, Spec.isStar p = false → Hash.withSalt p c ≠ wildcardHash ∧
      ∀ t ∈ ts, Hash.withSalt p c = Hash.withSalt t c → p = t) :
    reach (encLevels c ps ++ T) (litParts c ts) ↔ ∃ r, consume ps ts = some r ∧ reach T (litParts c r) := by
  cases ps with
  | nil => simp [encLevels, consume]
  | cons l ls =>
    have hs : Spec.isStar l = false := by simpa using h0
    cases ts with
    | nil =>
      obtain ⟨p, ps, hp⟩ : ∃ p ps, encFrom c (Hash.withSalt l c) 0 ls = p :: ps := by
        cases he : encFrom c (Hash.withSalt l c) 0 ls with
        | nil => exact absurd he (encFrom_ne_nil _ _ _ _)
        | cons p ps => exact ⟨p, ps, rfl⟩
      simp [encLevels, hp, litParts, reach, consume]
    | cons x xs =>
      simp only [List.length_cons] at hp ht
      rw [encLevels, reach_encFrom c T ls l 0 x xs (by simp; omega) (by omega) (by
        rintro l' (rfl | ⟨h, h2⟩)
        · have := hh l' List.mem_cons_self hs
          exact ⟨this.1, fun y hy => this.2 y (by simpa using hy)⟩
        · have := hh l' (List.mem_cons_of_mem _ h) h2
          exact ⟨this.1, fun y hy => this.2 y (by simpa using hy)⟩)]
      simp only [consume, hs, Bool.false_eq_true, false_or, UInt8.toNat_zero, Nat.zero_le, true_and, List.drop_zero]
      by_cases hly : l = x
      · simp [hly]
      · simp [hly]

theorem encFrom_lit (c h : UInt32) (ls : List Bytes) (hs : ∀ l ∈ ls, Spec.isStar l = false) :
    encFrom c h 0 ls = ⟨h, 0⟩ :: litParts c ls := by
  induction ls generalizing h with
  | nil => rfl
  | cons l ls ih =>
    have h1 := hs l List.mem_cons_self
    simp only [encFrom, h1, Bool.false_eq_true, if_false, litParts, List.map_cons]
    rw [ih _ (fun l' h' => hs l' (List.mem_cons_of_mem _ h'))]
    rfl

theorem encLevels_lit (c : UInt32) (ls : List Bytes) (hs : ∀ l ∈ ls, Spec.isStar l = false) :
    encLevels c ls = litParts c ls := by
  cases ls with
  | nil => rfl
  | cons l ls => rw [encLevels, encFrom_lit c _ ls (fun l' h' => hs l' (List.mem_cons_of_mem _ h'))]; rfl

theorem static_not_star {t : Bytes} (h : Spec.isStatic t = true) :
    Spec.isMulti t = false ∧ (∀ l ∈ Spec.levels t, Spec.isStar l = false) ∧ Spec.startsWithStar t = false := by
  simp only [Spec.isStatic, Bool.and_eq_true, Bool.not_eq_true', List.all_eq_true] at h
  refine ⟨h.1, h.2, ?_⟩
  unfold Spec.startsWithStar
  cases hl : Spec.levels t with
  | nil => rfl
  | cons l ls => simpa using h.2 l (by rw [hl]; exact List.mem_cons_self)

/-- The parsed form of a topic without wildcards. -/
theorem parseTopic_static (c : UInt32) (key : Bytes) (h : Spec.isStatic (Spec.topicText key) = true) :
    parseTopic c key = (⟨⟨c, 0⟩ :: litParts c (Spec.levels (Spec.topicText key)),
      UInt8.ofNat (Spec.levels (Spec.topicText key)).length⟩, .static) := by
  obtain ⟨h1, h2, h3⟩ := static_not_star h
  rw [parseTopic_eq c key h3]
  simp only [h1, encLevels_lit c _ h2, Bool.false_eq_true, if_false, List.append_nil, Bool.false_or, UInt8.zero_add]
  rw [if_neg]
  simpa using h2

theorem getLast?_encFrom_hash (c h : UInt32) (k : UInt8) (ls : List Bytes) :
    ∃ x, lastHash (encFrom c h k ls) = some x ∧ (x = h ∨ ∃ l ∈ ls, Spec.isStar l = false ∧ x = Hash.withSalt l c) := by
  induction ls generalizing h k with
  | nil => exact ⟨h, rfl, .inl rfl⟩
  | cons l ls ih =>
    simp only [encFrom]
    by_cases hs : Spec.isStar l = true
    · rw [if_pos hs]
      obtain ⟨x, h1, h2⟩ := ih h (k + 1)
      refine ⟨x, h1, ?_⟩
      rcases h2 with h2 | ⟨l', hl', r⟩
      · exact .inl h2
      · exact .inr ⟨l', List.mem_cons_of_mem _ hl', r⟩
    · have hs' : Spec.isStar l = false := by simpa using hs
      rw [if_neg hs]
      obtain ⟨x, h1, h2⟩ := ih (Hash.withSalt l c) 0
      refine ⟨x, ?_, ?_⟩
      · rw [← h1]
        unfold lastHash
        cases he : encFrom c (Hash.withSalt l c) 0 ls with
        | nil => exact absurd he (encFrom_ne_nil _ _ _ _)
        | cons p ps => rw [List.getLast?_cons_cons]
      · rcases h2 with h2 | ⟨l', hl', r⟩
        · exact .inr ⟨l, List.mem_cons_self, hs', h2⟩
        · exact .inr ⟨l', List.mem_cons_of_mem _ hl', r⟩

end Verif
