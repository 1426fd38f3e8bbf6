import Verif.Model.DbSyncStep
import Verif.Props.Window

/-!
# Reopening a database: the files, the trie
-/

namespace Verif

/-! ## The window file -/

/-- After reopening, the topic synced first starts from block 0 again; the others keep their offsets. -/
theorem WinOK.reopen {s : WinState} {led : List (UInt64 × List WinEntry)} (H : WinOK s led) {offs' : UInt64 → Int}
    (h1 : ∀ h, led.head?.map (·.1) ≠ some h → offs' h = s.offs h) (h2 : ∀ h, led.head?.map (·.1) = some h → offs' h = 0) :
    WinOK ⟨s.file, offs', newWindowWriter s.file⟩ led := by
  obtain ⟨n, B, ks, a, hc⟩ := H.start
  cases hl : led with
  | nil =>
    have e : offs' = s.offs := by
      funext h
      exact h1 h (by rw [hl]; simp)
    rw [e]
    exact ⟨n, B, ks, hl ▸ a, hc⟩
  | cons p rest =>
    rw [← hl]
    have hne : led ≠ [] := by rw [hl]; simp
    have hhead : led.head? = some p := by rw [hl]; rfl
    have hh : led.head?.map (·.1) = some p.1 := by rw [hhead]; rfl
    obtain ⟨hfn, hfu, _⟩ := a.first hne
    have hn : 0 < n := by
      obtain ⟨_, h, hk⟩ := a.nonempty hne
      obtain ⟨k, hk⟩ := List.exists_mem_of_ne_nil _ hk
      rcases a.inv.known h k hk with h3 | ⟨b, h3⟩
      · omega
      · simp [newWindowWriter] at h3
    have hcur : cur (newWindowWriter s.file) B = B := by funext k; simp [cur, newWindowWriter]
    have ho : ∀ h, h ≠ p.1 → Function.update ks p.1 [0] h = ks h := fun h hne => Function.update_of_ne hne _ _
    refine ⟨n, B, Function.update ks p.1 [0], ⟨⟨a.inv.file, a.inv.beyond, a.inv.good, a.inv.bound, a.inv.keys, a.inv.last, a.inv.kept, ?_, ?_⟩,
      ?_, ?_, False.elim, ?_, fun hc => absurd hc hne, ?_, a.zero, ?_, ?_, a.member, a.first⟩, hc⟩
    · intro h
      by_cases e : h = p.1
      · subst e
        rw [Function.update_self]
        refine ⟨a.zero p hhead, ?_, hfn⟩
        show (cur (newWindowWriter s.file) B 0).entryIdx.toNat ≤ 335
        rw [hcur]
        exact (a.inv.good 0).2.2
      · rw [ho h e]; exact a.inv.chain h
    · intro h k hk
      by_cases e : h = p.1
      · subst e
        rw [Function.update_self, List.mem_singleton] at hk
        exact .inl (by omega)
      · rw [ho h e] at hk; exact a.inv.known h k hk
    · intro h
      by_cases e : h = p.1
      · subst e
        rw [Function.update_self]
        exact (h2 _ hh).trans (by simp [headOff])
      · rw [ho h e]
        exact (h1 h (by rw [hh]; simpa using fun hc => e hc.symm)).trans (a.offs h)
    · intro h hk
      by_cases e : h = p.1
      · subst e
        rw [Function.update_self]
        simpa [content] using hfu
      · rw [ho h e] at hk ⊢; exact a.some h hk
    · intro h hf
      have e : h ≠ p.1 := by rintro rfl; exact hf hh
      rw [ho h e]; exact a.all h hf
    · intro _
      exact ⟨(a.nonempty hne).1, p.1, by rw [Function.update_self]; simp⟩
    · intro k hk
      by_cases e : (cur (newWindowWriter s.file) B k).topicHash = p.1
      · exact .inr (by show _ = some (cur (newWindowWriter s.file) B k).topicHash; rw [e]; exact hh)
      · rcases a.owned k hk with h3 | h3
        · refine .inl ?_
          rw [ho _ e]; exact h3
        · exact .inr h3
    · intro h hs
      by_cases e : h = p.1
      · subst e
        rw [Function.update_self]; simp
      · rw [ho h e]; exact a.has h hs

/-! ## Stored records -/

variable {K : Item → Prop} {v : DbEnv} {s : Db} {U D : List Item} {L : Loc} {led : List (UInt64 × List WinEntry)}

/-- The record of a synced message can be read from the files, with its topic. -/
theorem DbKnown.stored_read (I : DbKnown K v s U D L led) (hlen : s.store.data.length < 2 ^ 63) {i : Item} (hi : i ∈ D) :
    ∃ e, readEntry s.store.index i.seq = .ok e ∧ e.topicSize = i.topicSize ∧ readTopic s.store.data e = some i.raw := by
  have hok := I.ok i (List.mem_append_right _ hi)
  have hin : i.stored ∈ L.map (·.1) := by rw [I.stored]; exact List.mem_map_of_mem hi
  obtain ⟨p, hp, he⟩ := List.mem_map.1 hin
  have hst := Item.storable hok
  have hb := I.store.data.bytes p hp (by simp)
  simp only [List.append_nil] at hb
  have hle := slice?_le hb
  have hpo : p.2 < 2 ^ 63 := by
    have hpos : 0 < p.1.cache.length := by
      have := hst.sized
      rw [← he] at this; omega
    omega
  have e1 : (Int64.ofInt (p.2 : Int)).toInt = p.2 := Int64.toInt_ofInt_of_le (by omega) (by omega)
  have hre := I.store.readEntry hp hpo
  have hseq : i.seq = p.1.seq := by rw [he]; rfl
  have hts : p.1.topicSize = i.topicSize := by rw [he]; rfl
  have hsz := hst.sized
  have hn := Item.topicSize_toNat hok
  have hca : p.1.cache = i.body := by rw [he]; rfl
  have hbl := Item.length_body hok
  refine ⟨toEntry p, by rw [hseq]; exact hre, hts, ?_⟩
  simp only [readTopic, toEntry, e1, readAt]
  rw [if_pos (by omega), hts, hn]
  have e7 : ((p.2 : Int) + 9).toNat = p.2 + 9 := by omega
  rw [e7, Nat.add_assoc, slice?_slice? hb (by rw [hca, hbl]; omega), hca, Item.body]
  exact slice?_mid (i.pre ++ [i.flag]) i.raw i.val _ _ (by simp [hok.pre]) (by simp [hok.pre])

/-- An item carries its topic, or nothing. -/
def Item.Raw (i : Item) : Prop := i.raw = [] ∨ i.raw = (parseTopic i.contract i.topic).1.marshal

/-- What the stored record of a sequence says about its topic. -/
def namedOf (D : List Item) (q : UInt64) : Option Bool := (D.find? fun i => i.seq = q).map fun i => decide (i.raw ≠ [])

/-- Loading the trie. -/
theorem loadTopics_spec {index data : Bytes} {D : List Item} (hn : (D.map Item.seq).Nodup) (hok : ∀ i ∈ D, i.OK v)
    (hread : ∀ i ∈ D, ∃ e, readEntry index i.seq = .ok e ∧ e.topicSize = i.topicSize ∧ readTopic data e = some i.raw)
    (hraw : ∀ i ∈ D, i.Raw) (l : List (UInt64 × UInt64 × Int)) :
    ∀ (ops : List TopicOp) (t : List (UInt64 × Int)), (∀ p ∈ l, ∃ i ∈ D, i.seq = p.1 ∧ i.hash = p.2.1) →
    (∀ h, (Trie.ofTopics ops).getOffset h = (t.lookup h).map Int64.ofInt) →
    ∃ ops', loadTopics index data l (Trie.ofTopics ops) = some (Trie.ofTopics (ops ++ ops')) ∧
      (∀ h, (Trie.ofTopics (ops ++ ops')).getOffset h = ((loadOffsets (namedOf D) l t).lookup h).map Int64.ofInt) ∧
      ∀ op ∈ ops', ∃ i ∈ D, ∃ off, op = TopicOp.add i.contract i.topic off := by
  induction l with
  | nil =>
    intro ops t _ ht
    exact ⟨[], by simp [loadTopics], by simpa [loadOffsets] using ht, by simp⟩
  | cons p rest ih =>
    obtain ⟨seq, hash, off⟩ := p
    intro ops t hl ht
    obtain ⟨i, hi, hs, hh⟩ := hl (seq, hash, off) List.mem_cons_self
    simp only at hs hh
    have hl' := fun p hp => hl p (List.mem_cons_of_mem _ hp)
    obtain ⟨e, he1, he2, he3⟩ := hread i hi
    have hnm : namedOf D seq = some (decide (i.raw ≠ [])) := by
      rw [namedOf, ← hs, find_seq hn hi]; rfl
    have hsz := Item.topicSize_toNat (hok i hi)
    rw [loadTopics, ← hs, he1]
    dsimp only
    rw [hs, loadOffsets, hnm, he2]
    by_cases hr : i.raw = []
    · have h0 : i.topicSize = 0 := by
        apply UInt16.toNat_inj.1; rw [hsz, hr]; rfl
      rw [if_pos h0]
      simp only [hr, ne_eq, not_true_eq_false, decide_false]
      exact ih ops t hl' ht
    · have h0 : i.topicSize ≠ 0 := by
        intro hc; rw [hc] at hsz
        exact hr (List.eq_nil_of_length_eq_zero hsz.symm)
      rw [if_neg h0, he3]
      simp only [hr, ne_eq, not_false_eq_true, decide_true]
      have hm := (hraw i hi).resolve_left hr
      obtain ⟨hu, _, _⟩ := parseTopic_fits i.contract i.topic (hok i hi).plain (hok i hi).levels
      rw [← hm] at hu
      rw [hu]
      simp only [Option.bind_eq_bind, Option.bind_some]
      have hI := trieInv_run (ops.map TopicOp.toTrie)
      have e1 : (Trie.ofTopics ops).add ⟨hash, Int64.ofInt off⟩ (parseTopic i.contract i.topic).1.parts (parseTopic i.contract i.topic).1.depth
          = Trie.ofTopics (ops ++ [.add i.contract i.topic (Int64.ofInt off)]) := by
        rw [← hh]
        simp only [Trie.ofTopics, Trie.run, List.map_append, List.foldl_append, List.map_cons, List.map_nil, List.foldl_cons, List.foldl_nil]
        rfl
      have e2 := TrieInv.getOffset_add (s := Trie.ofTopics ops) hI ⟨hash, Int64.ofInt off⟩ (parseTopic i.contract i.topic).1.parts (parseTopic i.contract i.topic).1.depth
      rw [e1] at e2 ⊢
      obtain ⟨ops', h1, h2, h3⟩ := ih (ops ++ [.add i.contract i.topic (Int64.ofInt off)])
        (if (t.lookup hash).isSome then t else t ++ [(hash, off)]) hl' (by
          intro h
          rw [e2, ht, ht]
          cases hlk : t.lookup hash with
          | some o => simp
          | none =>
            by_cases hc : h = hash
            · subst hc; simp [List.lookup_append, hlk]
            · have : (h == hash) = false := by simpa using hc
              simp [List.lookup_append, List.lookup_cons, this, hc])
      refine ⟨.add i.contract i.topic (Int64.ofInt off) :: ops', ?_, ?_, ?_⟩
      · simpa only [List.append_assoc, List.singleton_append] using h1
      · simpa only [List.append_assoc, List.singleton_append] using h2
      · intro op hop
        rcases List.mem_cons.1 hop with rfl | hop
        · exact ⟨i, hi, _, rfl⟩
        · exact h3 op hop

/-- The message of each topic that was synced first carries the topic. -/
def Headed (D : List Item) : Prop := ∀ h i, (D.filter fun i => i.hash = h).head? = some i → i.raw ≠ []

/-- Known topics may be added again. -/
theorem ofTopics_addAll {ops : List TopicOp} (l : List Item) (hk : ∀ i ∈ l, ((Trie.ofTopics ops).getOffset i.hash).isSome) :
    Trie.ofTopics (ops ++ l.map fun i => .add i.contract i.topic 0) = Trie.ofTopics ops := by
  induction l using List.reverseRecOn with
  | nil => simp
  | append_singleton l i ih =>
    have ih := ih fun j hj => hk j (List.mem_append_left _ hj)
    rw [List.map_append, ← List.append_assoc, List.map_singleton]
    rw [← addTopic_known rfl i.contract i.topic (by rw [ih]; exact hk i (by simp))]
    exact ih

/-- Opening finds every topic with its window blocks. -/
theorem DbKnown.load (I : DbKnown K v s U D L led) (hlen : s.store.data.length < 2 ^ 63) (hraw : ∀ i ∈ D, i.Raw) (hhead : Headed D)
    (h335 : ∀ h, led.head?.map (·.1) ≠ some h → (D.filter fun i => i.hash = h).length ≤ 335) :
    ∃ ops, loadTopics s.store.index s.store.data (blockIterator s.winFile) .empty = some (Trie.ofTopics ops) ∧
      WinOK ⟨s.winFile, offsOf (Trie.ofTopics ops), newWindowWriter s.winFile⟩ led ∧
      (∀ i ∈ D, ∃ off, TopicOp.add i.contract i.topic off ∈ ops) ∧
      ∀ c key off, TopicOp.add c key off ∈ ops → ∃ i ∈ D, i.contract = c ∧ i.topic = key := by
  obtain ⟨w, H⟩ := I.hist
  obtain ⟨n, B, ks, d⟩ := H.onDisk
  have hb := d.bound
  have hread : ∀ k, k < n → readWindowBlock s.winFile (winOff k) = some (B k) := by
    intro k hk; rw [winOff_eq k (by omega)]; exact d.read k hk
  have hend : readWindowBlock s.winFile (winOff n) = none := by
    rw [winOff_eq n (by omega), show (4096 * (n : Int)) = ((4096 * n : Nat) : Int) by omega]
    exact readWindowBlock_empty _ _ (by rw [d.len]; omega)
  have hdiv : s.winFile.length / blockSize = n := by rw [d.len]; show 4096 * n / 4096 = n; omega
  have hnodup : (D.map Item.seq).Nodup := by
    have := I.nodup
    rw [List.map_append, List.nodup_append] at this
    exact this.2.1
  -- every block listed is one in use
  have hmem : ∀ p ∈ blockIterator s.winFile, ∃ k, k < n ∧ (B k).entryIdx ≠ 0 ∧ (B k).next = 0 ∧
      p = (((B k).entries.headD .zero).seq, (B k).topicHash, winOff k) := by
    intro p hp
    rw [blockIterator] at hp
    by_cases h0 : s.winFile.length > 0
    · rw [if_pos h0, hdiv, List.range_eq_range'] at hp
      obtain ⟨k, _, h⟩ := (mem_iterBlocks hread hend (n + 1) 0 (by omega) p).1 hp
      exact ⟨k, h⟩
    · rw [if_neg h0] at hp
      simp [iterBlocks] at hp
  have hcons : ∀ k, (B k).entryIdx ≠ 0 → ∃ r, used (B k) = (B k).entries.headD .zero :: r := by
    intro k hk
    have hg := d.good k
    have hpos : 1 ≤ (B k).entryIdx.toNat := by
      rcases Nat.eq_zero_or_pos (B k).entryIdx.toNat with hc | hc
      · exact absurd (UInt16.toNat_inj.1 hc) hk
      · exact hc
    cases he : (B k).entries with
    | nil => have := hg.1; rw [he] at this; exact absurd this (by decide)
    | cons x xs =>
      rw [used, he]
      obtain ⟨m, hm⟩ : ∃ m, (B k).entryIdx.toNat = m + 1 := ⟨_, (Nat.succ_pred_eq_of_pos hpos).symm⟩
      rw [hm, List.take_succ_cons]
      exact ⟨_, rfl⟩
  have hitem : ∀ p ∈ blockIterator s.winFile, ∃ i ∈ D, i.seq = p.1 ∧ i.hash = p.2.1 := by
    intro p hp
    obtain ⟨k, hk, he, hnx, rfl⟩ := hmem p hp
    obtain ⟨r, hr⟩ := hcons k he
    have := d.member k _ (by rw [hr]; exact List.mem_cons_self)
    rw [I.synced] at this
    obtain ⟨i, hi, hw⟩ := List.mem_map.1 this
    rw [List.mem_filter] at hi
    exact ⟨i, hi.1, by rw [← hw]; rfl, by simpa using hi.2⟩
  obtain ⟨ops, h1, h2, h3⟩ := loadTopics_spec (v := v) hnodup (fun i hi => I.ok i (List.mem_append_right _ hi))
    (fun i hi => I.stored_read hlen hi) hraw (blockIterator s.winFile) [] [] hitem (by intro h; rfl)
  simp only [List.nil_append] at h1 h2
  -- the first message of a topic
  have hfirst : ∀ h e r, syncedFor led h = e :: r → namedOf D e.seq = some true := by
    intro h e r hs
    rw [I.synced] at hs
    cases hf : D.filter fun i => i.hash = h with
    | nil => rw [hf] at hs; simp at hs
    | cons i l =>
      rw [hf, List.map_cons, List.cons.injEq] at hs
      have hi : i ∈ D := List.mem_of_mem_filter (p := fun i => decide (i.hash = h)) (by rw [hf]; exact List.mem_cons_self)
      have hne := hhead h i (by rw [hf]; rfl)
      rw [← hs.1]
      show namedOf D i.seq = _
      rw [namedOf, find_seq hnodup hi]
      simp [hne]
  have hnone : ∀ p ∈ blockIterator s.winFile, namedOf D p.1 ≠ none := by
    intro p hp
    obtain ⟨i, hi, hs, _⟩ := hitem p hp
    rw [namedOf, ← hs, find_seq hnodup hi]
    simp
  -- offsets
  obtain ⟨T, hT⟩ : ∃ T, T = loadOffsets (namedOf D) (blockIterator s.winFile) [] := ⟨_, rfl⟩
  rw [← hT] at h2
  have hoff : ∀ h, led.head?.map (·.1) ≠ some h → offsOf (Trie.ofTopics ops) h = offsOf s.trie h ∧
      ((D.filter fun i => i.hash = h) ≠ [] → ((Trie.ofTopics ops).getOffset h).isSome) := by
    intro h hf
    obtain ⟨hz, hcont⟩ := d.all h hf
    have hoffs : offsOf s.trie h = headOff (ks h) := d.offs h
    cases hk : ks h with
    | nil =>
      rw [hk] at hcont hoffs
      have hs0 : syncedFor led h = [] := by rw [← hcont]; rfl
      have hD0 : (D.filter fun i => i.hash = h) = [] := by
        have := I.synced h
        rw [hs0] at this
        exact List.map_eq_nil_iff.1 this.symm
      have hnot : T.lookup h = none := by
        have : ∀ (l : List (UInt64 × UInt64 × Int)) (t : List (UInt64 × Int)), (∀ p ∈ l, p.2.1 ≠ h) → t.lookup h = none →
            (loadOffsets (namedOf D) l t).lookup h = none := by
          intro l
          induction l with
          | nil => intro t _ ht; exact ht
          | cons p rest ih =>
            obtain ⟨seq, hash, off⟩ := p
            intro t hp ht
            have hne : hash ≠ h := hp (seq, hash, off) List.mem_cons_self
            have hp' := fun p hq => hp p (List.mem_cons_of_mem _ hq)
            rw [loadOffsets]
            split
            · exact ht
            · exact ih t hp' ht
            · refine ih _ hp' ?_
              split
              · exact ht
              · have : (h == hash) = false := by simpa using fun hc => hne (Eq.symm hc)
                rw [List.lookup_append, ht]
                simp [List.lookup_cons, this]
        rw [hT]
        refine this _ _ ?_ rfl
        intro p hp hc
        obtain ⟨i, hi, _, hh⟩ := hitem p hp
        have : i ∈ D.filter fun i => i.hash = h := List.mem_filter.2 ⟨hi, by simpa using hh.trans hc⟩
        rw [hD0] at this; simp at this
      refine ⟨?_, fun hc => absurd hD0 hc⟩
      rw [hoffs, offsOf, h2, hnot]
      rfl
    | cons k r =>
      have hch := d.chain h
      have hkn := d.known h
      have hsm := d.some h (by rw [hk]; simp)
      rw [hk] at hch hkn hcont hoffs hsm
      obtain ⟨l, g1, g2, g3, g4, g5, z, g6⟩ := IsChain.last r hch (fun j hj => by have := hkn j hj; omega)
      have hln := hkn l g1
      have hlok := d.good l
      have h335' : entriesPerWindowBlock = 335 := rfl
      have hulen : (used (B l)).length = (B l).entryIdx.toNat := by
        rw [used, List.length_take, hlok.1]; have := hlok.2.2; omega
      have hlen' : (syncedFor led h).length ≤ 335 := by
        rw [I.synced, List.length_map]; exact h335 h hf
      -- one block
      have hone : r = [] := by
        cases r with
        | nil => rfl
        | cons j r =>
          exfalso
          have hc2 : content B (k :: j :: r) = content B (j :: r) ++ used (B k) := content_cons _ _ _
          have hl' := g5.resolve_left (by simp)
          have hk' : (B k).entryIdx ≠ 0 := by
            intro hc
            have h1 := hch.2.1
            rw [hc] at h1
            exact absurd h1 (by decide)
          obtain ⟨x, hx⟩ := hcons k hk'
          obtain ⟨l2, q1, q2, q3, q4, q5, z2, q6⟩ := IsChain.last r hch.tail (fun i hi => by have := hkn i (List.mem_cons_of_mem _ hi); omega)
          have hll : l2 = l := g3 l2 (List.mem_cons_of_mem _ q1) q2
          subst hll
          have : (syncedFor led h).length = (used (B l2)).length + z2.length + (used (B k)).length := by
            rw [← hcont, hc2, q6]; simp only [List.length_append]
          rw [hulen, hx] at this
          simp only [List.length_cons] at this
          omega
      subst hone
      have hlk : l = k := by simpa using g1
      subst hlk
      have hc1 : content B [l] = used (B l) := by simp [content]
      have hne0 : (B l).entryIdx ≠ 0 := by
        intro hc
        rw [hc1, used, hc] at hsm
        simp at hsm
      obtain ⟨x, hx⟩ := hcons l hne0
      have hfound : T.lookup h = some (winOff l) := by
        rw [hT]
        refine loadOffsets_found _ hnone ?_ ?_ [] rfl
        · refine ⟨(((B l).entries.headD .zero).seq, (B l).topicHash, winOff l), ?_, g4.1, ?_⟩
          · rw [blockIterator, if_pos (by rw [d.len]; omega), hdiv, List.range_eq_range']
            exact (mem_iterBlocks hread hend (n + 1) 0 (by omega) _).2 ⟨l, by omega, hln, hne0, g2, rfl⟩
          · exact hfirst h _ x (by rw [← hcont, hc1, hx])
        · intro p hp hph
          obtain ⟨j, hj, he, hnx, rfl⟩ := hmem p hp
          dsimp only at hph ⊢
          have hje : 1 ≤ (B j).entryIdx.toNat := by
            rcases Nat.eq_zero_or_pos (B j).entryIdx.toNat with hc | hc
            · exact absurd (UInt16.toNat_inj.1 hc) he
            · exact hc
          rcases d.owned j hje with ho | ho
          · rw [hph, hk] at ho
            rw [g3 j ho hnx]
          · rw [hph] at ho
            exact absurd ho hf
      refine ⟨?_, fun _ => by rw [h2, hfound]; rfl⟩
      rw [hoffs, offsOf, h2, hfound, winOff_eq l (by omega)]
      show (Int64.ofInt (4096 * (l : Int))).toInt = 4096 * (l : Int)
      exact Int64.toInt_ofInt_of_le (by omega) (by omega)
  have hzero : ∀ h, led.head?.map (·.1) = some h → (Trie.ofTopics ops).getOffset h = some 0 := by
    intro h hf
    obtain ⟨p, hp, rfl⟩ := Option.map_eq_some_iff.1 hf
    have hne : led ≠ [] := by intro hc; rw [hc] at hp; simp at hp
    obtain ⟨f1, f2, f3⟩ := d.first hne
    have hp3 := f3 p hp
    have hne0 : (B 0).entryIdx ≠ 0 := by
      intro hc
      rw [used, hc] at f2
      simp at f2
    obtain ⟨x, hx⟩ := hcons 0 hne0
    have hn0 : 0 < n := by
      rcases Nat.eq_zero_or_pos n with hc | hc
      · exfalso
        have hs : syncedFor led p.1 ≠ [] := by
          cases led with
          | nil => exact absurd rfl hne
          | cons a rest =>
            simp only [List.head?_cons, Option.some.injEq] at hp
            subst hp
            obtain ⟨y, hy⟩ := hp3
            simp only [syncedFor, List.filter_cons, decide_true, if_true, List.flatMap_cons]
            rw [← hy, hx]; simp
        have hks := d.has p.1 hs
        obtain ⟨k, hk⟩ := List.exists_mem_of_ne_nil _ hks
        have := d.known p.1 k hk
        omega
      · exact hc
    have hs : ∃ r, syncedFor led p.1 = (B 0).entries.headD .zero :: r := by
      cases led with
      | nil => exact absurd rfl hne
      | cons a rest =>
        simp only [List.head?_cons, Option.some.injEq] at hp
        subst hp
        obtain ⟨y, hy⟩ := hp3
        simp only [syncedFor, List.filter_cons, decide_true, if_true, List.flatMap_cons]
        rw [← hy, hx]; exact ⟨_, rfl⟩
    obtain ⟨r, hs⟩ := hs
    have hnm := hfirst p.1 _ r hs
    have h0 : T.lookup p.1 = some (winOff 0) := by
      rw [hT, blockIterator, if_pos (by rw [d.len]; omega), hdiv, List.range_eq_range', List.range'_succ, iterBlocks]
      rw [hread 0 hn0]
      dsimp only
      rw [if_neg (by rintro (hc | hc); exacts [hne0 hc, hc f1]), loadOffsets, hnm, d.zero p hp]
      dsimp only
      refine loadOffsets_keep _ _ _ ?_
      simp
    rw [h2, h0]
    rfl
  have hW : WinOK ⟨s.winFile, offsOf (Trie.ofTopics ops), newWindowWriter s.winFile⟩ led :=
    WinOK.reopen (s := ⟨s.winFile, offsOf s.trie, w⟩) H (fun h hf => (hoff h hf).1) (fun h hf => by rw [offsOf, hzero h hf]; rfl)
  have hall : ∀ i ∈ D, ((Trie.ofTopics ops).getOffset i.hash).isSome := by
    intro i hi
    by_cases hf : led.head?.map (·.1) = some i.hash
    · rw [hzero _ hf]; rfl
    · exact (hoff _ hf).2 (List.ne_nil_of_mem (List.mem_filter.2 ⟨hi, by simp⟩))
  have he := ofTopics_addAll D hall
  refine ⟨ops ++ D.map fun i => .add i.contract i.topic 0, by rw [he]; exact h1, by rw [he]; exact hW, ?_, ?_⟩
  · intro i hi
    exact ⟨0, List.mem_append_right _ (List.mem_map.2 ⟨i, hi, rfl⟩)⟩
  · intro c key off hop
    rcases List.mem_append.1 hop with hop | hop
    · obtain ⟨i, hi, _, he⟩ := h3 _ hop
      cases he
      exact ⟨i, hi, rfl, rfl⟩
    · obtain ⟨i, hi, he⟩ := List.mem_map.1 hop
      cases he
      exact ⟨i, hi, rfl, rfl⟩

end Verif
