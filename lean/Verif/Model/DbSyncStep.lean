import Verif.Model.DbSteps

/-!
# The invariant of a running database is kept by a sync
-/

namespace Verif

/-! ## Pieces -/

theorem newRecs_new (rs : List Rec) : ∀ known : List UInt64, (rs.map (·.seq)).Nodup → (∀ r ∈ rs, r.seq ∉ known) → newRecs known rs = rs := by
  induction rs with
  | nil => intro _ _ _; rfl
  | cons r rs ih =>
    intro known hn hk
    rw [List.map_cons, List.nodup_cons] at hn
    rw [newRecs, if_neg (hk r List.mem_cons_self), ih _ hn.2]
    intro x hx hc
    rcases List.mem_append.1 hc with hc | hc
    · exact hk x (List.mem_cons_of_mem _ hx) hc
    · rw [List.mem_singleton] at hc
      exact hn.1 (hc ▸ List.mem_map_of_mem hx)

/-- Records none of which is stored yet are all appended. -/
theorem appendNew_new (rs : List (EntryHdr × Rec)) (hok : ∀ r ∈ rs, r.2.OK) :
    ∀ {s : Store} {w : Writer} {L : Loc} {freed : List UInt64}, EInv s w L freed → (rs.map (·.2.seq)).Nodup → (∀ r ∈ rs, r.2.seq ∉ L.map (·.1.seq)) →
    ∃ s' w', appendNew s w rs = some (s', w', rs) ∧ appendAll s w (rs.map (·.2)) = some (s', w') := by
  induction rs with
  | nil => intro s w L freed h _ _; exact ⟨s, w, rfl, rfl⟩
  | cons r rs ih =>
    intro s w L freed h hn hk
    rw [List.map_cons, List.nodup_cons] at hn
    obtain ⟨off, s1, w1, h1, h2, _⟩ := append_new h (hok r List.mem_cons_self) (hk r List.mem_cons_self)
    obtain ⟨s2, w2, h3, h4⟩ := ih (fun x hx => hok x (List.mem_cons_of_mem _ hx)) h2 hn.2 (by
      intro x hx hc
      rw [List.map_append, List.mem_append] at hc
      rcases hc with hc | hc
      · exact hk x (List.mem_cons_of_mem _ hx) hc
      · simp only [List.map_cons, List.map_nil, List.mem_singleton] at hc
        exact hn.1 (hc ▸ List.mem_map_of_mem hx))
    refine ⟨s2, w2, ?_, ?_⟩
    · simp only [appendNew, h1, h3, Option.map_some]
    · simp only [List.map_cons, appendAll, h1, h4]

/-- What `groupWin` collects. -/
theorem groupWin_spec (hs : List (EntryHdr × Rec)) : AMap.Nodup (groupWin hs) ∧
    (∀ h, ((groupWin hs).get h).getD [] = (hs.filter fun x => x.1.topicHash = h).map fun x => ⟨x.1.seq, x.1.expiresAt⟩) ∧
    (∀ h es, (groupWin hs).get h = some es → es ≠ []) := by
  suffices ∀ (m : AMap UInt64 (List WinEntry)), AMap.Nodup m → (∀ h es, m.get h = some es → es ≠ []) →
      AMap.Nodup (hs.foldl (fun m h => m.set h.1.topicHash ((m.get h.1.topicHash).getD [] ++ [⟨h.1.seq, h.1.expiresAt⟩])) m) ∧
      (∀ h, ((hs.foldl (fun m h => m.set h.1.topicHash ((m.get h.1.topicHash).getD [] ++ [(⟨h.1.seq, h.1.expiresAt⟩ : WinEntry)])) m).get h).getD [] =
        (m.get h).getD [] ++ (hs.filter fun x => x.1.topicHash = h).map fun x => ⟨x.1.seq, x.1.expiresAt⟩) ∧
      (∀ h es, (hs.foldl (fun m h => m.set h.1.topicHash ((m.get h.1.topicHash).getD [] ++ [(⟨h.1.seq, h.1.expiresAt⟩ : WinEntry)])) m).get h = some es → es ≠ []) by
    have := this [] AMap.Nodup.nil (by simp)
    simpa [groupWin] using this
  induction hs with
  | nil => intro m hn hne; exact ⟨hn, by simp, hne⟩
  | cons x hs ih =>
    intro m hn hne
    rw [List.foldl_cons]
    obtain ⟨a, b, c⟩ := ih (m.set x.1.topicHash ((m.get x.1.topicHash).getD [] ++ [⟨x.1.seq, x.1.expiresAt⟩])) (hn.set _ _) (by
      intro h es hg
      rw [AMap.get_set] at hg
      split at hg
      · simp only [Option.some.injEq] at hg; rw [← hg]; simp
      · exact hne h es hg)
    refine ⟨a, ?_, c⟩
    intro h
    rw [b h, AMap.get_set]
    by_cases e : h = x.1.topicHash
    · subst e
      rw [if_pos rfl, List.filter_cons, if_pos (by simp)]
      simp
    · rw [if_neg e, List.filter_cons, if_neg (by simpa using Ne.symm e)]

theorem syncedFor_map (b : AMap UInt64 (List WinEntry)) (hn : AMap.Nodup b) (h : UInt64) : syncedFor b h = (b.get h).getD [] := by
  induction b with
  | nil => rfl
  | cons p b ih =>
    obtain ⟨k, es⟩ := p
    have hn' := List.nodup_cons.1 hn
    have ih := ih hn'.2
    simp only [syncedFor, List.filter_cons, AMap.get] at ih ⊢
    by_cases e : k = h
    · subst e
      simp only [decide_true, if_true, List.flatMap_cons, Option.getD_some]
      have : (List.filter (fun p : UInt64 × List WinEntry => decide (p.1 = k)) b) = [] := by
        rw [List.filter_eq_nil_iff]
        intro p hp hc
        have : p.1 = k := by simpa using hc
        exact hn'.1 (List.mem_map.2 ⟨p, hp, this⟩)
      rw [this]; simp
    · simp only [e, decide_false, Bool.false_eq_true, if_false]
      exact ih

theorem syncedFor_append_list (led b : List (UInt64 × List WinEntry)) (h : UInt64) : syncedFor (led ++ b) h = syncedFor led h ++ syncedFor b h := by
  simp [syncedFor]

theorem winOff_bounds (k : Nat) : -2 ^ 31 ≤ winOff k ∧ winOff k < 2 ^ 31 := by
  unfold winOff
  exact ⟨Int32.le_toInt _, Int32.toInt_lt _⟩

theorem append_off {w w' : WinWriter} {file : Bytes} {now : Int64} {h : UInt64} {off off' : Int} {es : List WinEntry}
    (ha : w.append file now h off es = some (w', off')) : (Int64.ofInt off').toInt = off' := by
  simp only [WinWriter.append, Option.bind_eq_bind, Option.bind_eq_some_iff] at ha
  obtain ⟨_, _, ⟨_, k2, _⟩, _, h3⟩ := ha
  cases h3
  have := winOff_bounds k2
  exact Int64.toInt_ofInt_of_le (by simp only; omega) (by simp only; omega)

theorem ofTopics_setOffset (ops : List TopicOp) (hash : UInt64) (off : Int64) :
    (Trie.ofTopics ops).setOffset ⟨hash, off⟩ = Trie.ofTopics (ops ++ [.setOffset ⟨hash, off⟩]) ∧
    ∀ h, (Trie.ofTopics (ops ++ [.setOffset ⟨hash, off⟩])).getOffset h = if h = hash then ((Trie.ofTopics ops).getOffset h).map fun _ => off else (Trie.ofTopics ops).getOffset h := by
  have e1 : (Trie.ofTopics ops).setOffset ⟨hash, off⟩ = Trie.ofTopics (ops ++ [.setOffset ⟨hash, off⟩]) := by
    simp only [Trie.ofTopics, Trie.run, List.map_append, List.foldl_append, List.map_cons, List.map_nil, List.foldl_cons, List.foldl_nil]
    rfl
  refine ⟨e1, ?_⟩
  rw [← e1]
  exact TrieInv.getOffset_set (trieInv_run (ops.map TopicOp.toTrie)) ⟨hash, off⟩

/-- Appending the window entries through the trie. -/
theorem appendWins_eq (now : Int64) (file : Bytes) (batch : List (UInt64 × List WinEntry)) :
    ∀ (ops : List TopicOp) (ww : WinWriter) (s' : WinState), (∀ p ∈ batch, ((Trie.ofTopics ops).getOffset p.1).isSome) →
    WinState.appendAll now batch ⟨file, offsOf (Trie.ofTopics ops), ww⟩ = some s' →
    ∃ ts : List TTopic, appendWins now file batch (Trie.ofTopics ops) ww = some (Trie.ofTopics (ops ++ ts.map TopicOp.setOffset), s'.w) ∧
      s' = ⟨file, offsOf (Trie.ofTopics (ops ++ ts.map TopicOp.setOffset)), s'.w⟩ := by
  induction batch with
  | nil =>
    intro ops ww s' _ h
    simp only [WinState.appendAll, Option.some.injEq] at h
    subst h
    exact ⟨[], by simp [appendWins], by simp⟩
  | cons p rest ih =>
    intro ops ww s' hk h
    obtain ⟨hash, es⟩ := p
    rw [WinState.appendAll] at h
    split at h
    · cases h
    · next w off ha =>
      have hkn := hk (hash, es) List.mem_cons_self
      obtain ⟨o, ho⟩ := Option.isSome_iff_exists.mp hkn
      simp only at ho
      have hoff : offsOf (Trie.ofTopics ops) hash = o.toInt := by simp only [offsOf, ho, Option.getD_some]
      obtain ⟨e1, hset⟩ := ofTopics_setOffset ops hash (Int64.ofInt off)
      have e2 : Function.update (offsOf (Trie.ofTopics ops)) hash off = offsOf (Trie.ofTopics (ops ++ [.setOffset ⟨hash, Int64.ofInt off⟩])) := by
        funext h'
        by_cases e : h' = hash
        · subst e
          rw [Function.update_self]
          simp only [offsOf, hset, if_true, ho, Option.map_some, Option.getD_some]
          exact (append_off ha).symm
        · rw [Function.update_of_ne e]
          simp only [offsOf, hset, if_neg e]
      have hr : WinState.appendAll now rest ⟨file, Function.update (offsOf (Trie.ofTopics ops)) hash off, w⟩ = some s' := h
      rw [e2] at hr
      have hk' : ∀ p ∈ rest, ((Trie.ofTopics (ops ++ [.setOffset ⟨hash, Int64.ofInt off⟩])).getOffset p.1).isSome := by
        intro p hp
        have h0 := hk p (List.mem_cons_of_mem _ hp)
        generalize Trie.ofTopics (ops ++ [.setOffset ⟨hash, Int64.ofInt off⟩]) = T at hset ⊢
        rw [hset p.1]
        split
        · rw [Option.isSome_map]; exact h0
        · exact h0
      obtain ⟨ops', ho'⟩ : ∃ x, x = ops ++ [TopicOp.setOffset ⟨hash, Int64.ofInt off⟩] := ⟨_, rfl⟩
      rw [← ho'] at hr hk' e1
      have h3 := ih ops' w s' hk' hr
      obtain ⟨ts, h1, h2⟩ := h3
      have e3 : ops ++ List.map TopicOp.setOffset (⟨hash, Int64.ofInt off⟩ :: ts) = ops' ++ List.map TopicOp.setOffset ts := by rw [ho']; simp
      refine ⟨⟨hash, Int64.ofInt off⟩ :: ts, ?_, ?_⟩
      · rw [e3, ← h1]
        simp only [hoff] at ha
        simp only [appendWins, ho, Option.bind_eq_bind, Option.bind_some, ha, e1]
      · rw [e3]; exact h2

theorem get_releaseWindow (w : AMap (Int × UInt64) (List WinEntry)) (t t' : Int) (h : UInt64) :
    AMap.get (w.filter fun p => p.1.1 ≠ t) (t', h) = if t' = t then none else AMap.get w (t', h) := by
  induction w with
  | nil => simp
  | cons p w ih =>
    obtain ⟨⟨k1, k2⟩, es⟩ := p
    rw [List.filter_cons]
    by_cases e : k1 = t
    · subst e
      rw [if_neg (by simp), ih]
      by_cases e2 : t' = k1
      · simp [e2]
      · rw [if_neg e2, if_neg e2]
        simp only [AMap.get]
        rw [if_neg (by simp [Ne.symm e2])]
    · rw [if_pos (by simpa using e)]
      simp only [AMap.get]
      by_cases e2 : (k1, k2) = (t', h)
      · rw [if_pos e2, if_pos e2]
        have : k1 = t' := congrArg Prod.fst e2
        rw [if_neg (this ▸ e)]
      · rw [if_neg e2, if_neg e2, ih]

/-! ## The records of a block -/

variable {v : DbEnv} {s : Db} {U D : List Item} {L : Loc} {led : List (UInt64 × List WinEntry)}

/-- The messages of a time block, lowest sequence first. -/
def itemsOf (U : List Item) (t : Int) : List Item := (U.filter fun i => i.blk = t).insertionSort fun a b => a.seq ≤ b.seq

theorem itemsOf_perm (U : List Item) (t : Int) : (itemsOf U t).Perm (U.filter fun i => i.blk = t) := List.perm_insertionSort _ _

theorem mem_itemsOf {U : List Item} {t : Int} {i : Item} : i ∈ itemsOf U t ↔ i ∈ U ∧ i.blk = t := by
  rw [(itemsOf_perm U t).mem_iff, List.mem_filter]; simp

theorem DbKnown.keys {K : Item → Prop} (I : DbKnown K v s U D L led) (t : Int) : s.mem.blockKeys t = (itemsOf U t).map Item.seq := by
  have hU : (U.map Item.seq).Nodup := by
    have := I.nodup; rw [List.map_append] at this; exact (List.nodup_append.1 this).1
  have hperm := itemsOf_perm U t
  have hnodup : ((itemsOf U t).map Item.seq).Nodup :=
    ((hperm.map Item.seq).nodup_iff).2 (List.Nodup.sublist (List.Sublist.map _ List.filter_sublist) hU)
  have hmem : ∀ q, q ∈ (itemsOf U t).map Item.seq ↔ s.mem.Where t q := by
    intro q
    rw [I.blk t q, List.mem_map]
    constructor
    · rintro ⟨i, hi, rfl⟩
      obtain ⟨h1, h2⟩ := mem_itemsOf.1 hi
      exact ⟨i, h1, h2, rfl⟩
    · rintro ⟨i, h1, h2, rfl⟩
      exact ⟨i, mem_itemsOf.2 ⟨h1, h2⟩, rfl⟩
  unfold MemDb.blockKeys
  cases hb : s.mem.blocks.get t with
  | none =>
    simp only
    cases hi : (itemsOf U t).map Item.seq with
    | nil => rfl
    | cons q l =>
      obtain ⟨a, ha, _⟩ := (hmem q).1 (by rw [hi]; exact List.mem_cons_self)
      rw [hb] at ha; cases ha
  | some a =>
    simp only
    have hok := I.mem.okb t a hb
    have hkn : (((s.mem.at a).records.filter (!·.1.del)).map (·.1.key)).Nodup := by
      have h1 : ((s.mem.at a).records.filter (!·.1.del)).Pairwise fun p p' => p.1 ≠ p'.1 := by
        have := hok.nodup
        simp only [AMap.Nodup, AMap.keys, List.Nodup, List.pairwise_map] at this
        exact this.filter _
      rw [List.Nodup, List.pairwise_map]
      refine h1.imp_of_mem ?_
      intro p p' hp hp' hne hk
      rw [List.mem_filter] at hp hp'
      have h2 : p.1.del = false := by simpa using hp.2
      have h3 : p'.1.del = false := by simpa using hp'.2
      apply hne
      cases hx : p.1; cases hy : p'.1
      simp_all
    have hkm : ∀ q, q ∈ ((s.mem.at a).records.filter (!·.1.del)).map (·.1.key) ↔ s.mem.Where t q := by
      intro q
      simp only [MemDb.Where, hb, Option.some.injEq, exists_eq_left', MemDb.holds]
      rw [List.mem_map]
      constructor
      · rintro ⟨⟨⟨d, k⟩, off⟩, hp, rfl⟩
        rw [List.mem_filter] at hp
        have h2 : d = false := by simpa using hp.2
        subst h2
        rw [hok.nodup.get_of_mem hp.1]; rfl
      · intro h
        obtain ⟨off, ho⟩ := Option.isSome_iff_exists.mp h
        exact ⟨(⟨false, q⟩, off), List.mem_filter.2 ⟨AMap.mem_of_get _ ho, rfl⟩, rfl⟩
    have hp2 : (((s.mem.at a).records.filter (!·.1.del)).map (·.1.key)).Perm ((itemsOf U t).map Item.seq) :=
      (List.perm_ext_iff_of_nodup hkn hnodup).2 fun q => (hkm q).trans (hmem q).symm
    have ht : Std.Total (fun a b : UInt64 => a ≤ b) := ⟨UInt64.le_total⟩
    have hr : IsTrans UInt64 (fun a b => a ≤ b) := ⟨fun a b c h1 h2 => UInt64.le_trans h1 h2⟩
    have ht' : Std.Total (fun a b : Item => a.seq ≤ b.seq) := ⟨fun a b => UInt64.le_total _ _⟩
    have hr' : IsTrans Item (fun a b => a.seq ≤ b.seq) := ⟨fun a b c h1 h2 => UInt64.le_trans h1 h2⟩
    refine List.Perm.eq_of_pairwise ?_ (List.pairwise_insertionSort (· ≤ ·) _) ?_ ((List.perm_insertionSort _ _).trans hp2)
    · intro a b _ _ h1 h2; exact UInt64.le_antisymm h1 h2
    · rw [List.pairwise_map]
      exact List.pairwise_insertionSort (fun a b : Item => a.seq ≤ b.seq) _

theorem DbKnown.recs {K : Item → Prop} (I : DbKnown K v s U D L led) (t : Int) : s.mem.blockRecs t = some ((itemsOf U t).map fun i => (i.hdr, i.stored)) := by
  have hU : (U.map Item.seq).Nodup := by
    have := I.nodup; rw [List.map_append] at this; exact (List.nodup_append.1 this).1
  rw [MemDb.blockRecs, I.keys t, List.mapM_map]
  refine mapM_some _ _ _ ?_
  intro i hi
  obtain ⟨h1, h2⟩ := mem_itemsOf.1 hi
  obtain ⟨a, ha, hh⟩ := (I.blk t i.seq).2 ⟨i, h1, h2, rfl⟩
  obtain ⟨off, ho⟩ := Option.isSome_iff_exists.mp hh
  obtain ⟨d, hd, hr⟩ := I.mem.value ha ho
  rw [memMap, find_seq hU h1] at hd
  simp only [Option.map_some, Option.some.injEq] at hd
  simp only [Function.comp, MemDb.lookup, I.mem.opened, Bool.false_eq_true, if_false, ha, ho, hr, ← hd]
  exact Item.mrec

/-! ## How many window blocks a block of messages may need -/

theorem sum_del (m : AMap UInt64 (List WinEntry)) (hn : AMap.Nodup m) (k : UInt64) :
    (m.map fun p => p.2.length).sum = ((m.get k).getD []).length + ((m.del k).map fun p => p.2.length).sum := by
  induction m with
  | nil => rfl
  | cons p m ih =>
    obtain ⟨k', es⟩ := p
    have hn' := List.nodup_cons.1 hn
    have ih := ih hn'.2
    simp only [AMap.del, List.filter_cons, AMap.get, List.map_cons, List.sum_cons] at ih ⊢
    by_cases e : k' = k
    · subst e
      have h0 : AMap.get m k' = none := by
        cases hg : AMap.get m k' with
        | none => rfl
        | some x => exact absurd (List.mem_map.2 ⟨_, AMap.mem_of_get _ hg, rfl⟩) hn'.1
      rw [h0] at ih
      simp only [Option.getD_none, List.length_nil, Nat.zero_add] at ih
      simp only [if_true, Option.getD_some, ne_eq, not_true_eq_false, decide_false, Bool.false_eq_true, if_false]
      rw [ih]
    · simp only [e, if_false, ne_eq, not_false_eq_true, decide_true, if_true, List.map_cons, List.sum_cons]
      simp only [ne_eq] at ih
      omega

theorem groupWin_sum (hs : List (EntryHdr × Rec)) : ((groupWin hs).map fun p => p.2.length).sum = hs.length := by
  suffices ∀ (m : AMap UInt64 (List WinEntry)), AMap.Nodup m →
      ((hs.foldl (fun m h => m.set h.1.topicHash ((m.get h.1.topicHash).getD [] ++ [(⟨h.1.seq, h.1.expiresAt⟩ : WinEntry)])) m).map fun p => p.2.length).sum =
        (m.map fun p => p.2.length).sum + hs.length by
    have := this [] AMap.Nodup.nil
    simpa [groupWin] using this
  induction hs with
  | nil => intro m _; simp
  | cons x hs ih =>
    intro m hn
    rw [List.foldl_cons, ih _ (hn.set _ _)]
    rw [sum_del m hn x.1.topicHash]
    simp only [AMap.set, List.map_cons, List.sum_cons, List.length_append, List.length_nil, List.length_cons]
    omega

theorem groupWin_room (hs : List (EntryHdr × Rec)) {b : List (UInt64 × List WinEntry)} (hb : b.Perm (groupWin hs)) :
    (b.map fun p => p.2.length + 1).sum ≤ 2 * hs.length := by
  rw [(hb.map _).sum_eq, ← groupWin_sum hs]
  have hne : ∀ p ∈ groupWin hs, 1 ≤ p.2.length := by
    intro p hp
    obtain ⟨h1, _, h3⟩ := groupWin_spec hs
    exact List.length_pos_iff.2 (h3 p.1 p.2 (h1.get_of_mem hp))
  generalize groupWin hs = m at hne
  induction m with
  | nil => simp
  | cons p m ih =>
    have h1 := hne p List.mem_cons_self
    have h2 := ih fun q hq => hne q (List.mem_cons_of_mem _ hq)
    simp only [List.map_cons, List.sum_cons]
    omega

theorem perm_get {b m : AMap UInt64 (List WinEntry)} (hb : b.Perm m) (hn : AMap.Nodup m) (h : UInt64) : AMap.get b h = AMap.get m h := by
  have hn' : AMap.Nodup b := ((hb.map fun p : UInt64 × List WinEntry => p.1).nodup_iff).2 hn
  cases hg : AMap.get m h with
  | some es => exact hn'.get_of_mem (hb.mem_iff.2 (AMap.mem_of_get _ hg))
  | none =>
    cases hg' : AMap.get b h with
    | none => rfl
    | some es => rw [hn.get_of_mem (hb.mem_iff.1 (AMap.mem_of_get _ hg'))] at hg; cases hg

theorem known_isSome (ops : List TopicOp) {c : UInt32} {key : Bytes} {off : Int64} (h : TopicOp.add c key off ∈ ops) :
    ((Trie.ofTopics ops).getOffset (topicHash c key)).isSome := by
  have hI := trieInv_run (ops.map TopicOp.toTrie)
  have h1 : TopicOp.toTrie (.add c key off) ∈ ops.map TopicOp.toTrie := List.mem_map_of_mem h
  obtain ⟨a, ha, he⟩ := hash_mem_trieRun _ _ _ _ h1
  exact (TrieInv.getOffset_isSome (s := Trie.ofTopics ops) hI _).2 (List.mem_map.2 ⟨a, ha, he⟩)

/-! ## One time block -/

/-- What a sync needs of its writers. -/
structure Syncing (s : Db) (h : Handle) (L : Loc) (led : List (UInt64 × List WinEntry)) : Prop where
  writer : EInv s.store h.w L []
  empty : h.w.buffer = []
  windows : WinOK ⟨s.winFile, offsOf s.trie, h.ww⟩ led
  unread : s.mem.qblocks = []

theorem split_perm (U D : List Item) (t : Int) : ((U.filter fun i => i.blk ≠ t) ++ (D ++ itemsOf U t)).Perm (U ++ D) := by
  have h1 : (U.filter (fun i => decide (i.blk = t)) ++ U.filter (fun i => !decide (i.blk = t))).Perm U := List.filter_append_perm _ U
  have h2 := itemsOf_perm U t
  have e : (U.filter fun i => decide (i.blk ≠ t)) = U.filter (fun i => !decide (i.blk = t)) := by
    congr 1; funext i; simp
  rw [e]
  refine List.Perm.trans ?_ (h1.append_right D)
  have h3 : (D ++ itemsOf U t).Perm (U.filter (fun i => decide (i.blk = t)) ++ D) := List.perm_append_comm.trans (h2.append_right D)
  refine (h3.append_left _).trans ?_
  rw [← List.append_assoc]
  exact List.perm_append_comm.append_right D

theorem DbKnown.memMap_release {K : Item → Prop} (I : DbKnown K v s U D L led) (t : Int) (q : UInt64) :
    (s.mem.Where t q → memMap (U.filter fun i => i.blk ≠ t) q = none) ∧
    (¬ s.mem.Where t q → memMap (U.filter fun i => i.blk ≠ t) q = memMap U q) := by
  have hU : (U.map Item.seq).Nodup := by
    have := I.nodup; rw [List.map_append] at this; exact (List.nodup_append.1 this).1
  rw [I.blk t q]
  constructor
  · rintro ⟨i, hi, h1, h2⟩
    rw [memMap, Option.map_eq_none_iff, List.find?_eq_none]
    intro j hj hc
    rw [List.mem_filter] at hj
    have h3 : j.blk ≠ t := by simpa using hj.2
    have h4 : j.seq = q := by simpa using hc
    have := seq_inj hU hj.1 hi (h4.trans h2.symm)
    exact h3 (this ▸ h1)
  · intro hn
    simp only [memMap]
    congr 1
    cases hf : U.find? fun i => i.seq = q with
    | none =>
      rw [List.find?_eq_none] at hf ⊢
      intro j hj
      exact hf j (List.mem_filter.1 hj).1
    | some i =>
      have h1 := List.mem_of_find?_eq_some hf
      have h2 : i.seq = q := by simpa using List.find?_some hf
      have h3 : i.blk ≠ t := fun hc => hn ⟨i, h1, hc, h2⟩
      have h4 : i ∈ U.filter fun i => i.blk ≠ t := List.mem_filter.2 ⟨h1, by simpa using h3⟩
      rw [← h2]
      exact find_seq (List.Nodup.sublist (List.Sublist.map _ List.filter_sublist) hU) h4

theorem DbKnown.syncBlock {K : Item → Prop} (I : DbKnown K v s U D L led) {h : Handle} (S : Syncing s h L led) {e : SyncEnv} (hnow : 0 ≤ e.now.toInt)
    (hord : ∀ m, (e.order m).Perm m) {t : Int} (ht : t ≠ s.mem.cur) (hK : ∀ i ∈ itemsOf U t, K i)
    (hroom : h.ww.windowIdx + 2 * ((itemsOf U t).length : Nat) ≤ 524286) :
    ∃ s' h' L' b, s.syncBlock e h t = some (s', h') ∧ DbKnown K v s' (U.filter fun i => i.blk ≠ t) (D ++ itemsOf U t) (L ++ L') (led ++ b) ∧
      Syncing s' h' (L ++ L') (led ++ b) ∧ s'.mem.cur = s.mem.cur ∧ h'.ww.windowIdx ≤ h.ww.windowIdx + 2 * ((itemsOf U t).length : Nat) ∧
      s'.mem.mark.released ⊆ s.mem.mark.released ∧ s'.seq = s.seq := by
  have hrecs := I.recs t
  rcases hits : itemsOf U t with _ | ⟨i0, rest⟩
  · -- nothing to do
    rw [hits] at hrecs
    refine ⟨s, h, [], [], ?_, ?_, ?_, rfl, by simp, List.Subset.refl _, rfl⟩
    · simp only [Db.syncBlock, hrecs, List.map_nil, Option.bind_eq_bind, Option.bind_some, if_true]; rfl
    · have hU' : (U.filter fun i => i.blk ≠ t) = U := by
        rw [List.filter_eq_self]
        intro i hi
        have : i ∉ itemsOf U t := by rw [hits]; simp
        rw [mem_itemsOf] at this
        simpa using fun hc => this ⟨hi, hc⟩
      rw [hU']
      simpa using I
    · simpa using S
  rw [← hits]
  have hi0 : i0 ∈ U ∧ i0.blk = t := mem_itemsOf.1 (by rw [hits]; exact List.mem_cons_self)
  have hne : (itemsOf U t).map (fun i => (i.hdr, i.stored)) ≠ [] := by rw [hits]; simp
  generalize hits' : itemsOf U t = its at *
  have hmem : ∀ i ∈ its, i ∈ U ∧ i.blk = t := fun i hi => mem_itemsOf.1 (hits' ▸ hi)
  have hok : ∀ i ∈ its, i.OK v := fun i hi => I.ok i (List.mem_append_left _ (hmem i hi).1)
  have hperm := split_perm U D t
  rw [hits'] at hperm
  have hnod : (((U.filter fun i => i.blk ≠ t) ++ (D ++ its)).map Item.seq).Nodup := ((hperm.map _).nodup_iff).2 I.nodup
  have hnodD : ((D ++ its).map Item.seq).Nodup := by
    rw [List.map_append] at hnod; exact (List.nodup_append.1 hnod).2.1
  have hLseq : L.map (·.1.seq) = D.map Item.seq := by
    have := congrArg (List.map Rec.seq) I.stored
    simpa [List.map_map, Function.comp_def, Item.stored] using this
  have hnodI : (its.map Item.seq).Nodup := by
    rw [List.map_append] at hnodD; exact (List.nodup_append.1 hnodD).2.1
  have hdisj : ∀ i ∈ its, i.seq ∉ L.map (·.1.seq) := by
    intro i hi hc
    rw [hLseq] at hc
    rw [List.map_append] at hnodD
    exact (List.nodup_append.1 hnodD).2.2 _ hc _ (List.mem_map_of_mem hi) rfl
  -- the data and index files
  obtain ⟨rs, hrs⟩ : ∃ rs, rs = its.map fun i => (i.hdr, i.stored) := ⟨_, rfl⟩
  rw [← hrs] at hrecs hne
  have hrs2 : rs.map (·.2) = its.map Item.stored := by rw [hrs, List.map_map]; rfl
  have hrsok : ∀ r ∈ rs, r.2.OK := by
    intro r hr
    rw [hrs, List.mem_map] at hr
    obtain ⟨i, hi, rfl⟩ := hr
    exact (Item.storable (hok i hi)).ok
  have hrseq : rs.map (·.2.seq) = its.map Item.seq := by rw [hrs, List.map_map]; rfl
  have hrsnew : ∀ r ∈ rs, r.2.seq ∉ L.map (·.1.seq) := by
    intro r hr
    rw [hrs, List.mem_map] at hr
    obtain ⟨i, hi, rfl⟩ := hr
    exact hdisj i hi
  obtain ⟨st1, w1, ha1, ha2⟩ := appendNew_new rs hrsok S.writer (hrseq ▸ hnodI) hrsnew
  obtain ⟨st2, w2, L', hb1, hb2, hb3, hb4, ⟨nf, hb5⟩, _⟩ := syncRound_spec S.writer (rs.map (·.2)) (by
    intro r hr
    rw [List.mem_map] at hr
    obtain ⟨x, hx, rfl⟩ := hr
    exact hrsok x hx)
  rw [newRecs_new (rs.map (·.2)) _ (by rw [List.map_map]; exact hrseq ▸ hnodI) (by
    intro r hr
    rw [List.mem_map] at hr
    obtain ⟨x, hx, rfl⟩ := hr
    exact hrsnew x hx), hrs2] at hb4
  -- the window file
  obtain ⟨b, hbd⟩ : ∃ b, b = e.order (groupWin rs) := ⟨_, rfl⟩
  have hbp : b.Perm (groupWin rs) := hbd ▸ hord _
  obtain ⟨gn, gg, gne⟩ := groupWin_spec rs
  have hget : ∀ x, ((groupWin rs).get x).getD [] = (its.filter fun i => i.hash = x).map Item.win := by
    intro x
    rw [gg x, hrs, List.filter_map, List.map_map]
    rfl
  have hbmem : ∀ p ∈ b, p.2 ≠ [] ∧ p.2 = (its.filter fun i => i.hash = p.1).map Item.win := by
    intro p hp
    have h1 := gn.get_of_mem (k := p.1) (v := p.2) (hbp.mem_iff.1 hp)
    refine ⟨gne _ _ h1, ?_⟩
    have := hget p.1
    rw [h1] at this
    exact this
  have hblen := groupWin_room rs hbp
  have hrl : rs.length = its.length := by rw [hrs, List.length_map]
  obtain ⟨ws, hw1, hw2, hw3, hw4⟩ := WinOK.more S.windows hnow b (by
    intro p hp
    refine ⟨(hbmem p hp).1, ?_⟩
    intro x hx hz
    rw [(hbmem p hp).2, List.mem_map] at hx
    obtain ⟨i, hi, rfl⟩ := hx
    have := (hok i (List.mem_filter.1 hi).1).lo
    have hz' : i.seq = 0 := hz
    rw [hz'] at this
    simp at this) (by simp only; omega)
  obtain ⟨ops, ho1, ho2, ho3⟩ := I.trie
  rw [WinState.round] at hw1
  simp only [Option.bind_eq_bind, Option.bind_eq_some_iff] at hw1
  obtain ⟨ws1, hx1, ⟨file2, ww2⟩, hx2, hx3⟩ := hw1
  simp only [pure, Option.some.injEq] at hx3
  have hS := S.windows
  rw [ho1] at hx1
  have hknown : ∀ p ∈ b, ((Trie.ofTopics ops).getOffset p.1).isSome := by
    intro p hp
    obtain ⟨q1, q2⟩ := hbmem p hp
    rw [q2] at q1
    obtain ⟨i, hi⟩ := List.exists_mem_of_ne_nil _ (show (its.filter fun i => decide (i.hash = p.1)) ≠ [] from fun hc => q1 (by rw [hc]; rfl))
    rw [List.mem_filter] at hi
    have h4 : i.hash = p.1 := by simpa using hi.2
    obtain ⟨off, h5⟩ := ho2 i (List.mem_append_left _ (hmem i hi.1).1) (hK i hi.1)
    rw [← h4]
    exact known_isSome ops h5
  obtain ⟨ts, hy1, hy2⟩ := appendWins_eq e.now s.winFile b ops h.ww ws1 hknown hx1
  obtain ⟨T', hT'⟩ : ∃ T', T' = Trie.ofTopics (ops ++ ts.map TopicOp.setOffset) := ⟨_, rfl⟩
  rw [← hT'] at hy1 hy2
  have hws : ws = ⟨file2, offsOf T', ww2⟩ := by rw [← hx3, hy2]
  have hx2' : ws1.w.write s.winFile = some (file2, ww2) := by rw [hy2] at hx2; exact hx2
  simp only [syncRound, ha2, Option.bind_eq_bind, Option.bind_some, Option.bind_eq_some_iff] at hb1
  obtain ⟨⟨st3, w3⟩, hz1, hz2⟩ := hb1
  simp only [pure, Option.some.injEq, Prod.mk.injEq] at hz2
  obtain ⟨rfl, rfl⟩ := hz2
  have hwin0 : ∃ es, s.win.get (t, i0.hash) = some es := by
    have := I.win t i0.hash
    cases hg : s.win.get (t, i0.hash) with
    | some es => exact ⟨es, rfl⟩
    | none =>
      rw [hg, Option.getD_none] at this
      have hin : i0.win ∈ (U.filter fun i => i.blk = t ∧ i.hash = i0.hash).map Item.win :=
        List.mem_map_of_mem (List.mem_filter.2 ⟨hi0.1, by simp [hi0.2]⟩)
      rw [← this] at hin
      cases hin
  have hrel : releaseWindow s.win t = some (s.win.filter fun p => p.1.1 ≠ t) := by
    obtain ⟨es, hes⟩ := hwin0
    rw [releaseWindow, if_pos]
    rw [List.any_eq_true]
    exact ⟨_, AMap.mem_of_get _ hes, by simp⟩
  have hstep : ∃ inf ls, s.syncBlock e h t = some ({ s with store := st3, trie := T', winFile := file2, count := s.count + UInt64.ofNat its.length, lastSync := ls, info := inf, win := s.win.filter fun p => p.1.1 ≠ t, mem := (s.mem.release t).1 }, ⟨w3.reset st3, ww2⟩) := by
    simp only [Db.syncBlock, hrecs, Option.bind_eq_bind, Option.bind_some, if_neg hne, ha1, ← hbd, ho1, hy1, Db.flush, hx2', hz1, hrel, pure, hrl]
    exact ⟨_, _, rfl⟩
  obtain ⟨inf, ls, hstep⟩ := hstep
  have hU : (U.map Item.seq).Nodup := by
    have := I.nodup; rw [List.map_append] at this; exact (List.nodup_append.1 this).1
  obtain ⟨a, hta, hha⟩ := (I.blk t i0.seq).2 ⟨i0, hi0.1, hi0.2, rfl⟩
  have hW : ∀ q, s.mem.Where t q ↔ s.mem.holds a q := by
    intro q
    simp only [MemDb.Where, hta, Option.some.injEq, exists_eq_left']
  have hmem' := I.mem.release hta (memMap (U.filter fun i => i.blk ≠ t)) (by rw [S.unread]; intro hc; cases hc)
    (fun key hk => (I.memMap_release t key).1 ((hW key).2 hk)) (fun key hk => (I.memMap_release t key).2 fun hc => hk ((hW key).1 hc))
  have hsame := s.mem.release_same t
  have hd := hb2.data
  have hin : ∀ i, i ∈ (U.filter fun i => i.blk ≠ t) ++ (D ++ its) ↔ i ∈ U ++ D := fun i => hperm.mem_iff
  have hsync : ∀ x, syncedFor b x = (its.filter fun i => i.hash = x).map Item.win := by
    intro x
    have hbn : AMap.Nodup b := ((hbp.map fun p : UInt64 × List WinEntry => p.1).nodup_iff).2 gn
    rw [syncedFor_map b hbn x, perm_get hbp gn x, hget x]
  rw [hws] at hw2 hw3 hw4
  refine ⟨_, _, L', b, hstep, ?_, ?_, hsame.1, ?_, ?_, rfl⟩
  · exact {
      opened := I.opened
      ok := fun i hi => I.ok i ((hin i).1 hi)
      nodup := hnod
      seqs := fun i hi => I.seqs i ((hin i).1 hi)
      mem := hmem'.2
      ready := by
        show ((s.mem.release t).1.blocks.get (s.mem.release t).1.cur).isSome
        rw [hsame.1, hsame.2 _ (Ne.symm ht)]
        exact I.ready
      blk := by
        intro t' q
        rw [MemDb.where_release, I.blk t' q]
        constructor
        · rintro ⟨h1, i, h2, h3, h4⟩
          exact ⟨i, List.mem_filter.2 ⟨h2, by simpa [h3] using h1⟩, h3, h4⟩
        · rintro ⟨i, h2, h3, h4⟩
          rw [List.mem_filter] at h2
          exact ⟨by have := h2.2; rw [h3] at this; simpa using this, i, h2.1, h3, h4⟩
      winNodup := by
        have := I.winNodup
        simp only [AMap.Nodup, AMap.keys] at this ⊢
        exact List.Nodup.sublist (List.Sublist.map _ List.filter_sublist) this
      win := by
        intro t' x
        simp only
        rw [get_releaseWindow]
        by_cases e1 : t' = t
        · rw [if_pos e1, Option.getD_none, List.filter_filter]
          symm
          rw [List.map_eq_nil_iff, List.filter_eq_nil_iff]
          intro i _ hc
          simp only [ne_eq, Bool.and_eq_true, decide_eq_true_eq] at hc
          exact hc.2 (hc.1.1.trans e1)
        · rw [if_neg e1, I.win t' x, List.filter_filter]
          congr 1
          apply List.filter_congr
          intro i _
          by_cases e2 : i.blk = t'
          · simp [e2, e1]
          · simp [e2]
      winNe := by
        intro k es hk
        obtain ⟨t', x⟩ := k
        simp only at hk
        rw [get_releaseWindow] at hk
        split at hk
        · cases hk
        · exact I.winNe _ _ hk
      store := ⟨⟨nf, hb5⟩, ⟨by simp, hd.good, hd.sound, hd.freeIn, by
        intro p hp hpf
        have := hd.bytes p hp hpf
        rw [hb3] at this
        exact this⟩, hb2.loc, hb2.sub⟩
      stored := by rw [List.map_append, I.stored, hb4, List.map_append]
      count := by
        simp only [I.count, List.length_append, UInt64.ofNat_add]
      hist := ⟨ww2, hw2⟩
      synced := by
        intro x
        rw [syncedFor_append_list, I.synced, hsync, List.filter_append, List.map_append]
      trie := by
        refine ⟨ops ++ ts.map TopicOp.setOffset, hT', ?_, ?_⟩
        · intro i hi hk
          obtain ⟨off, ho⟩ := ho2 i ((hin i).1 hi) hk
          exact ⟨off, List.mem_append_left _ ho⟩
        · intro c key off ho
          rcases List.mem_append.1 ho with ho | ho
          · obtain ⟨i, h1, h2⟩ := ho3 c key off ho
            exact ⟨i, (hin i).2 h1, h2⟩
          · rw [List.mem_map] at ho
            obtain ⟨x, _, hx⟩ := ho
            cases hx }
  · exact ⟨hb2, hb3, hw2, by show (s.mem.release t).1.qblocks = []; rw [MemDb.release_qblocks, S.unread]⟩
  · simp only at hw3 ⊢; omega
  · show (s.mem.release t).1.mark.released ⊆ _
    simp only [MemDb.release, hta, TimeMark.unref, AMap.del]
    exact List.filter_subset_self _

/-! ## A whole sync -/

/-- The messages a sync of the blocks `ts` stores, in their order. -/
def syncItems : List Item → List Int → List Item
  | _, [] => []
  | U, t :: ts => itemsOf U t ++ syncItems (U.filter fun i => i.blk ≠ t) ts

/-- The messages in memory, as the window entries count them. -/
def Db.pending (s : Db) : Nat := (s.win.map fun p => p.2.length).sum

theorem sum_count {κ : Type} [DecidableEq κ] (f : Item → κ) (U : List Item) : ∀ (ks : List κ), ks.Nodup → (∀ i ∈ U, f i ∈ ks) →
    (ks.map fun k => (U.filter fun i => f i = k).length).sum = U.length := by
  induction U with
  | nil => intro ks _ _; simp
  | cons u U ih =>
    intro ks hn hk
    have h1 := ih ks hn fun i hi => hk i (List.mem_cons_of_mem _ hi)
    have h2 := hk u List.mem_cons_self
    suffices ∀ (ks : List κ), ks.Nodup → (ks.map fun k => ((u :: U).filter fun i => f i = k).length).sum =
        (ks.map fun k => (U.filter fun i => f i = k).length).sum + if f u ∈ ks then 1 else 0 by
      rw [this ks hn, h1, if_pos h2, List.length_cons]
    intro ks hn
    clear h1 h2 hk
    induction ks with
    | nil => simp
    | cons k ks ih2 =>
      rw [List.nodup_cons] at hn
      rw [List.map_cons, List.sum_cons, ih2 hn.2, List.map_cons, List.sum_cons, List.filter_cons]
      by_cases e : f u = k
      · subst e
        simp [hn.1]; omega
      · simp [e]; omega

theorem DbInv.pending (I : DbInv v s U D L led) : s.pending = U.length := by
  have h1 := sum_count (fun i => (i.blk, i.hash)) U s.win.keys I.winNodup (by
    intro i hi
    have := I.win i.blk i.hash
    cases hg : s.win.get (i.blk, i.hash) with
    | some es => exact List.mem_map.2 ⟨_, AMap.mem_of_get _ hg, rfl⟩
    | none =>
      rw [hg, Option.getD_none] at this
      have hin : i.win ∈ (U.filter fun j => j.blk = i.blk ∧ j.hash = i.hash).map Item.win :=
        List.mem_map_of_mem (List.mem_filter.2 ⟨hi, by simp⟩)
      rw [← this] at hin
      cases hin)
  rw [← h1, Db.pending, AMap.keys, List.map_map]
  congr 1
  apply List.map_congr_left
  intro p hp
  have h2 := I.win p.1.1 p.1.2
  rw [I.winNodup.get_of_mem (k := (p.1.1, p.1.2)) (v := p.2) hp, Option.getD_some] at h2
  rw [h2, List.length_map]
  congr 2
  funext i
  rcases p with ⟨⟨a, b⟩, c⟩
  simp [Prod.ext_iff]

theorem DbInv.syncBlocks {e : SyncEnv} (hnow : 0 ≤ e.now.toInt) (hord : ∀ m, (e.order m).Perm m) (ts : List Int) :
    ∀ {s : Db} {h : Handle} {U D : List Item} {L : Loc} {led : List (UInt64 × List WinEntry)}, DbInv v s U D L led → Syncing s h L led →
    (∀ t ∈ ts, t ≠ s.mem.cur) → h.ww.windowIdx + 2 * (U.length : Nat) ≤ 524286 →
    ∃ s' h' L' b, s.syncBlocks e ts h = some (s', h') ∧ DbInv v s' (U.filter fun i => i.blk ∉ ts) (D ++ syncItems U ts) (L ++ L') (led ++ b) ∧
      (syncItems U ts).Perm (U.filter fun i => i.blk ∈ ts) ∧ Syncing s' h' (L ++ L') (led ++ b) ∧ s'.mem.cur = s.mem.cur ∧
      s'.mem.mark.released ⊆ s.mem.mark.released ∧ s'.seq = s.seq := by
  induction ts with
  | nil =>
    intro s h U D L led I S _ _
    refine ⟨s, h, [], [], rfl, ?_, ?_, ?_, rfl, List.Subset.refl _, rfl⟩
    · simpa [syncItems] using I
    · simp [syncItems]
    · simpa using S
  | cons t ts ih =>
    intro s h U D L led I S hts hroom
    have hlen : (itemsOf U t).length + (U.filter fun i => i.blk ≠ t).length = U.length := by
      have h1 := (split_perm U [] t).length_eq
      simp only [List.nil_append, List.append_nil, List.length_append] at h1
      omega
    obtain ⟨s1, h1, L1, b1, a1, a2, a3, a4, a5, a6, a7⟩ := I.syncBlock S hnow hord (hts t List.mem_cons_self) (fun _ _ => trivial) (by omega)
    obtain ⟨s2, h2, L2, b2, c1, c2, c3, c4, c5, c6, c7⟩ := ih a2 a3 (by rw [a4]; exact fun t' ht' => hts t' (List.mem_cons_of_mem _ ht')) (by omega)
    refine ⟨s2, h2, L1 ++ L2, b1 ++ b2, ?_, ?_, ?_, ?_, c5.trans a4, List.Subset.trans c6 a6, c7.trans a7⟩
    · simp only [Db.syncBlocks, a1, Option.bind_some, c1]
    · have e : (U.filter fun i => i.blk ∉ t :: ts) = (U.filter fun i => i.blk ≠ t).filter fun i => i.blk ∉ ts := by
        rw [List.filter_filter]
        apply List.filter_congr
        intro i _
        by_cases e1 : i.blk = t <;> by_cases e2 : i.blk ∈ ts <;> simp [e1, e2]
      rw [e, syncItems]
      simpa only [List.append_assoc] using c2
    · have e : (U.filter fun i => i.blk ∈ t :: ts).Perm ((U.filter fun i => i.blk = t) ++ (U.filter fun i => i.blk ≠ t).filter fun i => i.blk ∈ ts) := by
        have e0 := (List.filter_append_perm (fun i : Item => decide (i.blk = t)) (U.filter fun i => i.blk ∈ t :: ts)).symm
        rw [List.filter_filter, List.filter_filter] at e0
        rw [List.filter_filter]
        convert e0 using 2
        · apply List.filter_congr; intro i _; by_cases e1 : i.blk = t <;> simp [e1]
        · apply List.filter_congr; intro i _; by_cases e1 : i.blk = t <;> by_cases e2 : i.blk ∈ ts <;> simp [e1, e2]
      exact ((itemsOf_perm U t).append c3).trans e.symm
    · simpa only [List.append_assoc] using c4

theorem DbInv.sync (I : DbInv v s U D L led) (hq : s.mem.qblocks = []) {e : SyncEnv} (hnow : 0 ≤ e.now.toInt)
    (hord : ∀ m, (e.order m).Perm m) (hmark : ∀ p ∈ s.mem.mark.released, p.2 = p.1)
    (hroom : s.winFile.length + 8192 * s.pending + 8192 ≤ 2 ^ 31) :
    ∃ s' U' D' L' led', s.sync e = some (s', .ok) ∧ DbInv v s' U' D' L' led' ∧ (U' ++ D').Perm (U ++ D) ∧ s'.mem.qblocks = [] ∧
      s'.mem.cur = s.mem.cur ∧ s'.mem.mark.released ⊆ s.mem.mark.released ∧ s'.seq = s.seq ∧
      (s.lastSync ≠ s.seq → U' = (U.filter fun i => i.blk ∉ s.mem.mark.timeRefs s.mem.cur) ∧
        D' = D ++ syncItems U (s.mem.mark.timeRefs s.mem.cur)) ∧ (s.lastSync = s.seq → s' = s ∧ U' = U ∧ D' = D) := by
  simp only [Db.sync, I.opened, Bool.false_eq_true, if_false]
  by_cases hs : s.lastSync = s.seq
  · rw [if_pos hs]
    exact ⟨s, U, D, L, led, rfl, I, List.Perm.refl _, hq, rfl, List.Subset.refl _, rfl, fun hc => absurd hs hc, fun _ => ⟨rfl, rfl, rfl⟩⟩
  · rw [if_neg hs]
    obtain ⟨w, w1, w2, w3⟩ := newBlockWriter_spec I.store
    obtain ⟨ww, hW⟩ := I.hist
    have hidx : (newWindowWriter s.winFile).windowIdx + 2 * (U.length : Nat) ≤ 524286 := by
      rw [I.pending] at hroom
      simp only [newWindowWriter, blockSize]
      split <;> omega
    obtain ⟨s', h', L', b, c1, c2, c3, c4, c5, c6, c7⟩ := I.syncBlocks (h := ⟨w, newWindowWriter s.winFile⟩) hnow hord
      (s.mem.mark.timeRefs s.mem.cur) ⟨w2, w3, WinOK.start hW, hq⟩ (by
        intro t ht
        simp only [TimeMark.timeRefs, List.mem_insertionSort, AMap.keys, List.mem_map, List.mem_filter, decide_eq_true_eq] at ht
        obtain ⟨p, ⟨hp, _, h2⟩, rfl⟩ := ht
        rw [hmark p hp] at h2
        omega) hidx
    refine ⟨s', _, _, _, _, ?_, c2, ?_, c4.unread, c5, c6, c7, fun _ => ⟨rfl, rfl⟩, fun hc => absurd hc hs⟩
    · simp only [w1, Option.bind_eq_bind, Option.bind_some, c1, pure]
    · have h1 := List.filter_append_perm (fun i : Item => decide (i.blk ∈ s.mem.mark.timeRefs s.mem.cur)) U
      have e1 : (U.filter fun i => decide (i.blk ∉ s.mem.mark.timeRefs s.mem.cur)) = U.filter fun i => !decide (i.blk ∈ s.mem.mark.timeRefs s.mem.cur) := by
        congr 1; funext i; simp
      rw [e1]
      refine List.Perm.trans ?_ (h1.append_right D)
      refine ((List.perm_append_comm.trans (c3.append_right D)).append_left _).trans ?_
      rw [← List.append_assoc]
      exact List.perm_append_comm.append_right D

end Verif
