import Verif.Model.DbReopen
import Verif.Model.MemReopen

/-!
# Reopening a database: recovery of the log
-/

namespace Verif

variable {v : DbEnv} {s : Db} {U D : List Item} {L : Loc} {led : List (UInt64 × List WinEntry)}

/-! ## The topics of recovered records -/

theorem addTopics_spec (its : List Item) (hok : ∀ i ∈ its, i.OK v) (hraw : ∀ i ∈ its, i.Raw) : ∀ ops : List TopicOp,
    ∃ ops', addTopics (its.map fun i => (i.hdr, i.stored)) (Trie.ofTopics ops) = some (Trie.ofTopics (ops ++ ops')) ∧
      offsOf (Trie.ofTopics (ops ++ ops')) = offsOf (Trie.ofTopics ops) ∧
      (∀ i ∈ its, i.raw ≠ [] → TopicOp.add i.contract i.topic 0 ∈ ops') ∧ ∀ op ∈ ops', ∃ i ∈ its, op = TopicOp.add i.contract i.topic 0 := by
  induction its with
  | nil => intro ops; exact ⟨[], by simp [addTopics], by simp, by simp, by simp⟩
  | cons i its ih =>
    intro ops
    have hoki := hok i List.mem_cons_self
    have ih := ih (fun j hj => hok j (List.mem_cons_of_mem _ hj)) (fun j hj => hraw j (List.mem_cons_of_mem _ hj))
    have hsz := Item.topicSize_toNat hoki
    rw [List.map_cons, addTopics]
    have hhd : i.hdr.topicSize = i.topicSize := rfl
    rw [hhd]
    by_cases hr : i.raw = []
    · have h0 : i.topicSize = 0 := by
        apply UInt16.toNat_inj.1; rw [hsz, hr]; rfl
      rw [if_pos h0]
      obtain ⟨ops', h1, h2, h3, h4⟩ := ih ops
      refine ⟨ops', h1, h2, ?_, fun op hop => ?_⟩
      · intro j hj hne
        rcases List.mem_cons.1 hj with rfl | hj
        · exact absurd hr hne
        · exact h3 j hj hne
      · obtain ⟨j, hj, e⟩ := h4 op hop
        exact ⟨j, List.mem_cons_of_mem _ hj, e⟩
    · have h0 : i.topicSize ≠ 0 := by
        intro hc; rw [hc] at hsz
        exact hr (List.eq_nil_of_length_eq_zero hsz.symm)
      rw [if_neg h0]
      have h9 : (9 + i.topicSize).toNat = 9 + i.raw.length := by
        have := hoki.raw
        rw [UInt16.toNat_add, hsz]
        show (9 + i.raw.length) % 2 ^ 16 = _
        omega
      have hsl : slice? i.stored.cache 9 (9 + i.topicSize).toNat = some i.raw := by
        rw [h9]
        show slice? i.body 9 (9 + i.raw.length) = _
        rw [Item.body]
        exact slice?_mid (i.pre ++ [i.flag]) i.raw i.val _ _ (by simp [hoki.pre]) (by simp [hoki.pre])
      have hm := (hraw i List.mem_cons_self).resolve_left hr
      obtain ⟨hu, _, _⟩ := parseTopic_fits i.contract i.topic hoki.plain hoki.levels
      rw [← hm] at hu
      obtain ⟨f1, f2⟩ := addTopic_fresh (t := Trie.ofTopics ops) rfl i.contract i.topic
      rw [f1] at f2
      obtain ⟨ops', h1, h2, h3, h4⟩ := ih (ops ++ [.add i.contract i.topic 0])
      refine ⟨.add i.contract i.topic 0 :: ops', ?_, ?_, ?_, ?_⟩
      · simp only [hsl, Option.bind_eq_bind, Option.bind_some, hu]
        have : (Trie.ofTopics ops).add ⟨i.hdr.topicHash, 0⟩ (parseTopic i.contract i.topic).1.parts (parseTopic i.contract i.topic).1.depth
            = Trie.ofTopics (ops ++ [.add i.contract i.topic 0]) := f1
        rw [this, h1]
        simp
      · have e : ops ++ TopicOp.add i.contract i.topic 0 :: ops' = (ops ++ [.add i.contract i.topic 0]) ++ ops' := by simp
        rw [e, h2, f2]
      · intro j hj hne
        rcases List.mem_cons.1 hj with rfl | hj
        · exact List.mem_cons_self
        · exact List.mem_cons_of_mem _ (h3 j hj hne)
      · intro op hop
        rcases List.mem_cons.1 hop with rfl | hop
        · exact ⟨i, List.mem_cons_self, rfl⟩
        · obtain ⟨j, hj, e⟩ := h4 op hop
          exact ⟨j, List.mem_cons_of_mem _ hj, e⟩

/-! ## The windows a running database would have -/

/-- The windows in memory after puts. -/
def winOf (U : List Item) : AMap (Int × UInt64) (List WinEntry) := U.foldl (fun w i => addWindow w i.blk i.hash i.win) []

theorem winOf_spec (U : List Item) : AMap.Nodup (winOf U) ∧
    (∀ t h, ((winOf U).get (t, h)).getD [] = (U.filter fun i => i.blk = t ∧ i.hash = h).map Item.win) ∧
    ∀ k es, (winOf U).get k = some es → es ≠ [] := by
  induction U using List.reverseRecOn with
  | nil => exact ⟨AMap.Nodup.nil, by simp [winOf], by simp [winOf]⟩
  | append_singleton U i ih =>
    obtain ⟨h1, h2, h3⟩ := ih
    have e : winOf (U ++ [i]) = addWindow (winOf U) i.blk i.hash i.win := by simp [winOf]
    rw [e, addWindow]
    refine ⟨h1.set _ _, ?_, ?_⟩
    · intro t h
      rw [AMap.get_set, List.filter_append, List.map_append, ← h2 t h]
      by_cases hc : (t, h) = (i.blk, i.hash)
      · rw [if_pos hc]
        simp only [Prod.mk.injEq] at hc
        obtain ⟨rfl, rfl⟩ := hc
        simp
      · rw [if_neg hc]
        have : ¬(i.blk = t ∧ i.hash = h) := fun hx => hc (by rw [hx.1, hx.2])
        simp [this]
    · intro k es hg
      rw [AMap.get_set] at hg
      split at hg
      · simp only [Option.some.injEq] at hg; rw [← hg]; simp
      · exact h3 k es hg

/-- Only some fields matter. -/
theorem DbKnown.frame {K : Item → Prop} (I : DbKnown K v s U D L led) {s' : Db} (h1 : s'.closed = s.closed) (h2 : s'.seq = s.seq) (h3 : s'.mem = s.mem)
    (h4 : s'.win = s.win) (h5 : s'.store = s.store) (h6 : s'.count = s.count) (h7 : s'.winFile = s.winFile) (h8 : s'.trie = s.trie) :
    DbKnown K v s' U D L led where
  opened := h1 ▸ I.opened
  ok := I.ok
  nodup := I.nodup
  seqs := h2 ▸ I.seqs
  mem := h3 ▸ I.mem
  ready := h3 ▸ I.ready
  blk := h3 ▸ I.blk
  winNodup := h4 ▸ I.winNodup
  win := h4 ▸ I.win
  winNe := h4 ▸ I.winNe
  store := h5 ▸ I.store
  stored := I.stored
  count := h6 ▸ I.count
  hist := by rw [h7, h8]; exact I.hist
  synced := I.synced
  trie := h8 ▸ I.trie

theorem DbKnown.setWin {K : Item → Prop} (I : DbKnown K v s U D L led) : DbKnown K v { s with win := winOf U } U D L led where
  opened := I.opened
  ok := I.ok
  nodup := I.nodup
  seqs := I.seqs
  mem := I.mem
  ready := I.ready
  blk := I.blk
  winNodup := (winOf_spec U).1
  win := (winOf_spec U).2.1
  winNe := (winOf_spec U).2.2
  store := I.store
  stored := I.stored
  count := I.count
  hist := I.hist
  synced := I.synced
  trie := I.trie

/-! ## One block -/

/-- A block is recovered like it is synced, with the topics of its records in the trie. -/
theorem Db.recoverBlock_eq {e : SyncEnv} {h h2 : Handle} {t : Int} {T : Trie} {W : AMap (Int × UInt64) (List WinEntry)} {n : UInt64} {s2 : Db}
    {rs : List (EntryHdr × Rec)} (pend : AMap UInt64 (List WinEntry)) (hrs : s.mem.blockRecs t = some rs) (hne : rs ≠ [])
    (hnew : ∀ x, appendNew s.store h.w rs = some x → x.2.2 = rs) (hT : addTopics rs s.trie = some T)
    (hk : ∀ p ∈ groupWin rs, (T.getOffset p.1).isSome)
    (hx : ({ s with trie := T, win := W, seq := n } : Db).syncBlock e h t = some (s2, h2)) :
    ∃ s3, s.recoverBlock e h pend t = some (s3, h2, pend) ∧ { s2 with win := s.win, seq := s.seq, info := s3.info } = s3 ∧ s2.seq = n := by
  simp only [Db.syncBlock, hrs, Option.bind_eq_bind, Option.bind_some, if_neg hne, Option.bind_eq_some_iff, Db.flush, pure, Option.some.injEq, Prod.mk.injEq] at hx
  obtain ⟨⟨st, w, new⟩, ha, ⟨T2, ww⟩, hw, ⟨s4, h4⟩, ⟨⟨file, ww2⟩, hf, ⟨st2, w2⟩, hg, hs4⟩, win, hr, hs2⟩ := hx
  have hnew' := hnew _ ha
  simp only at hnew'
  subst hnew'
  simp only [Prod.mk.injEq] at hs4
  obtain ⟨rfl, rfl⟩ := hs4
  obtain ⟨rfl, rfl⟩ := hs2
  have hkn : (groupWin new).filter (fun p => (T.getOffset p.1).isSome) = groupWin new := List.filter_eq_self.2 hk
  have hun : (groupWin new).filter (fun p => !(T.getOffset p.1).isSome) = [] := by
    rw [List.filter_eq_nil_iff]
    intro p hp
    simp [hk p hp]
  obtain ⟨b, hb⟩ : ∃ b : Db, b = { s with store := st2, trie := T2, winFile := file, count := s.count + UInt64.ofNat new.length, lastSync := upperSeq (new.map (·.2)) } := ⟨_, rfl⟩
  refine ⟨{ b with info := b.infoBytes, mem := (s.mem.release t).1 }, ?_, ?_, rfl⟩
  · simp only [Db.recoverBlock, hrs, Option.bind_eq_bind, Option.bind_some, if_neg hne, ha, hT, hkn, hun, List.foldl_nil, hw, Db.flush, hf, hg, pure]
    rw [hb]
  · rw [hb]

/-- A state on the way of recovery: the messages `U` are in memory, but neither in the windows nor, if their topics are new, in the
trie; the header tells an older sequence than `n`. -/
def Recovering (v : DbEnv) (n : UInt64) (s : Db) (U D : List Item) (L : Loc) (led : List (UInt64 × List WinEntry)) : Prop :=
  DbKnown (fun i => i ∈ D) v { s with win := winOf U, seq := n } U D L led

theorem Headed.append_left {A B : List Item} (h : Headed (A ++ B)) : Headed A := by
  intro x i hi
  refine h x i ?_
  rw [List.filter_append, List.head?_append, hi]
  rfl

theorem Recovering.block {n : UInt64} (I : Recovering v n s U D L led) {h : Handle} (S : Syncing s h L led) {e : SyncEnv} (hnow : 0 ≤ e.now.toInt)
    (hord : ∀ m, (e.order m).Perm m) {t : Int} (ht : t ≠ s.mem.cur) (hraw : ∀ i ∈ U, i.Raw) (hhead : Headed (D ++ itemsOf U t))
    (hroom : h.ww.windowIdx + 2 * ((itemsOf U t).length : Nat) ≤ 524286) (pend : AMap UInt64 (List WinEntry)) :
    ∃ s' h' L' b, s.recoverBlock e h pend t = some (s', h', pend) ∧ Recovering v n s' (U.filter fun i => i.blk ≠ t) (D ++ itemsOf U t) (L ++ L') (led ++ b) ∧
      Syncing s' h' (L ++ L') (led ++ b) ∧ s'.mem.cur = s.mem.cur ∧ h'.ww.windowIdx ≤ h.ww.windowIdx + 2 * ((itemsOf U t).length : Nat) := by
  have hrecs : s.mem.blockRecs t = some ((itemsOf U t).map fun i => (i.hdr, i.stored)) := DbKnown.recs I t
  by_cases hits : itemsOf U t = []
  · refine ⟨s, h, [], [], ?_, ?_, ?_, rfl, by simp [hits]⟩
    · rw [hits] at hrecs
      simp only [Db.recoverBlock, hrecs, List.map_nil, Option.bind_eq_bind, Option.bind_some, if_true]; rfl
    · have hU' : (U.filter fun i => i.blk ≠ t) = U := by
        rw [List.filter_eq_self]
        intro i hi
        have : i ∉ itemsOf U t := by rw [hits]; simp
        rw [mem_itemsOf] at this
        simpa using fun hc => this ⟨hi, hc⟩
      rw [hU', hits]
      simpa using I
    · simpa using S
  have hmem : ∀ i ∈ itemsOf U t, i ∈ U ∧ i.blk = t := fun i hi => mem_itemsOf.1 hi
  have hok : ∀ i ∈ itemsOf U t, i.OK v := fun i hi => I.ok i (List.mem_append_left _ (hmem i hi).1)
  obtain ⟨ops, ho1, ho2, ho3⟩ := I.trie
  have ho1 : s.trie = Trie.ofTopics ops := ho1
  obtain ⟨ops', p1, p2, p3, p4⟩ := addTopics_spec (itemsOf U t) hok (fun i hi => hraw i (hmem i hi).1) ops
  rw [← ho1] at p1 p2
  have hknown : ∀ i ∈ itemsOf U t, ((Trie.ofTopics (ops ++ ops')).getOffset i.hash).isSome := by
    intro i hi
    cases hj : ((D ++ itemsOf U t).filter fun j => j.hash = i.hash).head? with
    | none =>
      rw [List.head?_eq_none_iff, List.filter_eq_nil_iff] at hj
      exact absurd (decide_eq_true (p := i.hash = i.hash) rfl) (hj i (List.mem_append_right _ hi))
    | some j =>
      have hne := hhead _ _ hj
      have hjm := List.mem_of_mem_head? (by rw [hj]; rfl : j ∈ ((D ++ itemsOf U t).filter fun j => j.hash = i.hash).head?)
      rw [List.mem_filter] at hjm
      have hh : j.hash = i.hash := by simpa using hjm.2
      rw [← hh]
      rcases List.mem_append.1 hjm.1 with hd | hu
      · obtain ⟨off, ho⟩ := ho2 j (List.mem_append_right _ hd) hd
        exact known_isSome _ (List.mem_append_left _ ho)
      · exact known_isSome _ (List.mem_append_right _ (p3 j hu hne))
  obtain ⟨T, hT⟩ : ∃ T, T = Trie.ofTopics (ops ++ ops') := ⟨_, rfl⟩
  rw [← hT] at p1 p2
  have hTall : T = Trie.ofTopics (ops ++ ops' ++ (itemsOf U t).map fun i => .add i.contract i.topic 0) := by
    rw [ofTopics_addAll _ hknown, hT]
  have I2 : DbKnown (fun i => i ∈ D ++ itemsOf U t) v { s with trie := T, win := winOf U, seq := n } U D L led :=
    { opened := I.opened, ok := I.ok, nodup := I.nodup, seqs := I.seqs, mem := I.mem, ready := I.ready, blk := I.blk, winNodup := I.winNodup
      win := I.win, winNe := I.winNe, store := I.store, stored := I.stored, count := I.count
      hist := by
        obtain ⟨w, hw⟩ := I.hist
        refine ⟨w, ?_⟩
        show WinOK ⟨s.winFile, offsOf T, w⟩ led
        rw [p2]; exact hw
      synced := I.synced
      trie := by
        refine ⟨_, hTall, ?_, ?_⟩
        · intro i hi hk
          rcases List.mem_append.1 hk with hd | hu
          · obtain ⟨off, ho⟩ := ho2 i hi hd
            exact ⟨off, List.mem_append_left _ (List.mem_append_left _ ho)⟩
          · exact ⟨0, List.mem_append_right _ (List.mem_map.2 ⟨i, hu, rfl⟩)⟩
        · intro c key off hop
          rcases List.mem_append.1 hop with hop | hop
          · rcases List.mem_append.1 hop with hop | hop
            · exact ho3 c key off hop
            · obtain ⟨i, hi, e⟩ := p4 _ hop
              cases e
              exact ⟨i, List.mem_append_left _ (hmem i hi).1, rfl, rfl⟩
          · obtain ⟨i, hi, e⟩ := List.mem_map.1 hop
            cases e
            exact ⟨i, List.mem_append_left _ (hmem i hi).1, rfl, rfl⟩ }
  have S2 : Syncing { s with trie := T, win := winOf U, seq := n } h L led :=
    ⟨S.writer, S.empty, by
      show WinOK ⟨s.winFile, offsOf T, h.ww⟩ led
      rw [p2]; exact S.windows, S.unread⟩
  obtain ⟨s2, h2, L', b, q1, q2, q3, q4, q5, q6, q7⟩ := I2.syncBlock S2 hnow hord (t := t) ht (fun i hi => List.mem_append_right _ hi) hroom
  -- all records are new
  have hperm := split_perm U D t
  have hnod : (((U.filter fun i => i.blk ≠ t) ++ (D ++ itemsOf U t)).map Item.seq).Nodup := ((hperm.map _).nodup_iff).2 I.nodup
  have hnodD : ((D ++ itemsOf U t).map Item.seq).Nodup := by
    rw [List.map_append] at hnod; exact (List.nodup_append.1 hnod).2.1
  have hLseq : L.map (·.1.seq) = D.map Item.seq := by
    have := congrArg (List.map Rec.seq) I.stored
    simpa [List.map_map, Function.comp_def, Item.stored] using this
  obtain ⟨st1, w1, ha1, _⟩ := appendNew_new ((itemsOf U t).map fun i => (i.hdr, i.stored)) (by
      intro r hr
      rw [List.mem_map] at hr
      obtain ⟨i, hi, rfl⟩ := hr
      exact (Item.storable (hok i hi)).ok) S.writer (by
      rw [List.map_append] at hnodD
      rw [List.map_map]
      exact (List.nodup_append.1 hnodD).2.1) (by
      intro r hr hc
      rw [List.mem_map] at hr
      obtain ⟨i, hi, rfl⟩ := hr
      rw [hLseq] at hc
      rw [List.map_append] at hnodD
      exact (List.nodup_append.1 hnodD).2.2 _ hc _ (List.mem_map_of_mem hi) rfl)
  obtain ⟨s3, r1, r3, r4⟩ := Db.recoverBlock_eq pend hrecs (by simpa using hits) (by
      intro x hx
      rw [ha1] at hx
      cases hx
      rfl) p1 (by
      intro p hp
      obtain ⟨g1, g2, g3⟩ := groupWin_spec ((itemsOf U t).map fun i => (i.hdr, i.stored))
      have h1 := g1.get_of_mem (k := p.1) (v := p.2) hp
      have h2 := g3 _ _ h1
      have h3 := g2 p.1
      rw [h1, Option.getD_some] at h3
      rw [h3, List.filter_map, List.map_map] at h2
      obtain ⟨x, hx⟩ := List.exists_mem_of_ne_nil _ h2
      obtain ⟨i, hi, _⟩ := List.mem_map.1 hx
      rw [List.mem_filter] at hi
      have h4 : i.hash = p.1 := by simpa [Item.hdr] using hi.2
      rw [← h4, hT]
      exact hknown i hi.1) q1
  refine ⟨s3, h2, L', b, r1, ?_, ?_, ?_, q5⟩
  · have I3 := (q2.setWin).frame (s' := { s3 with win := winOf (U.filter fun i => i.blk ≠ t), seq := n })
      (by rw [← r3]) (by exact r4.symm) (by rw [← r3]) rfl (by rw [← r3]) (by rw [← r3]) (by rw [← r3]) (by rw [← r3])
    exact I3
  · obtain ⟨c1, c2, c3, c4⟩ := q3
    rw [← r3]
    exact ⟨c1, c2, c3, c4⟩
  · rw [← r3]; exact q4

/-! ## The order of what is stored -/

theorem filter_first {U : List Item} (hU : U.Pairwise fun a b => a.seq < b.seq) {t : Int} (hmin : ∀ i ∈ U, t ≤ i.blk)
    (hmono : ∀ i ∈ U, ∀ j ∈ U, i.blk < j.blk → i.seq < j.seq) :
    itemsOf U t ++ (U.filter fun i => i.blk ≠ t) = U := by
  have hlt : ∀ {a b : UInt64}, a < b → ¬ b < a := fun h1 h2 => by
    have h1 := UInt64.lt_iff_toNat_lt.1 h1
    have h2 := UInt64.lt_iff_toNat_lt.1 h2
    omega
  have hp : (itemsOf U t ++ (U.filter fun i => i.blk ≠ t)).Perm U := by
    have := split_perm U [] t
    simp only [List.nil_append, List.append_nil] at this
    exact List.perm_append_comm.trans this
  refine List.Perm.eq_of_pairwise (le := fun a b : Item => a.seq < b.seq) ?_ ?_ hU hp
  · intro a b _ _ h1 h2; exact absurd h2 (hlt h1)
  · rw [List.pairwise_append]
    refine ⟨?_, hU.filter _, ?_⟩
    · have hs : (U.filter fun i => i.blk = t).Pairwise fun a b => a.seq ≤ b.seq :=
        (hU.filter _).imp fun h => UInt64.le_of_lt h
      rw [itemsOf, hs.insertionSort_eq]
      exact hU.filter _
    · intro a ha b hb
      obtain ⟨h1, h2⟩ := mem_itemsOf.1 ha
      rw [List.mem_filter] at hb
      have h3 : b.blk ≠ t := by simpa using hb.2
      have := hmin b hb.1
      exact hmono a h1 b hb.1 (by omega)

/-- A sync of the oldest blocks keeps the order of the puts. -/
theorem syncItems_order (ts : List Int) : ∀ {U : List Item}, U.Pairwise (fun a b => a.seq < b.seq) →
    (∀ i ∈ U, ∀ j ∈ U, i.blk < j.blk → i.seq < j.seq) → ts.Pairwise (· < ·) → (∀ i ∈ U, ∀ t ∈ ts, i.blk ≤ t → i.blk ∈ ts) →
    syncItems U ts ++ (U.filter fun i => i.blk ∉ ts) = U := by
  induction ts with
  | nil => intro U _ _ _ _; simp [syncItems]
  | cons t ts ih =>
    intro U hU hmono hts hdown
    rw [List.pairwise_cons] at hts
    have hmin : ∀ i ∈ U, t ≤ i.blk := by
      intro i hi
      by_contra hc
      rcases List.mem_cons.1 (hdown i hi t List.mem_cons_self (by omega)) with h | h
      · omega
      · have := hts.1 _ h; omega
    have h1 := filter_first hU hmin hmono
    have h2 := ih (U := U.filter fun i => i.blk ≠ t) (hU.filter _)
      (fun i hi j hj => hmono i (List.mem_of_mem_filter hi) j (List.mem_of_mem_filter hj)) hts.2 (by
        intro i hi t' ht' hle
        rw [List.mem_filter] at hi
        have h3 : i.blk ≠ t := by simpa using hi.2
        rcases List.mem_cons.1 (hdown i hi.1 t' (List.mem_cons_of_mem _ ht') hle) with h | h
        · exact absurd h h3
        · exact h)
    have e : (U.filter fun i => i.blk ∉ t :: ts) = (U.filter fun i => i.blk ≠ t).filter fun i => i.blk ∉ ts := by
      rw [List.filter_filter]
      apply List.filter_congr
      intro i _
      by_cases e1 : i.blk = t <;> by_cases e2 : i.blk ∈ ts <;> simp [e1, e2]
    rw [syncItems, e, List.append_assoc, h2, h1]

/-! ## All blocks -/

/-- The blocks that hold something are released one after the other. -/
def relAll (m : MemDb) : List Int → MemDb
  | [] => m
  | t :: ts => relAll (if m.blockKeys t = [] then m else (m.release t).1) ts

theorem placeData_lease {st st' : Store} {w w' : Writer} {c : Bytes} {off : Int} (h0 : st.lease.all = []) (h : placeData st w c = some (off, st', w')) :
    st'.lease = st.lease := by
  simp only [placeData, Option.bind_eq_bind, Option.bind_eq_some_iff] at h
  obtain ⟨⟨off', l'⟩, ha, h⟩ := h
  have hl : l' = st.lease := by
    rcases Lease.allocate_cases ha with ⟨_, h⟩ | ⟨a, sh, z, b, p, q, e1, e2, _⟩
    · exact h
    · exfalso
      have : b ∈ st.lease.all := by
        rw [Lease.all, e1]
        simp [e2]
      rw [h0] at this
      cases this
  split at h
  · split at h
    · cases h
    · simp only [pure, Option.some.injEq, Prod.mk.injEq] at h
      rw [← h.2.1]; exact hl
  · simp only [pure, Option.some.injEq, Prod.mk.injEq] at h
    rw [← h.2.1]; exact hl

theorem append_lease {st st' : Store} {w w' : Writer} {r : Rec} (h0 : st.lease.all = []) (h : w.append st r = .ok (st', w')) : st'.lease = st.lease := by
  simp only [Writer.append] at h
  split at h
  · cases h
  split at h
  · cases h
  split at h
  · cases h
  split at h
  · cases h
  split at h
  · cases h
  next hp =>
  split at h
  · cases h
  split at h
  · simp only [Except.ok.injEq, Prod.mk.injEq] at h
    rw [← h.1]
    exact placeData_lease h0 hp
  · cases h

theorem appendNew_lease (rs : List (EntryHdr × Rec)) : ∀ {st st' : Store} {w w' : Writer} {new : List (EntryHdr × Rec)}, st.lease.all = [] →
    appendNew st w rs = some (st', w', new) → st'.lease = st.lease := by
  induction rs with
  | nil =>
    intro st st' w w' new _ h
    simp only [appendNew, Option.some.injEq, Prod.mk.injEq] at h
    rw [h.1]
  | cons r rs ih =>
    intro st st' w w' new h0 h
    simp only [appendNew] at h
    split at h
    · next ha =>
      have h1 := append_lease h0 ha
      rw [Option.map_eq_some_iff] at h
      obtain ⟨⟨s2, w2, n2⟩, h2, h3⟩ := h
      simp only [Prod.mk.injEq] at h3
      rw [← h3.1, ih (by rw [h1]; exact h0) h2, h1]
    · exact ih h0 h
    · cases h

theorem write_lease {st st' : Store} {w w' : Writer} (h : w.write st = some (st', w')) : st'.lease = st.lease := by
  simp only [Writer.write, Option.bind_eq_bind, Option.bind_eq_some_iff, pure, Option.some.injEq, Prod.mk.injEq] at h
  obtain ⟨_, _, _, _, _, _, h, _⟩ := h
  rw [← h]

theorem mapM_length {α β : Type} {f : α → Option β} : ∀ (l : List α) (r : List β), l.mapM f = some r → r.length = l.length
  | [], r, h => by simp at h; simp [h]
  | x :: l, r, h => by
    rw [List.mapM_cons] at h
    simp only [Option.bind_eq_bind, Option.bind_eq_some_iff, pure, Option.some.injEq] at h
    obtain ⟨y, _, r', hr, rfl⟩ := h
    simp [mapM_length l r' hr]

/-- What else a sync of a block changes. -/
theorem Db.syncBlock_rest {e : SyncEnv} {h h' : Handle} {t : Int} {s' : Db} (hx : s.syncBlock e h t = some (s', h')) :
    s'.mem = relAll s.mem [t] ∧ (s.store.lease.all = [] → s'.store.lease = s.store.lease) ∧ s'.enc = s.enc ∧ s'.immutable = s.immutable ∧
      s'.leaseFile = s.leaseFile ∧ s'.closed = s.closed ∧ s'.seq = s.seq ∧ (s' = s ∨ s'.info = s'.infoBytes) := by
  simp only [Db.syncBlock, Option.bind_eq_bind, Option.bind_eq_some_iff] at hx
  obtain ⟨rs, hrs, hx⟩ := hx
  have hkeys : rs = [] ↔ s.mem.blockKeys t = [] := by
    rw [MemDb.blockRecs] at hrs
    have := mapM_length _ _ hrs
    rw [← List.length_eq_zero_iff, ← List.length_eq_zero_iff, this]
  split at hx
  · next hn =>
    simp only [pure, Option.some.injEq, Prod.mk.injEq] at hx
    obtain ⟨rfl, -⟩ := hx
    refine ⟨?_, fun _ => rfl, rfl, rfl, rfl, rfl, rfl, .inl rfl⟩
    simp only [relAll, if_pos (hkeys.1 hn)]
  · next hn =>
    simp only [Option.bind_eq_some_iff, Db.flush, pure, Option.some.injEq, Prod.mk.injEq, Option.bind_eq_bind] at hx
    obtain ⟨⟨st, w, new⟩, ha, ⟨T2, ww⟩, hw, ⟨s4, h4⟩, ⟨⟨file, ww2⟩, hf, ⟨st2, w2⟩, hg, hs4⟩, win, hr, hs2⟩ := hx
    simp only [Prod.mk.injEq] at hs4
    obtain ⟨rfl, rfl⟩ := hs4
    obtain ⟨rfl, rfl⟩ := hs2
    refine ⟨?_, fun h0 => ?_, rfl, rfl, rfl, rfl, rfl, .inr rfl⟩
    · simp only [relAll, if_neg (fun hc => hn (hkeys.2 hc))]
    · show st2.lease = _
      rw [write_lease hg]
      have hl := appendNew_lease _ h0 ha
      exact hl

/-- What else the recovery of a block changes. -/
theorem Db.recoverBlock_rest {e : SyncEnv} {h h' : Handle} {t : Int} {s' : Db} {pend pend' : AMap UInt64 (List WinEntry)}
    (hx : s.recoverBlock e h pend t = some (s', h', pend')) :
    s'.mem = relAll s.mem [t] ∧ (s.store.lease.all = [] → s'.store.lease = s.store.lease) ∧ s'.enc = s.enc ∧ s'.immutable = s.immutable ∧
      s'.leaseFile = s.leaseFile ∧ s'.closed = s.closed ∧ s'.seq = s.seq ∧ s'.win = s.win ∧ (s' = s ∨ s'.info = s'.infoBytes) := by
  simp only [Db.recoverBlock, Option.bind_eq_bind, Option.bind_eq_some_iff] at hx
  obtain ⟨rs, hrs, hx⟩ := hx
  have hkeys : rs = [] ↔ s.mem.blockKeys t = [] := by
    rw [MemDb.blockRecs] at hrs
    have := mapM_length _ _ hrs
    rw [← List.length_eq_zero_iff, ← List.length_eq_zero_iff, this]
  split at hx
  · next hn =>
    simp only [pure, Option.some.injEq, Prod.mk.injEq] at hx
    obtain ⟨rfl, -⟩ := hx
    refine ⟨?_, fun _ => rfl, rfl, rfl, rfl, rfl, rfl, rfl, .inl rfl⟩
    simp only [relAll, if_pos (hkeys.1 hn)]
  · next hn =>
    simp only [Option.bind_eq_some_iff, Db.flush, pure, Option.some.injEq, Prod.mk.injEq, Option.bind_eq_bind] at hx
    obtain ⟨⟨st, w, new⟩, ha, T, hT, ⟨T2, ww⟩, hw, ⟨s4, h4⟩, ⟨⟨file, ww2⟩, hf, ⟨st2, w2⟩, hg, hs4⟩, hs2⟩ := hx
    simp only [Prod.mk.injEq] at hs4
    obtain ⟨rfl, rfl⟩ := hs4
    obtain ⟨rfl, rfl, rfl⟩ := hs2
    refine ⟨?_, fun h0 => ?_, rfl, rfl, rfl, rfl, rfl, rfl, .inr rfl⟩
    · simp only [relAll, if_neg (fun hc => hn (hkeys.2 hc))]
    · show st2.lease = _
      rw [write_lease hg]
      have hl := appendNew_lease _ h0 ha
      exact hl

theorem relAll_append (ts ts' : List Int) : ∀ m : MemDb, relAll m (ts ++ ts') = relAll (relAll m ts) ts' := by
  induction ts with
  | nil => intro m; rfl
  | cons t ts ih => intro m; simp only [List.cons_append, relAll]; exact ih _

theorem Recovering.blocks {n : UInt64} {e : SyncEnv} (hnow : 0 ≤ e.now.toInt) (hord : ∀ m, (e.order m).Perm m) (ts : List Int) :
    ∀ {s : Db} {h : Handle} {U D : List Item} {L : Loc} {led : List (UInt64 × List WinEntry)}, Recovering v n s U D L led → Syncing s h L led →
    (∀ t ∈ ts, t ≠ s.mem.cur) → (∀ i ∈ U, i.Raw) → Headed (D ++ syncItems U ts) → h.ww.windowIdx + 2 * (U.length : Nat) ≤ 524286 →
    ∀ pend, ∃ s' h' L' b, s.recoverBlocks e ts h pend = some (s', h', pend) ∧
      Recovering v n s' (U.filter fun i => i.blk ∉ ts) (D ++ syncItems U ts) (L ++ L') (led ++ b) ∧ Syncing s' h' (L ++ L') (led ++ b) ∧
      s'.mem.cur = s.mem.cur ∧ s'.mem = relAll s.mem ts ∧ (s.store.lease.all = [] → s'.store.lease = s.store.lease) ∧ s'.enc = s.enc ∧
      s'.immutable = s.immutable ∧ s'.leaseFile = s.leaseFile ∧ s'.seq = s.seq ∧ s'.win = s.win ∧ (s' = s ∨ s'.info = s'.infoBytes) := by
  induction ts with
  | nil =>
    intro s h U D L led I S _ _ _ _ pend
    refine ⟨s, h, [], [], rfl, ?_, ?_, rfl, rfl, fun _ => rfl, rfl, rfl, rfl, rfl, rfl, .inl rfl⟩
    · simpa [syncItems] using I
    · simpa using S
  | cons t ts ih =>
    intro s h U D L led I S hts hraw hhead hroom pend
    have hlen : (itemsOf U t).length + (U.filter fun i => i.blk ≠ t).length = U.length := by
      have h1 := (split_perm U [] t).length_eq
      simp only [List.nil_append, List.append_nil, List.length_append] at h1
      omega
    rw [syncItems, ← List.append_assoc] at hhead
    obtain ⟨s1, h1, L1, b1, a1, a2, a3, a4, a5⟩ := I.block S hnow hord (hts t List.mem_cons_self) hraw hhead.append_left (by omega) pend
    obtain ⟨d1, d2, d3, d4, d5, d6, d7, d8, d9⟩ := Db.recoverBlock_rest a1
    obtain ⟨s2, h2, L2, b2, c1, c2, c3, c4, c5, c6, c7, c8, c9, c10, c11, c12⟩ := ih a2 a3
      (by rw [a4]; exact fun t' ht' => hts t' (List.mem_cons_of_mem _ ht')) (fun i hi => hraw i (List.mem_of_mem_filter hi)) hhead (by omega) pend
    refine ⟨s2, h2, L1 ++ L2, b1 ++ b2, ?_, ?_, ?_, c4.trans a4, ?_, ?_, c7.trans d3, c8.trans d4, c9.trans d5, c10.trans d7, c11.trans d8, ?_⟩
    · simp only [Db.recoverBlocks, a1, Option.bind_some, c1]
    · have e : (U.filter fun i => i.blk ∉ t :: ts) = (U.filter fun i => i.blk ≠ t).filter fun i => i.blk ∉ ts := by
        rw [List.filter_filter]
        apply List.filter_congr
        intro i _
        by_cases e1 : i.blk = t <;> by_cases e2 : i.blk ∈ ts <;> simp [e1, e2]
      rw [e, syncItems]
      simpa only [List.append_assoc] using c2
    · simpa only [List.append_assoc] using c3
    · rw [c5, d1, ← relAll_append]; rfl
    · intro h0
      rw [c6 (by rw [d2 h0]; exact h0), d2 h0]
    · rcases c12 with rfl | h
      · rcases d9 with rfl | h
        · exact .inl rfl
        · exact .inr h
      · exact .inr h

end Verif
