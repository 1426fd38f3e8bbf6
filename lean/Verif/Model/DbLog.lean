import Verif.Model.DbBatchInv
import Verif.Model.DbOpen

/-!
# The log of a running database

Which messages are in which log, from the tiny logs that are queued to the logs a sync gives back.
-/

namespace Verif

/-- Messages that are not in a log yet, as `LogInv` has them. -/
def pendingOf (R : List Item) : List (Int × UInt64 × Bytes) := R.map fun i => (i.blk, i.seq, i.record)

theorem pendingOf_filter (R : List Item) (p : Int → Bool) : (pendingOf R).filter (fun x => p x.1) = pendingOf (R.filter fun i => p i.blk) := by
  rw [pendingOf, pendingOf, List.filter_map]; rfl

/-- The unsynced messages `U` are those of the logs `G`, in this order, and the messages `R` that are in no log yet. `cid` is the id of the
current tiny log, `queue` are the ids and time ids of the tiny logs waiting to be written, oldest first. -/
structure Logs (m : MemDb) (U : List Item) (cid : Int) (queue : List (Int × Int)) (G : List ItemLog) (R : List Item) : Prop where
  split : U = G.flatMap (·.2) ++ R
  log : ∃ last, LogInv m ⟨m.cur, pendingOf R, G.map ItemLog.recs⟩ last ∧ ∀ p ∈ queue.map (·.1) ++ [cid], last < p
  gne : ∀ l ∈ G, l.2 ≠ []
  one : ∀ l ∈ G, ∀ i ∈ l.2, ∀ j ∈ l.2, i.blk = j.blk
  refs : ∀ t a, m.blocks.get t = some a → ∀ id, id ∈ (m.at a).timeRefs ↔ ∃ l ∈ G, l.1 = id ∧ ∃ i ∈ l.2, i.blk = t
  ids : G.Pairwise fun a b => a.1 < b.1
  qids : (queue.map (·.1) ++ [cid]).Pairwise (· < ·)
  times : (queue.map (·.2) ++ [m.cur]).Pairwise (· ≤ ·)
  waiting : ∀ i ∈ R, i.blk ∈ queue.map (·.2) ++ [m.cur]
  released : ∀ p ∈ m.mark.released, ∀ t ∈ queue.map (·.2) ++ [m.cur], p.1 ≤ t
  nodup : AMap.Nodup m.mark.released
  marked : Marked m
  ones : ∀ t n, m.mark.records.get t = some n → n = 1
  known : ∀ i ∈ U, i.blk ∈ m.mark.released.keys ∨ (m.mark.records.get i.blk).isSome
  done : ∀ l ∈ G, ∀ i ∈ l.2, i.blk ∈ m.mark.released.keys
  curMark : m.cur ∈ m.mark.released.keys ∨ (m.mark.records.get m.cur).isSome
  sorted : U.Pairwise fun a b => a.seq < b.seq
  mono : ∀ i ∈ U, ∀ j ∈ U, i.blk < j.blk → i.seq < j.seq
  le : ∀ i ∈ U, i.blk ≤ m.cur
  live : ∀ i ∈ U, (m.blocks.get i.blk).isSome

variable {m : MemDb} {U : List Item} {cid : Int} {queue : List (Int × Int)} {G : List ItemLog} {R : List Item}

theorem Logs.mem_log (H : Logs m U cid queue G R) {l : ItemLog} (hl : l ∈ G) {i : Item} (hi : i ∈ l.2) : i ∈ U := by
  rw [H.split]; exact List.mem_append_left _ (List.mem_flatMap.2 ⟨l, hl, hi⟩)

theorem Logs.mem_rest (H : Logs m U cid queue G R) {i : Item} (hi : i ∈ R) : i ∈ U := by
  rw [H.split]; exact List.mem_append_right _ hi

/-- A Get only changes the query cache. -/
theorem Logs.same (H : Logs m U cid queue G R) {m' : MemDb} (h : m.SameData m') : Logs m' U cid queue G R := by
  obtain ⟨qr, qf, qb, rfl⟩ := h
  obtain ⟨last, h1, h2⟩ := H.log
  exact { H with log := ⟨last, h1.same rfl rfl rfl rfl rfl, h2⟩ }

theorem rotate_at (m : MemDb) (t : Int) (haddr : ∀ t a, m.blocks.get t = some a → a < m.heap.length) :
    ∀ t' a', (m.rotate t).blocks.get t' = some a' →
      (t' = t ∧ m.blocks.get t = none ∧ ((m.rotate t).at a').timeRefs = []) ∨ (m.blocks.get t' = some a' ∧ (m.rotate t).at a' = m.at a') := by
  intro t' a' h'
  simp only [MemDb.rotate, MemDb.addTimeBlock] at h' ⊢
  cases hb : m.blocks.get t with
  | some a => rw [hb] at h'; exact .inr ⟨h', rfl⟩
  | none =>
    rw [hb] at h'
    simp only [AMap.get_set] at h'
    split at h'
    · next e =>
      simp only [Option.some.injEq] at h'
      refine .inl ⟨e, rfl, ?_⟩
      subst h'
      simp [MemDb.at, List.getD_eq_getElem?_getD]
    · refine .inr ⟨h', ?_⟩
      have := haddr _ _ h'
      simp only [MemDb.at, List.getD_eq_getElem?_getD]
      rw [List.getElem?_append_left this]

theorem rotate_get (m : MemDb) (t t' : Int) (h : (m.blocks.get t').isSome) : ((m.rotate t).blocks.get t').isSome := by
  simp only [MemDb.rotate, MemDb.addTimeBlock]
  split
  · exact h
  · simp only [AMap.get_set]
    split
    · rfl
    · exact h

theorem rotate_mark (m : MemDb) (t : Int) : (m.rotate t).mark = m.mark.add t := by
  simp only [MemDb.rotate, MemDb.addTimeBlock]
  split <;> rfl

/-- The tiny log is queued and a new one begins. -/
theorem Logs.rotate (H : Logs m U cid queue G R) {t now : Int} (ht : m.cur ≤ t) (hn : cid < now) :
    Logs (m.rotate t) U now (queue ++ [(cid, m.cur)]) G R := by
  obtain ⟨last, h1, h2⟩ := H.log
  have hcur : (m.rotate t).cur = t := (m.rotate_same t).1
  have hmk := rotate_mark m t
  have hrel : (m.rotate t).mark.released = m.mark.released := by rw [hmk]; rfl
  have hrec : ∀ t', (m.mark.records.get t').isSome → ((m.rotate t).mark.records.get t').isSome := by
    intro t' h
    rw [hmk]
    simp only [TimeMark.add, AMap.get_set]
    split
    · rfl
    · exact h
  have hq : ∀ x ∈ queue.map (·.1), x < cid := by
    have := H.qids
    rw [List.pairwise_append] at this
    exact fun x hx => this.2.2 x hx cid (by simp)
  have hts : ∀ x ∈ queue.map (·.2) ++ [m.cur], x ≤ m.cur := by
    have := H.times
    rw [List.pairwise_append] at this
    intro x hx
    rcases List.mem_append.1 hx with hx | hx
    · exact this.2.2 x hx m.cur (by simp)
    · rw [List.mem_singleton.1 hx]
  have hmap : (queue ++ [(cid, m.cur)]).map (·.2) = queue.map (·.2) ++ [m.cur] := by simp
  have hmap1 : (queue ++ [(cid, m.cur)]).map (·.1) = queue.map (·.1) ++ [cid] := by simp
  exact {
    split := H.split
    log := by
      refine ⟨last, ?_, ?_⟩
      · have := h1.step MEnv.one (.rotate t) [] ⟨trivial, trivial⟩ (by simp [MemDb.step])
        simp only [MemDb.step, Spec.logStep, Spec.lastId] at this
        rw [hcur]; exact this
      · intro p hp
        rw [hmap1] at hp
        rcases List.mem_append.1 hp with hp | hp
        · exact h2 p hp
        · rw [List.mem_singleton.1 hp]
          have := h2 cid (by simp)
          omega
    gne := H.gne
    one := H.one
    refs := by
      intro t' a' h' id
      rcases rotate_at m t h1.addr t' a' h' with ⟨rfl, hb, he⟩ | ⟨hb, he⟩
      · rw [he]
        refine ⟨fun h => (by cases h), ?_⟩
        rintro ⟨l, hl, _, i, hi, e⟩
        have := H.live i (H.mem_log hl hi)
        rw [e, hb] at this
        cases this
      · rw [he]; exact H.refs t' a' hb id
    ids := H.ids
    qids := by
      rw [hmap1, List.pairwise_append]
      refine ⟨H.qids, by simp, ?_⟩
      intro a ha b hb
      rw [List.mem_singleton.1 hb]
      rcases List.mem_append.1 ha with ha | ha
      · have := hq a ha; omega
      · rw [List.mem_singleton.1 ha]; exact hn
    times := by
      rw [hmap, hcur, List.pairwise_append]
      refine ⟨H.times, by simp, ?_⟩
      intro a ha b hb
      rw [List.mem_singleton.1 hb]
      have := hts a ha
      omega
    waiting := by
      intro i hi
      rw [hmap]
      exact List.mem_append_left _ (H.waiting i hi)
    released := by
      intro p hp x hx
      rw [hrel] at hp
      rw [hmap, hcur] at hx
      rcases List.mem_append.1 hx with hx | hx
      · exact H.released p hp x hx
      · rw [List.mem_singleton.1 hx]
        have := H.released p hp m.cur (by simp)
        omega
    nodup := by rw [hrel]; exact H.nodup
    marked := by intro p hp; rw [hrel] at hp; exact H.marked p hp
    ones := by
      intro t' n h
      rw [hmk] at h
      simp only [TimeMark.add, AMap.get_set] at h
      split at h
      · exact (Option.some.inj h).symm
      · exact H.ones t' n h
    known := by
      intro i hi
      rw [hrel]
      exact (H.known i hi).imp id (hrec _)
    done := by rw [hrel]; exact H.done
    curMark := by
      refine .inr ?_
      rw [hcur, hmk]
      simp [TimeMark.add, AMap.get_set]
    sorted := H.sorted
    mono := H.mono
    le := by
      intro i hi
      have := H.le i hi
      rw [hcur]; omega
    live := fun i hi => rotate_get m t _ (H.live i hi) }

theorem release_mark {k : TimeMark} (h1 : ∀ t n, k.records.get t = some n → n = 1) (t : Int) :
    (∀ t' n, (k.release t).records.get t' = some n → n = 1) ∧
    (∀ p ∈ (k.release t).released, p ∈ k.released ∨ p.1 = t) ∧ (∀ x ∈ k.released.keys, x ∈ (k.release t).released.keys) ∧
    ((k.records.get t).isSome → t ∈ (k.release t).released.keys) ∧
    (∀ x, x ≠ t → (k.records.get x).isSome → ((k.release t).records.get x).isSome) ∧
    (AMap.Nodup k.released → AMap.Nodup (k.release t).released) := by
  simp only [TimeMark.release]
  cases hr : k.records.get t with
  | none =>
    exact ⟨h1, fun p hp => .inl hp, fun _ h => h, fun h => by simp at h, fun _ _ h => h, fun h => h⟩
  | some n =>
    have hn := h1 t n hr
    subst hn
    simp only [sub_self, lt_self_iff_false, if_false]
    refine ⟨?_, ?_, ?_, ?_, ?_, fun h => h.set t t⟩
    · intro t' n h
      rw [AMap.get_del] at h
      split at h
      · cases h
      · exact h1 t' n h
    · intro p hp
      simp only [AMap.set, AMap.del, List.mem_cons, List.mem_filter] at hp
      rcases hp with rfl | hp
      · exact .inr rfl
      · exact .inl hp.1
    · intro x hx
      rw [AMap.mem_keys] at hx ⊢
      rw [AMap.get_set]
      split
      · rfl
      · exact hx
    · intro _
      rw [AMap.mem_keys, AMap.get_set_self]; rfl
    · intro x hx h
      rw [AMap.get_del_ne _ hx]; exact h

/-- What a write does to the blocks. -/
theorem write_refs (m : MemDb) (id t : Int) (haddr : ∀ t a, m.blocks.get t = some a → a < m.heap.length)
    (hinj : ∀ t t' a, m.blocks.get t = some a → m.blocks.get t' = some a → t = t') :
    (m.write id t false).blocks = m.blocks ∧ (m.write id t false).cur = m.cur ∧ (m.write id t false).mark = m.mark.release t ∧
    ∀ t' a, m.blocks.get t' = some a → ((m.write id t false).at a).timeRefs =
      if t' = t ∧ (m.at a).data.drop (m.at a).lastOffset ≠ [] then (m.at a).timeRefs ++ [id] else (m.at a).timeRefs := by
  simp only [MemDb.write, Bool.false_eq_true, if_false]
  cases hb : m.blocks.get t with
  | none =>
    refine ⟨rfl, rfl, rfl, ?_⟩
    intro t' a h
    rw [if_neg]
    · rfl
    · rintro ⟨rfl, _⟩
      rw [hb] at h; cases h
  | some a =>
    simp only
    by_cases hnil : (m.at a).data.drop (m.at a).lastOffset = []
    · rw [if_pos hnil]
      refine ⟨rfl, rfl, rfl, ?_⟩
      intro t' a' h
      rw [if_neg]
      · rfl
      · rintro ⟨rfl, h2⟩
        rw [hb] at h
        cases h
        exact h2 hnil
    · rw [if_neg hnil]
      refine ⟨rfl, rfl, rfl, ?_⟩
      intro t' a' h
      have hat := m.at_setAt a a' { m.at a with lastOffset := (m.at a).data.length, timeRefs := (m.at a).timeRefs ++ [id] } (haddr _ _ hb)
      show ((m.setAt a _).at a').timeRefs = _
      rw [hat]
      by_cases e : a' = a
      · subst e
        have := hinj _ _ _ h hb
        rw [if_pos rfl, if_pos ⟨this, hnil⟩]
      · rw [if_neg e, if_neg]
        rintro ⟨rfl, _⟩
        rw [hb] at h
        cases h
        exact e rfl

/-- The log a write of time block `t` under `id` makes. -/
def newLog (id t : Int) (R : List Item) : List ItemLog :=
  if (R.filter fun i => i.blk = t) = [] then [] else [(id, R.filter fun i => i.blk = t)]

theorem sorted_prefix {R : List Item} {t : Int} (hs : R.Pairwise fun a b => a.seq < b.seq) (hm : ∀ i ∈ R, ∀ j ∈ R, i.blk < j.blk → i.seq < j.seq)
    (ht : ∀ i ∈ R, t ≤ i.blk) : (R.filter fun i => i.blk = t) ++ (R.filter fun i => i.blk ≠ t) = R := by
  induction R with
  | nil => rfl
  | cons i R ih =>
    rw [List.pairwise_cons] at hs
    have ih := ih hs.2 (fun a ha b hb => hm a (List.mem_cons_of_mem _ ha) b (List.mem_cons_of_mem _ hb)) fun a ha => ht a (List.mem_cons_of_mem _ ha)
    by_cases e : i.blk = t
    · rw [List.filter_cons_of_pos (by simpa using e), List.filter_cons_of_neg (by simpa using e), List.cons_append, ih]
    · have hnone : (R.filter fun i => i.blk = t) = [] := by
        rw [List.filter_eq_nil_iff]
        intro j hj
        simp only [decide_eq_true_eq]
        intro hc
        have h1 := ht i List.mem_cons_self
        have h2 := hm j (List.mem_cons_of_mem _ hj) i List.mem_cons_self (by omega)
        exact absurd (UInt64.lt_trans h2 (hs.1 j hj)) (UInt64.lt_irrefl _)
      rw [hnone, List.nil_append] at ih
      rw [List.filter_cons_of_neg (by simpa using e), List.filter_cons_of_pos (by simpa using e), hnone, List.nil_append, ih]

/-- The oldest tiny log is written. -/
theorem Logs.write {id t : Int} (H : Logs m U cid ((id, t) :: queue) G R) :
    Logs (m.write id t false) U cid queue (G ++ newLog id t R) (R.filter fun i => i.blk ≠ t) := by
  obtain ⟨last, h1, h2⟩ := H.log
  obtain ⟨w1, w2, w3, w4⟩ := write_refs m id t h1.addr h1.inj
  obtain ⟨k1, k2, k3, k4, k5, k6⟩ := release_mark H.ones t
  have hRge : ∀ x ∈ queue.map (·.2) ++ [m.cur], t ≤ x := by
    have := H.times
    simp only [List.map_cons, List.cons_append, List.pairwise_cons] at this
    exact this.1
  have hRs : R.Pairwise fun a b => a.seq < b.seq := by
    have := H.sorted
    rw [H.split, List.pairwise_append] at this
    exact this.2.1
  have hR : (R.filter fun i => i.blk = t) ++ (R.filter fun i => i.blk ≠ t) = R := by
    refine sorted_prefix hRs (fun i hi j hj => H.mono i (H.mem_rest hi) j (H.mem_rest hj)) ?_
    intro i hi
    have := H.waiting i hi
    simp only [List.map_cons, List.cons_append, List.mem_cons] at this
    rcases this with h | h
    · omega
    · exact hRge _ h
  have hlast : last < id := h2 id (by simp)
  have hflat : (newLog id t R).flatMap (·.2) = R.filter fun i => i.blk = t := by
    rw [newLog]
    split
    · next h => rw [h]; rfl
    · simp
  have hnew : ∀ l ∈ newLog id t R, l.1 = id ∧ l.2 = (R.filter fun i => i.blk = t) ∧ l.2 ≠ [] := by
    intro l hl
    rw [newLog] at hl
    split at hl
    · cases hl
    · next h => rw [List.mem_singleton.1 hl]; exact ⟨rfl, rfl, h⟩
  have hqlt : ∀ p ∈ queue.map (·.1) ++ [cid], id < p := by
    have := H.qids
    simp only [List.map_cons, List.cons_append, List.pairwise_cons] at this
    exact this.1
  have hknow : ∀ i ∈ U, i.blk = t → t ∈ (m.mark.release t).released.keys := by
    intro i hi e
    rcases H.known i hi with h | h
    · rw [e] at h; exact k3 t h
    · rw [e] at h; exact k4 h
  exact {
    split := by
      rw [List.flatMap_append, hflat, List.append_assoc, hR]
      exact H.split
    log := by
      refine ⟨id, ?_, hqlt⟩
      have := h1.step MEnv.one (.write id t false) [] ⟨hlast, trivial⟩ (by simp [MemDb.step])
      simp only [MemDb.step, Spec.logStep, Spec.lastId] at this
      rw [w2]
      have e1 : ((pendingOf R).filter fun x => decide (x.1 = t)) = pendingOf (R.filter fun i => i.blk = t) := pendingOf_filter R fun x => decide (x = t)
      have e2 : ((pendingOf R).filter fun x => decide (x.1 ≠ t)) = pendingOf (R.filter fun i => i.blk ≠ t) := pendingOf_filter R fun x => decide (x ≠ t)
      rw [e1, e2] at this
      by_cases hn : (R.filter fun i => i.blk = t) = []
      · rw [newLog, if_pos hn, List.append_nil]
        rw [hn] at hR
        rw [List.nil_append] at hR
        rw [hR]
        rw [hn, if_pos (show pendingOf [] = [] from rfl)] at this
        exact this
      · rw [newLog, if_neg hn, List.map_append]
        rw [if_neg (fun hc => hn (by rw [pendingOf] at hc; exact List.map_eq_nil_iff.1 hc))] at this
        simp only [List.map_cons, List.map_nil, ItemLog.recs]
        simp only [pendingOf, List.map_map] at this ⊢
        exact this
    gne := by
      intro l hl
      rcases List.mem_append.1 hl with hl | hl
      · exact H.gne l hl
      · exact (hnew l hl).2.2
    one := by
      intro l hl i hi j hj
      rcases List.mem_append.1 hl with hl | hl
      · exact H.one l hl i hi j hj
      · rw [(hnew l hl).2.1, List.mem_filter, decide_eq_true_eq] at hi hj
        rw [hi.2, hj.2]
    refs := by
      intro t' a ha x
      rw [w1] at ha
      rw [w4 t' a ha]
      obtain ⟨_, ht2⟩ := h1.tail t' a ha
      have e1 : ((pendingOf R).filter fun x => decide (x.1 = t')) = pendingOf (R.filter fun i => i.blk = t') := pendingOf_filter R fun x => decide (x = t')
      have hold := H.refs t' a ha x
      by_cases hc : t' = t ∧ (m.at a).data.drop (m.at a).lastOffset ≠ []
      · rw [if_pos hc, List.mem_append, hold, List.mem_singleton]
        obtain ⟨rfl, hne⟩ := hc
        have hR' : (R.filter fun i => i.blk = t') ≠ [] := by
          intro h
          apply hne
          rw [ht2]
          show ((pendingOf R).filter fun x => decide (x.1 = t')).flatMap _ = []
          rw [e1, h]; rfl
        constructor
        · rintro (⟨l, hl, h⟩ | rfl)
          · exact ⟨l, List.mem_append_left _ hl, h⟩
          · obtain ⟨i, hi⟩ := List.exists_mem_of_ne_nil _ hR'
            refine ⟨(x, R.filter fun i => i.blk = t'), List.mem_append_right _ ?_, rfl, i, hi, ?_⟩
            · rw [newLog, if_neg hR']; exact List.mem_singleton.2 rfl
            · exact of_decide_eq_true (List.mem_filter.1 hi).2
        · rintro ⟨l, hl, h, i, hi, e⟩
          rcases List.mem_append.1 hl with hl | hl
          · exact .inl ⟨l, hl, h, i, hi, e⟩
          · exact .inr (h ▸ (hnew l hl).1)
      · rw [if_neg hc, hold]
        constructor
        · rintro ⟨l, hl, h⟩
          exact ⟨l, List.mem_append_left _ hl, h⟩
        · rintro ⟨l, hl, h, i, hi, e⟩
          rcases List.mem_append.1 hl with hl | hl
          · exact ⟨l, hl, h, i, hi, e⟩
          · exfalso
            rw [(hnew l hl).2.1, List.mem_filter, decide_eq_true_eq] at hi
            have htt : t' = t := by rw [← e, hi.2]
            apply hc
            refine ⟨htt, ?_⟩
            rw [ht2]
            show ((pendingOf R).filter fun x => decide (x.1 = t')).flatMap _ ≠ []
            rw [e1]
            intro hnil
            have hin : i ∈ R.filter fun i => i.blk = t' := List.mem_filter.2 ⟨hi.1, by simpa using e⟩
            have hx : (i.blk, i.seq, i.record) ∈ pendingOf (R.filter fun i => i.blk = t') := List.mem_map.2 ⟨i, hin, rfl⟩
            have := List.flatMap_eq_nil_iff.1 hnil _ hx
            have := congrArg List.length this
            rw [length_encRec] at this
            simp at this
    ids := by
      rw [List.pairwise_append]
      refine ⟨H.ids, ?_, ?_⟩
      · rw [newLog]; split <;> simp
      · intro a ha b hb
        rw [(hnew b hb).1]
        have := h1.ids a.recs (List.mem_map_of_mem ha)
        have : a.1 ≤ last := this
        omega
    qids := by
      have := H.qids
      simp only [List.map_cons, List.cons_append, List.pairwise_cons] at this
      exact this.2
    times := by
      have := H.times
      simp only [List.map_cons, List.cons_append, List.pairwise_cons] at this
      rw [w2]
      exact this.2
    waiting := by
      intro i hi
      rw [List.mem_filter, decide_eq_true_eq] at hi
      have := H.waiting i hi.1
      simp only [List.map_cons, List.cons_append, List.mem_cons] at this
      rw [w2]
      exact this.resolve_left hi.2
    released := by
      intro p hp x hx
      rw [w3] at hp
      rw [w2] at hx
      rcases k2 p hp with h | h
      · exact H.released p h x (by simp only [List.map_cons, List.cons_append]; exact List.mem_cons_of_mem _ hx)
      · rw [h]; exact hRge x hx
    nodup := by rw [w3]; exact k6 H.nodup
    marked := by
      intro p hp
      rw [w3] at hp
      exact TimeMark.marked_release H.marked t p hp
    ones := by rw [w3]; exact k1
    known := by
      intro i hi
      rw [w3]
      by_cases e : i.blk = t
      · rw [e]; exact .inl (hknow i hi e)
      · exact (H.known i hi).imp (k3 _) (k5 _ e)
    done := by
      intro l hl i hi
      rw [w3]
      rcases List.mem_append.1 hl with hl | hl
      · exact k3 _ (H.done l hl i hi)
      · rw [(hnew l hl).2.1, List.mem_filter, decide_eq_true_eq] at hi
        rw [hi.2]
        exact hknow i (H.mem_rest hi.1) hi.2
    curMark := by
      rw [w2, w3]
      by_cases e : m.cur = t
      · rw [e]
        have := H.curMark
        rw [e] at this
        exact .inl (this.elim (k3 _) k4)
      · exact H.curMark.imp (k3 _) (k5 _ e)
    sorted := H.sorted
    mono := H.mono
    le := by rw [w2]; exact H.le
    live := by rw [w1]; exact H.live }

/-- A message is put into the current block. -/
theorem Logs.put (H : Logs m U cid queue G R) {e : MEnv} {i : Item} {m' : MemDb} (hp : m.put e i.seq i.record = (m', .ok)) (hblk : i.blk = m.cur)
    (hq : ∀ j ∈ U, j.seq < i.seq) : Logs m' (U ++ [i]) cid queue G (R ++ [i]) := by
  obtain ⟨last, h1, h2⟩ := H.log
  have hm' : m' = (m.put e i.seq i.record).1 := by rw [hp]
  have hstep := h1.step e (.put i.seq i.record) [] ⟨trivial, trivial⟩ (by simp only [MemDb.step]; rw [hp]; simp)
  simp only [MemDb.step, Spec.logStep, Spec.lastId] at hstep
  rw [← hm'] at hstep
  have hcur : m'.cur = m.cur := hstep.cur
  obtain ⟨_, r2, _, r4⟩ := m.putAt_refs e m.cur i.seq i.record
  have r2 : m'.mark = m.mark := by rw [hm']; exact r2
  have r4 : ∀ a, (m'.at a).timeRefs = (m.at a).timeRefs := fun a => by rw [hm']; exact r4 a
  have hbl : m'.blocks = m.blocks := by
    rw [hm']
    simp only [MemDb.put, MemDb.putAt]
    repeat' split
    all_goals rfl
  exact {
    split := by rw [H.split, List.append_assoc]
    log := by
      refine ⟨last, ?_, h2⟩
      rw [hcur]
      simp only [pendingOf, List.map_append, List.map_cons, List.map_nil, hblk] at hstep ⊢
      exact hstep
    gne := H.gne
    one := H.one
    refs := by
      intro t a ha id
      rw [hbl] at ha
      rw [r4]; exact H.refs t a ha id
    ids := H.ids
    qids := H.qids
    times := by rw [hcur]; exact H.times
    waiting := by
      intro j hj
      rw [hcur]
      rcases List.mem_append.1 hj with hj | hj
      · exact H.waiting j hj
      · rw [List.mem_singleton.1 hj, hblk]; simp
    released := by rw [r2, hcur]; exact H.released
    nodup := by rw [r2]; exact H.nodup
    marked := by intro p hp; rw [r2] at hp; exact H.marked p hp
    ones := by rw [r2]; exact H.ones
    known := by
      intro j hj
      rw [r2]
      rcases List.mem_append.1 hj with hj | hj
      · exact H.known j hj
      · rw [List.mem_singleton.1 hj, hblk]; exact H.curMark
    done := by rw [r2]; exact H.done
    curMark := by rw [r2, hcur]; exact H.curMark
    sorted := by
      rw [List.pairwise_append]
      refine ⟨H.sorted, by simp, ?_⟩
      intro a ha b hb
      rw [List.mem_singleton.1 hb]; exact hq a ha
    mono := by
      intro a ha b hb hlt
      rcases List.mem_append.1 ha with ha | ha <;> rcases List.mem_append.1 hb with hb | hb
      · exact H.mono a ha b hb hlt
      · rw [List.mem_singleton.1 hb]; exact hq a ha
      · rw [List.mem_singleton.1 ha, hblk] at hlt
        have := H.le b hb
        omega
      · rw [List.mem_singleton.1 ha, List.mem_singleton.1 hb] at hlt; omega
    le := by
      intro j hj
      rw [hcur]
      rcases List.mem_append.1 hj with hj | hj
      · exact H.le j hj
      · rw [List.mem_singleton.1 hj, hblk]
    live := by
      intro j hj
      rw [hbl]
      rcases List.mem_append.1 hj with hj | hj
      · exact H.live j hj
      · rw [List.mem_singleton.1 hj, hblk]; exact h1.ready }

/-- The logs of the messages that are not in block `t`. -/
def otherLogs (G : List ItemLog) (t : Int) : List ItemLog := G.filter fun l => l.2.all fun i => decide (i.blk ≠ t)

theorem otherLogs_flat (G : List ItemLog) (t : Int) (hone : ∀ l ∈ G, ∀ i ∈ l.2, ∀ j ∈ l.2, i.blk = j.blk) :
    (otherLogs G t).flatMap (·.2) = (G.flatMap (·.2)).filter fun i => i.blk ≠ t := by
  induction G with
  | nil => rfl
  | cons l G ih =>
    have ih := ih fun l hl => hone l (List.mem_cons_of_mem _ hl)
    rw [otherLogs] at ih
    rw [otherLogs, List.filter_cons, List.flatMap_cons, List.filter_append]
    split
    · next h =>
      rw [List.flatMap_cons, ih]
      congr 1
      rw [List.all_eq_true] at h
      exact (List.filter_eq_self.2 h).symm
    · next h =>
      rw [ih]
      have : (l.2.filter fun i => i.blk ≠ t) = [] := by
        rw [List.filter_eq_nil_iff]
        intro i hi hc
        apply h
        rw [List.all_eq_true]
        intro j hj
        rw [hone l List.mem_cons_self j hj i hi]
        exact hc
      rw [this, List.nil_append]

theorem mem_otherLogs {G : List ItemLog} {t : Int} {l : ItemLog} : l ∈ otherLogs G t ↔ l ∈ G ∧ ∀ i ∈ l.2, i.blk ≠ t := by
  simp [otherLogs, List.mem_filter]

/-- A block is given back, with its logs. -/
theorem Logs.release (H : Logs m U cid queue G R) {t : Int} (ht : t ≠ m.cur) :
    Logs (m.release t).1 (U.filter fun i => i.blk ≠ t) cid queue (otherLogs G t) (R.filter fun i => i.blk ≠ t) := by
  obtain ⟨last, h1, h2⟩ := H.log
  cases hb : m.blocks.get t with
  | none =>
    have hU : ∀ i ∈ U, i.blk ≠ t := by
      intro i hi e
      have := H.live i hi
      rw [e, hb] at this
      cases this
    have e1 : (U.filter fun i => i.blk ≠ t) = U := List.filter_eq_self.2 fun i hi => by simpa using hU i hi
    have e2 : (R.filter fun i => i.blk ≠ t) = R := List.filter_eq_self.2 fun i hi => by simpa using hU i (H.mem_rest hi)
    have e3 : otherLogs G t = G := List.filter_eq_self.2 fun l hl => by
      simp only [List.all_eq_true, decide_eq_true_eq]
      exact fun i hi => hU i (H.mem_log hl hi)
    have e4 : (m.release t).1 = m := by simp only [MemDb.release, hb]
    rw [e1, e2, e3, e4]
    exact H
  | some a =>
    have e4 : (m.release t).1 = { m with blocks := m.blocks.del t, mark := m.mark.unref t, freed := a :: m.freed, wal := m.wal.filter fun l => decide (l.1 ∉ (m.at a).timeRefs) } := by
      simp only [MemDb.release, hb]
    have hget : ∀ t' a', ((m.release t).1.blocks.get t' = some a') → t' ≠ t ∧ m.blocks.get t' = some a' := by
      intro t' a' h
      rw [e4] at h
      simp only [AMap.get_del] at h
      split at h
      · cases h
      · next hne => exact ⟨hne, h⟩
    have hcur : (m.release t).1.cur = m.cur := by rw [e4]
    have hrel : (m.release t).1.mark.released = m.mark.released.del t := by rw [e4]; rfl
    have hrec : (m.release t).1.mark.records = m.mark.records := by rw [e4]; rfl
    have hkeys : ∀ x, x ≠ t → x ∈ m.mark.released.keys → x ∈ (m.release t).1.mark.released.keys := by
      intro x hx h
      rw [hrel, AMap.mem_keys, AMap.get_del_ne _ hx, ← AMap.mem_keys]; exact h
    have hat : ∀ a', (m.release t).1.at a' = m.at a' := m.release_at t
    have hp2 : ((pendingOf R).filter fun x => decide (x.1 ≠ t)) = pendingOf (R.filter fun i => i.blk ≠ t) := pendingOf_filter R fun x => decide (x ≠ t)
    exact {
      split := by
        rw [otherLogs_flat G t H.one, ← List.filter_append, ← H.split]
      log := by
        refine ⟨last, ?_, h2⟩
        exact {
          opened := by rw [e4]; exact h1.opened
          cur := rfl
          ready := by
            rw [hcur, e4]
            simp only [AMap.get_del]
            rw [if_neg (fun h => ht h.symm)]
            exact h1.ready
          addr := by
            intro t' a' h
            rw [e4]
            exact h1.addr t' a' (hget t' a' h).2
          inj := fun t1 t2 a' g1 g2 => h1.inj t1 t2 a' (hget t1 a' g1).2 (hget t2 a' g2).2
          tail := by
            intro t' a' h
            obtain ⟨hne, h⟩ := hget t' a' h
            obtain ⟨g1, g2⟩ := h1.tail t' a' h
            rw [hat]
            refine ⟨g1, ?_⟩
            rw [g2]
            simp only
            rw [← hp2, List.filter_filter]
            congr 1
            apply List.filter_congr
            intro x _
            by_cases e : x.1 = t'
            · simp [e, hne]
            · simp [e]
          block := by
            intro p hp
            simp only at hp
            rw [← hp2, List.mem_filter, decide_eq_true_eq] at hp
            rw [e4]
            simp only [AMap.get_del]
            rw [if_neg hp.2]
            exact h1.block p hp.1
          wal := by
            rw [e4]
            simp only
            rw [h1.wal]
            simp only
            rw [otherLogs, List.map_map, List.map_map, List.filter_map]
            congr 1
            apply List.filter_congr
            intro l hl
            have := H.refs t a hb l.1
            show decide (l.1 ∉ (m.at a).timeRefs) = _
            rw [Bool.eq_iff_iff, decide_eq_true_eq, List.all_eq_true]
            constructor
            · intro hn i hi
              rw [decide_eq_true_eq]
              intro e
              exact hn (this.2 ⟨l, hl, rfl, i, hi, e⟩)
            · intro hall hc
              obtain ⟨l', hl', e1, i, hi, e⟩ := this.1 hc
              have : l' = l := by
                have hp := H.ids
                by_contra hne
                have : ∀ (G : List ItemLog), G.Pairwise (fun a b => a.1 < b.1) → l ∈ G → l' ∈ G → l' = l := by
                  intro G hG
                  induction G with
                  | nil => intro h; cases h
                  | cons x G ih =>
                    rw [List.pairwise_cons] at hG
                    intro g1 g2
                    rcases List.mem_cons.1 g1 with k1 | k1 <;> rcases List.mem_cons.1 g2 with k2 | k2
                    · rw [k1, k2]
                    · have := hG.1 l' k2; rw [← k1] at this; omega
                    · have := hG.1 l k1; rw [← k2] at this; omega
                    · exact ih hG.2 k1 k2
                exact hne (this G H.ids hl hl')
              subst this
              have := hall i hi
              rw [decide_eq_true_eq] at this
              exact this e
          ids := by
            intro l hl
            obtain ⟨l', hl', rfl⟩ := List.mem_map.1 hl
            exact h1.ids _ (List.mem_map_of_mem (mem_otherLogs.1 hl').1)
          mono := by
            have := h1.mono
            rw [List.pairwise_map] at this ⊢
            exact this.filter _ }
      gne := fun l hl => H.gne l (mem_otherLogs.1 hl).1
      one := fun l hl => H.one l (mem_otherLogs.1 hl).1
      refs := by
        intro t' a' h id
        obtain ⟨hne, h⟩ := hget t' a' h
        rw [hat, H.refs t' a' h]
        constructor
        · rintro ⟨l, hl, e, i, hi, hx⟩
          refine ⟨l, mem_otherLogs.2 ⟨hl, fun j hj => ?_⟩, e, i, hi, hx⟩
          rw [H.one l hl j hj i hi, hx]; exact hne
        · rintro ⟨l, hl, x⟩
          exact ⟨l, (mem_otherLogs.1 hl).1, x⟩
      ids := H.ids.filter _
      qids := H.qids
      times := by rw [hcur]; exact H.times
      waiting := by
        intro i hi
        rw [hcur]
        exact H.waiting i (List.mem_of_mem_filter hi)
      released := by
        intro p hp
        rw [hrel] at hp
        rw [hcur]
        exact H.released p (List.mem_of_mem_filter hp)
      nodup := by rw [hrel]; exact H.nodup.del t
      marked := by
        intro p hp
        rw [hrel] at hp
        exact H.marked p (List.mem_of_mem_filter hp)
      ones := by rw [hrec]; exact H.ones
      known := by
        intro i hi
        rw [List.mem_filter, decide_eq_true_eq] at hi
        rw [hrec]
        exact (H.known i hi.1).imp (hkeys _ hi.2) id
      done := by
        intro l hl i hi
        obtain ⟨h3, h4⟩ := mem_otherLogs.1 hl
        exact hkeys _ (h4 i hi) (H.done l h3 i hi)
      curMark := by
        rw [hcur, hrec]
        exact H.curMark.imp (hkeys _ (fun h => ht h.symm)) id
      sorted := H.sorted.filter _
      mono := fun i hi j hj => H.mono i (List.mem_of_mem_filter hi) j (List.mem_of_mem_filter hj)
      le := by
        intro i hi
        rw [hcur]; exact H.le i (List.mem_of_mem_filter hi)
      live := by
        intro i hi
        rw [List.mem_filter, decide_eq_true_eq] at hi
        rw [e4]
        simp only [AMap.get_del]
        rw [if_neg hi.2]
        exact H.live i hi.1 }

end Verif
