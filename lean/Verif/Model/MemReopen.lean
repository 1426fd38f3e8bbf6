import Verif.Model.MemWhere
import Verif.Props.MemRecovery

/-!
# The in-memory store after recovery

What recovery of logs without deletes leaves in the blocks, the time marks and the log references.
-/

namespace Verif

/-- The logs `ids` were recovered: their blocks refer to them and are released. -/
structure RecRefs (r : RecEnv) (s : MemDb) (ids : List Int) : Prop where
  addr : ∀ t a, s.blocks.get t = some a → a < s.heap.length
  refs : ∀ id ∈ ids, ∃ a, s.blocks.get (truncTime r.interval id) = some a ∧ id ∈ (s.at a).timeRefs
  done : ∀ id ∈ ids, truncTime r.interval id ∈ s.mark.released.keys
  same : ∀ p ∈ s.mark.released, p.2 = p.1
  only : ∀ p ∈ s.mark.released, ∃ id ∈ ids, truncTime r.interval id = p.1
  nodup : AMap.Nodup s.mark.released
  unread : s.qblocks = []

theorem MBlock.put_refs {cap : Nat} {b b' : MBlock} {k : MKey} {d : Bytes} (h : b.put cap k d = some b') : b'.timeRefs = b.timeRefs := by
  simp only [MBlock.put] at h
  split at h
  · simp at h
  · simp only [Option.some.injEq] at h
    subst h
    rfl

theorem MemDb.putAt_refs (e : MEnv) (s : MemDb) (t : Int) (k : UInt64) (d : Bytes) :
    (s.putAt e t k d).1.heap.length = s.heap.length ∧ (s.putAt e t k d).1.mark = s.mark ∧ (s.putAt e t k d).1.qblocks = s.qblocks ∧
      ∀ a, ((s.putAt e t k d).1.at a).timeRefs = (s.at a).timeRefs := by
  simp only [MemDb.putAt]
  split
  · simp
  · split
    · simp
    · next a ha =>
      split
      · simp
      · next b hb =>
        refine ⟨by simp [MemDb.addTimeFilter, MemDb.setAt], rfl, rfl, fun a' => ?_⟩
        show ((s.setAt a b).at a').timeRefs = _
        have hr := MBlock.put_refs hb
        simp only [MemDb.at, MemDb.setAt, List.getD_eq_getElem?_getD] at hr ⊢
        rw [List.getElem?_set]
        split
        · next e' =>
          subst e'
          split
          · next hl => rw [Option.getD_some, hr]
          · next hl => rw [List.getElem?_eq_none (by omega)]
        · rfl

theorem MemDb.recPuts_refs (e : MEnv) (t : Int) (kvs : List (UInt64 × Bytes)) : ∀ s : MemDb,
    (s.recPuts e t kvs).1.heap.length = s.heap.length ∧ (s.recPuts e t kvs).1.mark = s.mark ∧ (s.recPuts e t kvs).1.qblocks = s.qblocks ∧
      (s.recPuts e t kvs).1.blocks = s.blocks ∧ ∀ a, ((s.recPuts e t kvs).1.at a).timeRefs = (s.at a).timeRefs := by
  induction kvs with
  | nil => intro s; simp [MemDb.recPuts]
  | cons p kvs ih =>
    obtain ⟨k, d⟩ := p
    intro s
    obtain ⟨h1, h2, h3, h4⟩ := s.putAt_refs e t k d
    have h5 := s.put_blocks e t k d
    simp only [MemDb.recPuts]
    cases hp : s.putAt e t k d with
    | mk s' o =>
      rw [hp] at h1 h2 h3 h4 h5
      by_cases ho : o = .ok
      · subst ho
        simp only at h1 h2 h3 h4 h5 ⊢
        obtain ⟨i1, i2, i3, i4, i5⟩ := ih s'
        exact ⟨i1.trans h1, i2.trans h2, i3.trans h3, i4.trans h5, fun a => (i5 a).trans (h4 a)⟩
      · cases o <;> first | exact absurd rfl ho | exact ⟨h1, h2, h3, h5, h4⟩

/-- One log. -/
theorem RecRefs.log {e : MEnv} {r : RecEnv} {s : MemDb} {ids : List Int} (h : RecRefs r s ids) {dels dels' : AMap Int (List UInt64)} {id : Int}
    {data : Bytes} {s' : MemDb} (hl : s.recLog e r dels id data = some (s', dels', .ok)) : RecRefs r s' (ids ++ [id]) := by
  simp only [MemDb.recLog, Option.map_eq_some_iff] at hl
  obtain ⟨rs, _, hl⟩ := hl
  obtain ⟨t, ht⟩ : ∃ t, t = truncTime r.interval id := ⟨_, rfl⟩
  rw [← ht] at hl
  obtain ⟨h1, h2, h3, h4, h5⟩ := MemDb.recPuts_refs e t (r.orderLog (logPuts rs)) (s.rotate t)
  cases hp : (s.rotate t).recPuts e t (r.orderLog (logPuts rs)) with
  | mk s1 o =>
    rw [hp] at hl h1 h2 h3 h4 h5
    simp only at h1 h2 h3 h4 h5
    have ho : o = .ok := by
      cases o <;> first | rfl | (simp at hl)
    subst ho
    simp only [Option.some.injEq, Prod.mk.injEq] at hl
    obtain ⟨hs, -, -⟩ := hl
    -- the state after the rotation
    have hready := s.rotate_ready t
    obtain ⟨a, ha⟩ := Option.isSome_iff_exists.mp hready
    have hrc : (s.rotate t).cur = t := rfl
    rw [hrc] at ha
    have hadr : ∀ t' a', (s.rotate t).blocks.get t' = some a' → a' < (s.rotate t).heap.length := by
      intro t' a' h'
      simp only [MemDb.rotate, MemDb.addTimeBlock] at h' ⊢
      cases hb : s.blocks.get t with
      | some b => rw [hb] at h'; exact h.addr t' a' h'
      | none =>
        rw [hb] at h'
        simp only [List.length_append, List.length_singleton] at h' ⊢
        rw [AMap.get_set] at h'
        split at h'
        · simp only [Option.some.injEq] at h'; omega
        · have := h.addr t' a' h'; omega
    have hkeep : ∀ t' a', s.blocks.get t' = some a' → (s.rotate t).blocks.get t' = some a' ∧ (s.rotate t).at a' = s.at a' := by
      intro t' a' h'
      simp only [MemDb.rotate, MemDb.addTimeBlock]
      cases hb : s.blocks.get t with
      | some b => exact ⟨h', rfl⟩
      | none =>
        have hlt := h.addr t' a' h'
        refine ⟨?_, ?_⟩
        · show AMap.get (s.blocks.set t s.heap.length) t' = some a'
          rw [AMap.get_set_ne]
          · exact h'
          · intro hc; rw [hc, hb] at h'; simp at h'
        · simp only [MemDb.at, List.getD_eq_getElem?_getD]
          rw [List.getElem?_append_left hlt]
    have hmark : (s.rotate t).mark = s.mark.add t := by
      simp only [MemDb.rotate, MemDb.addTimeBlock]
      split <;> rfl
    have hq : (s.rotate t).qblocks = s.qblocks := (s.rotate_same t).2
    rw [h4, ha] at hs
    simp only at hs
    have halt : a < s1.heap.length := by rw [h1]; exact hadr t a ha
    have hat := fun a' => s1.at_setAt a a' { s1.at a with timeRefs := (s1.at a).timeRefs ++ [id] } halt
    have hm1 : (s1.setAt a { s1.at a with timeRefs := (s1.at a).timeRefs ++ [id] }).mark = s.mark.add t := by
      show s1.mark = _
      rw [h2, hmark]
    have hrel : s'.mark.released = s.mark.released.set t t := by
      rw [← hs, hm1]
      simp only [TimeMark.release, TimeMark.add, AMap.get_set_self]
      rfl
    have hbl : s'.blocks = (s.rotate t).blocks := by rw [← hs]; exact h4
    have hlen : s'.heap.length = (s.rotate t).heap.length := by
      rw [← hs]
      show (s1.heap.set _ _).length = _
      rw [List.length_set]; exact h1
    have hrefs : ∀ a', (s'.at a').timeRefs = (s.rotate t |>.at a').timeRefs ++ if a' = a then [id] else [] := by
      intro a'
      rw [← hs]
      show ((s1.setAt a { s1.at a with timeRefs := (s1.at a).timeRefs ++ [id] }).at a').timeRefs = _
      rw [hat]
      split
      · next e' => subst e'; simp only [h5]
      · simp only [h5, List.append_nil]
    refine ⟨?_, ?_, ?_, ?_, ?_, ?_, ?_⟩
    · intro t' a' h'
      rw [hlen]; rw [hbl] at h'; exact hadr t' a' h'
    · intro id' hid
      rw [hbl]
      rcases List.mem_append.1 hid with hid | hid
      · obtain ⟨a', g1, g2⟩ := h.refs id' hid
        obtain ⟨k1, k2⟩ := hkeep _ _ g1
        exact ⟨a', k1, by rw [hrefs, k2]; exact List.mem_append_left _ g2⟩
      · simp only [List.mem_singleton] at hid
        subst hid
        rw [← ht]
        exact ⟨a, ha, by rw [hrefs, if_pos rfl]; simp⟩
    · intro id' hid
      rw [hrel, AMap.mem_keys, AMap.get_set]
      rcases List.mem_append.1 hid with hid | hid
      · split
        · rfl
        · rw [← AMap.mem_keys]; exact h.done id' hid
      · simp only [List.mem_singleton] at hid
        subst hid
        rw [if_pos ht.symm]; rfl
    · intro p hp
      rw [hrel] at hp
      have hn := h.nodup.set t t
      have := hn.get_of_mem (k := p.1) (v := p.2) hp
      rw [AMap.get_set] at this
      split at this
      · next e' => simp only [Option.some.injEq] at this; rw [← this, e']
      · exact h.same _ (AMap.mem_of_get _ this)
    · intro p hp
      rw [hrel] at hp
      have hn := h.nodup.set t t
      have := hn.get_of_mem (k := p.1) (v := p.2) hp
      rw [AMap.get_set] at this
      split at this
      · next e' => exact ⟨id, by simp, by rw [← ht, e']⟩
      · obtain ⟨id', g1, g2⟩ := h.only _ (AMap.mem_of_get _ this)
        exact ⟨id', List.mem_append_left _ g1, g2⟩
    · rw [hrel]; exact h.nodup.set t t
    · rw [← hs]
      show s1.qblocks = []
      rw [h3, hq]; exact h.unread

theorem RecRefs.logs {e : MEnv} {r : RecEnv} (logs : List (Int × Bytes)) : ∀ {s : MemDb} {ids : List Int} {dels dels' : AMap Int (List UInt64)} {s' : MemDb},
    RecRefs r s ids → s.recLogs e r dels logs = some (s', dels', .ok) → RecRefs r s' (ids ++ logs.map (·.1)) := by
  induction logs with
  | nil =>
    intro s ids dels dels' s' h hl
    simp only [MemDb.recLogs, Option.some.injEq, Prod.mk.injEq] at hl
    obtain ⟨rfl, -, -⟩ := hl
    simpa using h
  | cons l logs ih =>
    obtain ⟨id, data⟩ := l
    intro s ids dels dels' s' h hl
    simp only [MemDb.recLogs, Option.bind_eq_some_iff] at hl
    obtain ⟨⟨s1, d1, o1⟩, hx, hl⟩ := hl
    by_cases ho : o1 = .ok
    · subst ho
      simp only at hl
      have := ih (h.log hx) hl
      simpa using this
    · have : s' = s1 ∧ dels' = d1 ∧ MOut.ok = o1 := by
        cases o1 <;> first | exact absurd rfl ho | (simp at hl)
      exact absurd this.2.2.symm ho

theorem MemDb.recLog_rest {e : MEnv} {r : RecEnv} {s : MemDb} {dels dels' : AMap Int (List UInt64)} {id : Int}
    {data : Bytes} {s' : MemDb} (hl : s.recLog e r dels id data = some (s', dels', .ok)) (h0 : ∀ t n, s.mark.records.get t = some n → n = 1) :
    (∀ t n, s'.mark.records.get t = some n → n = 1) ∧ ∀ t, (s'.blocks.get t).isSome → (s.blocks.get t).isSome ∨ truncTime r.interval id = t := by
  simp only [MemDb.recLog, Option.map_eq_some_iff] at hl
  obtain ⟨rs, _, hl⟩ := hl
  obtain ⟨t, ht⟩ : ∃ t, t = truncTime r.interval id := ⟨_, rfl⟩
  rw [← ht] at hl ⊢
  obtain ⟨h1, h2, h3, h4, h5⟩ := MemDb.recPuts_refs e t (r.orderLog (logPuts rs)) (s.rotate t)
  cases hp : (s.rotate t).recPuts e t (r.orderLog (logPuts rs)) with
  | mk s1 o =>
    rw [hp] at hl h1 h2 h3 h4 h5
    simp only at h1 h2 h3 h4 h5
    have ho : o = .ok := by
      cases o <;> first | rfl | (simp at hl)
    subst ho
    simp only [Option.some.injEq, Prod.mk.injEq] at hl
    obtain ⟨hs, -, -⟩ := hl
    have hmark : (s.rotate t).mark = s.mark.add t := by
      simp only [MemDb.rotate, MemDb.addTimeBlock]
      split <;> rfl
    have hbl : s'.blocks = (s.rotate t).blocks := by
      rw [← hs]
      show (match s1.blocks.get t with
        | some a => s1.setAt a { s1.at a with timeRefs := (s1.at a).timeRefs ++ [id] }
        | none => s1).blocks = _
      split <;> exact h4
    have hrec : s'.mark.records = (s.mark.records.set t 1).del t := by
      have : s'.mark = (s.mark.add t).release t := by
        rw [← hs, ← hmark, ← h2]
        show TimeMark.release (match s1.blocks.get t with
          | some a => s1.setAt a { s1.at a with timeRefs := (s1.at a).timeRefs ++ [id] }
          | none => s1).mark t = _
        split <;> rfl
      rw [this]
      simp only [TimeMark.release, TimeMark.add, AMap.get_set_self]
      rfl
    refine ⟨?_, ?_⟩
    · intro t' n h
      rw [hrec, AMap.get_del] at h
      split at h
      · cases h
      · next hne =>
        rw [AMap.get_set_ne _ _ hne] at h
        exact h0 t' n h
    · intro t' h
      rw [hbl] at h
      simp only [MemDb.rotate, MemDb.addTimeBlock] at h
      split at h
      · exact .inl h
      · simp only [AMap.get_set] at h
        split at h
        · next e' => exact .inr e'.symm
        · exact .inl h

theorem MemDb.recLogs_rest {e : MEnv} {r : RecEnv} (logs : List (Int × Bytes)) : ∀ {s : MemDb} {dels dels' : AMap Int (List UInt64)} {s' : MemDb},
    s.recLogs e r dels logs = some (s', dels', .ok) → (∀ t n, s.mark.records.get t = some n → n = 1) →
    (∀ t n, s'.mark.records.get t = some n → n = 1) ∧ ∀ t, (s'.blocks.get t).isSome → (s.blocks.get t).isSome ∨ ∃ l ∈ logs, truncTime r.interval l.1 = t := by
  induction logs with
  | nil =>
    intro s dels dels' s' hl h0
    simp only [MemDb.recLogs, Option.some.injEq, Prod.mk.injEq] at hl
    obtain ⟨rfl, -, -⟩ := hl
    exact ⟨h0, fun t h => .inl h⟩
  | cons l logs ih =>
    obtain ⟨id, data⟩ := l
    intro s dels dels' s' hl h0
    simp only [MemDb.recLogs, Option.bind_eq_some_iff] at hl
    obtain ⟨⟨s1, d1, o1⟩, hx, hl⟩ := hl
    by_cases ho : o1 = .ok
    · subst ho
      simp only at hl
      obtain ⟨g1, g2⟩ := MemDb.recLog_rest hx h0
      obtain ⟨k1, k2⟩ := ih hl g1
      refine ⟨k1, fun t h => ?_⟩
      rcases k2 t h with h | ⟨l, hl, h⟩
      · rcases g2 t h with h | h
        · exact .inl h
        · exact .inr ⟨(id, data), List.mem_cons_self, h⟩
      · exact .inr ⟨l, List.mem_cons_of_mem _ hl, h⟩
    · have : s' = s1 ∧ dels' = d1 ∧ MOut.ok = o1 := by
        cases o1 <;> first | exact absurd rfl ho | (simp at hl)
      exact absurd this.2.2.symm ho

/-- Recovery of logs without deletes: the map, where each key is, which blocks are released and which logs they refer to. -/
theorem MemDb.recover_puts {e : MEnv} {r : RecEnv} (hlog : ∀ l, (r.orderLog l).Perm l)
    (hdel : ∀ l, (r.orderDel l).Perm l) {logs : List (Int × List LogRec)} {now : Int} (hfit : ∀ l ∈ logs, ∀ x ∈ l.2, x.fits)
    (hputs : ∀ l ∈ logs, ∀ x ∈ l.2, ∃ k d, x = LogRec.put k d)
    (hids : logs.Pairwise fun a b => a.1 ≤ b.1) (hdis : logs.Pairwise fun a b => ∀ k d d', LogRec.put k d ∈ a.2 → LogRec.put k d' ∉ b.2)
    (hcap : ∀ l ∈ logs, (e.cap : Int) ≤ truncTime r.interval l.1) (hcn : (e.cap : Int) ≤ now) (hnow : ∀ l ∈ logs, truncTime r.interval l.1 < now)
    {m : MemDb} (hm : MemDb.recover e r (logs.map encLog) now = some (m, .ok)) :
    MInv e m (Spec.lastPut (logs.flatMap (·.2))) ∧ (m.blocks.get m.cur).isSome ∧ m.cur = now ∧
      (∀ t q, m.Where t q ↔ ∃ l ∈ logs, truncTime r.interval l.1 = t ∧ ∃ d, LogRec.put q d ∈ l.2) ∧
      RecRefs r m (logs.map (·.1)) ∧ (∀ t n, m.mark.records.get t = some n → n = 1) ∧ (m.mark.records.get now).isSome ∧
      ∀ t a, m.blocks.get t = some a → t = now ∧ m.at a = {} ∨ ∃ l ∈ logs, truncTime r.interval l.1 = t := by
  simp only [MemDb.recover, Option.map_eq_some_iff] at hm
  obtain ⟨⟨s1, dels, o⟩, hl, hm⟩ := hm
  simp only [Prod.mk.injEq] at hm
  obtain ⟨hm, ho⟩ := hm
  subst ho
  generalize hf : firstTime r (logs.map encLog) now = first at hl
  have hfirst : (e.cap : Int) ≤ first ∧ first ≤ now ∧ ∀ l ∈ logs, first ≤ truncTime r.interval l.1 := by
    cases logs with
    | nil => simp [firstTime] at hf; subst hf; exact ⟨hcn, Int.le_refl _, by simp⟩
    | cons l logs =>
      simp only [List.map_cons, encLog, firstTime] at hf
      subst hf
      refine ⟨hcap l List.mem_cons_self, Int.le_of_lt (hnow l List.mem_cons_self), ?_⟩
      intro l' hl'
      rcases List.mem_cons.mp hl' with rfl | hl'
      · exact Int.le_refl _
      · exact truncTime_mono _ ((List.pairwise_cons.mp hids).1 l' hl')
  have h0 : RecInv e r ({ cur := first } : MemDb) [] [] :=
    ⟨MInv.blank e first hfirst.1, by simp, by simp, AMap.Nodup.nil, by simp⟩
  obtain ⟨s1', dels', o', hl', hgood⟩ := h0.logs r hlog logs hfit hfirst.2.2 hids (by simp) hdis
  have hl2 : MemDb.recLogs e r { cur := first } [] (logs.map encLog) = some (s1', dels', o') := hl'
  rw [hl] at hl2
  simp only [Option.some.injEq, Prod.mk.injEq] at hl2
  obtain ⟨rfl, rfl, rfl⟩ := hl2
  obtain ⟨hI, hc⟩ := hgood rfl
  rw [List.nil_append] at hI
  -- no deletes
  have hnd : ∀ p ∈ r.orderDel dels, p.2 = [] := by
    intro p hp
    have h1 := hI.nodup.get_of_mem (k := p.1) (v := p.2) ((hdel dels).mem_iff.1 hp)
    rw [List.eq_nil_iff_forall_not_mem]
    intro k hk
    have h2 := (hI.dels p.1 k).1 (by rw [h1]; exact hk)
    obtain ⟨l, hl, hx⟩ := List.mem_flatMap.1 h2
    obtain ⟨k', d', hx'⟩ := hputs l hl _ hx
    simp at hx'
  have hfold : ∀ (l : List (Int × List UInt64)) (s : MemDb), (∀ p ∈ l, p.2 = []) → l.foldl (fun s p => s.recDels e p.1 p.2) s = s := by
    intro l
    induction l with
    | nil => intro s _; rfl
    | cons p l ih =>
      intro s hp
      rw [List.foldl_cons, hp p List.mem_cons_self]
      have : s.recDels e p.1 [] = s := by
        simp only [MemDb.recDels]
        split <;> rfl
      rw [this]
      exact ih s fun q hq => hp q (List.mem_cons_of_mem _ hq)
  rw [hfold _ _ hnd] at hm
  have hcur : s1.cur ≤ now := by
    by_cases hx : ∀ l ∈ logs, s1.cur ≠ truncTime r.interval l.1
    · rw [hc hx]; exact hfirst.2.1
    · simp only [not_forall, not_not] at hx
      obtain ⟨l, hlm, hle⟩ := hx
      rw [hle]; exact Int.le_of_lt (hnow l hlm)
  have hR := hI.inv.rotate now hcur
  have hb0 : RecRefs r ({ cur := first } : MemDb) [] :=
    ⟨by simp, by simp, by simp, by simp, by simp, AMap.Nodup.nil, rfl⟩
  have hRR := hb0.logs _ hl
  rw [List.nil_append] at hRR
  subst hm
  obtain ⟨r1, r2⟩ := MemDb.recLogs_rest _ hl (by simp)
  have hmark : (s1.rotate now).mark = s1.mark.add now := by
    simp only [MemDb.rotate, MemDb.addTimeBlock]
    split <;> rfl
  have hold : ∀ t, (s1.blocks.get t).isSome → ∃ l ∈ logs, truncTime r.interval l.1 = t := by
    intro t h
    rcases r2 t h with h | ⟨l, hl, h⟩
    · simp at h
    · obtain ⟨l', hl', rfl⟩ := List.mem_map.1 hl
      exact ⟨l', hl', h⟩
  refine ⟨hR, s1.rotate_ready now, rfl, ?_, ?_, ?_, ?_, ?_⟩
  rotate_left 2
  · intro t n h
    rw [hmark] at h
    simp only [TimeMark.add, AMap.get_set] at h
    split at h
    · exact (Option.some.inj h).symm
    · exact r1 t n h
  · rw [hmark]
    simp [TimeMark.add, AMap.get_set]
  · intro t a h
    simp only [MemDb.rotate, MemDb.addTimeBlock] at h
    cases hb : s1.blocks.get now with
    | some b =>
      rw [hb] at h
      exact .inr (hold t (by simp only at h; rw [h]; rfl))
    | none =>
      rw [hb] at h
      simp only [AMap.get_set] at h
      split at h
      · next e' =>
        simp only [Option.some.injEq] at h
        refine .inl ⟨e', ?_⟩
        subst h
        simp [MemDb.rotate, MemDb.addTimeBlock, hb, MemDb.at, List.getD_eq_getElem?_getD]
      · exact .inr (hold t (by rw [h]; rfl))
  · intro t q
    rw [hI.inv.where_rotate]
    constructor
    · intro hw
      have h1 := (hI.inv.where_iff q).1 ⟨t, hw⟩
      obtain ⟨d, hd⟩ := (Spec.lastPut_isSome _ q).1 h1
      obtain ⟨l, hl, hx⟩ := List.mem_flatMap.1 hd
      obtain ⟨a, g1, g2⟩ := hI.place l hl q d hx
      exact ⟨l, hl, hI.inv.where_uniq ⟨a, g1, g2⟩ hw, d, hx⟩
    · rintro ⟨l, hl, rfl, d, hx⟩
      exact hI.place l hl q d hx
  · -- the rotation
    have hids' : (logs.map encLog).map (·.1) = logs.map (·.1) := by rw [List.map_map]; rfl
    rw [hids'] at hRR
    have hkeep : ∀ t' a', s1.blocks.get t' = some a' → (s1.rotate now).blocks.get t' = some a' ∧ (s1.rotate now).at a' = s1.at a' := by
      intro t' a' h'
      simp only [MemDb.rotate, MemDb.addTimeBlock]
      cases hb : s1.blocks.get now with
      | some b => exact ⟨h', rfl⟩
      | none =>
        have hlt := hRR.addr t' a' h'
        refine ⟨?_, ?_⟩
        · show AMap.get (s1.blocks.set now s1.heap.length) t' = some a'
          rw [AMap.get_set_ne]
          · exact h'
          · intro hc; rw [hc, hb] at h'; simp at h'
        · simp only [MemDb.at, List.getD_eq_getElem?_getD]
          rw [List.getElem?_append_left hlt]
    refine ⟨?_, ?_, ?_, ?_, ?_, ?_, ?_⟩
    · intro t a h; exact (hR.addr t a h).1
    · intro id hid
      obtain ⟨a, g1, g2⟩ := hRR.refs id hid
      obtain ⟨k1, k2⟩ := hkeep _ _ g1
      exact ⟨a, k1, by rw [k2]; exact g2⟩
    · rw [hmark]; exact hRR.done
    · rw [hmark]; exact hRR.same
    · rw [hmark]; exact hRR.only
    · rw [hmark]; exact hRR.nodup
    · rw [(s1.rotate_same now).2]; exact hRR.unread

end Verif
