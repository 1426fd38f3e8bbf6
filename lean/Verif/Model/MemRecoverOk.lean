import Verif.Model.MemReopen
import Verif.Model.DbSyncStep

/-!
# Recovery of the in-memory store does not overflow its blocks

If the logs that go to one time block fit it, every log is recovered.
-/

namespace Verif

/-- The block of time `t` holds at most `f t` bytes. -/
structure Filled (s : MemDb) (f : Int → Nat) : Prop where
  opened : s.closed = false
  addr : ∀ t a, s.blocks.get t = some a → a < s.heap.length
  inj : ∀ t t' a, s.blocks.get t = some a → s.blocks.get t' = some a → t = t'
  size : ∀ t a, s.blocks.get t = some a → (s.at a).data.length ≤ f t

theorem MBlock.put_fits {cap : Nat} {b : MBlock} {k : MKey} {d : Bytes} (h : b.data.length + (d.length + 13) ≤ cap) :
    ∃ b', b.put cap k d = some b' ∧ b'.data.length = b.data.length + (d.length + 13) := by
  have hn : ¬ cap < b.data.length + (d.length + 8 + 1 + 4) := by omega
  have : ∃ b', b.put cap k d = some b' := by
    simp only [MBlock.put, if_neg hn]
    exact ⟨_, rfl⟩
  obtain ⟨b', hb⟩ := this
  refine ⟨b', hb, ?_⟩
  rw [(MBlock.put_bytes hb).1, List.length_append, length_encRec]

theorem Filled.putAt {s : MemDb} {f : Int → Nat} (H : Filled s f) {e : MEnv} {t : Int} (k : UInt64) {d : Bytes} (hb : (s.blocks.get t).isSome)
    (hs : f t + (d.length + 13) ≤ e.cap) :
    ∃ s', s.putAt e t k d = (s', .ok) ∧ s'.blocks = s.blocks ∧ Filled s' fun x => if x = t then f t + (d.length + 13) else f x := by
  obtain ⟨a, ha⟩ := Option.isSome_iff_exists.1 hb
  have h1 := H.size t a ha
  obtain ⟨b', hb1, hb2⟩ := MBlock.put_fits (cap := e.cap) (b := s.at a) (k := ⟨false, k⟩) (d := d) (by omega)
  refine ⟨(s.setAt a b').addTimeFilter e t k, ?_, ?_, ?_⟩
  · simp only [MemDb.putAt, H.opened, Bool.false_eq_true, if_false, ha, hb1]
  · rfl
  · refine ⟨H.opened, ?_, H.inj, ?_⟩
    · intro t' a' h
      show a' < (s.heap.set a b').length
      rw [List.length_set]; exact H.addr t' a' h
    · intro t' a' h
      have h : s.blocks.get t' = some a' := h
      show ((s.setAt a b').at a').data.length ≤ _
      rw [MemDb.at_setAt _ _ _ _ (H.addr t a ha)]
      by_cases e' : a' = a
      · rw [if_pos e', hb2]
        rw [e'] at h
        rw [if_pos (H.inj t' t a h ha)]
        omega
      · rw [if_neg e']
        have : t' ≠ t := by
          intro hc
          rw [hc, ha] at h
          exact e' (Option.some.inj h).symm
        rw [if_neg this]
        exact H.size t' a' h

/-- The bytes the puts take. -/
def putBytes (kvs : List (UInt64 × Bytes)) : Nat := (kvs.map fun p => p.2.length + 13).sum

theorem Filled.recPuts {e : MEnv} {t : Int} (kvs : List (UInt64 × Bytes)) : ∀ {s : MemDb} {f : Int → Nat}, Filled s f → (s.blocks.get t).isSome →
    f t + putBytes kvs ≤ e.cap →
    ∃ s', s.recPuts e t kvs = (s', .ok) ∧ s'.blocks = s.blocks ∧ Filled s' fun x => if x = t then f t + putBytes kvs else f x := by
  induction kvs with
  | nil =>
    intro s f H _ _
    refine ⟨s, rfl, rfl, H.opened, H.addr, H.inj, ?_⟩
    intro t' a h
    simp only [putBytes, List.map_nil, List.sum_nil, Nat.add_zero]
    split
    · next e => rw [← e]; exact H.size t' a h
    · exact H.size t' a h
  | cons p kvs ih =>
    obtain ⟨k, d⟩ := p
    intro s f H hb hs
    simp only [putBytes, List.map_cons, List.sum_cons] at hs ih ⊢
    obtain ⟨s1, h1, h2, h3⟩ := H.putAt (e := e) k (d := d) hb (by omega)
    obtain ⟨s2, g1, g2, g3⟩ := ih h3 (by rw [h2]; exact hb) (by rw [if_pos rfl]; omega)
    refine ⟨s2, ?_, g2.trans h2, g3.opened, g3.addr, g3.inj, ?_⟩
    · simp only [MemDb.recPuts, h1, g1]
    · intro t' a h
      have := g3.size t' a h
      rw [if_pos rfl] at this
      split at this
      · next e => rw [if_pos e]; omega
      · next e => rw [if_neg e]; exact this

theorem putBytes_perm {a b : List (UInt64 × Bytes)} (h : a.Perm b) : putBytes a = putBytes b := (h.map _).sum_nat

theorem putBytes_del (m : AMap UInt64 Bytes) (k : UInt64) : putBytes (m.del k) ≤ putBytes m := by
  simp only [putBytes, AMap.del]
  exact (List.filter_sublist.map _).sum_le_sum (by simp)

theorem logPuts_size (rs : List LogRec) : putBytes (logPuts rs) ≤ (rs.flatMap fun x => encRec x.enc).length := by
  suffices ∀ (rs : List LogRec) (m : AMap UInt64 Bytes),
      putBytes (rs.foldl (fun m r => match r with | .put k d => AMap.set m k d | .del _ _ => m) m) ≤ putBytes m + (rs.flatMap fun x => encRec x.enc).length by
    have h := this rs []
    have h0 : putBytes [] = 0 := rfl
    rw [h0, Nat.zero_add] at h
    exact h
  intro rs
  induction rs with
  | nil => intro m; simp
  | cons x rs ih =>
    intro m
    rw [List.foldl_cons, List.flatMap_cons, List.length_append, length_encRec]
    cases x with
    | put k d =>
      refine (ih _).trans ?_
      have h1 := putBytes_del m k
      have h2 : putBytes (m.set k d) = d.length + 13 + putBytes (m.del k) := rfl
      simp only [LogRec.enc]
      omega
    | del ref k =>
      refine (ih m).trans ?_
      omega

theorem Filled.rotate {s : MemDb} {f : Int → Nat} (H : Filled s f) (t : Int) : Filled (s.rotate t) f ∧ ((s.rotate t).blocks.get t).isSome := by
  simp only [MemDb.rotate, MemDb.addTimeBlock]
  cases hb : s.blocks.get t with
  | some a => exact ⟨⟨H.opened, H.addr, H.inj, H.size⟩, by rw [hb]; rfl⟩
  | none =>
    refine ⟨⟨H.opened, ?_, ?_, ?_⟩, by simp only [AMap.get_set_self]; rfl⟩
    · intro t' a h
      simp only [AMap.get_set] at h
      simp only [List.length_append, List.length_singleton]
      split at h
      · simp only [Option.some.injEq] at h; omega
      · have := H.addr t' a h; omega
    · intro t1 t2 a h1 h2
      simp only [AMap.get_set] at h1 h2
      split at h1 <;> split at h2
      · next e1 e2 => rw [e1, e2]
      · simp only [Option.some.injEq] at h1
        have := H.addr t2 a h2; omega
      · simp only [Option.some.injEq] at h2
        have := H.addr t1 a h1; omega
      · exact H.inj t1 t2 a h1 h2
    · intro t' a h
      simp only [AMap.get_set] at h
      simp only [MemDb.at, List.getD_eq_getElem?_getD]
      split at h
      · simp only [Option.some.injEq] at h
        subst h
        simp
      · have := H.addr t' a h
        rw [List.getElem?_append_left this]
        have := H.size t' a h
        simp only [MemDb.at, List.getD_eq_getElem?_getD] at this
        exact this

/-- The bytes of the logs that go to the block of time `t`. -/
def logBytes (r : RecEnv) (logs : List (Int × Bytes)) (t : Int) : Nat :=
  ((logs.filter fun l => truncTime r.interval l.1 = t).map fun l => l.2.length).sum

theorem logBytes_cons (r : RecEnv) (l : Int × Bytes) (logs : List (Int × Bytes)) (t : Int) :
    logBytes r (l :: logs) t = (if truncTime r.interval l.1 = t then l.2.length else 0) + logBytes r logs t := by
  simp only [logBytes, List.filter_cons]
  by_cases h : truncTime r.interval l.1 = t
  · simp [h]
  · simp [h]

theorem Filled.recLogs {e : MEnv} {r : RecEnv} (hlog : ∀ l, (r.orderLog l).Perm l) (logs : List (Int × List LogRec)) :
    (∀ l ∈ logs, ∀ x ∈ l.2, x.fits) → ∀ {s : MemDb} {f : Int → Nat} (dels : AMap Int (List UInt64)), Filled s f →
    (∀ l ∈ logs, f (truncTime r.interval l.1) + logBytes r (logs.map encLog) (truncTime r.interval l.1) ≤ e.cap) →
    ∃ s' dels', s.recLogs e r dels (logs.map encLog) = some (s', dels', .ok) := by
  induction logs with
  | nil => intro _ s f dels _ _; exact ⟨s, dels, rfl⟩
  | cons l logs ih =>
    intro hfit s f dels H hs
    obtain ⟨t, ht⟩ : ∃ t, t = truncTime r.interval l.1 := ⟨_, rfl⟩
    obtain ⟨H1, hb⟩ := H.rotate t
    have hpar := parse_written r.extra l.2 (hfit l List.mem_cons_self) _ (le_refl _)
    have hsz : putBytes (r.orderLog (logPuts l.2)) ≤ (encLog l).2.length := by
      rw [putBytes_perm (hlog _)]; exact logPuts_size l.2
    have h0 := hs l List.mem_cons_self
    rw [List.map_cons, logBytes_cons] at h0
    have he : (encLog l).1 = l.1 := rfl
    rw [he, if_pos rfl, ← ht] at h0
    obtain ⟨s1, g1, g2, g3⟩ := H1.recPuts (e := e) (r.orderLog (logPuts l.2)) hb (by omega)
    obtain ⟨a, ha⟩ := Option.isSome_iff_exists.1 hb
    have hrl : s.recLog e r dels (encLog l).1 (encLog l).2 =
        some ({ s1.setAt a { s1.at a with timeRefs := (s1.at a).timeRefs ++ [l.1] } with mark := s1.mark.release t }, addDels dels l.2, .ok) := by
      simp only [MemDb.recLog, encLog, hpar, Option.map_some, ← ht, g1, g2, ha]
      rfl
    have H2 : Filled { s1.setAt a { s1.at a with timeRefs := (s1.at a).timeRefs ++ [l.1] } with mark := s1.mark.release t }
        (fun x => if x = t then f t + putBytes (r.orderLog (logPuts l.2)) else f x) := by
      refine ⟨g3.opened, ?_, g3.inj, ?_⟩
      · intro t' a' h
        show a' < (s1.heap.set a _).length
        rw [List.length_set]; exact g3.addr t' a' h
      · intro t' a' h
        have h : s1.blocks.get t' = some a' := h
        show ((s1.setAt a _).at a').data.length ≤ _
        rw [MemDb.at_setAt _ _ _ _ (g3.addr t a (by rw [g2]; exact ha))]
        have h3 := g3.size t' a' h
        split
        · next e' => rw [e'] at h3; exact h3
        · exact h3
    obtain ⟨s2, dels2, k⟩ := ih (fun l' hl' => hfit l' (List.mem_cons_of_mem _ hl')) (addDels dels l.2) H2 (by
      intro l' hl'
      have h1 := hs l' (List.mem_cons_of_mem _ hl')
      rw [List.map_cons, logBytes_cons, he] at h1
      split
      · next e' => rw [e'] at h1 ⊢; rw [← ht, if_pos rfl] at h1; omega
      · omega)
    refine ⟨s2, dels2, ?_⟩
    rw [List.map_cons]
    show ((s.recLog e r dels (encLog l).1 (encLog l).2).bind _) = _
    rw [hrl, Option.bind_some]
    exact k

/-- Every log is recovered. -/
theorem MemDb.recover_ok {e : MEnv} {r : RecEnv} (hlog : ∀ l, (r.orderLog l).Perm l) (logs : List (Int × List LogRec))
    (hfit : ∀ l ∈ logs, ∀ x ∈ l.2, x.fits) (now : Int) (hsize : ∀ l ∈ logs, logBytes r (logs.map encLog) (truncTime r.interval l.1) ≤ e.cap) :
    ∃ m, MemDb.recover e r (logs.map encLog) now = some (m, .ok) := by
  obtain ⟨s, d, h⟩ := Filled.recLogs (e := e) hlog logs hfit (s := { cur := firstTime r (logs.map encLog) now }) (f := fun _ => 0) []
    ⟨rfl, by intro t a h; simp at h, by intro t t' a h; simp at h, by intro t a h; simp at h⟩ (by intro l hl; simpa using hsize l hl)
  refine ⟨((r.orderDel d).foldl (fun s p => s.recDels e p.1 p.2) s).rotate now, ?_⟩
  simp only [MemDb.recover, h, Option.map_some]

end Verif
