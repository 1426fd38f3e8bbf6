import Verif.Model.MemDbInv

/-!
# Which time block holds a key

How the operations of the in-memory store move keys between blocks.
-/

namespace Verif

/-- The live block of time id `t` holds the key. -/
def MemDb.Where (s : MemDb) (t : Int) (q : UInt64) : Prop := ∃ a, s.blocks.get t = some a ∧ s.holds a q

/-- What a Get can change: the query cache. -/
def MemDb.SameData (s s' : MemDb) : Prop := ∃ qr qf qb, s' = { s with qrec := qr, qfilters := qf, qblocks := qb }

theorem MemDb.SameData.refl (s : MemDb) : s.SameData s := ⟨_, _, _, rfl⟩

theorem MemDb.SameData.trans {s s' s'' : MemDb} (h : s.SameData s') (h' : s'.SameData s'') : s.SameData s'' := by
  obtain ⟨_, _, _, rfl⟩ := h
  obtain ⟨_, _, _, rfl⟩ := h'
  exact ⟨_, _, _, rfl⟩

theorem MemDb.SameData.where_iff {s s' : MemDb} (h : s.SameData s') (t : Int) (q : UInt64) : s'.Where t q ↔ s.Where t q := by
  obtain ⟨_, _, _, rfl⟩ := h; exact Iff.rfl

theorem MemDb.seek_data (e : MEnv) (s s' : MemDb) (key : UInt64) (h : s.seek e key = some s') : s.SameData s' := by
  simp only [MemDb.seek] at h
  split at h
  · simp at h
  · simp only [Option.some.injEq] at h; subst h; exact ⟨_, _, _, rfl⟩

theorem MemDb.scanCache_data (e : MEnv) (s : MemDb) (key : UInt64) (ts : List Int) (r : MemDb × MOut) (h : s.scanCache e key ts = some r) :
    s.SameData r.1 := by
  induction ts with
  | nil => simp [MemDb.scanCache] at h
  | cons t ts ih =>
    simp only [MemDb.scanCache] at h
    split at h
    · exact ih h
    · split at h
      · simp only [Option.some.injEq] at h; subst h; exact ⟨_, _, _, rfl⟩
      · split at h
        · exact ih h
        · simp at h

theorem MemDb.tryCache_data (e : MEnv) (s : MemDb) (key : UInt64) (r : MemDb × MOut) (h : s.tryCache e key = some r) : s.SameData r.1 := by
  simp only [MemDb.tryCache] at h
  split at h
  · simp only [Option.some.injEq] at h; subst h; exact .refl s
  · exact s.scanCache_data e key _ r h

theorem MemDb.getFuel_data (e : MEnv) (n : Nat) (s : MemDb) (key : UInt64) : s.SameData (MemDb.getFuel e n s key).1 := by
  induction n generalizing s with
  | zero => exact .refl s
  | succ n ih =>
    simp only [MemDb.getFuel]
    split
    · exact .refl s
    · split
      · exact .refl s
      · next s' hs =>
        have hc : s.SameData s' := by
          split at hs
          · exact s.seek_data e s' key hs
          · simp only [Option.some.injEq] at hs; rw [hs]; exact .refl _
        split
        · next r hr => exact hc.trans (MemDb.tryCache_data e s' key r hr)
        · exact hc.trans (MemDb.SameData.trans ⟨_, _, _, rfl⟩ (ih _))

theorem MemDb.get_data (e : MEnv) (s : MemDb) (key : UInt64) : s.SameData (s.get e key).1 := MemDb.getFuel_data e 2 s key

/-- A put that is not answered with ok changes nothing. -/
theorem MemDb.put_fail (e : MEnv) (s : MemDb) (key : UInt64) (d : Bytes) (h : (s.put e key d).2 ≠ .ok) : (s.put e key d).1 = s := by
  simp only [MemDb.put, MemDb.putAt] at h ⊢
  split
  · rfl
  · split
    · rfl
    · split
      · rfl
      · next hc _ _ hb _ b hp => simp [hc, hb, hp] at h

theorem MInv.where_put {e : MEnv} {s : MemDb} {m : UInt64 → Option Bytes} (h : MInv e s m) (key : UInt64) (d : Bytes)
    (hok : (s.put e key d).2 = .ok) (t : Int) (q : UInt64) :
    (s.put e key d).1.Where t q ↔ s.Where t q ∨ (t = s.cur ∧ q = key) := by
  simp only [MemDb.put, MemDb.putAt, h.opened, Bool.false_eq_true, if_false] at hok ⊢
  cases hb : s.blocks.get s.cur with
  | none => simp [hb] at hok
  | some a =>
    simp only [hb] at hok ⊢
    cases hp : (s.at a).put e.cap ⟨false, key⟩ d with
    | none => simp [hp] at hok
    | some b =>
      simp only
      have halt := (h.addr _ a hb).1
      have hrec := (MBlock.put_fields hp).1
      have hat := fun a' => s.at_setAt a a' b halt
      have hh : ∀ a', ((s.setAt a b).addTimeFilter e s.cur key).holds a' q ↔ s.holds a' q ∨ (a' = a ∧ q = key) := by
        intro a'
        show (((s.setAt a b).at a').records.get ⟨false, q⟩).isSome = true ↔ _
        rw [hat]
        split
        · next e' =>
          subst e'
          rw [hrec, AMap.get_set]
          by_cases hq : q = key
          · simp [hq]
          · rw [if_neg (by simpa using hq)]; simp [hq, MemDb.holds]
        · next hne => simp [hne, MemDb.holds]
      constructor
      · rintro ⟨a', h1, h2⟩
        rcases (hh a').1 h2 with h2 | ⟨rfl, rfl⟩
        · exact .inl ⟨a', h1, h2⟩
        · exact .inr ⟨h.inj _ _ _ h1 hb, rfl⟩
      · rintro (⟨a', h1, h2⟩ | ⟨rfl, rfl⟩)
        · exact ⟨a', h1, (hh a').2 (.inl h2)⟩
        · exact ⟨a, hb, (hh a).2 (.inr ⟨rfl, rfl⟩)⟩

theorem MemDb.put_same (e : MEnv) (s : MemDb) (key : UInt64) (d : Bytes) :
    (s.put e key d).1.cur = s.cur ∧ (s.put e key d).1.blocks = s.blocks ∧ (s.put e key d).1.qblocks = s.qblocks ∧
    (s.put e key d).1.mark = s.mark := by
  simp only [MemDb.put, MemDb.putAt]
  split
  · simp
  · split
    · simp
    · split <;> exact ⟨rfl, rfl, rfl, rfl⟩

theorem MInv.where_rotate {e : MEnv} {s : MemDb} {m : UInt64 → Option Bytes} (h : MInv e s m) (t' t : Int) (q : UInt64) :
    (s.rotate t').Where t q ↔ s.Where t q := by
  simp only [MemDb.rotate, MemDb.addTimeBlock]
  cases hb : s.blocks.get t' with
  | some a => exact Iff.rfl
  | none =>
    simp only [MemDb.Where, MemDb.holds]
    constructor
    · rintro ⟨a, h1, h2⟩
      rw [AMap.get_set] at h1
      split at h1
      · simp only [Option.some.injEq] at h1
        subst h1
        simp [MemDb.at] at h2
      · refine ⟨a, h1, ?_⟩
        have ha := (h.addr _ _ h1).1
        simpa [MemDb.at, List.getElem?_append_left ha] using h2
    · rintro ⟨a, h1, h2⟩
      have ha := (h.addr _ _ h1).1
      refine ⟨a, ?_, by simpa [MemDb.at, List.getElem?_append_left ha] using h2⟩
      rw [AMap.get_set_ne]
      · exact h1
      · rintro rfl; rw [hb] at h1; simp at h1

theorem MemDb.rotate_same (s : MemDb) (t : Int) : (s.rotate t).cur = t ∧ (s.rotate t).qblocks = s.qblocks := by
  simp only [MemDb.rotate, MemDb.addTimeBlock]
  split <;> exact ⟨trivial, rfl⟩

theorem MInv.where_write {e : MEnv} {s : MemDb} {m : UInt64 → Option Bytes} (h : MInv e s m) (id t' : Int) (managed : Bool) (t : Int) (q : UInt64) :
    (s.write id t' managed).Where t q ↔ s.Where t q := by
  have key : (match s.blocks.get t' with
    | none => s
    | some a =>
      if (s.at a).data.drop (s.at a).lastOffset = [] then s else
      { s.setAt a { s.at a with lastOffset := (s.at a).data.length, timeRefs := (s.at a).timeRefs ++ [id] } with
        wal := s.wal.filter (fun l : Int × Bytes => l.1 ≠ id) ++ [(id, (s.at a).data.drop (s.at a).lastOffset)] }).Where t q ↔ s.Where t q := by
    cases hb : s.blocks.get t' with
    | none => exact Iff.rfl
    | some a =>
      simp only
      split
      · exact Iff.rfl
      · refine exists_congr fun a' => and_congr_right fun _ => ?_
        show (((s.setAt a _).at a').records.get ⟨false, q⟩).isSome = true ↔ ((s.at a').records.get ⟨false, q⟩).isSome = true
        rw [s.at_setAt a a' _ (h.addr _ _ hb).1]
        split
        · next e' => subst e'; exact Iff.rfl
        · exact Iff.rfl
  simp only [MemDb.write]
  cases managed with
  | true => exact key
  | false => exact key

theorem MemDb.write_qblocks (s : MemDb) (id t : Int) (managed : Bool) : (s.write id t managed).qblocks = s.qblocks := by
  simp only [MemDb.write]
  split <;> split <;> (try split) <;> rfl

theorem MemDb.where_release (s : MemDb) (t' t : Int) (q : UInt64) : (s.release t').1.Where t q ↔ t ≠ t' ∧ s.Where t q := by
  simp only [MemDb.release]
  cases hb : s.blocks.get t' with
  | none =>
    simp only
    constructor
    · intro hw
      refine ⟨?_, hw⟩
      rintro rfl
      obtain ⟨a, h1, _⟩ := hw
      rw [hb] at h1; simp at h1
    · exact fun h => h.2
  | some a =>
    simp only [MemDb.Where]
    constructor
    · rintro ⟨a', h1, h2⟩
      rw [AMap.get_del] at h1
      split at h1
      · simp at h1
      · next hne => exact ⟨hne, a', h1, h2⟩
    · rintro ⟨hne, a', h1, h2⟩
      exact ⟨a', by rw [AMap.get_del_ne _ hne]; exact h1, h2⟩

theorem MemDb.release_qblocks (s : MemDb) (t : Int) : (s.release t).1.qblocks = s.qblocks := by
  simp only [MemDb.release]; split <;> rfl

/-- A key the map holds is in a block, a key in a block is in the map. -/
theorem MInv.where_iff {e : MEnv} {s : MemDb} {m : UInt64 → Option Bytes} (h : MInv e s m) (q : UInt64) :
    (∃ t, s.Where t q) ↔ (m q).isSome := by
  constructor
  · rintro ⟨t, a, h1, h2⟩
    obtain ⟨off, ho⟩ := Option.isSome_iff_exists.mp h2
    obtain ⟨d, hd, _⟩ := h.value h1 ho
    simp [hd]
  · intro hm
    obtain ⟨d, hd⟩ := Option.isSome_iff_exists.mp hm
    obtain ⟨t, a, h1, h2⟩ := h.complete q d hd
    exact ⟨t, a, h1, h2⟩

theorem MInv.where_uniq {e : MEnv} {s : MemDb} {m : UInt64 → Option Bytes} (h : MInv e s m) {t t' : Int} {q : UInt64}
    (h1 : s.Where t q) (h2 : s.Where t' q) : t = t' := by
  obtain ⟨a, a1, a2⟩ := h1
  obtain ⟨b, b1, b2⟩ := h2
  exact h.uniq _ _ _ _ q a1 b1 a2 b2

end Verif
