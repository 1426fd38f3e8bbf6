import Verif.Base.Bytes

/-!
# Files

`os.File` as a byte list: `WriteAt` past the end leaves a hole of zeros, `ReadAt` past the end is an error, `Truncate` cuts or
pads with zeros. The operating system is assumed to do just that (trusted base).
-/

namespace Verif

/-- `File.Truncate`. -/
def truncate (f : Bytes) (n : Nat) : Bytes := f.take n ++ List.replicate (n - f.length) 0

/-- `File.WriteAt` for a non-negative offset; writing nothing changes nothing. -/
def writeAt (f : Bytes) (off : Nat) (d : Bytes) : Bytes :=
  if d = [] then f else patch (f ++ List.replicate (off - f.length) 0) off d

/-- file.go:169-173 `slice`: `ReadAt` into a buffer of length `end-start`; a negative offset or a read past the end is an error. -/
def readAt (f : Bytes) (off : Int) (n : Nat) : Option Bytes :=
  if 0 ≤ off then slice? f off.toNat (off.toNat + n) else none

theorem slice?_eq_some {f s : Bytes} {lo hi : Nat} (h : lo < hi) :
    slice? f lo hi = some s ↔ s.length = hi - lo ∧ ∀ i, i < hi - lo → f[lo + i]? = s[i]? := by
  unfold slice?
  constructor
  · intro hs
    split at hs
    · cases hs
      refine ⟨by simp; omega, fun i hi => ?_⟩
      rw [List.getElem?_take_of_lt hi, List.getElem?_drop]
    · cases hs
  · rintro ⟨h1, h2⟩
    have hle : hi ≤ f.length := by
      apply Decidable.byContradiction
      intro hc
      have := h2 (hi - lo - 1) (by omega)
      rw [List.getElem?_eq_none (by omega)] at this
      rw [List.getElem?_eq_getElem (by omega)] at this
      cases this
    rw [if_pos ⟨by omega, hle⟩]
    congr 1
    apply List.ext_getElem?
    intro i
    by_cases hi' : i < hi - lo
    · rw [List.getElem?_take_of_lt hi', List.getElem?_drop, h2 i hi']
    · rw [List.getElem?_eq_none (by simp; omega), List.getElem?_eq_none (by omega)]

theorem getElem?_writeAt (f d : Bytes) (off i : Nat) (hd : d ≠ []) :
    (writeAt f off d)[i]? =
      if i < off then (if i < f.length then f[i]? else some 0)
      else if i < off + d.length then d[i - off]? else f[i]? := by
  have hd' : 0 < d.length := List.length_pos_iff.2 hd
  have hl : off ≤ (f ++ List.replicate (off - f.length) (0 : UInt8)).length := by simp; omega
  simp only [writeAt, hd, if_false, patch]
  by_cases h1 : i < off
  · rw [if_pos h1, List.append_assoc, List.getElem?_append_left (by rw [List.length_take]; omega),
      List.getElem?_take_of_lt h1]
    by_cases h2 : i < f.length
    · rw [if_pos h2, List.getElem?_append_left h2]
    · rw [if_neg h2, List.getElem?_append_right (by omega), List.getElem?_replicate, if_pos (by omega)]
  · rw [if_neg h1]
    have ht : ((f ++ List.replicate (off - f.length) (0 : UInt8)).take off).length = off := by
      rw [List.length_take]; omega
    rw [List.append_assoc, List.getElem?_append_right (by omega), ht]
    by_cases h2 : i < off + d.length
    · rw [if_pos h2, List.getElem?_append_left (by omega)]
    · rw [if_neg h2, List.getElem?_append_right (by omega), List.getElem?_drop]
      have : off + d.length + (i - off - d.length) = i := by omega
      rw [this]
      by_cases h3 : i < f.length
      · rw [List.getElem?_append_left h3]
      · rw [List.getElem?_eq_none, List.getElem?_eq_none]
        · omega
        · simp; omega

theorem length_writeAt (f d : Bytes) (off : Nat) (hd : d ≠ []) :
    (writeAt f off d).length = max f.length (off + d.length) := by
  have hd' : 0 < d.length := List.length_pos_iff.2 hd
  simp only [writeAt, hd, if_false, patch, List.length_append, List.length_take, List.length_drop, List.length_replicate]
  omega

theorem writeAt_end (f d : Bytes) : writeAt f f.length d = f ++ d := by
  by_cases hd : d = []
  · simp [writeAt, hd]
  · simp [writeAt, hd, patch]

/-- Reading back what was written. -/
theorem slice?_writeAt_same (f d : Bytes) (off : Nat) (hd : d ≠ []) :
    slice? (writeAt f off d) off (off + d.length) = some d := by
  have hd' : 0 < d.length := List.length_pos_iff.2 hd
  rw [slice?_eq_some (by omega)]
  refine ⟨by omega, fun i hi => ?_⟩
  rw [getElem?_writeAt _ _ _ _ hd, if_neg (by omega), if_pos (by omega)]
  congr 1; omega

/-- A part of what was written. -/
theorem slice?_writeAt_part (f a m z : Bytes) (off : Nat) (hm : m ≠ []) :
    slice? (writeAt f off (a ++ m ++ z)) (off + a.length) (off + a.length + m.length) = some m := by
  have hm' : 0 < m.length := List.length_pos_iff.2 hm
  have hd : a ++ m ++ z ≠ [] := by simp [hm]
  rw [slice?_eq_some (by omega)]
  refine ⟨by omega, fun i hi => ?_⟩
  rw [getElem?_writeAt _ _ _ _ hd, if_neg (by omega), if_pos (by simp; omega),
    List.getElem?_append_left (by simp; omega), List.getElem?_append_right (by omega)]
  congr 1; omega

/-- A range apart from the written one keeps its bytes. -/
theorem slice?_writeAt_apart (f d : Bytes) (off lo hi : Nat) (hl : lo < hi) (hf : hi ≤ f.length)
    (h : hi ≤ off ∨ off + d.length ≤ lo) : slice? (writeAt f off d) lo hi = slice? f lo hi := by
  by_cases hd : d = []
  · simp [writeAt, hd]
  have hd' : 0 < d.length := List.length_pos_iff.2 hd
  obtain ⟨s, hs⟩ : ∃ s, slice? f lo hi = some s := ⟨_, by unfold slice?; rw [if_pos ⟨by omega, hf⟩]⟩
  rw [hs, slice?_eq_some hl]
  rw [slice?_eq_some hl] at hs
  refine ⟨hs.1, fun i hi' => ?_⟩
  rw [getElem?_writeAt _ _ _ _ hd, ← hs.2 i hi']
  by_cases h1 : lo + i < off
  · rw [if_pos h1, if_pos (by omega)]
  · rw [if_neg h1, if_neg (by omega)]

/-- A hole reads as zeros. -/
theorem slice?_writeAt_hole (f d : Bytes) (off lo hi : Nat) (hd : d ≠ []) (hl : lo < hi) (hf : f.length ≤ lo) (h : hi ≤ off) :
    slice? (writeAt f off d) lo hi = some (List.replicate (hi - lo) 0) := by
  rw [slice?_eq_some hl]
  refine ⟨by simp, fun i hi' => ?_⟩
  rw [getElem?_writeAt _ _ _ _ hd, if_pos (by omega), if_neg (by omega), List.getElem?_replicate, if_pos hi']

theorem slice?_prefix (f z : Bytes) (lo hi : Nat) (hf : hi ≤ f.length) :
    slice? (f ++ z) lo hi = slice? f lo hi := by
  unfold slice?
  by_cases hl : lo ≤ hi
  · rw [if_pos ⟨hl, by simp; omega⟩, if_pos ⟨hl, hf⟩, List.drop_append_of_le_length (by omega),
      List.take_append_of_le_length (by simp; omega)]
  · rw [if_neg (by omega), if_neg (by omega)]

theorem slice?_le {f s : Bytes} {lo hi : Nat} (h : slice? f lo hi = some s) : lo ≤ hi ∧ hi ≤ f.length := by
  unfold slice? at h
  split at h
  · assumption
  · cases h

/-- A slice of a slice. -/
theorem slice?_slice? {f s : Bytes} {lo hi a b : Nat} (h : slice? f lo hi = some s) (hb : lo + b ≤ hi) :
    slice? f (lo + a) (lo + b) = slice? s a b := by
  have hl := slice?_length h
  have hle := slice?_le h
  unfold slice? at *
  rw [if_pos hle] at h
  by_cases hab : a ≤ b
  · rw [if_pos (by omega), if_pos (by omega), ← Option.some.inj h, List.drop_take, List.take_take, List.drop_drop]
    congr 2; omega
  · rw [if_neg (by omega), if_neg (by omega)]

theorem truncate_grow (f : Bytes) (n : Nat) (h : f.length ≤ n) : truncate f n = f ++ List.replicate (n - f.length) 0 := by
  simp [truncate, List.take_of_length_le h]

end Verif
