import Verif.Model.Codec
import Mathlib.Data.Rat.Floor
import Mathlib.Tactic.Linarith
import Mathlib.Tactic.NormNum
import Mathlib.Tactic.FieldSimp
import Mathlib.Tactic.Positivity

/-!
# Index addressing: from a sequence number to a place in the index file

block.go:47-56 computes the block number in floating point and the file offset in 32-bit arithmetic.
-/

namespace Verif

/-- What is used of IEEE double rounding: it is monotone, and it is exact on numbers with at most 53 significant bits, of
which only multiples of 1/512 are needed. -/
structure Float64Rounding (rd : ℚ → ℚ) : Prop where
  mono : ∀ x y, x ≤ y → rd x ≤ rd y
  exact : ∀ m : ℕ, m < 2 ^ 53 → rd ((m : ℚ) / 512) = (m : ℚ) / 512

/-- block.go:47-49 `blockIndex`: `int32(float64(seq-1) / float64(255))`, before the conversion to int32. The conversion
truncates; it is the identity on the result below 2^31. `seq-1` wraps for 0. -/
def goBlockIndex (rd : ℚ → ℚ) (seq : UInt64) : ℤ :=
  ⌊rd (rd ((seq - 1).toNat : ℚ) / 255)⌋

/-- The block number as integer division; `C11_float_exact` ties it to the floating point code. -/
def blockIndex (seq : Nat) : Nat := (seq - 1) / 255

/-- block.go:51-56 `blockOffset`: the product is taken in int32. -/
def blockOffset (idx : Int32) : Int64 :=
  if idx = -1 then 0 else (4096 * idx).toInt64

theorem blockOffset_eq (n : Nat) (h : n < 2 ^ 19) : (blockOffset (Int32.ofNat n)).toInt = 4096 * n := by
  have h1 : (Int32.ofNat n).toInt = n := by
    rw [Int32.toInt_ofNat_of_lt]; omega
  have hne : Int32.ofNat n ≠ -1 := by
    intro hc
    have : (Int32.ofNat n).toInt = (-1 : Int32).toInt := by rw [hc]
    rw [h1] at this
    have h2 : (-1 : Int32).toInt = -1 := by decide
    omega
  simp only [blockOffset, hne, if_false, Int32.toInt_toInt64, Int32.toInt_mul, h1]
  have h3 : (4096 : Int32).toInt = 4096 := by decide
  rw [h3, Int.bmod_eq_of_le] <;> omega

end Verif
