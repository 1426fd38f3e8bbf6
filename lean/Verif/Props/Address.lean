import Verif.Model.Address

/-!
# C11: every message has its own, valid index position
-/

namespace Verif

/-- C11 (block choice). For every way of rounding that is monotone and exact on short numbers, and as long as the block number
fits 31 bits, the floating point block number is the integer quotient: sequences `255k+1 .. 255k+255` share block `k`. -/
theorem C11_float_exact (rd : ℚ → ℚ) (hrd : Float64Rounding rd) (seq : UInt64) (h1 : 1 ≤ seq.toNat)
    (h2 : (seq.toNat - 1) / 255 < 2 ^ 31) :
    goBlockIndex rd seq = ((seq.toNat - 1) / 255 : ℕ) := by
  have hs : (seq - 1).toNat = seq.toNat - 1 := by
    have := seq.toNat_lt
    have h : UInt64.toNat 1 = 1 := rfl
    rw [UInt64.toNat_sub, h]; omega
  unfold goBlockIndex
  rw [hs]
  set a := seq.toNat - 1 with ha
  have hlt : a < 255 * 2 ^ 31 := by omega
  have ha1 : rd ((a : ℕ) : ℚ) = a := by
    have := hrd.exact (512 * a) (by omega)
    push_cast at this
    rw [mul_div_assoc, mul_div_cancel₀] at this
    · exact this
    · norm_num
  rw [ha1]
  set q := a / 255 with hq
  have hlo : (q : ℚ) ≤ rd ((a : ℚ) / 255) := by
    have hx : rd ((q : ℚ)) = q := by
      have := hrd.exact (512 * q) (by omega)
      push_cast at this
      rw [mul_div_assoc, mul_div_cancel₀] at this
      · exact this
      · norm_num
    rw [← hx]
    apply hrd.mono
    rw [le_div_iff₀ (by norm_num)]
    have : q * 255 ≤ a := Nat.div_mul_le_self a 255
    exact_mod_cast this
  have hhi : rd ((a : ℚ) / 255) < q + 1 := by
    have hx := hrd.exact (512 * q + 511) (by omega)
    have hle : (a : ℚ) / 255 ≤ ((512 * q + 511 : ℕ) : ℚ) / 512 := by
      have h3 : a ≤ 255 * q + 254 := by omega
      have h4 : (a : ℚ) ≤ 255 * q + 254 := by exact_mod_cast h3
      push_cast
      rw [div_le_div_iff₀ (by norm_num) (by norm_num)]
      linarith
    have := hrd.mono _ _ hle
    rw [hx] at this
    push_cast at this
    have h5 : (512 * (q : ℚ) + 511) / 512 < q + 1 := by
      rw [div_lt_iff₀ (by norm_num)]; linarith
    linarith
  rw [Int.floor_eq_iff]
  constructor
  · exact_mod_cast hlo
  · exact_mod_cast hhi

/-- Exact arithmetic is one such rounding, so the hypotheses can be met. -/
example : Float64Rounding id := ⟨fun _ _ h => h, fun _ _ => rfl⟩

/-- The full statement on offsets: the position of every sequence's block is not negative. -/
def C11_statement : Prop := ∀ seq : Nat, 1 ≤ seq → seq < 2 ^ 39 → 0 ≤ (blockOffset (Int32.ofNat (blockIndex seq))).toInt

/-- C11 is violated: the offset of sequence 133693441 (block 2^19) overflows 32 bits and is negative. -/
theorem C11_violated : ¬ C11_statement := by
  intro h
  have := h 133693441 (by omega) (by omega)
  revert this
  decide

/-- C11 below the overflow: for the first 2^19 blocks (133,693,440 messages) the byte range of a sequence's block is in the
non-negative part of the file, and the ranges of two sequences are equal when they share a group of 255 and disjoint
otherwise. Missing from C11: later sequences. -/
theorem C11_positions_partial (s t : Nat) (hs : 1 ≤ s) (ht : 1 ≤ t) (hs' : s ≤ 255 * 2 ^ 19) (ht' : t ≤ 255 * 2 ^ 19) :
    let off := fun n => (blockOffset (Int32.ofNat (blockIndex n))).toInt
    0 ≤ off s ∧
    ((s - 1) / 255 = (t - 1) / 255 → off s = off t) ∧
    ((s - 1) / 255 < (t - 1) / 255 → off s + 4096 ≤ off t) := by
  have h1 := blockOffset_eq (blockIndex s) (by unfold blockIndex; omega)
  have h2 := blockOffset_eq (blockIndex t) (by unfold blockIndex; omega)
  simp only [h1, h2]
  unfold blockIndex
  refine ⟨by omega, fun h => by rw [h], fun h => by omega⟩

example : (1 : Nat) ≤ 300 ∧ (300 : Nat) ≤ 255 * 2 ^ 19 ∧ (300 - 1) / 255 < (600 - 1) / 255 := by decide

end Verif
