import Verif.Base.Bytes

/-!
# Frame lengths and packet framing

server/utp/message.go:66-142 and server/internal/net/message.go:36-85.
-/

namespace Verif

/-- utp/message.go:108-122 `encodeLength`, one digit per step; `fuel` bounds the number of digits
(`encodeLength_fuel`: any fuel of at least the length suffices). -/
def encodeLengthAux : (fuel n : Nat) → Bytes
  | 0, _ => []
  | fuel + 1, n =>
    if n / 128 = 0 then [UInt8.ofNat (n % 128)]
    else UInt8.ofNat (n % 128 + 128) :: encodeLengthAux fuel (n / 128)

/-- utp/message.go:108-122 `encodeLength` of a slice length. -/
def encodeLength (n : Nat) : Bytes := encodeLengthAux (n + 1) n

/-- utp/message.go:124-142 `decodeLength`: `k` digits were read (`multiplier = 7k`), `acc` so far.
The loop runs while `multiplier < 27`. `none`: the stream ended. -/
def decodeLengthAux : (fuel k acc : Nat) → Bytes → Option (Nat × Bytes)
  | 0, _, acc, b => some (acc, b)
  | fuel + 1, k, acc, b =>
    if 7 * k < 27 then
      match b with
      | [] => none
      | d :: rest =>
        let acc := acc ||| ((d.toNat % 128) <<< (7 * k))
        if d.toNat < 128 then some (acc, rest) else decodeLengthAux fuel (k + 1) acc rest
    else some (acc, b)

/-- utp/message.go:124-142 `decodeLength`: the length and the unread stream. The loop makes at most four
rounds, and no bit is lost in the `uint32` (28 bits). -/
def decodeLength (b : Bytes) : Option (Nat × Bytes) := decodeLengthAux 5 0 0 b

/-! ## Lemmas -/

theorem encodeLength_fuel (fuel n : Nat) (h : n < fuel) : encodeLengthAux fuel n = encodeLength n := by
  have key : ∀ f g m, m < f → m < g → encodeLengthAux f m = encodeLengthAux g m := by
    intro f
    induction f with
    | zero => omega
    | succ f ih =>
      intro g m hf hg
      cases g with
      | zero => omega
      | succ g =>
        simp only [encodeLengthAux]
        split
        · rfl
        · rw [ih g (m / 128) (by omega) (by omega)]
  exact key _ _ _ h (by omega)

theorem or_shift_add (acc d k : Nat) (h : acc < 2 ^ k) : acc ||| (d <<< k) = acc + d * 2 ^ k := by
  rw [Nat.or_comm, ← Nat.shiftLeft_add_eq_or_of_lt h, Nat.shiftLeft_eq, Nat.add_comm]

theorem decode_encode_aux (fuel k n acc : Nat) (rest : Bytes) (hk : k ≤ 3) (hn : n < 2 ^ (28 - 7 * k)) (hfuel : n < fuel)
    (hacc : acc < 2 ^ (7 * k)) :
    decodeLengthAux (5 - k) k acc (encodeLengthAux fuel n ++ rest) = some (acc + n * 2 ^ (7 * k), rest) := by
  induction fuel generalizing k n acc with
  | zero => omega
  | succ fuel ih =>
    obtain ⟨g, hg⟩ : ∃ g, 5 - k = g + 1 := ⟨4 - k, by omega⟩
    have h27 : 7 * k < 27 := by omega
    rw [hg]
    by_cases h0 : n / 128 = 0
    · have hlt : n < 128 := by omega
      have hm : (UInt8.ofNat (n % 128)).toNat = n := by
        rw [UInt8.toNat_ofNat']; omega
      simp only [encodeLengthAux, if_pos h0, decodeLengthAux, if_pos h27, List.cons_append, List.nil_append, hm, if_pos hlt]
      rw [or_shift_add _ _ _ hacc, Nat.mod_eq_of_lt hlt]
    · have hm : (UInt8.ofNat (n % 128 + 128)).toNat = n % 128 + 128 := by
        rw [UInt8.toNat_ofNat']; omega
      have hge : ¬ n % 128 + 128 < 128 := by omega
      have hmm : (n % 128 + 128) % 128 = n % 128 := by omega
      simp only [encodeLengthAux, if_neg h0, decodeLengthAux, if_pos h27, List.cons_append, hm, if_neg hge, hmm]
      have hk2 : k ≤ 2 := by
        rcases Nat.lt_or_ge 2 k with hk3 | hk3
        · have : k = 3 := by omega
          subst this
          simp at hn; omega
        · exact hk3
      have hp : 2 ^ (28 - 7 * k) = 128 * 2 ^ (28 - 7 * (k + 1)) := by
        rw [show 28 - 7 * k = 7 + (28 - 7 * (k + 1)) by omega, Nat.pow_add]
      have hq : 2 ^ (7 * (k + 1)) = 128 * 2 ^ (7 * k) := by
        rw [show 7 * (k + 1) = 7 + 7 * k by omega, Nat.pow_add]
      have hmod : n % 128 < 128 := Nat.mod_lt _ (by decide)
      have hb : n % 128 * 2 ^ (7 * k) ≤ 127 * 2 ^ (7 * k) := Nat.mul_le_mul_right _ (by omega)
      rw [or_shift_add _ _ _ hacc, show g = 5 - (k + 1) by omega,
        ih (k + 1) (n / 128) _ (by omega) (by rw [hp] at hn; omega) (by omega) (by omega)]
      congr 2
      rw [hq]
      have hn' : n = 128 * (n / 128) + n % 128 := (Nat.div_add_mod n 128).symm
      have : n / 128 * (128 * 2 ^ (7 * k)) = 128 * (n / 128) * 2 ^ (7 * k) := by
        rw [← Nat.mul_assoc, Nat.mul_comm (n / 128) 128]
      rw [this]
      conv => rhs; rw [hn', Nat.add_mul]
      omega

theorem decodeLengthAux_lt (fuel k acc : Nat) (b : Bytes) (v : Nat) (rest : Bytes) (hacc : acc < 2 ^ (7 * k)) (hk : k ≤ 4)
    (h : decodeLengthAux fuel k acc b = some (v, rest)) : v < 2 ^ 28 := by
  induction fuel generalizing k acc b with
  | zero =>
    simp only [decodeLengthAux, Option.some.injEq, Prod.mk.injEq] at h
    obtain ⟨rfl, _⟩ := h
    exact Nat.lt_of_lt_of_le hacc (Nat.pow_le_pow_right (by decide) (by omega))
  | succ fuel ih =>
    simp only [decodeLengthAux] at h
    split at h
    · next h27 =>
      cases b with
      | nil => simp at h
      | cons d ds =>
        simp only at h
        have hq : 2 ^ (7 * (k + 1)) = 128 * 2 ^ (7 * k) := by
          rw [show 7 * (k + 1) = 7 + 7 * k by omega, Nat.pow_add]
        have hb : d.toNat % 128 * 2 ^ (7 * k) ≤ 127 * 2 ^ (7 * k) := Nat.mul_le_mul_right _ (by omega)
        have hacc' : acc ||| ((d.toNat % 128) <<< (7 * k)) < 2 ^ (7 * (k + 1)) := by
          rw [or_shift_add _ _ _ hacc]; omega
        split at h
        · simp only [Option.some.injEq, Prod.mk.injEq] at h
          obtain ⟨rfl, _⟩ := h
          exact Nat.lt_of_lt_of_le hacc' (Nat.pow_le_pow_right (by decide) (by omega))
        · exact ih (k + 1) _ _ hacc' (by omega) h
    · simp only [Option.some.injEq, Prod.mk.injEq] at h
      obtain ⟨rfl, _⟩ := h
      exact Nat.lt_of_lt_of_le hacc (Nat.pow_le_pow_right (by decide) (by omega))

end Verif
