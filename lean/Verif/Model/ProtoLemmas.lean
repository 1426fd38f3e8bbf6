import Verif.Model.Proto

/-!
# Lemmas about packets and their fields
-/

namespace Verif

namespace Pb

theorem consumeAux_varint (g k n acc : Nat) (rest : Bytes) (hk : k ≤ 9) (hn : n < 2 ^ (64 - 7 * k)) (hg : n < g) :
    consumeAux (10 - k) k acc (encodeLengthAux g n ++ rest) = some (acc + n * 2 ^ (7 * k), rest) := by
  induction g generalizing k n acc with
  | zero => omega
  | succ g ih =>
    obtain ⟨f, hf⟩ : ∃ f, 10 - k = f + 1 := ⟨9 - k, by omega⟩
    rw [hf]
    by_cases h0 : n / 128 = 0
    · have hlt : n < 128 := by omega
      have hm : (UInt8.ofNat (n % 128)).toNat = n := by rw [UInt8.toNat_ofNat']; omega
      simp only [encodeLengthAux, if_pos h0, List.cons_append, List.nil_append, consumeAux, hm]
      split
      · have : k = 9 := by omega
        subst this
        rw [if_pos (by simpa using hn)]
      · rfl
    · have hm : (UInt8.ofNat (n % 128 + 128)).toNat = n % 128 + 128 := by rw [UInt8.toNat_ofNat']; omega
      have hk8 : k ≤ 8 := by
        rcases Nat.lt_or_ge 8 k with h | h
        · have : k = 9 := by omega
          subst this
          simp at hn; omega
        · exact h
      have hp : 2 ^ (64 - 7 * k) = 128 * 2 ^ (64 - 7 * (k + 1)) := by
        rw [show 64 - 7 * k = 7 + (64 - 7 * (k + 1)) by omega, Nat.pow_add]
      have hq : 2 ^ (7 * (k + 1)) = 128 * 2 ^ (7 * k) := by
        rw [show 7 * (k + 1) = 7 + 7 * k by omega, Nat.pow_add]
      simp only [encodeLengthAux, if_neg h0, List.cons_append, consumeAux, hm]
      rw [if_neg (by omega), if_neg (by omega), show f = 10 - (k + 1) by omega,
        ih (k + 1) (n / 128) _ (by omega) (by rw [hp] at hn; omega) (by omega)]
      congr 2
      rw [hq, show n % 128 + 128 - 128 = n % 128 by omega]
      have hn' : n = 128 * (n / 128) + n % 128 := (Nat.div_add_mod n 128).symm
      have : n / 128 * (128 * 2 ^ (7 * k)) = 128 * (n / 128) * 2 ^ (7 * k) := by
        rw [← Nat.mul_assoc, Nat.mul_comm (n / 128) 128]
      rw [this]
      conv => rhs; rw [hn', Nat.add_mul]
      omega

theorem consume_varint (n : Nat) (rest : Bytes) (hn : n < 2 ^ 64) : consume (varint n ++ rest) = some (n, rest) := by
  have := consumeAux_varint (n + 1) 0 n 0 rest (by decide) (by simpa using hn) (by omega)
  simpa [consume, varint, encodeLength] using this

theorem consumeAux_shorter {fuel k acc : Nat} {b : Bytes} {n : Nat} {rest : Bytes} (h : consumeAux fuel k acc b = some (n, rest)) :
    rest.length < b.length := by
  induction fuel generalizing k acc b with
  | zero => simp [consumeAux] at h
  | succ fuel ih =>
    cases b with
    | nil => simp [consumeAux] at h
    | cons d r =>
      simp only [consumeAux] at h
      split at h
      · split at h
        · simp only [Option.some.injEq, Prod.mk.injEq] at h; simp [h.2]
        · cases h
      · split at h
        · simp only [Option.some.injEq, Prod.mk.injEq] at h; simp [h.2]
        · have := ih h; simp only [List.length_cons]; omega

theorem consume_shorter {b : Bytes} {n : Nat} {rest : Bytes} (h : consume b = some (n, rest)) : rest.length < b.length :=
  consumeAux_shorter h

theorem consumeBytes_shorter {b x rest : Bytes} (h : consumeBytes b = some (x, rest)) : rest.length < b.length := by
  simp only [consumeBytes] at h
  split at h
  · cases h
  · next hc =>
    have := consume_shorter hc
    split at h
    · cases h
    · simp only [Option.some.injEq, Prod.mk.injEq] at h
      rw [← h.2, List.length_drop]; omega

theorem skipGroups_le {fuel : Nat} {gs : List Nat} {b rest : Bytes} (h : skipGroups fuel gs b = some rest) : rest.length ≤ b.length := by
  induction fuel generalizing gs b with
  | zero =>
    cases gs with
    | nil => simp only [skipGroups, Option.some.injEq] at h; simp [h]
    | cons g gs => simp [skipGroups] at h
  | succ fuel ih =>
    cases gs with
    | nil => simp only [skipGroups, Option.some.injEq] at h; simp [h]
    | cons g gs =>
      simp only [skipGroups] at h
      split at h
      · cases h
      · next hc =>
        have h1 := consume_shorter hc
        split at h
        · cases h
        · split at h
          · split at h
            · cases h
            · next hc2 => have := consume_shorter hc2; have := ih h; omega
          · split at h
            · split at h
              · cases h
              · have := ih h; rw [List.length_drop] at this; omega
            · split at h
              · split at h
                · cases h
                · next hc2 => have := consumeBytes_shorter hc2; have := ih h; omega
              · split at h
                · have := ih h; omega
                · split at h
                  · split at h
                    · have := ih h; omega
                    · cases h
                  · split at h
                    · split at h
                      · cases h
                      · have := ih h; rw [List.length_drop] at this; omega
                    · cases h

theorem field_shorter {b : Bytes} {n : Nat} {v : Val} {rest : Bytes} (h : field b = some (n, v, rest)) : rest.length < b.length := by
  simp only [field] at h
  split at h
  · cases h
  · next hc =>
    have h1 := consume_shorter hc
    split at h
    · cases h
    · split at h
      · split at h
        · cases h
        · next hc2 =>
          have := consume_shorter hc2
          simp only [Option.some.injEq, Prod.mk.injEq] at h; rw [← h.2.2]; omega
      · split at h
        · split at h
          · cases h
          · simp only [Option.some.injEq, Prod.mk.injEq] at h; rw [← h.2.2, List.length_drop]; omega
        · split at h
          · split at h
            · cases h
            · next hc2 =>
              have := consumeBytes_shorter hc2
              simp only [Option.some.injEq, Prod.mk.injEq] at h; rw [← h.2.2]; omega
          · split at h
            · split at h
              · cases h
              · next hc2 =>
                have := skipGroups_le hc2
                simp only [Option.some.injEq, Prod.mk.injEq] at h; rw [← h.2.2]; omega
            · split at h
              · split at h
                · cases h
                · simp only [Option.some.injEq, Prod.mk.injEq] at h; rw [← h.2.2, List.length_drop]; omega
              · cases h

theorem fieldsAux_fuel (fuel : Nat) (b : Bytes) (h : b.length ≤ fuel) : fieldsAux fuel b = fields b := by
  have key : ∀ m f g (b : Bytes), b.length ≤ m → b.length ≤ f → b.length ≤ g → fieldsAux f b = fieldsAux g b := by
    intro m
    induction m with
    | zero =>
      intro f g b hm _ _
      have : b = [] := List.length_eq_zero_iff.1 (by omega)
      subst this
      cases f <;> cases g <;> rfl
    | succ m ih =>
      intro f g b hm hf hg
      cases b with
      | nil => cases f <;> cases g <;> rfl
      | cons d b =>
        cases f with
        | zero => simp at hf
        | succ f =>
          cases g with
          | zero => simp at hg
          | succ g =>
            simp only [fieldsAux]
            cases hfd : field (d :: b) with
            | none => rfl
            | some x =>
              obtain ⟨n, v, rest⟩ := x
              have := field_shorter hfd
              simp only [List.length_cons] at this hm hf hg
              simp only
              rw [ih f g rest (by omega) (by omega) (by omega)]
  exact key b.length _ _ _ (Nat.le_refl _) h (Nat.le_refl _)

theorem fields_cons {b : Bytes} {n : Nat} {v : Val} {rest : Bytes} (h : field b = some (n, v, rest)) :
    fields b = ((n, v) :: (fields rest).1, (fields rest).2) := by
  have hs := field_shorter h
  cases b with
  | nil => simp at hs
  | cons d b =>
    simp only [List.length_cons] at hs
    simp only [fields, List.length_cons, fieldsAux, h]
    rw [fieldsAux_fuel _ rest (by omega)]
    rfl

theorem fields_stuck {b : Bytes} (hb : b ≠ []) (h : field b = none) : fields b = ([], false) := by
  cases b with
  | nil => exact absurd rfl hb
  | cons d b => simp only [fields, List.length_cons, fieldsAux, h]

/-- The bytes `bs` are the fields `fs`, whatever follows. -/
def Reads (bs : Bytes) (fs : List (Nat × Val)) : Prop :=
  ∀ rest, fields (bs ++ rest) = (fs ++ (fields rest).1, (fields rest).2)

theorem Reads.nil : Reads [] [] := fun rest => by simp

theorem Reads.append {a b : Bytes} {fs gs : List (Nat × Val)} (h1 : Reads a fs) (h2 : Reads b gs) : Reads (a ++ b) (fs ++ gs) := by
  intro rest
  rw [List.append_assoc, h1, h2, List.append_assoc]

theorem field_number (num n : Nat) (rest : Bytes) (h1 : 1 ≤ num) (h2 : num < 2 ^ 29) (hn : n < 2 ^ 64) :
    field (varint (num * 8) ++ varint n ++ rest) = some (num, .varint n, rest) := by
  rw [List.append_assoc]
  simp only [field, consume_varint (num * 8) _ (by omega), consume_varint n _ hn]
  rw [if_neg (by omega), if_pos (by omega), show num * 8 / 8 = num by omega]

theorem consumeBytes_element (b rest : Bytes) (hb : b.length < 2 ^ 64) : consumeBytes (varint b.length ++ b ++ rest) = some (b, rest) := by
  rw [List.append_assoc]
  simp only [consumeBytes, consume_varint _ _ hb]
  rw [if_neg (by simp)]
  simp

theorem field_element (num : Nat) (b rest : Bytes) (h1 : 1 ≤ num) (h2 : num < 2 ^ 29) (hb : b.length < 2 ^ 64) :
    field (element num b ++ rest) = some (num, .bytes b, rest) := by
  simp only [element, List.append_assoc]
  simp only [field, consume_varint (num * 8 + 2) _ (by omega)]
  rw [← List.append_assoc, consumeBytes_element b rest hb]
  rw [if_neg (by omega), if_neg (by omega), if_neg (by omega), if_pos (by omega), show (num * 8 + 2) / 8 = num by omega]

theorem Reads.number (num n : Nat) (h1 : 1 ≤ num) (h2 : num < 2 ^ 29) (hn : n < 2 ^ 64) :
    Reads (number num n) (if n = 0 then [] else [(num, .varint n)]) := by
  intro rest
  simp only [Pb.number]
  split
  · simp
  · rw [fields_cons (field_number num n rest h1 h2 hn)]; rfl

theorem Reads.element (num : Nat) (b : Bytes) (h1 : 1 ≤ num) (h2 : num < 2 ^ 29) (hb : b.length < 2 ^ 64) :
    Reads (element num b) [(num, .bytes b)] := by
  intro rest
  rw [fields_cons (field_element num b rest h1 h2 hb)]; rfl

theorem fill_append {f : α → Nat → Val → Option α} {a a' : α} {fs gs : List (Nat × Val)} (h : fill f a fs = (a', true)) :
    fill f a (fs ++ gs) = fill f a' gs := by
  induction fs generalizing a with
  | nil => simp only [fill, Prod.mk.injEq] at h; rw [← h.1]; rfl
  | cons x fs ih =>
    obtain ⟨n, v⟩ := x
    simp only [fill, List.cons_append] at h ⊢
    cases hf : f a n v with
    | none => rw [hf] at h; simp at h
    | some a1 => rw [hf] at h; simp only at h ⊢; exact ih h

/-- Reading `bs` takes the message `a` to `a'`. -/
def Parses (f : α → Nat → Val → Option α) (bs : Bytes) (a a' : α) : Prop := ∃ fs, Reads bs fs ∧ fill f a fs = (a', true)

theorem Parses.nil {f : α → Nat → Val → Option α} {a : α} : Parses f [] a a := ⟨[], Reads.nil, rfl⟩

theorem Parses.append {f : α → Nat → Val → Option α} {b1 b2 : Bytes} {a a1 a2 : α} (h1 : Parses f b1 a a1) (h2 : Parses f b2 a1 a2) :
    Parses f (b1 ++ b2) a a2 := by
  obtain ⟨fs, r1, e1⟩ := h1
  obtain ⟨gs, r2, e2⟩ := h2
  exact ⟨fs ++ gs, r1.append r2, by rw [fill_append e1, e2]⟩

theorem Parses.number {f : α → Nat → Val → Option α} {a a' : α} {num n : Nat} (h : f a num (.varint n) = some a') (hz : n = 0 → a' = a)
    (h1 : 1 ≤ num := by decide) (h2 : num < 2 ^ 29 := by decide) (hn : n < 2 ^ 64 := by omega) : Parses f (Pb.number num n) a a' := by
  refine ⟨_, Reads.number num n h1 h2 hn, ?_⟩
  split
  · next h0 => rw [hz h0]; rfl
  · simp only [fill, h]

theorem Parses.element {f : α → Nat → Val → Option α} {a a' : α} {num : Nat} {b : Bytes} (h : f a num (.bytes b) = some a')
    (hb : b.length < 2 ^ 64) (h1 : 1 ≤ num := by decide) (h2 : num < 2 ^ 29 := by decide) : Parses f (Pb.element num b) a a' :=
  ⟨_, Reads.element num b h1 h2 hb, by simp only [fill, h]⟩

theorem Parses.slice {f : α → Nat → Val → Option α} {a a' : α} {num : Nat} {b : Bytes} (h : f a num (.bytes b) = some a') (hz : b = [] → a' = a)
    (hb : b.length < 2 ^ 64) (h1 : 1 ≤ num := by decide) (h2 : num < 2 ^ 29 := by decide) : Parses f (Pb.slice num b) a a' := by
  simp only [Pb.slice]
  split
  · next h0 => rw [hz h0]; exact .nil
  · exact .element h hb h1 h2

theorem signExtend_lt (w : UInt32) : signExtend w < 2 ^ 64 := by
  have := w.toNat_lt
  simp only [signExtend]; split <;> omega

theorem ofNat_signExtend (w : UInt32) : UInt32.ofNat (signExtend w) = w := by
  apply UInt32.toNat.inj
  have := w.toNat_lt
  rw [UInt32.toNat_ofNat']
  simp only [signExtend]; split <;> omega

theorem signExtend_zero {w : UInt32} (h : signExtend w = 0) : w = 0 := by
  rw [← ofNat_signExtend w, h]; rfl

theorem ofNat16_signExtend (i : UInt16) : UInt16.ofNat (signExtend i.toUInt32) = i := by
  apply UInt16.toNat.inj
  have := i.toNat_lt
  rw [UInt16.toNat_ofNat']
  simp only [signExtend, UInt16.toNat_toUInt32]; split <;> omega

theorem ofNat8_signExtend (i : UInt8) : UInt8.ofNat (signExtend i.toUInt32) = i := by
  apply UInt8.toNat.inj
  have := i.toNat_lt
  rw [UInt8.toNat_ofNat']
  simp only [signExtend, UInt8.toNat_toUInt32]; split <;> omega

theorem Parses.int32 {f : α → Nat → Val → Option α} {a a' : α} {num : Nat} {w : UInt32} (h : f a num (.varint (signExtend w)) = some a')
    (hz : w = 0 → a' = a) (h1 : 1 ≤ num := by decide) (h2 : num < 2 ^ 29 := by decide) : Parses f (Pb.int32 num w) a a' :=
  .number h (fun h0 => hz (signExtend_zero h0)) h1 h2 (signExtend_lt w)

theorem Parses.bool {f : α → Nat → Val → Option α} {a a' : α} {num : Nat} {x : Bool} (h : f a num (.varint (if x then 1 else 0)) = some a')
    (hz : x = false → a' = a) (h1 : 1 ≤ num := by decide) (h2 : num < 2 ^ 29 := by decide) : Parses f (Pb.bool num x) a a' :=
  .number h (fun h0 => hz (by cases x <;> simp at h0 ⊢)) h1 h2 (by cases x <;> simp)

theorem Parses.unmarshal {f : α → Nat → Val → Option α} {bs : Bytes} {a a' : α} (h : Parses f bs a a') : Pb.unmarshal f a bs = (a', true) := by
  obtain ⟨fs, r, e⟩ := h
  have := r []
  have h0 : fields [] = ([], true) := rfl
  rw [List.append_nil, h0] at this
  simp only [List.append_nil] at this
  simp only [Pb.unmarshal, this, e, Bool.and_self]

/-- What follows the fields of a message and is no field is not looked at. -/
theorem Parses.unmarshal_stuck {f : α → Nat → Val → Option α} {bs junk : Bytes} {a a' : α} (h : Parses f bs a a') (hj : junk ≠ [])
    (hs : field junk = none) : Pb.unmarshal f a (bs ++ junk) = (a', false) := by
  obtain ⟨fs, r, e⟩ := h
  have := r junk
  rw [fields_stuck hj hs] at this
  simp only [List.append_nil] at this
  simp only [Pb.unmarshal, this, e, Bool.and_false]

end Pb

open Pb in
theorem PbHeader.parses (h : PbHeader) : Parses PbHeader.take h.marshal {} h := by
  obtain ⟨t, f, l⟩ := h
  refine ((Parses.int32 (a' := { type := t }) ?_ ?_).append (Parses.int32 (a' := { type := t, flow := f }) ?_ ?_)).append (Parses.int32 ?_ ?_)
  · simp [PbHeader.take, ofNat8_signExtend]
  · intro h
    have : t = 0 := by apply UInt8.toNat.inj; rw [← UInt8.toNat_toUInt32, h]; rfl
    simp [this]
  · simp [PbHeader.take, ofNat8_signExtend]
  · intro h
    have : f = 0 := by apply UInt8.toNat.inj; rw [← UInt8.toNat_toUInt32, h]; rfl
    simp [this]
  · simp [PbHeader.take, ofNat_signExtend]
  · intro h; simp only at h; simp [h]

theorem u8_zero {t : UInt8} (h : t.toUInt32 = 0) : t = 0 := by
  apply UInt8.toNat.inj; rw [← UInt8.toNat_toUInt32, h]; rfl

theorem u16_zero {t : UInt16} (h : t.toUInt32 = 0) : t = 0 := by
  apply UInt16.toNat.inj; rw [← UInt16.toNat_toUInt32, h]; rfl

open Pb in
theorem slice_length_le (num : Nat) (b : Bytes) : b.length ≤ (slice num b).length := by
  simp only [slice]; split
  · next h => simp [h]
  · simp only [element, List.length_append]; omega

open Pb in
theorem PConnect.parses {c : PConnect} {b : Bytes} (h : c.marshal = some b) (hb : b.length < 2 ^ 64) : Parses PConnect.take b {} c := by
  simp only [PConnect.marshal] at h
  split at h
  · next hu =>
    simp only [Bool.and_eq_true] at hu
    simp only [Option.some.injEq] at h
    have l3 := slice_length_le 3 c.clientId
    have l7 := slice_length_le 7 c.username
    have l8 := slice_length_le 8 c.password
    rw [← h] at hb
    simp only [List.length_append] at hb
    rw [← h]
    obtain ⟨version, insecure, clientId, keepAlive, clean, sessKey, username, password, d, y, n⟩ := c
    simp only at *
    refine Parses.append (a1 := ⟨version, insecure, clientId, keepAlive, clean, sessKey, username, password, d, y, 0⟩) (Parses.append
      (a1 := ⟨version, insecure, clientId, keepAlive, clean, sessKey, username, password, d, 0, 0⟩) (Parses.append
      (a1 := ⟨version, insecure, clientId, keepAlive, clean, sessKey, username, password, 0, 0, 0⟩) (Parses.append
      (a1 := ⟨version, insecure, clientId, keepAlive, clean, sessKey, username, [], 0, 0, 0⟩) (Parses.append
      (a1 := ⟨version, insecure, clientId, keepAlive, clean, sessKey, [], [], 0, 0, 0⟩) (Parses.append
      (a1 := ⟨version, insecure, clientId, keepAlive, clean, 0, [], [], 0, 0, 0⟩) (Parses.append
      (a1 := ⟨version, insecure, clientId, keepAlive, false, 0, [], [], 0, 0, 0⟩) (Parses.append
      (a1 := ⟨version, insecure, clientId, 0, false, 0, [], [], 0, 0, 0⟩) (Parses.append
      (a1 := ⟨version, insecure, [], 0, false, 0, [], [], 0, 0, 0⟩) (Parses.append
      (a1 := ⟨version, false, [], 0, false, 0, [], [], 0, 0, 0⟩) ?_ ?_) ?_) ?_) ?_) ?_) ?_) ?_) ?_) ?_) ?_
    · exact .int32 (by simp [PConnect.take, ofNat_signExtend]) (fun h => by simp [h])
    · exact .bool (by cases insecure <;> simp [PConnect.take]) (fun h => by simp [h])
    · exact .slice (by simp [PConnect.take, Pb.string, hu]) (fun h => by simp [h]) (by omega)
    · exact .int32 (by simp [PConnect.take, ofNat_signExtend]) (fun h => by simp [h])
    · exact .bool (by cases clean <;> simp [PConnect.take]) (fun h => by simp [h])
    · exact .int32 (by simp [PConnect.take, ofNat_signExtend]) (fun h => by simp [h])
    · exact .slice (by simp [PConnect.take, Pb.string, hu]) (fun h => by simp [h]) (by omega)
    · exact .slice (by simp [PConnect.take]) (fun h => by simp [h]) (by omega)
    · exact .int32 (by simp [PConnect.take, ofNat_signExtend]) (fun h => by simp [h])
    · exact .int32 (by simp [PConnect.take, ofNat_signExtend]) (fun h => by simp [h])
    · exact .int32 (by simp [PConnect.take, ofNat_signExtend]) (fun h => by simp [h])
  · cases h

open Pb in
theorem PConnack.parses (c : PConnack) : Parses PConnack.take c.marshal {} c := by
  obtain ⟨t, e, i⟩ := c
  refine Parses.append (a1 := ⟨t, e, 0⟩) (Parses.append (a1 := ⟨t, 0, 0⟩) ?_ ?_) ?_
  · exact .int32 (by simp [PConnack.take, ofNat8_signExtend]) (fun h => by simp only at h; simp [u8_zero h])
  · exact .int32 (by simp [PConnack.take, ofNat_signExtend]) (fun h => by simp only at h; simp [h])
  · exact .int32 (by simp [PConnack.take, ofNat_signExtend]) (fun h => by simp only at h; simp [h])

open Pb in
theorem PControl.parses (c : PControl) (hb : c.marshal.length < 2 ^ 64) : Parses PControl.take c.marshal {} c := by
  obtain ⟨i, m⟩ := c
  have l := slice_length_le 2 m
  simp only [PControl.marshal, List.length_append] at hb
  refine Parses.append (a1 := ⟨i, []⟩) ?_ ?_
  · exact .int32 (by simp [PControl.take, ofNat16_signExtend]) (fun h => by simp only at h; simp [u16_zero h])
  · exact .slice (by simp [PControl.take]) (fun h => by simp only at h; simp [h]) (by simp only; omega)

open Pb in
theorem PMessage.parses {m : PMessage} {b : Bytes} (h : m.marshal = some b) (hb : b.length < 2 ^ 64) : Parses PMessage.take b {} m := by
  simp only [PMessage.marshal] at h
  split at h
  · next hu =>
    simp only [Bool.and_eq_true] at hu
    simp only [Option.some.injEq] at h
    have l1 := slice_length_le 1 m.topic
    have l2 := slice_length_le 2 m.payload
    have l3 := slice_length_le 3 m.ttl
    rw [← h] at hb
    simp only [List.length_append] at hb
    rw [← h]
    obtain ⟨t, p, l⟩ := m
    simp only at *
    refine Parses.append (a1 := ⟨t, p, []⟩) (Parses.append (a1 := ⟨t, [], []⟩) ?_ ?_) ?_
    · exact .slice (by simp [PMessage.take, Pb.string, hu]) (fun h => by simp [h]) (by omega)
    · exact .slice (by simp [PMessage.take]) (fun h => by simp [h]) (by omega)
    · exact .slice (by simp [PMessage.take, Pb.string, hu]) (fun h => by simp [h]) (by omega)
  · cases h

open Pb in
theorem PSubscription.parses {m : PSubscription} {b : Bytes} (h : m.marshal = some b) (hb : b.length < 2 ^ 64) :
    Parses PSubscription.take b {} m := by
  simp only [PSubscription.marshal] at h
  split at h
  · next hu =>
    simp only [Option.some.injEq] at h
    have l3 := slice_length_le 3 m.topic
    rw [← h] at hb
    simp only [List.length_append] at hb
    rw [← h]
    obtain ⟨t, p, l⟩ := m
    simp only at *
    refine Parses.append (a1 := ⟨t, p, []⟩) (Parses.append (a1 := ⟨t, 0, []⟩) ?_ ?_) ?_
    · exact .int32 (by simp [PSubscription.take, ofNat8_signExtend]) (fun h => by simp [u8_zero h])
    · exact .int32 (by simp [PSubscription.take, ofNat_signExtend]) (fun h => by simp [h])
    · exact .slice (by simp [PSubscription.take, Pb.string, hu]) (fun h => by simp [h]) (by omega)
  · cases h

open Pb in
theorem PRelayRequest.parses {m : PRelayRequest} {b : Bytes} (h : m.marshal = some b) (hb : b.length < 2 ^ 64) :
    Parses PRelayRequest.take b {} m := by
  simp only [PRelayRequest.marshal] at h
  split at h
  · next hu =>
    simp only [Bool.and_eq_true] at hu
    simp only [Option.some.injEq] at h
    have l1 := slice_length_le 1 m.topic
    have l2 := slice_length_le 2 m.last
    rw [← h] at hb
    simp only [List.length_append] at hb
    rw [← h]
    obtain ⟨t, l⟩ := m
    simp only at *
    refine Parses.append (a1 := ⟨t, []⟩) ?_ ?_
    · exact .slice (by simp [PRelayRequest.take, Pb.string, hu]) (fun h => by simp [h]) (by omega)
    · exact .slice (by simp [PRelayRequest.take, Pb.string, hu]) (fun h => by simp [h]) (by omega)
  · cases h

open Pb in
theorem Pb.append_of {take : β → Nat → Val → Option β} {z x : β} {b : Bytes} (h : Parses take b z x) (f : β → α) :
    Pb.append take z b f = some (f x) := by
  simp only [Pb.append, h.unmarshal]

open Pb in
/-- The elements of a repeated field are appended in their order. -/
theorem Pb.elements_parse {take : β → Nat → Val → Option β} {z : β} {enc : β → Option Bytes}
    (he : ∀ x b, enc x = some b → b.length < 2 ^ 64 → Parses take b z x) {f : α → Nat → Val → Option α} {num : Nat} {g : α → β → α}
    (hf : ∀ a b, f a num (.bytes b) = Pb.append take z b (g a)) (h1 : 1 ≤ num) (h2 : num < 2 ^ 29) (xs : List β) (a : α) (b : Bytes)
    (h : Pb.elements num enc xs = some b) (hb : b.length < 2 ^ 64) : Parses f b a (xs.foldl g a) := by
  induction xs generalizing a b with
  | nil => simp only [Pb.elements, Option.some.injEq] at h; subst h; exact .nil
  | cons x xs ih =>
    simp only [Pb.elements] at h
    cases hx : enc x with
    | none => rw [hx] at h; simp at h
    | some bx =>
      rw [hx] at h
      simp only [Option.bind_some] at h
      cases hr : Pb.elements num enc xs with
      | none => rw [hr] at h; simp at h
      | some br =>
        rw [hr] at h
        simp only [Option.map_some, Option.some.injEq] at h
        rw [← h] at hb ⊢
        simp only [List.length_append, Pb.element] at hb
        refine Parses.append (a1 := g a x) (.element ?_ (by omega) h1 h2) (ih _ _ hr (by omega))
        rw [hf, Pb.append_of (he x bx hx (by omega))]

theorem foldl_items (xs : List β) (p : PList β) : xs.foldl (fun p x => { p with items := p.items ++ [x] }) p = { p with items := p.items ++ xs } := by
  induction xs generalizing p with
  | nil => simp
  | cons x xs ih => simp [ih]

theorem foldl_messages (xs : List PMessage) (p : PPublish) :
    xs.foldl (fun p x => { p with messages := p.messages ++ [x] }) p = { p with messages := p.messages ++ xs } := by
  induction xs generalizing p with
  | nil => simp
  | cons x xs ih => simp [ih]

open Pb in
theorem PList.parses {take : β → Nat → Val → Option β} {z : β} {enc : β → Option Bytes}
    (he : ∀ x b, enc x = some b → b.length < 2 ^ 64 → Parses take b z x) {p : PList β} {b : Bytes} (h : p.marshal enc = some b) (hb : b.length < 2 ^ 64) :
    Parses (PList.take take z) b {} p := by
  obtain ⟨i, xs⟩ := p
  simp only [PList.marshal] at h
  cases hr : Pb.elements 2 enc xs with
  | none => rw [hr] at h; simp at h
  | some br =>
    rw [hr] at h
    simp only [Option.map_some, Option.some.injEq] at h
    rw [← h] at hb ⊢
    simp only [List.length_append] at hb
    refine Parses.append (a1 := ⟨i, []⟩) (.int32 (by simp [PList.take, ofNat16_signExtend]) (fun h => by simp [u16_zero h])) ?_
    have := Pb.elements_parse he (f := PList.take take z) (num := 2) (g := fun p x => { p with items := p.items ++ [x] })
      (fun a b => rfl) (by decide) (by decide) xs ⟨i, []⟩ br hr (by omega)
    rw [foldl_items] at this
    simpa using this

open Pb in
theorem PPublish.parses {p : PPublish} {b : Bytes} (h : p.marshal = some b) (hb : b.length < 2 ^ 64) : Parses PPublish.take b {} p := by
  obtain ⟨i, m, xs⟩ := p
  simp only [PPublish.marshal] at h
  cases hr : Pb.elements 3 PMessage.marshal xs with
  | none => rw [hr] at h; simp at h
  | some br =>
    rw [hr] at h
    simp only [Option.map_some, Option.some.injEq] at h
    rw [← h] at hb ⊢
    simp only [List.length_append] at hb
    refine Parses.append (a1 := ⟨i, m, []⟩) (Parses.append (a1 := ⟨i, 0, []⟩) (.int32 (by simp [PPublish.take, ofNat16_signExtend]) (fun h => by simp [u16_zero h]))
      (.int32 (by simp [PPublish.take, ofNat8_signExtend]) (fun h => by simp [u8_zero h]))) ?_
    have := Pb.elements_parse (fun x b => PMessage.parses) (f := PPublish.take) (num := 3) (g := fun p x => { p with messages := p.messages ++ [x] })
      (fun a b => rfl) (by decide) (by decide) xs ⟨i, m, []⟩ br hr (by omega)
    rw [foldl_messages] at this
    simpa using this

end Verif
