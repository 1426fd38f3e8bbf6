import Verif.Base.Bytes

/-!
# Text identifiers

server/internal/pkg/encoding/{encoding,base8,base32}.go and the identical copies encoding/*.go.

`Encode8`/`Decode8` and `Encode32`/`Decode32` are the same unrolled pattern: five bytes make eight
characters. The model keeps the lines of one group (selected by the position modulo 8 or 5) and the
number of lines of each function; a line whose second operand does not exist in Go (the last one of
`Encode8` and `Encode32`) reads a zero byte here, which is the same expression.
-/

namespace Verif.TextId

open Verif

/-- encoding.go:21 `encoding`. -/
def alphabet : Bytes := "ABCDEFGHIJKLMNOPQRSTUVWXYZabcdefghijklmnopqrstuvwxyz0123456789-_".toUTF8.toList

/-- `encoding[i]`; an index of 64 or more would panic in Go (indices used are below 32, `encIndex_lt`). -/
def encChar (i : UInt8) : UInt8 := alphabet[i.toNat]?.getD 0

/-- base32.go:19-26: the table `dec`, as the last assignment made to the entry `c`. -/
def decTable (c : UInt8) : UInt8 :=
  match (List.range 64).reverse.find? (fun i => alphabet[i]? == some c) with
  | some i => UInt8.ofNat i
  | none => 0xFF

/-- A byte of the identifier; beyond the end the operand is absent from the Go expression. -/
def byteAt (id : Bytes) (i : Nat) : UInt8 := id[i]?.getD 0

/-- base32.go:29-82, base8.go:29-43: the index into the alphabet computed for character `k`. -/
def encIndex (id : Bytes) (k : Nat) : UInt8 :=
  let b := 5 * (k / 8)
  let x0 := byteAt id b
  let x1 := byteAt id (b + 1)
  let x2 := byteAt id (b + 2)
  let x3 := byteAt id (b + 3)
  let x4 := byteAt id (b + 4)
  match k % 8 with
  | 0 => x0 >>> 3
  | 1 => ((x1 >>> 6) &&& (0x1F : UInt8)) ||| ((x0 <<< 2) &&& (0x1F : UInt8))
  | 2 => (x1 >>> 1) &&& (0x1F : UInt8)
  | 3 => ((x2 >>> 4) &&& (0x1F : UInt8)) ||| ((x1 <<< 4) &&& (0x1F : UInt8))
  | 4 => (x3 >>> 7) ||| ((x2 <<< 1) &&& (0x1F : UInt8))
  | 5 => (x3 >>> 2) &&& (0x1F : UInt8)
  | 6 => (x4 >>> 5) ||| ((x3 <<< 3) &&& (0x1F : UInt8))
  | _ => x4 &&& (0x1F : UInt8)

/-- The first `n` characters of the text of `id`. -/
def encodeN (n : Nat) (id : Bytes) : Bytes := (List.range n).map fun k => encChar (encIndex id k)

/-- base8.go:29-43 `Encode8`: 13 characters. -/
def encode8 (id : Bytes) : Bytes := encodeN 13 id
/-- base32.go:29-82 `Encode32`: 52 characters. -/
def encode32 (id : Bytes) : Bytes := encodeN 52 id

/-- base32.go:85-118, base8.go:46-55: the value assigned to `id[j]` reading `src`. -/
def decByte (src : Bytes) (j : Nat) : UInt8 :=
  let b := 8 * (j / 5)
  let d := fun i => decTable (byteAt src (b + i))
  match j % 5 with
  | 0 => (d 0 <<< 3) ||| (d 1 >>> 2)
  | 1 => (d 1 <<< 6) ||| (d 2 <<< 1) ||| (d 3 >>> 4)
  | 2 => (d 3 <<< 4) ||| (d 4 >>> 1)
  | 3 => (d 4 <<< 7) ||| (d 5 <<< 2) ||| (d 6 >>> 3)
  | _ => (d 6 <<< 5) ||| d 7

/-- The assignments `id[0] = …; …; id[n-1] = …` for a destination separate from the source. -/
def decodeN (n : Nat) (src : Bytes) : Bytes := (List.range n).map (decByte src)

/-- base8.go:46-55 `Decode8` into a fresh 8-byte slice. -/
def decode8 (src : Bytes) : Bytes := decodeN 8 src
/-- base32.go:85-118 `Decode32` into a separate slice. -/
def decode32 (src : Bytes) : Bytes := decodeN 32 src

/-- base32.go:85-118 `Decode32(buffer, buffer)` (clientid.go:117): each assignment overwrites the
buffer the following lines read from. -/
def decodeInPlace (n : Nat) (buf : Bytes) : Bytes :=
  (List.range n).foldl (fun b j => b.set j (decByte b j)) buf

/-! ## Lemmas -/

theorem byte_ext (a b : UInt8) (h0 : a.toBitVec.getLsbD 0 = b.toBitVec.getLsbD 0)
    (h1 : a.toBitVec.getLsbD 1 = b.toBitVec.getLsbD 1) (h2 : a.toBitVec.getLsbD 2 = b.toBitVec.getLsbD 2)
    (h3 : a.toBitVec.getLsbD 3 = b.toBitVec.getLsbD 3) (h4 : a.toBitVec.getLsbD 4 = b.toBitVec.getLsbD 4)
    (h5 : a.toBitVec.getLsbD 5 = b.toBitVec.getLsbD 5) (h6 : a.toBitVec.getLsbD 6 = b.toBitVec.getLsbD 6)
    (h7 : a.toBitVec.getLsbD 7 = b.toBitVec.getLsbD 7) : a = b := by
  rw [← UInt8.toBitVec_inj]
  apply BitVec.eq_of_getLsbD_eq
  intro i hi
  have : i = 0 ∨ i = 1 ∨ i = 2 ∨ i = 3 ∨ i = 4 ∨ i = 5 ∨ i = 6 ∨ i = 7 := by omega
  rcases this with rfl | rfl | rfl | rfl | rfl | rfl | rfl | rfl <;> assumption

/-- An equation between bytes holds if it holds bit by bit. -/
macro "byte_bits" : tactic => `(tactic| (apply byte_ext <;> simp))

theorem group0 (a b : UInt8) :
    ((a >>> 3) <<< 3) ||| ((((b >>> 6) &&& (0x1F : UInt8)) ||| ((a <<< 2) &&& (0x1F : UInt8))) >>> 2) = a := by
  byte_bits

theorem group1 (a b c : UInt8) :
    ((((b >>> 6) &&& (0x1F : UInt8)) ||| ((a <<< 2) &&& (0x1F : UInt8))) <<< 6) |||
      (((b >>> 1) &&& (0x1F : UInt8)) <<< 1) |||
      ((((c >>> 4) &&& (0x1F : UInt8)) ||| ((b <<< 4) &&& (0x1F : UInt8))) >>> 4) = b := by
  byte_bits

theorem group2 (b c d : UInt8) :
    ((((c >>> 4) &&& (0x1F : UInt8)) ||| ((b <<< 4) &&& (0x1F : UInt8))) <<< 4) |||
      (((d >>> 7) ||| ((c <<< 1) &&& (0x1F : UInt8))) >>> 1) = c := by
  byte_bits

theorem group3 (c d e : UInt8) :
    (((d >>> 7) ||| ((c <<< 1) &&& (0x1F : UInt8))) <<< 7) ||| (((d >>> 2) &&& (0x1F : UInt8)) <<< 2) |||
      (((e >>> 5) ||| ((d <<< 3) &&& (0x1F : UInt8))) >>> 3) = d := by
  byte_bits

theorem group4 (d e : UInt8) :
    (((e >>> 5) ||| ((d <<< 3) &&& (0x1F : UInt8))) <<< 5) ||| (e &&& (0x1F : UInt8)) = e := by
  byte_bits

theorem lt32_of_and (x : UInt8) (h : x &&& 0x1F = x) : x.toNat < 32 := by
  rw [← h]
  have : (x &&& 0x1F).toNat = x.toNat % 32 := by
    have : (x &&& 0x1F).toNat = x.toNat &&& 31 := by simp
    rw [this]
    exact Nat.and_two_pow_sub_one_eq_mod x.toNat 5
  omega

theorem encIndex_lt (id : Bytes) (k : Nat) : (encIndex id k).toNat < 32 := by
  apply lt32_of_and
  simp only [encIndex]
  generalize byteAt id (5 * (k / 8)) = x0
  generalize byteAt id (5 * (k / 8) + 1) = x1
  generalize byteAt id (5 * (k / 8) + 2) = x2
  generalize byteAt id (5 * (k / 8) + 3) = x3
  generalize byteAt id (5 * (k / 8) + 4) = x4
  have hk : k % 8 < 8 := Nat.mod_lt _ (by decide)
  have : k % 8 = 0 ∨ k % 8 = 1 ∨ k % 8 = 2 ∨ k % 8 = 3 ∨ k % 8 = 4 ∨ k % 8 = 5 ∨ k % 8 = 6 ∨ k % 8 = 7 := by omega
  rcases this with h | h | h | h | h | h | h | h <;> simp only [h] <;> byte_bits

theorem alphabet_length : alphabet.length = 64 := by decide +kernel

theorem decTable_alphabet : ∀ i : Fin 64, decTable (alphabet[i.val]?.getD 0) = UInt8.ofNat i.val := by
  decide +kernel

theorem decTable_encChar (x : UInt8) (h : x.toNat < 64) : decTable (encChar x) = x := by
  have := decTable_alphabet ⟨x.toNat, h⟩
  simpa [encChar] using this

theorem encChar_mem (x : UInt8) (h : x.toNat < 64) : encChar x ∈ alphabet := by
  have hl : x.toNat < alphabet.length := by rw [alphabet_length]; exact h
  simp [encChar, hl]

@[simp] theorem length_encodeN (n : Nat) (id : Bytes) : (encodeN n id).length = n := by
  simp [encodeN]

theorem byteAt_encodeN {n k : Nat} (id : Bytes) (h : k < n) : byteAt (encodeN n id) k = encChar (encIndex id k) := by
  simp [byteAt, encodeN, h]

/-- Reading back character `k` of the text. -/
theorem dec_encodeN {n k : Nat} (id : Bytes) (h : k < n) : decTable (byteAt (encodeN n id) k) = encIndex id k := by
  rw [byteAt_encodeN id h]
  exact decTable_encChar _ (by have := encIndex_lt id k; omega)

/-- One decoded byte, provided the characters it needs are present. -/
theorem decByte_encodeN {n j : Nat} (id : Bytes) (h : 8 * (j + 1) ≤ 5 * n) : decByte (encodeN n id) j = byteAt id j := by
  have hj := Nat.div_add_mod j 5
  obtain ⟨g, r, hr⟩ : ∃ g r, g = j / 5 ∧ r = j % 5 := ⟨_, _, rfl, rfl⟩
  have hlt : r < 5 := by rw [hr.2]; exact Nat.mod_lt _ (by decide)
  have hjj : j = 5 * g + r := by omega
  have hc : ∀ s, s ≤ 7 → (8 * g + s) / 8 = g ∧ (8 * g + s) % 8 = s := by omega
  have hd : ∀ s, s ≤ 7 → 8 * g + s < n → decTable (byteAt (encodeN n id) (8 * g + s)) = encIndex id (8 * g + s) :=
    fun s _ hs => dec_encodeN id hs
  have he : ∀ s, s ≤ 7 → encIndex id (8 * g + s) = (match s with
      | 0 => (byteAt id (5 * g)) >>> 3
      | 1 => ((byteAt id (5 * g + 1) >>> 6) &&& (0x1F : UInt8)) ||| ((byteAt id (5 * g) <<< 2) &&& (0x1F : UInt8))
      | 2 => (byteAt id (5 * g + 1) >>> 1) &&& (0x1F : UInt8)
      | 3 => ((byteAt id (5 * g + 2) >>> 4) &&& (0x1F : UInt8)) ||| ((byteAt id (5 * g + 1) <<< 4) &&& (0x1F : UInt8))
      | 4 => (byteAt id (5 * g + 3) >>> 7) ||| ((byteAt id (5 * g + 2) <<< 1) &&& (0x1F : UInt8))
      | 5 => (byteAt id (5 * g + 3) >>> 2) &&& (0x1F : UInt8)
      | 6 => (byteAt id (5 * g + 4) >>> 5) ||| ((byteAt id (5 * g + 3) <<< 3) &&& (0x1F : UInt8))
      | _ => byteAt id (5 * g + 4) &&& (0x1F : UInt8)) := by
    intro s hs
    simp only [encIndex, (hc s hs).1, (hc s hs).2]
  simp only [decByte, ← hr.1, ← hr.2]
  have hcases : r = 0 ∨ r = 1 ∨ r = 2 ∨ r = 3 ∨ r = 4 := by omega
  rcases hcases with h0 | h0 | h0 | h0 | h0 <;> subst h0 <;> simp only
  · rw [hd 0 (by omega) (by omega), hd 1 (by omega) (by omega), he 0 (by omega), he 1 (by omega), hjj]
    exact group0 _ _
  · rw [hd 1 (by omega) (by omega), hd 2 (by omega) (by omega), hd 3 (by omega) (by omega),
      he 1 (by omega), he 2 (by omega), he 3 (by omega), hjj]
    exact group1 _ _ _
  · rw [hd 3 (by omega) (by omega), hd 4 (by omega) (by omega), he 3 (by omega), he 4 (by omega), hjj]
    exact group2 _ _ _
  · rw [hd 4 (by omega) (by omega), hd 5 (by omega) (by omega), hd 6 (by omega) (by omega),
      he 4 (by omega), he 5 (by omega), he 6 (by omega), hjj]
    exact group3 _ _ _
  · rw [hd 6 (by omega) (by omega), hd 7 (by omega) (by omega), he 6 (by omega), he 7 (by omega), hjj]
    exact group4 _ _

theorem decodeN_encodeN {n m : Nat} (id : Bytes) (hm : id.length = m) (h : 8 * m ≤ 5 * n) :
    decodeN m (encodeN n id) = id := by
  apply List.ext_getElem?
  intro j
  by_cases hj : j < m
  · have h1 : (decodeN m (encodeN n id))[j]? = some (decByte (encodeN n id) j) := by simp [decodeN, hj]
    rw [h1, decByte_encodeN id (by omega)]
    have : j < id.length := by omega
    simp [byteAt, this]
  · have h1 : (decodeN m (encodeN n id))[j]? = none := by simp [decodeN]; omega
    have h2 : id[j]? = none := by simp; omega
    rw [h1, h2]

/-- Decoding in place reads the same bytes as decoding from an untouched source: line `j` reads
positions at or beyond `8j/5 ≥ j`, and only positions below `j` have been overwritten. -/
theorem decByte_congr (a b : Bytes) (j : Nat) (h : ∀ i, j ≤ i → byteAt a i = byteAt b i) : decByte a j = decByte b j := by
  obtain ⟨g, r, hr⟩ : ∃ g r, g = j / 5 ∧ r = j % 5 := ⟨_, _, rfl, rfl⟩
  have hlt : r < 5 := by rw [hr.2]; exact Nat.mod_lt _ (by decide)
  have hjj : j = 5 * g + r := by omega
  simp only [decByte, ← hr.1, ← hr.2]
  have hcases : r = 0 ∨ r = 1 ∨ r = 2 ∨ r = 3 ∨ r = 4 := by omega
  rcases hcases with h0 | h0 | h0 | h0 | h0 <;> subst h0 <;> simp only
  · rw [h (8 * g + 0) (by omega), h (8 * g + 1) (by omega)]
  · rw [h (8 * g + 1) (by omega), h (8 * g + 2) (by omega), h (8 * g + 3) (by omega)]
  · rw [h (8 * g + 3) (by omega), h (8 * g + 4) (by omega)]
  · rw [h (8 * g + 4) (by omega), h (8 * g + 5) (by omega), h (8 * g + 6) (by omega)]
  · rw [h (8 * g + 6) (by omega), h (8 * g + 7) (by omega)]

theorem decodeInPlace_eq (n : Nat) (buf : Bytes) (h : n ≤ buf.length) :
    decodeInPlace n buf = decodeN n buf ++ buf.drop n := by
  induction n with
  | zero => simp [decodeInPlace, decodeN]
  | succ n ih =>
    have h1 : decodeInPlace (n + 1) buf = (decodeInPlace n buf).set n (decByte (decodeInPlace n buf) n) := by
      simp [decodeInPlace, List.range_succ]
    have hl : (decodeN n buf).length = n := by simp [decodeN]
    rw [h1, ih (by omega)]
    have h2 : decByte (decodeN n buf ++ buf.drop n) n = decByte buf n := by
      apply decByte_congr
      intro i hi
      simp only [byteAt]
      rw [List.getElem?_append_right (by omega), hl, List.getElem?_drop]
      congr 2; omega
    rw [h2]
    have h3 : decodeN (n + 1) buf = decodeN n buf ++ [decByte buf n] := by
      simp [decodeN, List.range_succ]
    rw [h3, List.set_append_right _ _ (by omega), hl, Nat.sub_self]
    have h4 : buf.drop n = buf[n] :: buf.drop (n + 1) := List.drop_eq_getElem_cons (by omega)
    rw [h4, List.set_cons_zero, List.append_assoc]
    rfl

end Verif.TextId
