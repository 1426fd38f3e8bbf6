import Verif.Base.Bytes
import Verif.Model.Hash

/-!
# Message encryption

crypto/mac.go (and its copy server/internal/pkg/crypto/mac.go). The authenticated cipher
(ChaCha20-Poly1305) is a parameter: any pair of functions `lock`/`unlock`.
-/

namespace Verif

/-- An authenticated cipher under one key: `Seal`/`Open` without additional data, as values. -/
structure Aead where
  lock : (nonce plain : Bytes) → Bytes
  unlock : (nonce sealed : Bytes) → Option Bytes

/-- What the code relies on: opening what was sealed under the same nonce gives it back, and sealing
adds exactly the 16 bytes of the tag. -/
structure Aead.Sound (c : Aead) : Prop where
  opens : ∀ n p, c.unlock n (c.lock n p) = some p
  length : ∀ n p, (c.lock n p).length = p.length + 16

/-- crypto/mac.go:36-39 `MAC`. -/
structure Mac where
  cipher : Aead
  salt : Bytes

/-- A Go shift of a `byte`: shifting by 8 or more gives zero. -/
def goShl8 (x : UInt8) (n : Nat) : UInt8 := if n < 8 then x <<< UInt8.ofNat n else 0

/-- crypto/mac.go:44-62 `New` for a 32-byte key (`none`: the cipher refuses other lengths). -/
def Mac.new (cipher : Bytes → Aead) (key : Bytes) : Option Mac :=
  if key.length = 32 then
    let b := fun i => key[i]?.getD 0
    some { cipher := cipher key,
           salt := (List.range 4).map fun i =>
             goShl8 (b (4 * i)) 24 ||| goShl8 (b (4 * i + 1)) 16 ||| goShl8 (b (4 * i + 2)) 8 ||| b (4 * i + 3) }
  else none

/-- crypto/mac.go:75-82 `Signature`: big-endian. -/
def signature (v : UInt32) : Bytes := (put32 v).reverse

/-- crypto/mac.go:66-68 `Overhead`: 16 bytes of tag and 4 of epoch. -/
def Mac.overhead (_ : Mac) : Nat := 16 + 4

/-- crypto/mac.go:84-91 `Encrypt(nil, src)`; `none`: slicing `src[:4]` panics. -/
def Mac.encrypt (m : Mac) (src : Bytes) : Option Bytes :=
  if src.length < 4 then none
  else
    let head := src.take 4 ++ signature (Hash.new src)
    some (head ++ m.cipher.lock (m.salt ++ head) (src.drop 4))

/-- crypto/mac.go:96-111 `Decrypt(nil, src)`: the result (`none`: authentication error) and the
caller's slice afterwards. On success `append(src[:4], dst...)` has room in the array of `src`, so
the plain text is written over the bytes after the epoch. -/
def Mac.decrypt (m : Mac) (src : Bytes) : Option Bytes × Bytes :=
  if src.length < m.overhead then (none, src)
  else
    match m.cipher.unlock (m.salt ++ src.take 8) (src.drop 8) with
    | none => (none, src)
    | some plain => (some (src.take 4 ++ plain), patch src 4 plain)

@[simp] theorem length_signature (v : UInt32) : (signature v).length = 4 := by
  simp [signature, put32]

theorem Mac.encrypt_eq (m : Mac) (src : Bytes) (h : 4 ≤ src.length) :
    m.encrypt src = some ((src.take 4 ++ signature (Hash.new src)) ++
      m.cipher.lock (m.salt ++ (src.take 4 ++ signature (Hash.new src))) (src.drop 4)) := by
  have : ¬ src.length < 4 := by omega
  simp [Mac.encrypt, this]

theorem Mac.decrypt_encrypt (m : Mac) (hs : m.cipher.Sound) (src out : Bytes) (h : m.encrypt src = some out) :
    (m.decrypt out).1 = some src ∧ out.length = src.length + 20 := by
  by_cases hl : src.length < 4
  · simp [Mac.encrypt, hl] at h
  · rw [m.encrypt_eq src (by omega)] at h
    have hh : (src.take 4 ++ signature (Hash.new src)).length = 8 := by simp; omega
    generalize hhd : src.take 4 ++ signature (Hash.new src) = head at *
    have hsl := hs.length (m.salt ++ head) (src.drop 4)
    simp only [Option.some.injEq] at h
    subst h
    have hlen : (head ++ m.cipher.lock (m.salt ++ head) (src.drop 4)).length = src.length + 20 := by
      simp only [List.length_append, hh, hsl, List.length_drop]; omega
    refine ⟨?_, hlen⟩
    have h20 : ¬ (head ++ m.cipher.lock (m.salt ++ head) (src.drop 4)).length < m.overhead := by
      rw [hlen]; simp only [Mac.overhead]; omega
    have ht : (head ++ m.cipher.lock (m.salt ++ head) (src.drop 4)).take 8 = head := by
      rw [← hh]; exact List.take_left
    have hd : (head ++ m.cipher.lock (m.salt ++ head) (src.drop 4)).drop 8 = m.cipher.lock (m.salt ++ head) (src.drop 4) := by
      rw [← hh]; exact List.drop_left
    have ht4 : (head ++ m.cipher.lock (m.salt ++ head) (src.drop 4)).take 4 = src.take 4 := by
      rw [← hhd, List.append_assoc]
      have : (src.take 4).length = 4 := by simp; omega
      exact List.take_left' this
    simp only [Mac.decrypt, if_neg h20, ht, hd, hs.opens, ht4, List.take_append_drop]

end Verif
