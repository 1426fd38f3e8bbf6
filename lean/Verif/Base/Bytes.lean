/-!
# Bytes

Little-endian integers and slices over byte lists, as used by every codec of the code base
(`encoding/binary.LittleEndian`). A Go slice expression that would panic is `none` here.
-/

namespace Verif

/-- A Go `[]byte`. -/
abbrev Bytes := List UInt8

/-- The `k` little-endian bytes of `n` (reduced modulo `256^k`). -/
def leBytes : Nat → Nat → Bytes
  | 0, _ => []
  | k + 1, n => UInt8.ofNat (n % 256) :: leBytes k (n / 256)

/-- The number denoted by little-endian bytes. -/
def leNat : Bytes → Nat
  | [] => 0
  | b :: bs => b.toNat + 256 * leNat bs

@[simp] theorem length_leBytes (k n : Nat) : (leBytes k n).length = k := by
  induction k generalizing n with
  | zero => rfl
  | succ k ih => simp [leBytes, ih]

theorem leNat_leBytes (k n : Nat) : leNat (leBytes k n) = n % 256 ^ k := by
  induction k generalizing n with
  | zero => simp [leBytes, leNat, Nat.mod_one]
  | succ k ih =>
    simp only [leBytes, leNat, ih]
    have h : (UInt8.ofNat (n % 256)).toNat = n % 256 := by
      simp
    rw [h, Nat.pow_succ, Nat.mul_comm (256 ^ k) 256, Nat.mod_mul]

theorem leNat_lt (bs : Bytes) : leNat bs < 256 ^ bs.length := by
  induction bs with
  | nil => simp [leNat]
  | cons b bs ih =>
    have := b.toNat_lt
    simp only [leNat, List.length_cons, Nat.pow_succ]
    omega

theorem leBytes_leNat (bs : Bytes) : leBytes bs.length (leNat bs) = bs := by
  induction bs with
  | nil => rfl
  | cons b bs ih =>
    have hb := b.toNat_lt
    simp only [leNat, List.length_cons, leBytes]
    have h1 : (b.toNat + 256 * leNat bs) % 256 = b.toNat := by omega
    have h2 : (b.toNat + 256 * leNat bs) / 256 = leNat bs := by omega
    rw [h1, h2, ih]
    simp

/-- Go `b[lo:hi]` with `hi ≤ len(b)` and `lo ≤ hi`; otherwise the Go code panics (`none`). -/
def slice? (b : Bytes) (lo hi : Nat) : Option Bytes :=
  if lo ≤ hi ∧ hi ≤ b.length then some ((b.drop lo).take (hi - lo)) else none

/-- Go `copy(buf[off:], d)` / `PutUintN(buf[off:], x)` inside a buffer that is long enough. -/
def patch (b : Bytes) (off : Nat) (d : Bytes) : Bytes :=
  b.take off ++ d ++ b.drop (off + d.length)

/-- `binary.LittleEndian.PutUint16/32/64` as the bytes written. -/
def put16 (x : UInt16) : Bytes := leBytes 2 x.toNat
@[inherit_doc put16] def put32 (x : UInt32) : Bytes := leBytes 4 x.toNat
@[inherit_doc put16] def put64 (x : UInt64) : Bytes := leBytes 8 x.toNat
/-- A Go `int64` written through `uint64(x)`. -/
def putI64 (x : Int64) : Bytes := put64 x.toUInt64

/-- `binary.LittleEndian.Uint16(b[off:off+2])`. -/
def get16 (b : Bytes) (off : Nat) : Option UInt16 :=
  (slice? b off (off + 2)).map fun s => UInt16.ofNat (leNat s)
@[inherit_doc get16] def get32 (b : Bytes) (off : Nat) : Option UInt32 :=
  (slice? b off (off + 4)).map fun s => UInt32.ofNat (leNat s)
@[inherit_doc get16] def get64 (b : Bytes) (off : Nat) : Option UInt64 :=
  (slice? b off (off + 8)).map fun s => UInt64.ofNat (leNat s)
/-- `int64(binary.LittleEndian.Uint64(b[off:off+8]))`. -/
def getI64 (b : Bytes) (off : Nat) : Option Int64 := (get64 b off).map UInt64.toInt64

@[simp] theorem length_put16 (x : UInt16) : (put16 x).length = 2 := by simp [put16]
@[simp] theorem length_put32 (x : UInt32) : (put32 x).length = 4 := by simp [put32]
@[simp] theorem length_put64 (x : UInt64) : (put64 x).length = 8 := by simp [put64]
@[simp] theorem length_putI64 (x : Int64) : (putI64 x).length = 8 := by simp [putI64]

/-- Slicing exactly the middle segment. -/
theorem slice?_mid (a m z : Bytes) (lo hi : Nat) (h1 : lo = a.length) (h2 : hi = a.length + m.length) :
    slice? (a ++ m ++ z) lo hi = some m := by
  subst h1 h2
  simp [slice?]

theorem slice?_mid' (a m z : Bytes) (lo hi : Nat) (h1 : lo = a.length) (h2 : hi = a.length + m.length) :
    slice? (a ++ (m ++ z)) lo hi = some m := by
  rw [← List.append_assoc]; exact slice?_mid a m z lo hi h1 h2

theorem get16_mid (a : Bytes) (x : UInt16) (z : Bytes) (off : Nat) (h : off = a.length) :
    get16 (a ++ put16 x ++ z) off = some x := by
  simp only [get16]
  rw [slice?_mid a (put16 x) z off (off + 2) h (by simp [h])]
  simp only [Option.map_some, put16, leNat_leBytes]
  congr 1
  apply UInt16.toNat.inj
  simp

theorem get32_mid (a : Bytes) (x : UInt32) (z : Bytes) (off : Nat) (h : off = a.length) :
    get32 (a ++ put32 x ++ z) off = some x := by
  simp only [get32]
  rw [slice?_mid a (put32 x) z off (off + 4) h (by simp [h])]
  simp only [Option.map_some, put32, leNat_leBytes]
  congr 1
  apply UInt32.toNat.inj
  simp

theorem get64_mid (a : Bytes) (x : UInt64) (z : Bytes) (off : Nat) (h : off = a.length) :
    get64 (a ++ put64 x ++ z) off = some x := by
  simp only [get64]
  rw [slice?_mid a (put64 x) z off (off + 8) h (by simp [h])]
  simp only [Option.map_some, put64, leNat_leBytes]
  congr 1
  apply UInt64.toNat.inj
  simp

theorem getI64_mid (a : Bytes) (x : Int64) (z : Bytes) (off : Nat) (h : off = a.length) :
    getI64 (a ++ putI64 x ++ z) off = some x := by
  simp only [getI64, putI64, get64_mid a x.toUInt64 z off h, Option.map_some]
  rfl

theorem length_patch (b : Bytes) (off : Nat) (d : Bytes) (h : off + d.length ≤ b.length) :
    (patch b off d).length = b.length := by
  simp [patch]; omega

theorem slice?_length {b s : Bytes} {lo hi : Nat} (h : slice? b lo hi = some s) : s.length = hi - lo := by
  unfold slice? at h
  split at h
  · cases h; simp; omega
  · cases h

theorem slice?_append_right (a z : Bytes) (lo hi : Nat) (h : a.length ≤ lo) (hle : lo ≤ hi) :
    slice? (a ++ z) lo hi = slice? z (lo - a.length) (hi - a.length) := by
  unfold slice?
  have h1 : (lo ≤ hi ∧ hi ≤ (a ++ z).length) ↔ (lo - a.length ≤ hi - a.length ∧ hi - a.length ≤ z.length) := by
    simp; omega
  have h2 : List.drop lo (a ++ z) = List.drop (lo - a.length) z := by
    rw [List.drop_append, List.drop_eq_nil_of_le h, List.nil_append]
  have h3 : hi - a.length - (lo - a.length) = hi - lo := by omega
  simp only [h1, h2, h3]

theorem slice?_append_left (a z : Bytes) (hi : Nat) (h : hi = a.length) : slice? (a ++ z) 0 hi = some a := by
  subst h; simp [slice?]

theorem get16_skip (a z : Bytes) (off : Nat) (h : a.length ≤ off) : get16 (a ++ z) off = get16 z (off - a.length) := by
  simp only [get16]; rw [slice?_append_right _ _ _ _ h (by omega)]
  congr 2; omega
theorem get32_skip (a z : Bytes) (off : Nat) (h : a.length ≤ off) : get32 (a ++ z) off = get32 z (off - a.length) := by
  simp only [get32]; rw [slice?_append_right _ _ _ _ h (by omega)]
  congr 2; omega
theorem get64_skip (a z : Bytes) (off : Nat) (h : a.length ≤ off) : get64 (a ++ z) off = get64 z (off - a.length) := by
  simp only [get64]; rw [slice?_append_right _ _ _ _ h (by omega)]
  congr 2; omega
theorem getI64_skip (a z : Bytes) (off : Nat) (h : a.length ≤ off) : getI64 (a ++ z) off = getI64 z (off - a.length) := by
  simp only [getI64, get64_skip a z off h]

theorem get64_cons (b : UInt8) (z : Bytes) (n : Nat) : get64 (b :: z) (n + 1) = get64 z n :=
  get64_skip [b] z (n + 1) (by simp)

@[simp] theorem get16_put (x : UInt16) (z : Bytes) : get16 (put16 x ++ z) 0 = some x := get16_mid [] x z 0 rfl
@[simp] theorem get32_put (x : UInt32) (z : Bytes) : get32 (put32 x ++ z) 0 = some x := get32_mid [] x z 0 rfl
@[simp] theorem get64_put (x : UInt64) (z : Bytes) : get64 (put64 x ++ z) 0 = some x := get64_mid [] x z 0 rfl
@[simp] theorem getI64_put (x : Int64) (z : Bytes) : getI64 (putI64 x ++ z) 0 = some x := getI64_mid [] x z 0 rfl
@[simp] theorem get16_put' (x : UInt16) : get16 (put16 x) 0 = some x := by simpa using get16_put x []
@[simp] theorem get32_put' (x : UInt32) : get32 (put32 x) 0 = some x := by simpa using get32_put x []
@[simp] theorem get64_put' (x : UInt64) : get64 (put64 x) 0 = some x := by simpa using get64_put x []
@[simp] theorem getI64_put' (x : Int64) : getI64 (putI64 x) 0 = some x := by simpa using getI64_put x []

end Verif
