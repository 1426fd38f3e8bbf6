import Verif.Base.Bytes

/-!
# Bloom filter

filter/bloom.go, filter/filter.go (generator and block), and the database's use of it in /repo/filter.go.
The random keys (`crypto/rand`) are a parameter.
-/

namespace Verif

/-- filter/bloom.go:19-25 `Filter`; the counter `n` is never read. -/
structure Bloom where
  bits : List UInt64
  keys : List UInt64
  m : UInt64
deriving DecidableEq, Repr

namespace Bloom

/-- Words needed for `m` bits: `(m+63)/64` (filter/bloom.go:37). -/
def words (m : UInt64) : Nat := ((m + 63) / 64).toNat

/-- filter/bloom.go:28-40 `newFilter`, for the given random keys; `none` below `MMin`. -/
def new (keys : List UInt64) (m : UInt64) : Option Bloom :=
  if m < 2 then none else some ⟨List.replicate (words m) 0, keys, m⟩

/-- The bit position of a hash (filter/bloom.go:86, 98 `i %= b.m`). -/
def pos (f : Bloom) (h key : UInt64) : UInt64 := (h ^^^ key) % f.m

/-- filter/bloom.go:87 `b.bits[i>>6] |= 1 << uint(i&0x3f)`. -/
def setBit (bits : List UInt64) (i : UInt64) : List UInt64 :=
  bits.modify (i >>> 6).toNat (· ||| (1 <<< (i &&& 0x3f)))

/-- filter/bloom.go:99 `(b.bits[i>>6]>>uint(i&0x3f))&1 == 0`, negated; `none` is an index panic. -/
def getBit (bits : List UInt64) (i : UInt64) : Option Bool :=
  bits[(i >>> 6).toNat]?.map fun w => (w >>> (i &&& 0x3f)) &&& 1 != 0

/-- filter/bloom.go:81-90 `Add`. -/
def add (f : Bloom) (h : UInt64) : Bloom :=
  { f with bits := f.keys.foldl (fun bits k => setBit bits (f.pos h k)) f.bits }

/-- filter/bloom.go:93-104 `Test`. -/
def testKeys (f : Bloom) (h : UInt64) : List UInt64 → Option Bool
  | [] => some true
  | k :: ks => match getBit f.bits (f.pos h k) with
    | none => none
    | some false => some false
    | some true => testKeys f h ks

def test (f : Bloom) (h : UInt64) : Option Bool := f.testKeys h f.keys

/-- filter/bloom.go:61-68 `Bytes`. -/
def bytes (f : Bloom) : Bytes := f.keys.flatMap put64 ++ f.bits.flatMap put64

/-- `binary.Read` of `n` words. -/
def readWords : Nat → Bytes → Option (List UInt64)
  | 0, _ => some []
  | n + 1, b => do
    let w ← get64 b 0
    let ws ← readWords n (b.drop 8)
    pure (w :: ws)

/-- filter/bloom.go:42-58 `newFilterFromBytes`. `binary.Read` on too little data leaves the slice zero (the error is
ignored). -/
def ofBytes (b : Bytes) (m : UInt64) (k : Nat) : Option Bloom :=
  if m < 2 then none else
  match readWords k b with
  | none => some ⟨List.replicate (words m) 0, List.replicate k 0, m⟩
  | some keys => match readWords (words m) (b.drop (8 * k)) with
    | none => some ⟨List.replicate (words m) 0, keys, m⟩
    | some bits => some ⟨bits, keys, m⟩

/-- filter/filter.go:4-5. -/
def bloomHashes : Nat := 7
def bloomBits : UInt64 := 160000

/-- The array is large enough for every bit position. -/
structure WF (f : Bloom) : Prop where
  m : 2 ≤ f.m.toNat
  len : f.bits.length = words f.m

theorem words_eq {m : UInt64} (h : m.toNat + 63 < 2 ^ 64) : words m = (m.toNat + 63) / 64 := by
  simp only [words, UInt64.toNat_div, UInt64.toNat_add]
  rw [show (63 : UInt64).toNat = 63 by rfl, show (64 : UInt64).toNat = 64 by rfl, Nat.mod_eq_of_lt h]

theorem pos_lt (f : Bloom) (h key : UInt64) (hm : 2 ≤ f.m.toNat) : (f.pos h key).toNat < f.m.toNat := by
  rw [pos, UInt64.toNat_mod]; exact Nat.mod_lt _ (by omega)

theorem word_index (i : UInt64) : (i >>> 6).toNat = i.toNat / 64 := by
  rw [UInt64.toNat_shiftRight, show (6 : UInt64).toNat % 64 = 6 by rfl, Nat.shiftRight_eq_div_pow]

theorem length_setBit (bits : List UInt64) (i : UInt64) : (setBit bits i).length = bits.length := by simp [setBit]

theorem bit_self (w i : UInt64) : ((w ||| (1 <<< (i &&& 0x3f))) >>> (i &&& 0x3f)) &&& 1 ≠ 0 := by
  have h : ∀ s : UInt64, s < 64 → ((w ||| (1 <<< s)) >>> s) &&& 1 ≠ 0 := by
    intro s hs h
    have h2 := congrArg UInt64.toBitVec h
    have h3 := congrArg (fun b => b.getLsbD 0) h2
    have hs' : s.toNat < 64 := by simpa [UInt64.lt_iff_toNat_lt] using hs
    simp [UInt64.toBitVec_and, UInt64.toBitVec_or, UInt64.toBitVec_shiftRight, UInt64.toBitVec_shiftLeft] at h3
    omega
  apply h
  rw [UInt64.lt_iff_toNat_lt, UInt64.toNat_and]
  exact Nat.lt_of_le_of_lt Nat.and_le_right (by decide)

theorem bit_mono (w i x : UInt64) (h : (w >>> i) &&& 1 ≠ 0) : ((w ||| x) >>> i) &&& 1 ≠ 0 := by
  intro h0
  apply h
  apply UInt64.toBitVec_inj.1
  have h2 := congrArg UInt64.toBitVec h0
  simp only [UInt64.toBitVec_and, UInt64.toBitVec_or, UInt64.toBitVec_shiftRight] at h2 ⊢
  ext j hj
  have h3 := congrArg (fun b => b.getLsbD j) h2
  simp at h3 ⊢
  intro a hj0
  exact h3 (Or.inl a) hj0

theorem getBit_setBit_self (bits : List UInt64) (i : UInt64) (h : (i >>> 6).toNat < bits.length) :
    getBit (setBit bits i) i = some true := by
  have := bit_self bits[(i >>> 6).toNat] i
  simp only [getBit, setBit, List.getElem?_modify, if_true, List.getElem?_eq_getElem h, Option.map_some, Option.map_eq_map,
    Option.some.injEq, bne_iff_ne]
  exact this

theorem getBit_setBit_mono (bits : List UInt64) (i j : UInt64) (h : getBit bits j = some true) :
    getBit (setBit bits i) j = some true := by
  simp only [getBit, setBit, List.getElem?_modify, Option.map_eq_some_iff] at *
  obtain ⟨w, hw, hb⟩ := h
  by_cases e : (i >>> 6).toNat = (j >>> 6).toNat
  · refine ⟨w ||| (1 <<< (i &&& 0x3f)), ?_, ?_⟩
    · simp only [e, if_true, hw, Option.map_eq_map, Option.map_some]
    · simp only [bne_iff_ne] at hb ⊢
      exact bit_mono w _ _ hb
  · exact ⟨w, by simp only [e, if_false, hw, Option.map_eq_map, Option.map_some], hb⟩

end Bloom

/-! ## The database's filter file -/

/-- /repo/filter.go:25-30 `Filter`. `file` is the content of the filter file, `gen` the generator of this session. The block
cache holds the bytes read from the file under a key made of the file size, so it returns what the file held. -/
structure DBFilter where
  file : Bytes
  gen : Bloom
deriving DecidableEq

namespace DBFilter

/-- db.go:145-150 (`filter: Filter{file, filterBlock: filter.NewFilterGenerator()}`): every open starts an empty generator. -/
def open_ (file : Bytes) (keys : List UInt64) : Option DBFilter :=
  (Bloom.new keys Bloom.bloomBits).map fun g => ⟨file, g⟩

/-- /repo/filter.go:33-35. -/
def append (f : DBFilter) (h : UInt64) : DBFilter := { f with gen := f.gen.add h }

/-- /repo/filter.go:38-45 with getFilterBlock (66-87). -/
def test (f : DBFilter) (h : UInt64) : Option Bool :=
  if f.file.length = 0 then some true
  else (Bloom.ofBytes f.file Bloom.bloomBits Bloom.bloomHashes).bind fun b => b.test h

/-- /repo/filter.go:48-64 `close`: `WriteAt(d, 0)`. -/
def close (f : DBFilter) : Bytes :=
  let d := f.gen.bytes
  d ++ f.file.drop d.length

end DBFilter

end Verif
