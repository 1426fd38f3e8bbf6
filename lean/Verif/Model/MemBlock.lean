import Verif.Base.AMap
import Verif.Model.File

/-!
# Blocks of the in-memory store

Model of memdb/block.go. A block's buffer (`bpool.Buffer`) is a byte list with a largest size: `Extend` grows it by
zeros or fails, `WriteAt` overwrites, `Slice` gives a part or fails.
-/

namespace Verif

/-- memdb/block.go:44-47 `_Key`. -/
structure MKey where
  del : Bool
  key : UInt64
deriving DecidableEq, Repr

/-- memdb/block.go:49-58 `_Block`. -/
structure MBlock where
  count : Int := 0
  data : Bytes := []
  records : AMap MKey Int := []
  timeRefs : List Int := []
  lastOffset : Nat := 0
deriving Repr, DecidableEq

/-- What reading gives: bytes, an error, or a panic. -/
inductive MRes where
  | ok (d : Bytes)
  | err
  | panic
deriving DecidableEq, Repr

/-- `bpool.Buffer.Slice(lo, hi)`. -/
def bufSlice (b : Bytes) (lo hi : Int) : Option Bytes := if 0 ≤ lo ∧ 0 ≤ hi then slice? b lo.toNat hi.toNat else none

/-- memdb/block.go:68-80 `get` (the same code is in memdb/db.go:163-175 `Lookup`). -/
def MBlock.get (b : MBlock) (off : Int) : MRes :=
  match bufSlice b.data off (off + 4) with
  | none => .err
  | some s =>
    let dataLen : Int := (UInt32.ofNat (leNat s)).toNat
    match bufSlice b.data off (off + dataLen) with
    | none => .err
    | some d => if d.length < 13 then .panic else .ok (d.drop 13)

/-- The delete flag and the key as written to the buffer (memdb/block.go:95-97, 117-119). -/
def MKey.bytes (k : MKey) : Bytes := [if k.del then 1 else 0] ++ put64 k.key

/-- memdb/block.go:82-110 `put`; `none` is the error of `Extend`. -/
def MBlock.put (cap : Nat) (b : MBlock) (k : MKey) (d : Bytes) : Option MBlock :=
  let dataLen := d.length + 8 + 1 + 4
  let off := b.data.length
  if cap < off + dataLen then none else
  let data := truncate b.data (off + dataLen)
  let data := writeAt data off (put32 (UInt32.ofNat dataLen))
  let data := writeAt data (off + 4) k.bytes
  let data := writeAt data (off + 8 + 1 + 4) d
  some { b with
    data := data
    count := if k.del then b.count else b.count + 1
    records := b.records.set k off }

/-- memdb/block.go:112-127 `delete`. A key that is not in the map has offset 0. -/
def MBlock.delete (b : MBlock) (key : UInt64) : MBlock :=
  let off := ((b.records.get ⟨false, key⟩).getD 0).toNat
  { b with
    data := writeAt b.data (off + 4) (MKey.bytes ⟨true, key⟩)
    records := b.records.del ⟨false, key⟩
    count := b.count - 1 }

/-! ## The layout of a block -/

/-- One record in the buffer. -/
def encRec (r : MKey × Bytes) : Bytes := put32 (UInt32.ofNat (r.2.length + 13)) ++ r.1.bytes ++ r.2

theorem MKey.length_bytes (k : MKey) : k.bytes.length = 9 := by simp [MKey.bytes]

theorem length_encRec (r : MKey × Bytes) : (encRec r).length = r.2.length + 13 := by
  simp [encRec, MKey.length_bytes]; omega

/-- Where record `i` begins. -/
def recOff (rs : List (MKey × Bytes)) (i : Nat) : Nat := ((rs.take i).flatMap encRec).length

/-- The buffer is the records one after another, and the map points at records of its keys. -/
structure MBlock.Holds (b : MBlock) (rs : List (MKey × Bytes)) : Prop where
  data : b.data = rs.flatMap encRec
  sizes : ∀ r ∈ rs, r.2.length + 13 < 2 ^ 32
  points : ∀ k off, b.records.get k = some off → ∃ i d, rs[i]? = some (k, d) ∧ off = recOff rs i

theorem split_recs {rs : List (MKey × Bytes)} {i : Nat} {r : MKey × Bytes} (h : rs[i]? = some r) :
    rs.flatMap encRec = (rs.take i).flatMap encRec ++ encRec r ++ (rs.drop (i + 1)).flatMap encRec := by
  obtain ⟨hlt, rfl⟩ := List.getElem?_eq_some_iff.mp h
  have := congrArg (List.flatMap encRec) (List.take_append_drop i rs)
  rw [List.drop_eq_getElem_cons hlt, List.flatMap_append, List.flatMap_cons] at this
  rw [← this, List.append_assoc]

theorem UInt32_toNat_ofNat {n : Nat} (h : n < 2 ^ 32) : (UInt32.ofNat n).toNat = n := by
  rw [UInt32.toNat_ofNat']; omega

/-- Reading record `i` gives its payload. -/
theorem MBlock.Holds.get {b : MBlock} {rs : List (MKey × Bytes)} (h : b.Holds rs) {i : Nat} {k : MKey} {d : Bytes}
    (hi : rs[i]? = some (k, d)) : b.get (recOff rs i) = .ok d := by
  have hs := split_recs hi
  have hsize : d.length + 13 < 2 ^ 32 := h.sizes _ (List.mem_of_getElem? hi)
  have h1 : bufSlice b.data (recOff rs i) (recOff rs i + 4) = some (put32 (UInt32.ofNat (d.length + 13))) := by
    unfold bufSlice
    rw [if_pos (by omega), h.data, hs]
    simp only [encRec, List.append_assoc]
    rw [← List.append_assoc]
    apply slice?_mid
    · simp [recOff]
    · simp [recOff]; omega
  simp only [MBlock.get, h1]
  have hlen : (UInt32.ofNat (leNat (put32 (UInt32.ofNat (d.length + 13))))).toNat = d.length + 13 := by
    simp only [put32, leNat_leBytes, UInt32_toNat_ofNat hsize]
    rw [UInt32_toNat_ofNat (by omega)]
    omega
  rw [hlen]
  have h2 : bufSlice b.data (recOff rs i) (recOff rs i + ((d.length + 13 : Nat) : Int)) = some (encRec (k, d)) := by
    unfold bufSlice
    rw [if_pos (by omega), h.data, hs]
    apply slice?_mid
    · simp [recOff]
    · rw [length_encRec]; simp only [recOff]; omega
  rw [h2]
  simp only
  rw [if_neg (by rw [length_encRec]; omega)]
  have hdrop : (encRec (k, d)).drop 13 = d := by
    simp only [encRec]
    exact List.drop_left' (by simp [MKey.length_bytes])
  rw [hdrop]

/-- A block whose buffer is a sequence of records. -/
def MBlock.WF (b : MBlock) : Prop := ∃ rs, b.Holds rs

theorem MBlock.wf_empty : ({} : MBlock).WF := ⟨[], rfl, by simp, by simp⟩

/-- The value of a key in a block. -/
def MBlock.value (b : MBlock) (k : MKey) : Option MRes := (b.records.get k).map b.get

theorem MBlock.Holds.value {b : MBlock} {rs : List (MKey × Bytes)} (h : b.Holds rs) (k : MKey) :
    b.value k = none ∨ ∃ d, b.value k = some (.ok d) := by
  unfold MBlock.value
  cases hk : b.records.get k with
  | none => left; rfl
  | some off =>
    obtain ⟨i, d, hi, rfl⟩ := h.points k off hk
    right
    exact ⟨d, by rw [Option.map_some, h.get hi]⟩

theorem writeAt_in (a m z d : Bytes) (off : Nat) (ho : off = a.length) (hl : d.length = m.length) : writeAt (a ++ m ++ z) off d = a ++ d ++ z := by
  subst ho
  unfold writeAt
  split
  · next hd => subst hd; have : m = [] := by simpa using hl.symm
               subst this; rfl
  · unfold patch
    rw [show a.length - (a ++ m ++ z).length = 0 by simp, List.replicate_zero, List.append_nil, hl]
    congr 1
    · rw [List.append_assoc, List.take_left]
    · exact List.drop_left' (by simp)

/-- The bytes `put` leaves behind. -/
theorem put_data (data : Bytes) (k : MKey) (d : Bytes) :
    writeAt (writeAt (writeAt (truncate data (data.length + (d.length + 8 + 1 + 4))) data.length
      (put32 (UInt32.ofNat (d.length + 8 + 1 + 4)))) (data.length + 4) k.bytes) (data.length + 8 + 1 + 4) d = data ++ encRec (k, d) := by
  have h0 : truncate data (data.length + (d.length + 8 + 1 + 4)) =
      data ++ List.replicate 4 0 ++ (List.replicate 9 0 ++ List.replicate d.length 0) := by
    unfold truncate
    rw [List.take_of_length_le (by omega)]
    rw [show data.length + (d.length + 8 + 1 + 4) - data.length = 4 + (9 + d.length) by omega, ← List.replicate_append_replicate, ← List.replicate_append_replicate,
      List.append_assoc]
  rw [h0, writeAt_in _ _ _ _ _ rfl (by simp)]
  rw [show data ++ put32 (UInt32.ofNat (d.length + 8 + 1 + 4)) ++ (List.replicate 9 0 ++ List.replicate d.length 0) =
    (data ++ put32 (UInt32.ofNat (d.length + 8 + 1 + 4))) ++ List.replicate 9 0 ++ List.replicate d.length 0 by simp]
  rw [writeAt_in _ _ _ _ _ (by simp) (by simp [MKey.length_bytes])]
  rw [show data ++ put32 (UInt32.ofNat (d.length + 8 + 1 + 4)) ++ k.bytes ++ List.replicate d.length 0 =
    (data ++ put32 (UInt32.ofNat (d.length + 8 + 1 + 4)) ++ k.bytes) ++ List.replicate d.length 0 ++ [] by simp]
  rw [writeAt_in _ _ _ _ _ (by simp [MKey.length_bytes]) (by simp)]
  simp [encRec, Nat.add_assoc]

theorem recOff_append {rs zs : List (MKey × Bytes)} {i : Nat} (h : i ≤ rs.length) : recOff (rs ++ zs) i = recOff rs i := by
  simp only [recOff]; rw [List.take_append_of_le_length h]

theorem recOff_length (rs zs : List (MKey × Bytes)) : recOff (rs ++ zs) rs.length = (rs.flatMap encRec).length := by
  simp only [recOff]; rw [List.take_left]

/-- `put` appends one record. -/
theorem MBlock.Holds.put {cap : Nat} {b b' : MBlock} {rs : List (MKey × Bytes)} (h : b.Holds rs) {k : MKey} {d : Bytes}
    (hd : d.length + 13 < 2 ^ 32) (hp : b.put cap k d = some b') : b'.Holds (rs ++ [(k, d)]) := by
  simp only [MBlock.put] at hp
  split at hp
  · simp at hp
  · simp only [Option.some.injEq] at hp
    subst hp
    refine ⟨?_, ?_, ?_⟩
    · simp only
      rw [put_data, h.data]; simp
    · intro r hr
      rcases List.mem_append.mp hr with hr | hr
      · exact h.sizes r hr
      · rw [List.mem_singleton] at hr; subst hr; exact hd
    · intro k' off hg
      simp only [AMap.get_set] at hg
      split at hg
      · next hk =>
        subst hk
        simp only [Option.some.injEq] at hg
        refine ⟨rs.length, d, by simp, ?_⟩
        rw [recOff_length, ← hg, h.data]
      · obtain ⟨i, d', hi, ho⟩ := h.points k' off hg
        have hlt := (List.getElem?_eq_some_iff.mp hi).1
        exact ⟨i, d', by rw [List.getElem?_append_left hlt]; exact hi, by rw [recOff_append (by omega)]; exact ho⟩

theorem flatMap_set_length (rs : List (MKey × Bytes)) (i : Nat) (r : MKey × Bytes) (hr : ∀ r', rs[i]? = some r' → r'.2 = r.2) (j : Nat) :
    recOff (rs.set i r) j = recOff rs j := by
  simp only [recOff]
  induction rs generalizing i j with
  | nil => simp
  | cons q rs ih =>
    cases j with
    | zero => simp
    | succ j =>
      cases i with
      | zero =>
        have := hr q rfl
        simp [length_encRec, this]
      | succ i =>
        have := ih i (fun r' h => hr r' (by simpa using h)) j
        simp only [List.set_cons_succ, List.take_succ_cons, List.flatMap_cons, List.length_append]
        omega

/-- `delete` marks the record of a present key, and removes it from the map. -/
theorem MBlock.Holds.delete {b : MBlock} {rs : List (MKey × Bytes)} (h : b.Holds rs) {key : UInt64} {off : Int}
    (hk : b.records.get ⟨false, key⟩ = some off) :
    ∃ i d, rs[i]? = some (⟨false, key⟩, d) ∧ off = recOff rs i ∧ (b.delete key).Holds (rs.set i (⟨true, key⟩, d)) := by
  obtain ⟨i, d, hi, ho⟩ := h.points _ _ hk
  refine ⟨i, d, hi, ho, ?_⟩
  have hlt := (List.getElem?_eq_some_iff.mp hi).1
  have hsame : ∀ r', rs[i]? = some r' → r'.2 = ((⟨true, key⟩, d) : MKey × Bytes).2 := by
    intro r' hr'; rw [hi] at hr'; simp only [Option.some.injEq] at hr'; rw [← hr']
  refine ⟨?_, ?_, ?_⟩
  · simp only [MBlock.delete, hk, Option.getD_some]
    have hs := split_recs hi
    have hs' := split_recs (rs := rs.set i (⟨true, key⟩, d)) (i := i) (r := (⟨true, key⟩, d)) (by simp [hlt])
    rw [hs', h.data, hs, ho]
    rw [List.take_set_of_le (Nat.le_refl i), List.drop_set_of_lt (by omega)]
    simp only [Int.toNat_natCast, encRec]
    have := writeAt_in ((rs.take i).flatMap encRec ++ put32 (UInt32.ofNat (d.length + 13))) (MKey.bytes ⟨false, key⟩)
      (d ++ (rs.drop (i + 1)).flatMap encRec) (MKey.bytes ⟨true, key⟩) (recOff rs i + 4) (by simp [recOff])
      (by simp [MKey.length_bytes])
    simp only [List.append_assoc] at this ⊢
    exact this
  · intro r hr
    rcases List.mem_or_eq_of_mem_set hr with hr | hr
    · exact h.sizes r hr
    · subst hr; exact h.sizes (⟨false, key⟩, d) (List.mem_of_getElem? hi)
  · intro k' off' hg
    simp only [MBlock.delete, AMap.get_del] at hg
    split at hg
    · simp at hg
    · next hne =>
      obtain ⟨j, d', hj, ho'⟩ := h.points k' off' hg
      have hij : i ≠ j := by
        rintro rfl
        rw [hi] at hj
        simp only [Option.some.injEq, Prod.mk.injEq] at hj
        exact hne hj.1.symm
      exact ⟨j, d', by rw [List.getElem?_set_ne hij]; exact hj, by rw [flatMap_set_length rs i _ hsame]; exact ho'⟩

theorem MBlock.WF.put {cap : Nat} {b b' : MBlock} (h : b.WF) {k : MKey} {d : Bytes} (hd : d.length + 13 < 2 ^ 32)
    (hp : b.put cap k d = some b') : b'.WF := by
  obtain ⟨rs, h⟩ := h
  exact ⟨_, h.put hd hp⟩

theorem MBlock.WF.delete {b : MBlock} (h : b.WF) {key : UInt64} (hk : (b.records.get ⟨false, key⟩).isSome) : (b.delete key).WF := by
  obtain ⟨rs, h⟩ := h
  obtain ⟨off, hk⟩ := Option.isSome_iff_exists.mp hk
  obtain ⟨i, d, _, _, h'⟩ := h.delete hk
  exact ⟨_, h'⟩

/-- After `put` the key has the new value and every other key its old one. -/
theorem MBlock.WF.value_put {cap : Nat} {b b' : MBlock} (h : b.WF) {k : MKey} {d : Bytes} (hd : d.length + 13 < 2 ^ 32)
    (hp : b.put cap k d = some b') (k' : MKey) : b'.value k' = if k' = k then some (.ok d) else b.value k' := by
  obtain ⟨rs, h⟩ := h
  have h' := h.put hd hp
  have hrec : b'.records = b.records.set k b.data.length := by
    simp only [MBlock.put] at hp
    split at hp
    · simp at hp
    · simp only [Option.some.injEq] at hp; rw [← hp]
  unfold MBlock.value
  rw [hrec, AMap.get_set]
  split
  · rw [Option.map_some, h.data, ← recOff_length rs [(k, d)], h'.get (i := rs.length) (k := k) (d := d) (by simp)]
  · cases hg : b.records.get k' with
    | none => rfl
    | some off =>
      obtain ⟨i, d', hi, rfl⟩ := h.points k' off hg
      have hlt := (List.getElem?_eq_some_iff.mp hi).1
      rw [Option.map_some, Option.map_some, h.get hi, ← recOff_append (zs := [(k, d)]) (show i ≤ rs.length by omega),
        h'.get (by rw [List.getElem?_append_left hlt]; exact hi)]

/-- After `delete` the key has no value and every other key its old one. -/
theorem MBlock.WF.value_delete {b : MBlock} (h : b.WF) {key : UInt64} (hk : (b.records.get ⟨false, key⟩).isSome) (k' : MKey) :
    (b.delete key).value k' = if k' = ⟨false, key⟩ then none else b.value k' := by
  obtain ⟨rs, h⟩ := h
  obtain ⟨off, hk⟩ := Option.isSome_iff_exists.mp hk
  obtain ⟨i, d, hi, ho, h'⟩ := h.delete hk
  have hsame : ∀ r', rs[i]? = some r' → r'.2 = ((⟨true, key⟩, d) : MKey × Bytes).2 := by
    intro r' hr'; rw [hi] at hr'; simp only [Option.some.injEq] at hr'; rw [← hr']
  unfold MBlock.value
  rw [show (b.delete key).records = b.records.del ⟨false, key⟩ from rfl, AMap.get_del]
  split
  · rfl
  · next hne =>
    cases hg : b.records.get k' with
    | none => rfl
    | some off' =>
      obtain ⟨j, d', hj, rfl⟩ := h.points k' off' hg
      have hij : i ≠ j := by
        rintro rfl
        rw [hi] at hj
        simp only [Option.some.injEq, Prod.mk.injEq] at hj
        exact hne hj.1.symm
      rw [Option.map_some, Option.map_some, h.get hj, ← flatMap_set_length rs i (⟨true, key⟩, d) hsame,
        h'.get (k := k') (d := d') (by rw [List.getElem?_set_ne hij]; exact hj)]

end Verif
