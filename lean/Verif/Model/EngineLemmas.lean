import Verif.Model.Engine
import Verif.Props.Codec
import Verif.Props.BlockRange
import Verif.Props.Lease
import Mathlib.Data.Finset.Card
import Mathlib.Data.Finset.Interval
import Mathlib.Order.Interval.Finset.Nat

/-!
# The index file as a function from block numbers to blocks
-/

namespace Verif

/-- An index block that holds the entries `es` in its first slots. -/
def mkBlock (es : List IndexEntry) : IndexBlock :=
  ⟨es ++ List.replicate (255 - es.length) IndexEntry.zero, UInt16.ofNat es.length⟩

/-- Entries that belong to block `k`: no sequence twice, all of group `k`. -/
structure GoodEs (k : Nat) (es : List IndexEntry) : Prop where
  range : ∀ e ∈ es, 255 * k < e.seq.toNat ∧ e.seq.toNat ≤ 255 * k + 255
  nodup : (es.map (·.seq)).Nodup

theorem GoodEs.length {k : Nat} {es : List IndexEntry} (g : GoodEs k es) : es.length ≤ 255 := by
  have h1 : (es.map (fun e => e.seq.toNat)).Nodup := by
    have : es.map (fun e => e.seq.toNat) = (es.map (·.seq)).map UInt64.toNat := by simp
    rw [this]
    exact g.nodup.map (fun a b h => UInt64.toNat.inj h)
  have h2 : (es.map (fun e => e.seq.toNat)).toFinset ⊆ Finset.Icc (255 * k + 1) (255 * k + 255) := by
    intro x hx
    simp only [List.mem_toFinset, List.mem_map] at hx
    obtain ⟨e, he, rfl⟩ := hx
    have := g.range e he
    simp only [Finset.mem_Icc]; omega
  have h3 := Finset.card_le_card h2
  rw [List.toFinset_card_of_nodup h1] at h3
  simp at h3
  omega

theorem goodEs_nil (k : Nat) : GoodEs k [] := ⟨by simp, by simp⟩

theorem mkBlock_grouped {k : Nat} {es : List IndexEntry} (g : GoodEs k es) : (mkBlock es).Grouped k := by
  have hl := g.length
  refine ⟨?_, ?_, ?_⟩
  · simp [mkBlock]; omega
  · intro e he h0
    simp only [mkBlock, List.mem_append, List.mem_replicate] at he
    rcases he with he | he
    · have := g.range e he; omega
    · rw [he.2] at h0; exact absurd rfl h0
  · intro h0 e he
    simp only [mkBlock] at h0 he
    cases es with
    | nil => rw [List.nil_append, List.mem_replicate] at he; rw [he.2]; rfl
    | cons x xs =>
      simp at h0
      have := g.range x (by simp)
      rw [h0] at this; simp at this

theorem mkBlock_zero : mkBlock [] = IndexBlock.zero := rfl

theorem length_mkBlock {k : Nat} {es : List IndexEntry} (g : GoodEs k es) : (mkBlock es).marshal.length = 4096 :=
  IndexBlock.length_marshal _ (mkBlock_grouped g).slots

theorem unmarshal_mkBlock {k : Nat} {es : List IndexEntry} (g : GoodEs k es) :
    IndexBlock.unmarshal (mkBlock es).marshal = some (mkBlock es) := C03_index_block_roundtrip _ k (mkBlock_grouped g)

theorem flatMap_zeros {α : Type} (f : α → Bytes) (x : α) (k n : Nat) (h : f x = List.replicate k 0) :
    (List.replicate n x).flatMap f = List.replicate (n * k) 0 := by
  induction n with
  | zero => simp
  | succ n ih => rw [List.replicate_succ, List.flatMap_cons, ih, h, List.replicate_append_replicate]; congr 1; rw [Nat.add_mul]; omega

theorem marshal_zero : (mkBlock []).marshal = List.replicate 4096 0 := by
  have h1 : (mkBlock []).entries = List.replicate 255 IndexEntry.zero := rfl
  have h2 : (mkBlock []).entryIdx = 0 := rfl
  have h3 : ((List.replicate 255 IndexEntry.zero).headD IndexEntry.zero).seq = 0 := rfl
  have h4 : put64 0 = List.replicate 8 0 := rfl
  have h5 : put16 0 = List.replicate 2 0 := rfl
  unfold IndexBlock.marshal
  have h6 : IndexEntry.encode 0 IndexEntry.zero = List.replicate 16 0 := rfl
  rw [h1, h2, h3]
  show put64 0 ++ List.flatMap (IndexEntry.encode 0) (List.replicate 255 IndexEntry.zero) ++ put16 0 ++ List.replicate 6 0 = _
  rw [flatMap_zeros _ _ 16 255 h6, h4, h5, List.replicate_append_replicate, List.replicate_append_replicate,
    List.replicate_append_replicate]

/-- The index file has `n` whole blocks; block `k` holds `B k`, and blocks past the end count as empty. -/
structure FileOK (index : Bytes) (n : Nat) (B : Nat → IndexBlock) : Prop where
  len : index.length = 4096 * n
  bound : n ≤ 524287
  blocks : ∀ k, k < n → slice? index (4096 * k) (4096 * k + 4096) = some (B k).marshal
  beyond : ∀ k, n ≤ k → B k = mkBlock []
  good : ∀ k, ∃ es, B k = mkBlock es ∧ GoodEs k es

theorem blockOff_eq (k : Nat) (h : k < 524287) : blockOff k = (4096 * k : Nat) := by
  rw [blockOff, blockOffset_eq k (by omega)]; push_cast; rfl

theorem FileOK.read {index : Bytes} {n : Nat} {B : Nat → IndexBlock} (f : FileOK index n B) {k : Nat} (h : k < n) :
    readIndexBlock index k = some (B k) := by
  have hb := f.bound
  obtain ⟨es, he, g⟩ := f.good k
  simp only [readIndexBlock, readAt, blockOff_eq k (by omega)]
  rw [if_pos (by omega)]
  have : ((4096 * k : Nat) : Int).toNat = 4096 * k := by omega
  rw [this]
  show (slice? index (4096 * k) (4096 * k + 4096)).bind _ = _
  rw [f.blocks k h, he]
  exact unmarshal_mkBlock g

theorem FileOK.read_none {index : Bytes} {n : Nat} {B : Nat → IndexBlock} (f : FileOK index n B) {k : Nat} (h : n ≤ k)
    (hk : k < 524287) : readIndexBlock index k = none := by
  simp only [readIndexBlock, readAt, blockOff_eq k hk]
  rw [if_pos (by omega)]
  have : ((4096 * k : Nat) : Int).toNat = 4096 * k := by omega
  rw [this, slice?, if_neg]
  · rfl
  · have := f.len
    have h2 : blockSize = 4096 := rfl
    omega

theorem fileOK_empty : FileOK [] 0 (fun _ => mkBlock []) :=
  ⟨rfl, by omega, fun _ h => absurd h (by omega), fun _ _ => rfl, fun k => ⟨[], rfl, goodEs_nil k⟩⟩

/-- Writing one block. -/
theorem FileOK.write {index : Bytes} {n : Nat} {B : Nat → IndexBlock} (f : FileOK index n B) {k : Nat} (hk : k < 524287)
    {es : List IndexEntry} (g : GoodEs k es) :
    FileOK (writeAt index (4096 * k) (mkBlock es).marshal) (max n (k + 1)) (Function.update B k (mkBlock es)) := by
  have hl := length_mkBlock g
  have hne : (mkBlock es).marshal ≠ [] := by
    intro h; rw [h] at hl; simp at hl
  have hfl := f.len
  have hfb := f.bound
  refine ⟨?_, by omega, ?_, ?_, ?_⟩
  · rw [length_writeAt _ _ _ hne, hl, f.len]; omega
  · intro j hj
    by_cases hjk : j = k
    · subst hjk
      rw [Function.update_self]
      have := slice?_writeAt_same index (mkBlock es).marshal (4096 * j) hne
      rw [hl] at this
      exact this
    · rw [Function.update_of_ne hjk]
      by_cases hjn : j < n
      · rw [slice?_writeAt_apart _ _ _ _ _ (by omega) (by omega) (by rw [hl]; omega)]
        exact f.blocks j hjn
      · rw [slice?_writeAt_hole _ _ _ _ _ hne (by omega) (by omega) (by omega), f.beyond j (by omega), marshal_zero]
        congr 2; omega
  · intro j hj
    rw [Function.update_of_ne (by omega)]
    exact f.beyond j (by omega)
  · intro j
    by_cases hjk : j = k
    · subst hjk; rw [Function.update_self]; exact ⟨es, rfl, g⟩
    · rw [Function.update_of_ne hjk]; exact f.good j

/-- Extending the file with zeros. -/
theorem FileOK.extend {index : Bytes} {n : Nat} {B : Nat → IndexBlock} (f : FileOK index n B) (m : Nat) (hm : m ≤ 524287)
    (hnm : n ≤ m) : FileOK (truncate index (4096 * m)) m B := by
  have hfl := f.len
  rw [truncate_grow _ _ (by omega)]
  refine ⟨by simp; omega, hm, ?_, fun k hk => f.beyond k (by omega), f.good⟩
  intro k hk
  by_cases hkn : k < n
  · rw [slice?_prefix _ _ _ _ (by omega)]; exact f.blocks k hkn
  · rw [f.beyond k (by omega), marshal_zero, slice?_eq_some (by omega)]
    refine ⟨by rw [List.length_replicate]; omega, fun i hi => ?_⟩
    rw [List.getElem?_append_right (by omega), List.getElem?_replicate, List.getElem?_replicate, if_pos (by omega),
      if_pos (by omega)]

/-- Writing two pieces one after the other. -/
theorem writeAt_append (f d1 d2 : Bytes) (off : Nat) (h1 : d1 ≠ []) :
    writeAt f off (d1 ++ d2) = writeAt (writeAt f off d1) (off + d1.length) d2 := by
  by_cases h2 : d2 = []
  · subst h2; simp [writeAt]
  apply List.ext_getElem?
  intro i
  have hp1 : 0 < d1.length := List.length_pos_iff.2 h1
  have hp2 : 0 < d2.length := List.length_pos_iff.2 h2
  rw [getElem?_writeAt _ _ _ _ (by simp [h1]), getElem?_writeAt _ _ _ _ h2, getElem?_writeAt _ _ _ _ h1,
    length_writeAt _ _ _ h1]
  by_cases ha : i < off
  · have h3 : i < off + d1.length := by omega
    have h4 : i < max f.length (off + d1.length) := by omega
    simp only [ha, h3, h4, if_true]
  · rw [if_neg ha]
    by_cases hb : i < off + d1.length
    · rw [if_pos (by simp; omega), if_pos hb, if_pos (by omega), if_neg ha, if_pos hb,
        List.getElem?_append_left (by omega)]
    · rw [if_neg hb, if_neg ha, if_neg hb]
      by_cases hc : i < off + d1.length + d2.length
      · rw [if_pos (by simp; omega), if_pos hc, List.getElem?_append_right (by omega)]
        congr 1; omega
      · rw [if_neg (by simp; omega), if_neg hc]

theorem writeAt_prefix (f z d : Bytes) (off : Nat) (h : off + d.length ≤ f.length) :
    writeAt (f ++ z) off d = writeAt f off d ++ z := by
  by_cases hd : d = []
  · simp [writeAt, hd]
  apply List.ext_getElem?
  intro i
  have hp : 0 < d.length := List.length_pos_iff.2 hd
  have hl : (writeAt f off d).length = f.length := by rw [length_writeAt _ _ _ hd]; omega
  by_cases hi : i < f.length
  · rw [List.getElem?_append_left (by omega), getElem?_writeAt _ _ _ _ hd, getElem?_writeAt _ _ _ _ hd,
      List.getElem?_append_left hi]
    have h3 : i < (f ++ z).length := by simp; omega
    simp only [hi, h3, if_true]
  · rw [getElem?_writeAt _ _ _ _ hd, if_neg (by omega), if_neg (by omega), List.getElem?_append_right (by omega), List.getElem?_append_right (by omega), hl]

end Verif
