import Verif.Model.MemBlock

/-! # C40: records of an in-memory block -/

namespace Verif

/-- Operations on a block. The callers look a key up before they delete it (memdb/db.go:321-333). -/
inductive BlockOp where
  | put (k : MKey) (d : Bytes)
  | delete (key : UInt64)

/-- A history of operations; `none` when the buffer is full or a missing key would be deleted. -/
def MBlock.run (cap : Nat) : MBlock → List BlockOp → Option MBlock
  | b, [] => some b
  | b, .put k d :: ops => (b.put cap k d).bind fun b => b.run cap ops
  | b, .delete key :: ops => if (b.records.get ⟨false, key⟩).isSome then (b.delete key).run cap ops else none

/-- The reference: one cell per key. -/
def Spec.cell (k : MKey) (v : Option Bytes) : BlockOp → Option Bytes
  | .put k' d => if k = k' then some d else v
  | .delete key => if k = ⟨false, key⟩ then none else v

theorem MBlock.run_value (cap : Nat) (ops : List BlockOp) (b b' : MBlock) (hb : b.WF)
    (hs : ∀ k d, BlockOp.put k d ∈ ops → d.length + 13 < 2 ^ 32) (h : b.run cap ops = some b') (k : MKey) (v : Option Bytes)
    (hv : b.value k = v.map .ok) : b'.value k = (ops.foldl (Spec.cell k) v).map .ok := by
  induction ops generalizing b v with
  | nil =>
    simp only [MBlock.run, Option.some.injEq] at h
    subst h; exact hv
  | cons op ops ih =>
    have hs' := fun k d (hm : BlockOp.put k d ∈ ops) => hs k d (List.mem_cons_of_mem _ hm)
    cases op with
    | put k' d =>
      simp only [MBlock.run, Option.bind_eq_some_iff] at h
      obtain ⟨b1, h1, h2⟩ := h
      have hd := hs k' d List.mem_cons_self
      refine ih b1 (hb.put hd h1) hs' h2 _ ?_
      rw [hb.value_put hd h1, hv]
      simp only [Spec.cell]
      split <;> rfl
    | delete key =>
      simp only [MBlock.run] at h
      split at h
      · next hk =>
        refine ih _ (hb.delete hk) hs' h _ ?_
        rw [hb.value_delete hk, hv]
        simp only [Spec.cell]
        split <;> rfl
      · simp at h

/-- C40 (partial: records below 4 GiB): after every history of writes and deletes, in a buffer of any size, every
key reads back the bytes of its latest write, and a deleted or never written key is absent. -/
theorem C40_read_back_partial (cap : Nat) (ops : List BlockOp) (b : MBlock) (hs : ∀ k d, BlockOp.put k d ∈ ops → d.length + 13 < 2 ^ 32)
    (h : MBlock.run cap {} ops = some b) (k : MKey) : b.value k = (ops.foldl (Spec.cell k) none).map .ok :=
  MBlock.run_value cap ops {} b MBlock.wf_empty hs h k none rfl

/-- C40: a write is refused only when the buffer would grow over its limit. -/
theorem C40_accepts (cap : Nat) (b : MBlock) (k : MKey) (d : Bytes) : (b.put cap k d).isSome ↔ b.data.length + d.length + 13 ≤ cap := by
  simp only [MBlock.put]
  split
  · simp; omega
  · simp; omega

example : ∃ b, MBlock.run 100 {} [.put ⟨false, 7⟩ [1, 2], .put ⟨false, 8⟩ [], .delete 7, .put ⟨true, 7⟩ [9], .put ⟨false, 8⟩ [3, 4, 5]] = some b ∧
    b.value ⟨false, 8⟩ = some (.ok [3, 4, 5]) ∧ b.value ⟨false, 7⟩ = none ∧ b.value ⟨true, 7⟩ = some (.ok [9]) ∧ b.count = 2 :=
  ⟨_, rfl, by decide +kernel, by decide +kernel, by decide +kernel, by decide +kernel⟩

/-- C40 (violated): a record whose length does not fit 32 bits is accepted when the buffer has room, and reading it
panics. -/
theorem C40_huge_violated (cap : Nat) (b : MBlock) (k : MKey) (d : Bytes) (hd : d.length + 13 = 2 ^ 32)
    (hcap : b.data.length + 2 ^ 32 ≤ cap) : ∃ b', b.put cap k d = some b' ∧ b'.value k = some .panic := by
  have hacc : ¬ cap < b.data.length + (d.length + 8 + 1 + 4) := by omega
  refine ⟨_, by simp only [MBlock.put]; rw [if_neg hacc], ?_⟩
  simp only [MBlock.value, AMap.get_set_self, Option.map_some, Option.some.injEq]
  simp only [MBlock.get]
  rw [put_data]
  have h1 : bufSlice (b.data ++ encRec (k, d)) b.data.length (b.data.length + 4) = some [0, 0, 0, 0] := by
    unfold bufSlice
    rw [if_pos (by omega)]
    have : put32 (UInt32.ofNat (d.length + 13)) = [0, 0, 0, 0] := by rw [hd]; decide +kernel
    simp only [encRec, this, List.append_assoc]
    rw [← List.append_assoc]
    apply slice?_mid
    · simp
    · simp; omega
  rw [h1]
  simp only
  have h2 : bufSlice (b.data ++ encRec (k, d)) b.data.length (b.data.length + (((UInt32.ofNat (leNat [0, 0, 0, 0])).toNat : Nat) : Int)) =
      some [] := by
    have : (UInt32.ofNat (leNat [0, 0, 0, 0])).toNat = 0 := by decide +kernel
    rw [this]
    unfold bufSlice
    rw [if_pos (by omega)]
    simp [slice?]
  rw [h2]
  rfl

end Verif
