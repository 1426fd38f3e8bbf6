import Verif.Model.Hash

/-!
# C47: topic hashing reads every byte and only reorders
-/

namespace Verif

open Hash

/-- Specification: multiply-xor fold over all bytes, first to last. -/
def Spec.hashFold (b : Bytes) : UInt32 := b.foldl (fun h x => (h ^^^ x.toUInt32) * 0x1b873593) 0xcc9e2d51

/-- C47 (unrolling). The eight-fold unrolled loop with its tail computes the plain fold for every length. -/
theorem C47_unrolled_is_fold (b : Bytes) : Hash.new b = Spec.hashFold b := unrolled_fold _ b

/-- C47 (salting). For every length and salt there is one permutation of the positions such that the salted hash of every
text of that length is the plain fold over the permuted text. -/
theorem C47_salted_is_permuted_fold (n : Nat) (salt : UInt32) :
    ∃ σ : List Nat, σ.Perm (List.range n) ∧
      ∀ text : Bytes, text.length = n → withSalt text salt = Spec.hashFold (σ.map (text.getD · 0)) := by
  refine ⟨shuffle salt (List.range n), shuffle_perm .., ?_⟩
  intro text hn
  rw [map_shuffle, withSalt, C47_unrolled_is_fold]
  congr 2
  apply List.ext_getElem
  · simp [hn]
  · intro i h1 h2
    simp only [List.getElem_map, List.getElem_range]
    rw [List.getD_eq_getElem?_getD, List.getElem?_eq_getElem h1]; rfl

example : shuffle 3376684800 [10, 11, 12, 13, 14] ≠ [10, 11, 12, 13, 14] := by decide

theorem step_cancel (h x : UInt32) : (h ^^^ x) * prime * 0x56ed309b = h ^^^ x := by
  rw [UInt32.mul_assoc, show prime * 0x56ed309b = 1 by decide, UInt32.mul_one]

theorem step_inj_left {h h' : UInt32} {b : UInt8} (e : step h b = step h' b) : h = h' := by
  have := congrArg (· * (0x56ed309b : UInt32)) e
  simp only [step, step_cancel] at this
  have h2 := congrArg (· ^^^ b.toUInt32) this
  simpa [UInt32.xor_assoc] using h2

theorem step_inj_right {h : UInt32} {b b' : UInt8} (e : step h b = step h b') : b = b' := by
  have := congrArg (· * (0x56ed309b : UInt32)) e
  simp only [step, step_cancel] at this
  have h2 := congrArg (h ^^^ ·) this
  simp only [← UInt32.xor_assoc, UInt32.xor_self, UInt32.zero_xor] at h2
  exact UInt8.toUInt32_inj.mp h2

theorem foldl_step_inj (bs : Bytes) {h h' : UInt32} (e : bs.foldl step h = bs.foldl step h') : h = h' := by
  induction bs generalizing h h' with
  | nil => exact e
  | cons b bs ih => exact step_inj_left (ih e)

/-- C47 (every byte counts). Changing any single byte of a text changes its salted hash. -/
theorem C47_single_byte_change (text : Bytes) (i : Nat) (hi : i < text.length) (y : UInt8) (salt : UInt32)
    (hy : y ≠ text[i]) : withSalt (text.set i y) salt ≠ withSalt text salt := by
  obtain ⟨σ, hσ, hf⟩ := C47_salted_is_permuted_fold text.length salt
  rw [hf text rfl, hf (text.set i y) (by simp)]
  have hmem : i ∈ σ := hσ.mem_iff.mpr (by simpa using hi)
  obtain ⟨pre, post, hs⟩ := List.append_of_mem hmem
  have hnd : σ.Nodup := hσ.nodup_iff.mpr List.nodup_range
  rw [hs] at hnd
  have hpre : i ∉ pre := by
    intro h
    have := (List.nodup_append.mp hnd).2.2 i h i (by simp)
    exact this rfl
  have hpost : i ∉ post := by
    have := (List.nodup_append.mp hnd).2.1
    exact (List.nodup_cons.mp this).1
  have same : ∀ l : List Nat, i ∉ l → l.map ((text.set i y).getD · 0) = l.map (text.getD · 0) := by
    intro l hl
    apply List.map_congr_left
    intro k hk
    have : i ≠ k := fun e => hl (e ▸ hk)
    simp only [List.getD_eq_getElem?_getD, List.getElem?_set, this, if_false]
  have e1 : (text.set i y).getD i 0 = y := by simp [List.getD_eq_getElem?_getD, hi]
  have e2 : text.getD i 0 = text[i] := by simp [List.getD_eq_getElem?_getD, hi]
  have hfold : ∀ b, Spec.hashFold b = b.foldl step init := fun _ => rfl
  rw [hfold, hfold, hs]
  simp only [List.map_append, List.map_cons, List.foldl_append, List.foldl_cons, same pre hpre, same post hpost, e1, e2]
  intro h
  exact hy (step_inj_right (foldl_step_inj _ h))

example : (1 : Nat) < ([97, 98, 99] : Bytes).length ∧ (100 : UInt8) ≠ ([97, 98, 99] : Bytes)[1] := by decide

end Verif
