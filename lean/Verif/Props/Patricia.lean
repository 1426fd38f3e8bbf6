import Verif.Model.Patricia

/-! # C56: the protocol matcher -/

namespace Verif

theorem maxDepth_ge (strs : List Bytes) (m : Nat) :
    m ≤ strs.foldl (fun m b => if m < b.length then b.length else m) m ∧
      ∀ s ∈ strs, s.length ≤ strs.foldl (fun m b => if m < b.length then b.length else m) m := by
  induction strs generalizing m with
  | nil => simp
  | cons s strs ih =>
    simp only [List.foldl_cons]
    obtain ⟨h1, h2⟩ := ih (if m < s.length then s.length else m)
    have : m ≤ (if m < s.length then s.length else m) ∧ s.length ≤ (if m < s.length then s.length else m) := by split <;> omega
    refine ⟨by omega, fun x hx => ?_⟩
    rcases List.mem_cons.mp hx with rfl | hx
    · omega
    · exact h2 x hx

/-- C56: for every non-empty set of prefixes and every stream, the prefix matcher accepts exactly the
streams that begin with one of them. Partial: the empty set accepts everything, `C56_empty_set_violated`. -/
theorem C56_prefix_partial (strs : List Bytes) (hne : strs ≠ []) (stream : Bytes) :
    (newPatriciaTree strs).matchPrefix stream = true ↔ ∃ s ∈ strs, s <+: stream := by
  simp only [newPatriciaTree, PtTree.matchPrefix]
  rw [newNode_matches true _ _ hne (Nat.lt_succ_self _) _ _ (Nat.lt_succ_self _)]
  simp only [if_true]
  have hmax := (maxDepth_ge strs 0).2
  constructor
  · rintro ⟨s, hs, h⟩; exact ⟨s, hs, h.trans (List.take_prefix _ _)⟩
  · rintro ⟨s, hs, h⟩
    refine ⟨s, hs, ?_⟩
    rw [List.prefix_take_iff]
    have := hmax s hs
    exact ⟨h, by omega⟩

/-- C56: the exact matcher of a non-empty set accepts exactly the streams equal to one of them. -/
theorem C56_exact_partial (strs : List Bytes) (hne : strs ≠ []) (stream : Bytes) :
    (newPatriciaTree strs).matchExact stream = true ↔ stream ∈ strs := by
  simp only [newPatriciaTree, PtTree.matchExact]
  rw [newNode_matches false _ _ hne (Nat.lt_succ_self _) _ _ (Nat.lt_succ_self _)]
  simp only [Bool.false_eq_true, if_false]
  have hmax := (maxDepth_ge strs 0).2
  generalize strs.foldl (fun m b => if m < b.length then b.length else m) 0 = d at hmax
  constructor
  · rintro ⟨s, hs, h⟩
    have hl := hmax s hs
    have := congrArg List.length h
    rw [List.length_take] at this
    rw [List.take_of_length_le (by omega)] at h
    exact h ▸ hs
  · intro hs
    have hl := hmax stream hs
    exact ⟨stream, hs, (List.take_of_length_le (by omega)).symm⟩

example : (newPatriciaTree [[1, 2, 3], [1, 2, 4, 4], [1, 2], [9]]).matchPrefix [1, 2, 7, 7] = true ∧
    (newPatriciaTree [[1, 2, 3], [1, 2, 4, 4], [9]]).matchPrefix [1, 2, 4, 5, 6] = false ∧
    (newPatriciaTree [[1, 2, 3], [1, 2, 4, 4], [9]]).matchExact [1, 2, 4, 4] = true := by decide

/-- C56 needs a non-empty set: without any prefix every stream is accepted. -/
theorem C56_empty_set_violated (stream : Bytes) : (newPatriciaTree []).matchPrefix stream = true := by
  simp [newPatriciaTree, PtTree.matchPrefix, newNode, PtNode.matches, PtNode.pre, PtNode.terminal]

end Verif
