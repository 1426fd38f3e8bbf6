import Verif.Model.BlockRange

/-!
# C12: sync writes every dirty block exactly once
-/

namespace Verif

theorem blockRange_none_or (xs : List Int) :
    (∃ parts, blockRange xs = some parts ∧ (parts.flatMap partBlocks).Perm xs ∧ xs.Pairwise (· < ·)) ∨
    (blockRange xs = none ∧ ¬ xs.Pairwise (· < ·)) := by
  induction h : xs.length using Nat.strongRecOn generalizing xs with
  | _ n ih =>
    cases xs with
    | nil => left; exact ⟨[], by simp [blockRange], by simp, by simp⟩
    | cons x xs =>
      obtain ⟨h1, h2, h3⟩ := scanRun_spec x xs
      have hl := scanRun_length x xs
      have hrange : (rangeFrom x ((scanRun x xs).1 + 1)).Pairwise (· < ·) := by
        simp only [rangeFrom, List.pairwise_map]
        exact List.pairwise_lt_range.imp (by intro a b hab; omega)
      have hmem : ∀ a ∈ rangeFrom x ((scanRun x xs).1 + 1), a ≤ (scanRun x xs).2.1 := by
        intro a ha
        simp only [rangeFrom, List.mem_map, List.mem_range] at ha
        obtain ⟨i, hi, rfl⟩ := ha
        rw [h2]; omega
      have hlast : (scanRun x xs).2.1 ∈ rangeFrom x ((scanRun x xs).1 + 1) := by
        simp only [rangeFrom, List.mem_map, List.mem_range]
        exact ⟨(scanRun x xs).1, by omega, h2.symm⟩
      have hparts := runParts_blocks x (scanRun x xs).1 (scanRun x xs).2.1 h2
      rw [blockRange]
      split
      · next hr =>
        left
        refine ⟨_, rfl, ?_, ?_⟩
        · rw [h1, hr, List.append_nil]; exact hparts
        · rw [h1, hr, List.append_nil]; exact hrange
      · next y ys hr =>
        rw [hr] at h1 hl
        split
        · next hy =>
          right
          refine ⟨rfl, ?_⟩
          rw [h1, List.pairwise_append]
          rintro ⟨_, _, hcr⟩
          have := hcr _ hlast y (by simp)
          omega
        · split
          · next hy hy' =>
            right
            refine ⟨rfl, ?_⟩
            rw [h1, List.pairwise_append]
            rintro ⟨_, _, hcr⟩
            have := hcr _ hlast y (by simp)
            omega
          · next hy hy' =>
            have hrec := ih (y :: ys).length (by simp only [List.length_cons] at *; omega) (y :: ys) rfl
            rcases hrec with ⟨parts, hp, hperm, hpw⟩ | ⟨hp, hpw⟩
            · left
              refine ⟨_, by rw [hp]; rfl, ?_, ?_⟩
              · rw [h1, List.flatMap_append]
                exact List.Perm.append hparts hperm
              · rw [h1, List.pairwise_append]
                refine ⟨hrange, hpw, ?_⟩
                intro a ha b hb
                have h4 := hmem a ha
                rcases List.mem_cons.mp hb with rfl | hb
                · omega
                · have := (List.pairwise_cons.mp hpw).1 b hb
                  omega
            · right
              refine ⟨by rw [hp]; rfl, ?_⟩
              rw [h1, List.pairwise_append]
              rintro ⟨_, h5, _⟩
              exact hpw h5

/-- C12. For strictly increasing block numbers (the sorted keys of a map) the ranges written contain every block exactly once
and no other block; any other input is refused. -/
theorem C12_ranges_exact (xs : List Int) (h : xs.Pairwise (· < ·)) :
    ∃ parts, blockRange xs = some parts ∧ (parts.flatMap partBlocks).Perm xs := by
  rcases blockRange_none_or xs with ⟨p, h1, h2, _⟩ | ⟨_, h2⟩
  · exact ⟨p, h1, h2⟩
  · exact absurd h h2

theorem C12_unordered_refused (xs : List Int) (h : ¬ xs.Pairwise (· < ·)) : blockRange xs = none := by
  rcases blockRange_none_or xs with ⟨_, _, _, h2⟩ | ⟨h1, _⟩
  · exact absurd h2 h
  · exact h1

/-- Runs of length 1, 2 and 3 together. -/
example : [3, 7, 8, 10, 11, 12].Pairwise ((· < ·) : Int → Int → Prop) ∧
    blockRange [3, 7, 8, 10, 11, 12] = some [[3], [8], [7], [10, 12]] := by
  refine ⟨by decide, by simp [blockRange, scanRun, runParts]⟩

example : ¬ [3, 7, 7].Pairwise ((· < ·) : Int → Int → Prop) := by decide

end Verif
