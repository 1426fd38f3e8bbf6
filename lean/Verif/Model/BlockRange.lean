/-!
# Grouping dirty blocks into write ranges

block_writer.go:260-289 `blockRange`, used by block_writer.go:204-255 and time_window_writer.go:153-191.
Block numbers are `int32`; they stay far below the wrap, so they are integers here.
-/

namespace Verif

/-- block_writer.go:266-269, the inner loop: how many further elements continue the run started by `prev`, the last element
of the run, and what follows it. -/
def scanRun (prev : Int) : List Int → Nat × Int × List Int
  | [] => (0, prev, [])
  | x :: xs => if x = prev + 1 then let (n, l, r) := scanRun x xs; (n + 1, l, r) else (0, prev, x :: xs)

theorem scanRun_length (prev : Int) (xs : List Int) : (scanRun prev xs).2.2.length ≤ xs.length := by
  induction xs generalizing prev with
  | nil => simp [scanRun]
  | cons x xs ih =>
    simp only [scanRun]
    split
    · exact Nat.le_succ_of_le (ih x)
    · simp

/-- block_writer.go:270-276: the parts produced for one run that starts at `x`, has `n` further elements and ends at `l`. -/
def runParts (x : Int) (n : Nat) (l : Int) : List (List Int) :=
  match n with
  | 0 => [[x]]
  | 1 => [[l], [x]]
  | _ => [[x, l]]

/-- block_writer.go:260-289 `blockRange`; `none` is the error result (repeated or unordered input). -/
def blockRange : List Int → Option (List (List Int))
  | [] => some []
  | x :: xs =>
    let res := scanRun x xs
    match h : res.2.2 with
    | [] => some (runParts x res.1 res.2.1)
    | y :: ys =>
      if y = res.2.1 then none
      else if y < res.2.1 then none
      else (blockRange (y :: ys)).map (runParts x res.1 res.2.1 ++ ·)
termination_by xs => xs.length
decreasing_by
  have := scanRun_length x xs
  have h' : (scanRun x xs).2.2 = y :: ys := h
  rw [h'] at this
  simp only [List.length_cons] at *
  omega

/-- The block numbers written for one part (block_writer.go:222-254): a single block, or `for bIdx := a; bIdx <= b; bIdx++`. -/
def partBlocks : List Int → List Int
  | [a] => [a]
  | a :: b :: _ => (List.range (b - a + 1).toNat).map (fun i : Nat => a + (i : Int))
  | [] => []

/-! ## Lemmas -/

def rangeFrom (a : Int) (n : Nat) : List Int := (List.range n).map (fun i : Nat => a + (i : Int))

theorem rangeFrom_succ (a : Int) (n : Nat) : rangeFrom a (n + 1) = a :: rangeFrom (a + 1) n := by
  simp only [rangeFrom, List.range_succ_eq_map, List.map_cons, List.map_map]
  congr 1
  · simp
  · apply List.map_congr_left; intro i _; simp; omega

theorem scanRun_spec (x : Int) (xs : List Int) :
    x :: xs = rangeFrom x ((scanRun x xs).1 + 1) ++ (scanRun x xs).2.2 ∧
    (scanRun x xs).2.1 = x + (scanRun x xs).1 ∧
    (scanRun x xs).2.2.head? ≠ some ((scanRun x xs).2.1 + 1) := by
  induction xs generalizing x with
  | nil => simp [scanRun, rangeFrom]
  | cons y ys ih =>
    simp only [scanRun]
    split
    · next h =>
      subst h
      obtain ⟨h1, h2, h3⟩ := ih (x + 1)
      refine ⟨?_, by simp only [h2]; omega, h3⟩
      rw [rangeFrom_succ, List.cons_append, ← h1]
    · next h => 
      refine ⟨by simp [rangeFrom], by simp, by simpa using h⟩

theorem runParts_blocks (x : Int) (n : Nat) (l : Int) (h : l = x + n) :
    ((runParts x n l).flatMap partBlocks).Perm (rangeFrom x (n + 1)) := by
  subst h
  match n with
  | 0 => simp [runParts, partBlocks, rangeFrom]
  | 1 =>
    have : rangeFrom x (1 + 1) = [x, x + 1] := by simp [rangeFrom, List.range_succ]
    rw [this]
    simp only [runParts, partBlocks, List.flatMap_cons, List.flatMap_nil]
    exact List.Perm.swap ..
  | k + 2 =>
    have : (x + ((k + 2 : Nat) : Int) - x + 1).toNat = k + 2 + 1 := by omega
    simp only [runParts, partBlocks, List.flatMap_cons, List.flatMap_nil, this, List.append_nil]
    exact List.Perm.refl _

end Verif
