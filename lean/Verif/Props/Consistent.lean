import Verif.Model.Consistent

/-!
# C13, C14: shard choice

The specification of a history is just the stack of removed shards.
-/

namespace Verif

namespace Spec

/-- Shards removed so far, most recent first: removing pushes (unless already removed), adding brings back the most recent. -/
def removedStep (rs : List Nat) : ShardOp → List Nat
  | .remove b => if b ∈ rs then rs else b :: rs
  | .add => rs.tail

def removedAfter (ops : List ShardOp) : List Nat := ops.foldl removedStep []

/-- Histories the caller may produce on `n` shards: the shard named exists and at least one shard remains; a shard is only added
back when one is missing. -/
def shardsOk (n : Nat) (rs : List Nat) : List ShardOp → Prop
  | [] => True
  | .remove b :: ops => b < n ∧ (b ∈ rs ∨ rs.length + 2 ≤ n) ∧ shardsOk n (removedStep rs (.remove b)) ops
  | .add :: ops => rs ≠ [] ∧ shardsOk n (removedStep rs .add) ops

end Spec

namespace Anchor

/-- States reached by removals only; `rs` lists them, last first. -/
inductive Removed (n : Nat) : List Nat → Anchor → Prop
  | init (s) : init n n = some s → Removed n [] s
  | remove (rs s b) : Removed n rs s → b < n → s.A b = 0 → 2 ≤ s.N → Removed n (b :: rs) (s.remove b)

theorem Removed.inv {n : Nat} (h1 : 1 ≤ n) (hn : n ≤ 65535) {rs : List Nat} {s : Anchor} (h : Removed n rs s) :
    Inv n s ∧ s.R = rs ∧ s.N + rs.length = n ∧ ∀ x, s.A x ≠ 0 ↔ x ∈ rs := by
  induction h with
  | init s hs =>
    obtain ⟨s', hs', I, hR, hA⟩ := inv_init n h1 hn
    rw [hs] at hs'; cases hs'
    refine ⟨I, hR, ?_, by simp [hA]⟩
    have e : n % 65536 = n := Nat.mod_eq_of_lt (by omega)
    simp only [Anchor.init] at hs
    split at hs
    · simp at hs
    · cases hs; simp [e]
  | remove rs s b _ hb h0 h2 ih =>
    obtain ⟨I, hR, hN, hA⟩ := ih
    have e : s.remove b = { s with R := b :: s.R, N := s.N - 1, A := Function.update s.A b (s.N - 1), W := Function.update s.W (s.L b) (s.W (s.N - 1)), K := Function.update s.K b (s.W (s.N - 1)), L := Function.update s.L (s.W (s.N - 1)) (s.L b) } := by
      simp [Anchor.remove, h0]
    refine ⟨inv_remove I b hb h0 h2, by rw [e, hR], ?_, ?_⟩
    · rw [e]
      simp only [List.length_cons]
      omega
    · intro x
      rw [e]
      simp only [List.mem_cons]
      by_cases ex : x = b
      · subst ex; simp; omega
      · rw [Function.update_of_ne ex, hA]; simp [ex]

theorem removed_run {n : Nat} (h1 : 1 ≤ n) (hn : n ≤ 65535) (ops : List ShardOp) :
    ∀ {rs : List Nat} {s : Anchor}, Removed n rs s → Spec.shardsOk n rs ops →
      Removed n (ops.foldl Spec.removedStep rs) (s.run ops) := by
  induction ops with
  | nil => intro rs s h _; exact h
  | cons op ops ih =>
    intro rs s h hok
    have hI := h.inv h1 hn
    cases op with
    | remove b =>
      obtain ⟨hb, hc, hok⟩ := hok
      have : Removed n (Spec.removedStep rs (.remove b)) (s.remove b) := by
        by_cases hm : b ∈ rs
        · have ha := (hI.2.2.2 b).2 hm
          rw [Spec.removedStep, if_pos hm, Anchor.remove, if_pos ha]
          exact h
        · rw [Spec.removedStep, if_neg hm]
          have ha : s.A b = 0 := by
            by_contra hne; exact hm ((hI.2.2.2 b).1 hne)
          refine .remove rs s b h hb ha ?_
          have := hI.2.2.1
          rcases hc with hc | hc
          · exact absurd hc hm
          · omega
      exact ih this hok
    | add =>
      obtain ⟨hne, hok⟩ := hok
      have : Removed n (Spec.removedStep rs .add) s.add := by
        cases h with
        | init _ _ => exact absurd rfl hne
        | remove rs s b h hb h0 h2 =>
          rw [add_remove (h.inv h1 hn).1 b hb h0]
          exact h
      exact ih this hok

theorem removed_start {n : Nat} (h1 : 1 ≤ n) (hn : n ≤ 65535) (ops : List ShardOp) (hok : Spec.shardsOk n [] ops) (s0 : Anchor)
    (h0 : init n n = some s0) : Removed n (Spec.removedAfter ops) (s0.run ops) := removed_run h1 hn ops (.init s0 h0) hok

end Anchor

theorem shardsOk_append (n : Nat) (ops ops' : List ShardOp) (rs : List Nat) :
    Spec.shardsOk n rs (ops ++ ops') ↔ Spec.shardsOk n rs ops ∧ Spec.shardsOk n (ops.foldl Spec.removedStep rs) ops' := by
  induction ops generalizing rs with
  | nil => simp [Spec.shardsOk]
  | cons op ops ih =>
    cases op <;> simp only [List.cons_append, Spec.shardsOk, List.foldl_cons, ih, and_assoc]

/-- C13. For every number of shards up to 65535, every history of removals and additions and every key, choosing the shard
terminates without an index panic, the choice is unique, in range and not a removed shard. With the empty history this is the
choice the database makes (its hashes never have shards removed). -/
theorem C13_shard_exists (n : Nat) (h1 : 1 ≤ n) (hn : n ≤ 65535) (ops : List ShardOp) (hok : Spec.shardsOk n [] ops) :
    ∃ s0, Anchor.init n n = some s0 ∧ ∀ key, ∃ w, (s0.run ops).Finds key w ∧ w < n ∧ w ∉ Spec.removedAfter ops ∧
      ∀ w', (s0.run ops).Finds key w' → w' = w := by
  obtain ⟨s0, h0, _⟩ := Anchor.inv_init n h1 hn
  refine ⟨s0, h0, fun key => ?_⟩
  have hI := (Anchor.removed_start h1 hn ops hok s0 h0).inv h1 hn
  obtain ⟨w, hw, hlt, hA⟩ := Anchor.find_total hI.1 key
  exact ⟨w, hw, hlt, fun hm => (hI.2.2.2 w).2 hm hA, fun w' hw' => hw'.det hw⟩

example : Spec.shardsOk 27 [] [.remove 3, .remove 26, .add, .remove 0] := by simp [Spec.shardsOk, Spec.removedStep]

/-- C13 for the lock table, whose 100000 locks exceed `uint16` (db_internal.go:38, mutex.go:32-48): the index is truncated to 16
bits but stays in range. -/
theorem C13_large_table (n : Nat) (h1 : 65535 < n) (hn : n < 2 ^ 32) (hm : n % 65536 ≠ 0) :
    ∃ s0, Anchor.init n n = some s0 ∧ ∀ key, ∃ w, s0.Finds key w ∧ w < n := by
  have e2 : (n % 65536 + 65535) % 65536 = n % 65536 - 1 := by omega
  have hI : ∃ s0, Anchor.init n n = some s0 ∧ s0.size = n ∧ ∀ x, s0.A x = 0 := by
    simp only [Anchor.init, e2]
    rw [if_neg (by omega)]
    refine ⟨_, rfl, rfl, fun x => ?_⟩
    show (if n % 65536 ≤ x ∧ x ≤ n % 65536 - 1 then x else 0) = 0
    rw [if_neg]; omega
  obtain ⟨s0, h0, hs, hA⟩ := hI
  refine ⟨s0, h0, fun key => ⟨(Flea.init key).pick n, ?_, Anchor.pick_lt _ _ (by omega) hn⟩⟩
  rw [Anchor.finds_iff, hs]
  exact .stop _ _ (by rw [hs]; exact Anchor.pick_lt _ _ (by omega) hn) (hA _)

example : (65535 : Nat) < 100000 ∧ 100000 < 2 ^ 32 ∧ 100000 % 65536 ≠ 0 := by decide

/-- C14. After every history of removals and additions, removing a further shard `b` (one that is present and not the last) keeps
every key that was not on `b` where it was, leaves no key on `b`, and adding it back restores the whole state, hence the whole
assignment. -/
theorem C14_removal_moves_only_its_keys (n : Nat) (h1 : 1 ≤ n) (hn : n ≤ 65535) (ops : List ShardOp) (b : Nat)
    (hok : Spec.shardsOk n [] (ops ++ [.remove b])) (hb : b ∉ Spec.removedAfter ops) (s0 : Anchor)
    (h0 : Anchor.init n n = some s0) :
    (∀ key w, (s0.run ops).Finds key w → w ≠ b → (s0.run (ops ++ [.remove b])).Finds key w) ∧
    (∀ key, ¬ (s0.run (ops ++ [.remove b])).Finds key b) ∧
    s0.run (ops ++ [.remove b, .add]) = s0.run ops := by
  have hR := Anchor.removed_start h1 hn ops ((shardsOk_append _ _ _ _).1 hok).1 s0 h0
  have hI := hR.inv h1 hn
  have hlast := ((shardsOk_append _ _ _ _).1 hok).2
  have hbn : b < n := hlast.1
  have h2 : 2 ≤ (s0.run ops).N := by
    have := hI.2.2.1
    rcases hlast.2.1 with h | h
    · exact absurd h hb
    · have e : Spec.removedAfter ops = List.foldl Spec.removedStep [] ops := rfl
      rw [e] at this; omega
  have hA : (s0.run ops).A b = 0 := by
    by_contra hne; exact hb ((hI.2.2.2 b).1 hne)
  have e1 : s0.run (ops ++ [.remove b]) = (s0.run ops).remove b := by simp [Anchor.run, Anchor.step]
  have e2 : s0.run (ops ++ [.remove b, .add]) = ((s0.run ops).remove b).add := by simp [Anchor.run, Anchor.step]
  have hS : ((s0.run ops).remove b).size = (s0.run ops).size := by simp [Anchor.remove, hA]
  refine ⟨?_, ?_, ?_⟩
  · intro key w hw hne
    rw [e1, Anchor.finds_iff, hS]
    rw [Anchor.finds_iff] at hw
    exact hw.mono hI.1 hA hne
  · intro key hw
    rw [e1, Anchor.finds_iff] at hw
    have := hw.working.2
    simp [Anchor.remove, hA] at this
    omega
  · rw [e2]; exact Anchor.add_remove hI.1 b hbn hA

example : Spec.shardsOk 27 [] ([.remove 3, .remove 26, .add] ++ [.remove 0]) ∧ 0 ∉ Spec.removedAfter [.remove 3, .remove 26, .add] := by
  simp [Spec.shardsOk, Spec.removedStep, Spec.removedAfter]

/-- The side condition that one shard remains is needed: removing the only shard leaves every key on it. -/
theorem C14_last_shard_violated : ∃ s0, Anchor.init 1 1 = some s0 ∧ ∀ key, (s0.run [.remove 0]).Finds key 0 := by
  obtain ⟨s0, h0, I, _, hA⟩ := Anchor.inv_init 1 (by omega) (by omega)
  refine ⟨s0, h0, fun key => ?_⟩
  have hN : s0.N = 1 := by have := I.N1; have := I.Nn; omega
  have e : (s0.run [.remove 0]) = s0.remove 0 := rfl
  have hS : (s0.remove 0).size = 1 := by simp [Anchor.remove, hA, I.size]
  have hA' : (s0.remove 0).A 0 = 0 := by simp [Anchor.remove, hA, hN]
  rw [e, Anchor.finds_iff, hS]
  have : (Flea.init key).pick 1 = 0 := by have := Anchor.pick_lt (Flea.init key) 1 (by omega) (by omega); omega
  rw [this]
  exact .stop _ _ (by rw [hS]; omega) hA'

/-- A hash created with spare shards (`InitConsistent(4, 2)`) does not have the property: the initialisation leaves `K`, `W` and
`L` of the spare shards at zero (hash/consistent.go:44-49), and after adding both spares and removing shards 0 and 1, looking up
key 0 never terminates. -/
theorem C14_spare_shards_violated : ∃ s0, Anchor.init 4 2 = some s0 ∧
    ∀ fuel, (s0.run [.add, .add, .remove 0, .remove 1]).find fuel 0 = none := by
  refine ⟨_, rfl, ?_⟩
  generalize hs : Anchor.run _ _ = s
  have hA0 : s.A 0 = 3 := by subst hs; decide
  have hK0 : s.K 0 = 0 := by subst hs; decide
  have hA1 : s.A 1 = 2 := by subst hs; decide
  have hS : s.size = 4 := by subst hs; rfl
  have hch : ∀ f, s.chase 2 f 0 = none := by
    intro f
    induction f with
    | zero => rfl
    | succ f ih => rw [Anchor.chase, hS, if_pos (by omega), hA0, if_pos (by omega), hK0, ih]
  have hp : (Flea.init 0).pick 4 = 1 := by decide
  have hq : (Flea.init 0).round.pick 2 = 0 := by decide
  intro fuel
  rw [Anchor.find, hS, hp]
  cases fuel with
  | zero => rfl
  | succ f => rw [Anchor.walk, hS, if_pos (by omega), hA1, if_pos (by omega), hq, hch]; rfl

end Verif
