import Verif.Model.ShardPath
import Verif.Props.Consistent

/-!
# C106: the path of a key ends at its shard, and asking changes nothing
-/

namespace Verif
namespace Anchor

/-- What the inner loop appends: shards that were removed, then, unless it is where the loop began, the shard it stops at. -/
theorem chasePath_chase {s : Anchor} {t : Nat} (ht : 0 < t) : ∀ {fuel h w : Nat} (p : List Nat), s.chase t fuel h = some w →
    ∃ mid, s.chasePath t fuel h (p ++ [h]) = some (w, p ++ mid ++ [w]) ∧ ∀ x ∈ mid, s.A x ≠ 0
  | 0, h, w, p, e => by simp [chase] at e
  | f + 1, h, w, p, e => by
    rw [chase] at e
    split at e
    · next h1 =>
      split at e
      · next h2 =>
        obtain ⟨mid, hm, hx⟩ := chasePath_chase ht (p ++ [h]) e
        refine ⟨h :: mid, ?_, ?_⟩
        · rw [chasePath, if_pos h1, if_pos h2, hm]
          simp
        · intro x hxm
          rcases List.mem_cons.1 hxm with rfl | hxm
          · omega
          · exact hx x hxm
      · next h2 =>
        cases e
        exact ⟨[], by rw [chasePath, if_pos h1, if_neg h2]; simp, by simp⟩
    · simp at e

theorem walkPath_walk {s : Anchor} : ∀ {fuel : Nat} {fl : Flea} {b w : Nat} (p : List Nat), s.walk fuel fl b = some w →
    ∃ mid, s.walkPath fuel fl b (p ++ [b]) = some (p ++ mid ++ [w]) ∧ ∀ x ∈ mid, s.A x ≠ 0
  | 0, fl, b, w, p, e => by simp [walk] at e
  | f + 1, fl, b, w, p, e => by
    rw [walk] at e
    split at e
    · next h1 =>
      split at e
      · next h2 =>
        obtain ⟨h, hc, hw⟩ := Option.bind_eq_some_iff.1 e
        obtain ⟨mid, hm, hx⟩ := chasePath_chase h2 (p ++ [b]) hc
        obtain ⟨mid', hm', hx'⟩ := walkPath_walk (p ++ [b] ++ mid) hw
        refine ⟨b :: (mid ++ mid'), ?_, ?_⟩
        · rw [walkPath, if_pos h1, if_pos h2]
          simp only [hm, Option.bind_some, hm']
          simp
        · intro x hxm
          rcases List.mem_cons.1 hxm with rfl | hxm
          · omega
          · rcases List.mem_append.1 hxm with h | h
            · exact hx x h
            · exact hx' x h
      · next h2 =>
        cases e
        exact ⟨[], by rw [walkPath, if_pos h1, if_neg h2]; simp, by simp⟩
    · simp at e

theorem chasePath_mono {s : Anchor} {t : Nat} : ∀ {fuel h : Nat} {p : List Nat} {r : Nat × List Nat}, s.chasePath t fuel h p = some r →
    ∀ more, fuel ≤ more → s.chasePath t more h p = some r
  | 0, h, p, r, e, _, _ => by simp [chasePath] at e
  | f + 1, h, p, r, e, more, hm => by
    obtain ⟨g, rfl⟩ : ∃ g, more = g + 1 := ⟨more - 1, by omega⟩
    rw [chasePath] at e ⊢
    split at e
    · next h1 =>
      rw [if_pos h1]
      split at e
      · next h2 => rw [if_pos h2]; exact chasePath_mono e g (by omega)
      · next h2 => rw [if_neg h2]; exact e
    · simp at e

theorem walkPath_mono {s : Anchor} : ∀ {fuel : Nat} {fl : Flea} {b : Nat} {p r : List Nat}, s.walkPath fuel fl b p = some r →
    ∀ more, fuel ≤ more → s.walkPath more fl b p = some r
  | 0, fl, b, p, r, e, _, _ => by simp [walkPath] at e
  | f + 1, fl, b, p, r, e, more, hm => by
    obtain ⟨g, rfl⟩ : ∃ g, more = g + 1 := ⟨more - 1, by omega⟩
    rw [walkPath] at e ⊢
    split at e
    · next h1 =>
      rw [if_pos h1]
      split at e
      · next h2 =>
        rw [if_pos h2]
        obtain ⟨q, hq, hw⟩ := Option.bind_eq_some_iff.1 e
        exact Option.bind_eq_some_iff.2 ⟨q, chasePath_mono hq g (by omega), walkPath_mono hw g (by omega)⟩
      · next h2 => rw [if_neg h2]; exact e
    · simp at e

end Anchor

/-- C106: for every history of removals and additions, every key and every buffer, the path ends; it is the buffer, then removed shards only,
then the shard the key is on. -/
theorem C106_path (n : Nat) (h1 : 1 ≤ n) (hn : n ≤ 65535) (ops : List ShardOp) (hok : Spec.shardsOk n [] ops) :
    ∃ s0, Anchor.init n n = some s0 ∧ ∀ key buffer, ∃ mid w, (s0.run ops).Finds key w ∧ w ∉ Spec.removedAfter ops ∧
      (∀ x ∈ mid, x ∈ Spec.removedAfter ops) ∧
      ∃ N, ∀ fuel, N ≤ fuel → (s0.run ops).getPath fuel key buffer = some (buffer ++ mid ++ [w]) := by
  obtain ⟨s0, h0, hall⟩ := C13_shard_exists n h1 hn ops hok
  refine ⟨s0, h0, fun key buffer => ?_⟩
  obtain ⟨w, hw, _, hr, _⟩ := hall key
  have hI := (Anchor.removed_start h1 hn ops hok s0 h0).inv h1 hn
  obtain ⟨N, hN⟩ := hw
  obtain ⟨mid, hm, hx⟩ := Anchor.walkPath_walk buffer (hN N (Nat.le_refl _))
  refine ⟨mid, w, ⟨N, hN⟩, hr, fun x hxm => ?_, N, fun fuel hf => ?_⟩
  · exact (hI.2.2.2 x).1 (hx x hxm)
  · exact Anchor.walkPath_mono hm fuel hf

example : Spec.shardsOk 4 [] [.remove 3] := by simp [Spec.shardsOk]

/-- A path with a removed shard on it. -/
example : ∃ s0, Anchor.init 4 4 = some s0 ∧ (s0.run [.remove 3]).getPath 9 3 [] = some [3, 2] := ⟨_, rfl, by decide⟩

/-- C106 (violated): asking where a key was before moves keys. Shard 3 of 4 was removed; keys 3 and 13 are on shards 2 and 1. Asked where key 0
was before, the hash puts them on shards 1 and 0 from then on. -/
theorem C106_previous_violated : ∃ s0, Anchor.init 4 4 = some s0 ∧ (s0.run [.remove 3]).Finds 3 2 ∧ (s0.run [.remove 3]).Finds 13 1 ∧
    ∃ s1, (s0.run [.remove 3]).findPrevious 9 0 = some (s1, some 1) ∧ s1.Finds 3 1 ∧ s1.Finds 13 0 := by
  refine ⟨_, rfl, ?_, ?_, _, rfl, ?_, ?_⟩ <;>
    exact (Anchor.finds_iff _ _ _).2 (Anchor.Walk.of_fuel (fuel := 9) (by decide))

/-- C106 (violated): and it does not say where the key was. Key 3 was on shard 3 before shard 3 was removed; the answer is 1. -/
theorem C106_before_violated : ∃ s0, Anchor.init 4 4 = some s0 ∧ s0.Finds 3 3 ∧
    ∃ s1, (s0.run [.remove 3]).findPrevious 9 3 = some (s1, some 1) := by
  refine ⟨_, rfl, ?_, _, rfl⟩
  exact (Anchor.finds_iff _ _ _).2 (Anchor.Walk.of_fuel (fuel := 9) (by decide))

/-- C106 (violated): with no shard removed the question is a panic. -/
theorem C106_none_removed_violated (n : Nat) (h1 : 1 ≤ n) (hn : n ≤ 65535) :
    ∃ s0, Anchor.init n n = some s0 ∧ ∀ fuel key, s0.findPrevious fuel key = none := by
  obtain ⟨s0, h0, _, hR, _⟩ := Anchor.inv_init n h1 hn
  exact ⟨s0, h0, fun fuel key => by simp [Anchor.findPrevious, Anchor.previous, hR]⟩

end Verif
