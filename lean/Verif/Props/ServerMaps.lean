import Verif.Model.ServerMaps
import Verif.Props.MapUse

/-!
# C116: no map of the server is written while another goroutine uses it
-/

namespace Verif

open ServerMaps
open MapUse (Ev Safe reading writing run)

/-- The lock that guards a map. -/
def ServerMaps.guardOf : Map → Lock
  | .connections => .cache
  | .resume c => .ids c
  | .index c => .ids c
  | .subs c => .subs c
  | .batches c => .batches c
  | .nodes c => .conn c

/-- Operations that touch the map with its lock only. -/
def Spec.srvTame (m : Map) : Op → Prop
  | .publish c _ remote => remote = true → m ≠ .nodes c
  | .batchRound c _ => m ≠ .batches c
  | .gone c => m ≠ .nodes c
  | _ => True

theorem srvMaps_w1 {m m' : Map} {held : List (Lock × Bool)} (hl : ∀ x ∈ held, x.1 ≠ guardOf m') :
    Safe guardOf m held (writing (guardOf m') [.rd m']) ∧ Safe guardOf m held (writing (guardOf m') [.wr m']) ∧
      Safe guardOf m held (writing (guardOf m') [.rd m', .wr m']) := by
  refine ⟨safe_writing hl (safe_rd ?_ (safe_nil _ _)), safe_writing hl (safe_wr ?_ (safe_nil _ _)),
    safe_writing hl (safe_rd ?_ (safe_wr ?_ (safe_nil _ _)))⟩
  · rintro rfl; exact ⟨true, by simp⟩
  · rintro rfl; simp
  · rintro rfl; exact ⟨true, by simp⟩
  · rintro rfl; simp

theorem srvMaps_nextId {m : Map} (c : Nat) : Safe guardOf m [] (nextId c) := by
  refine safe_writing (by simp) (safe_rd ?_ (safe_wr ?_ (safe_nil _ _)))
  · rintro rfl; exact ⟨true, by simp [guardOf]⟩
  · rintro rfl; simp [guardOf]

theorem srvMaps_batchAdd {m : Map} (c : Nat) (new full : Bool) : Safe guardOf m [] (batchAdd c new full) := by
  refine safe_writing (by simp) (safe_append (safe_append (safe_rd ?_ (safe_nil _ _)) ?_) ?_)
  · rintro rfl; exact ⟨true, by simp [guardOf]⟩
  · cases new
    · exact safe_nil _ _
    · refine safe_wr ?_ (safe_nil _ _)
      rintro rfl; simp [guardOf]
  · cases full
    · exact safe_nil _ _
    · refine safe_wr ?_ (safe_nil _ _)
      rintro rfl; simp [guardOf]

theorem srvMaps_route {m : Map} {held : List (Lock × Bool)} (c : Nat) (remote : Bool) (h : remote = true → m = .nodes c → (Lock.conn c, true) ∈ held) :
    Safe guardOf m held (route c remote) := by
  cases remote
  · exact safe_nil _ _
  · refine safe_wr ?_ (safe_nil _ _)
    rintro rfl
    exact h rfl rfl

theorem srvMaps_op {m : Map} (o : Op) (h : Spec.srvTame m o) : Safe guardOf m [] o.prog := by
  cases o with
  | join => exact (srvMaps_w1 (m' := .connections) (by simp)).2.1
  | leave => exact (srvMaps_w1 (m' := .connections) (by simp)).2.1
  | find => exact (srvMaps_w1 (m' := .connections) (by simp)).1
  | resumeId c => exact (srvMaps_w1 (m' := .resume c) (by simp)).2.1
  | freeId c => exact (srvMaps_w1 (m' := .index c) (by simp)).2.1
  | getType c =>
    refine safe_reading (by simp) (safe_rd ?_ (safe_nil _ _))
    rintro rfl; exact ⟨false, by simp [guardOf]⟩
  | subscribe c remote =>
    refine safe_writing (by simp) (safe_append (safe_append (srvMaps_w1 (m' := .subs c) (by simp [guardOf])).1 ?_) (srvMaps_w1 (m' := .subs c) (by simp [guardOf])).2.2)
    exact srvMaps_route c remote (fun _ _ => by simp)
  | unsubscribe c remote =>
    refine safe_writing (by simp) (safe_append (srvMaps_w1 (m' := .subs c) (by simp [guardOf])).2.2 ?_)
    exact srvMaps_route c remote (fun _ _ => by simp)
  | allSubs c => exact (srvMaps_w1 (m' := .subs c) (by simp)).1
  | publish c subs remote =>
    refine safe_append (safe_flatMap _ (fun s => ?_) subs) (srvMaps_route c remote fun hr hm => absurd hm (h hr))
    refine safe_append (safe_append (safe_append (srvMaps_w1 (m' := .connections) (by simp)).1 (srvMaps_nextId c)) (srvMaps_nextId _)) ?_
    cases s.2 with
    | none => exact safe_nil _ _
    | some b => exact srvMaps_batchAdd _ _ _
  | batchRound c due =>
    refine safe_flatMap _ (fun d => safe_append (safe_rd (fun he => absurd he.symm h) (safe_nil _ _)) ?_) due
    cases d
    · exact safe_nil _ _
    · exact (srvMaps_w1 (m' := .batches c) (by simp)).2.1
  | gone c => exact safe_rd (fun he => absurd he.symm h) (safe_nil _ _)

/-- C116, what holds: with any number of goroutines, any operations and any interleaving, a map of the server is never written while another goroutine uses
it, if none of the operations touches that map without its lock. -/
theorem C116_no_clash_partial (m : Map) (ops : List (List Op)) (h : ∀ os ∈ ops, ∀ o ∈ os, Spec.srvTame m o) (is : List Nat)
    (s : List (MapUse.Gor Lock Map)) (hr : run is (ops.map gor) = some s) : ¬ Spec.clash m s := by
  refine mapu_no_clash (gd := guardOf) _ ?_ is s hr
  intro g hg
  obtain ⟨os, hos, rfl⟩ := List.mem_map.mp hg
  have : ∀ os : List Op, (∀ o ∈ os, Spec.srvTame m o) → Safe guardOf m [] (os.flatMap Op.prog) := by
    intro os
    induction os with
    | nil => intro _; exact safe_nil _ _
    | cons o os ih =>
      intro hp
      rw [List.flatMap_cons]
      exact safe_append (srvMaps_op o (hp o (by simp))) (ih fun o ho => hp o (by simp [ho]))
  exact ⟨rfl, (this os (h os hos)).1⟩

/-- The connections, the message ids and the subscriptions are never in danger, whatever the goroutines do. -/
theorem C116_safe_maps (m : Map) (hm : m = .connections ∨ ∃ c, m = .resume c ∨ m = .index c ∨ m = .subs c) (ops : List (List Op)) (is : List Nat)
    (s : List (MapUse.Gor Lock Map)) (hr : run is (ops.map gor) = some s) : ¬ Spec.clash m s := by
  refine C116_no_clash_partial m ops (fun os _ o _ => ?_) is s hr
  have h1 : ∀ c, m ≠ .nodes c ∧ m ≠ .batches c := by
    intro c
    rcases hm with rfl | ⟨_, rfl | rfl | rfl⟩ <;> simp
  cases o <;> (try exact trivial)
  · exact fun _ => (h1 _).1
  · exact (h1 _).2
  · exact (h1 _).1

/-- C116 is false for batches: the publish loop of a connection ranges over its batches while a message is put into a new one. -/
theorem C116_batches_violated : ∃ is s, run is [gor [.publish 1 [(2, some (true, false))] false], gor [.batchRound 2 [false, true]]] = some s ∧
    Spec.clash (.batches 2) s := by
  refine ⟨List.replicate 13 0, [⟨[(.batches 2, true)], [.wr (.batches 2), .act (.done (.batches 2))]⟩, gor [.batchRound 2 [false, true]]],
    by decide +kernel, 0, 1, _, _, by decide, rfl, rfl, rfl, Or.inl rfl⟩

/-- And for the nodes a connection was forwarded to: two messages of one packet are published by two goroutines. -/
theorem C116_nodes_violated : ∃ is s, run is [gor [.publish 1 [] true], gor [.publish 1 [] true]] = some s ∧ Spec.clash (.nodes 1) s :=
  ⟨[], _, rfl, 0, 1, _, _, by decide, rfl, rfl, rfl, Or.inr rfl⟩

/-- A publish to two subscribers and a subscription at the same time, to the end. -/
example : ∃ is s, run is [gor [.publish 1 [(2, none), (3, some (true, true))] false], gor [.subscribe 2 false, .join]] = some s ∧
    ∀ g ∈ s, g.todo = [] ∧ g.held = [] := by
  refine ⟨[0, 0, 0, 1, 1] ++ List.replicate 24 0 ++ List.replicate 10 1, _, rfl, by decide +kernel⟩

end Verif
