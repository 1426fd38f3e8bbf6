import Verif.Model.Ring

/-! # C55: which node owns a contract -/

namespace Verif

variable {α : Type} [LinearOrder α]

/-- The owner of a key on a ring of points, independent of how the ring is stored: the node of the least
point at or after the key's own point, or of the least point of all when there is none. -/
def Spec.Owner (points : RingElem α → Prop) (h : Nat) (key : α) (e : RingElem α) : Prop :=
  points e ∧ ((toLex (h, key) ≤ e ∧ ∀ x, points x → toLex (h, key) ≤ x → e ≤ x) ∨
    ((∀ x, points x → x < toLex (h, key)) ∧ ∀ x, points x → e ≤ x))

theorem Spec.Owner.unique {points : RingElem α → Prop} {h : Nat} {key : α} {e e' : RingElem α} (h1 : Spec.Owner points h key e)
    (h2 : Spec.Owner points h key e') : e = e' := by
  obtain ⟨p1, a1 | b1⟩ := h1 <;> obtain ⟨p2, a2 | b2⟩ := h2
  · exact le_antisymm (a1.2 _ p2 a2.1) (a2.2 _ p1 a1.1)
  · exact absurd a1.1 (not_le.mpr (b2.1 _ p1))
  · exact absurd a2.1 (not_le.mpr (b1.1 _ p2))
  · exact le_antisymm (b1.2 _ p2) (b2.2 _ p1)

theorem ring_pred (h : Nat) (key : α) (el : RingElem α) :
    ((ofLex el).1 > h ∨ ((ofLex el).1 = h ∧ (ofLex el).2 ≥ key)) ↔ toLex (h, key) ≤ el := by
  have : toLex (h, key) ≤ el ↔ _ := Prod.Lex.le_iff
  rw [this]
  constructor
  · rintro (h | ⟨h1, h2⟩)
    · exact Or.inl h
    · exact Or.inr ⟨h1.symm, h2⟩
  · rintro (h | ⟨h1, h2⟩)
    · exact Or.inl h
    · exact Or.inr ⟨h1.symm, h2⟩

theorem HashRing.get_owner (r : HashRing α) (hs : r.keys.Pairwise (· ≤ ·)) (hne : r.keys ≠ []) (h : Nat) (key : α) :
    ∃ e, Spec.Owner (· ∈ r.keys) h key e ∧ r.get h key = some (ofLex e).2 := by
  simp only [HashRing.get]
  cases hf : r.keys.find? (fun el => decide ((ofLex el).1 > h ∨ ((ofLex el).1 = h ∧ (ofLex el).2 ≥ key))) with
  | some e =>
    refine ⟨e, ⟨List.mem_of_find?_eq_some hf, Or.inl ⟨?_, ?_⟩⟩, rfl⟩
    · have := List.find?_some hf
      rw [decide_eq_true_iff, ring_pred] at this
      exact this
    · intro x hx hle
      obtain ⟨_, as, bs, hsplit, hall⟩ := List.find?_eq_some_iff_append.mp hf
      rw [hsplit] at hx hs
      rcases List.mem_append.mp hx with hx | hx
      · have := hall x hx
        simp only [Bool.not_eq_true', decide_eq_false_iff_not, ring_pred] at this
        exact absurd hle this
      · rcases List.mem_cons.mp hx with rfl | hx
        · exact le_refl _
        · exact (List.pairwise_cons.mp (List.pairwise_append.mp hs).2.1).1 x hx
  | none =>
    have hall := List.find?_eq_none.mp hf
    cases hk : r.keys with
    | nil => exact absurd hk hne
    | cons e rest =>
      rw [hk] at hs hall
      refine ⟨e, ⟨List.mem_cons_self, Or.inr ⟨?_, ?_⟩⟩, by simp⟩
      · intro x hx
        have := hall x hx
        rw [decide_eq_true_iff, ring_pred] at this
        exact not_le.mp this
      · intro x hx
        rcases List.mem_cons.mp hx with rfl | hx
        · exact le_refl _
        · exact (List.pairwise_cons.mp hs).1 x hx

/-- The ring after adding groups of nodes, one group after the other. -/
def HashRing.addAll (hash : Nat → α → Nat) (r : HashRing α) : List (List α) → HashRing α
  | [] => r
  | g :: gs => addAll hash (r.add hash g) gs

theorem HashRing.add_sorted (hash : Nat → α → Nat) (r : HashRing α) (g : List α) : (r.add hash g).keys.Pairwise (· ≤ ·) :=
  List.pairwise_insertionSort _ _

theorem HashRing.addAll_spec (hash : Nat → α → Nat) (groups : List (List α)) (r : HashRing α) (hs : r.keys.Pairwise (· ≤ ·)) :
    (r.addAll hash groups).keys.Pairwise (· ≤ ·) ∧ (r.addAll hash groups).replicas = r.replicas ∧
      (r.addAll hash groups).keys.Perm (r.keys ++ groups.flatten.flatMap (HashRing.elems hash r.replicas)) := by
  induction groups generalizing r with
  | nil => exact ⟨hs, rfl, by simp [addAll]⟩
  | cons g gs ih =>
    obtain ⟨h1, h2, h3⟩ := ih (r.add hash g) (add_sorted hash r g)
    refine ⟨h1, h2, h3.trans ?_⟩
    simp only [List.flatten_cons, List.flatMap_append, ← List.append_assoc]
    exact (List.perm_insertionSort _ _).append_right _

/-- C55: whatever nodes have been added, a key is owned by one of them. -/
theorem C55_member (hash : Nat → α → Nat) (replicas : Nat) (hr : 0 < replicas) (groups : List (List α)) (hg : groups.flatten ≠ [])
    (h : Nat) (key : α) : ∃ n ∈ groups.flatten, ((HashRing.new α replicas).addAll hash groups).get h key = some n := by
  obtain ⟨h1, _, h3⟩ := HashRing.addAll_spec hash groups (HashRing.new α replicas) (by simp [HashRing.new])
  have h3 : ((HashRing.new α replicas).addAll hash groups).keys.Perm (groups.flatten.flatMap (HashRing.elems hash replicas)) := h3
  have hne : ((HashRing.new α replicas).addAll hash groups).keys ≠ [] := by
    intro e
    have h3 : [].Perm _ := e ▸ h3
    obtain ⟨n, rest, hn⟩ := List.exists_cons_of_ne_nil hg
    have hmem : toLex (hash 0 n, n) ∈ groups.flatten.flatMap (HashRing.elems hash replicas) := by
      rw [hn]
      simp only [List.flatMap_cons, List.mem_append, HashRing.elems, List.mem_map, List.mem_range]
      exact Or.inl ⟨0, hr, rfl⟩
    have := h3.symm.subset hmem
    simp at this
  obtain ⟨e, ho, hget⟩ := HashRing.get_owner _ h1 hne h key
  refine ⟨(ofLex e).2, ?_, hget⟩
  have := h3.subset ho.1
  obtain ⟨n, hn, he⟩ := List.mem_flatMap.mp this
  obtain ⟨i, _, rfl⟩ := List.mem_map.mp he
  exact hn

/-- C55: the order and grouping in which nodes are added do not matter. -/
theorem C55_order_independent (hash : Nat → α → Nat) (replicas : Nat) (groups groups' : List (List α))
    (hp : groups.flatten.Perm groups'.flatten) :
    (HashRing.new α replicas).addAll hash groups = (HashRing.new α replicas).addAll hash groups' := by
  obtain ⟨h1, h2, h3⟩ := HashRing.addAll_spec hash groups (HashRing.new α replicas) (by simp [HashRing.new])
  obtain ⟨h1', h2', h3'⟩ := HashRing.addAll_spec hash groups' (HashRing.new α replicas) (by simp [HashRing.new])
  have hperm : ((HashRing.new α replicas).addAll hash groups).keys.Perm ((HashRing.new α replicas).addAll hash groups').keys := by
    refine h3.trans (List.Perm.trans ?_ h3'.symm)
    simp only [HashRing.new, List.nil_append]
    exact hp.flatMap_right _
  have hk := hperm.eq_of_pairwise (fun a b _ _ => le_antisymm) h1 h1'
  cases hx : (HashRing.new α replicas).addAll hash groups
  cases hy : (HashRing.new α replicas).addAll hash groups'
  rw [hx] at hk h2
  rw [hy] at hk h2'
  simp_all

/-- C55: adding a node changes the owner of a key only to that node. -/
theorem C55_minimal_move (hash : Nat → α → Nat) (replicas : Nat) (groups : List (List α))
    (node : α) (h : Nat) (key : α) :
    let before := ((HashRing.new α replicas).addAll hash groups).get h key
    let after := (((HashRing.new α replicas).addAll hash groups).add hash [node]).get h key
    after = before ∨ after = some node := by
  obtain ⟨h1, _, _⟩ := HashRing.addAll_spec hash groups (HashRing.new α replicas) (by simp [HashRing.new])
  revert h1
  generalize (HashRing.new α replicas).addAll hash groups = r
  intro h1 before after
  have hperm : (r.add hash [node]).keys.Perm (r.keys ++ HashRing.elems hash r.replicas node) := by
    have := List.perm_insertionSort (· ≤ ·) (r.keys ++ [node].flatMap (HashRing.elems hash r.replicas))
    simpa [HashRing.add] using this
  by_cases hne : r.keys = []
  · by_cases hne' : (r.add hash [node]).keys = []
    · left; simp [before, after, HashRing.get, hne, hne']
    · right
      obtain ⟨e, ho, hget⟩ := HashRing.get_owner _ (HashRing.add_sorted hash r [node]) hne' h key
      have := hperm.subset ho.1
      rw [hne, List.nil_append] at this
      obtain ⟨i, _, rfl⟩ := List.mem_map.mp this
      exact hget
  · have hne' : (r.add hash [node]).keys ≠ [] := by
      intro e
      rw [e] at hperm
      have := hperm.symm.eq_nil
      simp at this
      exact hne this.1
    obtain ⟨e, ho, hget⟩ := HashRing.get_owner _ (HashRing.add_sorted hash r [node]) hne' h key
    obtain ⟨e0, ho0, hget0⟩ := HashRing.get_owner r h1 hne h key
    rcases List.mem_append.mp (hperm.subset ho.1) with hm | hm
    · left
      have hsub : ∀ x, x ∈ r.keys → x ∈ (r.add hash [node]).keys := fun x hx => hperm.symm.subset (List.mem_append_left _ hx)
      have : Spec.Owner (· ∈ r.keys) h key e := by
        refine ⟨hm, ?_⟩
        rcases ho.2 with ⟨a, b⟩ | ⟨a, b⟩
        · exact Or.inl ⟨a, fun x hx => b x (hsub x hx)⟩
        · exact Or.inr ⟨fun x hx => a x (hsub x hx), fun x hx => b x (hsub x hx)⟩
      have := this.unique ho0
      simp only [before, after, hget, hget0, this]
    · right
      obtain ⟨i, _, rfl⟩ := List.mem_map.mp hm
      exact hget

example : let hash : Nat → Nat → Nat := fun i n => (37 * i + 11 * n) % 20
    let r := (HashRing.new Nat 2).addAll hash [[1], [2, 3]]
    (List.range 20).map (fun h => r.get h 50) ≠ (List.range 20).map (fun h => (r.add hash [4]).get h 50) ∧
    (r.get 0 50).isSome = true := by decide +kernel

end Verif
