import Verif.Model.MemLocks

/-!
# C112: operations of the in-memory store do not wait for each other for ever
-/

namespace Verif

open Locks

/-- The order in which locks are taken. -/
def Locks.rank : Lock → Nat
  | .time _ => 0
  | .block _ => 1
  | .filter _ => 2
  | .logs => 3
  | .mu => 4
  | .mark => 5

/-- Locks are taken in this order only, and given back in the end. -/
def Locks.Ordered {α : Type} [DecidableEq α] (rk : α → Nat) : List α → List (Act α) → Prop
  | held, [] => held = []
  | held, .r l :: p => (∀ h ∈ held, rk h < rk l) ∧ Ordered rk (l :: held) p
  | held, .w l :: p => (∀ h ∈ held, rk h < rk l) ∧ Ordered rk (l :: held) p
  | held, .done l :: p => Ordered rk (held.filter (· ≠ l)) p

theorem ordered_append {α : Type} [DecidableEq α] {rk : α → Nat} : ∀ (p : List (Act α)) (held : List α) (q : List (Act α)), Ordered rk held p →
    Ordered rk [] q → Ordered rk held (p ++ q)
  | [], held, q, hp, hq => by
    rw [Locks.Ordered] at hp
    subst hp
    exact hq
  | .r l :: p, held, q, hp, hq => ⟨hp.1, ordered_append p _ q hp.2 hq⟩
  | .w l :: p, held, q, hp, hq => ⟨hp.1, ordered_append p _ q hp.2 hq⟩
  | .done l :: p, held, q, hp, hq => by
    rw [List.cons_append, Locks.Ordered]
    rw [Locks.Ordered] at hp
    exact ordered_append p _ q hp hq

theorem ordered_flatMap {α β : Type} [DecidableEq α] {rk : α → Nat} (f : β → List (Act α)) (h : ∀ a, Ordered rk [] (f a)) :
    ∀ l : List β, Ordered rk [] (l.flatMap f)
  | [] => rfl
  | a :: l => by
    rw [List.flatMap_cons]
    exact ordered_append _ _ _ (h a) (ordered_flatMap f h l)

/-- All operations but those that list or count everything. -/
def Spec.plain : Op → Bool
  | .keys _ => false
  | _ => true

theorem ordered_looks {i t : Nat} (p : List (Act Lock)) (h : Ordered rank [.block t, .time i] p) :
    ∀ n, Ordered rank [.block t, .time i] ((List.replicate n look).flatten ++ p)
  | 0 => h
  | n + 1 => by
    rw [List.replicate_succ, List.flatten_cons, List.append_assoc]
    have := ordered_looks p h n
    simpa [look, Locks.Ordered, rank] using this

theorem ordered_op (o : Op) (h : Spec.plain o = true) : Ordered rank [] o.prog := by
  have hl : Ordered rank [] look := by simp [look, Locks.Ordered]
  have hp : ∀ l, Ordered rank [] (peek l) := by intro l; simp [peek, Locks.Ordered]
  have hs : ∀ k ts, Ordered rank [] (search k ts) := by
    intro k ts
    refine ordered_append _ _ _ (ordered_append _ _ _ hl (hp _)) (ordered_flatMap _ (fun t => ?_) ts)
    exact ordered_append _ _ _ (ordered_append _ _ _ hl (hp _)) (hp _)
  cases o with
  | put t k fresh => cases fresh <;> simp [Op.prog, peek, look, Locks.Ordered, rank]
  | get k ts =>
    exact ordered_append _ _ _ (ordered_append _ _ _ (ordered_append _ _ _ hl (hs k ts)) hl) (ordered_flatMap _ (fun t => hp _) ts)
  | lookup t => exact ordered_append _ _ _ hl (hp _)
  | iterate ts => exact ordered_append _ _ _ (ordered_append _ _ _ (hp _) (hp _)) (ordered_flatMap _ (fun t => ordered_append _ _ _ hl (hp _)) ts)
  | delete k i ts t t' =>
    simp only [Op.prog, List.append_assoc]
    refine ordered_append _ _ _ (hs k ts) (ordered_append _ _ _ hl ?_)
    simp [move, peek, look, Locks.Ordered, rank]
  | deleteLast k i ts t marks =>
    simp only [Op.prog]
    refine ordered_append _ _ _ (ordered_append _ _ _ (hs k ts) hl) ?_
    refine ⟨by simp, by simp [rank], ?_⟩
    refine ordered_looks _ ?_ marks
    simp [release, peek, look, Locks.Ordered, rank]
  | rotate t => simp [Op.prog, peek, look, Locks.Ordered, rank]
  | batch => simp [Op.prog, Locks.Ordered]
  | commit => simp [Op.prog, Locks.Ordered]
  | tinyWrite i t => simp [Op.prog, peek, look, Locks.Ordered, rank]
  | free t => simp [Op.prog, release, look, Locks.Ordered, rank]
  | keys ts => cases h

/-- Every goroutine keeps the order with what it holds. -/
def Locks.Good {α : Type} [DecidableEq α] (rk : α → Nat) (s : List (Gor α)) : Prop := ∀ g ∈ s, Ordered rk (g.held.map (·.1)) g.todo

theorem good_set {α : Type} [DecidableEq α] {rk : α → Nat} {s : List (Gor α)} (h : Good rk s) (i : Nat) (g : Gor α)
    (hg : Ordered rk (g.held.map (·.1)) g.todo) : Good rk (s.set i g) := by
  intro x hx
  rcases List.mem_or_eq_of_mem_set hx with hx | rfl
  · exact h x hx
  · exact hg

theorem good_step {α : Type} [DecidableEq α] {rk : α → Nat} {i : Nat} {s s' : List (Gor α)} (h : Good rk s) (hs : step i s = some s') : Good rk s' := by
  unfold Locks.step at hs
  split at hs
  · cases hs
  rename_i g hi
  have hg := h g (List.mem_of_getElem? hi)
  split at hs
  · cases hs
  · rename_i l p ht
    rw [ht] at hg
    split at hs
    · cases hs; exact good_set h _ _ hg.2
    · cases hs
  · rename_i l p ht
    split at hs
    · cases hs; exact good_set h _ _ hg
    · rw [ht] at hg
      split at hs
      · cases hs; exact good_set h _ _ hg.2
      · cases hs
  · rename_i l p ht
    cases hs
    refine good_set h _ _ ?_
    rw [ht, Locks.Ordered] at hg
    rw [List.filter_map] at hg
    exact hg

/-- A goroutine that waits, waits for one that holds the lock; that one wants a later lock. -/
theorem blocked_next {α : Type} [DecidableEq α] {rk : α → Nat} {s : List (Gor α)} (h : Good rk s) (hb : ∀ i, step i s = none) (g : Gor α) (hg : g ∈ s) (l : α)
    (hl : g.todo.head? = some (.r l) ∨ g.todo.head? = some (.w l)) :
    ∃ g' ∈ s, ∃ l', (g'.todo.head? = some (.r l') ∨ g'.todo.head? = some (.w l')) ∧ rk l < rk l' := by
  have writer : ∀ g ∈ s, g.todo.head? = some (.w l) → ∃ g' ∈ s, ∃ x ∈ g'.held, x.1 = l := by
    intro g hg hw
    obtain ⟨i, hi, rfl⟩ := List.getElem_of_mem hg
    have hbi := hb i
    obtain ⟨p, ht⟩ : ∃ p, s[i].todo = .w l :: p := by
      cases ht : s[i].todo with
      | nil => rw [ht] at hw; cases hw
      | cons a p => rw [ht] at hw; cases hw; exact ⟨p, rfl⟩
    simp only [Locks.step, List.getElem?_eq_getElem hi, ht] at hbi
    split at hbi
    · cases hbi
    split at hbi
    · cases hbi
    · rename_i hn
      simp only [ne_eq, Classical.not_forall, Classical.not_not] at hn
      obtain ⟨g', h1, x, h2, h3⟩ := hn
      exact ⟨g', h1, x, h2, h3⟩
  have holder : ∃ g' ∈ s, ∃ x ∈ g'.held, x.1 = l := by
    rcases hl with hr | hw
    · obtain ⟨i, hi, rfl⟩ := List.getElem_of_mem hg
      have hbi := hb i
      obtain ⟨p, ht⟩ : ∃ p, s[i].todo = .r l :: p := by
        cases ht : s[i].todo with
        | nil => rw [ht] at hr; cases hr
        | cons a p => rw [ht] at hr; cases hr; exact ⟨p, rfl⟩
      simp only [Locks.step, List.getElem?_eq_getElem hi, ht] at hbi
      split at hbi
      · cases hbi
      · rename_i hn
        rw [Classical.not_and_iff_not_or_not] at hn
        simp only [Classical.not_forall, Classical.not_not] at hn
        rcases hn with ⟨g', h1, h2⟩ | ⟨g', h1, h2, h3⟩
        · exact ⟨g', h1, _, h2, rfl⟩
        · exact writer g' h1 h3
    · exact writer g hg hw
  obtain ⟨g', hg', x, hx, rfl⟩ := holder
  have ho := h g' hg'
  have hm : x.1 ∈ g'.held.map (·.1) := List.mem_map_of_mem hx
  obtain ⟨i, hi, rfl⟩ := List.getElem_of_mem hg'
  have hbi := hb i
  cases ht : s[i].todo with
  | nil =>
    rw [ht, Locks.Ordered] at ho
    rw [ho] at hm
    cases hm
  | cons a p =>
    rw [ht] at ho
    cases a with
    | r l' => exact ⟨_, hg', l', Or.inl (by rw [ht]; rfl), ho.1 _ hm⟩
    | w l' => exact ⟨_, hg', l', Or.inr (by rw [ht]; rfl), ho.1 _ hm⟩
    | done l' => simp only [Locks.step, List.getElem?_eq_getElem hi, ht] at hbi; cases hbi

/-- Goroutines that keep the order never all wait. -/
theorem good_progress {α : Type} [DecidableEq α] {rk : α → Nat} {s : List (Gor α)} (h : Good rk s) (g : Gor α) (hg : g ∈ s) (ht : g.todo ≠ []) : ∃ i s', step i s = some s' := by
  apply Classical.byContradiction
  intro hn
  have hb : ∀ i, step i s = none := by
    intro i
    cases hs : step i s with
    | none => rfl
    | some s' => exact absurd ⟨i, s', hs⟩ hn
  have first : ∃ g ∈ s, ∃ l, g.todo.head? = some (.r l) ∨ g.todo.head? = some (.w l) := by
    obtain ⟨i, hi, rfl⟩ := List.getElem_of_mem hg
    have hbi := hb i
    cases ht' : s[i].todo with
    | nil => exact absurd ht' ht
    | cons a p =>
      cases a with
      | r l => exact ⟨_, hg, l, Or.inl (by rw [ht']; rfl)⟩
      | w l => exact ⟨_, hg, l, Or.inr (by rw [ht']; rfl)⟩
      | done l => simp only [Locks.step, List.getElem?_eq_getElem hi, ht'] at hbi; cases hbi
  have climb : ∀ n, ∃ g ∈ s, ∃ l, (g.todo.head? = some (.r l) ∨ g.todo.head? = some (.w l)) ∧ n ≤ rk l := by
    intro n
    induction n with
    | zero =>
      obtain ⟨g, h1, l, h2⟩ := first
      exact ⟨g, h1, l, h2, Nat.zero_le _⟩
    | succ n ih =>
      obtain ⟨g, h1, l, h2, h3⟩ := ih
      obtain ⟨g', h4, l', h5, h6⟩ := blocked_next h hb g h1 l h2
      exact ⟨g', h4, l', h5, by omega⟩
  have bound : ∃ b, ∀ g ∈ s, ∀ l, (g.todo.head? = some (.r l) ∨ g.todo.head? = some (.w l)) → rk l < b := by
    clear h hg hn hb first climb
    induction s with
    | nil => exact ⟨0, by simp⟩
    | cons x s ih =>
      obtain ⟨b, hb⟩ := ih
      have hx : ∃ c, ∀ l, (x.todo.head? = some (.r l) ∨ x.todo.head? = some (.w l)) → rk l < c := by
        cases hx : x.todo.head? with
        | none => exact ⟨0, by simp⟩
        | some a =>
          cases a with
          | r l => exact ⟨rk l + 1, by rintro l' (h | h) <;> cases h; omega⟩
          | w l => exact ⟨rk l + 1, by rintro l' (h | h) <;> cases h; omega⟩
          | done l => exact ⟨0, by rintro l' (h | h) <;> cases h⟩
      obtain ⟨c, hc⟩ := hx
      refine ⟨b + c, ?_⟩
      intro g hg l hl
      rcases List.mem_cons.mp hg with rfl | hg
      · have := hc l hl; omega
      · have := hb g hg l hl; omega
  obtain ⟨b, hbd⟩ := bound
  obtain ⟨g, hg, l, hl, hr⟩ := climb b
  have := hbd g hg l hl
  omega

/-- What is left to do. -/
def Locks.work {α : Type} (g : Gor α) : Nat := 2 * g.todo.length + (if g.asked then 0 else 1)

theorem sum_set {α : Type} : ∀ (s : List (Gor α)) (i : Nat) (g g' : Gor α), s[i]? = some g → work g' < work g →
    ((s.set i g').map work).sum < (s.map work).sum
  | [], i, g, g', h, _ => by simp at h
  | x :: s, 0, g, g', h, hw => by
    simp only [List.getElem?_cons_zero, Option.some.injEq] at h
    subst h
    simp only [List.set_cons_zero, List.map_cons, List.sum_cons]
    omega
  | x :: s, i + 1, g, g', h, hw => by
    have := sum_set s i g g' (by simpa using h) hw
    simp only [List.set_cons_succ, List.map_cons, List.sum_cons]
    omega

theorem work_step {α : Type} [DecidableEq α] {i : Nat} {s s' : List (Gor α)} (hs : step i s = some s') : (s'.map work).sum < (s.map work).sum := by
  unfold Locks.step at hs
  split at hs
  · cases hs
  rename_i g hi
  split at hs
  · cases hs
  · rename_i l p ht
    split at hs
    · cases hs
      refine sum_set _ _ _ _ hi ?_
      simp only [Locks.work, ht, List.length_cons]
      simp; omega
    · cases hs
  · rename_i l p ht
    split at hs
    · rename_i ha
      cases hs
      refine sum_set _ _ _ _ hi ?_
      simp [Locks.work, ha]
    · split at hs
      · cases hs
        refine sum_set _ _ _ _ hi ?_
        simp only [Locks.work, ht, List.length_cons]
        simp; omega
      · cases hs
  · rename_i l p ht
    cases hs
    refine sum_set _ _ _ _ hi ?_
    simp only [Locks.work, ht, List.length_cons]
    simp; omega

/-- Goroutines that keep an order of their locks all come to their end, on every schedule. -/
theorem good_ends {α : Type} [DecidableEq α] {rk : α → Nat} (is : List Nat) (s0 s : List (Gor α)) (h0 : Good rk s0) (hr : run is s0 = some s) :
    ((∀ g ∈ s, g.todo = []) ∨ ∃ i s', step i s = some s') ∧ is.length ≤ (s0.map work).sum := by
  have key : ∀ (is : List Nat) (t : List (Gor α)), Good rk t → run is t = some s → Good rk s ∧ is.length + (s.map work).sum ≤ (t.map work).sum := by
    intro is
    induction is with
    | nil => intro t ht hr; cases hr; exact ⟨ht, by simp⟩
    | cons i is ih =>
      intro t ht hr
      rw [Locks.run] at hr
      cases hs : step i t with
      | none => rw [hs] at hr; cases hr
      | some t' =>
        rw [hs] at hr
        obtain ⟨g1, g2⟩ := ih t' (good_step ht hs) hr
        have := work_step hs
        exact ⟨g1, by rw [List.length_cons]; omega⟩
  obtain ⟨g1, g2⟩ := key is _ h0 hr
  refine ⟨?_, by omega⟩
  by_cases hd : ∀ g ∈ s, g.todo = []
  · exact Or.inl hd
  · right
    simp only [Classical.not_forall] at hd
    obtain ⟨g, hg, ht⟩ := hd
    exact good_progress g1 g hg ht

/-- C112, what holds: any number of goroutines that put, get, look up, iterate, delete, write logs and free blocks, in any order, all come to their end:
every schedule is finite, and while a goroutine is not finished one can go on. Listing all keys and counting all records are left out. -/
theorem C112_ends_partial (ops : List (List Op)) (h : ∀ os ∈ ops, ∀ o ∈ os, Spec.plain o = true) (is : List Nat) (s : List (Gor Lock))
    (hr : run is (ops.map gor) = some s) :
    ((∀ g ∈ s, g.todo = []) ∨ ∃ i s', step i s = some s') ∧ is.length ≤ ((ops.map gor).map work).sum := by
  have h0 : Good rank (ops.map gor) := by
    intro g hg
    obtain ⟨os, hos, rfl⟩ := List.mem_map.mp hg
    have : ∀ os : List Op, (∀ o ∈ os, Spec.plain o = true) → Ordered rank [] (os.flatMap Op.prog) := by
      intro os
      induction os with
      | nil => intro _; rfl
      | cons o os ih =>
        intro hp
        rw [List.flatMap_cons]
        exact ordered_append _ _ _ (ordered_op o (hp o (by simp))) (ih fun o ho => hp o (by simp [ho]))
    exact this os (h os hos)
  exact good_ends is _ s h0 hr

/-- C112 is false: a Put, the first to its filter in a new block, and a listing of keys wait for each other for ever. -/
theorem C112_keys_violated : ∃ is s, run is [gor [.put 5 7 true], gor [.keys [5]]] = some s ∧
    (∀ g ∈ s, g.todo ≠ []) ∧ ∀ i, step i s = none := by
  refine ⟨List.replicate 10 0 ++ [1, 0], [⟨[(.filter 7, true), (.block 5, true)], [.w .mu, .done .mu, .done (.filter 7), .done (.block 5)], true⟩,
    ⟨[(.mu, false)], [.r (.block 5), .done (.block 5), .done .mu], false⟩], by decide +kernel, by decide +kernel, ?_⟩
  intro i
  match i with
  | 0 => decide +kernel
  | 1 => decide +kernel
  | i + 2 => simp [Locks.step]

/-- After that every other Put, Get and Delete waits too: nobody can look into the map of blocks any more. -/
theorem C112_all_wait_violated : ∃ s, s[0]? = some ⟨[(.filter 7, true), (.block 5, true)], [.w .mu, .done .mu, .done (.filter 7), .done (.block 5)], true⟩ ∧
    (∃ is, run is [gor [.put 5 7 true], gor [.keys [5]], gor [.lookup 9]] = some s) ∧ s[2]? = some (gor [.lookup 9]) ∧ ∀ i, step i s = none := by
  refine ⟨[⟨[(.filter 7, true), (.block 5, true)], [.w .mu, .done .mu, .done (.filter 7), .done (.block 5)], true⟩,
    ⟨[(.mu, false)], [.r (.block 5), .done (.block 5), .done .mu], false⟩, gor [.lookup 9]], rfl, ⟨List.replicate 10 0 ++ [1, 0], by decide +kernel⟩, rfl, ?_⟩
  intro i
  match i with
  | 0 => decide +kernel
  | 1 => decide +kernel
  | 2 => decide +kernel
  | i + 3 => simp [Locks.step]

/-- A Put and a Delete at the same time, to the end. -/
example : ∃ is s, run is [gor [.put 5 7 true], gor [.delete 7 0 [5] 5 6]] = some s ∧ ∀ g ∈ s, g.todo = [] ∧ g.held = [] := by
  refine ⟨[0, 0, 0, 0, 1, 1, 0, 0, 0, 0, 0, 0, 0, 0, 0, 0, 0] ++ List.replicate 22 1, _, rfl, by decide +kernel⟩

end Verif
