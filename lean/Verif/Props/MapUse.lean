import Verif.Model.MapUse

/-!
# C115: no map is written while another goroutine uses it
-/

namespace Verif

open MapUse
open DbLocks (Lock)

/-- The lock that guards a map. -/
def MapUse.guardOf : Map → Lock
  | .summary => .trie
  | .children => .trie
  | .entries i => .shard i
  | .windows i => .expiry i
  | .cache i => .lease i
  | .blocks => .mem .mu
  | .records t => .mem (.block t)
  | .filters k => .mem (.filter k)
  | .marks => .mem .mark
  | .planBlocks => .mem .mu
  | .planFilters => .mem .mu
  | .planRecords k => .mem (.filter k)

/-- Every read of the map is made with its lock held, every write with the lock held for writing. -/
def MapUse.Guarded {α μ : Type} [DecidableEq α] (gd : μ → α) (m : μ) : List (α × Bool) → List (Ev α μ) → Prop
  | _, [] => True
  | held, .act (.r l) :: p => Guarded gd m ((l, false) :: held) p
  | held, .act (.w l) :: p => Guarded gd m ((l, true) :: held) p
  | held, .act (.done l) :: p => Guarded gd m (held.filter (·.1 ≠ l)) p
  | held, .rd m' :: p => (m' = m → ∃ b, (gd m, b) ∈ held) ∧ Guarded gd m held p
  | held, .wr m' :: p => (m' = m → (gd m, true) ∈ held) ∧ Guarded gd m held p

def MapUse.after {α μ : Type} [DecidableEq α] : List (α × Bool) → List (Ev α μ) → List (α × Bool)
  | held, [] => held
  | held, .act (.r l) :: p => after ((l, false) :: held) p
  | held, .act (.w l) :: p => after ((l, true) :: held) p
  | held, .act (.done l) :: p => after (held.filter (·.1 ≠ l)) p
  | held, .rd _ :: p => after held p
  | held, .wr _ :: p => after held p

theorem mapu_append {α μ : Type} [DecidableEq α] {gd : μ → α} (m : μ) : ∀ (p q : List (Ev α μ)) (held : List (α × Bool)), Guarded gd m held p → Guarded gd m (after held p) q → Guarded gd m held (p ++ q)
  | [], _, _, _, hq => hq
  | .act (.r l) :: p, q, held, hp, hq => by
    rw [List.cons_append]; unfold MapUse.Guarded at hp ⊢; unfold MapUse.after at hq
    exact mapu_append m p q _ hp hq
  | .act (.w l) :: p, q, held, hp, hq => by
    rw [List.cons_append]; unfold MapUse.Guarded at hp ⊢; unfold MapUse.after at hq
    exact mapu_append m p q _ hp hq
  | .act (.done l) :: p, q, held, hp, hq => by
    rw [List.cons_append]; unfold MapUse.Guarded at hp ⊢; unfold MapUse.after at hq
    exact mapu_append m p q _ hp hq
  | .rd _ :: p, q, held, hp, hq => by
    rw [List.cons_append]; unfold MapUse.Guarded at hp ⊢; unfold MapUse.after at hq
    exact ⟨hp.1, mapu_append m p q _ hp.2 hq⟩
  | .wr _ :: p, q, held, hp, hq => by
    rw [List.cons_append]; unfold MapUse.Guarded at hp ⊢; unfold MapUse.after at hq
    exact ⟨hp.1, mapu_append m p q _ hp.2 hq⟩

theorem mapu_after_append {α μ : Type} [DecidableEq α] : ∀ (p q : List (Ev α μ)) (held : List (α × Bool)), after held (p ++ q) = after (after held p) q
  | [], _, _ => rfl
  | .act (.r _) :: p, q, _ => mapu_after_append p q _
  | .act (.w _) :: p, q, _ => mapu_after_append p q _
  | .act (.done _) :: p, q, _ => mapu_after_append p q _
  | .rd _ :: p, q, _ => mapu_after_append p q _
  | .wr _ :: p, q, _ => mapu_after_append p q _

/-- Guarded, and the locks are in the end as before. -/
def MapUse.Safe {α μ : Type} [DecidableEq α] (gd : μ → α) (m : μ) (held : List (α × Bool)) (p : List (Ev α μ)) : Prop := Guarded gd m held p ∧ after held p = held

theorem safe_nil {α μ : Type} [DecidableEq α] {gd : μ → α} (m : μ) (held : List (α × Bool)) : Safe gd m held [] := ⟨by simp [MapUse.Guarded], rfl⟩

theorem safe_append {α μ : Type} [DecidableEq α] {gd : μ → α} {m : μ} {held : List (α × Bool)} {p q : List (Ev α μ)} (hp : Safe gd m held p) (hq : Safe gd m held q) : Safe gd m held (p ++ q) := by
  refine ⟨mapu_append m p q held hp.1 (by rw [hp.2]; exact hq.1), ?_⟩
  rw [mapu_after_append, hp.2, hq.2]

theorem safe_flatMap {α μ β : Type} [DecidableEq α] {gd : μ → α} {m : μ} {held : List (α × Bool)} (f : β → List (Ev α μ)) (h : ∀ b, Safe gd m held (f b)) : ∀ l : List β, Safe gd m held (l.flatMap f)
  | [] => safe_nil m held
  | b :: l => by
    rw [List.flatMap_cons]
    exact safe_append (h b) (safe_flatMap f h l)

theorem mapu_filter {α : Type} [DecidableEq α] {l : α} {b : Bool} {held : List (α × Bool)} (hl : ∀ x ∈ held, x.1 ≠ l) :
    ((l, b) :: held).filter (fun x => decide (x.1 ≠ l)) = held := by
  rw [List.filter_cons_of_neg (by simp), List.filter_eq_self]
  intro x hx
  simpa using hl x hx

theorem safe_writing {α μ : Type} [DecidableEq α] {gd : μ → α} {m : μ} {held : List (α × Bool)} {l : α} {p : List (Ev α μ)} (hl : ∀ x ∈ held, x.1 ≠ l) (h : Safe gd m ((l, true) :: held) p) :
    Safe gd m held (writing l p) := by
  constructor
  · unfold MapUse.writing MapUse.Guarded
    exact mapu_append m p _ _ h.1 (by simp [MapUse.Guarded])
  · unfold MapUse.writing
    rw [MapUse.after, mapu_after_append, h.2, MapUse.after, mapu_filter hl, MapUse.after]

theorem safe_reading {α μ : Type} [DecidableEq α] {gd : μ → α} {m : μ} {held : List (α × Bool)} {l : α} {p : List (Ev α μ)} (hl : ∀ x ∈ held, x.1 ≠ l) (h : Safe gd m ((l, false) :: held) p) :
    Safe gd m held (reading l p) := by
  constructor
  · unfold MapUse.reading MapUse.Guarded
    exact mapu_append m p _ _ h.1 (by simp [MapUse.Guarded])
  · unfold MapUse.reading
    rw [MapUse.after, mapu_after_append, h.2, MapUse.after, mapu_filter hl, MapUse.after]

theorem safe_rd {α μ : Type} [DecidableEq α] {gd : μ → α} {m m' : μ} {held : List (α × Bool)} {p : List (Ev α μ)} (h : m' = m → ∃ b, (gd m, b) ∈ held) (hp : Safe gd m held p) :
    Safe gd m held (.rd m' :: p) := ⟨⟨h, hp.1⟩, hp.2⟩

theorem safe_wr {α μ : Type} [DecidableEq α] {gd : μ → α} {m m' : μ} {held : List (α × Bool)} {p : List (Ev α μ)} (h : m' = m → (gd m, true) ∈ held) (hp : Safe gd m held p) :
    Safe gd m held (.wr m' :: p) := ⟨⟨h, hp.1⟩, hp.2⟩

theorem safe_addExpiry {m : Map} {held : List (Lock × Bool)} (i : Nat) (hl : ∀ x ∈ held, x.1 ≠ .expiry i) : Safe guardOf m held (addExpiry i) := by
  refine safe_writing hl (safe_rd ?_ (safe_wr ?_ (safe_nil _ _)))
  · rintro rfl; exact ⟨true, by simp [guardOf]⟩
  · rintro rfl; simp [guardOf]

theorem safe_expired {m : Map} : ∀ (n i : Nat) (held : List (Lock × Bool)), (∀ x ∈ held, ∀ j, i ≤ j → x.1 ≠ .expiry j) → Safe guardOf m held (expired n i)
  | 0, _, held, _ => safe_nil m held
  | n + 1, i, held, h => by
    refine safe_writing (fun x hx => h x hx i (Nat.le_refl _)) (safe_rd ?_ (safe_wr ?_ (safe_expired n (i + 1) _ ?_)))
    · rintro rfl; exact ⟨true, by simp [guardOf]⟩
    · rintro rfl; simp [guardOf]
    · intro x hx j hj
      rcases List.mem_cons.mp hx with rfl | hx
      · intro he
        simp only [Lock.expiry.injEq] at he
        omega
      · exact h x hx j (by omega)

/-- Operations that touch the map with its lock only. -/
def Spec.mapTame (m : Map) : Op → Prop
  | .trieAdd _ _ => m ≠ .summary
  | .close _ => ∀ i, m ≠ .cache i
  | .memGet _ _ _ _ => m ≠ .planBlocks ∧ m ≠ .planFilters ∧ ∀ k, m ≠ .planRecords k
  | _ => True

theorem safe_read1 {m m' : Map} {held : List (Lock × Bool)} (hl : ∀ x ∈ held, x.1 ≠ guardOf m') : Safe guardOf m held (reading (guardOf m') [.rd m']) := by
  refine safe_reading hl (safe_rd ?_ (safe_nil _ _))
  rintro rfl
  exact ⟨false, by simp⟩

theorem safe_look {m : Map} {held : List (Lock × Bool)} (hl : ∀ x ∈ held, x.1 ≠ .mem .mu) : Safe guardOf m held look := safe_read1 (m' := .blocks) hl

theorem safe_search {m : Map} (k : Nat) (ts : List Nat) : Safe guardOf m [] (search k ts) := by
  refine safe_append (safe_read1 (m' := .filters k) (by simp)) (safe_flatMap _ (fun t => ?_) ts)
  exact safe_append (safe_append (safe_look (by simp)) (safe_read1 (m' := .records t) (by simp))) (safe_read1 (m' := .filters k) (by simp))

theorem safe_release {m : Map} (t : Nat) : Safe guardOf m [] (releaseLog t) := by
  refine safe_append (safe_look (by simp)) (safe_reading (by simp) (safe_writing (by simp) (safe_wr ?_ (safe_writing (by simp) (safe_wr ?_ (safe_nil _ _))))))
  · rintro rfl; simp [guardOf]
  · rintro rfl; simp [guardOf]

theorem safe_memGet {m : Map} (h : m ≠ .planBlocks ∧ m ≠ .planFilters ∧ ∀ k, m ≠ .planRecords k) (k : Nat) (seeks : Option (List Nat × Bool))
    (ts : List Nat) (again : Bool) : Safe guardOf m [] (Op.memGet k seeks ts again).prog := by
  obtain ⟨h1, h2, h3⟩ := h
  refine safe_append (safe_append (safe_append (safe_append (safe_append (safe_append ?_ ?_) ?_) ?_) ?_) ?_) ?_
  · exact safe_rd (fun e => absurd e.symm h2) (safe_rd (fun e => absurd e.symm (h3 k)) (safe_nil _ _))
  · cases seeks with
    | none => exact safe_nil _ _
    | some x =>
      refine safe_append (safe_search k x.1) ?_
      cases x.2
      · exact safe_nil _ _
      · exact safe_rd (fun e => absurd e.symm h2) (safe_wr (fun e => absurd e.symm (h3 k)) (safe_wr (fun e => absurd e.symm h1) (safe_nil _ _)))
  · exact safe_rd (fun e => absurd e.symm h1) (safe_nil _ _)
  · exact safe_reading (by simp) (safe_rd (fun e => absurd e.symm h2) (safe_nil _ _))
  · exact safe_rd (fun e => absurd e.symm (h3 k)) (safe_nil _ _)
  · refine safe_flatMap _ (fun t => safe_append (safe_append ?_ (safe_read1 (m' := .records t) (by simp))) ?_) ts
    · exact safe_rd (fun e => absurd e.symm h1) (safe_nil _ _)
    · exact safe_rd (fun e => absurd e.symm (h3 k)) (safe_nil _ _)
  · cases again
    · exact safe_nil _ _
    · exact safe_wr (fun e => absurd e.symm h2) (safe_nil _ _)

theorem safe_op {m : Map} (o : Op) (h : Spec.mapTame m o) : Safe guardOf m [] o.prog := by
  have lease : ∀ i, Safe guardOf m [] (writing (.lease i) [.rd (.cache i), .wr (.cache i)]) := by
    intro i
    refine safe_writing (by simp) (safe_rd ?_ (safe_wr ?_ (safe_nil _ _)))
    · rintro rfl; exact ⟨true, by simp [guardOf]⟩
    · rintro rfl; simp [guardOf]
  cases o with
  | get nodes topics =>
    refine safe_append (safe_reading (by simp) ?_) (safe_flatMap _ (fun t => safe_append (safe_reading (by simp) (safe_rd ?_ ?_)) ?_) _)
    · have : ∀ n, Safe guardOf m [(Lock.trie, false)] (List.replicate n (.rd .children)) := by
        intro n
        induction n with
        | zero => exact safe_nil _ _
        | succ n ih =>
          rw [List.replicate_succ]
          refine safe_rd ?_ ih
          rintro rfl
          exact ⟨false, by simp [guardOf]⟩
      exact this nodes
    · rintro rfl; exact ⟨false, by simp [guardOf]⟩
    · exact safe_flatMap _ (fun i => safe_addExpiry i (by simp)) _
    · exact safe_flatMap _ (fun i => safe_addExpiry i (by simp)) _
  | getOffset =>
    refine safe_reading (by simp) (safe_rd ?_ (safe_nil _ _))
    rintro rfl; exact ⟨false, by simp [guardOf]⟩
  | setOffset =>
    refine safe_writing (by simp) (safe_rd ?_ (safe_nil _ _))
    rintro rfl; exact ⟨true, by simp [guardOf]⟩
  | add i =>
    refine safe_writing (by simp) (safe_rd ?_ (safe_wr ?_ (safe_nil _ _)))
    · rintro rfl; exact ⟨true, by simp [guardOf]⟩
    · rintro rfl; simp [guardOf]
  | trieAdd t parts =>
    refine safe_writing (by simp) (safe_append (safe_rd (fun he => absurd he.symm h) (safe_nil _ _))
      (safe_append (safe_flatMap _ (fun new => ?_) _) ?_))
    · refine safe_append (safe_reading (by simp) (safe_rd ?_ (safe_nil _ _))) ?_
      · rintro rfl; exact ⟨false, by simp [guardOf]⟩
      · cases new
        · exact safe_nil _ _
        · refine safe_writing (by simp) (safe_wr ?_ (safe_nil _ _))
          rintro rfl; simp [guardOf]
    · refine safe_writing (by simp) (safe_wr ?_ (safe_nil _ _))
      rintro rfl; simp [guardOf]
  | release n =>
    refine safe_flatMap _ (fun i => safe_reading (by simp) (safe_rd ?_ (safe_nil _ _))) _
    rintro rfl; exact ⟨false, by simp [guardOf]⟩
  | timeRelease is =>
    refine safe_flatMap _ (fun i => safe_writing (by simp) (safe_wr ?_ (safe_nil _ _))) _
    rintro rfl; simp [guardOf]
  | expire n leases => exact safe_append (safe_expired n 0 [] (by simp)) (safe_flatMap _ lease _)
  | free i => exact lease i
  | allocate i =>
    refine safe_writing (by simp) (safe_wr ?_ (safe_nil _ _))
    rintro rfl; simp [guardOf]
  | close n =>
    have : ∀ l : List Nat, Safe guardOf m [] (l.map fun i => Ev.wr (.cache i)) := by
      intro l
      induction l with
      | nil => exact safe_nil _ _
      | cons i l ih => exact safe_wr (fun he => absurd he.symm (h i)) ih
    exact this _
  | memPut t k fresh =>
    refine safe_append (safe_look (by simp)) (safe_writing (by simp) (safe_append (safe_wr ?_ (safe_nil _ _))
      (safe_writing (by simp) (safe_append (safe_rd ?_ (safe_nil _ _)) ?_))))
    · rintro rfl; simp [guardOf]
    · rintro rfl; exact ⟨true, by simp [guardOf]⟩
    · cases fresh
      · exact safe_nil _ _
      · refine safe_writing (by simp) (safe_wr ?_ (safe_nil _ _))
        rintro rfl; simp [guardOf]
  | memGet k seeks ts again => exact safe_memGet h k seeks ts again
  | memLookup t => exact safe_append (safe_look (by simp)) (safe_read1 (m' := .records t) (by simp))
  | memIterate ts =>
    exact safe_append (safe_read1 (m' := .marks) (by simp))
      (safe_flatMap _ (fun t => safe_append (safe_look (by simp)) (safe_read1 (m' := .records t) (by simp))) ts)
  | memDelete k ts t t' =>
    refine safe_append (safe_append (safe_append (safe_search k ts) (safe_writing (by simp) (safe_rd ?_ (safe_wr ?_ (safe_nil _ _))))) (safe_look (by simp)))
      (safe_writing (by simp) (safe_wr ?_ (safe_nil _ _)))
    · rintro rfl; exact ⟨true, by simp [guardOf]⟩
    · rintro rfl; simp [guardOf]
    · rintro rfl; simp [guardOf]
  | memDeleteLast k ts t n =>
    refine safe_append (safe_append (safe_search k ts) (safe_writing (by simp) (safe_append (safe_rd ?_ (safe_wr ?_ (safe_nil _ _)))
      (safe_flatMap _ (fun _ => safe_append (safe_look (by simp)) (safe_wr ?_ (safe_nil _ _))) _)))) (safe_release t)
    · rintro rfl; exact ⟨true, by simp [guardOf]⟩
    · rintro rfl; simp [guardOf]
    · rintro rfl; simp [guardOf]
  | memFree t => exact safe_release t
  | memBlock =>
    refine safe_writing (by simp) (safe_rd ?_ (safe_wr ?_ (safe_nil _ _)))
    · rintro rfl; exact ⟨true, by simp [guardOf]⟩
    · rintro rfl; simp [guardOf]
  | memMark =>
    refine safe_writing (by simp) (safe_rd ?_ (safe_wr ?_ (safe_nil _ _)))
    · rintro rfl; exact ⟨true, by simp [guardOf]⟩
    · rintro rfl; simp [guardOf]
  | memKeys ts =>
    refine safe_reading (by simp) (safe_append (safe_rd ?_ (safe_nil _ _)) (safe_flatMap _ (fun t => safe_read1 (m' := .records t) (by simp [guardOf])) ts))
    rintro rfl; exact ⟨false, by simp [guardOf]⟩

/-- Who holds a lock for writing is the only one who holds it, and all keep the map guarded. -/
def MapUse.Inv {α μ : Type} [DecidableEq α] (gd : μ → α) (m : μ) (s : List (Gor α μ)) : Prop :=
  (∀ (i j : Nat) (g h : Gor α μ), i ≠ j → s[i]? = some g → s[j]? = some h → ∀ l, (l, true) ∈ g.held → ∀ b, (l, b) ∉ h.held) ∧ ∀ g ∈ s, Guarded gd m g.held g.todo

/-- A goroutine goes on with locks it may have. -/
theorem mapu_set {α μ : Type} [DecidableEq α] {gd : μ → α} {m : μ} {s : List (Gor α μ)} {i : Nat} (h : Inv gd m s) (g' : Gor α μ) (hg : Guarded gd m g'.held g'.todo)
    (h1 : ∀ j h, j ≠ i → s[j]? = some h → ∀ l, (l, true) ∈ g'.held → ∀ b, (l, b) ∉ h.held)
    (h2 : ∀ j h, j ≠ i → s[j]? = some h → ∀ l, (l, true) ∈ h.held → ∀ b, (l, b) ∉ g'.held) : Inv gd m (s.set i g') := by
  constructor
  · intro a b ga gb hab ha hb
    by_cases hia : i = a
    · subst hia
      rw [List.getElem?_set_ne hab] at hb
      rw [List.getElem?_set_self (by simpa using (List.getElem?_eq_some_iff.mp ha).1)] at ha
      cases ha
      exact h1 b gb (Ne.symm hab) hb
    · rw [List.getElem?_set_ne hia] at ha
      by_cases hib : i = b
      · subst hib
        rw [List.getElem?_set_self (by simpa using (List.getElem?_eq_some_iff.mp hb).1)] at hb
        cases hb
        exact h2 a ga (Ne.symm hia) ha
      · rw [List.getElem?_set_ne hib] at hb
        exact h.1 a b ga gb hab ha hb
  · intro g hmem
    rcases List.mem_or_eq_of_mem_set hmem with hmem | rfl
    · exact h.2 g hmem
    · exact hg

theorem mapu_step {α μ : Type} [DecidableEq α] {gd : μ → α} {m : μ} {s s' : List (Gor α μ)} {i : Nat} (h : Inv gd m s) (hs : step i s = some s') : Inv gd m s' := by
  unfold MapUse.step at hs
  cases hg : s[i]? with
  | none => rw [hg] at hs; cases hs
  | some g =>
    rw [hg] at hs
    have hmem := List.mem_of_getElem? hg
    have hgd := h.2 g hmem
    simp only at hs
    obtain ⟨held, todo⟩ := g
    match todo with
    | [] => cases hs
    | .act (.r l) :: p =>
      simp only at hs
      split at hs
      · rename_i hc
        cases hs
        refine mapu_set h _ hgd ?_ ?_
        · intro j x hj hx l' hl' b
          rcases List.mem_cons.mp hl' with he | hl'
          · cases he
          · exact h.1 i j _ x (Ne.symm hj) hg hx l' hl' b
        · intro j x hj hx l' hl' b hb
          rcases List.mem_cons.mp hb with he | hb
          · cases he
            exact hc x (List.mem_of_getElem? hx) hl'
          · exact h.1 j i x _ hj hx hg l' hl' b hb
      · cases hs
    | .act (.w l) :: p =>
      simp only at hs
      split at hs
      · rename_i hc
        cases hs
        refine mapu_set h _ hgd ?_ ?_
        · intro j x hj hx l' hl' b hb
          rcases List.mem_cons.mp hl' with he | hl'
          · cases he
            exact hc x (List.mem_of_getElem? hx) _ hb rfl
          · exact h.1 i j _ x (Ne.symm hj) hg hx l' hl' b hb
        · intro j x hj hx l' hl' b hb
          rcases List.mem_cons.mp hb with he | hb
          · cases he
            exact hc x (List.mem_of_getElem? hx) _ hl' rfl
          · exact h.1 j i x _ hj hx hg l' hl' b hb
      · cases hs
    | .act (.done l) :: p =>
      simp only at hs
      cases hs
      refine mapu_set h _ hgd ?_ ?_
      · intro j x hj hx l' hl' b hb
        exact h.1 i j _ x (Ne.symm hj) hg hx l' (List.mem_filter.mp hl').1 b hb
      · intro j x hj hx l' hl' b hb
        exact h.1 j i x _ hj hx hg l' hl' b (List.mem_filter.mp hb).1
    | .rd _ :: p =>
      simp only at hs
      cases hs
      exact mapu_set h _ hgd.2 (fun j x hj hx l hl b => h.1 i j _ x (Ne.symm hj) hg hx l hl b) (fun j x hj hx l hl b => h.1 j i x _ hj hx hg l hl b)
    | .wr _ :: p =>
      simp only at hs
      cases hs
      exact mapu_set h _ hgd.2 (fun j x hj hx l hl b => h.1 i j _ x (Ne.symm hj) hg hx l hl b) (fun j x hj hx l hl b => h.1 j i x _ hj hx hg l hl b)

theorem mapu_run {α μ : Type} [DecidableEq α] {gd : μ → α} {m : μ} : ∀ (is : List Nat) (s s' : List (Gor α μ)), Inv gd m s → run is s = some s' → Inv gd m s'
  | [], s, s', h, hr => by cases hr; exact h
  | i :: is, s, s', h, hr => by
    rw [MapUse.run] at hr
    cases hs : step i s with
    | none => rw [hs] at hr; cases hr
    | some t =>
      rw [hs] at hr
      exact mapu_run is t s' (mapu_step h hs) hr

/-- Goroutines that keep a map guarded never clash on it. -/
theorem mapu_no_clash {α μ : Type} [DecidableEq α] {gd : μ → α} {m : μ} (s0 : List (Gor α μ)) (h1 : ∀ g ∈ s0, g.held = [] ∧ Guarded gd m [] g.todo) (is : List Nat)
    (s : List (Gor α μ)) (hr : run is s0 = some s) : ¬ Spec.clash m s := by
  have h0 : Inv gd m s0 := by
    constructor
    · intro i j g x _ hg _ l hl
      rw [(h1 g (List.mem_of_getElem? hg)).1] at hl
      cases hl
    · intro g hg
      rw [(h1 g hg).1]
      exact (h1 g hg).2
  obtain ⟨hx, hgd⟩ := mapu_run is _ s h0 hr
  rintro ⟨i, j, g, x, hij, hg, hxj, hw, hr⟩
  have w : (gd m, true) ∈ g.held := by
    have := hgd g (List.mem_of_getElem? hg)
    obtain ⟨held, todo⟩ := g
    cases todo with
    | nil => cases hw
    | cons e p =>
      cases hw
      exact this.1 rfl
  have r : ∃ b, (gd m, b) ∈ x.held := by
    have := hgd x (List.mem_of_getElem? hxj)
    obtain ⟨held, todo⟩ := x
    cases todo with
    | nil => rcases hr with hr | hr <;> cases hr
    | cons e p =>
      rcases hr with hr | hr
      · cases hr
        exact this.1 rfl
      · cases hr
        exact ⟨true, this.1 rfl⟩
  obtain ⟨b, hb⟩ := r
  exact hx i j g x hij hg hxj _ w b hb

/-- C115, what holds: with any number of goroutines, any operations and any interleaving, a map is never written while another goroutine uses it, if none of
the operations touches that map without its lock. For the entries of the window, the windows of expiries and the nodes of the trie no operation does; for
the summary of the trie it is adding a topic, for the cache of free blocks it is Close, and for the maps of the query manager it is Get. -/
theorem C115_no_clash_partial (m : Map) (ops : List (List Op)) (h : ∀ os ∈ ops, ∀ o ∈ os, Spec.mapTame m o) (is : List Nat) (s : List (Gor Lock Map))
    (hr : run is (ops.map gor) = some s) : ¬ Spec.clash m s := by
  refine mapu_no_clash (gd := guardOf) _ ?_ is s hr
  intro g hg
  obtain ⟨os, hos, rfl⟩ := List.mem_map.mp hg
  have : ∀ os : List Op, (∀ o ∈ os, Spec.mapTame m o) → Safe guardOf m [] (os.flatMap Op.prog) := by
    intro os
    induction os with
    | nil => intro _; exact safe_nil _ _
    | cons o os ih =>
      intro hp
      rw [List.flatMap_cons]
      exact safe_append (safe_op o (hp o (by simp))) (ih fun o ho => hp o (by simp [ho]))
  exact ⟨rfl, (this os (h os hos)).1⟩

/-- The maps that every operation touches with their locks only: the nodes of the trie, the entries of the window, the windows of expiries, and in the
in-memory store the blocks, their records, the filters and the time marks. -/
def Spec.mapLocked : Map → Bool
  | .children | .entries _ | .windows _ | .blocks | .records _ | .filters _ | .marks => true
  | _ => false

/-- These are never in danger, whatever the goroutines do. -/
theorem C115_safe_maps (m : Map) (hm : Spec.mapLocked m = true) (ops : List (List Op)) (is : List Nat) (s : List (Gor Lock Map))
    (hr : run is (ops.map gor) = some s) : ¬ Spec.clash m s := by
  refine C115_no_clash_partial m ops (fun os _ o _ => ?_) is s hr
  cases o <;> (try exact trivial)
  · rintro rfl
    cases hm
  · intro j
    rintro rfl
    cases hm
  · refine ⟨?_, ?_, ?_⟩
    · rintro rfl
      cases hm
    · rintro rfl
      cases hm
    · rintro k rfl
      cases hm

/-- C115 is false for the summary of the trie: two goroutines that each put a message of a new topic; one looks up the summary while the other writes it. -/
theorem C115_topics_violated : ∃ is s, run is [gor [.trieAdd 1 [true]], gor [.trieAdd 2 [true]]] = some s ∧ Spec.clash .summary s := by
  refine ⟨[0, 0, 0, 0, 0, 0, 0, 0, 0, 1], [⟨[(.trie, true), (.topic 1, true)], [.wr .summary, .act (.done .trie), .act (.done (.topic 1))]⟩,
    ⟨[(.topic 2, true)], (MapUse.trieAdd 2 [true]).tail⟩], by decide +kernel, 0, 1, _, _, by decide, rfl, rfl, rfl, Or.inl rfl⟩

/-- And for the cache of free blocks: Close merges free blocks without a lock while a Delete that began before adds one. -/
theorem C115_close_violated : ∃ is s, run is [gor [.free 0], gor [.close 1]] = some s ∧ Spec.clash (.cache 0) s := by
  refine ⟨[0, 0], [⟨[(.lease 0, true)], [.wr (.cache 0), .act (.done (.lease 0))]⟩, gor [.close 1]], by decide +kernel,
    0, 1, _, _, by decide, rfl, rfl, rfl, Or.inr rfl⟩

/-- And for what Gets have found: two Gets at the same time, each of them about to note the block it found. No Put or Delete is needed. -/
theorem C115_gets_violated : ∃ is s, run is [gor [.memGet 7 (some ([5], true)) [5] false], gor [.memGet 8 (some ([6], true)) [6] false]] = some s ∧
    Spec.clash .planBlocks s := by
  refine ⟨List.replicate 16 0 ++ List.replicate 16 1,
    [⟨[], (gor [.memGet 7 (some ([5], true)) [5] false]).todo.drop 16⟩, ⟨[], (gor [.memGet 8 (some ([6], true)) [6] false]).todo.drop 16⟩],
    by decide +kernel, 0, 1, _, _, by decide, rfl, rfl, by decide +kernel, by decide +kernel⟩

/-- A Get that meets an expired entry while the expirer is at work and topics are added, to the end. -/
example : ∃ is s, run is [gor [.get 1 [(1, [2], [])]], gor [.expire 3 [7]], gor [.trieAdd 4 [true]]] = some s ∧ ∀ g ∈ s, g.todo = [] ∧ g.held = [] := by
  refine ⟨[2, 2, 0, 0, 0, 0, 0, 1, 1, 1] ++ List.replicate 5 0 ++ List.replicate 13 1 ++ List.replicate 10 2, _, rfl, by decide +kernel⟩

end Verif
