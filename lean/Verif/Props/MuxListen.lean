import Verif.Model.MuxListen

/-!
# C110: every connection reaches one server or is closed
-/

namespace Verif

open Mux

/-- All places a connection can be in, one after the other. -/
def Spec.places (s : Mux.State) : List Nat :=
  s.sniffing ++ (s.waiting.map (·.2) ++ (s.queued.map (·.2) ++ (s.given.map (·.2) ++ s.closed)))

theorem count_erase_map {α : Type} [BEq α] [LawfulBEq α] (f : α → Nat) (l : List α) (x : α) (h : x ∈ l) (a : Nat) :
    (l.map f).count a = ((l.erase x).map f).count a + (if f x = a then 1 else 0) := by
  have p := ((List.perm_cons_erase h).map f).count_eq a
  rw [p, List.map_cons, List.count_cons]
  simp

theorem count_snoc (l : List Nat) (x a : Nat) : (l ++ [x]).count a = l.count a + (if x = a then 1 else 0) := by
  rw [List.count_append, List.count_singleton]
  simp

theorem mux_head {s : Mux.State} {p : Nat} {x : Nat × Nat} (h : s.head p = some x) : x ∈ s.queued ∧ x.1 = p :=
  ⟨List.mem_of_find?_eq_some h, by simpa using List.find?_some h⟩

structure MuxInv (n : Nat) (tr : List Mux.Step) (s : Mux.State) : Prop where
  count : ∀ a, (Spec.places s).count a = if a < s.next then 1 else 0
  drained : ∀ k, s.phase = .draining k → s.sniffing = [] ∧ s.waiting = [] ∧ ∀ x ∈ s.queued, k ≤ x.1
  range : ∀ x, x ∈ s.waiting ∨ x ∈ s.queued → x.1 < n
  why : ∀ x, x ∈ s.waiting ∨ x ∈ s.queued ∨ x ∈ s.given → .matched x.1 x.2 ∈ tr

theorem mux_inv {n : Nat} {tr : List Mux.Step} {s : Mux.State} (h : Reach n tr s) : MuxInv n tr s := by
  induction h with
  | start => exact ⟨by intro a; simp [Spec.places, Mux.start], by simp [Mux.start], by simp [Mux.start], by simp [Mux.start]⟩
  | @step tr s e s' hr hs ih =>
    obtain ⟨hc, hd, hg, hw⟩ := ih
    have hw' : ∀ x, x ∈ s.waiting ∨ x ∈ s.queued ∨ x ∈ s.given → Mux.Step.matched x.1 x.2 ∈ tr ++ [e] :=
      fun x hx => List.mem_append_left _ (hw x hx)
    simp only [Spec.places, List.count_append] at hc
    cases e with
    | accept =>
      simp only [Mux.step] at hs
      split at hs
      · rename_i hp
        cases hs
        refine ⟨fun a => ?_, ?_, hg, hw'⟩
        · have := hc a
          simp only [Spec.places, List.count_append, List.count_singleton, beq_iff_eq]
          split at this <;> split <;> split <;> omega
        · simp only [hp]; simp
      · cases hs
    | tempError =>
      simp only [Mux.step] at hs
      split at hs
      · cases hs; exact ⟨by simpa only [Spec.places, List.count_append] using hc, hd, hg, hw'⟩
      · cases hs
    | permError =>
      simp only [Mux.step] at hs
      split at hs
      · cases hs; exact ⟨by simpa only [Spec.places, List.count_append] using hc, by simp, hg, hw'⟩
      · cases hs
    | matched p c =>
      simp only [Mux.step] at hs
      split at hs
      · rename_i hp
        cases hs
        refine ⟨fun a => ?_, ?_, ?_, ?_⟩
        · have := hc a
          have e := count_erase_map id s.sniffing c hp.1 a
          simp only [List.map_id, id] at e
          simp only [Spec.places, List.count_append, List.map_append, List.map_cons, List.map_nil, List.count_singleton, beq_iff_eq]
          omega
        · intro k hk
          have := (hd k hk).1
          rw [this] at hp
          simp at hp
        · intro x hx
          simp only [List.mem_append, List.mem_singleton] at hx
          rcases hx with (hx | rfl) | hx
          · exact hg x (Or.inl hx)
          · exact hp.2
          · exact hg x (Or.inr hx)
        · intro x hx
          simp only [List.mem_append, List.mem_singleton] at hx
          rcases hx with (hx | rfl) | hx
          · exact hw' x (Or.inl hx)
          · simp
          · exact hw' x (Or.inr hx)
      · cases hs
    | unmatched c =>
      simp only [Mux.step] at hs
      split at hs
      · rename_i hp
        cases hs
        refine ⟨fun a => ?_, ?_, hg, hw'⟩
        · have := hc a
          have e := count_erase_map id s.sniffing c hp a
          simp only [List.map_id, id] at e
          simp only [Spec.places, List.count_append, List.count_singleton, beq_iff_eq]
          omega
        · intro k hk
          have := (hd k hk).1
          rw [this] at hp
          simp at hp
      · cases hs
    | send p c =>
      simp only [Mux.step] at hs
      split at hs
      · rename_i hp
        split at hs
        · cases hs
        split at hs
        · cases hs
          refine ⟨fun a => ?_, ?_, ?_, ?_⟩
          · have := hc a
            have e := count_erase_map (·.2) s.waiting (p, c) hp a
            simp only at e
            simp only [Spec.places, List.count_append, List.map_append, List.map_cons, List.map_nil, List.count_singleton, beq_iff_eq]
            omega
          · intro k hk
            have := (hd k hk).2.1
            rw [this] at hp
            simp at hp
          · intro x hx
            simp only [List.mem_append, List.mem_singleton] at hx
            rcases hx with hx | hx | rfl
            · exact hg x (Or.inl (List.mem_of_mem_erase hx))
            · exact hg x (Or.inr hx)
            · exact hg _ (Or.inl hp)
          · intro x hx
            simp only [List.mem_append (t := [(p, c)]), List.mem_singleton] at hx
            rcases hx with hx | (hx | rfl) | hx
            · exact hw' x (Or.inl (List.mem_of_mem_erase hx))
            · exact hw' x (Or.inr (Or.inl hx))
            · exact hw' _ (Or.inl hp)
            · exact hw' x (Or.inr (Or.inr hx))
        · cases hs
      · cases hs
    | quit p c =>
      simp only [Mux.step] at hs
      split at hs
      · rename_i hp
        cases hs
        refine ⟨fun a => ?_, ?_, ?_, ?_⟩
        · have := hc a
          have e := count_erase_map (·.2) s.waiting (p, c) hp.1 a
          simp only at e
          simp only [Spec.places, List.count_append, List.count_singleton, beq_iff_eq]
          omega
        · intro k hk
          have := (hd k hk).2.1
          rw [this] at hp
          simp at hp
        · intro x hx
          exact hg x (hx.imp_left List.mem_of_mem_erase)
        · intro x hx
          exact hw' x (hx.imp_left List.mem_of_mem_erase)
      · cases hs
    | closeFirst =>
      simp only [Mux.step] at hs
      split at hs
      · rename_i hp
        cases hs
        exact ⟨by simpa only [Spec.places, List.count_append] using hc, fun k hk => ⟨hp.2.1, hp.2.2, by cases hk; simp⟩, hg, hw'⟩
      · cases hs
    | drain =>
      simp only [Mux.step] at hs
      split at hs
      · rename_i k hk
        obtain ⟨d1, d2, d3⟩ := hd k hk
        split at hs
        · split at hs
          · rename_i x hx
            obtain ⟨m, -⟩ := mux_head hx
            cases hs
            refine ⟨fun a => ?_, ?_, ?_, ?_⟩
            · have := hc a
              have e := count_erase_map (·.2) s.queued x m a
              simp only [Spec.places, List.count_append, List.count_singleton, beq_iff_eq]
              omega
            · intro j hj
              have : k = j := by rw [hk] at hj; cases hj; rfl
              subst this
              exact ⟨d1, d2, fun y hy => d3 y (List.mem_of_mem_erase hy)⟩
            · intro y hy
              exact hg y (hy.imp_right List.mem_of_mem_erase)
            · intro y hy
              exact hw' y (hy.imp_right (·.imp_left List.mem_of_mem_erase))
          · rename_i hx
            cases hs
            refine ⟨by simpa only [Spec.places, List.count_append] using hc, ?_, hg, hw'⟩
            intro j hj
            cases hj
            refine ⟨d1, d2, fun y hy => ?_⟩
            have := List.find?_eq_none.mp hx y hy
            have h2 := d3 y hy
            simp only [beq_iff_eq] at this
            omega
        · cases hs
      · cases hs
    | take p =>
      simp only [Mux.step] at hs
      split at hs
      · split at hs
        · rename_i x hx
          obtain ⟨m, -⟩ := mux_head hx
          cases hs
          refine ⟨fun a => ?_, ?_, ?_, ?_⟩
          · have := hc a
            have e := count_erase_map (·.2) s.queued x m a
            simp only [Spec.places, List.count_append, List.map_append, List.map_cons, List.map_nil, List.count_singleton, beq_iff_eq]
            omega
          · intro j hj
            obtain ⟨d1, d2, d3⟩ := hd j hj
            exact ⟨d1, d2, fun y hy => d3 y (List.mem_of_mem_erase hy)⟩
          · intro y hy
            exact hg y (hy.imp_right List.mem_of_mem_erase)
          · intro y hy
            simp only [List.mem_append, List.mem_singleton] at hy
            rcases hy with hy | hy | hy | rfl
            · exact List.mem_append_left _ (hw y (Or.inl hy))
            · exact List.mem_append_left _ (hw y (Or.inr (Or.inl (List.mem_of_mem_erase hy))))
            · exact List.mem_append_left _ (hw y (Or.inr (Or.inr hy)))
            · exact List.mem_append_left _ (hw _ (Or.inr (Or.inl m)))
        · split at hs
          · cases hs; exact ⟨by simpa only [Spec.places, List.count_append] using hc, hd, hg, hw'⟩
          · cases hs
      · cases hs

/-- C110: at any time every accepted connection is in exactly one place: it is not taken by two servers, nor taken twice, nor taken and closed by the
listener, nor forgotten. -/
theorem C110_one_place {n : Nat} {tr : List Mux.Step} {s : Mux.State} (h : Reach n tr s) (c : Nat) (hc : c < s.next) :
    (Spec.places s).count c = 1 := by
  rw [(mux_inv h).count, if_pos hc]

/-- C110: a server takes only connections that were found to be for it. -/
theorem C110_right_server {n : Nat} {tr : List Mux.Step} {s : Mux.State} (h : Reach n tr s) (p c : Nat) (hg : (p, c) ∈ s.given) :
    .matched p c ∈ tr := (mux_inv h).why (p, c) (Or.inr (Or.inr hg))

/-- C110: the listener never sends on a closed channel, which would end the process. -/
theorem C110_no_panic {n : Nat} {tr : List Mux.Step} {s : Mux.State} (h : Reach n tr s) (e : Mux.Step) : Mux.step n e s ≠ .panic := by
  intro hp
  have hd := (mux_inv h).drained
  cases e <;> simp only [Mux.step] at hp <;> repeat' split at hp
  all_goals first
    | cases hp; done
    | rename_i hm hcl
      simp only [Mux.State.chanClosed] at hcl
      split at hcl
      · rename_i k hk
        rw [(hd k hk).2.1] at hm
        simp at hm
      · cases hcl

/-- C110: when the listener has stopped, every connection it accepted was taken by a server or is closed. -/
theorem C110_stopped {n : Nat} {tr : List Mux.Step} {s : Mux.State} (h : Reach n tr s) (hr : s.returned n) (c : Nat) (hc : c < s.next) :
    (∃ p, (p, c) ∈ s.given) ∨ c ∈ s.closed := by
  obtain ⟨k, hk, hn⟩ := hr
  have inv := mux_inv h
  obtain ⟨d1, d2, d3⟩ := inv.drained k hk
  have hq : s.queued = [] := by
    apply List.eq_nil_iff_forall_not_mem.mpr
    intro x hx
    have h1 := d3 x hx
    have h2 := inv.range x (Or.inr hx)
    omega
  have hm : c ∈ Spec.places s := by
    apply List.count_pos_iff.mp
    rw [C110_one_place h c hc]
    decide
  simp only [Spec.places, d1, d2, hq, List.map_nil, List.nil_append, List.mem_append, List.mem_map] at hm
  rcases hm with ⟨⟨p, c'⟩, hg, rfl⟩ | hm
  · exact Or.inl ⟨p, hg⟩
  · exact Or.inr hm

/-- What is left to do for a listener that stops. -/
def Mux.left (n : Nat) (s : Mux.State) : Nat :=
  3 * s.sniffing.length + 2 * s.waiting.length + s.queued.length +
    (match s.phase with
      | .accepting => n + 2
      | .closing => n + 1
      | .draining k => n - k)

/-- C110: a listener whose port is gone stops: until it has there is a step it can take by itself, whatever servers do, and there are no more steps than
`left` says, except that servers are told that it has stopped. -/
theorem C110_stops {n : Nat} {tr : List Mux.Step} {s : Mux.State} (h : Reach n tr s) (hp : s.phase ≠ .accepting) :
    (s.returned n ∨ ∃ e s', (∀ p, e ≠ .take p) ∧ Mux.step n e s = .ok s') ∧
      ∀ e s', Mux.step n e s = .ok s' → s'.phase ≠ .accepting ∧ (Mux.left n s' < Mux.left n s ∨ (∃ p, e = .take p) ∧ s' = s) := by
  have hd := (mux_inv h).drained
  refine ⟨?_, ?_⟩
  · cases hph : s.phase with
    | accepting => exact absurd hph hp
    | closing =>
      right
      by_cases h1 : s.sniffing = []
      · by_cases h2 : s.waiting = []
        · exact ⟨.closeFirst, _, by simp, by simp only [Mux.step]; rw [if_pos ⟨hph, h1, h2⟩]⟩
        · obtain ⟨⟨p, c⟩, hx⟩ := List.exists_mem_of_ne_nil _ h2
          exact ⟨.quit p c, _, by simp, by simp only [Mux.step]; rw [if_pos ⟨hx, hp⟩]⟩
      · obtain ⟨c, hx⟩ := List.exists_mem_of_ne_nil _ h1
        exact ⟨.unmatched c, _, by simp, by simp only [Mux.step]; rw [if_pos hx]⟩
    | draining k =>
      by_cases hk : k < n
      · right
        cases hh : s.head k with
        | some x => exact ⟨.drain, _, by simp, by simp only [Mux.step, hph]; rw [if_pos hk, hh]⟩
        | none => exact ⟨.drain, _, by simp, by simp only [Mux.step, hph]; rw [if_pos hk, hh]⟩
      · left; exact ⟨k, hph, by omega⟩
  · intro e s' hs
    have len : ∀ {α : Type} [BEq α] [LawfulBEq α] (l : List α) (x : α), x ∈ l → l.length = (l.erase x).length + 1 := by
      intro α _ _ l x hx
      have := (List.perm_cons_erase hx).length_eq
      simpa using this
    cases e with
    | accept => simp only [Mux.step, if_neg hp] at hs; cases hs
    | tempError => simp only [Mux.step, if_neg hp] at hs; cases hs
    | permError => simp only [Mux.step, if_neg hp] at hs; cases hs
    | matched p c =>
      simp only [Mux.step] at hs
      split at hs
      · rename_i hx
        cases hs
        refine ⟨hp, Or.inl ?_⟩
        have := len _ _ hx.1
        simp only [Mux.left, List.length_append, List.length_singleton]
        omega
      · cases hs
    | unmatched c =>
      simp only [Mux.step] at hs
      split at hs
      · rename_i hx
        cases hs
        refine ⟨hp, Or.inl ?_⟩
        have := len _ _ hx
        simp only [Mux.left]
        omega
      · cases hs
    | send p c =>
      simp only [Mux.step] at hs
      split at hs
      · rename_i hx
        split at hs
        · cases hs
        split at hs
        · cases hs
          refine ⟨hp, Or.inl ?_⟩
          have := len _ _ hx
          simp only [Mux.left, List.length_append, List.length_singleton]
          omega
        · cases hs
      · cases hs
    | quit p c =>
      simp only [Mux.step] at hs
      split at hs
      · rename_i hx
        cases hs
        refine ⟨hp, Or.inl ?_⟩
        have := len _ _ hx.1
        simp only [Mux.left]
        omega
      · cases hs
    | closeFirst =>
      simp only [Mux.step] at hs
      split at hs
      · rename_i hx
        cases hs
        refine ⟨by simp, Or.inl ?_⟩
        simp only [Mux.left, hx.1]
        omega
      · cases hs
    | drain =>
      simp only [Mux.step] at hs
      split at hs
      · rename_i k hk
        split at hs
        · split at hs
          · rename_i x hx
            cases hs
            refine ⟨hp, Or.inl ?_⟩
            have := len _ _ (mux_head hx).1
            simp only [Mux.left]
            omega
          · cases hs
            refine ⟨by simp, Or.inl ?_⟩
            simp only [Mux.left, hk]
            omega
        · cases hs
      · cases hs
    | take p =>
      simp only [Mux.step] at hs
      split at hs
      · split at hs
        · rename_i x hx
          cases hs
          refine ⟨hp, Or.inl ?_⟩
          have := len _ _ (mux_head hx).1
          simp only [Mux.left]
          omega
        · split at hs
          · cases hs; exact ⟨hp, Or.inr ⟨⟨p, rfl⟩, rfl⟩⟩
          · cases hs
      · cases hs

/-- The connections put into the channel of a server, in order. -/
def Spec.muxSends (p : Nat) (tr : List Mux.Step) : List (Nat × Nat) :=
  tr.filterMap fun e => match e with
    | .send q c => if q = p then some (q, c) else none
    | _ => none

theorem filter_head (p : Nat) (x : Nat × Nat) : ∀ l : List (Nat × Nat), l.find? (·.1 == p) = some x →
    l.filter (·.1 == p) = [x] ++ (l.erase x).filter (·.1 == p)
  | [] => by simp
  | y :: ys => by
    intro hy
    rw [List.find?_cons] at hy
    split at hy
    · rename_i hyp
      cases hy
      rw [List.filter_cons, if_pos hyp, List.erase_cons_head]; rfl
    · rename_i hyp
      have hne : (y == x) = false := by
        rw [beq_eq_false_iff_ne]
        rintro rfl
        exact absurd (List.find?_some hy) (by simp [hyp])
      rw [List.filter_cons, if_neg (by simp [hyp]), List.erase_cons_tail (by simp [hne]), List.filter_cons, if_neg (by simp [hyp])]
      exact filter_head p x ys hy

/-- C110: a server takes connections in the order in which they were put into its channel, and what it has not taken is in the channel, in this order, until
the listener stops. -/
theorem C110_in_order {n : Nat} {tr : List Mux.Step} {s : Mux.State} (h : Reach n tr s) (p : Nat) :
    (s.given.filter (·.1 == p) ++ s.queued.filter (·.1 == p)).Sublist (Spec.muxSends p tr) ∧
      ((∀ k, s.phase ≠ .draining k) → s.given.filter (·.1 == p) ++ s.queued.filter (·.1 == p) = Spec.muxSends p tr) := by
  induction h with
  | start => simp [Mux.start, Spec.muxSends]
  | @step tr s e s' hr hs ih =>
    have snoc : Spec.muxSends p (tr ++ [e]) = Spec.muxSends p tr ++ Spec.muxSends p [e] := by simp [Spec.muxSends]
    rw [snoc]
    cases e with
    | send q c =>
      simp only [Mux.step] at hs
      split at hs
      · split at hs
        · cases hs
        split at hs
        · cases hs
          have e1 : Spec.muxSends p [.send q c] = [(q, c)].filter (·.1 == p) := by
            by_cases hq : q = p <;> simp [Spec.muxSends, hq]
          simp only [List.filter_append, e1, ← List.append_assoc]
          exact ⟨ih.1.append (List.Sublist.refl _), fun hk => by rw [ih.2 hk]⟩
        · cases hs
      · cases hs
    | take q =>
      rw [show Spec.muxSends p [.take q] = [] from rfl, List.append_nil]
      simp only [Mux.step] at hs
      split at hs
      · split at hs
        · rename_i x hx
          cases hs
          have e1 : s.queued.filter (·.1 == p) = [x].filter (·.1 == p) ++ (s.queued.erase x).filter (·.1 == p) := by
            have hq := (mux_head hx).2
            by_cases hqp : q = p
            · subst hqp
              rw [filter_head q x s.queued hx]
              simp [hq]
            · have hxp : (x.1 == p) = false := by simp [hq, hqp]
              have key : ∀ l : List (Nat × Nat), (l.erase x).filter (·.1 == p) = l.filter (·.1 == p) := by
                intro l
                induction l with
                | nil => rfl
                | cons y ys ihy =>
                  by_cases hyx : y = x
                  · subst hyx
                    rw [List.erase_cons_head, List.filter_cons, if_neg (by simp [hxp])]
                  · rw [List.erase_cons_tail (by simpa using hyx), List.filter_cons, List.filter_cons, ihy]
              rw [key]
              simp [hxp]
          simp only [List.filter_append, List.append_assoc, ← e1]
          exact ih
        · split at hs
          · cases hs; exact ih
          · cases hs
      · cases hs
    | drain =>
      rw [show Spec.muxSends p [.drain] = [] from rfl, List.append_nil]
      simp only [Mux.step] at hs
      split at hs
      · rename_i k hk
        split at hs
        · split at hs
          · cases hs
            exact ⟨((List.Sublist.refl _).append (List.erase_sublist.filter _)).trans ih.1, fun hn => absurd hk (hn k)⟩
          · cases hs
            exact ⟨ih.1, fun hn => absurd rfl (hn _)⟩
        · cases hs
      · cases hs
    | closeFirst =>
      rw [show Spec.muxSends p [.closeFirst] = [] from rfl, List.append_nil]
      simp only [Mux.step] at hs
      split at hs
      · cases hs; exact ⟨ih.1, fun hn => absurd rfl (hn 0)⟩
      · cases hs
    | permError =>
      rw [show Spec.muxSends p [.permError] = [] from rfl, List.append_nil]
      simp only [Mux.step] at hs
      split at hs
      · rename_i hp
        cases hs; exact ⟨ih.1, fun _ => ih.2 (by simp [hp])⟩
      · cases hs
    | accept =>
      rw [show Spec.muxSends p [.accept] = [] from rfl, List.append_nil]
      simp only [Mux.step] at hs
      split at hs
      · cases hs; exact ih
      · cases hs
    | tempError =>
      rw [show Spec.muxSends p [.tempError] = [] from rfl, List.append_nil]
      simp only [Mux.step] at hs
      split at hs
      · cases hs; exact ih
      · cases hs
    | matched q c =>
      rw [show Spec.muxSends p [.matched q c] = [] from rfl, List.append_nil]
      simp only [Mux.step] at hs
      split at hs
      · cases hs; exact ih
      · cases hs
    | unmatched c =>
      rw [show Spec.muxSends p [.unmatched c] = [] from rfl, List.append_nil]
      simp only [Mux.step] at hs
      split at hs
      · cases hs; exact ih
      · cases hs
    | quit q c =>
      rw [show Spec.muxSends p [.quit q c] = [] from rfl, List.append_nil]
      simp only [Mux.step] at hs
      split at hs
      · cases hs; exact ih
      · cases hs

/-- C110: when the listener has stopped every server that asks for a connection is told so, and no server is told before the listener is stopping. -/
theorem C110_told {n : Nat} {tr : List Mux.Step} {s : Mux.State} (h : Reach n tr s) (p : Nat) (hp : p < n) :
    (s.returned n → Mux.step n (.take p) s = .ok s) ∧ (Mux.step n (.take p) s = .ok s → ∃ k, s.phase = .draining k) := by
  refine ⟨?_, ?_⟩
  · rintro ⟨k, hk, hn⟩
    obtain ⟨-, -, d3⟩ := (mux_inv h).drained k hk
    have hh : s.head p = none := by
      apply List.find?_eq_none.mpr
      intro x hx
      have h1 := d3 x hx
      have h2 := (mux_inv h).range x (Or.inr hx)
      omega
    have hc : s.chanClosed p = true := by
      simp only [Mux.State.chanClosed, hk]
      simp; omega
    simp only [Mux.step, if_pos hp, hh, hc, if_true]
  · intro hs
    simp only [Mux.step, if_pos hp] at hs
    split at hs
    · rename_i x hx
      have hs := Mux.Out.ok.inj hs
      have := congrArg (fun t : Mux.State => t.given.length) hs
      simp at this
    · split at hs
      · rename_i hc
        simp only [Mux.State.chanClosed] at hc
        split at hc
        · rename_i k hk; exact ⟨k, hk⟩
        · cases hc
      · cases hs

/-- Two servers and three connections: one is taken, one is closed from its channel, one fits nowhere. -/
example : ∃ tr s, Reach 2 tr s ∧ s.returned 2 ∧ s.given = [(0, 1)] ∧ s.closed = [0, 2] := by
  refine ⟨[] ++ [.accept] ++ [.accept] ++ [.matched 0 1] ++ [.unmatched 0] ++ [.send 0 1] ++ [.accept] ++ [.matched 1 2] ++ [.send 1 2] ++ [.permError] ++
    [.take 0] ++ [.closeFirst] ++ [.drain] ++ [.drain] ++ [.drain], ⟨.draining 2, 3, [], [], [], [(0, 1)], [0, 2]⟩, ?_, ⟨2, rfl, by decide⟩, rfl, rfl⟩
  exact .step (.step (.step (.step (.step (.step (.step (.step (.step (.step (.step (.step (.step (.step .start rfl) rfl) rfl) rfl) rfl) rfl) rfl) rfl)
    rfl) rfl) rfl) rfl) rfl) rfl

end Verif
