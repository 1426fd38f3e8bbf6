import Verif.Model.Batching
import Mathlib.Tactic.Push

/-! # C58: batching -/

namespace Verif

namespace Spec

/-- What was added for a time id, in order. -/
def addedFor {α : Type} (added : List (Int × α)) (t : Int) : List α := (added.filter (·.1 = t)).map (·.2)

/-- What was enqueued for a time id, in order. -/
def pushedFor {α : Type} (pushed : List (Int × List α)) (t : Int) : List α := (pushed.filter (·.1 = t)).flatMap (·.2)

end Spec

/-- What waits for a time id. -/
def Batching.pending {α : Type} (s : Batching α) (t : Int) : List α :=
  match s.group.lookup t with
  | some b => ((s.heap[b]?).map (·.msgs)).getD []
  | none => []

/-- Clock after a step. -/
def BatchStep.clock {α : Type} (c : Int) : BatchStep α → Int
  | .add now _ _ => now
  | .look now _ => now
  | _ => c

/-- Schedules in which the clock does not go back, delays are not negative, and the publish loop does not read
the map while `add` is blocked between its decision to push and the deletion. -/
def Batching.Calm {α : Type} (o : BatchOpts) (size : α → Nat) : Batching α → Int → List (BatchStep α) → Prop
  | _, _, [] => True
  | s, c, e :: es =>
    (match e with
      | .add now delay _ => c ≤ now ∧ 0 ≤ delay
      | .look now _ => c ≤ now ∧ s.adding = none
      | _ => True) ∧
    Batching.Calm o size (s.step o size e) (e.clock c) es

theorem lookup_filter_ne {β : Type} (l : List (Int × β)) (t t' : Int) :
    (l.filter (·.1 ≠ t)).lookup t' = if t' = t then none else l.lookup t' := by
  induction l with
  | nil => simp
  | cons p l ih =>
    obtain ⟨k, v⟩ := p
    by_cases hk : k = t
    · subst hk
      rw [List.filter_cons, if_neg (by simp), ih, List.lookup_cons]
      split
      · rfl
      · next hne => rw [beq_false_of_ne hne]
    · rw [List.filter_cons, if_pos (by simpa using hk), List.lookup_cons, List.lookup_cons, ih]
      by_cases hkt : t' = k
      · subst hkt; simp [hk]
      · rw [beq_false_of_ne hkt]

theorem lookup_append_one {β : Type} (l : List (Int × β)) (t t' : Int) (v : β) (h : l.lookup t = none) :
    (l ++ [(t, v)]).lookup t' = if t' = t then some v else l.lookup t' := by
  induction l with
  | nil =>
    rw [List.nil_append, List.lookup_cons]
    by_cases ht : t' = t
    · subst ht; simp
    · rw [beq_false_of_ne ht, if_neg ht]
  | cons p l ih =>
    obtain ⟨k, w⟩ := p
    rw [List.lookup_cons] at h
    by_cases hk : t = k
    · subst hk; simp at h
    · rw [beq_false_of_ne hk] at h
      rw [List.cons_append, List.lookup_cons, List.lookup_cons, ih h]
      by_cases hkt : t' = k
      · subst hkt; simp [Ne.symm hk]
      · rw [beq_false_of_ne hkt]

/-- The invariant of calm schedules. -/
structure Batching.Inv {α : Type} (o : BatchOpts) (s : Batching α) (c : Int) : Prop where
  live : ∀ t b, s.group.lookup t = some b → b < s.heap.length
  inj : ∀ t t' b, s.group.lookup t = some b → s.group.lookup t' = some b → t = t'
  adding : ∀ t b, s.adding = some (t, b) → s.group.lookup t = some b
  seen : ∀ t b, s.seen = some (t, b) → s.group.lookup t = some b ∧ t < c ∧ ∀ b', s.adding ≠ some (t, b')
  kept : ∀ t, Spec.pushedFor s.pushed t ++ s.pending t = Spec.addedFor s.added t
  counted : ∀ p ∈ s.heap, p.count = p.msgs.length
  small : ∀ t b p, s.group.lookup t = some b → s.heap[b]? = some p → p.count ≤ o.countThreshold + 1 ∧
    (s.adding ≠ some (t, b) → p.count ≤ o.countThreshold)
  bounded : ∀ q ∈ s.pushed, q.2.length ≤ o.countThreshold + 1 ∧ q.2 ≠ []

variable {α : Type} {o : BatchOpts} {size : α → Nat}

theorem BatchOpts.timeID_gt (o : BatchOpts) (ho : 0 ≤ o.duration) (now delay : Int) (hd : 0 ≤ delay) : now ≤ o.timeID now delay := by
  simp only [BatchOpts.timeID]
  split
  · omega
  · have := Int.emod_lt_of_pos (now + (o.duration + delay * 1000000) + o.epoch) (show 0 < o.duration by omega)
    omega

/-- Pushing the batch of a key and deleting the key moves what waited for it to the queue. -/
theorem Batching.Inv.pushDelete {s : Batching α} {c : Int} (h : s.Inv o c) (t : Int) (b : Nat) (hb : s.group.lookup t = some b)
    (s' : Batching α) (hs' : s' = (s.push t b).delete t) :
    (∀ t, Spec.pushedFor s'.pushed t ++ s'.pending t = Spec.addedFor s'.added t) ∧ s'.heap = s.heap ∧
      s'.group = s.group.filter (·.1 ≠ t) ∧ s'.adding = s.adding ∧ s'.seen = s.seen ∧ s'.added = s.added ∧
      (∀ q ∈ s'.pushed, q.2.length ≤ o.countThreshold + 1 ∧ q.2 ≠ []) := by
  have hlt := h.live t b hb
  have hp : s.heap[b]? = some s.heap[b] := List.getElem?_eq_getElem hlt
  generalize s.heap[b] = p at hp
  have hpend : s.pending t = p.msgs := by simp only [Batching.pending, hb, hp, Option.map_some, Option.getD_some]
  have hother : ∀ (pp : List (Int × List α)) (t' : Int), t' ≠ t →
      Batching.pending { s with pushed := pp, group := s.group.filter (·.1 ≠ t) } t' = s.pending t' := by
    intro pp t' ht
    simp only [Batching.pending, lookup_filter_ne, if_neg ht]
  have hsame : ∀ (pp : List (Int × List α)), Batching.pending { s with pushed := pp, group := s.group.filter (·.1 ≠ t) } t = [] := by
    intro pp
    simp only [Batching.pending, lookup_filter_ne, if_true]
  subst hs'
  simp only [Batching.push, hp, Batching.delete]
  split
  · next hemp =>
    refine ⟨?_, rfl, rfl, rfl, rfl, rfl, h.bounded⟩
    intro t'
    rw [← h.kept t']
    by_cases ht : t' = t
    · subst ht; rw [hsame s.pushed, hpend, hemp]
    · rw [hother s.pushed t' ht]
  · next hne =>
    refine ⟨?_, rfl, rfl, rfl, rfl, rfl, ?_⟩
    · intro t'
      rw [← h.kept t']
      by_cases ht : t' = t
      · subst ht
        rw [hsame]
        simp [Spec.pushedFor, List.filter_append, hpend]
      · rw [hother _ t' ht]
        simp [Spec.pushedFor, List.filter_append, Ne.symm ht]
    · intro q hq
      rcases List.mem_append.mp hq with hq | hq
      · exact h.bounded q hq
      · rw [List.mem_singleton] at hq
        subst hq
        refine ⟨?_, hne⟩
        rw [← h.counted p (List.mem_of_getElem? hp)]
        exact (h.small t b p hb hp).1

theorem Batching.Inv.addEnd {s : Batching α} {c : Int} (h : s.Inv o c) (t : Int) (b : Nat) (ha : s.adding = some (t, b)) :
    (s.addEnd t b).Inv o c := by
  have hb := h.adding t b ha
  obtain ⟨hk, hheap, hgroup, hadd, hseen, hadded, hbd⟩ := h.pushDelete t b hb _ rfl
  generalize hs' : (s.push t b).delete t = s' at *
  simp only [Batching.addEnd, hs']
  refine ⟨?_, ?_, by simp, ?_, ?_, ?_, ?_, hbd⟩
  · intro t' b' hl
    simp only [hgroup, lookup_filter_ne] at hl
    split at hl
    · simp at hl
    · simp only [hheap]; exact h.live t' b' hl
  · intro t1 t2 b' h1 h2
    simp only [hgroup, lookup_filter_ne] at h1 h2
    split at h1
    · simp at h1
    · split at h2
      · simp at h2
      · exact h.inj t1 t2 b' h1 h2
  · intro t' b' hs
    simp only [hseen] at hs
    obtain ⟨h1, h2, h3⟩ := h.seen t' b' hs
    have hne : t' ≠ t := by rintro rfl; exact h3 b ha
    refine ⟨?_, h2, by simp⟩
    simp only [hgroup, lookup_filter_ne, if_neg hne]
    exact h1
  · intro t'
    exact hk t'
  · simp only [hheap]; exact h.counted
  · intro t' b' p hl hp
    simp only [hgroup, lookup_filter_ne] at hl
    split at hl
    · simp at hl
    · next hne =>
      simp only [hheap] at hp
      obtain ⟨h1, h2⟩ := h.small t' b' p hl hp
      exact ⟨h1, fun _ => h2 (by rw [ha]; intro e; simp only [Option.some.injEq, Prod.mk.injEq] at e; exact hne e.1.symm)⟩

theorem Batching.Inv.flush {s : Batching α} {c : Int} (h : s.Inv o c) (t : Int) (b : Nat) (hs : s.seen = some (t, b)) (ha : s.adding = none) :
    Batching.Inv o { (s.push t b).delete t with seen := none } c := by
  obtain ⟨hb, _, _⟩ := h.seen t b hs
  obtain ⟨hk, hheap, hgroup, hadd, hseen, hadded, hbd⟩ := h.pushDelete t b hb _ rfl
  generalize hs' : (s.push t b).delete t = s' at *
  refine ⟨?_, ?_, ?_, by simp, ?_, ?_, ?_, hbd⟩
  · intro t' b' hl
    simp only [hgroup, lookup_filter_ne] at hl
    split at hl
    · simp at hl
    · simp only [hheap]; exact h.live t' b' hl
  · intro t1 t2 b' h1 h2
    simp only [hgroup, lookup_filter_ne] at h1 h2
    split at h1
    · simp at h1
    · split at h2
      · simp at h2
      · exact h.inj t1 t2 b' h1 h2
  · intro t' b' he
    simp only [hadd, ha] at he
    simp at he
  · intro t'
    exact hk t'
  · simp only [hheap]; exact h.counted
  · intro t' b' p hl hp
    simp only [hgroup, lookup_filter_ne] at hl
    split at hl
    · simp at hl
    · simp only [hheap] at hp
      obtain ⟨h1, h2⟩ := h.small t' b' p hl hp
      exact ⟨h1, fun _ => h2 (by rw [ha]; simp)⟩

/-- Looking up or making the batch of a time id. -/
theorem Batching.Inv.batchFor {s : Batching α} {c : Int} (h : s.Inv o c) (t : Int) :
    (s.batchFor t).1.Inv o c ∧ (s.batchFor t).1.group.lookup t = some (s.batchFor t).2 ∧ (s.batchFor t).1.adding = s.adding ∧
      (s.batchFor t).1.seen = s.seen := by
  simp only [Batching.batchFor]
  cases hl : s.group.lookup t with
  | some b => exact ⟨h, hl, rfl, rfl⟩
  | none =>
    have hlk : ∀ t', (s.group ++ [(t, s.heap.length)]).lookup t' = if t' = t then some s.heap.length else s.group.lookup t' :=
      fun t' => lookup_append_one s.group t t' _ hl
    refine ⟨⟨?_, ?_, ?_, ?_, ?_, ?_, ?_, h.bounded⟩, by simp only [hlk, if_true], rfl, rfl⟩
    · intro t' b' h1
      simp only [hlk] at h1
      simp only [List.length_append, List.length_singleton]
      split at h1
      · simp only [Option.some.injEq] at h1; omega
      · have := h.live t' b' h1; omega
    · intro t1 t2 b' h1 h2
      simp only [hlk] at h1 h2
      split at h1 <;> split at h2
      · next e1 e2 => rw [e1, e2]
      · simp only [Option.some.injEq] at h1; have := h.live _ _ h2; omega
      · simp only [Option.some.injEq] at h2; have := h.live _ _ h1; omega
      · exact h.inj t1 t2 b' h1 h2
    · intro t' b' ha
      have := h.adding t' b' ha
      have hne : t' ≠ t := by rintro rfl; rw [hl] at this; simp at this
      simp only [hlk, if_neg hne]; exact this
    · intro t' b' hs
      obtain ⟨h1, h2, h3⟩ := h.seen t' b' hs
      have hne : t' ≠ t := by rintro rfl; rw [hl] at h1; simp at h1
      exact ⟨by simp only [hlk, if_neg hne]; exact h1, h2, h3⟩
    · intro t'
      rw [← h.kept t']
      congr 1
      simp only [Batching.pending, hlk]
      by_cases ht : t' = t
      · subst ht
        simp only [if_true, hl]
        rw [List.getElem?_append_right (Nat.le_refl _)]
        simp
      · simp only [if_neg ht]
        cases hb : s.group.lookup t' with
        | none => rfl
        | some b =>
          simp only
          rw [List.getElem?_append_left (h.live t' b hb)]
    · intro p hp
      rcases List.mem_append.mp hp with hp | hp
      · exact h.counted p hp
      · rw [List.mem_singleton] at hp; subst hp; rfl
    · intro t' b' p h1 hp
      simp only [hlk] at h1
      split at h1
      · simp only [Option.some.injEq] at h1
        subst h1
        simp only at hp
        rw [List.getElem?_append_right (Nat.le_refl _)] at hp
        simp only [Nat.sub_self, List.getElem?_cons_zero, Option.some.injEq] at hp
        subst hp
        exact ⟨Nat.zero_le _, fun _ => Nat.zero_le _⟩
      · have hlt := h.live t' b' h1
        simp only at hp
        rw [List.getElem?_append_left hlt] at hp
        exact h.small t' b' p h1 hp

theorem Batching.Inv.later {s : Batching α} {c c' : Int} (h : s.Inv o c) (hc : c ≤ c') : s.Inv o c' :=
  ⟨h.live, h.inj, h.adding, fun t b hs => by
    obtain ⟨h1, h2, h3⟩ := h.seen t b hs
    exact ⟨h1, by omega, h3⟩, h.kept, h.counted, h.small, h.bounded⟩

theorem Batching.Inv.addStart {s : Batching α} {c : Int} (h : s.Inv o c) (t : Int) (m : α) (ha : s.adding = none) (ht : c ≤ t) :
    (s.addStart o size t m).Inv o c := by
  obtain ⟨h, hb, ha', hs'⟩ := h.batchFor t
  simp only [Batching.addStart]
  generalize (s.batchFor t).1 = u at *
  generalize (s.batchFor t).2 = b at *
  rw [ha] at ha'
  have hlt := h.live t b hb
  have hp : u.heap[b]? = some u.heap[b] := List.getElem?_eq_getElem hlt
  generalize u.heap[b] = p at hp
  have hheap : ∀ b', (u.heap.modify b fun p => (⟨p.count + 1, p.size + size m, p.msgs ++ [m]⟩ : PubBatch α))[b']? =
      if b' = b then some ⟨p.count + 1, p.size + size m, p.msgs ++ [m]⟩ else u.heap[b']? := by
    intro b'
    rw [List.getElem?_modify]
    by_cases hbb : b = b'
    · subst hbb; simp [hp]
    · rw [if_neg (Ne.symm hbb)]; simp [hbb]
  have hbase : ∀ ad, (ad = none ∨ ad = some (t, b)) → (ad = none → p.count + 1 ≤ o.countThreshold) →
      Batching.Inv o ({ u with
        heap := u.heap.modify b fun p => ⟨p.count + 1, p.size + size m, p.msgs ++ [m]⟩
        added := u.added ++ [(t, m)]
        adding := ad } : Batching α) c := by
    intro ad hcase hsmall
    refine ⟨?_, h.inj, ?_, ?_, ?_, ?_, ?_, h.bounded⟩
    · intro t' b' hl; simp only [List.length_modify]; exact h.live t' b' hl
    · intro t' b' he
      simp only at he
      rcases hcase with e | e
      · rw [e] at he; simp at he
      · rw [e] at he
        simp only [Option.some.injEq, Prod.mk.injEq] at he
        obtain ⟨rfl, rfl⟩ := he
        exact hb
    · intro t' b' hs
      obtain ⟨h1, h2, h3⟩ := h.seen t' b' hs
      refine ⟨h1, h2, fun b'' he => ?_⟩
      simp only at he
      rcases hcase with e | e
      · rw [e] at he; simp at he
      · rw [e] at he
        simp only [Option.some.injEq, Prod.mk.injEq] at he
        omega
    · intro t'
      have hk := h.kept t'
      simp only [Batching.pending, hheap] at hk ⊢
      simp only [Spec.addedFor, List.filter_append, List.map_append] at hk ⊢
      rw [← hk]
      by_cases htt : t' = t
      · subst htt
        simp only [hb, hp, if_true, Option.map_some, Option.getD_some]
        simp
      · cases hl : u.group.lookup t' with
        | none => simp [Ne.symm htt]
        | some b' =>
          have : b' ≠ b := by rintro rfl; exact htt (h.inj t' t b' hl hb)
          simp [Ne.symm htt, this]
    · intro q hq
      obtain ⟨k, hk⟩ := List.mem_iff_getElem?.mp hq
      simp only [hheap] at hk
      split at hk
      · simp only [Option.some.injEq] at hk
        subst hk
        simp [h.counted p (List.mem_of_getElem? hp)]
      · exact h.counted q (List.mem_of_getElem? hk)
    · intro t' b' q hl hq
      simp only [hheap] at hq
      split at hq
      · next hbb =>
        subst hbb
        simp only [Option.some.injEq] at hq
        subst hq
        have htt : t' = t := h.inj t' t b' hl hb
        subst htt
        have h2 := (h.small t' b' p hb hp).2 (by rw [ha']; simp)
        refine ⟨by simp only; omega, fun hne => ?_⟩
        simp only at hne ⊢
        rcases hcase with e | e
        · exact hsmall e
        · exact absurd e hne
      · have := h.small t' b' q hl hq
        exact ⟨this.1, fun _ => this.2 (by rw [ha']; simp)⟩
  have hhb := hheap b
  rw [if_pos rfl] at hhb
  simp only [hhb]
  split
  · exact hbase _ (Or.inr rfl) (by simp)
  · next hno =>
    push Not at hno
    have := hbase u.adding (Or.inl ha') (fun _ => by omega)
    exact this

theorem Batching.step_inv (ho : 0 ≤ o.duration) (s : Batching α) (c : Int) (h : s.Inv o c) (e : BatchStep α)
    (he : match e with
      | .add now delay _ => c ≤ now ∧ 0 ≤ delay
      | .look now _ => c ≤ now ∧ s.adding = none
      | _ => True) : (s.step o size e).Inv o (e.clock c) := by
  cases e with
  | add now delay m =>
    simp only at he
    simp only [Batching.step, BatchStep.clock]
    split
    · next ha => exact (h.later he.1).addStart _ m ha (o.timeID_gt ho now delay he.2)
    · exact h.later he.1
  | addEnd =>
    simp only [Batching.step, BatchStep.clock]
    split
    · next t b ha => exact h.addEnd t b ha
    · exact h
  | look now t =>
    simp only at he
    simp only [Batching.step, BatchStep.clock]
    split
    · next hc =>
      split
      · next b hl =>
        have h := h.later he.1
        refine ⟨h.live, h.inj, h.adding, ?_, h.kept, h.counted, h.small, h.bounded⟩
        intro t' b' hs
        simp only [Option.some.injEq, Prod.mk.injEq] at hs
        obtain ⟨rfl, rfl⟩ := hs
        exact ⟨hl, hc.2, fun b' => by rw [he.2]; simp⟩
      · exact h.later he.1
    · exact h.later he.1
  | flush =>
    simp only [Batching.step, BatchStep.clock]
    split
    · next t b hs =>
      split
      · next ha => exact h.flush t b hs ha
      · exact h
    · exact h

theorem Batching.run_inv (ho : 0 ≤ o.duration) (es : List (BatchStep α)) (s : Batching α) (c : Int) (h : s.Inv o c)
    (hc : s.Calm o size c es) : ∃ c', (s.run o size es).Inv o c' := by
  induction es generalizing s c with
  | nil => exact ⟨c, h⟩
  | cons e es ih => exact ih (s.step o size e) (e.clock c) (s.step_inv ho c h e hc.1) hc.2

theorem Batching.new_inv (t c : Int) : (Batching.new t : Batching α).Inv o c := by
  have hl : ∀ t' b, [(t, 0)].lookup t' = some b → t' = t ∧ b = 0 := by
    intro t' b h
    by_cases ht : t' = t
    · subst ht; simp at h; exact ⟨rfl, h.symm⟩
    · rw [List.lookup_cons, beq_false_of_ne ht] at h; simp at h
  refine ⟨?_, ?_, by simp [Batching.new], by simp [Batching.new], ?_, ?_, ?_, by simp [Batching.new]⟩
  · intro t' b h; simp [Batching.new, (hl t' b h).2]
  · intro t1 t2 b h1 h2; rw [(hl t1 b h1).1, (hl t2 b h2).1]
  · intro t'
    simp only [Batching.new, Spec.pushedFor, Spec.addedFor, Batching.pending]
    by_cases ht : t' = t
    · subst ht; simp
    · rw [List.lookup_cons, beq_false_of_ne ht]; simp
  · simp [Batching.new]
  · intro t' b p h hp
    rw [(hl t' b h).2] at hp
    simp [Batching.new] at hp
    subst hp
    exact ⟨Nat.zero_le _, fun _ => Nat.zero_le _⟩

/-- C58 (partial: for calm schedules, and up to the queue): every message added for a time id is in exactly one
enqueued batch of that time id or still waits for it, and the batches of one time id carry its messages in the
order they were added. -/
theorem C58_once_partial (o : BatchOpts) (ho : 0 ≤ o.duration) (size : α → Nat) (t0 c : Int) (es : List (BatchStep α))
    (hc : (Batching.new t0 : Batching α).Calm o size c es) (t : Int) :
    let s := (Batching.new t0 : Batching α).run o size es
    Spec.pushedFor s.pushed t ++ s.pending t = Spec.addedFor s.added t := by
  obtain ⟨c', h⟩ := Batching.run_inv ho es (Batching.new t0) c (Batching.new_inv t0 c) hc
  exact h.kept t

/-- C58: an enqueued batch is not empty and has at most one message more than the threshold. -/
theorem C58_batch_size_partial (o : BatchOpts) (ho : 0 ≤ o.duration) (size : α → Nat) (t0 c : Int) (es : List (BatchStep α))
    (hc : (Batching.new t0 : Batching α).Calm o size c es) :
    ∀ q ∈ ((Batching.new t0 : Batching α).run o size es).pushed, q.2.length ≤ o.countThreshold + 1 ∧ q.2 ≠ [] := by
  obtain ⟨c', h⟩ := Batching.run_inv ho es (Batching.new t0) c (Batching.new_inv t0 c) hc
  exact h.bounded

/-- The messages a schedule asks to add, with their time ids, as long as `add` is never called while another
`add` is blocked. -/
example :
    let o : BatchOpts := ⟨100, 2, 1000, 0⟩
    let es : List (BatchStep Nat) := [.add 5 0 1, .add 6 0 2, .look 120 100, .add 130 0 3, .flush, .add 140 0 4, .add 150 0 5, .addEnd]
    (Batching.new 100 : Batching Nat).Calm o (fun _ => 1) 0 es ∧
    ((Batching.new 100 : Batching Nat).run o (fun _ => 1) es).pushed = [(100, [1, 2]), (200, [3, 4, 5])] := by
  refine ⟨?_, by decide +kernel⟩
  simp only [Batching.Calm, BatchStep.clock]
  decide +kernel

/-- C58 (violated): when the publish loop reads a batch that a blocked `add` is about to push, the same batch is
enqueued twice. -/
theorem C58_twice_violated :
    ∃ (o : BatchOpts) (es : List (BatchStep Nat)),
      ((Batching.new 100 : Batching Nat).run o (fun _ => 1) es).added = [(100, 7)] ∧
      ((Batching.new 100 : Batching Nat).run o (fun _ => 1) es).pushed = [(100, [7]), (100, [7])] :=
  ⟨⟨100, 0, 1000, 0⟩, [.add 5 0 7, .look 120 100, .addEnd, .flush], by decide +kernel⟩

/-- C58 (violated): messages with different delays leave in the order of the map, not of their time ids. -/
theorem C58_order_violated :
    ∃ (o : BatchOpts) (es : List (BatchStep Nat)),
      ((Batching.new 100 : Batching Nat).run o (fun _ => 1) es).added = [(100, 1), (200, 2)] ∧
      ((Batching.new 100 : Batching Nat).run o (fun _ => 1) es).pushed = [(200, [2]), (100, [1])] :=
  ⟨⟨100, 9, 1000, 0⟩, [.add 5 0 1, .add 105 0 2, .look 250 200, .flush, .look 250 100, .flush], by decide +kernel⟩

/-- C58 (violated): at `close` the publish loop makes one last pass over the time ids that have passed; a message
added just before is never enqueued, whatever the pass does. -/
theorem C58_close_loses_violated :
    ∃ (o : BatchOpts), ∀ looks : List Int,
      let s := (Batching.new 100 : Batching Nat).run o (fun _ => 1) (.add 5 0 1 :: looks.flatMap fun t => [.look 6 t, .flush])
      s.added = [(100, 1)] ∧ Spec.pushedFor s.pushed 100 = [] := by
  refine ⟨⟨100, 9, 1000, 0⟩, fun looks => ?_⟩
  have hstart : (Batching.new 100 : Batching Nat).step ⟨100, 9, 1000, 0⟩ (fun _ => 1) (.add 5 0 1) =
      ⟨[⟨1, 1, [1]⟩], [(100, 0)], none, none, [], [(100, 1)]⟩ := by decide +kernel
  simp only [Batching.run, List.foldl_cons, hstart]
  suffices hs : (looks.flatMap fun t => [BatchStep.look 6 t, BatchStep.flush]).foldl
      (fun s e => Batching.step ⟨100, 9, 1000, 0⟩ (fun _ => 1) s e) (⟨[⟨1, 1, [1]⟩], [(100, 0)], none, none, [], [(100, 1)]⟩ : Batching Nat) =
      ⟨[⟨1, 1, [1]⟩], [(100, 0)], none, none, [], [(100, 1)]⟩ by
    rw [hs]; exact ⟨rfl, rfl⟩
  induction looks with
  | nil => rfl
  | cons t looks ih =>
    rw [List.flatMap_cons, List.foldl_append]
    simp only [List.foldl_cons, List.foldl_nil]
    have : Batching.step ⟨100, 9, 1000, 0⟩ (fun _ => 1) (⟨[⟨1, 1, [1]⟩], [(100, 0)], none, none, [], [(100, 1)]⟩ : Batching Nat) (.look 6 t) =
        ⟨[⟨1, 1, [1]⟩], [(100, 0)], none, none, [], [(100, 1)]⟩ := by
      simp only [Batching.step]
      split
      · next hc =>
        rw [List.lookup_cons, beq_false_of_ne (by omega)]
        rfl
      · rfl
    rw [this]
    exact ih

/-- C58 (partial): while the publisher keeps the `send` channel from filling up and the client accepts every
batch, the client gets the enqueued batches in order, without repeats. -/
theorem C58_delivery_partial {β : Type} (q : BatchQueues β) (es : List QueueStep)
    (hroom : ∀ k, (q.run (es.take k)).send.length < poolCapacity) (hacc : ∀ e ∈ es, e ≠ .publish false) :
    (q.run es).published ++ (q.run es).send ++ (q.run es).queue = q.published ++ q.send ++ q.queue := by
  induction es generalizing q with
  | nil => rfl
  | cons e es ih =>
    have h := ih (q.step e) (fun k => hroom (k + 1)) (fun e' he' => hacc e' (List.mem_cons_of_mem _ he'))
    change ((q.step e).run es).published ++ ((q.step e).run es).send ++ ((q.step e).run es).queue = _
    rw [h]
    have h0 : q.send.length < poolCapacity := hroom 0
    cases e with
    | dispatch =>
      simp only [BatchQueues.step]
      cases hq : q.queue with
      | nil => simp [hq]
      | cons b rest => simp [h0]
    | publish a =>
      cases a with
      | false => exact absurd rfl (hacc _ List.mem_cons_self)
      | true =>
        simp only [BatchQueues.step]
        cases hs : q.send with
        | nil => simp [hs]
        | cons b rest => simp

example : ((({ queue := [1, 2, 3] } : BatchQueues Nat)).run [.dispatch, .publish true, .dispatch, .dispatch, .publish true]).published = [1, 2] := by
  decide +kernel

/-- C58 (violated): when the `send` channel is full the dispatcher drops the batch. -/
theorem C58_full_drops_violated {β : Type} (q : BatchQueues β) (b : β) (rest : List β) (hq : q.queue = b :: rest)
    (hfull : q.send.length = poolCapacity) :
    (q.step .dispatch).queue = rest ∧ (q.step .dispatch).send = q.send ∧ (q.step .dispatch).published = q.published := by
  simp [BatchQueues.step, hq, hfull]

example : (({ queue := List.range 28 } : BatchQueues Nat).run (List.replicate 28 .dispatch)).send = List.range 27 := by decide +kernel

end Verif
