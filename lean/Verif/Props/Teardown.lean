import Verif.Model.Teardown

/-!
# C111: a connection that ends is taken down once and completely
-/

namespace Verif

open Tear

theorem tear_cons (e : Tear.Step) (es : List Tear.Step) (s s' : Tear.State) (h : Tear.run (e :: es) s = .ok s') :
    ∃ t, Tear.step e s = .ok t ∧ Tear.run es t = .ok s' := by
  rw [Tear.run] at h
  split at h
  · rename_i t ht
    exact ⟨t, ht, h⟩
  · rename_i o ho
    exact absurd h (ho s')

theorem tear_append (es fs : List Tear.Step) (s t : Tear.State) (h : Tear.run es s = .ok t) : Tear.run (es ++ fs) s = Tear.run fs t := by
  induction es generalizing s with
  | nil => cases h; rfl
  | cons e es ih =>
    obtain ⟨u, hu, h'⟩ := tear_cons _ _ _ _ h
    rw [List.cons_append, Tear.run, hu]
    exact ih u h'

theorem put_ok {s k s' : Tear.State} (h : s.put k = .ok s') : s.body < 4 ∧ s.buf < sendSize ∧ s' = { k with buf := s.buf + 1 } := by
  simp only [Tear.State.put] at h
  split at h
  · cases h
  · split at h
    · cases h; exact ⟨by omega, by assumption, rfl⟩
    · cases h

structure TearInv (s : Tear.State) : Prop where
  bound : s.body ≤ 5
  ended : 3 ≤ s.body → s.reader = .ended ∧ s.writer = false
  noticed : s.reader = .ended ∨ s.writer = false → 0 < s.callers + s.entering ∨ 1 ≤ s.body
  size : s.buf ≤ sendSize

/-- One step keeps the invariant. -/
theorem tear_step {e : Tear.Step} {s s' : Tear.State} (i : TearInv s) (h : Tear.step e s = .ok s') : TearInv s' := by
  obtain ⟨hb, he, hn, hz⟩ := i
  cases e <;> simp only [Tear.step] at h <;> split at h <;> try cases h
  case loop.isTrue hr =>
    refine ⟨hb, fun h3 => ?_, fun h => ?_, hz⟩
    · have := (he h3).1
      rw [hr] at this; cases this
    · simp only at h
      split at h
      · right; simp only; omega
      · rcases h with h | h
        · cases h
        · exact hn (Or.inr h)
  case quiet.isTrue hr =>
    refine ⟨hb, fun h3 => ?_, fun h => ?_, hz⟩
    · have := (he h3).1
      rw [hr] at this; cases this
    · rcases h with h | h
      · cases h
      · exact hn (Or.inr h)
  case request.isTrue hr =>
    refine ⟨hb, fun h3 => ?_, fun h => ?_, hz⟩
    · have := (he h3).1
      rw [hr] at this; cases this
    · rcases h with h | h
      · cases h
      · exact hn (Or.inr h)
  case bye.isTrue hr =>
    refine ⟨hb, fun h3 => ?_, fun h => ?_, hz⟩
    · have := (he h3).1
      rw [hr] at this; cases this
    · left; simp only; omega
  case readErr.isTrue hr =>
    refine ⟨hb, fun h3 => ?_, fun h => ?_, hz⟩
    · have := (he h3).1
      rw [hr] at this; cases this
    · left; simp only; omega
  case answer.isTrue hr =>
    obtain ⟨p1, p2, rfl⟩ := put_ok h
    refine ⟨hb, fun h3 => ?_, fun h => ?_, p2⟩
    · have := (he h3).1
      rw [hr] at this; cases this
    · rcases h with h | h
      · cases h
      · exact hn (Or.inr h)
  case write.isTrue hr => exact ⟨hb, he, hn, by simp only; omega⟩
  case writeErr.isTrue hr =>
    exact ⟨hb, fun h3 => ⟨(he h3).1, rfl⟩, fun _ => Or.inl (by simp only; omega), by simp only; omega⟩
  case writerStop.isTrue hr => exact ⟨hb, fun h3 => ⟨(he h3).1, rfl⟩, fun _ => Or.inr (by simp only; omega), hz⟩
  case find.isTrue hr => exact ⟨hb, he, hn, hz⟩
  case notify.isTrue hr =>
    obtain ⟨p1, p2, rfl⟩ := put_ok h
    exact ⟨hb, he, hn, p2⟩
  case batch.isTrue hr =>
    split at h
    · cases h
    · cases h; exact ⟨hb, he, hn, hz⟩
  case check.isTrue hr =>
    refine ⟨hb, he, fun h => ?_, hz⟩
    rcases hn h with h | h
    · by_cases h0 : s.body = 0
      · left; simp only [h0, if_true]; omega
      · right; simp only; omega
    · right; exact h
  case cas.isTrue hr =>
    refine ⟨by simp only; split <;> omega, fun h3 => ?_, fun h => ?_, hz⟩
    · simp only at h3
      split at h3
      · omega
      · exact he h3
    · right; simp only; split <;> omega
  case signal.isTrue hr => exact ⟨by simp, fun h3 => by simp at h3, fun _ => Or.inr (by simp), hz⟩
  case waited.isTrue hr => exact ⟨by simp, fun _ => hr.2, fun _ => Or.inr (by simp), hz⟩
  case closeSend.isTrue hr => exact ⟨by simp, fun _ => he (by omega), fun _ => Or.inr (by simp), hz⟩
  case finish.isTrue hr => exact ⟨by simp, fun _ => he (by omega), fun _ => Or.inr (by simp), hz⟩

theorem tear_run {es : List Tear.Step} {s s' : Tear.State} (i : TearInv s) (h : Tear.run es s = .ok s') : TearInv s' := by
  induction es generalizing s with
  | nil => cases h; exact i
  | cons e es ih =>
    obtain ⟨t, ht, h'⟩ := tear_cons _ _ _ _ h
    exact ih (tear_step i ht) h'

theorem tear_start : TearInv Tear.start := ⟨by decide, by decide, by decide, by decide⟩

/-- C111: however often the end of a connection is noticed, it is taken down once: goroutines are signalled once and the channel is closed once. -/
theorem C111_once (es : List Tear.Step) (s : Tear.State) (h : Tear.run es Tear.start = .ok s) :
    es.count .signal ≤ 1 ∧ es.count .waited ≤ 1 ∧ es.count .closeSend ≤ 1 ∧ es.count .finish ≤ 1 := by
  have key : ∀ (es : List Tear.Step) (s s' : Tear.State), Tear.run es s = .ok s' →
      es.count .signal + (if 2 ≤ s.body then 1 else 0) = (if 2 ≤ s'.body then 1 else 0) ∧
      es.count .waited + (if 3 ≤ s.body then 1 else 0) = (if 3 ≤ s'.body then 1 else 0) ∧
      es.count .closeSend + (if 4 ≤ s.body then 1 else 0) = (if 4 ≤ s'.body then 1 else 0) ∧
      es.count .finish + (if 5 ≤ s.body then 1 else 0) = (if 5 ≤ s'.body then 1 else 0) := by
    intro es
    induction es with
    | nil => intro s s' h; cases h; simp
    | cons e es ih =>
      intro s s' h
      obtain ⟨t, ht, h'⟩ := tear_cons _ _ _ _ h
      obtain ⟨i1, i2, i3, i4⟩ := ih t s' h'
      rw [← i1, ← i2, ← i3, ← i4]
      simp only [List.count_cons]
      cases e <;> simp only [Tear.step] at ht <;> split at ht
      case answer.isTrue => obtain ⟨-, -, rfl⟩ := put_ok ht; simp
      case notify.isTrue => obtain ⟨-, -, rfl⟩ := put_ok ht; simp
      case batch.isTrue =>
        split at ht
        · cases ht
        · cases ht; simp
      case cas.isTrue =>
        cases ht
        by_cases h0 : s.body = 0 <;> simp [h0]
      case signal.isTrue hb => cases ht; simp [hb]
      case waited.isTrue hb => cases ht; simp [hb]
      case closeSend.isTrue hb => cases ht; simp [hb]
      case finish.isTrue hb => cases ht; simp [hb]
      all_goals (cases ht; try simp)
  obtain ⟨k1, k2, k3, k4⟩ := key es _ _ h
  refine ⟨?_, ?_, ?_, ?_⟩
  · have : (if 2 ≤ s.body then 1 else 0) ≤ 1 := by split <;> omega
    omega
  · have : (if 3 ≤ s.body then 1 else 0) ≤ 1 := by split <;> omega
    omega
  · have : (if 4 ≤ s.body then 1 else 0) ≤ 1 := by split <;> omega
    omega
  · have : (if 5 ≤ s.body then 1 else 0) ≤ 1 := by split <;> omega
    omega

/-- C111: when one of its goroutines is gone, somebody is about to take the connection down or does so already. -/
theorem C111_noticed (es : List Tear.Step) (s : Tear.State) (h : Tear.run es Tear.start = .ok s) (he : s.reader = .ended ∨ s.writer = false) :
    0 < s.callers + s.entering ∨ 1 ≤ s.body := (tear_run tear_start h).noticed he

/-- C111: subscriptions are deleted and the channel is closed only after both goroutines of the connection are gone. -/
theorem C111_after_both (es : List Tear.Step) (s : Tear.State) (h : Tear.run es Tear.start = .ok s) (hb : 3 ≤ s.body) :
    s.reader = .ended ∧ s.writer = false := (tear_run tear_start h).ended hb

/-- C111, what holds: the goroutines of a connection and those that take it down never send on its closed channel. -/
theorem C111_crash_partial (es : List Tear.Step) (s : Tear.State) (h : Tear.run es Tear.start = .ok s) (e : Tear.Step) (he : e ≠ .notify)
    (hb : e ≠ .batch) : Tear.step e s ≠ .panic := by
  intro hp
  have i := tear_run tear_start h
  cases e <;> simp only [Tear.step] at hp <;> split at hp <;> try cases hp
  case answer.isTrue hr =>
    simp only [Tear.State.put] at hp
    split at hp
    · have := (i.ended (by omega)).1
      rw [hr] at this; cases this
    · split at hp <;> cases hp
  case notify.isTrue hr => exact he rfl
  case batch.isTrue hr => exact hb rfl

/-- C111 is false: a publisher that has found the connection sends after the channel is closed, and the server ends. -/
theorem C111_crash_violated : ∃ es, Tear.run es Tear.start = .panic :=
  ⟨[.find, .loop, .readErr, .check, .cas, .signal, .writerStop, .waited, .closeSend, .notify], by decide +kernel⟩

/-- The publisher need not be late: it waits for a place in the channel of a subscriber that is slow, and the subscriber goes. -/
theorem C111_crash_waiting_violated : ∃ es s, Tear.run es Tear.start = .ok s ∧ s.body = 0 ∧ Tear.step .notify s = .blocked ∧
    ∃ fs, Tear.run fs s = .panic ∧ .notify ∉ fs.dropLast ∧ .find ∉ fs :=
  ⟨[.find, .find, .notify], ⟨.idle, true, 1, 0, 0, 0, 1⟩, by decide +kernel, rfl, by decide +kernel,
    [.loop, .readErr, .check, .cas, .signal, .writerStop, .waited, .closeSend, .notify], by decide +kernel, by decide +kernel, by decide +kernel⟩

/-- The same with a message that fills a batch, on the queue of the batches. -/
theorem C111_crash_batch_violated : ∃ es, Tear.run es Tear.start = .panic ∧ .notify ∉ es :=
  ⟨[.find, .loop, .readErr, .check, .cas, .signal, .writerStop, .waited, .closeSend, .finish, .batch], by decide +kernel, by decide +kernel⟩

/-- A connection in which `readLoop` waits for a place in a channel that nobody reads. -/
def Spec.stuck (s : Tear.State) : Prop := s.body = 2 ∧ s.reader = .sending ∧ s.writer = false ∧ s.buf = sendSize

theorem tear_stuck_step {e : Tear.Step} {s s' : Tear.State} (h : Spec.stuck s) (hs : Tear.step e s = .ok s') : Spec.stuck s' := by
  obtain ⟨h1, h2, h3, h4⟩ := h
  cases e <;> simp only [Tear.step, h1, h2, h3] at hs <;> split at hs <;> try cases hs
  all_goals first
    | (rename_i hx; simp at hx; done)
    | (obtain ⟨-, hlt, -⟩ := put_ok hs; omega)
    | exact ⟨by simp, rfl, rfl, h4⟩
    | (split at hs <;> cases hs; exact ⟨by simp, rfl, rfl, h4⟩)

/-- C111 is false: a client that says goodbye and goes on asking can make its connection stay for ever: its subscriptions are not deleted, its socket is
not closed, whatever happens later. -/
theorem C111_stuck_violated : ∃ es s, Tear.run es Tear.start = .ok s ∧ s.holders = 0 ∧
    ∀ fs s', Tear.run fs s = .ok s' → s'.body = 2 := by
  refine ⟨[.loop, .bye, .loop, .request, .answer, .loop, .request, .check, .cas, .signal, .writerStop], ⟨.sending, false, 1, 2, 0, 0, 0⟩,
    by decide +kernel, rfl, ?_⟩
  intro fs s' h
  have : ∀ (fs : List Tear.Step) (s : Tear.State), Spec.stuck s → ∀ s', Tear.run fs s = .ok s' → Spec.stuck s' := by
    intro fs
    induction fs with
    | nil => intro s hs s' h; cases h; exact hs
    | cons e es ih =>
      intro s hs s' h
      obtain ⟨t, ht, h'⟩ := tear_cons _ _ _ _ h
      exact ih t (tear_stuck_step hs ht) s' h'
  exact (this fs _ ⟨rfl, rfl, rfl, rfl⟩ s' h).1

/-- C111, what holds: this is the only way for it to stay. From every other state in which the end has been noticed the connection can be taken down without
any publisher. -/
theorem C111_ends_partial (es : List Tear.Step) (s : Tear.State) (h : Tear.run es Tear.start = .ok s)
    (hn : 0 < s.callers + s.entering ∨ 1 ≤ s.body) (hs : ¬(s.reader = .sending ∧ s.writer = false ∧ s.buf = sendSize)) :
    ∃ fs s', Tear.run fs s = .ok s' ∧ s'.body = 5 ∧ .notify ∉ fs := by
  have i := tear_run tear_start h
  have tail : ∀ t : Tear.State, t.body = 2 → t.reader = .ended → t.writer = false →
      ∃ fs s', Tear.run fs t = .ok s' ∧ s'.body = 5 ∧ Tear.Step.notify ∉ fs := by
    intro t h1 h2 h3
    exact ⟨[.waited, .closeSend, .finish], { t with body := 5 }, by simp [Tear.run, Tear.step, h1, h2, h3], rfl, by simp⟩
  have glue : ∀ (s t : Tear.State) (as : List Tear.Step), Tear.run as s = .ok t → Tear.Step.notify ∉ as →
      (∃ fs s', Tear.run fs t = .ok s' ∧ s'.body = 5 ∧ Tear.Step.notify ∉ fs) → ∃ fs s', Tear.run fs s = .ok s' ∧ s'.body = 5 ∧ Tear.Step.notify ∉ fs := by
    rintro s t as ha hna ⟨fs, s', hf, hb, hnf⟩
    exact ⟨as ++ fs, s', by rw [tear_append _ _ _ _ ha]; exact hf, hb, by simp [hna, hnf]⟩
  have stopWriter : ∀ t : Tear.State, t.body = 2 → t.reader = .ended →
      ∃ fs s', Tear.run fs t = .ok s' ∧ s'.body = 5 ∧ Tear.Step.notify ∉ fs := by
    intro t h1 h2
    cases h3 : t.writer with
    | false => exact tail t h1 h2 h3
    | true =>
      refine glue t { t with writer := false } [.writerStop] (by simp [Tear.run, Tear.step, h1, h3]) (by simp) ?_
      exact tail _ h1 h2 rfl
  have idle : ∀ t : Tear.State, t.body = 2 → t.reader = .idle → ∃ fs s', Tear.run fs t = .ok s' ∧ s'.body = 5 ∧ Tear.Step.notify ∉ fs := by
    intro t h1 h2
    refine glue t { t with reader := .ended } [.loop] (by simp [Tear.run, Tear.step, h1, h2]) (by simp) ?_
    exact stopWriter _ h1 rfl
  have sent : ∀ t : Tear.State, t.body = 2 → t.reader = .sending → t.buf < sendSize →
      ∃ fs s', Tear.run fs t = .ok s' ∧ s'.body = 5 ∧ Tear.Step.notify ∉ fs := by
    intro t h1 h2 h3
    refine glue t { t with reader := .idle, buf := t.buf + 1 } [.answer] (by simp [Tear.run, Tear.step, Tear.State.put, h1, h2, h3]) (by simp) ?_
    exact idle _ h1 rfl
  have two : ∀ t : Tear.State, t.body = 2 → t.buf ≤ sendSize → ¬(t.reader = .sending ∧ t.writer = false ∧ t.buf = sendSize) →
      ∃ fs s', Tear.run fs t = .ok s' ∧ s'.body = 5 ∧ Tear.Step.notify ∉ fs := by
    intro t h1 hz hns
    cases h2 : t.reader with
    | ended => exact stopWriter t h1 h2
    | idle => exact idle t h1 h2
    | reading =>
      refine glue t { t with reader := .idle } [.quiet] (by simp [Tear.run, Tear.step, h2]) (by simp) ?_
      exact idle _ h1 rfl
    | sending =>
      by_cases hb : t.buf < sendSize
      · exact sent t h1 h2 hb
      · have hb' : t.buf = sendSize := by omega
        have hw : t.writer = true := by
          cases hw : t.writer with
          | true => rfl
          | false => exact absurd ⟨h2, hw, hb'⟩ hns
        refine glue t { t with buf := t.buf - 1 } [.write] (by simp [Tear.run, Tear.step, hw, hb', sendSize]) (by simp) ?_
        exact sent _ h1 h2 (by simp only [hb', sendSize]; decide)
  have one : ∀ t : Tear.State, t.body = 1 → t.buf ≤ sendSize → ¬(t.reader = .sending ∧ t.writer = false ∧ t.buf = sendSize) →
      ∃ fs s', Tear.run fs t = .ok s' ∧ s'.body = 5 ∧ Tear.Step.notify ∉ fs := by
    intro t h1 hz hns
    refine glue t { t with body := 2 } [.signal] (by simp [Tear.run, Tear.step, h1]) (by simp) ?_
    exact two _ rfl hz hns
  have hb := i.bound
  by_cases h0 : s.body = 0
  · by_cases he : 0 < s.entering
    · refine glue s { s with entering := s.entering - 1, body := 1 } [.cas] (by simp [Tear.run, Tear.step, he, h0]) (by simp) ?_
      exact one _ rfl i.size hs
    · have hc : 0 < s.callers := by omega
      refine glue s { s with callers := s.callers - 1, body := 1 } [.check, .cas] ?_ (by simp) ?_
      · have : s.entering = 0 := by omega
        simp [Tear.run, Tear.step, hc, h0, this]
      · exact one _ rfl i.size hs
  · by_cases h1 : s.body = 1
    · exact one s h1 i.size hs
    by_cases h2 : s.body = 2
    · exact two s h2 i.size hs
    by_cases h3 : s.body = 3
    · exact ⟨[.closeSend, .finish], { s with body := 5 }, by simp [Tear.run, Tear.step, h3], rfl, by simp⟩
    by_cases h4 : s.body = 4
    · exact ⟨[.finish], { s with body := 5 }, by simp [Tear.run, Tear.step, h4], rfl, by simp⟩
    · exact ⟨[], s, rfl, by omega, by simp⟩

/-- A connection with an answered request that is closed twice at the same time and taken down. -/
example : Tear.run [.loop, .request, .answer, .write, .loop, .bye, .loop, .readErr, .check, .check, .cas, .cas, .signal, .writerStop, .waited, .closeSend,
    .finish] Tear.start = .ok ⟨.ended, false, 0, 5, 0, 0, 0⟩ := by decide +kernel

end Verif
