import Verif.Model.Link

/-!
# C108: the connection to another node of the cluster is kept up
-/

namespace Verif

structure LinkInv (s : Link) : Prop where
  one : s.waiting + s.dialing + s.dialed + s.asleep = if s.connected = true ∨ s.stopped = true then 0 else 1
  flag : s.reconnecting = true ↔ s.dialing + s.dialed + s.asleep = 1
  ready : s.connected = true ∨ 0 < s.dialed → s.endpoint = some (s.made - 1) ∧ 0 < s.made
  alive : s.connected = true → s.stopped = false
  late : ∀ e, s.endpoint = some e → e + 1 = s.made
  used : ∀ c ∈ s.calls ++ s.failed, c < s.made
  order : ∀ p ∈ s.closed, p.1 ≤ p.2 ∧ p.2 < s.made

theorem linkInv_start : LinkInv Link.start where
  one := by decide
  flag := by decide
  ready := by decide
  alive := by decide
  late := by intro e h; simp [Link.start] at h
  used := by intro c h; simp [Link.start] at h
  order := by intro p h; simp [Link.start] at h

theorem linkInv_step {s s' : Link} (I : LinkInv s) (o : LinkOp) (h : s.step o = some s') : LinkInv s' := by
  obtain ⟨one, flag, ready, alive, late, used, order⟩ := I
  cases o with
  | enter =>
    simp only [Link.step] at h
    split at h
    · simp at h
    · split at h
      · next h1 h2 =>
        rw [flag] at h2
        split at one <;> omega
      · next h1 h2 =>
        cases h
        have hz : s.dialing = 0 ∧ s.dialed = 0 ∧ s.asleep = 0 := by split at one <;> omega
        refine ⟨?_, ?_, ready, alive, late, used, order⟩
        · simp only; split at one
          · omega
          · next hc => rw [if_neg hc]; omega
        · simp only [true_iff]; omega
  | dialOk =>
    simp only [Link.step] at h
    split at h
    · simp at h
    · next h1 =>
      cases h
      have hc : ¬(s.connected = true ∨ s.stopped = true) := by intro hc; rw [if_pos hc] at one; omega
      rw [if_neg hc] at one
      refine ⟨?_, ?_, ?_, alive, ?_, ?_, ?_⟩
      · simp only [if_neg hc]; omega
      · simp only [flag]; omega
      · intro _; simp
      · intro e he; simp at he; simp [he]
      · intro c hcm; exact Nat.lt_succ_of_lt (used c hcm)
      · intro p hp; exact ⟨(order p hp).1, Nat.lt_succ_of_lt (order p hp).2⟩
  | dialFail =>
    simp only [Link.step] at h
    split at h
    · simp at h
    · next h1 =>
      cases h
      have hc : ¬(s.connected = true ∨ s.stopped = true) := by intro hc; rw [if_pos hc] at one; omega
      rw [if_neg hc] at one
      refine ⟨?_, ?_, ?_, alive, ?_, used, order⟩
      · simp only [if_neg hc]; omega
      · simp only [flag]; omega
      · intro hr
        rcases hr with hr | hr
        · exact absurd (Or.inl hr) hc
        · simp only at hr; omega
      · intro e he; simp at he
  | publish =>
    simp only [Link.step] at h
    split at h
    · simp at h
    · next h1 =>
      cases h
      have hc : ¬(s.connected = true ∨ s.stopped = true) := by intro hc; rw [if_pos hc] at one; omega
      rw [if_neg hc] at one
      refine ⟨?_, ?_, fun _ => ready (.inr (by omega)), ?_, late, used, order⟩
      · simp only [true_or, if_true]; omega
      · simp; omega
      · intro _
        cases hs : s.stopped
        · rfl
        · exact absurd (Or.inr hs) hc
  | tick =>
    simp only [Link.step] at h
    split at h
    · simp at h
    · next h1 =>
      cases h
      refine ⟨?_, ?_, ready, alive, late, used, order⟩
      · simp only; rw [← one]; omega
      · simp only [flag]; omega
  | shutdown =>
    simp only [Link.step] at h
    split at h
    · simp at h
    · cases h; exact ⟨one, flag, ready, alive, late, used, order⟩
  | stop =>
    simp only [Link.step] at h
    split at h
    · simp at h
    · next h1 =>
      simp only [not_or] at h1
      cases h
      have hc : ¬(s.connected = true ∨ s.stopped = true) := by intro hc; rw [if_pos hc] at one; omega
      rw [if_neg hc] at one
      refine ⟨?_, ?_, ?_, ?_, late, used, order⟩
      · simp only [or_true, if_true]; omega
      · simp; omega
      · intro hr; simp at hr; omega
      · intro hr; simp at hr
  | check =>
    simp only [Link.step] at h
    split at h <;> cases h <;> exact ⟨one, flag, ready, alive, late, used, order⟩
  | use =>
    simp only [Link.step] at h
    split at h
    · simp at h
    · split at h
      · cases h; exact ⟨one, flag, ready, alive, late, used, order⟩
      · next e he =>
        cases h
        refine ⟨one, flag, ready, alive, late, ?_, order⟩
        intro c hc
        simp only [List.cons_append, List.mem_cons] at hc
        rcases hc with rfl | hc
        · have := late _ he; simp only; omega
        · exact used c hc
  | answered c =>
    simp only [Link.step] at h
    split at h
    · cases h
      refine ⟨one, flag, ready, alive, late, ?_, order⟩
      intro x hx
      rcases List.mem_append.1 hx with hx | hx
      · exact used x (List.mem_append_left _ (List.mem_of_mem_erase hx))
      · exact used x (List.mem_append_right _ hx)
    · simp at h
  | fails c =>
    simp only [Link.step] at h
    split at h
    · next hm =>
      cases h
      refine ⟨one, flag, ready, alive, late, ?_, order⟩
      intro x hx
      rcases List.mem_append.1 hx with hx | hx
      · exact used x (List.mem_append_left _ (List.mem_of_mem_erase hx))
      · rcases List.mem_cons.1 hx with rfl | hx
        · exact used x (List.mem_append_left _ hm)
        · exact used x (List.mem_append_right _ hx)
    · simp at h
  | close c =>
    simp only [Link.step] at h
    have hused : ∀ x ∈ s.calls ++ s.failed.erase c, x < s.made := by
      intro x hx
      rcases List.mem_append.1 hx with hx | hx
      · exact used x (List.mem_append_left _ hx)
      · exact used x (List.mem_append_right _ (List.mem_of_mem_erase hx))
    split at h
    · next hm =>
      split at h
      · next hcon =>
        cases h
        rw [if_pos (Or.inl hcon)] at one
        have hst := alive hcon
        refine ⟨?_, ?_, ?_, ?_, late, hused, ?_⟩
        · simp only [hst]; simp; omega
        · simp only [flag]
        · intro hr; simp at hr; omega
        · intro hr; simp at hr
        · intro p hp
          rcases List.mem_append.1 hp with hp | hp
          · obtain ⟨he, hpos⟩ := ready (.inl hcon)
            have hlt := used c (List.mem_append_right _ hm)
            rw [he] at hp
            simp only [Option.map_some, Option.toList_some, List.mem_singleton] at hp
            subst hp
            simp only
            omega
          · exact order p hp
      · cases h
        exact ⟨one, flag, ready, alive, late, hused, order⟩
    · simp at h

theorem link_cons (s : Link) (o : LinkOp) (os : List LinkOp) : s.run (o :: os) = ((s.step o).getD s).run os := rfl

theorem linkInv_run (ops : List LinkOp) : LinkInv (Link.start.run ops) := by
  have : ∀ (ops : List LinkOp) (s : Link), LinkInv s → LinkInv (s.run ops) := by
    intro ops
    induction ops with
    | nil => intro s h; exact h
    | cons o os ih =>
      intro s h
      rw [Link.run, List.foldl_cons]
      refine ih _ ?_
      cases hs : s.step o with
      | none => simpa only [hs, Option.getD_none] using h
      | some s' => simpa only [hs, Option.getD_some] using linkInv_step h o hs
  exact this ops _ linkInv_start

/-- C108: at any time at most one goroutine looks after the connection; there is one exactly while the node is neither connected nor shut down.
A connected node has a connection, the latest one. -/
theorem C108_one_partial (ops : List LinkOp) :
    let s := Link.start.run ops
    s.waiting + s.dialing + s.dialed + s.asleep = (if s.connected = true ∨ s.stopped = true then 0 else 1) ∧
      (s.connected = true → ∃ e, s.endpoint = some e ∧ e + 1 = s.made) := by
  have I := linkInv_run ops
  refine ⟨I.one, fun h => ?_⟩
  obtain ⟨he, hp⟩ := I.ready (.inl h)
  exact ⟨_, he, by omega⟩

/-- C108: attempts end only after a shutdown. -/
theorem C108_not_stopped (ops : List LinkOp) (h : LinkOp.shutdown ∉ ops) : (Link.start.run ops).stopped = false := by
  have key : ∀ (ops : List LinkOp) (s : Link), LinkOp.shutdown ∉ ops → s.quit = false → s.stopped = false → (s.run ops).stopped = false := by
    intro ops
    induction ops with
    | nil => intro s _ _ h2; exact h2
    | cons o os ih =>
      intro s hf h1 h2
      rw [link_cons]
      have hos : LinkOp.shutdown ∉ os := fun hc => hf (List.mem_cons_of_mem _ hc)
      cases hs : s.step o with
      | none => exact ih s hos h1 h2
      | some s' =>
        have : s'.quit = false ∧ s'.stopped = false := by
          cases o with
          | shutdown => exact absurd List.mem_cons_self hf
          | stop => simp [Link.step, h1] at hs
          | _ =>
            simp only [Link.step] at hs
            repeat' split at hs
            all_goals first
              | (cases hs; exact ⟨h1, h2⟩)
              | simp at hs
        exact ih s' hos this.1 this.2
  exact key ops _ h rfl rfl

example : LinkOp.shutdown ∉ [LinkOp.enter, .dialFail, .tick] := by decide

/-- C108: from wherever it is, at most three steps connect the node when dialling succeeds, unless it was shut down. -/
theorem C108_reconnects (ops : List LinkOp) (h : (Link.start.run ops).stopped = false) :
    ∃ more, more ⊆ [LinkOp.enter, .tick, .dialOk, .publish] ∧ more.length ≤ 3 ∧ ((Link.start.run ops).run more).connected = true := by
  have I := linkInv_run ops
  generalize Link.start.run ops = s at h I
  obtain ⟨one, flag, _⟩ := I
  by_cases hc : s.connected = true
  · exact ⟨[], by simp, by simp, hc⟩
  rw [if_neg (by simp [hc, h])] at one
  by_cases h1 : s.waiting = 1
  · have hr : s.reconnecting = false := by
      cases hr : s.reconnecting
      · rfl
      · have := flag.1 hr; omega
    have hd : s.dialing = 0 := by omega
    have hdd : s.dialed = 0 := by omega
    exact ⟨[.enter, .dialOk, .publish], by simp, by simp, by simp [Link.run, Link.step, h1, hr, hd, hdd]⟩
  by_cases h2 : s.dialing = 1
  · have hdd : s.dialed = 0 := by omega
    exact ⟨[.dialOk, .publish], by simp, by simp, by simp [Link.run, Link.step, h2, hdd]⟩
  by_cases h3 : s.dialed = 1
  · exact ⟨[.publish], by simp, by simp, by simp [Link.run, Link.step, h3]⟩
  have h4 : s.asleep = 1 := by omega
  have hd : s.dialing = 0 := by omega
  have hdd : s.dialed = 0 := by omega
  exact ⟨[.tick, .dialOk, .publish], by simp, by simp, by simp [Link.run, Link.step, h4, hd, hdd]⟩

example : (Link.start.run [.enter, .dialOk, .publish, .check, .use, .fails 0, .close 0]).stopped = false ∧
    (Link.start.run [.enter, .dialOk, .publish, .check, .use, .fails 0, .close 0]).connected = false := by decide

/-- C108: a call that finds the node connected and uses the connection at once is made on the latest connection. -/
theorem C108_call_partial (ops : List LinkOp) (h : (Link.start.run ops).connected = true) :
    ∃ s1 s2, (Link.start.run ops).step .check = some s1 ∧ s1.step .use = some s2 ∧
      s2.panicked = (Link.start.run ops).panicked ∧ s2.calls = ((Link.start.run ops).made - 1) :: (Link.start.run ops).calls := by
  obtain ⟨he, _⟩ := (linkInv_run ops).ready (.inl h)
  generalize Link.start.run ops = s at h he
  refine ⟨{ s with checked := s.checked + 1 }, { s with calls := (s.made - 1) :: s.calls }, ?_, ?_, rfl, rfl⟩
  · simp [Link.step, h]
  · simp [Link.step, he]

/-- C108: after a failure no connection older than the one that failed is closed. -/
theorem C108_close_partial (ops : List LinkOp) : ∀ p ∈ (Link.start.run ops).closed, p.1 ≤ p.2 := fun p hp =>
  ((linkInv_run ops).order p hp).1

/-- The third attempt to dial succeeds. -/
example : (Link.start.run [.enter, .dialFail, .tick, .dialFail, .tick, .dialOk, .publish]).connected = true := by decide

/-- C108 (violated): two callers find the node connected; the call of the first fails, and dialling again fails as well; the second then makes its call
on a nil connection, and the server ends. -/
theorem C108_crash_violated : ∃ ops, (Link.start.run ops).panicked = true :=
  ⟨[.enter, .dialOk, .publish, .check, .check, .use, .fails 0, .close 0, .enter, .dialFail, .use], by decide⟩

/-- C108 (violated): two calls fail on the first connection; the second of them closes the new connection that was made after the first. -/
theorem C108_healthy_violated : ∃ ops, (0, 1) ∈ (Link.start.run ops).closed :=
  ⟨[.enter, .dialOk, .publish, .check, .check, .use, .use, .fails 0, .fails 0, .close 0, .enter, .dialOk, .publish, .close 0], by decide⟩

/-- C108 (violated): a node that is connected when the cluster is shut down stays connected for as long as no call fails, whatever else happens. -/
theorem C108_shutdown_violated : ∃ ops, LinkOp.shutdown ∈ ops ∧ ∀ later : List LinkOp, (∀ c, LinkOp.fails c ∉ later) →
    ((Link.start.run ops).run later).connected = true ∧ ((Link.start.run ops).run later).stopped = false := by
  refine ⟨[.enter, .dialOk, .publish, .shutdown], by decide, fun later hl => ?_⟩
  have key : ∀ (later : List LinkOp) (s : Link), (∀ c, LinkOp.fails c ∉ later) → s.connected = true → s.stopped = false →
      s.waiting = 0 → s.dialing = 0 → s.dialed = 0 → s.asleep = 0 → s.failed = [] →
      (s.run later).connected = true ∧ (s.run later).stopped = false := by
    intro later
    induction later with
    | nil => intro s _ h1 h2 _ _ _ _ _; exact ⟨h1, h2⟩
    | cons o os ih =>
      intro s hf h1 h2 h3 h4 h5 h6 h7
      have hos : ∀ c, LinkOp.fails c ∉ os := fun c hc => hf c (List.mem_cons_of_mem _ hc)
      rw [link_cons]
      cases o with
      | fails c => exact absurd List.mem_cons_self (hf c)
      | enter => simpa only [Link.step, h3, if_true, Option.getD_none] using ih s hos h1 h2 h3 h4 h5 h6 h7
      | dialOk => simpa only [Link.step, h4, if_true, Option.getD_none] using ih s hos h1 h2 h3 h4 h5 h6 h7
      | dialFail => simpa only [Link.step, h4, if_true, Option.getD_none] using ih s hos h1 h2 h3 h4 h5 h6 h7
      | publish => simpa only [Link.step, h5, if_true, Option.getD_none] using ih s hos h1 h2 h3 h4 h5 h6 h7
      | tick => simpa only [Link.step, h6, if_true, Option.getD_none] using ih s hos h1 h2 h3 h4 h5 h6 h7
      | stop => simpa only [Link.step, h6, true_or, if_true, Option.getD_none] using ih s hos h1 h2 h3 h4 h5 h6 h7
      | shutdown =>
        simp only [Link.step]
        split
        · exact ih s hos h1 h2 h3 h4 h5 h6 h7
        · exact ih { s with quit := true } hos h1 h2 h3 h4 h5 h6 h7
      | check =>
        simp only [Link.step, h1, if_true, Option.getD_some]
        exact ih { s with connected := true, checked := s.checked + 1 } hos rfl h2 h3 h4 h5 h6 h7
      | use =>
        simp only [Link.step]
        split
        · exact ih s hos h1 h2 h3 h4 h5 h6 h7
        · split
          · exact ih { s with checked := s.checked - 1, panicked := true } hos h1 h2 h3 h4 h5 h6 h7
          · next e _ => exact ih { s with checked := s.checked - 1, calls := e :: s.calls } hos h1 h2 h3 h4 h5 h6 h7
      | answered c =>
        simp only [Link.step]
        split
        · exact ih { s with calls := s.calls.erase c } hos h1 h2 h3 h4 h5 h6 h7
        · exact ih s hos h1 h2 h3 h4 h5 h6 h7
      | close c =>
        simp only [Link.step, h7, List.not_mem_nil, if_false, Option.getD_none]
        exact ih s hos h1 h2 h3 h4 h5 h6 h7
  exact key later _ hl (by decide) (by decide) (by decide) (by decide) (by decide) (by decide) (by decide)

end Verif
