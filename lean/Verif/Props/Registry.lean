import Verif.Model.Registry

/-!
# C99: callers that ask for a counter by the same name share it
-/

namespace Verif

/-- What was added under a name. -/
def Spec.addedTo (r : MetricReg) (name : Bytes) : UInt64 := ((r.added.filter (·.1 == name)).map (·.2)).sum

/-- Nothing is taken from the registry. -/
def Spec.Keeps : MetricEv → Prop
  | .unregister _ | .unregisterAll => False
  | _ => True

structure RegOk (r : MetricReg) : Prop where
  kept : ∀ name m, AMap.get r.reg name = some m → m.kind.kept = true
  old : ∀ name m, AMap.get r.reg name = some m → m.id < r.made
  apart : ∀ n m n' m', AMap.get r.reg n = some m → AMap.get r.reg n' = some m' → m.id = m'.id → n = n'
  held : ∀ t name m, AMap.get r.held (t, name) = some m → m.kind.kept = true → AMap.get r.reg name = some m
  fresh : ∀ id, r.made ≤ id → r.count id = 0
  used : ∀ p ∈ r.added, ∃ m, AMap.get r.reg p.1 = some m
  count : ∀ name m, AMap.get r.reg name = some m → m.kind = .counter → r.count m.id = Spec.addedTo r name

theorem RegOk.start : RegOk {} := by
  refine ⟨?_, ?_, ?_, ?_, ?_, ?_, ?_⟩
  · intro n m h; cases h
  · intro n m h; cases h
  · intro n m n' m' h; cases h
  · intro n m h h'; cases h'
  · intro id _; rfl
  · intro p hp; cases hp
  · intro n m h; cases h

theorem RegOk.answer {r r' : MetricReg} (h : RegOk r) {t : Nat} {name : Bytes} {kind : MetricKind} {m : Metric} (hm : m.kind.kept = true → AMap.get r.reg name = some m)
    (e : r.answer t name kind m = some r') : RegOk r' := by
  simp only [MetricReg.answer] at e
  split at e
  · injection e with e
    subst e
    refine ⟨h.kept, h.old, h.apart, ?_, h.fresh, h.used, h.count⟩
    intro t' n m' hg hk
    simp only [AMap.get_set] at hg
    split at hg
    · next e =>
      injection e with e1 e2
      injection hg with hg
      subst hg
      rw [e2]
      exact hm hk
    · exact h.held t' n m' hg hk
  · cases e

theorem RegOk.step {r r' : MetricReg} (h : RegOk r) {ev : MetricEv} (hk : Spec.Keeps ev) (e : r.step ev = some r') : RegOk r' := by
  cases ev with
  | look t name kind =>
    simp only [MetricReg.step, MetricReg.look] at e
    split at e
    · injection e with e; subst e; exact h
    · split at e
      · next m hm => exact h.answer (fun _ => hm) e
      · injection e with e; subst e; exact ⟨h.kept, h.old, h.apart, h.held, h.fresh, h.used, h.count⟩
  | settle t =>
    simp only [MetricReg.step, MetricReg.settle] at e
    split at e
    · injection e with e; subst e; exact h
    · next name kind _ =>
      have h1 : RegOk { r with waits := AMap.del r.waits t } := ⟨h.kept, h.old, h.apart, h.held, h.fresh, h.used, h.count⟩
      split at e
      · next m hm => exact h1.answer (fun _ => hm) e
      · next hn =>
        have hn : AMap.get r.reg name = none := hn
        by_cases hc : kind.kept = true
        · rw [if_pos hc] at e
          refine RegOk.answer ?_ (fun _ => AMap.get_set_self _ _ _) e
          refine ⟨?_, ?_, ?_, ?_, ?_, ?_, ?_⟩
          · intro n m hg
            simp only [AMap.get_set] at hg
            split at hg
            · injection hg with hg; subst hg; exact hc
            · exact h.kept n m hg
          · intro n m hg
            simp only [AMap.get_set] at hg
            split at hg
            · injection hg with hg; subst hg; exact Nat.lt_succ_self _
            · exact Nat.lt_succ_of_lt (h.old n m hg)
          · intro n m n' m' hg hg' hid
            simp only [AMap.get_set] at hg hg'
            split at hg <;> split at hg'
            · next e1 e2 => rw [e1, e2]
            · injection hg with hg; subst hg
              have := h.old n' m' hg'
              simp only at hid
              omega
            · injection hg' with hg'; subst hg'
              have := h.old n m hg
              simp only at hid
              omega
            · exact h.apart n m n' m' hg hg' hid
          · intro t' n m hg hk
            have := h.held t' n m hg hk
            rw [AMap.get_set_ne]
            · exact this
            · rintro rfl; rw [hn] at this; cases this
          · intro id hid
            exact h.fresh id (Nat.le_of_succ_le hid)
          · intro p hp
            obtain ⟨m, hm⟩ := h.used p hp
            refine ⟨m, ?_⟩
            rw [AMap.get_set_ne]
            · exact hm
            · rintro e1; rw [e1, hn] at hm; cases hm
          · intro n m hg hk
            simp only [AMap.get_set] at hg
            split at hg
            · next e1 =>
              injection hg with hg; subst hg
              have h0 : r.count r.made = 0 := h.fresh _ (Nat.le_refl _)
              have : r.added.filter (·.1 == n) = [] := by
                rw [List.filter_eq_nil_iff]
                intro p hp
                obtain ⟨m, hm⟩ := h.used p hp
                intro e2
                rw [beq_iff_eq.1 e2, e1, hn] at hm
                cases hm
              simp only [Spec.addedTo, this, List.map_nil, List.sum_nil]
              exact h0
            · exact h.count n m hg hk
        · rw [if_neg hc] at e
          have h2 : RegOk { { r with waits := AMap.del r.waits t } with made := r.made + 1 } :=
            ⟨h.kept, fun n m hg => Nat.lt_succ_of_lt (h.old n m hg), h.apart, h.held, fun id hid => h.fresh id (Nat.le_of_succ_le hid), h.used, h.count⟩
          exact h2.answer (fun hh => absurd hh hc) e
  | add t name d =>
    simp only [MetricReg.step, MetricReg.add] at e
    injection e with e
    split at e
    · next id hm =>
      subst e
      have hr := h.held t name ⟨id, .counter⟩ hm rfl
      have hid := h.old name _ hr
      refine ⟨h.kept, h.old, h.apart, h.held, ?_, ?_, ?_⟩
      · intro id' hi
        simp only [MetricReg.count, AMap.get_set]
        rw [if_neg (by simp only at hid hi; omega)]
        exact h.fresh id' hi
      · intro p hp
        rcases List.mem_cons.1 hp with rfl | hp
        · exact ⟨_, hr⟩
        · exact h.used p hp
      · intro n m hg hk
        simp only [MetricReg.count, AMap.get_set, Spec.addedTo, List.filter_cons]
        by_cases e1 : n = name
        · subst e1
          have : m = ⟨id, .counter⟩ := by rw [hr] at hg; injection hg with hg; exact hg.symm
          subst this
          have hc := h.count n _ hr rfl
          simp only [MetricReg.count, Spec.addedTo] at hc
          simp only [if_true, Option.getD_some, beq_self_eq_true, List.map_cons, List.sum_cons, ← hc]
          exact UInt64.add_comm _ _
        · have hne : m.id ≠ id := fun e2 => e1 (h.apart n m name _ hg hr e2)
          rw [if_neg hne]
          have : ((name == n) = true) = False := by simpa using fun e2 => e1 e2.symm
          simp only [this, if_false]
          exact h.count n m hg hk
    · subst e; exact h
  | unregister name => exact hk.elim
  | unregisterAll => exact hk.elim

theorem RegOk.run (evs : List MetricEv) : ∀ {r r' : MetricReg}, RegOk r → (∀ ev ∈ evs, Spec.Keeps ev) → r.run evs = some r' → RegOk r' := by
  induction evs with
  | nil => intro r r' h _ e; injection e with e; subst e; exact h
  | cons ev evs ih =>
    intro r r' h hk e
    rw [MetricReg.run, List.foldlM_cons, Option.bind_eq_bind, Option.bind_eq_some_iff] at e
    obtain ⟨r1, e1, e2⟩ := e
    exact ih (h.step (hk ev (by simp)) e1) (fun x hx => hk x (by simp [hx])) e2

/-! ## C99 -/

/-- C99 (partial: nothing is unregistered; counters and gauges only). However the calls of many goroutines come in between each other, all that asked for a counter or
gauge under one name were given the same. -/
theorem C99_same_partial (evs : List MetricEv) (hk : ∀ ev ∈ evs, Spec.Keeps ev) (r : MetricReg) (h : MetricReg.run {} evs = some r) (t t' : Nat) (name : Bytes) (m m' : Metric)
    (hm : AMap.get r.held (t, name) = some m) (hm' : AMap.get r.held (t', name) = some m') (hc : m.kind = .counter ∨ m.kind = .gauge)
    (hc' : m'.kind = .counter ∨ m'.kind = .gauge) : m = m' := by
  have hi := RegOk.run evs .start hk h
  have kept : ∀ m : Metric, m.kind = .counter ∨ m.kind = .gauge → m.kind.kept = true := by
    rintro m (e | e) <;> rw [e] <;> rfl
  have h1 := hi.held t name m hm (kept m hc)
  rw [hi.held t' name m' hm' (kept m' hc')] at h1
  injection h1 with h1
  exact h1.symm

/-- C99 (partial as above). Nothing added is lost: whoever asked for the counter of a name reads the sum of all that anyone added to the counter of that name. -/
theorem C99_count_partial (evs : List MetricEv) (hk : ∀ ev ∈ evs, Spec.Keeps ev) (r : MetricReg) (h : MetricReg.run {} evs = some r) (t : Nat) (name : Bytes) (id : Nat)
    (hm : AMap.get r.held (t, name) = some ⟨id, .counter⟩) : r.count id = Spec.addedTo r name := by
  have hi := RegOk.run evs .start hk h
  exact hi.count name _ (hi.held t name _ hm rfl) rfl

/-- C99 (partial as above). Counters of different names are different. -/
theorem C99_apart_partial (evs : List MetricEv) (hk : ∀ ev ∈ evs, Spec.Keeps ev) (r : MetricReg) (h : MetricReg.run {} evs = some r) (t t' : Nat) (n n' : Bytes) (m m' : Metric)
    (hm : AMap.get r.held (t, n) = some m) (hm' : AMap.get r.held (t', n') = some m') (hc : m.kind = .counter) (hc' : m'.kind = .counter) (hn : n ≠ n') : m.id ≠ m'.id := by
  have hi := RegOk.run evs .start hk h
  exact fun e => hn (hi.apart n m n' m' (hi.held t n m hm (by rw [hc]; rfl)) (hi.held t' n' m' hm' (by rw [hc']; rfl)) e)

/-- Two goroutines look for `a` at the same time, then both go on, and both add; a third asks for `b` and adds. -/
def toyAsking : List MetricEv :=
  [.look 1 [97] .counter, .look 2 [97] .counter, .settle 2, .add 2 [97] 5, .settle 1, .add 1 [97] 7, .look 3 [98] .counter, .settle 3, .add 3 [98] 1, .add 2 [97] (-2)]

example : (∀ ev ∈ toyAsking, Spec.Keeps ev) ∧ ∃ r, MetricReg.run {} toyAsking = some r ∧ AMap.get r.held (1, [97]) = some ⟨0, .counter⟩ ∧
    AMap.get r.held (2, [97]) = some ⟨0, .counter⟩ ∧ AMap.get r.held (3, [98]) = some ⟨1, .counter⟩ ∧ r.count 0 = 10 := by
  refine ⟨by simp [toyAsking, Spec.Keeps], ?_⟩
  have h : (MetricReg.run {} toyAsking).any (fun r => decide (AMap.get r.held (1, [97]) = some ⟨0, .counter⟩ ∧
    AMap.get r.held (2, [97]) = some ⟨0, .counter⟩ ∧ AMap.get r.held (3, [98]) = some ⟨1, .counter⟩ ∧ r.count 0 = 10)) = true := by decide +kernel
  obtain ⟨r, hr, h⟩ := (Option.any_eq_true _ _).1 h
  exact ⟨r, hr, of_decide_eq_true h⟩

/-- C99, the inputs that stop the program: exactly a call that finds under its name a metric of another kind. -/
theorem C99_panics_iff (r : MetricReg) (ev : MetricEv) : r.step ev = none ↔
    (∃ t name kind m, ev = .look t name kind ∧ AMap.get r.waits t = none ∧ AMap.get r.reg name = some m ∧ m.kind ≠ kind) ∨
    (∃ t name kind m, ev = .settle t ∧ AMap.get r.waits t = some (name, kind) ∧ AMap.get r.reg name = some m ∧ m.kind ≠ kind) := by
  cases ev with
  | look t name kind =>
    simp only [MetricReg.step, MetricReg.look, MetricReg.answer]
    constructor
    · intro h
      split at h
      · cases h
      · next hw =>
        split at h
        · next m hm =>
          split at h
          · cases h
          · next hk => exact .inl ⟨t, name, kind, m, rfl, hw, hm, hk⟩
        · cases h
    · rintro (⟨t', n, k, m, e, hw, hm, hk⟩ | ⟨t', n, k, m, e, _⟩)
      · injection e with e1 e2 e3
        subst e1 e2 e3
        simp only [hw, hm, hk, if_false]
      · cases e
  | settle t =>
    simp only [MetricReg.step, MetricReg.settle]
    constructor
    · intro h
      split at h
      · cases h
      · next name kind hw =>
        split at h
        · next m hm =>
          simp only [MetricReg.answer] at h
          split at h
          · cases h
          · next hk => exact .inr ⟨t, name, kind, m, rfl, hw, hm, hk⟩
        · simp [MetricReg.answer] at h
    · rintro (⟨t', n, k, m, e, _⟩ | ⟨t', n, k, m, e, hw, hm, hk⟩)
      · cases e
      · injection e with e1
        subst e1
        simp only [hw, hm, MetricReg.answer, hk, if_false]
  | add t name d => simp [MetricReg.step]
  | unregister name => simp [MetricReg.step]
  | unregisterAll => simp [MetricReg.step]

/-- C99 is false of time series and histograms: the registry never keeps one. Whatever happened before, a call for a time series that finds nothing under its name leaves nothing
there, and the next call for it is given another. -/
theorem C99_series_violated (r : MetricReg) (t u : Nat) (name : Bytes) (hn : AMap.get r.reg name = none) (hw : AMap.get r.waits t = none) (hw' : AMap.get r.waits u = none) :
    ∃ r', r.run [.look t name .series, .settle t, .look u name .series, .settle u] = some r' ∧ AMap.get r'.reg name = none ∧
      AMap.get r'.held (u, name) = some ⟨r.made + 1, .series⟩ ∧ (t ≠ u → AMap.get r'.held (t, name) = some ⟨r.made, .series⟩) := by
  have hd : AMap.get (AMap.del (AMap.set r.waits t (name, MetricKind.series)) t) u = none := by
    rw [AMap.get_del]
    split
    · rfl
    · next h => rw [AMap.get_set_ne _ _ h, hw']
  have e1 : r.step (.look t name .series) = some { r with waits := AMap.set r.waits t (name, .series) } := by simp only [MetricReg.step, MetricReg.look, hw, hn]
  have e2 : MetricReg.step { r with waits := AMap.set r.waits t (name, .series) } (.settle t) = some { r with
      waits := AMap.del (AMap.set r.waits t (name, .series)) t, made := r.made + 1, held := AMap.set r.held (t, name) ⟨r.made, .series⟩ } := by
    simp only [MetricReg.step, MetricReg.settle, AMap.get_set_self, hn]; rfl
  have e3 : MetricReg.step { r with waits := AMap.del (AMap.set r.waits t (name, .series)) t, made := r.made + 1, held := AMap.set r.held (t, name) ⟨r.made, .series⟩ }
      (.look u name .series) = some { r with
      waits := AMap.set (AMap.del (AMap.set r.waits t (name, .series)) t) u (name, .series), made := r.made + 1, held := AMap.set r.held (t, name) ⟨r.made, .series⟩ } := by
    simp only [MetricReg.step, MetricReg.look, hd, hn]
  have e4 : MetricReg.step { r with
      waits := AMap.set (AMap.del (AMap.set r.waits t (name, .series)) t) u (name, .series), made := r.made + 1, held := AMap.set r.held (t, name) ⟨r.made, .series⟩ } (.settle u) =
      some { r with
        waits := AMap.del (AMap.set (AMap.del (AMap.set r.waits t (name, .series)) t) u (name, .series)) u, made := r.made + 2,
        held := AMap.set (AMap.set r.held (t, name) ⟨r.made, .series⟩) (u, name) ⟨r.made + 1, .series⟩ } := by
    simp only [MetricReg.step, MetricReg.settle, AMap.get_set_self, hn]; rfl
  refine ⟨{ r with
    waits := AMap.del (AMap.set (AMap.del (AMap.set r.waits t (name, .series)) t) u (name, .series)) u, made := r.made + 2,
    held := AMap.set (AMap.set r.held (t, name) ⟨r.made, .series⟩) (u, name) ⟨r.made + 1, .series⟩ }, ?_, hn, AMap.get_set_self _ _ _, fun h => ?_⟩
  · simp only [MetricReg.run, List.foldlM_cons, List.foldlM_nil, Option.bind_eq_bind, e1, e2, e3, e4, Option.bind_some]
    rfl
  · simp only
    rw [AMap.get_set_ne, AMap.get_set_self]
    intro e
    injection e with e
    exact h e

example : AMap.get (MetricReg.reg {}) [97] = none ∧ AMap.get (MetricReg.waits {}) 1 = none := ⟨rfl, rfl⟩

/-- C99 is false once a name is unregistered: the counter of goroutine 1 is no longer that of goroutine 2, and what goroutine 1 adds is not seen by it. -/
theorem C99_unregistered_violated : ∃ r, MetricReg.run {} [.look 1 [97] .counter, .settle 1, .unregister [97], .look 2 [97] .counter, .settle 2, .add 1 [97] 5] = some r ∧
    AMap.get r.held (2, [97]) = some ⟨1, .counter⟩ ∧ r.count 1 = 0 ∧ Spec.addedTo r [97] = 5 := by
  have h : (MetricReg.run {} [.look 1 [97] .counter, .settle 1, .unregister [97], .look 2 [97] .counter, .settle 2, .add 1 [97] 5]).any (fun r => decide
    (AMap.get r.held (2, [97]) = some ⟨1, .counter⟩ ∧ r.count 1 = 0 ∧ Spec.addedTo r [97] = 5)) = true := by decide +kernel
  obtain ⟨r, hr, h⟩ := (Option.any_eq_true _ _).1 h
  exact ⟨r, hr, of_decide_eq_true h⟩

end Verif
