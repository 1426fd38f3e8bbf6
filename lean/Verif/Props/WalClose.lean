import Verif.Model.WalClose

/-!
# C113: the log tells the truth about what it wrote and released, also while it is closed
-/

namespace Verif

open WalUse

/-- The logs in the directory, judged by the answers alone. -/
def Spec.logFiles : List Out → Nat → Option (List Bytes)
  | [], _ => none
  | .wrote t c :: os, u => if u = t ∧ c ≠ [] then some c else Spec.logFiles os u
  | .freed t :: os, u => if u = t then none else Spec.logFiles os u
  | _ :: os, u => Spec.logFiles os u

/-- Writers that were signalled and not answered. -/
def Spec.inFlight (s : WalUse.State) : Nat := s.ws.countP fun w => match w.phase with | .signalled _ => true | _ => false

theorem walUse_size_zero {p : Phase} {c : List Bytes} (h : W.size ⟨p, c⟩ = 0) : c = [] := by
  cases c with
  | nil => rfl
  | cons d c => simp [W.size] at h

theorem walUse_size_pos {p : Phase} {c : List Bytes} (h : ¬W.size ⟨p, c⟩ = 0) : c ≠ [] := by
  rintro rfl
  exact h rfl

theorem countP_set' {p : W → Bool} : ∀ {l : List W} {i : Nat} {a b : W}, l[i]? = some a →
    (l.set i b).countP p + (if p a then 1 else 0) = l.countP p + (if p b then 1 else 0)
  | [], i, a, b, h => by simp at h
  | x :: l, 0, a, b, h => by
    simp only [List.getElem?_cons_zero, Option.some.injEq] at h
    subst h
    simp only [List.set_cons_zero, List.countP_cons]
    omega
  | x :: l, i + 1, a, b, h => by
    have := countP_set' (p := p) (l := l) (i := i) (a := a) (b := b) (by simpa using h)
    simp only [List.set_cons_succ, List.countP_cons]
    omega

/-- What holds in every reachable state. -/
structure WalUse.Inv (s : WalUse.State) : Prop where
  wg : s.wg = Spec.inFlight s
  there : ∀ t c, Spec.logFiles s.outs t = some c → s.files t = some c
  exact : s.opened = true → ∀ t, s.files t = Spec.logFiles s.outs t
  shut : s.opened = false ↔ Out.closed ∈ s.outs
  once : s.outs.count .closed ≤ 1

theorem walUse_step {s s' : WalUse.State} (h : Inv s) (a : Act) (hs : step s a = some s') : Inv s' := by
  obtain ⟨hw, ht, he, hsh, ho⟩ := h
  cases a with
  | writer =>
    simp only [WalUse.step] at hs
    split at hs <;> cases hs
    · exact ⟨hw, ht, he, by simpa using hsh, by simpa using ho⟩
    · exact ⟨by simpa [Spec.inFlight, List.countP_append] using hw, ht, he, hsh, ho⟩
  | append i d =>
    simp only [WalUse.step] at hs
    split at hs
    · rename_i c hi
      cases hs
      refine ⟨?_, ht, he, hsh, ho⟩
      have := countP_set' (p := fun w => match w.phase with | .signalled _ => true | _ => false) (b := ⟨.open, if d.length = 0 then c else c ++ [d]⟩) hi
      simp only [Bool.false_eq_true, if_false, Nat.add_zero] at this
      rw [hw]
      exact this.symm
    · cases hs
  | signal i t =>
    simp only [WalUse.step] at hs
    split at hs
    · rename_i c hi
      cases hs
      refine ⟨?_, ht, he, hsh, ho⟩
      have := countP_set' (p := fun w => match w.phase with | .signalled _ => true | _ => false) (b := ⟨.signalled t, c⟩) hi
      simp only [Bool.false_eq_true, if_false, Nat.add_zero, if_true] at this
      show s.wg + 1 = _
      rw [hw]
      exact this.symm
    · cases hs
  | write i =>
    simp only [WalUse.step] at hs
    split at hs
    · rename_i t c hi
      have hc := countP_set' (p := fun w => match w.phase with | .signalled _ => true | _ => false) (b := ⟨.told, c⟩) hi
      simp only [Bool.false_eq_true, if_false, Nat.add_zero, if_true] at hc
      have hc' : s.wg - 1 = (s.ws.set i ⟨.told, c⟩).countP fun w => match w.phase with | .signalled _ => true | _ => false := by
        rw [hw, Spec.inFlight]
        omega
      split at hs
      · rename_i hz
        cases hs
        have hz := walUse_size_zero hz
        subst hz
        refine ⟨hc', ?_, ?_, by simpa using hsh, by simpa using ho⟩
        · intro u c hu
          exact ht u c (by simpa [Spec.logFiles] using hu)
        · intro hop u
          simpa [Spec.logFiles] using he hop u
      · rename_i hz
        have hz := walUse_size_pos hz
        split at hs
        · cases hs
          refine ⟨hc', ?_, ?_, by simpa using hsh, by simpa using ho⟩
          · intro u c' hu
            simp only [Spec.logFiles] at hu
            by_cases hut : u = t
            · simpa [hut, hz] using hu
            · simp only [hut, false_and, if_false] at hu ⊢
              exact ht u c' hu
          · intro hop u
            simp only [Spec.logFiles]
            by_cases hut : u = t
            · simp [hut, hz]
            · simp only [hut, false_and, if_false]
              exact he hop u
        · cases hs
          exact ⟨hc', ht, he, by simpa using hsh, by simpa using ho⟩
    · cases hs
  | applied t =>
    simp only [WalUse.step] at hs
    cases hs
    refine ⟨hw, ?_, ?_, by simpa using hsh, by simpa using ho⟩
    · intro u c hu
      simp only [Spec.logFiles] at hu
      by_cases hut : u = t
      · simp [hut] at hu
      · simp only [hut, false_and, if_false] at hu ⊢
        exact ht u c hu
    · intro hop u
      simp only [Spec.logFiles]
      by_cases hut : u = t
      · have hop : s.opened = true := hop
        simp [hut, hop]
      · simp only [hut, false_and, if_false]
        exact he hop u
  | close =>
    simp only [WalUse.step] at hs
    split at hs <;> cases hs
    · exact ⟨hw, ht, he, by simpa using hsh, by simpa using ho⟩
    · exact ⟨hw, ht, he, hsh, ho⟩
  | closeEnd =>
    simp only [WalUse.step] at hs
    split at hs
    · rename_i hc
      cases hs
      refine ⟨hw, ht, fun hop => (by cases hop), by simp, ?_⟩
      have hn : Out.closed ∉ s.outs := by
        intro hm
        have := hsh.mpr hm
        rw [hc.2.1] at this
        cases this
      simp [List.count_eq_zero.mpr hn]
    · cases hs

theorem walUse_run : ∀ (as : List Act) {s s' : WalUse.State}, Inv s → run as s = some s' → Inv s'
  | [], s, s', h, hr => by cases hr; exact h
  | a :: as, s, s', h, hr => by
    rw [WalUse.run] at hr
    cases hs : step s a with
    | none => rw [hs] at hr; cases hr
    | some t => rw [hs] at hr; exact walUse_run as (walUse_step h a hs) hr

theorem walUse_init : Inv State.init := ⟨rfl, by (intro t c h; cases h), fun _ _ => rfl, by simp [State.init], by simp [State.init]⟩

/-- C113: a log that was reported as written, and not reported as released, is in the directory with all its entries, whatever else goes on and also
after Close. -/
theorem C113_written (as : List Act) (s : WalUse.State) (hr : run as State.init = some s) (t : Nat) (c : List Bytes)
    (h : Spec.logFiles s.outs t = some c) : s.files t = some c :=
  (walUse_run as walUse_init hr).there t c h

/-- The entries that were appended to writer `i`. -/
def Spec.appended (i : Nat) (as : List Act) : List Bytes :=
  as.filterMap fun a => match a with | .append j d => if j = i ∧ d ≠ [] then some d else none | _ => none

theorem appended_snoc (i : Nat) (as : List Act) (a : Act) : Spec.appended i (as ++ [a]) = Spec.appended i as ++ Spec.appended i [a] := by
  simp [Spec.appended, List.filterMap_append]

/-- What the calls so far say about the state. -/
structure WalUse.Calls (as : List Act) (s : WalUse.State) : Prop where
  data : ∀ i, ((s.ws[i]?).map (·.data)).getD [] = Spec.appended i as
  asked : ∀ i t c, s.ws[i]? = some ⟨.signalled t, c⟩ → Act.signal i t ∈ as
  told : ∀ t c, Out.wrote t c ∈ s.outs → ∃ i, Act.signal i t ∈ as ∧ s.ws[i]? = some ⟨.told, c⟩

theorem walUse_get_set {l : List W} {i j : Nat} {a b : W} (h : l[i]? = some a) : (l.set i b)[j]? = if j = i then some b else l[j]? := by
  have hl : i < l.length := by
    rcases Nat.lt_or_ge i l.length with hl | hl
    · exact hl
    · rw [List.getElem?_eq_none hl] at h; cases h
  by_cases hj : j = i
  · subst hj
    simp [hl]
  · rw [if_neg hj, List.getElem?_set_ne (fun e => hj e.symm)]

theorem calls_step {as : List Act} {s s' : WalUse.State} (h : Calls as s) (a : Act) (hs : step s a = some s') : Calls (as ++ [a]) s' := by
  obtain ⟨hd, ha, ht⟩ := h
  have more : ∀ {x : Act}, x ∈ as → x ∈ as ++ [a] := fun hx => List.mem_append_left _ hx
  have hd' : ∀ i, Spec.appended i [a] = [] → ((s.ws[i]?).map (·.data)).getD [] = Spec.appended i (as ++ [a]) := by
    intro i hi
    rw [appended_snoc, hi, List.append_nil]
    exact hd i
  have keep : ∀ (os : List Out), (∀ t c, Out.wrote t c ∈ os → Out.wrote t c ∈ s.outs) →
      ∀ t c, Out.wrote t c ∈ os → ∃ i, Act.signal i t ∈ as ++ [a] ∧ s.ws[i]? = some ⟨.told, c⟩ := by
    intro os ho t c hm
    obtain ⟨i, h1, h2⟩ := ht t c (ho t c hm)
    exact ⟨i, more h1, h2⟩
  cases a with
  | writer =>
    simp only [WalUse.step] at hs
    split at hs <;> cases hs
    · exact ⟨fun i => hd' i rfl, fun i t c hi => more (ha i t c hi), keep _ (by intro t c hm; simpa using hm)⟩
    · refine ⟨?_, ?_, ?_⟩
      · intro i
        rw [← hd' i rfl]
        rcases Nat.lt_trichotomy i s.ws.length with hl | hl | hl
        · simp [List.getElem?_append_left hl]
        · subst hl
          simp
        · rw [List.getElem?_eq_none (by simp; omega), List.getElem?_eq_none (by omega)]
      · intro i t c hi
        refine more (ha i t c ?_)
        rcases Nat.lt_or_ge i s.ws.length with hl | hl
        · rwa [List.getElem?_append_left hl] at hi
        · rw [List.getElem?_append_right hl] at hi
          cases hk : i - s.ws.length with
          | zero => rw [hk] at hi; cases hi
          | succ k => rw [hk] at hi; cases hi
      · intro t c hm
        obtain ⟨i, h1, h2⟩ := ht t c hm
        refine ⟨i, more h1, ?_⟩
        rcases Nat.lt_or_ge i s.ws.length with hl | hl
        · rwa [List.getElem?_append_left hl]
        · rw [List.getElem?_eq_none hl] at h2; cases h2
  | append i d =>
    simp only [WalUse.step] at hs
    split at hs
    · rename_i c hi
      cases hs
      refine ⟨?_, ?_, ?_⟩
      · intro j
        simp only [walUse_get_set hi]
        by_cases hj : j = i
        · subst hj
          have hc : c = Spec.appended j as := by
            have := hd j
            rw [hi] at this
            exact this
          rw [appended_snoc, ← hc]
          cases d with
          | nil => simp [Spec.appended]
          | cons x d => simp [Spec.appended]
        · rw [if_neg hj]
          refine hd' j ?_
          simp only [Spec.appended, List.filterMap_cons, List.filterMap_nil]
          rw [if_neg (fun e => hj e.1.symm)]
      · intro j t c' hj
        simp only [walUse_get_set hi] at hj
        split at hj
        · cases hj
        · exact more (ha j t c' hj)
      · intro t c' hm
        obtain ⟨j, h1, h2⟩ := ht t c' hm
        refine ⟨j, more h1, ?_⟩
        simp only [walUse_get_set hi]
        split
        · rename_i e; subst e; rw [hi] at h2; cases h2
        · exact h2
    · cases hs
  | signal i t =>
    simp only [WalUse.step] at hs
    split at hs
    · rename_i c hi
      cases hs
      refine ⟨?_, ?_, ?_⟩
      · intro j
        simp only [walUse_get_set hi]
        rw [← hd' j rfl]
        split
        · rename_i e; subst e; rw [hi]; rfl
        · rfl
      · intro j t' c' hj
        simp only [walUse_get_set hi] at hj
        split at hj
        · rename_i e; subst e; cases hj; simp
        · exact more (ha j t' c' hj)
      · intro t' c' hm
        obtain ⟨j, h1, h2⟩ := ht t' c' hm
        refine ⟨j, more h1, ?_⟩
        simp only [walUse_get_set hi]
        split
        · rename_i e; subst e; rw [hi] at h2; cases h2
        · exact h2
    · cases hs
  | write i =>
    simp only [WalUse.step] at hs
    split at hs
    · rename_i t c hi
      have h1 : ∀ j, (((s.ws.set i ⟨.told, c⟩)[j]?).map (·.data)).getD [] = Spec.appended j (as ++ [.write i]) := by
        intro j
        simp only [walUse_get_set hi]
        rw [← hd' j rfl]
        split
        · rename_i e; subst e; rw [hi]; rfl
        · rfl
      have h2 : ∀ j t' c', (s.ws.set i ⟨.told, c⟩)[j]? = some ⟨.signalled t', c'⟩ → Act.signal j t' ∈ as ++ [.write i] := by
        intro j t' c' hj
        simp only [walUse_get_set hi] at hj
        split at hj
        · cases hj
        · exact more (ha j t' c' hj)
      have h3 : ∀ t' c', Out.wrote t' c' ∈ s.outs → ∃ j, Act.signal j t' ∈ as ++ [.write i] ∧ (s.ws.set i ⟨.told, c⟩)[j]? = some ⟨.told, c'⟩ := by
        intro t' c' hm
        obtain ⟨j, g1, g2⟩ := ht t' c' hm
        refine ⟨j, more g1, ?_⟩
        simp only [walUse_get_set hi]
        split
        · rename_i e; subst e; rw [hi] at g2; cases g2
        · exact g2
      have h4 : ∀ t' c', Out.wrote t' c' ∈ Out.wrote t c :: s.outs →
          ∃ j, Act.signal j t' ∈ as ++ [.write i] ∧ (s.ws.set i ⟨.told, c⟩)[j]? = some ⟨.told, c'⟩ := by
        intro t' c' hm
        rcases List.mem_cons.mp hm with e | hm
        · cases e
          exact ⟨i, more (ha i t c hi), by simp [walUse_get_set hi]⟩
        · exact h3 t' c' hm
      split at hs
      · cases hs; exact ⟨h1, h2, h4⟩
      · split at hs
        · cases hs; exact ⟨h1, h2, h4⟩
        · cases hs; exact ⟨h1, h2, fun t' c' hm => h3 t' c' (by simpa using hm)⟩
    · cases hs
  | applied t =>
    simp only [WalUse.step] at hs
    cases hs
    exact ⟨fun i => hd' i rfl, fun i t c hi => more (ha i t c hi), keep _ (by intro t c hm; simpa using hm)⟩
  | close =>
    simp only [WalUse.step] at hs
    split at hs <;> cases hs
    · exact ⟨fun i => hd' i rfl, fun i t c hi => more (ha i t c hi), keep _ (by intro t c hm; simpa using hm)⟩
    · exact ⟨fun i => hd' i rfl, fun i t c hi => more (ha i t c hi), keep _ (by intro t c hm; exact hm)⟩
  | closeEnd =>
    simp only [WalUse.step] at hs
    split at hs <;> cases hs
    exact ⟨fun i => hd' i rfl, fun i t c hi => more (ha i t c hi), keep _ (by intro t c hm; simpa using hm)⟩

theorem calls_run : ∀ (as pre : List Act) {s s' : WalUse.State}, Calls pre s → run as s = some s' → Calls (pre ++ as) s'
  | [], pre, s, s', h, hr => by cases hr; simpa using h
  | a :: as, pre, s, s', h, hr => by
    rw [WalUse.run] at hr
    cases hs : step s a with
    | none => rw [hs] at hr; cases hr
    | some t =>
      rw [hs] at hr
      have := calls_run as (pre ++ [a]) (calls_step h a hs) hr
      simpa using this

/-- C113: what is reported as written under an id is what was appended to a writer that was signalled with this id, all of it and in order. -/
theorem C113_entries (as : List Act) (s : WalUse.State) (hr : run as State.init = some s) (t : Nat) (c : List Bytes) (h : Out.wrote t c ∈ s.outs) :
    ∃ i, Act.signal i t ∈ as ∧ c = Spec.appended i as := by
  have h0 : Calls [] State.init := ⟨fun i => by simp [State.init, Spec.appended], by intro i t c h; simp [State.init] at h, by intro t c h; simp [State.init] at h⟩
  have hc := calls_run as [] h0 hr
  obtain ⟨i, h1, h2⟩ := hc.told t c h
  refine ⟨i, by simpa using h1, ?_⟩
  have := hc.data i
  rw [h2] at this
  simpa using this

/-- C113, what holds of releasing: until Close has returned the directory is exactly what the answers say. -/
theorem C113_released_partial (as : List Act) (s : WalUse.State) (hr : run as State.init = some s) (h : Out.closed ∉ s.outs) (t : Nat) :
    s.files t = Spec.logFiles s.outs t := by
  have hi := walUse_run as walUse_init hr
  refine hi.exact ?_ t
  cases ho : s.opened with
  | true => rfl
  | false => exact absurd (hi.shut.mp ho) h

/-- C113: Close returns once, and only when every writer that was signalled has its answer; when all have theirs and Close was called, it returns. -/
theorem C113_waits (as : List Act) (s : WalUse.State) (hr : run as State.init = some s) :
    s.outs.count .closed ≤ 1 ∧ (∀ s', step s .closeEnd = some s' → Spec.inFlight s = 0) ∧
    (s.closing = true → Out.closed ∉ s.outs → Spec.inFlight s = 0 → ∃ s', step s .closeEnd = some s') := by
  have hi := walUse_run as walUse_init hr
  refine ⟨hi.once, ?_, ?_⟩
  · intro s' hs
    simp only [WalUse.step] at hs
    split at hs
    · rename_i hc
      rw [← hi.wg]
      exact hc.2.2
    · cases hs
  · intro hc hn hf
    have ho : s.opened = true := by
      cases ho : s.opened with
      | true => rfl
      | false => exact absurd (hi.shut.mp ho) hn
    exact ⟨_, by simp only [WalUse.step]; rw [if_pos ⟨hc, ho, hi.wg.trans hf⟩]⟩

/-- C113: a writer that was signalled gets an answer: its step is possible in every state. -/
theorem C113_answered (s : WalUse.State) (i t : Nat) (c : List Bytes) (h : s.ws[i]? = some ⟨.signalled t, c⟩) :
    ∃ s', step s (.write i) = some s' ∧ (s'.outs = .wrote t c :: s.outs ∨ s'.outs = .failed t :: s.outs) := by
  simp only [WalUse.step, h]
  split
  · exact ⟨_, rfl, Or.inl rfl⟩
  · split
    · exact ⟨_, rfl, Or.inl rfl⟩
    · exact ⟨_, rfl, Or.inr rfl⟩

/-- C113: once Close has returned, the directory stays as it is. -/
theorem C113_closed : ∀ (as : List Act) (s s' : WalUse.State), s.opened = false → run as s = some s' → s'.files = s.files
  | [], s, s', _, hr => by cases hr; rfl
  | a :: as, s, s', h, hr => by
    rw [WalUse.run] at hr
    cases hs : step s a with
    | none => rw [hs] at hr; cases hr
    | some t =>
      rw [hs] at hr
      have : t.opened = false ∧ t.files = s.files := by
        cases a <;> simp only [WalUse.step, h] at hs
        · split at hs <;> cases hs <;> exact ⟨by first | exact h | rfl, rfl⟩
        · split at hs
          · cases hs; exact ⟨by first | exact h | rfl, rfl⟩
          · cases hs
        · split at hs
          · cases hs; exact ⟨by first | exact h | rfl, rfl⟩
          · cases hs
        · split at hs
          · split at hs
            · cases hs; exact ⟨by first | exact h | rfl, rfl⟩
            · simp at hs; subst hs; exact ⟨by first | exact h | rfl, rfl⟩
          · cases hs
        · simp at hs; subst hs; exact ⟨by first | exact h | rfl, rfl⟩
        · split at hs <;> cases hs <;> exact ⟨by first | exact h | rfl, rfl⟩
        · simp at hs
      exact (C113_closed as t s' this.1 hr).trans this.2

/-- C113 is false of releasing: after Close a log is reported as released and stays in the directory, so the next start reads it again. -/
theorem C113_released_violated : ∃ as s, run as State.init = some s ∧ s.outs.head? = some (.freed 7) ∧ s.files 7 = some [[1]] :=
  ⟨[.writer, .append 0 [1], .signal 0 7, .write 0, .close, .closeEnd, .applied 7], _, rfl, rfl, rfl⟩

/-- A writer that is signalled between the two halves of Close: Close waits for it, and its log is written. -/
example : ∃ as s, run as State.init = some s ∧ s.outs = [.closed, .wrote 7 [[1], [2]], .refused] ∧ s.files 7 = some [[1], [2]] :=
  ⟨[.writer, .append 0 [1], .append 0 [], .append 0 [2], .close, .signal 0 7, .writer, .write 0, .closeEnd], _, rfl, rfl, rfl⟩

/-- One that is signalled after Close is told that its log was not written. -/
example : ∃ as s, run as State.init = some s ∧ s.outs = [.failed 7, .closed] ∧ s.files 7 = none :=
  ⟨[.writer, .append 0 [1], .close, .closeEnd, .signal 0 7, .write 0], _, rfl, rfl, rfl⟩

end Verif
