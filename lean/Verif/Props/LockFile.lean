import Verif.Model.LockFile

/-!
# C81: a directory has one open database at a time

`Open` refuses a directory another open database is using, and accepts one that none is using.
-/

namespace Verif

/-- A database is open on the directory: this call of `Open` has returned it and `Close` was not called. -/
def Spec.Open (d : LockDir) (p : Nat) : Prop := ∃ i, d.calls[p]? = some (.inUse i)

/-- No `Close` removes the name between the two system calls of an `Open`. -/
def Spec.Orderly (d : LockDir) : List LStep → Prop
  | [] => True
  | st :: rest => (∀ p, st = .remove p → ∀ (q i : Nat), d.calls[q]? ≠ some (LPhase.opening i)) ∧ Spec.Orderly (d.step st) rest

/-- What holds in an orderly run. -/
structure LockDir.Inv (d : LockDir) : Prop where
  alone : ∀ (p q : Nat) (a b : LPhase) (i : Nat), d.calls[p]? = some a → d.calls[q]? = some b → a.locks = some i → b.locks = some i → p = q
  opening : ∀ (p i : Nat), d.calls[p]? = some (LPhase.opening i) → d.name = some i
  inUse : ∀ (p i : Nat), d.calls[p]? = some (.inUse i) → d.name = some i
  nostuck : ∀ (p i : Nat), d.calls[p]? ≠ some (.stuck i)
  made : ∀ (p : Nat) (a : LPhase) (i : Nat), d.calls[p]? = some a → a.locks = some i → i < d.made
  named : ∀ i, d.name = some i → i < d.made

theorem LockDir.Inv.new : LockDir.new.Inv :=
  ⟨by simp [LockDir.new], by simp [LockDir.new], by simp [LockDir.new], by simp [LockDir.new], by simp [LockDir.new], by simp [LockDir.new]⟩

theorem LockDir.locked_iff (d : LockDir) (i : Nat) : d.locked i = true ↔ ∃ (p : Nat) (a : LPhase), d.calls[p]? = some a ∧ a.locks = some i := by
  unfold LockDir.locked
  rw [List.any_eq_true]
  constructor
  · rintro ⟨a, ha, h⟩
    obtain ⟨p, hp⟩ := List.getElem?_of_mem ha
    exact ⟨p, a, hp, by simpa using h⟩
  · rintro ⟨p, a, hp, h⟩
    exact ⟨a, List.mem_of_getElem? hp, by simpa using h⟩

/-- A call whose descriptor is closed, refused or kept but not used. -/
theorem LockDir.Inv.set {d : LockDir} (J : d.Inv) {p : Nat} {a b : LPhase} (ha : d.calls[p]? = some a)
    (hl : ∀ i, b.locks = some i → a.locks = some i) (ho : ∀ i, b ≠ .opening i) (hu : ∀ i, b ≠ .inUse i) (hs : ∀ i, b ≠ .stuck i) :
    LockDir.Inv { d with calls := d.calls.set p b } := by
  have hp : p < d.calls.length := (List.getElem?_eq_some_iff.1 ha).1
  have get : ∀ q c, (d.calls.set p b)[q]? = some c → (q = p ∧ c = b) ∨ (q ≠ p ∧ d.calls[q]? = some c) := by
    intro q c h
    rw [List.getElem?_set] at h
    by_cases e : p = q
    · subst e; rw [if_pos rfl, if_pos hp] at h; exact .inl ⟨rfl, (Option.some.inj h).symm⟩
    · rw [if_neg e] at h; exact .inr ⟨fun e' => e e'.symm, h⟩
  refine ⟨?_, ?_, ?_, ?_, ?_, J.named⟩
  · intro q r x y i hq hr hx hy
    rcases get q x hq with ⟨rfl, rfl⟩ | ⟨_, hq'⟩ <;> rcases get r y hr with ⟨rfl, rfl⟩ | ⟨_, hr'⟩
    · rfl
    · exact J.alone _ _ _ _ i ha hr' (hl i hx) hy
    · exact J.alone _ _ _ _ i hq' ha hx (hl i hy)
    · exact J.alone _ _ _ _ i hq' hr' hx hy
  · intro q i hq
    rcases get q _ hq with ⟨_, e⟩ | ⟨_, hq⟩
    · exact absurd e.symm (ho i)
    · exact J.opening q i hq
  · intro q i hq
    rcases get q _ hq with ⟨_, e⟩ | ⟨_, hq⟩
    · exact absurd e.symm (hu i)
    · exact J.inUse q i hq
  · intro q i hq
    rcases get q _ hq with ⟨_, e⟩ | ⟨_, hq⟩
    · exact absurd e.symm (hs i)
    · exact J.nostuck q i hq
  · intro q x i hq hx
    rcases get q _ hq with ⟨rfl, rfl⟩ | ⟨_, hq⟩
    · exact J.made _ _ i ha (hl i hx)
    · exact J.made q x i hq hx

theorem LockDir.Inv.openFile {d : LockDir} (J : d.Inv) : d.openFile.Inv := by
  have get : ∀ (i q : Nat) (c : LPhase), (d.calls ++ [LPhase.opening i])[q]? = some c → (q = d.calls.length ∧ c = .opening i) ∨ d.calls[q]? = some c := by
    intro i q c h
    rw [List.getElem?_append] at h
    by_cases e : q < d.calls.length
    · rw [if_pos e] at h; exact .inr h
    · rw [if_neg e] at h
      obtain ⟨h1, h2⟩ := List.getElem?_eq_some_iff.1 h
      simp only [List.length_cons, List.length_nil] at h1
      have e' : q = d.calls.length := by omega
      subst e'
      simp only [Nat.sub_self, List.getElem_cons_zero] at h2
      exact .inl ⟨rfl, h2.symm⟩
  unfold LockDir.openFile
  cases hn : d.name with
  | some i =>
    refine ⟨?_, ?_, ?_, ?_, ?_, fun j e => J.named j (hn ▸ e)⟩
    · intro p q a b j hp hq ha hb
      rcases get _ _ _ hp with ⟨_, rfl⟩ | hp
      · cases ha
      · rcases get _ _ _ hq with ⟨_, rfl⟩ | hq
        · cases hb
        · exact J.alone _ _ _ _ j hp hq ha hb
    · intro p j hp
      rcases get _ _ _ hp with ⟨_, e⟩ | hp
      · injection e with e; rw [e]
      · exact hn.symm.trans (J.opening p j hp)
    · intro p j hp
      rcases get _ _ _ hp with ⟨_, e⟩ | hp
      · cases e
      · exact hn.symm.trans (J.inUse p j hp)
    · intro p j hp
      rcases get _ _ _ hp with ⟨_, e⟩ | hp
      · cases e
      · exact J.nostuck p j hp
    · intro p a j hp ha
      rcases get _ _ _ hp with ⟨_, rfl⟩ | hp
      · cases ha
      · exact J.made p a j hp ha
  | none =>
    refine ⟨?_, ?_, ?_, ?_, ?_, ?_⟩
    · intro p q a b j hp hq ha hb
      rcases get _ _ _ hp with ⟨_, rfl⟩ | hp
      · cases ha
      · rcases get _ _ _ hq with ⟨_, rfl⟩ | hq
        · cases hb
        · exact J.alone _ _ _ _ j hp hq ha hb
    · intro p j hp
      rcases get _ _ _ hp with ⟨_, e⟩ | hp
      · injection e with e; rw [e]
      · have := J.opening p j hp; rw [hn] at this; cases this
    · intro p j hp
      rcases get _ _ _ hp with ⟨_, e⟩ | hp
      · cases e
      · have := J.inUse p j hp; rw [hn] at this; cases this
    · intro p j hp
      rcases get _ _ _ hp with ⟨_, e⟩ | hp
      · cases e
      · exact J.nostuck p j hp
    · intro p a j hp ha
      rcases get _ _ _ hp with ⟨_, rfl⟩ | hp
      · cases ha
      · exact Nat.lt_succ_of_lt (J.made p a j hp ha)
    · intro j e; injection e with e; subst e; exact Nat.lt_succ_self _

theorem LockDir.Inv.flock {d : LockDir} (J : d.Inv) (p : Nat) : (d.flock p).Inv := by
  unfold LockDir.flock
  split
  next i hp =>
    split
    · exact J.set hp (by intro i h; cases h) (by intro i h; cases h) (by intro i h; cases h) (by intro i h; cases h)
    next hl =>
      have hl : ∀ (q : Nat) (a : LPhase), d.calls[q]? = some a → a.locks ≠ some i :=
        fun q a hq ha => hl ((d.locked_iff i).2 ⟨q, a, hq, ha⟩)
      have hlen : p < d.calls.length := (List.getElem?_eq_some_iff.1 hp).1
      have get : ∀ q c, (d.calls.set p (.inUse i))[q]? = some c → (q = p ∧ c = .inUse i) ∨ (q ≠ p ∧ d.calls[q]? = some c) := by
        intro q c h
        rw [List.getElem?_set] at h
        by_cases e : p = q
        · subst e; rw [if_pos rfl, if_pos hlen] at h; exact .inl ⟨rfl, (Option.some.inj h).symm⟩
        · rw [if_neg e] at h; exact .inr ⟨fun e' => e e'.symm, h⟩
      have hn := J.opening p i hp
      refine ⟨?_, ?_, ?_, ?_, ?_, J.named⟩
      · intro q r x y j hq hr hx hy
        rcases get q x hq with ⟨rfl, rfl⟩ | ⟨_, hq'⟩
        · rcases get r y hr with ⟨rfl, rfl⟩ | ⟨_, hr'⟩
          · rfl
          · injection hx with e; subst e; exact absurd hy (hl r y hr')
        · rcases get r y hr with ⟨rfl, rfl⟩ | ⟨_, hr'⟩
          · injection hy with e; subst e; exact absurd hx (hl q x hq')
          · exact J.alone _ _ _ _ j hq' hr' hx hy
      · intro q j hq
        rcases get q _ hq with ⟨_, e⟩ | ⟨_, hq⟩
        · cases e
        · exact J.opening q j hq
      · intro q j hq
        rcases get q _ hq with ⟨_, e⟩ | ⟨_, hq⟩
        · injection e with e; subst e; exact hn
        · exact J.inUse q j hq
      · intro q j hq
        rcases get q _ hq with ⟨_, e⟩ | ⟨_, hq⟩
        · cases e
        · exact J.nostuck q j hq
      · intro q x j hq hx
        rcases get q _ hq with ⟨rfl, rfl⟩ | ⟨_, hq⟩
        · injection hx with e; subst e; exact J.named _ hn
        · exact J.made q x j hq hx
  next => exact J

theorem LockDir.Inv.remove {d : LockDir} (J : d.Inv) (p : Nat) (calm : ∀ (q i : Nat), d.calls[q]? ≠ some (.opening i)) : (d.remove p).Inv := by
  unfold LockDir.remove
  split
  next i hp =>
    have hn := J.inUse p i hp
    split
    next k hk =>
      have J' := J.set (b := .removed i) hp (by intro j h; exact h) (by intro j h; cases h) (by intro j h; cases h) (by intro j h; cases h)
      have hlen : p < d.calls.length := (List.getElem?_eq_some_iff.1 hp).1
      refine ⟨J'.alone, ?_, ?_, J'.nostuck, J'.made, by intro j h; cases h⟩
      · intro q j hq
        simp only [List.getElem?_set, hlen, if_true] at hq
        split at hq
        · cases hq
        · exact absurd hq (calm q j)
      · intro q j hq
        simp only [List.getElem?_set, hlen, if_true] at hq
        split at hq
        · cases hq
        next e =>
          have e2 := J.inUse q j hq
          rw [hn] at e2; injection e2 with e2; subst e2
          exact absurd (J.alone p q _ _ i hp hq rfl rfl) e
    next hk => rw [hn] at hk; cases hk
  next => exact J

/-- An orderly run keeps the invariant. -/
theorem LockDir.Inv.run {l : List LStep} : ∀ {d : LockDir}, d.Inv → Spec.Orderly d l → (d.run l).Inv := by
  induction l with
  | nil => intro d J _; exact J
  | cons st rest ih =>
    intro d J h
    refine ih ?_ h.2
    cases st with
    | openFile => exact J.openFile
    | flock p => exact J.flock p
    | remove p => exact J.remove p (h.1 p rfl)
    | fail p =>
      show (d.fail p).Inv
      unfold LockDir.fail
      split
      next i hp => exact J.set hp (by intro j h; exact h) (by intro j h; cases h) (by intro j h; cases h) (by intro j h; cases h)
      next => exact J
    | close p =>
      show (d.close p).Inv
      unfold LockDir.close
      split
      next i hp => exact J.set hp (by intro j h; cases h) (by intro j h; cases h) (by intro j h; cases h) (by intro j h; cases h)
      next => exact J
    | crash p =>
      show (d.crash p).Inv
      unfold LockDir.crash
      split
      next i hp => exact J.set hp (by intro j h; cases h) (by intro j h; cases h) (by intro j h; cases h) (by intro j h; cases h)
      next => exact J
    | collect p =>
      show (d.collect p).Inv
      unfold LockDir.collect
      split
      next i hp => exact J.set hp (by intro j h; cases h) (by intro j h; cases h) (by intro j h; cases h) (by intro j h; cases h)
      next => exact J

/-- **C81 (part).** Whatever the programs that use a directory do, and wherever they are stopped, at most one database is open on
it, as long as no `Close` removes the lock file between the two system calls of an `Open`. -/
theorem C81_alone_partial (l : List LStep) (h : Spec.Orderly .new l) (p q : Nat) (hp : Spec.Open (LockDir.new.run l) p)
    (hq : Spec.Open (LockDir.new.run l) q) : p = q := by
  have J := LockDir.Inv.new.run h
  obtain ⟨i, hp⟩ := hp
  obtain ⟨j, hq⟩ := hq
  have e : some i = some j := (J.inUse p i hp).symm.trans (J.inUse q j hq)
  injection e with e
  subst e
  exact J.alone p q _ _ i hp hq rfl rfl

/-- Three programs: the first crashes, the second is refused while the third has the database, and gets it after its `Close`. -/
def toyLocks : List LStep :=
  [.openFile, .flock 0, .crash 0, .openFile, .openFile, .flock 2, .flock 1, .remove 2, .close 2, .openFile, .flock 3]

example : Spec.Orderly .new toyLocks ∧ Spec.Open (LockDir.new.run toyLocks) 3
    ∧ (LockDir.new.run toyLocks).calls = [.over, .refused, .over, .inUse 1] := by
  refine ⟨⟨nofun, nofun, nofun, nofun, nofun, nofun, nofun, fun _ _ q i => ?_, nofun, nofun, nofun, trivial⟩, ⟨1, by decide⟩, by decide⟩
  match q with
  | 0 | 1 | 2 => exact nofun
  | q + 3 => exact nofun

/-- **C81 (part).** While a database is open on the directory another `Open` is refused, and the open one is left as it was. -/
theorem C81_refused_partial (l : List LStep) (h : Spec.Orderly .new l) (p : Nat) (hp : Spec.Open (LockDir.new.run l) p) :
    let d := LockDir.new.run l
    d.openNow.calls = d.calls ++ [.refused] ∧ d.openNow.name = d.name := by
  intro d
  have J : d.Inv := LockDir.Inv.new.run h
  obtain ⟨i, hp⟩ := hp
  have hn : d.name = some i := J.inUse p i hp
  have hl : p < d.calls.length := (List.getElem?_eq_some_iff.1 hp).1
  have h1 : d.openFile = { d with calls := d.calls ++ [.opening i] } := by unfold LockDir.openFile; rw [hn]
  have h2 : LockDir.locked { d with calls := d.calls ++ [LPhase.opening i] } i = true :=
    (LockDir.locked_iff _ i).2 ⟨p, .inUse i, by rw [List.getElem?_append_left hl]; exact hp, rfl⟩
  unfold LockDir.openNow LockDir.flock
  rw [h1]
  simp only [List.getElem?_concat_length, h2, if_true]
  exact ⟨by simp, trivial⟩

example : ∃ l, Spec.Orderly .new l ∧ Spec.Open (LockDir.new.run l) 0 :=
  ⟨[.openFile, .flock 0], ⟨nofun, nofun, trivial⟩, 0, by decide⟩

/-- **C81 (part).** `Close` of an open database succeeds, and the directory can be opened again at once. -/
theorem C81_close_partial (l : List LStep) (h : Spec.Orderly .new l) (p : Nat) (hp : Spec.Open (LockDir.new.run l) p) :
    let d := LockDir.new.run l
    (d.closeNow p).calls[p]? = some .over ∧ Spec.Open (d.closeNow p).openNow (d.closeNow p).calls.length := by
  intro d
  have J : d.Inv := LockDir.Inv.new.run h
  obtain ⟨i, hp⟩ := hp
  have hn : d.name = some i := J.inUse p i hp
  have hl : p < d.calls.length := (List.getElem?_eq_some_iff.1 hp).1
  have h1 : d.remove p = ⟨none, d.made, d.calls.set p (.removed i)⟩ := by
    unfold LockDir.remove
    rw [show d.calls[p]? = some (.inUse i) from hp]
    simp only [hn]
  have h2 : d.closeNow p = ⟨none, d.made, d.calls.set p .over⟩ := by
    unfold LockDir.closeNow LockDir.close
    rw [h1]
    simp only [List.getElem?_set_self hl, List.set_set]
  rw [h2]
  refine ⟨by simp [List.getElem?_set_self hl], ?_⟩
  have h3 : LockDir.locked ⟨some d.made, d.made + 1, d.calls.set p .over ++ [.opening d.made]⟩ d.made = false := by
    cases h : LockDir.locked ⟨some d.made, d.made + 1, d.calls.set p .over ++ [.opening d.made]⟩ d.made with
    | false => rfl
    | true =>
      exfalso
      obtain ⟨q, a, hq, ha⟩ := (LockDir.locked_iff _ _).1 h
      have hm := List.mem_of_getElem? hq
      rcases List.mem_append.1 hm with hm | hm
      · rcases List.mem_or_eq_of_mem_set hm with hm | rfl
        · obtain ⟨r, hr⟩ := List.getElem?_of_mem hm
          exact absurd (J.made r a _ hr ha) (Nat.lt_irrefl _)
        · cases ha
      · rw [List.mem_singleton.1 hm] at ha; cases ha
  unfold LockDir.openNow LockDir.openFile LockDir.flock
  simp only [List.getElem?_concat_length, h3]
  exact ⟨d.made, by simp⟩

example : ∃ l, Spec.Orderly .new l ∧ Spec.Open (LockDir.new.run l) 1 ∧ (LockDir.new.run l).calls.length = 3 :=
  ⟨[.openFile, .openFile, .flock 1, .flock 0, .openFile, .crash 2],
    ⟨nofun, nofun, nofun, nofun, nofun, nofun, trivial⟩, ⟨0, by decide⟩, by decide⟩

/-- **C81 (part).** After a crash of every program that used the directory it can be opened, though the lock file is still there. -/
theorem C81_crash_partial (d : LockDir) (h : ∀ c ∈ d.calls, c = .over ∨ c = .refused) : Spec.Open d.openNow d.calls.length := by
  have no : ∀ (i n : Nat) (m : Option Nat), LockDir.locked ⟨m, n, d.calls ++ [.opening i]⟩ i = false := by
    intro i n m
    cases hh : LockDir.locked ⟨m, n, d.calls ++ [.opening i]⟩ i with
    | false => rfl
    | true =>
      exfalso
      obtain ⟨q, a, hq, ha⟩ := (LockDir.locked_iff _ _).1 hh
      rcases List.mem_append.1 (List.mem_of_getElem? hq) with hm | hm
      · rcases h a hm with rfl | rfl <;> cases ha
      · rw [List.mem_singleton.1 hm] at ha; cases ha
  unfold LockDir.openNow LockDir.openFile
  cases hn : d.name with
  | some i =>
    unfold LockDir.flock
    simp only [List.getElem?_concat_length, no]
    exact ⟨i, by simp⟩
  | none =>
    unfold LockDir.flock
    simp only [List.getElem?_concat_length, no]
    exact ⟨d.made, by simp⟩

example : ∃ d : LockDir, (∀ c ∈ d.calls, c = .over ∨ c = .refused) ∧ d.name = some 0 ∧ d.calls.length = 2 :=
  ⟨LockDir.new.run [.openFile, .openFile, .flock 1, .flock 0, .crash 1], by decide, by decide, by decide⟩

/-- **C81, violated.** A `Close` between the two system calls of an `Open` makes that `Open` lock a file that no longer has a name;
the next `Open` makes a new file and locks that. Two databases are open on the directory. -/
theorem C81_alone_violated : ∃ l : List LStep, Spec.Open (LockDir.new.run l) 1 ∧ Spec.Open (LockDir.new.run l) 2 :=
  ⟨[.openFile, .flock 0, .openFile, .remove 0, .close 0, .flock 1, .openFile, .flock 2], ⟨0, by decide⟩, ⟨1, by decide⟩⟩

/-- **C81, violated.** When one of the two is closed it takes away the lock file of the other: a third `Open` succeeds while the
other is open, and the `Close` after that returns an error. -/
theorem C81_close_violated : ∃ l : List LStep, Spec.Open (LockDir.new.run l) 2
    ∧ Spec.Open (LockDir.new.run l).openNow 3 ∧ Spec.Open (LockDir.new.run l).openNow 2
    ∧ ((LockDir.new.run l).closeNow 2).calls[2]? = some (.stuck 1) :=
  ⟨[.openFile, .flock 0, .openFile, .remove 0, .close 0, .flock 1, .openFile, .flock 2, .remove 1, .close 1],
    ⟨1, by decide⟩, ⟨2, by decide⟩, ⟨1, by decide⟩, by decide⟩

/-- **C81, violated.** An `Open` that returned an error once it had the lock keeps it: no database is open on the directory, and
`Open` is refused until the program ends or the garbage collector closes the descriptor. -/
theorem C81_failed_violated : ∃ l : List LStep, Spec.Orderly .new l ∧ (∀ p, ¬ Spec.Open (LockDir.new.run l) p)
    ∧ (LockDir.new.run l).openNow.calls = (LockDir.new.run l).calls ++ [.refused] := by
  refine ⟨[.openFile, .flock 0, .fail 0], ⟨nofun, nofun, nofun, trivial⟩, ?_, by decide⟩
  rintro (_ | p) ⟨i, hp⟩ <;> cases hp

end Verif
