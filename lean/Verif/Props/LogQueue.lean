import Verif.Model.LogQueue
import Mathlib.Data.List.Perm.Basic

/-!
# C82: Close writes every accepted message to the log, and returns

Also: when the `Write` of a batch returns, the messages of the batch are in the log.
-/

namespace Verif

/-- The messages a schedule accepts. -/
def Spec.accepted : List QStep → List Bytes
  | [] => []
  | .put m :: rest => m :: Spec.accepted rest
  | .batch _ ms :: rest => ms ++ Spec.accepted rest
  | _ :: rest => Spec.accepted rest

/-- The queue of logs is never full when one is added, and no write fails. -/
def Spec.Smooth (s : LogQ) : List QStep → Prop
  | [] => True
  | st :: rest => (st = .dispatch → s.logQ.length < 27) ∧ st ≠ .commit false ∧ ∀ s', s.step st = some s' → Spec.Smooth s' rest

/-- What a list of blocks holds beyond what was written. -/
def unwritten (m : AMap Nat QBlock) : List Bytes := m.flatMap fun p => p.2.data.drop p.2.last

theorem AMap.perm_of_get {κ ν : Type} [DecidableEq κ] {m : AMap κ ν} (h : AMap.Nodup m) {k : κ} {v : ν} (hg : AMap.get m k = some v) :
    m.Perm ((k, v) :: AMap.del m k) := by
  induction m with
  | nil => cases hg
  | cons p m ih =>
    have hn : p.1 ∉ AMap.keys m ∧ AMap.Nodup m := List.nodup_cons.1 h
    simp only [AMap.get] at hg
    by_cases hp : p.1 = k
    · rw [if_pos hp] at hg
      have hd : AMap.del (p :: m) k = m := by
        show List.filter _ _ = m
        rw [List.filter_cons, if_neg (by simpa using hp)]
        refine List.filter_eq_self.2 fun q hq => ?_
        simp only [decide_eq_true_eq]
        exact fun e => hn.1 (by rw [hp, ← e]; exact List.mem_map_of_mem hq)
      rw [hd]
      have : p = (k, v) := Prod.ext hp (Option.some.inj hg)
      rw [this]
    · rw [if_neg hp] at hg
      have hd : AMap.del (p :: m) k = p :: AMap.del m k := by
        show List.filter _ _ = _
        rw [List.filter_cons, if_pos (by simpa using hp)]; rfl
      rw [hd]
      exact ((ih hn.2 hg).cons p).trans (List.Perm.swap _ _ _)

theorem unwritten_cons (k : Nat) (b : QBlock) (m : AMap Nat QBlock) : unwritten ((k, b) :: m) = b.data.drop b.last ++ unwritten m := rfl

theorem unwritten_perm {m m' : AMap Nat QBlock} (h : m.Perm m') : (unwritten m).Perm (unwritten m') := h.flatMap_right _

theorem unwritten_get {m : AMap Nat QBlock} (h : AMap.Nodup m) {k : Nat} {b : QBlock} (hg : AMap.get m k = some b) :
    (unwritten m).Perm (b.data.drop b.last ++ unwritten (AMap.del m k)) := unwritten_perm (AMap.perm_of_get h hg)

theorem del_of_none {m : AMap Nat QBlock} {k : Nat} (hg : AMap.get m k = none) : AMap.del m k = m := by
  refine List.filter_eq_self.2 fun q hq => ?_
  simp only [decide_eq_true_eq]
  intro e
  have := (AMap.mem_keys m k).1 (by rw [← e]; exact List.mem_map_of_mem hq)
  rw [hg] at this; cases this

/-- What holds all through a smooth schedule that accepted the messages `A`. -/
structure LogQ.Inv (s : LogQ) (A : List Bytes) : Prop where
  nodup : AMap.Nodup s.blocks
  perm : (s.wal ++ unwritten s.blocks).Perm A
  last : ∀ t b, AMap.get s.blocks t = some b → b.last ≤ b.data.length
  cur : (AMap.get s.blocks s.cur.block).isSome
  flight : ∀ t b, AMap.get s.blocks t = some b → b.last < b.data.length →
    (s.wrote = false ∧ s.cur.block = t) ∨ (∃ x ∈ s.writeQ, x.block = t) ∨ ∃ x ∈ s.logQ, x.block = t
  wrote : s.wrote = true → s.stop = true
  done : s.disp = .done → s.wrote = true ∧ s.writeQ = []
  over : s.over = true → s.disp = .done ∧ s.logQ = []

theorem LogQ.Inv.new (t : Nat) : (LogQ.new t).Inv [] := by
  refine ⟨by simp [LogQ.new, AMap.Nodup, AMap.keys], by simp [LogQ.new, unwritten], ?_, by simp [LogQ.new, AMap.get], ?_, by simp [LogQ.new], by simp [LogQ.new], by simp [LogQ.new]⟩
  · intro t' b h
    simp only [LogQ.new, AMap.get] at h
    split at h
    · injection h with h; subst h; exact Nat.le_refl _
    · cases h
  · intro t' b h
    simp only [LogQ.new, AMap.get] at h
    split at h
    · injection h with h; subst h; intro h; exact absurd h (Nat.lt_irrefl _)
    · cases h

theorem LogQ.addBlock_get (s : LogQ) (t : Nat) (ms : List Bytes) (k : Nat) :
    AMap.get (s.addBlock t ms) k = if k = t ∧ AMap.get s.blocks t = none then some { data := ms } else AMap.get s.blocks k := by
  unfold LogQ.addBlock
  cases h : AMap.get s.blocks t with
  | some b => simp
  | none =>
    simp only [AMap.get_set, and_true]

theorem LogQ.addBlock_nodup {s : LogQ} (h : AMap.Nodup s.blocks) (t : Nat) (ms : List Bytes) : AMap.Nodup (s.addBlock t ms) := by
  unfold LogQ.addBlock
  split
  · exact h
  · exact h.set _ _

theorem LogQ.Inv.put {s s' : LogQ} {A : List Bytes} (J : s.Inv A) (m : Bytes) (h : s.put m = some s') : s'.Inv (A ++ [m]) := by
  unfold LogQ.put at h
  cases hs : s.stop with
  | true => rw [hs] at h; cases h
  | false =>
  rw [if_neg (by rw [hs]; nofun)] at h
  cases hb : AMap.get s.blocks s.cur.block with
  | none => rw [hb] at h; cases h
  | some b =>
    rw [hb] at h
    injection h with h
    subst h
    have hw : s.wrote = false := by
      cases hw : s.wrote with
      | false => rfl
      | true => have := J.wrote hw; rw [hs] at this; cases this
    have hl := J.last _ _ hb
    refine ⟨J.nodup.set _ _, ?_, ?_, by rw [AMap.get_set_self]; rfl, ?_, J.wrote, J.done, J.over⟩
    · have h1 := unwritten_get J.nodup hb
      have h2 : unwritten (AMap.set s.blocks s.cur.block { b with data := b.data ++ [m] })
          = (b.data.drop b.last ++ [m]) ++ unwritten (AMap.del s.blocks s.cur.block) := by
        show List.drop b.last (b.data ++ [m]) ++ _ = _
        rw [List.drop_append_of_le_length hl]; rfl
      rw [h2]
      refine (List.Perm.append_left s.wal (t₂ := (b.data.drop b.last ++ unwritten (AMap.del s.blocks s.cur.block)) ++ [m]) ?_).trans ?_
      · rw [List.append_assoc, List.append_assoc]
        exact List.Perm.append_left _ List.perm_append_comm
      · rw [← List.append_assoc]
        exact List.Perm.append_right _ ((List.Perm.append_left s.wal h1.symm).trans J.perm)
    · intro t b' h
      rw [AMap.get_set] at h
      split at h
      · injection h with h; subst h; show b.last ≤ (b.data ++ [m]).length; rw [List.length_append]; omega
      · exact J.last t b' h
    · intro t b' h hlt
      rw [AMap.get_set] at h
      split at h
      next e => exact .inl ⟨hw, e.symm⟩
      · exact J.flight t b' h hlt

/-- The block a tick or a batch adds. -/
theorem LogQ.Inv.addBlock_last {s : LogQ} {A : List Bytes} (J : s.Inv A) (t : Nat) (ms : List Bytes) (k : Nat) (b : QBlock)
    (h : AMap.get (s.addBlock t ms) k = some b) : b.last ≤ b.data.length := by
  rw [LogQ.addBlock_get] at h
  split at h
  · injection h with h; subst h; exact Nat.zero_le _
  · exact J.last k b h

theorem LogQ.Inv.addBlock_perm {s : LogQ} {A : List Bytes} (J : s.Inv A) {t : Nat} {ms : List Bytes}
    (h : ms = [] ∨ AMap.get s.blocks t = none) : (s.wal ++ unwritten (s.addBlock t ms)).Perm (A ++ ms) := by
  unfold LogQ.addBlock
  cases hg : AMap.get s.blocks t with
  | some b =>
    rcases h with rfl | h
    · rw [List.append_nil]; exact J.perm
    · rw [h] at hg; cases hg
  | none =>
    show (s.wal ++ unwritten ((t, ({ data := ms } : QBlock)) :: AMap.del s.blocks t)).Perm _
    rw [unwritten_cons, del_of_none hg, List.drop_zero]
    refine (List.Perm.append_left s.wal List.perm_append_comm).trans ?_
    rw [← List.append_assoc]
    exact J.perm.append_right ms

theorem LogQ.Inv.tick {s s' : LogQ} {A : List Bytes} (J : s.Inv A) (t : Nat) (h : s.tick t = some s') : s'.Inv A := by
  unfold LogQ.tick at h
  split at h
  · cases h
  next hc =>
  injection h with h
  subst h
  have hw : s.wrote = false := by cases hw : s.wrote <;> simp_all
  refine ⟨LogQ.addBlock_nodup J.nodup _ _, ?_, J.addBlock_last t [], ?_, ?_, J.wrote, ?_, J.over⟩
  · have := J.addBlock_perm (t := t) (ms := []) (.inl rfl)
    rwa [List.append_nil] at this
  · show (AMap.get (s.addBlock t []) t).isSome
    rw [LogQ.addBlock_get]
    cases hg : AMap.get s.blocks t <;> simp
  · intro k b h hlt
    have h' : AMap.get (s.addBlock t []) k = some b := h
    rw [LogQ.addBlock_get] at h'
    split at h'
    · injection h' with e; subst e; exact absurd hlt (Nat.lt_irrefl _)
    · rcases J.flight k b h' hlt with ⟨_, e⟩ | ⟨x, hx, e⟩ | h
      · exact .inr (.inl ⟨s.cur, by simp, e⟩)
      · exact .inr (.inl ⟨x, by simp [hx], e⟩)
      · exact .inr (.inr h)
  · intro hd
    have := (J.done hd).1
    rw [hw] at this; cases this

theorem LogQ.Inv.lastWrite {s s' : LogQ} {A : List Bytes} (J : s.Inv A) (h : s.lastWrite = some s') : s'.Inv A := by
  unfold LogQ.lastWrite at h
  split at h
  · cases h
  next hc =>
  injection h with h
  subst h
  have hw : s.wrote = false := by cases hw : s.wrote <;> simp_all
  have hs : s.stop = true := by cases hs : s.stop <;> simp_all
  refine ⟨J.nodup, J.perm, J.last, J.cur, ?_, fun _ => hs, ?_, J.over⟩
  · intro k b h hlt
    rcases J.flight k b h hlt with ⟨_, e⟩ | ⟨x, hx, e⟩ | h
    · exact .inr (.inl ⟨s.cur, by simp, e⟩)
    · exact .inr (.inl ⟨x, by simp [hx], e⟩)
    · exact .inr (.inr h)
  · intro hd
    have := (J.done hd).1
    rw [hw] at this; cases this

theorem LogQ.Inv.batch {s s' : LogQ} {A : List Bytes} (J : s.Inv A) (t : Nat) (ms : List Bytes) (h : s.batch t ms = some s') : s'.Inv (A ++ ms) := by
  unfold LogQ.batch at h
  split at h
  · cases h
  next hc =>
  injection h with h
  subst h
  have hw : s.wrote = false := by cases hw : s.wrote <;> simp_all
  have hg : AMap.get s.blocks t = none := by cases hg : AMap.get s.blocks t <;> simp_all
  refine ⟨LogQ.addBlock_nodup J.nodup _ _, J.addBlock_perm (.inr hg), J.addBlock_last t ms, ?_, ?_, J.wrote, ?_, J.over⟩
  · show (AMap.get (s.addBlock t ms) s.cur.block).isSome
    rw [LogQ.addBlock_get]
    split
    · rfl
    · exact J.cur
  · intro k b h hlt
    have h' : AMap.get (s.addBlock t ms) k = some b := h
    rw [LogQ.addBlock_get] at h'
    split at h'
    next e => exact .inr (.inl ⟨⟨s.next, t⟩, by simp, e.1.symm⟩)
    · rcases J.flight k b h' hlt with h | ⟨x, hx, e⟩ | h
      · exact .inl h
      · exact .inr (.inl ⟨x, by simp [hx], e⟩)
      · exact .inr (.inr h)
  · intro hd
    have := (J.done hd).1
    rw [hw] at this; cases this

theorem LogQ.Inv.dispatch {s s' : LogQ} {A : List Bytes} (J : s.Inv A) (hl : s.logQ.length < 27) (h : s.dispatch = some s') : s'.Inv A := by
  unfold LogQ.dispatch at h
  split at h
  · cases h
  next hd =>
  have hd : s.disp = .ready := Decidable.not_not.1 hd
  split at h
  next x rest hq =>
    rw [if_pos (show s.logQ.length < logQueueCap from hl)] at h
    injection h with h
    subst h
    refine ⟨J.nodup, J.perm, J.last, J.cur, ?_, J.wrote, ?_, ?_⟩
    · intro k b h hlt
      rcases J.flight k b h hlt with h | ⟨y, hy, e⟩ | ⟨y, hy, e⟩
      · exact .inl h
      · rw [hq] at hy
        rcases List.mem_cons.1 hy with rfl | hy
        · exact .inr (.inr ⟨y, by simp, e⟩)
        · exact .inr (.inl ⟨y, hy, e⟩)
      · exact .inr (.inr ⟨y, by simp [hy], e⟩)
    · intro h; exact absurd h (by show s.disp ≠ _; rw [hd]; nofun)
    · intro h; have := (J.over h).1; rw [hd] at this; cases this
  next hq =>
    split at h
    next hw =>
      injection h with h
      subst h
      refine ⟨J.nodup, J.perm, J.last, J.cur, ?_, J.wrote, fun _ => ⟨hw, hq⟩, fun h => ⟨rfl, (J.over h).2⟩⟩
      intro k b h hlt
      exact J.flight k b h hlt
    · cases h

theorem LogQ.Inv.commit {s s' : LogQ} {A : List Bytes} (J : s.Inv A) (h : s.commit true = some s') : s'.Inv A := by
  unfold LogQ.commit at h
  split at h
  · cases h
  next ho =>
  split at h
  case h_2 hq =>
    split at h
    next hd =>
      injection h with h
      subst h
      exact ⟨J.nodup, J.perm, J.last, J.cur, J.flight, J.wrote, J.done, fun _ => ⟨hd.2, hq⟩⟩
    · cases h
  case h_1 x rest hq =>
    injection h with h
    subst h
    unfold LogQ.tinyWrite
    cases hb : AMap.get s.blocks x.block with
    | none =>
      refine ⟨J.nodup, J.perm, J.last, J.cur, ?_, J.wrote, J.done, fun h => absurd h ho⟩
      intro k b h hlt
      rcases J.flight k b h hlt with h | h | ⟨y, hy, e⟩
      · exact .inl h
      · exact .inr (.inl h)
      · rw [hq] at hy
        rcases List.mem_cons.1 hy with rfl | hy
        · rw [e] at hb; rw [show AMap.get s.blocks k = some b from h] at hb; cases hb
        · exact .inr (.inr ⟨y, hy, e⟩)
    | some c =>
      simp only [if_true]
      refine ⟨J.nodup.set _ _, ?_, ?_, ?_, ?_, J.wrote, J.done, fun h => absurd h ho⟩
      · show ((s.wal ++ c.data.drop c.last) ++ unwritten (AMap.set s.blocks x.block { c with last := c.data.length })).Perm A
        have h2 : unwritten (AMap.set s.blocks x.block { c with last := c.data.length }) = unwritten (AMap.del s.blocks x.block) := by
          show List.drop c.data.length c.data ++ _ = _
          rw [List.drop_length]; rfl
        rw [h2, List.append_assoc]
        exact (List.Perm.append_left s.wal (unwritten_get J.nodup hb).symm).trans J.perm
      · intro k b h
        have h' : AMap.get (AMap.set s.blocks x.block { c with last := c.data.length }) k = some b := h
        rw [AMap.get_set] at h'
        split at h'
        · injection h' with e; subst e; exact Nat.le_refl _
        · exact J.last k b h'
      · show (AMap.get (AMap.set s.blocks x.block { c with last := c.data.length }) s.cur.block).isSome
        rw [AMap.get_set]
        split
        · rfl
        · exact J.cur
      · intro k b h hlt
        have h' : AMap.get (AMap.set s.blocks x.block { c with last := c.data.length }) k = some b := h
        rw [AMap.get_set] at h'
        split at h'
        · injection h' with e; subst e; exact absurd hlt (Nat.lt_irrefl _)
        next hne =>
          rcases J.flight k b h' hlt with h | h | ⟨y, hy, e⟩
          · exact .inl h
          · exact .inr (.inl h)
          · rw [hq] at hy
            rcases List.mem_cons.1 hy with rfl | hy
            · exact absurd e.symm hne
            · exact .inr (.inr ⟨y, hy, e⟩)

theorem LogQ.Inv.run {l : List QStep} : ∀ {s s' : LogQ} {A : List Bytes}, s.Inv A → Spec.Smooth s l → s.run l = some s' →
    s'.Inv (A ++ Spec.accepted l) := by
  induction l with
  | nil =>
    intro s s' A J _ h
    injection h with h; subst h
    rwa [Spec.accepted, List.append_nil]
  | cons st rest ih =>
    intro s s' A J hs h
    obtain ⟨s1, h1, h2⟩ := Option.bind_eq_some_iff.1 h
    have hs' := hs.2.2 s1 h1
    cases st with
    | put m =>
      have := ih (J.put m h1) hs' h2
      rwa [List.append_assoc] at this
    | batch t ms =>
      have := ih (J.batch t ms h1) hs' h2
      rwa [List.append_assoc] at this
    | tick t => exact ih (J.tick t h1) hs' h2
    | dispatch => exact ih (J.dispatch (hs.1 rfl) h1) hs' h2
    | wake =>
      refine ih ?_ hs' h2
      simp only [LogQ.step, LogQ.wake] at h1
      split at h1
      next e =>
        injection h1 with h1; subst h1
        exact ⟨J.nodup, J.perm, J.last, J.cur, J.flight, J.wrote, fun h => (by cases h), fun h => (by have := (J.over h).1; rw [e] at this; cases this)⟩
      · cases h1
    | commit ok =>
      cases ok with
      | false => exact absurd rfl hs.2.1
      | true => exact ih (J.commit h1) hs' h2
    | stop =>
      refine ih ?_ hs' h2
      injection h1 with h1; subst h1
      exact ⟨J.nodup, J.perm, J.last, J.cur, J.flight, fun _ => rfl, J.done, J.over⟩
    | lastWrite => exact ih (J.lastWrite h1) hs' h2

/-- **C82 (part).** When `Close` has returned, the log holds every accepted message, each once, provided the queue of logs never
was full and no write failed: for every schedule of puts, batches, ticks and turns of the three goroutines. -/
theorem C82_logged_partial (t : Nat) (l : List QStep) (s : LogQ) (h : (LogQ.new t).run l = some s) (hs : Spec.Smooth (.new t) l)
    (ho : s.over = true) : s.wal.Perm (Spec.accepted l) := by
  have J := (LogQ.Inv.new t).run hs h
  rw [List.nil_append] at J
  have hd := (J.over ho).1
  have hw := J.done hd
  have hu : unwritten s.blocks = [] := by
    refine List.flatMap_eq_nil_iff.2 fun p hp => ?_
    have hg := J.nodup.get_of_mem (k := p.1) (v := p.2) hp
    refine List.drop_eq_nil_of_le ?_
    rcases Nat.lt_or_ge p.2.last p.2.data.length with hlt | hge
    · rcases J.flight _ _ hg hlt with ⟨e, _⟩ | ⟨x, hx, _⟩ | ⟨x, hx, _⟩
      · rw [hw.1] at e; cases e
      · rw [hw.2] at hx; cases hx
      · rw [(J.over ho).2] at hx; cases hx
    · exact hge
  have := J.perm
  rwa [hu, List.append_nil] at this

/-- Two puts, a batch between them, ticks within one block and to the next, and a Close. -/
def toyLogging : List QStep :=
  [.put [1], .tick 5, .dispatch, .put [2], .batch 77 [[3], [4]], .commit true, .dispatch, .tick 6, .put [5], .stop, .commit true, .dispatch,
    .lastWrite, .dispatch, .commit true, .commit true, .dispatch, .commit true]

/-- Whether the queue has room and the write succeeds, step by step. -/
def smooth (s : LogQ) : List QStep → Bool
  | [] => true
  | st :: rest => (if st = .dispatch then decide (s.logQ.length < 27) else true) && st != .commit false && (match s.step st with | some s' => smooth s' rest | none => true)

theorem smooth_iff (l : List QStep) : ∀ s : LogQ, smooth s l = true → Spec.Smooth s l := by
  induction l with
  | nil => intro s _; trivial
  | cons st rest ih =>
    intro s h
    simp only [smooth, Bool.and_eq_true] at h
    refine ⟨fun e => ?_, by simpa using h.1.2, fun s' hs' => ?_⟩
    · rw [if_pos e] at h; exact of_decide_eq_true h.1.1
    · have := h.2; rw [hs'] at this; exact ih s' this

example : ∃ s, (LogQ.new 5).run toyLogging = some s ∧ Spec.Smooth (.new 5) toyLogging ∧ s.over = true ∧ s.wal = [[1], [2], [3], [4], [5]] :=
  ⟨_, rfl, smooth_iff _ _ (by decide), by decide, by decide⟩

/-- What is left to do for `Close`. -/
def LogQ.work (s : LogQ) : Nat :=
  (if s.wrote then 0 else 6) + 4 * s.writeQ.length + 2 * s.logQ.length + (match s.disp with | .ready => 1 | .asleep => 2 | .done => 0)
    + (if s.over then 0 else 1)

/-- **C82.** `Close` returns: while it has not, one of the three goroutines can go on, and each of their turns other than a tick brings
the end nearer; whatever was dropped or failed before. -/
theorem C82_ends (s : LogQ) (hs : s.stop = true) (ho : s.over = false) :
    (∃ st ∈ [QStep.lastWrite, .dispatch, .wake, .commit true], (s.step st).isSome)
    ∧ ∀ st s', st ∈ [QStep.lastWrite, .dispatch, .wake, .commit true, .commit false] → s.step st = some s' → s'.work < s.work ∧ s'.stop = true := by
  constructor
  · by_cases hq : s.logQ = []
    · cases hd : s.disp with
      | asleep => exact ⟨.wake, by simp, by simp [LogQ.step, LogQ.wake, hd]⟩
      | done => exact ⟨.commit true, by simp, by simp [LogQ.step, LogQ.commit, hd, hq, ho, hs]⟩
      | ready =>
        cases hw : s.writeQ with
        | cons x rest => exact ⟨.dispatch, by simp, by simp only [LogQ.step, LogQ.dispatch, hd, hw]; simp; split <;> rfl⟩
        | nil =>
          cases hf : s.wrote with
          | true => exact ⟨.dispatch, by simp, by simp [LogQ.step, LogQ.dispatch, hd, hw, hf]⟩
          | false => exact ⟨.lastWrite, by simp, by simp [LogQ.step, LogQ.lastWrite, hs, hw, hf]⟩
    · obtain ⟨x, rest, hq⟩ := List.exists_cons_of_ne_nil hq
      exact ⟨.commit true, by simp, by simp [LogQ.step, LogQ.commit, hq, ho]⟩
  · intro st s' hst h
    have hcommit : ∀ ok, s.step (.commit ok) = some s' → s'.work < s.work ∧ s'.stop = true := by
      intro ok h
      simp only [LogQ.step, LogQ.commit, ho, Bool.false_eq_true, if_false] at h
      split at h
      next x rest hq =>
        injection h with h; subst h
        have hf : ∀ s1 : LogQ, s1 = s.tinyWrite x ok → s1.wrote = s.wrote ∧ s1.writeQ = s.writeQ ∧ s1.disp = s.disp ∧ s1.over = s.over ∧ s1.stop = s.stop := by
          intro s1 e; subst e
          unfold LogQ.tinyWrite
          split
          · exact ⟨rfl, rfl, rfl, rfl, rfl⟩
          · split <;> exact ⟨rfl, rfl, rfl, rfl, rfl⟩
        obtain ⟨h1, h2, h3, h4, h5⟩ := hf _ rfl
        refine ⟨?_, h5.trans hs⟩
        unfold LogQ.work
        simp only [h1, h2, h3, h4, hq, List.length_cons]
        omega
      · split at h
        next hd =>
          injection h with h; subst h
          refine ⟨?_, hs⟩
          unfold LogQ.work
          simp only [ho, if_true, Bool.false_eq_true, if_false]
          omega
        · cases h
    simp only [List.mem_cons, List.not_mem_nil, or_false] at hst
    rcases hst with rfl | rfl | rfl | rfl | rfl
    · simp only [LogQ.step, LogQ.lastWrite] at h
      split at h
      · cases h
      next hc =>
        injection h with h; subst h
        have hw : s.wrote = false := by cases hw : s.wrote <;> simp_all
        refine ⟨?_, hs⟩
        unfold LogQ.work
        simp only [hw, List.length_append, List.length_cons, List.length_nil, if_true, Bool.false_eq_true, if_false]
        omega
    · simp only [LogQ.step, LogQ.dispatch] at h
      split at h
      · cases h
      next hd =>
        have hd : s.disp = .ready := Decidable.not_not.1 hd
        split at h
        next x rest hq =>
          split at h <;> injection h with h <;> subst h <;> refine ⟨?_, hs⟩ <;> unfold LogQ.work <;>
            simp only [hd, hq, List.length_append, List.length_cons, List.length_nil] <;> omega
        · split at h
          · injection h with h; subst h; refine ⟨?_, hs⟩; unfold LogQ.work; simp only [hd]; omega
          · cases h
    · simp only [LogQ.step, LogQ.wake] at h
      split at h
      next hd => injection h with h; subst h; refine ⟨?_, hs⟩; unfold LogQ.work; simp only [hd]; omega
      · cases h
    · exact hcommit true h
    · exact hcommit false h

example : ∃ s, (LogQ.new 5).run (toyLogging.take 12) = some s ∧ s.stop = true ∧ s.over = false ∧ s.logQ ≠ [] := ⟨_, rfl, by decide, by decide, by decide⟩

/-- Every tiny log has its own number, and one that is finished or waits is older than the next. -/
structure LogQ.Ids (s : LogQ) : Prop where
  cur : s.cur.id < s.next
  writeQ : ∀ x ∈ s.writeQ, x.id < s.next
  logQ : ∀ x ∈ s.logQ, x.id < s.next
  finished : ∀ i ∈ s.finished, i < s.next

theorem LogQ.Ids.step {s s' : LogQ} (J : s.Ids) (st : QStep) (h : s.step st = some s') : s'.Ids := by
  cases st with
  | put m =>
    simp only [LogQ.step, LogQ.put] at h
    split at h
    · cases h
    · split at h
      · injection h with h; subst h; exact ⟨J.cur, J.writeQ, J.logQ, J.finished⟩
      · cases h
  | batch t ms =>
    simp only [LogQ.step, LogQ.batch] at h
    split at h
    · cases h
    · injection h with h; subst h
      refine ⟨Nat.lt_succ_of_lt J.cur, fun x hx => ?_, fun x hx => Nat.lt_succ_of_lt (J.logQ x hx), fun x hx => Nat.lt_succ_of_lt (J.finished x hx)⟩
      rcases List.mem_append.1 hx with hx | hx
      · exact Nat.lt_succ_of_lt (J.writeQ x hx)
      · rw [List.mem_singleton.1 hx]; exact Nat.lt_succ_self _
  | tick t =>
    simp only [LogQ.step, LogQ.tick] at h
    split at h
    · cases h
    · injection h with h; subst h
      refine ⟨Nat.lt_succ_self _, fun x hx => ?_, fun x hx => Nat.lt_succ_of_lt (J.logQ x hx), fun x hx => Nat.lt_succ_of_lt (J.finished x hx)⟩
      rcases List.mem_append.1 hx with hx | hx
      · exact Nat.lt_succ_of_lt (J.writeQ x hx)
      · rw [List.mem_singleton.1 hx]; exact Nat.lt_succ_of_lt J.cur
  | dispatch =>
    simp only [LogQ.step, LogQ.dispatch] at h
    split at h
    · cases h
    · split at h
      next x rest hq =>
        have hr : ∀ y ∈ rest, y.id < s.next := fun y hy => J.writeQ y (by rw [hq]; exact List.mem_cons_of_mem _ hy)
        split at h
        · injection h with h; subst h
          refine ⟨J.cur, hr, fun y hy => ?_, J.finished⟩
          rcases List.mem_append.1 hy with hy | hy
          · exact J.logQ y hy
          · rw [List.mem_singleton.1 hy]; exact J.writeQ x (by rw [hq]; exact List.mem_cons_self)
        · injection h with h; subst h; exact ⟨J.cur, hr, J.logQ, J.finished⟩
      · split at h
        · injection h with h; subst h; exact ⟨J.cur, J.writeQ, J.logQ, J.finished⟩
        · cases h
  | wake =>
    simp only [LogQ.step, LogQ.wake] at h
    split at h
    · injection h with h; subst h; exact ⟨J.cur, J.writeQ, J.logQ, J.finished⟩
    · cases h
  | commit ok =>
    simp only [LogQ.step, LogQ.commit] at h
    split at h
    · cases h
    · split at h
      next x rest hq =>
        injection h with h; subst h
        have hf : (s.tinyWrite x ok).next = s.next ∧ (s.tinyWrite x ok).cur = s.cur ∧ (s.tinyWrite x ok).writeQ = s.writeQ := by
          unfold LogQ.tinyWrite
          split
          · exact ⟨rfl, rfl, rfl⟩
          · split <;> exact ⟨rfl, rfl, rfl⟩
        refine ⟨by rw [hf.1, hf.2.1]; exact J.cur, by rw [hf.1, hf.2.2]; exact J.writeQ, ?_, ?_⟩
        · rw [hf.1]; exact fun y hy => J.logQ y (by rw [hq]; exact List.mem_cons_of_mem _ hy)
        · rw [hf.1]
          intro i hi
          rcases List.mem_append.1 hi with hi | hi
          · exact J.finished i hi
          · rw [List.mem_singleton.1 hi]; exact J.logQ x (by rw [hq]; exact List.mem_cons_self)
      · split at h
        · injection h with h; subst h; exact ⟨J.cur, J.writeQ, J.logQ, J.finished⟩
        · cases h
  | stop => injection h with h; subst h; exact ⟨J.cur, J.writeQ, J.logQ, J.finished⟩
  | lastWrite =>
    simp only [LogQ.step, LogQ.lastWrite] at h
    split at h
    · cases h
    · injection h with h; subst h
      refine ⟨J.cur, fun x hx => ?_, J.logQ, J.finished⟩
      rcases List.mem_append.1 hx with hx | hx
      · exact J.writeQ x hx
      · rw [List.mem_singleton.1 hx]; exact J.cur

theorem LogQ.Ids.run {l : List QStep} : ∀ {s s' : LogQ}, s.Ids → s.run l = some s' → s'.Ids := by
  induction l with
  | nil => intro s s' J h; injection h with h; subst h; exact J
  | cons st rest ih =>
    intro s s' J h
    obtain ⟨s1, h1, h2⟩ := Option.bind_eq_some_iff.1 h
    exact ih (J.step st h1) h2

theorem LogQ.Ids.new (t : Nat) : (LogQ.new t).Ids := ⟨Nat.zero_lt_one, nofun, nofun, nofun⟩

/-- Where the tiny log `id` of a batch with the messages `ms` in the block `t` is. -/
structure LogQ.Batched (s : LogQ) (id t : Nat) (ms : List Bytes) : Prop where
  ids : s.Ids
  old : id < s.next
  cur : s.cur.id ≠ id
  writeQ : ∀ x ∈ s.writeQ, x.id = id → x.block = t
  logQ : ∀ x ∈ s.logQ, x.id = id → x.block = t
  block : ∃ b, AMap.get s.blocks t = some b ∧ ms <+: b.data ∧ b.last ≤ b.data.length ∧ (∀ m ∈ b.data.take b.last, m ∈ s.wal)
    ∧ (id ∈ s.finished → ms.length ≤ b.last)

theorem LogQ.Batched.step {s s' : LogQ} {id t : Nat} {ms : List Bytes} (J : s.Batched id t ms) (st : QStep) (hst : st ≠ .commit false)
    (h : s.step st = some s') : s'.Batched id t ms := by
  have I' := J.ids.step st h
  obtain ⟨b, hb, hpre, hlen, hwal, hfin⟩ := J.block
  cases st with
  | put m =>
    simp only [LogQ.step, LogQ.put] at h
    split at h
    · cases h
    · split at h
      next c hc =>
        injection h with h; subst h
        refine ⟨I', J.old, J.cur, J.writeQ, J.logQ, ?_⟩
        by_cases e : t = s.cur.block
        · subst e
          rw [hb] at hc; injection hc with hc; subst hc
          refine ⟨_, AMap.get_set_self _ _ _, hpre.trans (List.prefix_append _ _), ?_, ?_, hfin⟩
          · show b.last ≤ (b.data ++ [m]).length
            rw [List.length_append]; omega
          · show ∀ x ∈ (b.data ++ [m]).take b.last, x ∈ s.wal
            rw [List.take_append_of_le_length hlen]; exact hwal
        · exact ⟨b, by rw [AMap.get_set_ne _ _ e]; exact hb, hpre, hlen, hwal, hfin⟩
      · cases h
  | batch t' ms' =>
    simp only [LogQ.step, LogQ.batch] at h
    split at h
    · cases h
    · injection h with h; subst h
      refine ⟨I', Nat.lt_succ_of_lt J.old, J.cur, fun x hx e => ?_, J.logQ, b, ?_, hpre, hlen, hwal, hfin⟩
      · rcases List.mem_append.1 hx with hx | hx
        · exact J.writeQ x hx e
        · rw [List.mem_singleton.1 hx] at e; exact absurd e (Nat.ne_of_gt J.old)
      · show AMap.get (s.addBlock t' ms') t = some b
        rw [LogQ.addBlock_get, if_neg (fun h => by rw [← h.1, hb] at h; cases h.2)]; exact hb
  | tick t' =>
    simp only [LogQ.step, LogQ.tick] at h
    split at h
    · cases h
    · injection h with h; subst h
      refine ⟨I', Nat.lt_succ_of_lt J.old, Nat.ne_of_gt J.old, fun x hx e => ?_, J.logQ, b, ?_, hpre, hlen, hwal, hfin⟩
      · rcases List.mem_append.1 hx with hx | hx
        · exact J.writeQ x hx e
        · rw [List.mem_singleton.1 hx] at e; exact absurd e J.cur
      · show AMap.get (s.addBlock t' []) t = some b
        rw [LogQ.addBlock_get, if_neg (fun h => by rw [← h.1, hb] at h; cases h.2)]; exact hb
  | dispatch =>
    simp only [LogQ.step, LogQ.dispatch] at h
    split at h
    · cases h
    · split at h
      next x rest hq =>
        have hr : ∀ y ∈ rest, y.id = id → y.block = t := fun y hy => J.writeQ y (by rw [hq]; exact List.mem_cons_of_mem _ hy)
        split at h
        · injection h with h; subst h
          refine ⟨I', J.old, J.cur, hr, fun y hy => ?_, b, hb, hpre, hlen, hwal, hfin⟩
          rcases List.mem_append.1 hy with hy | hy
          · exact J.logQ y hy
          · rw [List.mem_singleton.1 hy]; exact J.writeQ x (by rw [hq]; exact List.mem_cons_self)
        · injection h with h; subst h; exact ⟨I', J.old, J.cur, hr, J.logQ, b, hb, hpre, hlen, hwal, hfin⟩
      · split at h
        · injection h with h; subst h; exact ⟨I', J.old, J.cur, J.writeQ, J.logQ, b, hb, hpre, hlen, hwal, hfin⟩
        · cases h
  | wake =>
    simp only [LogQ.step, LogQ.wake] at h
    split at h
    · injection h with h; subst h; exact ⟨I', J.old, J.cur, J.writeQ, J.logQ, b, hb, hpre, hlen, hwal, hfin⟩
    · cases h
  | stop => injection h with h; subst h; exact ⟨I', J.old, J.cur, J.writeQ, J.logQ, b, hb, hpre, hlen, hwal, hfin⟩
  | lastWrite =>
    simp only [LogQ.step, LogQ.lastWrite] at h
    split at h
    · cases h
    · injection h with h; subst h
      refine ⟨I', J.old, J.cur, fun x hx e => ?_, J.logQ, b, hb, hpre, hlen, hwal, hfin⟩
      rcases List.mem_append.1 hx with hx | hx
      · exact J.writeQ x hx e
      · rw [List.mem_singleton.1 hx] at e; exact absurd e J.cur
  | commit ok =>
    cases ok with
    | false => exact absurd rfl hst
    | true =>
    simp only [LogQ.step, LogQ.commit] at h
    split at h
    · cases h
    · split at h
      next x rest hq =>
        injection h with h
        have hx : x.id = id → x.block = t := J.logQ x (by rw [hq]; exact List.mem_cons_self)
        have hr : ∀ y ∈ rest, y.id = id → y.block = t := fun y hy => J.logQ y (by rw [hq]; exact List.mem_cons_of_mem _ hy)
        unfold LogQ.tinyWrite at h
        cases hc : AMap.get s.blocks x.block with
        | none =>
          rw [hc] at h; subst h
          refine ⟨I', J.old, J.cur, J.writeQ, hr, b, hb, hpre, hlen, hwal, fun hi => ?_⟩
          rcases List.mem_append.1 hi with hi | hi
          · exact hfin hi
          · rw [hx (List.mem_singleton.1 hi).symm, hb] at hc; cases hc
        | some c =>
          rw [hc] at h; subst h
          simp only [if_true] at I' ⊢
          refine ⟨I', J.old, J.cur, J.writeQ, hr, ?_⟩
          by_cases e : t = x.block
          · rw [← e, hb] at hc; injection hc with hc; subst hc
            refine ⟨{ b with last := b.data.length }, by rw [e, AMap.get_set_self], hpre, Nat.le_refl _, ?_, fun _ => hpre.length_le⟩
            intro m hm
            rw [List.take_length] at hm
            rw [← List.take_append_drop b.last b.data] at hm
            rcases List.mem_append.1 hm with hm | hm
            · exact List.mem_append_left _ (hwal m hm)
            · exact List.mem_append_right _ hm
          · refine ⟨b, by rw [AMap.get_set_ne _ _ e]; exact hb, hpre, hlen, fun m hm => List.mem_append_left _ (hwal m hm), fun hi => ?_⟩
            rcases List.mem_append.1 hi with hi | hi
            · exact hfin hi
            · exact absurd (hx (List.mem_singleton.1 hi).symm).symm e
      · split at h
        · injection h with h; subst h; exact ⟨I', J.old, J.cur, J.writeQ, J.logQ, b, hb, hpre, hlen, hwal, hfin⟩
        · cases h

theorem LogQ.Batched.run {id t : Nat} {ms : List Bytes} {l : List QStep} : ∀ {s s' : LogQ}, s.Batched id t ms → (∀ st ∈ l, st ≠ .commit false) →
    s.run l = some s' → s'.Batched id t ms := by
  induction l with
  | nil => intro s s' J _ h; injection h with h; subst h; exact J
  | cons st rest ih =>
    intro s s' J hst h
    obtain ⟨s1, h1, h2⟩ := Option.bind_eq_some_iff.1 h
    exact ih (J.step st (hst st List.mem_cons_self) h1) (fun x hx => hst x (List.mem_cons_of_mem _ hx)) h2

/-- **C82 (part).** When the `Write` of a batch returns, all messages of the batch are in the log, if no write to it failed:
for every schedule before and after the call, also one in which logs are dropped. -/
theorem C82_batch_partial (t0 : Nat) (l l' : List QStep) (s s1 s' : LogQ) (t : Nat) (ms : List Bytes) (h : (LogQ.new t0).run l = some s)
    (hb : s.batch t ms = some s1) (h' : s1.run l' = some s') (hok : ∀ st ∈ l', st ≠ .commit false) (hret : s.next ∈ s'.finished) :
    ∀ m ∈ ms, m ∈ s'.wal := by
  have I : s.Ids := (LogQ.Ids.new t0).run h
  have I1 : s1.Ids := I.step (.batch t ms) hb
  have J : s1.Batched s.next t ms := by
    simp only [LogQ.batch] at hb
    split at hb
    · cases hb
    next hc =>
      have hg : AMap.get s.blocks t = none := by cases hg : AMap.get s.blocks t <;> simp_all
      injection hb with hb; subst hb
      refine ⟨I1, Nat.lt_succ_self _, Nat.ne_of_lt I.cur, fun x hx e => ?_, fun x hx e => ?_, { data := ms }, ?_, List.prefix_rfl, Nat.zero_le _, ?_, ?_⟩
      · rcases List.mem_append.1 hx with hx | hx
        · exact absurd e (Nat.ne_of_lt (I.writeQ x hx))
        · rw [List.mem_singleton.1 hx]
      · exact absurd e (Nat.ne_of_lt (I.logQ x hx))
      · show AMap.get (s.addBlock t ms) t = _
        rw [LogQ.addBlock_get, if_pos ⟨rfl, hg⟩]
      · intro m hm; cases hm
      · intro hi; exact absurd (I.finished _ hi) (Nat.lt_irrefl _)
  obtain ⟨b, _, hpre, _, hwal, hfin⟩ := (J.run hok h').block
  intro m hm
  refine hwal m ?_
  obtain ⟨r, hr⟩ := hpre
  have : b.data.take b.last = ms ++ r.take (b.last - ms.length) := by
    rw [← hr, List.take_append, List.take_of_length_le (hfin hret)]
  rw [this]
  exact List.mem_append_left _ hm

example : ∃ s s1 s', (LogQ.new 5).run [.put [1], .tick 5, .dispatch] = some s ∧ s.batch 77 [[3], [4]] = some s1
    ∧ s1.run [.dispatch, .commit true, .commit true] = some s' ∧ s.next ∈ s'.finished ∧ s'.wal = [[1], [3], [4]] :=
  ⟨_, _, _, rfl, rfl, rfl, by decide, by decide⟩

/-- Twenty-seven logs wait for a slow disk; the next tiny log has a block of its own. -/
def toyBusy : List QStep := (List.replicate 26 [QStep.tick 5, .dispatch]).flatten ++ [.tick 6, .dispatch]

/-- `Close`, from there. -/
def toyEnd : List QStep := [.stop, .commit true, .wake, .lastWrite, .dispatch, .dispatch] ++ List.replicate 28 (.commit true)

/-- **C82, violated.** While 27 logs wait to be written, the next one is dropped: the message put into its block was accepted, no
write fails, `Close` returns, and the message is not in the log. -/
theorem C82_logged_violated : ∃ l s, (LogQ.new 5).run l = some s ∧ s.over = true ∧ [1, 2, 3] ∈ Spec.accepted l ∧ s.wal = []
    ∧ ∀ st ∈ l, st ≠ .commit false := by
  have h : (((LogQ.new 5).run (toyBusy ++ [.put [1, 2, 3], .tick 7, .dispatch] ++ toyEnd)).any fun s => s.over && s.wal == []) = true := by
    decide +kernel
  obtain ⟨s, hs, h⟩ := Option.any_eq_true _ _ |>.1 h
  rw [Bool.and_eq_true] at h
  exact ⟨_, s, hs, h.1, by decide +kernel, by simpa using h.2, by decide +kernel⟩

/-- **C82, violated.** A write that fails is only printed: `Close` returns without an error and the message is not in the log. -/
theorem C82_unreported_violated : ∃ l s, (LogQ.new 5).run l = some s ∧ s.over = true ∧ [1, 2, 3] ∈ Spec.accepted l ∧ s.wal = []
    ∧ s.finished = [0] := by
  refine ⟨[.put [1, 2, 3], .stop, .lastWrite, .dispatch, .commit false, .dispatch, .commit true], _, rfl, ?_⟩
  decide +kernel

/-- A tiny log that is in no queue and not the current one is never finished. -/
theorem LogQ.never {id : Nat} {l : List QStep} : ∀ {s s' : LogQ}, s.run l = some s' → id < s.next → s.cur.id ≠ id → (∀ x ∈ s.writeQ, x.id ≠ id) →
    (∀ x ∈ s.logQ, x.id ≠ id) → id ∉ s.finished → id ∉ s'.finished := by
  induction l with
  | nil => intro s s' h _ _ _ _ hf; injection h with h; subst h; exact hf
  | cons st rest ih =>
    intro s s' h hn hc hw hl hf
    obtain ⟨s1, h1, h2⟩ := Option.bind_eq_some_iff.1 h
    have hcur : ∀ x ∈ s.writeQ ++ [s.cur], x.id ≠ id := by
      intro x hx
      rcases List.mem_append.1 hx with hx | hx
      · exact hw x hx
      · rw [List.mem_singleton.1 hx]; exact hc
    cases st with
    | put m =>
      simp only [LogQ.step, LogQ.put] at h1
      split at h1
      · cases h1
      · split at h1
        · injection h1 with h1; subst h1; exact ih h2 hn hc hw hl hf
        · cases h1
    | batch t ms =>
      simp only [LogQ.step, LogQ.batch] at h1
      split at h1
      · cases h1
      · injection h1 with h1; subst h1
        refine ih h2 (Nat.lt_succ_of_lt hn) hc (fun x hx => ?_) hl hf
        rcases List.mem_append.1 hx with hx | hx
        · exact hw x hx
        · rw [List.mem_singleton.1 hx]; exact Nat.ne_of_gt hn
    | tick t =>
      simp only [LogQ.step, LogQ.tick] at h1
      split at h1
      · cases h1
      · injection h1 with h1; subst h1; exact ih h2 (Nat.lt_succ_of_lt hn) (Nat.ne_of_gt hn) hcur hl hf
    | dispatch =>
      simp only [LogQ.step, LogQ.dispatch] at h1
      split at h1
      · cases h1
      · split at h1
        next x rest hq =>
          have hr : ∀ y ∈ rest, y.id ≠ id := fun y hy => hw y (by rw [hq]; exact List.mem_cons_of_mem _ hy)
          split at h1
          · injection h1 with h1; subst h1
            refine ih h2 hn hc hr (fun y hy => ?_) hf
            rcases List.mem_append.1 hy with hy | hy
            · exact hl y hy
            · rw [List.mem_singleton.1 hy]; exact hw x (by rw [hq]; exact List.mem_cons_self)
          · injection h1 with h1; subst h1; exact ih h2 hn hc hr hl hf
        · split at h1
          · injection h1 with h1; subst h1; exact ih h2 hn hc hw hl hf
          · cases h1
    | wake =>
      simp only [LogQ.step, LogQ.wake] at h1
      split at h1
      · injection h1 with h1; subst h1; exact ih h2 hn hc hw hl hf
      · cases h1
    | stop => injection h1 with h1; subst h1; exact ih h2 hn hc hw hl hf
    | lastWrite =>
      simp only [LogQ.step, LogQ.lastWrite] at h1
      split at h1
      · cases h1
      · injection h1 with h1; subst h1; exact ih h2 hn hc hcur hl hf
    | commit ok =>
      simp only [LogQ.step, LogQ.commit] at h1
      split at h1
      · cases h1
      · split at h1
        next x rest hq =>
          have e : (s.tinyWrite x ok).next = s.next ∧ (s.tinyWrite x ok).cur = s.cur ∧ (s.tinyWrite x ok).writeQ = s.writeQ := by
            unfold LogQ.tinyWrite
            split
            · exact ⟨rfl, rfl, rfl⟩
            · split <;> exact ⟨rfl, rfl, rfl⟩
          injection h1 with h1; subst h1
          refine ih h2 (by rw [e.1]; exact hn) (by rw [e.2.1]; exact hc) (by rw [e.2.2]; exact hw)
            (fun y hy => hl y (by rw [hq]; exact List.mem_cons_of_mem _ hy)) (fun hi => ?_)
          rcases List.mem_append.1 hi with hi | hi
          · exact hf hi
          · exact hl x (by rw [hq]; exact List.mem_cons_self) (List.mem_singleton.1 hi).symm
        · split at h1
          · injection h1 with h1; subst h1; exact ih h2 hn hc hw hl hf
          · cases h1

/-- **C82, violated.** When the log of a batch is dropped its `Write` never returns, whatever happens afterwards. -/
theorem C82_batch_hangs_violated : ∃ l s s1, (LogQ.new 5).run l = some s ∧ s.batch 77 [[9]] = some s1
    ∧ ∀ l' s', s1.run (.dispatch :: l') = some s' → s.next ∉ s'.finished := by
  have h : (((LogQ.new 5).run toyBusy).any fun s => decide (28 ≤ s.next) && decide (s.cur.id < s.next) && s.writeQ == [] && s.logQ.all (fun x => decide (x.id < s.next))
      && s.finished == [] && !s.wrote && s.disp == .ready && !(AMap.get s.blocks 77).isSome && decide (s.logQ.length = 27)) = true := by decide +kernel
  obtain ⟨s, hs, h⟩ := Option.any_eq_true _ _ |>.1 h
  simp only [Bool.and_eq_true, decide_eq_true_eq, List.all_eq_true, beq_iff_eq, Bool.not_eq_true'] at h
  obtain ⟨⟨⟨⟨⟨⟨⟨⟨_, hc⟩, hw⟩, hl⟩, hf⟩, hwr⟩, hd⟩, hb⟩, h27⟩ := h
  refine ⟨toyBusy, s, { s with writeQ := s.writeQ ++ [⟨s.next, 77⟩], next := s.next + 1, blocks := s.addBlock 77 [[9]] }, hs, ?_, fun l' s' h => ?_⟩
  · unfold LogQ.batch
    rw [if_neg (by rw [hwr, hw, hb]; simp)]
  · obtain ⟨s2, h1, h2⟩ := Option.bind_eq_some_iff.1 h
    simp only [LogQ.step, LogQ.dispatch, hd, hw, List.nil_append, h27, logQueueCap, Nat.lt_irrefl, if_false, ne_eq, not_true_eq_false] at h1
    injection h1 with h1
    subst h1
    exact LogQ.never h2 (Nat.lt_succ_self _) (Nat.ne_of_lt hc) nofun (fun x hx => Nat.ne_of_lt (hl x hx)) (by rw [hf]; nofun)

/-- **C82, violated.** The `Write` of a batch that was begun before `Close` and is called once `writeLoop` has ended sends on a
closed channel: the program ends. -/
theorem C82_batch_panics_violated : ∃ l s, (LogQ.new 5).run l = some s ∧ s.over = false ∧ s.batchPanics = true :=
  ⟨[.put [1], .stop, .lastWrite], _, rfl, by decide, by decide⟩

end Verif
