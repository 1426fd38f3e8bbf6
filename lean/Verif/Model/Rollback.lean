import Verif.Model.EngineSync

/-!
# A sync that stops, and what it gives back

block_writer.go:291-322 and db_sync.go:91-124, 212-303: the callback of a sync stops with an error at one of the time blocks. The blocks before it are on disk. `abort` truncates the files
to what they were after the last of them and rolls back. The rollback of the index (block_writer.go:299-303) only changes blocks in the memory of the writer, which nothing writes any more, as `Sync` ends with
`upperSeq` zero and the next sync has a new writer; the same holds of the rollback of the window (time_window_writer.go:196-205). What stays is the space given back to the free list.
Errors of the files themselves are not modelled.
-/

namespace Verif

/-- block_writer.go:147-154: what an append notes in `dataLeases`. -/
def Lease.noted (l : Lease) (n : Nat) : List FB :=
  match l.allocate (UInt32.ofNat n).toNat with
  | some (off, _) => if off = -1 then [] else [⟨off, n⟩]
  | none => []

/-- `w.dataLeases[off] = size` -/
def setNotes (bs notes : List FB) : List FB := bs ++ notes.filter fun b => decide (b.offset ∉ bs.map (·.offset))

/-- db_sync.go:225-263 as `appendAll`, with the notes of the writer. -/
def appendNoting (s : Store) (w : Writer) (notes : List FB) : List Rec → Option (Store × Writer × List FB)
  | [] => some (s, w, notes)
  | r :: rs =>
    match w.append s r with
    | .ok (s', w') => appendNoting s' w' (setNotes (s.lease.noted r.cache.length) notes) rs
    | .error .exist => appendNoting s w notes rs
    | .error .fail => none

/-- `syncRound` with the notes, which neither `write` nor `reset` (block_writer.go:306-315) clears. -/
def roundNoting (s : Store) (w : Writer) (notes : List FB) (rs : List Rec) : Option (Store × Writer × List FB) := do
  let (s, w, notes) ← appendNoting s w notes rs
  let s := { s with index := extendIndex s.index (upperSeq rs) }
  let (s, w) ← w.write s
  pure (s, w.reset s, notes)

/-- The rounds of a sync, with the notes. -/
def roundsNoting : Store → Writer → List FB → List (List Rec) → Option (Store × Writer × List FB)
  | s, w, notes, [] => some (s, w, notes)
  | s, w, notes, rs :: rounds => (roundNoting s w notes rs).bind fun x => roundsNoting x.1 x.2.1 x.2.2 rounds

/-- block_writer.go:291-297, in the order of the map. -/
def Lease.giveBack (l : Lease) (notes : List FB) : Lease := notes.foldl (fun l b => l.freeBlock b.offset b.size) l

/-- db_sync.go:212-303: a sync that gets through the time blocks `rounds` and stops after it has appended `part` of the next one. -/
def syncStopped (order : List FB → List FB) (s : Store) (rounds : List (List Rec)) (part : List Rec) : Option Store := do
  let w ← newBlockWriter s
  let (s1, w1, notes) ← roundsNoting s w [] rounds
  let (s2, _, notes) ← appendNoting s1 w1 notes part
  pure ⟨truncate s2.index s1.index.length, truncate s2.data s1.data.length, s2.lease.giveBack (order notes)⟩

/-! ## Lemmas -/

theorem appendNoting_fst (rs : List Rec) : ∀ {s : Store} {w : Writer} {notes : List FB} {x : Store × Writer × List FB}, appendNoting s w notes rs = some x →
    appendAll s w rs = some (x.1, x.2.1) := by
  induction rs with
  | nil => intro s w notes x h; cases h; rfl
  | cons r rs ih =>
    intro s w notes x h
    rw [appendNoting] at h
    rw [appendAll]
    split at h
    · next h1 => rw [h1]; exact ih h
    · next h1 => rw [h1]; exact ih h
    · cases h

theorem roundNoting_fst {s : Store} {w : Writer} {notes : List FB} {rs : List Rec} {x : Store × Writer × List FB} (h : roundNoting s w notes rs = some x) :
    syncRound s w rs = some (x.1, x.2.1) := by
  simp only [roundNoting, Option.bind_eq_bind, Option.bind_eq_some_iff] at h
  obtain ⟨y, h1, z, h2, h3⟩ := h
  cases h3
  simp only [syncRound, appendNoting_fst rs h1, Option.bind_eq_bind, Option.bind_some, h2]
  rfl

theorem roundsNoting_fst (rounds : List (List Rec)) : ∀ {s : Store} {w : Writer} {notes : List FB} {x : Store × Writer × List FB}, roundsNoting s w notes rounds = some x →
    rounds.foldlM (fun (s, w) rs => syncRound s w rs) (s, w) = some (x.1, x.2.1) := by
  induction rounds with
  | nil => intro s w notes x h; cases h; rfl
  | cons rs rounds ih =>
    intro s w notes x h
    rw [roundsNoting, Option.bind_eq_some_iff] at h
    obtain ⟨y, h1, h2⟩ := h
    rw [List.foldlM_cons]
    simp only [roundNoting_fst h1, Option.bind_eq_bind, Option.bind_some]
    exact ih h2

/-- What an append does to the store is to place the bytes. -/
theorem append_places {s s' : Store} {w w' : Writer} {r : Rec} (h : w.append s r = .ok (s', w')) : 0 < r.cache.length ∧ ∃ off w1, placeData s w r.cache = some (off, s', w1) := by
  unfold Writer.append at h
  split at h
  · cases h
  · simp only at h
    split at h
    · cases h
    · split at h
      · cases h
      · split at h
        · cases h
        · next h0 =>
          split at h
          · cases h
          · next off s1 w1 hp =>
            split at h
            · cases h
            · split at h
              · simp only [Except.ok.injEq, Prod.mk.injEq] at h
                exact ⟨by omega, off, w1, by rw [hp, h.1]⟩
              · cases h

/-- Placing bytes takes space from the free list, and notes it, or leaves files and free list as they are. -/
theorem place_cases {s s' : Store} {w w' : Writer} {c : Bytes} {off : Int} (hc2 : c.length < 2 ^ 32) (hpos : ∀ b ∈ s.lease.all, 0 ≤ b.offset)
    (h : placeData s w c = some (off, s', w')) :
    (s' = s ∧ s.lease.noted c.length = []) ∨ (∃ o : Nat, ∃ l', s.lease.allocate c.length = some ((o : Int), l') ∧ s.lease.noted c.length = [⟨o, c.length⟩] ∧
      s' = { s with data := writeAt s.data o c, lease := l' }) := by
  have hn : (UInt32.ofNat c.length).toNat = c.length := by simp; omega
  simp only [placeData, hn, Option.bind_eq_bind, Option.bind_eq_some_iff] at h
  obtain ⟨⟨o, l'⟩, ha, h⟩ := h
  simp only at h
  split at h
  · next hne =>
    split at h
    · cases h
    · next hneg =>
      right
      simp only [pure, Option.some.injEq, Prod.mk.injEq] at h
      have ho : (o.toNat : Int) = o := by omega
      refine ⟨o.toNat, l', by rw [ho]; exact ha, ?_, h.2.1.symm⟩
      simp only [Lease.noted, hn, ha, if_neg hne, ho]
  · next hne =>
    left
    have hne : o = -1 := by omega
    simp only [pure, Option.some.injEq, Prod.mk.injEq] at h
    rcases Lease.allocate_spec ha with ⟨_, e⟩ | ⟨b, rest, h1, h2, h3, h4, h5, h6⟩
    · exact ⟨by rw [← h.2.1, e], by simp [Lease.noted, hn, ha, hne]⟩
    · have := hpos b (h1.symm.subset (by simp))
      omega

/-- What holds while a round is appended: `L` is what was on disk before it, `notes` the space taken since. -/
structure Held (s : Store) (L : Loc) (freed : List UInt64) (notes : List FB) (index : Bytes) (len : Nat) (free : Int) : Prop where
  idx : s.index = index
  long : s.data.length = len
  good : Lease.Good s.lease
  sound : Spec.Sound s.lease (notes ++ usedOf L freed)
  total : s.lease.size + Lease.total notes = free
  freeIn : ∀ b ∈ notes ++ s.lease.all, b.offset + b.size ≤ len ∧ b.size < 2 ^ 32
  bytes : ∀ p ∈ L, p.1.seq ∉ freed → slice? s.data p.2 (p.2 + p.1.cache.length) = some p.1.cache

theorem Held.append {s s' : Store} {w w' : Writer} {L : Loc} {freed : List UInt64} {notes : List FB} {index : Bytes} {len : Nat} {free : Int} (h : Held s L freed notes index len free)
    {r : Rec} (hc2 : r.cache.length < 2 ^ 32) (ha : w.append s r = .ok (s', w')) : Held s' L freed (setNotes (s.lease.noted r.cache.length) notes) index len free := by
  obtain ⟨hc, off, w1, hp⟩ := append_places ha
  rcases place_cases hc2 (fun b hb => (h.sound.pos b (by simp [hb])).2) hp with ⟨rfl, e⟩ | ⟨o, l', e1, e2, rfl⟩
  · rw [e]
    have : setNotes [] notes = notes := by simp [setNotes]
    rw [this]; exact h
  · obtain ⟨g', hcase⟩ := sound_step_alloc h.good h.sound e1
    have hs' : Spec.Sound l' (⟨o, r.cache.length⟩ :: (notes ++ usedOf L freed)) := by
      rcases hcase with ⟨h1, _⟩ | ⟨_, h1⟩
      · omega
      · exact h1
    have hap := hs'.apart
    rw [List.cons_append, List.pairwise_cons] at hap
    have en : setNotes [⟨o, r.cache.length⟩] notes = ⟨o, r.cache.length⟩ :: notes := by
      simp only [setNotes, List.map_cons, List.map_nil, List.mem_singleton, List.singleton_append, List.cons.injEq, true_and]
      rw [List.filter_eq_self]
      intro b hb
      have h1 := hap.1 b (by simp [hb])
      have h2 := (hs'.pos b (by simp [hb])).1
      simp only [Lease.Apart] at h1
      simp only [decide_eq_true_eq]
      omega
    rw [e2, en]
    have hin : ((o : Int) + r.cache.length ≤ len ∧ r.cache.length < 2 ^ 32) ∧ ∀ b ∈ l'.all, b.offset + b.size ≤ len ∧ b.size < 2 ^ 32 := by
      rcases Lease.allocate_spec e1 with ⟨h1, _⟩ | ⟨c, rest, h1, h2, h3, h4, h5, h6⟩
      · omega
      · have hc' := h.freeIn c (List.mem_append_right _ (h1.symm.subset (by simp)))
        refine ⟨⟨by omega, hc2⟩, fun b hb => ?_⟩
        rcases List.mem_append.1 (h6.subset hb) with hb | hb
        · unfold Lease.leftover at hb
          split at hb
          · simp at hb
          · simp only [List.mem_singleton] at hb
            subst hb
            simp only
            omega
        · exact h.freeIn b (List.mem_append_right _ (h1.symm.subset (List.mem_cons_of_mem _ hb)))
    have hcne : r.cache ≠ [] := List.length_pos_iff.1 hc
    have hl := h.long
    have hsz : l'.size = s.lease.size - r.cache.length := by
      rcases Lease.allocate_spec e1 with ⟨h1, _⟩ | ⟨c, rest, h1, h2, h3, h4, h5, h6⟩
      · omega
      · exact h4
    refine ⟨h.idx, ?_, g', hs', ?_, ?_, ?_⟩
    · show (writeAt s.data o r.cache).length = len
      rw [length_writeAt _ _ _ hcne]; omega
    · show l'.size + Lease.total (_ :: notes) = free
      rw [Lease.total_cons, hsz, ← h.total]
      simp only
      omega
    · intro b hb
      rw [List.cons_append, List.mem_cons, List.mem_append] at hb
      rcases hb with rfl | hb | hb
      · exact hin.1
      · exact h.freeIn b (by simp [hb])
      · exact hin.2 b hb
    · intro p hp hpf
      have hold := h.bytes p hp hpf
      have hle := slice?_le hold
      have hu := hap.1 ⟨p.2, p.1.cache.length⟩ (by simp [mem_usedOf.2 ⟨p, hp, hpf, rfl⟩])
      have hpp := hs'.pos ⟨p.2, p.1.cache.length⟩ (by simp [mem_usedOf.2 ⟨p, hp, hpf, rfl⟩])
      simp only [Lease.Apart] at hu hpp
      show slice? (writeAt s.data o r.cache) _ _ = _
      rw [slice?_writeAt_apart _ _ _ _ _ (by omega) hle.2 (by omega)]
      exact hold

theorem Held.appendNoting {L : Loc} {freed : List UInt64} {index : Bytes} {len : Nat} {free : Int} (rs : List Rec) (hrs : ∀ r ∈ rs, r.cache.length < 2 ^ 32) :
    ∀ {s : Store} {w : Writer} {notes : List FB} {x : Store × Writer × List FB}, Held s L freed notes index len free → Verif.appendNoting s w notes rs = some x → Held x.1 L freed x.2.2 index len free := by
  induction rs with
  | nil => intro s w notes x h hx; cases hx; exact h
  | cons r rs ih =>
    have ih := @ih fun x hx => hrs x (List.mem_cons_of_mem _ hx)
    intro s w notes x h hx
    rw [Verif.appendNoting] at hx
    split at hx
    · next h1 => exact ih (h.append (hrs r (by simp)) h1) hx
    · exact ih h hx
    · cases hx

theorem truncate_self (f : Bytes) : truncate f f.length = f := by simp [truncate]

/-- Giving the notes back restores the free list, in any order. -/
theorem Held.aborted {s : Store} {L : Loc} {freed : List UInt64} {notes : List FB} {index : Bytes} {len : Nat} {free : Int} (h : Held s L freed notes index len free)
    (hf : ∃ n, FileOK index n (absBlock L)) (hl : LocOK L) (hs : ∀ q ∈ freed, q ∈ L.map (·.1.seq)) {notes' : List FB} (hp : notes'.Perm notes) :
    SInv ⟨truncate s.index index.length, truncate s.data len, s.lease.giveBack notes'⟩ L freed ∧ (s.lease.giveBack notes').size = free := by
  have ei : truncate s.index index.length = index := by rw [h.idx, truncate_self]
  have ed : truncate s.data len = s.data := by rw [← h.long, truncate_self]
  have e1 : (notes ++ usedOf L freed ++ s.lease.all).Perm (usedOf L freed ++ (notes' ++ s.lease.all)) := by
    rw [List.append_assoc]
    refine (List.perm_append_comm_assoc _ _ _).trans ?_
    exact (List.perm_append_left_iff _).2 (hp.symm.append_right _)
  have hap := (Lease.pairwise_perm e1).1 h.sound.apart
  obtain ⟨g2, hp2⟩ := freeAll_perm notes' s.lease h.good (List.pairwise_append.1 hap).2.1 fun b hb => (h.sound.pos b (e1.symm.subset (List.mem_append_right _ hb))).1
  rw [ei, ed]
  have hsz : (s.lease.giveBack notes').size = free := by
    rw [← h.total, ← Lease.total_perm hp, h.good.size, Int.add_comm, ← Lease.total_append, ← Lease.total_perm hp2]
    exact g2.size
  refine ⟨⟨hf, ⟨by simp, g2, ⟨?_, ?_, g2.size⟩, ?_, ?_⟩, hl, hs⟩, hsz⟩
  · exact (Lease.pairwise_perm (hp2.append_left _)).2 hap
  · intro b hb
    exact h.sound.pos b (e1.symm.subset ((hp2.append_left _).subset hb))
  · intro b hb
    have := hp2.subset hb
    have h2 := h.freeIn b (by
      rcases List.mem_append.1 this with hx | hx
      · exact List.mem_append_left _ (hp.subset hx)
      · exact List.mem_append_right _ hx)
    simp only [h.long]
    exact h2
  · intro p hp hpf
    simp only [List.append_nil]
    exact h.bytes p hp hpf

/-! ### Rounds that take nothing from the free list -/

theorem append_size {s s' : Store} {w w' : Writer} {r : Rec} (hc2 : r.cache.length < 2 ^ 32) (hpos : ∀ b ∈ s.lease.all, 0 ≤ b.offset) (ha : w.append s r = .ok (s', w')) :
    s'.lease.size ≤ s.lease.size ∧ (s'.lease.size = s.lease.size → s.lease.noted r.cache.length = []) := by
  obtain ⟨hc, off, w1, hp⟩ := append_places ha
  rcases place_cases hc2 hpos hp with ⟨rfl, e⟩ | ⟨o, l', e1, e2, rfl⟩
  · exact ⟨le_refl _, fun _ => e⟩
  · rcases Lease.allocate_spec e1 with ⟨h1, _⟩ | ⟨c, rest, h1, h2, h3, h4, h5, h6⟩
    · omega
    · simp only [h4]
      exact ⟨by omega, fun h => by omega⟩

theorem appendNoting_size {freed : List UInt64} (rs : List Rec) (hrs : ∀ r ∈ rs, r.OK) : ∀ {s : Store} {w : Writer} {L : Loc} {notes : List FB} {x : Store × Writer × List FB}, EInv s w L freed →
    appendNoting s w notes rs = some x → x.1.lease.size ≤ s.lease.size ∧ (x.1.lease.size = s.lease.size → x.2.2 = notes) := by
  induction rs with
  | nil => intro s w L notes x _ hx; cases hx; exact ⟨le_refl _, fun _ => rfl⟩
  | cons r rs ih =>
    intro s w L notes x h hx
    have ih := @ih fun x hx => hrs x (List.mem_cons_of_mem _ hx)
    have hr := hrs r (by simp)
    rw [appendNoting] at hx
    by_cases hm : r.seq ∈ L.map (·.1.seq)
    · rw [append_exist h hr hm] at hx
      exact ih h hx
    · obtain ⟨off, s1, w1, h1, h2, _⟩ := append_new h hr hm
      rw [h1] at hx
      have a := append_size hr.small (fun b hb => (h.data.sound.pos b (List.mem_append_right _ hb)).2) h1
      have b := ih h2 hx
      refine ⟨le_trans b.1 a.1, fun he => ?_⟩
      have e1 : x.1.lease.size = s1.lease.size := by have := a.1; have := b.1; omega
      rw [b.2 e1, a.2 (by omega)]
      simp [setNotes]

theorem write_keeps_lease {s : Store} {w : Writer} {x : Store × Writer} (h : w.write s = some x) : x.1.lease = s.lease := by
  simp only [Writer.write, Option.bind_eq_bind, Option.bind_eq_some_iff] at h
  obtain ⟨_, _, _, _, _, _, h⟩ := h
  cases h
  rfl

theorem roundsNoting_size {freed : List UInt64} (rounds : List (List Rec)) (hrs : ∀ rs ∈ rounds, ∀ r ∈ rs, r.OK) : ∀ {s : Store} {w : Writer} {L : Loc} {notes : List FB} {x : Store × Writer × List FB},
    EInv s w L freed → roundsNoting s w notes rounds = some x → x.1.lease.size ≤ s.lease.size ∧ (x.1.lease.size = s.lease.size → x.2.2 = notes) := by
  induction rounds with
  | nil => intro s w L notes x _ hx; cases hx; exact ⟨le_refl _, fun _ => rfl⟩
  | cons rs rounds ih =>
    intro s w L notes x h hx
    rw [roundsNoting, Option.bind_eq_some_iff] at hx
    obtain ⟨y, h1, h2⟩ := hx
    obtain ⟨s1, w1, L1, g1, g2, _⟩ := syncRound_spec h rs (hrs rs (by simp))
    have e := roundNoting_fst h1
    rw [g1] at e
    simp only [Option.some.injEq, Prod.mk.injEq] at e
    rw [e.1, e.2] at g2
    have b := ih (fun x hx => hrs x (List.mem_cons_of_mem _ hx)) g2 h2
    simp only [roundNoting, Option.bind_eq_bind, Option.bind_eq_some_iff] at h1
    obtain ⟨y1, k1, z, k2, k3⟩ := h1
    cases k3
    have a := appendNoting_size rs (hrs rs (by simp)) h k1
    have el := write_keeps_lease k2
    simp only at b el
    rw [el] at b
    refine ⟨le_trans b.1 a.1, fun he => ?_⟩
    have e1 : x.1.lease.size = y1.1.lease.size := by have := a.1; have := b.1; omega
    rw [b.2 e1, a.2 (by omega)]

end Verif
