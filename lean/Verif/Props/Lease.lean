import Verif.Model.Lease

/-!
# C10, C31: free space

The specification keeps the list of byte ranges in use and says which calls a client may make.
-/

namespace Verif

/-- One call to the free list. -/
inductive LeaseOp where
  | alloc (n : Nat)
  | free (b : FB)
  | defrag
deriving DecidableEq

namespace Spec

/-- No free block of one shard ends where another begins (nothing to merge). -/
def noNeighbours (l : Lease) : Prop := ∀ s ∈ l.shards, ∀ a ∈ s.fb, ∀ b ∈ s.fb, a.offset + a.size ≠ b.offset

/-- Free list together with the ranges in use. A client allocates a non-zero number of bytes and frees ranges it holds; the range
handed out joins the ranges in use. -/
inductive LeaseRun : Lease × List FB → List LeaseOp → Lease × List FB → Prop
  | nil (s) : LeaseRun s [] s
  | miss (l used n l' ops s) : l.allocate n = some (-1, l') → LeaseRun (l', used) ops s → LeaseRun (l, used) (.alloc n :: ops) s
  | hit (l used n off l' ops s) : l.allocate n = some (off, l') → off ≠ -1 → LeaseRun (l', ⟨off, n⟩ :: used) ops s →
      LeaseRun (l, used) (.alloc n :: ops) s
  | free (l used b l' ops s) : b ∈ used → l.free b.offset b.size = some l' → LeaseRun (l', used.erase b) ops s →
      LeaseRun (l, used) (.free b :: ops) s
  | defrag (l used ops s) : noNeighbours l → LeaseRun (l.defrag, used) ops s → LeaseRun (l, used) (.defrag :: ops) s

/-- Ranges in use and free ranges share no byte, none is empty or below offset 0, and the counter is the number of free bytes. -/
structure Sound (l : Lease) (used : List FB) : Prop where
  apart : (used ++ l.all).Pairwise Lease.Apart
  pos : ∀ b ∈ used ++ l.all, 0 < b.size ∧ 0 ≤ b.offset
  counter : l.size = Lease.total l.all

end Spec

theorem sound_step_alloc {l l' : Lease} {used : List FB} {n : Nat} {off : Int} (g : Lease.Good l) (h : Spec.Sound l used)
    (ha : l.allocate n = some (off, l')) :
    Lease.Good l' ∧ (off = -1 ∧ Spec.Sound l' used ∨ off ≠ -1 ∧ Spec.Sound l' (⟨off, n⟩ :: used)) := by
  have g' := Lease.good_allocate g ha
  have hn0 : 0 < n := by
    unfold Lease.allocate at ha
    split at ha
    · simp at ha
    · omega
  refine ⟨g', ?_⟩
  rcases Lease.allocate_spec ha with ⟨rfl, rfl⟩ | ⟨b, rest, h1, h2, rfl, h4, h5, h6⟩
  · exact .inl ⟨rfl, h⟩
  · right
    have hb : b ∈ l.all := h1.symm.subset (by simp)
    have hpb := h.pos b (by simp [hb])
    refine ⟨by omega, ?_, ?_, g'.size⟩
    · -- replace the block by its two parts
      have hp : (used ++ l.all).Perm (b :: (used ++ rest)) :=
        ((List.perm_append_left_iff used).2 h1).trans List.perm_middle
      have hap := (Lease.pairwise_perm hp).1 h.apart
      rw [List.pairwise_cons] at hap
      have hp2 : (⟨b.offset, n⟩ :: used ++ l'.all).Perm (⟨b.offset, n⟩ :: (Lease.leftover b n ++ (used ++ rest))) := by
        rw [List.cons_append]
        refine List.Perm.cons _ ?_
        refine ((List.perm_append_left_iff used).2 h6).trans ?_
        exact List.perm_append_comm_assoc ..
      rw [Lease.pairwise_perm hp2]
      rw [List.pairwise_cons, List.pairwise_append]
      have hlo : ∀ x ∈ Lease.leftover b n, b.size ≠ n ∧ x = ⟨b.offset + n, b.size - n⟩ := by
        intro x hx
        unfold Lease.leftover at hx
        split at hx
        · simp at hx
        · rename_i hne; exact ⟨hne, by simpa using hx⟩
      refine ⟨?_, ?_, hap.2, ?_⟩
      · intro x hx
        rcases List.mem_append.1 hx with hx | hx
        · obtain ⟨_, rfl⟩ := hlo x hx
          left; simp
        · have := hap.1 x hx
          simp only [Lease.Apart] at this ⊢
          omega
      · unfold Lease.leftover
        split <;> simp
      · intro x hx y hy
        obtain ⟨_, rfl⟩ := hlo x hx
        have := hap.1 y hy
        simp only [Lease.Apart] at this ⊢
        have e : ((b.size - n : Nat) : Int) = b.size - n := Int.ofNat_sub h2
        rw [e]
        omega
    · intro x hx
      simp only [List.cons_append, List.mem_cons, List.mem_append] at hx
      rcases hx with rfl | hx | hx
      · exact ⟨hn0, hpb.2⟩
      · exact h.pos x (by simp [hx])
      · have hx' := h6.subset hx
        rcases List.mem_append.1 hx' with hx' | hx'
        · unfold Lease.leftover at hx'
          split at hx'
          · simp at hx'
          · rename_i hne
            simp only [List.mem_singleton] at hx'
            subst hx'
            simp only
            omega
        · exact h.pos x (List.mem_append_right _ (h1.symm.subset (List.mem_cons_of_mem _ hx')))

theorem sound_step_free {l : Lease} {used : List FB} {b : FB} (g : Lease.Good l) (h : Spec.Sound l used) (hb : b ∈ used) :
    Lease.Good (l.freeBlock b.offset b.size) ∧ Spec.Sound (l.freeBlock b.offset b.size) (used.erase b) := by
  have hu : used.Perm (b :: used.erase b) := List.perm_cons_erase hb
  have hp : (used ++ l.all).Perm (b :: (used.erase b ++ l.all)) := hu.append_right _
  have hap := (Lease.pairwise_perm hp).1 h.apart
  rw [List.pairwise_cons] at hap
  have hpb := h.pos b (by simp [hb])
  obtain ⟨g', hperm, _⟩ := Lease.good_free g b.offset b.size hpb.1 (fun x hx => hap.1 x (by simp [hx]))
    (fun x hx => (h.pos x (by simp [hx])).1)
  have hp2 : (used.erase b ++ (l.freeBlock b.offset b.size).all).Perm (used ++ l.all) := by
    refine ((List.perm_append_left_iff _).2 hperm).trans ?_
    exact List.perm_middle.trans hp.symm
  refine ⟨g', ⟨(Lease.pairwise_perm hp2).2 h.apart, fun x hx => h.pos x (hp2.subset hx), g'.size⟩⟩

/-- C31, without maintenance that merges blocks. For every history of allocations, frees of ranges in use, and defragmentation
when no two free blocks of a shard touch: no two ranges in use overlap, no free range overlaps one in use, every range handed
out has the size asked for, and the size counter is the number of free bytes. Missing from C31: defragmentation that merges
blocks, for which the statement is false (`C31_violated`). -/
theorem C31_free_space_partial (m : Int) (used : List FB) (hap : used.Pairwise Lease.Apart)
    (hpos : ∀ b ∈ used, 0 < b.size ∧ 0 ≤ b.offset) (ops : List LeaseOp) (l : Lease) (used' : List FB)
    (hrun : Spec.LeaseRun (Lease.new m, used) ops (l, used')) : Spec.Sound l used' := by
  have h0 : Lease.Good (Lease.new m) ∧ Spec.Sound (Lease.new m) used := by
    obtain ⟨g, e⟩ := Lease.good_new m
    exact ⟨g, by rw [e, List.append_nil]; exact hap, by rw [e, List.append_nil]; exact hpos, g.size⟩
  generalize hs : (Lease.new m, used) = s at hrun
  generalize he : (l, used') = e at hrun
  have h0' : Lease.Good s.1 ∧ Spec.Sound s.1 s.2 := by rw [← hs]; exact h0
  suffices Lease.Good e.1 ∧ Spec.Sound e.1 e.2 by rw [← he] at this; exact this.2
  clear h0 hs he
  induction hrun with
  | nil s => exact h0'
  | miss l used n l' ops s ha _ ih =>
    obtain ⟨g', h | h⟩ := sound_step_alloc h0'.1 h0'.2 ha
    · exact ih ⟨g', h.2⟩
    · exact absurd rfl h.1
  | hit l used n off l' ops s ha hne _ ih =>
    obtain ⟨g', h | h⟩ := sound_step_alloc h0'.1 h0'.2 ha
    · exact absurd h.1 hne
    · exact ih ⟨g', h.2⟩
  | free l used b l' ops s hb hf _ ih =>
    apply ih
    unfold Lease.free at hf
    split at hf
    · simp at hf
    · simp only [Option.some.injEq] at hf
      rw [← hf]
      exact sound_step_free h0'.1 h0'.2 hb
  | defrag l used ops s hnn _ ih =>
    apply ih
    obtain ⟨g', hperm, _⟩ := Lease.good_defrag h0'.1 hnn
    have hp : (used ++ l.defrag.all).Perm (used ++ l.all) := (List.perm_append_left_iff used).2 hperm
    exact ⟨g', (Lease.pairwise_perm hp).2 h0'.2.apart, fun x hx => h0'.2.pos x (hp.subset hx), g'.size⟩

/-- A non-trivial history: two ranges freed, part of one reused. -/
example : ∃ l, Spec.LeaseRun (Lease.new 0, [⟨15, 10⟩, ⟨40, 30⟩]) [.free ⟨15, 10⟩, .alloc 8] (l, [⟨15, 8⟩, ⟨40, 30⟩]) := by
  have h : (((Lease.new 0).freeBlock 15 10).allocate 8).map (·.1) = some 15 := by decide +kernel
  obtain ⟨⟨o, l''⟩, h2, ho⟩ := Option.map_eq_some_iff.1 h
  simp only at ho
  subst ho
  exact ⟨l'', .free _ _ ⟨15, 10⟩ _ _ _ (by simp) rfl (.hit _ _ 8 15 l'' _ _ h2 (by decide) (.nil _))⟩

/-- C31, full statement: as above, with defragmentation allowed at any time. -/
def C31_statement : Prop := ∀ l : Lease, Lease.Good l → Spec.Sound l [] → Lease.Good l.defrag ∧ Spec.Sound l.defrag []

/-- C31 is violated. Two neighbouring ranges are freed, the database is closed (which defragments and saves the free list) and
opened again; then three allocations of ten bytes succeed although only twenty bytes are free, and the second and the third get
the same range. -/
theorem C31_double_allocation_violated : (do
    let l ← (Lease.new 0).free 15 10
    let l ← l.free 25 10
    let l ← (Lease.new 0).read l.defrag.write
    let (a, l) ← l.allocate 10
    let (b, l) ← l.allocate 10
    let (c, _) ← l.allocate 10
    pure (a, b, c)) = some ((15 : Int), (25 : Int), (25 : Int)) := by decide +kernel

theorem C31_violated : ¬ C31_statement := by
  intro h
  obtain ⟨g0, e0⟩ := Lease.good_new 0
  have s0 : Spec.Sound (Lease.new 0) [⟨15, 10⟩, ⟨25, 10⟩] :=
    ⟨by rw [e0]; simp [Lease.Apart], by rw [e0]; simp, g0.size⟩
  obtain ⟨g1, s1⟩ := sound_step_free (b := ⟨15, 10⟩) g0 s0 (by simp)
  obtain ⟨g2, s2⟩ := sound_step_free (b := ⟨25, 10⟩) g1 s1 (by decide)
  have s2' : Spec.Sound (((Lease.new 0).freeBlock 15 10).freeBlock 25 10) [] := s2
  have bad := (h _ g2 s2').2.apart
  have e : (((Lease.new 0).freeBlock 15 10).freeBlock 25 10).defrag.all = [⟨15, 20⟩, ⟨25, 10⟩] := by decide +kernel
  rw [List.nil_append, e] at bad
  simp [Lease.Apart] at bad

/-! ## C10 -/

theorem decode_encode_FB (b : FB) (z : Bytes) (ho : -2 ^ 63 ≤ b.offset ∧ b.offset < 2 ^ 63) (hs : b.size < 2 ^ 32) :
    FB.decode (b.encode ++ z) = some b := by
  have e1 : (Int64.ofInt b.offset).toInt = b.offset := Int64.toInt_ofInt_of_le ho.1 ho.2
  have e2 : (UInt32.ofNat b.size).toNat = b.size := by
    rw [UInt32.toNat_ofNat']; exact Nat.mod_eq_of_lt hs
  simp only [FB.decode, FB.encode, List.append_assoc, getI64_put, get32_skip, length_putI64, Nat.le_refl, Nat.sub_self, get32_put]
  simp [e1, e2]

theorem length_FB_encode (b : FB) : b.encode.length = 12 := by simp [FB.encode]

/-- What `Open` knows from the bytes `Close` wrote. -/
theorem read_write (l : Lease) (m : Int) (hlen : l.all.length < 357913941)
    (hr : ∀ b ∈ l.all, (-2 ^ 63 ≤ b.offset ∧ b.offset < 2 ^ 63) ∧ b.size < 2 ^ 32) :
    (Lease.new m).read l.write = some ((l.all.filter (·.offset ≠ 0)).foldl (fun l b => l.freeBlock b.offset b.size) (Lease.new m)) := by
  have hl : ∀ bs : List FB, (bs.flatMap FB.encode).length = 12 * bs.length := by
    intro bs
    induction bs with
    | nil => rfl
    | cons b bs ih => rw [List.flatMap_cons, List.length_append, ih, length_FB_encode, List.length_cons]; omega
  have e1 : (UInt32.ofNat l.all.length).toNat = l.all.length := by
    rw [UInt32.toNat_ofNat']; exact Nat.mod_eq_of_lt (by omega)
  have e2 : (12 * UInt32.ofNat l.all.length).toNat = 12 * l.all.length := by
    rw [UInt32.toNat_mul, e1, show (12 : UInt32).toNat = 12 by rfl]; exact Nat.mod_eq_of_lt (by omega)
  have hw : l.write = put32 (UInt32.ofNat l.all.length) ++ l.all.flatMap FB.encode := rfl
  rw [Lease.read, if_neg (by rw [hw]; simp)]
  rw [hw, get32_put]
  simp only [Option.bind_eq_bind, Option.bind_some]
  have hs : slice? (put32 (UInt32.ofNat l.all.length) ++ l.all.flatMap FB.encode) 4 (4 + (12 * UInt32.ofNat l.all.length).toNat) =
      some (l.all.flatMap FB.encode) := by
    have := slice?_mid (put32 (UInt32.ofNat l.all.length)) (l.all.flatMap FB.encode) [] 4 (4 + (12 * UInt32.ofNat l.all.length).toNat)
      (by simp) (by rw [e2, hl]; simp)
    simpa using this
  rw [hs, Option.bind_some, e1, unmarshalFBs]
  have hd := decodeN_encode FB.decode 12 FB.encode l.all [] (fun x _ => length_FB_encode x)
    (fun x hx z' _ => decode_encode_FB x z' (hr x hx).1 (hr x hx).2)
  rw [List.append_nil] at hd
  rw [hd]
  simp

theorem freeAll_perm (bs : List FB) : ∀ l : Lease, Lease.Good l → (bs ++ l.all).Pairwise Lease.Apart →
    (∀ b ∈ bs ++ l.all, 0 < b.size) →
    Lease.Good (bs.foldl (fun l b => l.freeBlock b.offset b.size) l) ∧
      (bs.foldl (fun l b => l.freeBlock b.offset b.size) l).all.Perm (bs ++ l.all) := by
  induction bs with
  | nil => intro l g _ _; exact ⟨g, List.Perm.refl _⟩
  | cons b bs ih =>
    intro l g hap hpos
    rw [List.cons_append, List.pairwise_cons] at hap
    obtain ⟨g', hp, _⟩ := Lease.good_free g b.offset b.size (hpos b (by simp)) (fun x hx => hap.1 x (by simp [hx]))
      (fun x hx => hpos x (by simp [hx]))
    have hp2 : (bs ++ (l.freeBlock b.offset b.size).all).Perm (b :: (bs ++ l.all)) :=
      ((List.perm_append_left_iff bs).2 hp).trans List.perm_middle
    obtain ⟨g'', h⟩ := ih _ g' ((Lease.pairwise_perm hp2).2 (List.pairwise_cons.2 hap)) (fun x hx => hpos x (hp2.subset hx))
    exact ⟨g'', h.trans hp2⟩

/-- C10. For every free list whose blocks share no byte (which `C31` maintains), opening a database on the file that Close wrote
finds exactly the free blocks with a non-zero offset, with the same offset and size, and counts their bytes. The number of blocks
is bounded because the reader computes `12*size` in 32 bits. -/
theorem C10_free_space_survives (l : Lease) (m : Int) (hlen : l.all.length < 357913941)
    (hr : ∀ b ∈ l.all, (-2 ^ 63 ≤ b.offset ∧ b.offset < 2 ^ 63) ∧ b.size < 2 ^ 32)
    (hap : l.all.Pairwise Lease.Apart) (hpos : ∀ b ∈ l.all, 0 < b.size) :
    ∃ l', (Lease.new m).read l.write = some l' ∧ l'.all.Perm (l.all.filter (·.offset ≠ 0)) ∧
      l'.size = Lease.total (l.all.filter (·.offset ≠ 0)) := by
  obtain ⟨g0, e0⟩ := Lease.good_new m
  refine ⟨_, read_write l m hlen hr, ?_⟩
  obtain ⟨g, hp⟩ := freeAll_perm (l.all.filter (·.offset ≠ 0)) (Lease.new m) g0
    (by rw [e0, List.append_nil]; exact hap.filter _)
    (by rw [e0, List.append_nil]; intro b hb; exact hpos b (List.mem_of_mem_filter hb))
  rw [e0, List.append_nil] at hp
  exact ⟨hp, by rw [g.size, Lease.total_perm hp]⟩

example : ∃ l : Lease, l.all = [⟨7, 10⟩, ⟨40, 30⟩] :=
  ⟨((Lease.new 0).freeBlock 7 10).freeBlock 40 30, by decide +kernel⟩

/-- The exception is real: a free block at the start of the file is forgotten on reopen. -/
theorem C10_first_block_lost : ((Lease.new 0).read ((Lease.new 0).freeBlock 0 10).write).map (·.all) = some [] := by
  decide +kernel

end Verif
