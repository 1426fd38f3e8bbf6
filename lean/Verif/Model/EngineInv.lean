import Verif.Model.EngineLemmas

/-!
# Invariants of the engine between and during syncs
-/

namespace Verif

/-- Ghost state: the records stored so far, in order, each with the place of its bytes. -/
abbrev Loc := List (Rec × Nat)

def toEntry (p : Rec × Nat) : IndexEntry := ⟨p.1.seq, p.1.topicSize, p.1.valueSize, Int64.ofInt p.2⟩

def blockEs (L : Loc) (k : Nat) : List IndexEntry := (L.filter fun p => blockIndex p.1.seq.toNat = k).map toEntry

/-- The block that holds exactly the stored records of group `k`. -/
def absBlock (L : Loc) (k : Nat) : IndexBlock := mkBlock (blockEs L k)

/-- Sequences are in the addressable range and distinct. -/
structure LocOK (L : Loc) : Prop where
  range : ∀ p ∈ L, 1 ≤ p.1.seq.toNat ∧ p.1.seq.toNat ≤ 255 * 524287
  nodup : (L.map (·.1.seq)).Nodup

theorem LocOK.goodEs {L : Loc} (h : LocOK L) (k : Nat) : GoodEs k (blockEs L k) := by
  refine ⟨?_, ?_⟩
  · intro e he
    simp only [blockEs, List.mem_map, List.mem_filter, decide_eq_true_eq] at he
    obtain ⟨p, ⟨hp, hk⟩, rfl⟩ := he
    have := h.range p hp
    simp only [toEntry]
    unfold blockIndex at hk
    omega
  · have : (blockEs L k).map (·.seq) = (L.filter fun p => blockIndex p.1.seq.toNat = k).map (·.1.seq) := by
      simp [blockEs, toEntry, Function.comp_def]
    rw [this]
    exact h.nodup.sublist (List.filter_sublist.map _)

/-- Index side: every block kept by the writer is the block of the stored records; every other one is so in the file; unchanged
blocks agree with the file. -/
structure IdxCore (index : Bytes) (w : Writer) (L : Loc) (n : Nat) (B : Nat → IndexBlock) : Prop where
  file : FileOK index n B
  keys : (w.blocks.map (·.1)).Nodup
  kept : ∀ k b, w.blocks.lookup k = some b → k < 524287 ∧ b.blk = absBlock L k ∧ blockEs L k ≠ [] ∧
    (b.dirty = false → B k = b.blk)
  other : ∀ k, w.blocks.lookup k = none → B k = absBlock L k

/-- While appending, the writer also knows how many blocks the file has. -/
structure IdxInv (index : Bytes) (w : Writer) (L : Loc) (n : Nat) (B : Nat → IndexBlock) : Prop
    extends IdxCore index w L n B where
  bidx : ∀ k : Nat, (k : Int) < w.blockIdx ↔ k < n

/-- The bytes in use: one range per stored record that was not freed. -/
def usedOf (L : Loc) (freed : List UInt64) : List FB :=
  (L.filter fun p => p.1.seq ∉ freed).map fun p => ⟨p.2, p.1.cache.length⟩

/-- Data side. -/
structure DataInv (s : Store) (w : Writer) (L : Loc) (freed : List UInt64) : Prop where
  off : w.offset = s.data.length + w.buffer.length
  good : Lease.Good s.lease
  sound : Spec.Sound s.lease (usedOf L freed)
  freeIn : ∀ b ∈ s.lease.all, b.offset + b.size ≤ s.data.length ∧ b.size < 2 ^ 32
  bytes : ∀ p ∈ L, p.1.seq ∉ freed → slice? (s.data ++ w.buffer) p.2 (p.2 + p.1.cache.length) = some p.1.cache

theorem blockIndex_lt {q : Nat} (h : q ≤ 255 * 524287) (h1 : 1 ≤ q) : blockIndex q < 524287 := by
  unfold blockIndex; omega

theorem IdxInv.getBlock {index : Bytes} {w : Writer} {L : Loc} {n : Nat} {B : Nat → IndexBlock} (h : IdxInv index w L n B)
    (k : Nat) : ∃ b, w.getBlock index k = some b ∧ b.blk = absBlock L k := by
  unfold Writer.getBlock
  cases hl : w.blocks.lookup k with
  | some b => exact ⟨b, rfl, (h.kept k b hl).2.1⟩
  | none =>
    simp only
    by_cases hk : k < n
    · rw [if_pos ((h.bidx k).2 hk), h.file.read hk]
      exact ⟨_, rfl, h.other k hl⟩
    · rw [if_neg (fun hc => hk ((h.bidx k).1 hc))]
      refine ⟨_, rfl, ?_⟩
      rw [← h.other k hl, h.file.beyond k (by omega), mkBlock_zero]

theorem mkBlock_take {k : Nat} {es : List IndexEntry} (g : GoodEs k es) :
    (mkBlock es).entries.take (mkBlock es).entryIdx.toNat = es := by
  have := g.length
  have h : (UInt16.ofNat es.length).toNat = es.length := by simp; omega
  simp only [mkBlock, h]
  simp

theorem mkBlock_entryIdx {k : Nat} {es : List IndexEntry} (g : GoodEs k es) : (mkBlock es).entryIdx.toNat = es.length := by
  have := g.length
  simp [mkBlock]; omega

/-- Filling the next free slot. -/
theorem mkBlock_push {es : List IndexEntry} (h : es.length < 255) (e : IndexEntry) :
    (⟨(mkBlock es).entries.set (mkBlock es).entryIdx.toNat e, (mkBlock es).entryIdx + 1⟩ : IndexBlock) = mkBlock (es ++ [e]) := by
  have h1 : (UInt16.ofNat es.length).toNat = es.length := by simp; omega
  simp only [mkBlock, h1, IndexBlock.mk.injEq]
  constructor
  · rw [List.set_append_right _ _ (Nat.le_refl _)]
    have : 255 - es.length = (255 - (es ++ [e]).length) + 1 := by simp; omega
    rw [this, List.replicate_succ]
    simp
  · apply UInt16.toNat.inj
    simp [UInt16.toNat_add]

theorem lookup_setBlock (w : Writer) (k j : Nat) (b : WBlock) :
    (w.setBlock k b).blocks.lookup j = if j = k then some b else w.blocks.lookup j := by
  simp only [Writer.setBlock, List.lookup_cons]
  by_cases h : j = k
  · simp [h]
  · have h' : (j == k) = false := by simpa using h
    simp only [h', h, if_false]
    induction w.blocks with
    | nil => rfl
    | cons p ps ih =>
      simp only [List.filter_cons]
      by_cases hp : p.1 = k
      · simp only [hp, ne_eq, not_true, decide_false, Bool.false_eq_true, if_false, ih]
        obtain ⟨a, c⟩ := p
        simp only at hp; subst hp
        simp [List.lookup_cons, h']
      · simp only [hp, ne_eq, not_false_eq_true, decide_true, if_true]
        obtain ⟨a, c⟩ := p
        simp only [List.lookup_cons, ih]

theorem keys_setBlock (w : Writer) (k : Nat) (b : WBlock) (h : (w.blocks.map (·.1)).Nodup) :
    ((w.setBlock k b).blocks.map (·.1)).Nodup := by
  simp only [Writer.setBlock, List.map_cons, List.nodup_cons]
  refine ⟨?_, h.sublist (List.filter_sublist.map _)⟩
  simp only [List.mem_map, List.mem_filter, not_exists, not_and]
  rintro p ⟨_, hp⟩ rfl
  simp at hp

theorem valid_mkBlock {k : Nat} {es : List IndexEntry} (g : GoodEs k es) (h : es ≠ []) : (mkBlock es).valid k = true := by
  cases es with
  | nil => exact absurd rfl h
  | cons e es =>
    have := g.range e (by simp)
    simp only [IndexBlock.valid, mkBlock, List.cons_append, List.getElem?_cons_zero, decide_eq_true_eq]
    refine ⟨?_, ?_⟩
    · intro h0; rw [h0] at this; simp at this
    · unfold blockIndex; omega

theorem blockEs_append (L : Loc) (p : Rec × Nat) (k : Nat) :
    blockEs (L ++ [p]) k = if blockIndex p.1.seq.toNat = k then blockEs L k ++ [toEntry p] else blockEs L k := by
  simp only [blockEs, List.filter_append, List.filter_cons, List.filter_nil]
  split <;> simp_all

theorem mem_blockEs {L : Loc} {q : UInt64} : (blockEs L (blockIndex q.toNat)).any (fun e => e.seq == q) = true ↔
    q ∈ L.map (·.1.seq) := by
  simp only [blockEs, List.any_map, List.any_eq_true, List.mem_filter, decide_eq_true_eq, Function.comp, toEntry, beq_iff_eq,
    List.mem_map]
  constructor
  · rintro ⟨p, ⟨hp, _⟩, h⟩; exact ⟨p, hp, h⟩
  · rintro ⟨p, hp, h⟩; exact ⟨p, ⟨hp, by rw [h]⟩, h⟩

theorem sound_perm {l : Lease} {u v : List FB} (h : u.Perm v) (hs : Spec.Sound l u) : Spec.Sound l v :=
  ⟨(Lease.pairwise_perm (h.append_right _)).1 hs.apart, fun b hb => hs.pos b ((h.append_right _).symm.subset hb), hs.counter⟩

theorem sound_add {l : Lease} {u : List FB} {x : FB} (hs : Spec.Sound l u) (hx : 0 < x.size ∧ 0 ≤ x.offset)
    (hap : ∀ b ∈ u ++ l.all, Lease.Apart x b) : Spec.Sound l (x :: u) := by
  refine ⟨?_, ?_, hs.counter⟩
  · rw [List.cons_append, List.pairwise_cons]; exact ⟨hap, hs.apart⟩
  · intro b hb
    rw [List.cons_append, List.mem_cons] at hb
    rcases hb with rfl | hb
    · exact hx
    · exact hs.pos b hb

theorem allocate_total {l : Lease} (g : Lease.Good l) {n : Nat} (hn : 0 < n) : ∃ off l', l.allocate n = some (off, l') := by
  unfold Lease.allocate
  rw [if_neg (by omega)]
  split
  · exact ⟨_, _, rfl⟩
  · have hlt : shardOf (n : Int) < l.shards.length := by rw [g.len]; exact shardOf_lt _
    rw [List.getElem?_eq_getElem hlt]
    simp only
    split
    · exact ⟨_, _, rfl⟩
    · exact ⟨_, _, rfl⟩

theorem usedOf_append (L : Loc) (freed : List UInt64) (p : Rec × Nat) (h : p.1.seq ∉ freed) :
    usedOf (L ++ [p]) freed = usedOf L freed ++ [⟨p.2, p.1.cache.length⟩] := by
  simp [usedOf, h]

theorem mem_usedOf {L : Loc} {freed : List UInt64} {b : FB} :
    b ∈ usedOf L freed ↔ ∃ p ∈ L, p.1.seq ∉ freed ∧ b = ⟨p.2, p.1.cache.length⟩ := by
  simp only [usedOf, List.mem_map, List.mem_filter, decide_eq_true_eq]
  constructor
  · rintro ⟨p, ⟨h1, h2⟩, rfl⟩; exact ⟨p, h1, h2, rfl⟩
  · rintro ⟨p, h1, h2, rfl⟩; exact ⟨p, ⟨h1, h2⟩, rfl⟩

/-- Storing the bytes of a new record. -/
theorem placeData_spec {s : Store} {w : Writer} {L : Loc} {freed : List UInt64} (h : DataInv s w L freed) (r : Rec)
    (hr : r.seq ∉ freed) (hc : 0 < r.cache.length) (hc2 : r.cache.length < 2 ^ 32) :
    ∃ off : Nat, ∃ s' w', placeData s w r.cache = some ((off : Int), s', w') ∧ DataInv s' w' (L ++ [(r, off)]) freed ∧
      s'.index = s.index ∧ w'.blocks = w.blocks ∧ w'.blockIdx = w.blockIdx ∧
      s.data.length + w.buffer.length ≤ s'.data.length + w'.buffer.length := by
  have hn : (UInt32.ofNat r.cache.length).toNat = r.cache.length := by simp; omega
  obtain ⟨o, l', ha⟩ := allocate_total h.good hc
  obtain ⟨g', hcase⟩ := sound_step_alloc h.good h.sound ha
  have hin : ∀ b ∈ l'.all, b.offset + b.size ≤ s.data.length ∧ b.size < 2 ^ 32 := by
    intro b hb
    rcases Lease.allocate_spec ha with ⟨_, rfl⟩ | ⟨c, rest, h1, h2, h3, h4, h5, h6⟩
    · exact h.freeIn b hb
    · have hc' := h.freeIn c (h1.symm.subset (by simp))
      rcases List.mem_append.1 (h6.subset hb) with hb | hb
      · unfold Lease.leftover at hb
        split at hb
        · simp at hb
        · simp only [List.mem_singleton] at hb
          subst hb
          simp only
          omega
      · exact h.freeIn b (h1.symm.subset (List.mem_cons_of_mem _ hb))
  simp only [placeData, hn, ha]
  rcases hcase with ⟨rfl, hs'⟩ | ⟨hne, hs'⟩
  · refine ⟨w.offset, { s with lease := l' }, { w with buffer := w.buffer ++ r.cache, offset := w.offset + r.cache.length },
      rfl, ?_, rfl, rfl, rfl, by simp⟩
    have hoff := h.off
    refine ⟨?_, g', ?_, hin, ?_⟩
    · simp only [List.length_append]; omega
    · rw [usedOf_append _ _ _ hr]
      refine sound_perm (List.perm_append_comm (l₁ := [_])) (sound_add hs' ⟨hc, by simp⟩ ?_)
      intro b hb
      right
      simp only
      rcases List.mem_append.1 hb with hb | hb
      · obtain ⟨p, hp, hpf, rfl⟩ := mem_usedOf.1 hb
        have := (slice?_le (h.bytes p hp hpf)).2
        simp only [List.length_append] at this
        simp only
        omega
      · have := hin b hb
        omega
    · intro p hp hpf
      simp only
      rw [← List.append_assoc]
      rcases List.mem_append.1 hp with hp | hp
      · rw [slice?_prefix _ _ _ _ (slice?_le (h.bytes p hp hpf)).2]
        exact h.bytes p hp hpf
      · simp only [List.mem_singleton] at hp
        subst hp
        simp only
        have := slice?_mid (s.data ++ w.buffer) r.cache [] w.offset (w.offset + r.cache.length) (by simp [hoff])
          (by simp [hoff])
        simpa using this
  · have hpos := hs'.pos ⟨o, r.cache.length⟩ (by simp)
    have hend : o + r.cache.length ≤ s.data.length := by
      rcases Lease.allocate_spec ha with ⟨h1, _⟩ | ⟨c, rest, h1, h2, h3, h4, h5, h6⟩
      · exact absurd h1 hne
      · have hc' := h.freeIn c (h1.symm.subset (by simp))
        omega
    have ho : (o.toNat : Int) = o := Int.toNat_of_nonneg hpos.2
    have hcne : r.cache ≠ [] := List.length_pos_iff.1 hc
    have hlen : (writeAt s.data o.toNat r.cache).length = s.data.length := by
      rw [length_writeAt _ _ _ hcne]; omega
    refine ⟨o.toNat, { s with data := writeAt s.data o.toNat r.cache, lease := l' }, w, ?_, ?_, rfl, rfl, rfl, by simp [hlen]⟩
    · simp only [bind, Option.bind, ne_eq, hne, not_false_eq_true, if_true]
      rw [if_neg (by omega), ho]
      rfl
    · refine ⟨by simp only [hlen]; exact h.off, g', ?_, ?_, ?_⟩
      · rw [usedOf_append _ _ _ hr]
        simp only [ho]
        exact sound_perm (List.perm_append_comm (l₁ := [_])) hs'
      · intro b hb; simp only [hlen]; exact hin b hb
      · intro p hp hpf
        simp only
        rw [← writeAt_prefix _ _ _ _ (by omega)]
        rcases List.mem_append.1 hp with hp | hp
        · have hold := h.bytes p hp hpf
          have hle := slice?_le hold
          have hap := hs'.apart
          rw [List.cons_append, List.pairwise_cons] at hap
          have hu := hap.1 ⟨p.2, p.1.cache.length⟩ (List.mem_append_left _ (mem_usedOf.2 ⟨p, hp, hpf, rfl⟩))
          have hpp := hs'.pos ⟨p.2, p.1.cache.length⟩ (by
            rw [List.cons_append]
            exact List.mem_cons_of_mem _ (List.mem_append_left _ (mem_usedOf.2 ⟨p, hp, hpf, rfl⟩)))
          simp only [Lease.Apart] at hu hpp
          rw [slice?_writeAt_apart _ _ _ _ _ (by omega) hle.2 (by omega)]
          exact hold
        · simp only [List.mem_singleton] at hp
          subst hp
          exact slice?_writeAt_same _ _ _ hcne

end Verif
