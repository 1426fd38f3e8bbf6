import Verif.Model.EngineInv

/-!
# A sync keeps the invariants
-/

namespace Verif

/-- Everything known between two appends of one sync. -/
structure EInv (s : Store) (w : Writer) (L : Loc) (freed : List UInt64) : Prop where
  idx : ∃ n B, IdxInv s.index w L n B
  data : DataInv s w L freed
  loc : LocOK L
  sub : ∀ q ∈ freed, q ∈ L.map (·.1.seq)

/-- A record the database can store: addressable, non-empty, below 4 GB. -/
structure Rec.OK (r : Rec) : Prop where
  lo : 1 ≤ r.seq.toNat
  hi : r.seq.toNat ≤ 255 * 524287
  pos : 0 < r.cache.length
  small : r.cache.length < 2 ^ 32

theorem append_exist {s : Store} {w : Writer} {L : Loc} {freed : List UInt64} (h : EInv s w L freed) {r : Rec} (hr : r.OK)
    (hm : r.seq ∈ L.map (·.1.seq)) : w.append s r = .error .exist := by
  obtain ⟨n, B, hI⟩ := h.idx
  obtain ⟨b, hb, hbl⟩ := hI.getBlock (blockIndex r.seq.toNat)
  have g := h.loc.goodEs (blockIndex r.seq.toNat)
  have h0 : r.seq ≠ 0 := by
    intro hc; have := hr.lo; rw [hc] at this; simp at this
  unfold Writer.append
  rw [if_neg h0]
  simp only [hb, hbl]
  rw [if_pos]
  rw [absBlock, mkBlock_take g]
  exact mem_blockEs.2 hm

theorem append_new {s : Store} {w : Writer} {L : Loc} {freed : List UInt64} (h : EInv s w L freed) {r : Rec} (hr : r.OK)
    (hm : r.seq ∉ L.map (·.1.seq)) :
    ∃ off s' w', w.append s r = .ok (s', w') ∧ EInv s' w' (L ++ [(r, off)]) freed ∧
      s.data.length + w.buffer.length ≤ s'.data.length + w'.buffer.length := by
  obtain ⟨n, B, hI⟩ := h.idx
  obtain ⟨b, hb, hbl⟩ := hI.getBlock (blockIndex r.seq.toNat)
  have g := h.loc.goodEs (blockIndex r.seq.toNat)
  have h0 : r.seq ≠ 0 := by
    intro hc; have := hr.lo; rw [hc] at this; simp at this
  have hrf : r.seq ∉ freed := fun hc => hm (h.sub _ hc)
  obtain ⟨off, s', w', hp, hD, hi, hbk, hbi, hlen⟩ := placeData_spec h.data r hrf hr.pos hr.small
  have hloc : LocOK (L ++ [(r, off)]) := by
    refine ⟨?_, ?_⟩
    · intro p hp
      rcases List.mem_append.1 hp with hp | hp
      · exact h.loc.range p hp
      · simp only [List.mem_singleton] at hp; subst hp; exact ⟨hr.lo, hr.hi⟩
    · rw [List.map_append, List.nodup_append]
      refine ⟨h.loc.nodup, by simp, ?_⟩
      intro a ha c hc
      simp only [List.map_cons, List.map_nil, List.mem_singleton] at hc
      subst hc
      rintro rfl
      exact hm ha
  have g' := hloc.goodEs (blockIndex r.seq.toNat)
  have hes : blockEs (L ++ [(r, off)]) (blockIndex r.seq.toNat) = blockEs L (blockIndex r.seq.toNat) ++ [toEntry (r, off)] := by
    rw [blockEs_append, if_pos rfl]
  have hlt : (blockEs L (blockIndex r.seq.toNat)).length < 255 := by
    have := g'.length
    rw [hes] at this
    simp at this; omega
  have hpush := mkBlock_push hlt (toEntry (r, off))
  refine ⟨off, s', w'.setBlock (blockIndex r.seq.toNat) ⟨absBlock (L ++ [(r, off)]) (blockIndex r.seq.toNat), true, b.leased⟩, ?_, ?_, hlen⟩
  · unfold Writer.append
    rw [if_neg h0]
    simp only [hb, hbl]
    rw [if_neg, if_neg (by have := hr.pos; omega)]
    · rw [hp]
      simp only
      rw [if_neg]
      · have e1 : (⟨(absBlock L (blockIndex r.seq.toNat)).entries.set (absBlock L (blockIndex r.seq.toNat)).entryIdx.toNat
            ⟨r.seq, r.topicSize, r.valueSize, Int64.ofInt off⟩, (absBlock L (blockIndex r.seq.toNat)).entryIdx + 1⟩ : IndexBlock)
            = absBlock (L ++ [(r, off)]) (blockIndex r.seq.toNat) := by
          rw [absBlock, absBlock, hes]; exact hpush
        rw [e1, if_pos]
        rw [absBlock, hes]
        rw [hes] at g'
        exact valid_mkBlock g' (by simp)
      · rw [absBlock, mkBlock_entryIdx g]
        show ¬ 255 ≤ _
        omega
    · rw [absBlock, mkBlock_take g]
      exact fun hc => hm (mem_blockEs.1 hc)
  · refine ⟨⟨n, B, ?_⟩, ⟨hD.off, hD.good, hD.sound, hD.freeIn, hD.bytes⟩, hloc, ?_⟩
    · refine ⟨⟨by rw [hi]; exact hI.file, ?_, ?_, ?_⟩, ?_⟩
      rotate_right
      · intro k; rw [← hI.bidx k]; show (k : Int) < w'.blockIdx ↔ _; rw [hbi]
      · apply keys_setBlock; rw [hbk]; exact hI.keys
      · intro k b' hk
        rw [lookup_setBlock, hbk] at hk
        split at hk
        · next hkk =>
          cases hk
          subst hkk
          exact ⟨blockIndex_lt hr.hi hr.lo, rfl, by rw [hes]; simp, by simp⟩
        · next hkk =>
          obtain ⟨h1, h2, h3, h4⟩ := hI.kept k b' hk
          have : blockEs (L ++ [(r, off)]) k = blockEs L k := by
            rw [blockEs_append, if_neg (by simpa using fun hc => hkk hc.symm)]
          exact ⟨h1, by rw [h2, absBlock, absBlock, this], by rw [this]; exact h3, h4⟩
      · intro k hk
        rw [lookup_setBlock, hbk] at hk
        split at hk
        · cases hk
        · next hkk =>
          have : blockEs (L ++ [(r, off)]) k = blockEs L k := by
            rw [blockEs_append, if_neg (by simpa using fun hc => hkk hc.symm)]
          rw [hI.other k hk, absBlock, absBlock, this]
    · intro q hq
      rw [List.map_append]
      exact List.mem_append_left _ (h.sub q hq)

/-- The records of `rs` that are new, in order: the first of each sequence. -/
def newRecs (known : List UInt64) : List Rec → List Rec
  | [] => []
  | r :: rs => if r.seq ∈ known then newRecs known rs else r :: newRecs (known ++ [r.seq]) rs

theorem appendAll_spec {freed : List UInt64} (rs : List Rec) (hrs : ∀ r ∈ rs, r.OK) :
    ∀ {s : Store} {w : Writer} {L : Loc}, EInv s w L freed →
    ∃ s' w' L', appendAll s w rs = some (s', w') ∧ EInv s' w' (L ++ L') freed ∧ L'.map (·.1) = newRecs (L.map (·.1.seq)) rs ∧
      s.data.length + w.buffer.length ≤ s'.data.length + w'.buffer.length := by
  induction rs with
  | nil => intro s w L h; exact ⟨s, w, [], rfl, by simpa using h, rfl, Nat.le_refl _⟩
  | cons r rs ih =>
    intro s w L h
    by_cases hm : r.seq ∈ L.map (·.1.seq)
    · obtain ⟨s', w', L', h1, h2, h3, h4⟩ := ih (fun x hx => hrs x (List.mem_cons_of_mem _ hx)) h
      refine ⟨s', w', L', ?_, h2, ?_, h4⟩
      · rw [appendAll, append_exist h (hrs r (by simp)) hm]; exact h1
      · rw [newRecs, if_pos hm]; exact h3
    · obtain ⟨off, s1, w1, h1, h2, h4⟩ := append_new h (hrs r (by simp)) hm
      obtain ⟨s', w', L', h5, h6, h7, h8⟩ := ih (fun x hx => hrs x (List.mem_cons_of_mem _ hx)) h2
      refine ⟨s', w', (r, off) :: L', ?_, by simpa using h6, ?_, by omega⟩
      · rw [appendAll, h1]; exact h5
      · rw [newRecs, if_neg hm, List.map_cons, h7]
        simp

/-! ## Writing -/

theorem mapM_some {α β : Type} (f : α → Option β) (g : α → β) (l : List α) (h : ∀ a ∈ l, f a = some (g a)) :
    l.mapM f = some (l.map g) := by
  induction l with
  | nil => rfl
  | cons a l ih =>
    rw [List.mapM_cons, h a (by simp), ih (fun x hx => h x (List.mem_cons_of_mem _ hx))]
    rfl

theorem parts_shape (xs : List Int) : ∀ parts, blockRange xs = some parts →
    ∀ p ∈ parts, ∃ x tl m, p = x :: tl ∧ partBlocks p = rangeFrom x (m + 1) := by
  have hrun : ∀ x n l, l = x + ((n : Nat) : Int) → ∀ p ∈ runParts x n l, ∃ x tl m, p = x :: tl ∧ partBlocks p = rangeFrom x (m + 1) := by
    intro x n l hl p hp
    subst hl
    match n with
    | 0 => simp [runParts] at hp; subst hp; exact ⟨x, [], 0, rfl, by simp [partBlocks, rangeFrom]⟩
    | 1 =>
      simp [runParts] at hp
      rcases hp with rfl | rfl
      · exact ⟨x + 1, [], 0, rfl, by simp [partBlocks, rangeFrom]⟩
      · exact ⟨x, [], 0, rfl, by simp [partBlocks, rangeFrom]⟩
    | k + 2 =>
      simp only [runParts, List.mem_singleton] at hp
      subst hp
      refine ⟨x, _, k + 2, rfl, ?_⟩
      have : (x + ((k + 2 : Nat) : Int) - x + 1).toNat = k + 2 + 1 := by omega
      simp only [partBlocks, this, rangeFrom]
  induction h : xs.length using Nat.strongRecOn generalizing xs with
  | _ n ih =>
    intro parts hp p hpp
    cases xs with
    | nil => simp [blockRange] at hp; subst hp; simp at hpp
    | cons x xs =>
      obtain ⟨h1, h2, h3⟩ := scanRun_spec x xs
      have hl := scanRun_length x xs
      rw [blockRange] at hp
      split at hp
      · cases hp; exact hrun _ _ _ h2 p hpp
      · next y ys hr =>
        split at hp
        · cases hp
        split at hp
        · cases hp
        rw [Option.map_eq_some_iff] at hp
        obtain ⟨parts', hp', rfl⟩ := hp
        rcases List.mem_append.1 hpp with hpp | hpp
        · exact hrun _ _ _ h2 p hpp
        · rw [hr] at hl
          exact ih (y :: ys).length (by simp only [List.length_cons] at *; omega) (y :: ys) rfl parts' hp' p hpp

/-- Blocks `a, a+1, .., a+m-1` written at once. -/
theorem FileOK.writeRange {L : Loc} (hloc : LocOK L) (m : Nat) : ∀ (a : Nat) {index : Bytes} {n : Nat} {B : Nat → IndexBlock},
    FileOK index n B → a + m ≤ 524287 →
    ∃ n', n ≤ n' ∧ FileOK (writeAt index (4096 * a) ((List.range' a m).map fun k => (absBlock L k).marshal).flatten) n'
      (fun k => if k ∈ List.range' a m then absBlock L k else B k) ∧ ∀ k ∈ List.range' a m, k < n' := by
  induction m with
  | zero =>
    intro a index n B f _
    refine ⟨n, Nat.le_refl _, ?_, by simp⟩
    simpa [writeAt] using f
  | succ m ih =>
    intro a index n B f ham
    have f1 := f.write (k := a) (by omega) (hloc.goodEs a)
    obtain ⟨n', hn, f2, hk⟩ := ih (a + 1) f1 (by omega)
    refine ⟨n', by omega, ?_, ?_⟩
    · have hl := length_mkBlock (hloc.goodEs a)
      have hne : (absBlock L a).marshal ≠ [] := by
        intro h; rw [absBlock] at h; rw [h] at hl; simp at hl
      rw [List.range'_succ, List.map_cons, List.flatten_cons, writeAt_append _ _ _ _ hne]
      have hl' : (absBlock L a).marshal.length = 4096 := hl
      rw [hl']
      have e2 : 4096 * a + 4096 = 4096 * (a + 1) := by omega
      rw [e2]
      have e3 : (fun k => if k ∈ a :: List.range' (a + 1) m then absBlock L k else B k) =
          (fun k => if k ∈ List.range' (a + 1) m then absBlock L k else Function.update B a (mkBlock (blockEs L a)) k) := by
        funext k
        by_cases hka : k = a
        · subst hka; simp [absBlock]
        · simp [hka]
      rw [e3]
      exact f2
    · intro k hk'
      rw [List.range'_succ, List.mem_cons] at hk'
      rcases hk' with rfl | hk'
      · omega
      · exact hk k hk'

theorem marshalKept_spec {index : Bytes} {w : Writer} {L : Loc} {n : Nat} {B : Nat → IndexBlock} (hloc : LocOK L)
    (h : IdxCore index w L n B) {k : Nat} {b : WBlock} (hk : w.blocks.lookup k = some b) :
    marshalKept w.blocks k = some (absBlock L k).marshal := by
  obtain ⟨_, h2, h3, _⟩ := h.kept k b hk
  simp only [marshalKept, hk, h2, bind, Option.bind]
  have hv : (absBlock L k).valid k = true := valid_mkBlock (hloc.goodEs k) h3
  rw [if_pos hv]
  rfl

theorem fileWrite_block (f d : Bytes) (k : Nat) (h : k < 524287) : fileWrite f (blockOff k) d = some (writeAt f (4096 * k) d) := by
  rw [fileWrite, blockOff_eq k h, if_pos (by omega)]
  congr 2

/-- Keys written one by one. -/
theorem writeKeys_spec {index0 : Bytes} {w : Writer} {L : Loc} {n0 : Nat} {B0 : Nat → IndexBlock} (hloc : LocOK L)
    (h : IdxCore index0 w L n0 B0) (ks : List Nat) (hks : ∀ k ∈ ks, ∃ b, w.blocks.lookup k = some b) :
    ∀ {index : Bytes} {n : Nat} {B : Nat → IndexBlock}, FileOK index n B →
    ∃ index' n', ks.foldlM (fun index k => do
        let d ← marshalKept w.blocks k
        fileWrite index (blockOff k) d) index = some index' ∧ n ≤ n' ∧
      FileOK index' n' (fun k => if k ∈ ks then absBlock L k else B k) ∧ ∀ k ∈ ks, k < n' := by
  induction ks with
  | nil => intro index n B f; exact ⟨index, n, rfl, Nat.le_refl _, by simpa using f, by simp⟩
  | cons k ks ih =>
    intro index n B f
    obtain ⟨b, hb⟩ := hks k (by simp)
    have hk := (h.kept k b hb).1
    have f1 := f.write (k := k) hk (hloc.goodEs k)
    obtain ⟨index', n', h1, h2, h3, h4⟩ := ih (fun j hj => hks j (List.mem_cons_of_mem _ hj)) f1
    refine ⟨index', n', ?_, by omega, ?_, ?_⟩
    · rw [List.foldlM_cons]
      have e : (do
          let d ← marshalKept w.blocks k
          fileWrite index (blockOff k) d) = some (writeAt index (4096 * k) (absBlock L k).marshal) := by
        rw [marshalKept_spec hloc h hb]
        exact fileWrite_block _ _ _ hk
      rw [e]
      exact h1
    · have e3 : (fun j => if j ∈ k :: ks then absBlock L j else B j) =
          (fun j => if j ∈ ks then absBlock L j else Function.update B k (mkBlock (blockEs L k)) j) := by
        funext j
        by_cases hka : j = k
        · subst hka; simp [absBlock]
        · simp [hka]
      rw [e3]; exact h3
    · intro j hj
      rcases List.mem_cons.1 hj with rfl | hj
      · omega
      · exact h4 j hj

theorem rangeFrom_toNat (x : Int) (hx : 0 ≤ x) (m : Nat) : (rangeFrom x m).map Int.toNat = List.range' x.toNat m := by
  induction m generalizing x with
  | zero => simp [rangeFrom]
  | succ m ih =>
    rw [rangeFrom_succ, List.map_cons, ih (x + 1) (by omega), List.range'_succ]
    congr 2; omega

/-- Parts written one after the other. -/
theorem writeParts_spec {index0 : Bytes} {w : Writer} {L : Loc} {n0 : Nat} {B0 : Nat → IndexBlock} (hloc : LocOK L)
    (h : IdxCore index0 w L n0 B0) (parts : List (List Int))
    (hshape : ∀ p ∈ parts, ∃ x tl m, p = x :: tl ∧ partBlocks p = rangeFrom x (m + 1))
    (hks : ∀ k ∈ parts.flatMap partBlocks, 0 ≤ k ∧ ∃ b, w.blocks.lookup k.toNat = some b) :
    ∀ {index : Bytes} {n : Nat} {B : Nat → IndexBlock}, FileOK index n B →
    ∃ index' n', parts.foldlM (writePart w.blocks) index = some index' ∧ n ≤ n' ∧
      FileOK index' n' (fun k => if k ∈ (parts.flatMap partBlocks).map Int.toNat then absBlock L k else B k) ∧
      ∀ k ∈ (parts.flatMap partBlocks).map Int.toNat, k < n' := by
  induction parts with
  | nil => intro index n B f; exact ⟨index, n, rfl, Nat.le_refl _, by simpa using f, by simp⟩
  | cons p ps ih =>
    intro index n B f
    obtain ⟨x, tl, m, rfl, hpb⟩ := hshape p (by simp)
    have hkp : ∀ k ∈ rangeFrom x (m + 1), 0 ≤ k ∧ ∃ b, w.blocks.lookup k.toNat = some b := by
      intro k hk
      exact hks k (by rw [List.flatMap_cons, hpb]; exact List.mem_append_left _ hk)
    have hx0 := (hkp x (by rw [rangeFrom_succ]; simp)).1
    have hlast : x.toNat + (m + 1) ≤ 524287 := by
      obtain ⟨h1, b, hb⟩ := hkp (x + m) (by
        simp only [rangeFrom, List.mem_map, List.mem_range]; exact ⟨m, by omega, rfl⟩)
      have := (h.kept _ b hb).1
      omega
    have hmem : (partBlocks (x :: tl)).map Int.toNat = List.range' x.toNat (m + 1) := by
      rw [hpb, rangeFrom_toNat x hx0]
    obtain ⟨n1, hn1, f1, hk1⟩ := f.writeRange hloc (m + 1) x.toNat hlast
    obtain ⟨index', n', h1, h2, h3, h4⟩ := ih (fun q hq => hshape q (List.mem_cons_of_mem _ hq))
      (fun k hk => hks k (by rw [List.flatMap_cons]; exact List.mem_append_right _ hk)) f1
    refine ⟨index', n', ?_, by omega, ?_, ?_⟩
    · rw [List.foldlM_cons]
      have e : writePart w.blocks index (x :: tl) =
          some (writeAt index (4096 * x.toNat) ((List.range' x.toNat (m + 1)).map fun k => (absBlock L k).marshal).flatten) := by
        have e1 : (partBlocks (x :: tl)).mapM (fun k => marshalKept w.blocks k.toNat) =
            some ((partBlocks (x :: tl)).map fun k => (absBlock L k.toNat).marshal) := by
          apply mapM_some
          intro k hk
          rw [hpb] at hk
          obtain ⟨_, b, hb⟩ := hkp k hk
          exact marshalKept_spec hloc h hb
        have e2 : (partBlocks (x :: tl)).map (fun k => (absBlock L k.toNat).marshal) =
            (List.range' x.toNat (m + 1)).map fun k => (absBlock L k).marshal := by
          rw [← hmem, List.map_map]; rfl
        simp only [writePart]
        rw [e1, e2]
        exact fileWrite_block _ _ _ (by omega)
      rw [e]
      exact h1
    · have e3 : (fun j => if j ∈ ((((x :: tl) :: ps).flatMap partBlocks)).map Int.toNat then absBlock L j else B j) =
          (fun j => if j ∈ (ps.flatMap partBlocks).map Int.toNat then absBlock L j else
            (if j ∈ List.range' x.toNat (m + 1) then absBlock L j else B j)) := by
        funext j
        rw [List.flatMap_cons, List.map_append, hmem]
        by_cases h1 : j ∈ List.range' x.toNat (m + 1)
        · rw [if_pos (List.mem_append_left _ h1), if_pos h1]; split <;> rfl
        · by_cases h2 : j ∈ (ps.flatMap partBlocks).map Int.toNat
          · rw [if_pos (List.mem_append_right _ h2), if_pos h2]
          · rw [if_neg (by rw [List.mem_append]; tauto), if_neg h2, if_neg h1]
      rw [e3]; exact h3
    · intro j hj
      rw [List.flatMap_cons, List.map_append, hmem] at hj
      rcases List.mem_append.1 hj with hj | hj
      · have := hk1 j hj; omega
      · exact h4 j hj

theorem mem_of_lookup {l : List (Nat × WBlock)} {k : Nat} {b : WBlock} (h : l.lookup k = some b) : (k, b) ∈ l := by
  induction l with
  | nil => simp at h
  | cons p ps ih =>
    obtain ⟨a, c⟩ := p
    rw [List.lookup_cons] at h
    by_cases hk : k = a
    · subst hk; simp at h; subst h; simp
    · have h' : (k == a) = false := by simpa using hk
      rw [h'] at h
      exact List.mem_cons_of_mem _ (ih h)

theorem lookup_of_mem {l : List (Nat × WBlock)} {k : Nat} {b : WBlock} (hn : (l.map (·.1)).Nodup) (h : (k, b) ∈ l) :
    l.lookup k = some b := by
  induction l with
  | nil => simp at h
  | cons p ps ih =>
    obtain ⟨a, c⟩ := p
    rw [List.map_cons, List.nodup_cons] at hn
    rw [List.lookup_cons]
    rcases List.mem_cons.1 h with h2 | h2
    · cases h2; simp
    · have hk : k ≠ a := fun hka => hn.1 (List.mem_map.2 ⟨_, h2, hka⟩)
      have h' : (k == a) = false := by simpa using hk
      rw [h']
      exact ih hn.2 h2

theorem lookup_map_flag (l : List (Nat × WBlock)) (ks : List Nat) (k : Nat) :
    (l.map fun p => if p.1 ∈ ks then (p.1, { p.2 with dirty := false }) else p).lookup k =
      (l.lookup k).map fun b => if k ∈ ks then { b with dirty := false } else b := by
  induction l with
  | nil => rfl
  | cons p ps ih =>
    obtain ⟨a, c⟩ := p
    rw [List.map_cons]
    by_cases hk : k = a
    · subst hk
      by_cases hm : k ∈ ks <;> simp [hm]
    · have h' : (k == a) = false := by simpa using hk
      by_cases hm : a ∈ ks
      · rw [if_pos hm, List.lookup_cons, List.lookup_cons, h']; exact ih
      · rw [if_neg hm, List.lookup_cons, List.lookup_cons, h']; exact ih

/-- `write` makes every block of the file the block of the stored records. -/
theorem write_spec {s : Store} {w : Writer} {L : Loc} {n : Nat} {B : Nat → IndexBlock} (hloc : LocOK L)
    (h : IdxCore s.index w L n B) :
    ∃ s' w' n', w.write s = some (s', w') ∧ s'.data = s.data ++ w.buffer ∧ s'.lease = s.lease ∧ w'.offset = w.offset ∧
      w'.buffer = [] ∧ IdxInv s'.index (w'.reset s') L n' (absBlock L) ∧ n ≤ n' := by
  have hks1 : ∀ k ∈ (w.blocks.filter fun p => p.2.leased && p.2.dirty).map (·.1), ∃ b, w.blocks.lookup k = some b := by
    intro k hk
    simp only [List.mem_map, List.mem_filter] at hk
    obtain ⟨p, ⟨hp, _⟩, rfl⟩ := hk
    exact ⟨p.2, lookup_of_mem h.keys hp⟩
  obtain ⟨i1, n1, e1, hn1, f1, _⟩ := writeKeys_spec hloc h _ hks1 h.file
  set fresh := (w.blocks.filter fun p => !p.2.leased && p.2.dirty).map (·.1) with hfresh
  have hperm : (fresh.insertionSort (· ≤ ·)).Perm fresh := List.perm_insertionSort _ _
  have hnd : fresh.Nodup := h.keys.sublist (List.filter_sublist.map _)
  have hsort : ((fresh.insertionSort (· ≤ ·)).map fun (k : Nat) => (k : Int)).Pairwise (· < ·) := by
    rw [List.pairwise_map]
    have h1 : (fresh.insertionSort (· ≤ ·)).Pairwise (· ≤ ·) := List.pairwise_insertionSort _ _
    have h2 : (fresh.insertionSort (· ≤ ·)).Nodup := hperm.nodup_iff.2 hnd
    exact (h1.and h2).imp (fun {a b} hab => by have := hab.1; have := hab.2; omega)
  obtain ⟨parts, e2, hpp⟩ := C12_ranges_exact _ hsort
  have hpk : ∀ k ∈ parts.flatMap partBlocks, ∃ j ∈ fresh, k = (j : Int) := by
    intro k hk
    have := hpp.subset hk
    rw [List.mem_map] at this
    obtain ⟨j, hj, rfl⟩ := this
    exact ⟨j, hperm.subset hj, rfl⟩
  have hks2 : ∀ k ∈ parts.flatMap partBlocks, 0 ≤ k ∧ ∃ b, w.blocks.lookup k.toNat = some b := by
    intro k hk
    obtain ⟨j, hj, rfl⟩ := hpk k hk
    simp only [hfresh, List.mem_map, List.mem_filter] at hj
    obtain ⟨p, ⟨hp, _⟩, rfl⟩ := hj
    exact ⟨by omega, p.2, by simpa using lookup_of_mem h.keys hp⟩
  obtain ⟨i2, n2, e3, hn2, f2, _⟩ := writeParts_spec hloc h parts (parts_shape _ parts e2) hks2 f1
  have hB : (fun k => if k ∈ (parts.flatMap partBlocks).map Int.toNat then absBlock L k else
      if k ∈ (w.blocks.filter fun p => p.2.leased && p.2.dirty).map (·.1) then absBlock L k else B k) = absBlock L := by
    funext k
    split
    · rfl
    · next hk1 =>
      split
      · rfl
      · next hk2 =>
        cases hl : w.blocks.lookup k with
        | none => exact h.other k hl
        | some b =>
          obtain ⟨_, hb, _, hd⟩ := h.kept k b hl
          have hmem := mem_of_lookup hl
          have : b.dirty = false := by
            by_contra hc
            have hc : b.dirty = true := by simpa using hc
            by_cases hle : b.leased = true
            · exact hk2 (List.mem_map.2 ⟨_, List.mem_filter.2 ⟨hmem, by simp [hle, hc]⟩, rfl⟩)
            · have hle : b.leased = false := by simpa using hle
              have hf : k ∈ fresh := List.mem_map.2 ⟨_, List.mem_filter.2 ⟨hmem, by simp [hle, hc]⟩, rfl⟩
              refine hk1 (List.mem_map.2 ⟨(k : Int), hpp.symm.subset (List.mem_map.2 ⟨k, hperm.symm.subset hf, rfl⟩), by simp⟩)
          rw [hd this, hb]
  rw [hB] at f2
  refine ⟨{ s with index := i2, data := s.data ++ w.buffer },
    { w with blocks := w.blocks.map fun p => if p.1 ∈ (w.blocks.filter fun p => p.2.leased && p.2.dirty).map (·.1) ++
        (parts.flatMap partBlocks).map Int.toNat then (p.1, { p.2 with dirty := false }) else p, buffer := [] },
    n2, ?_, rfl, rfl, rfl, rfl, ?_, by omega⟩
  · simp only [Writer.write, Option.bind_eq_bind, Option.bind_eq_some_iff]
    refine ⟨i1, e1, parts, e2, i2, e3, ?_⟩
    rw [writeAt_end]
    rfl
  · refine ⟨⟨f2, ?_, ?_, fun k _ => rfl⟩, ?_⟩
    rotate_right
    · intro k
      simp only [Writer.reset, f2.len]
      have : 4096 * n2 / blockSize = n2 := by show 4096 * n2 / 4096 = n2; omega
      rw [this]; omega
    · simp only [Writer.reset, List.map_map]
      have : ((fun x : Nat × WBlock => x.1) ∘ fun p : Nat × WBlock =>
          if p.1 ∈ List.map (·.1) (List.filter (fun p => p.2.leased && p.2.dirty) w.blocks) ++
            List.map Int.toNat (List.flatMap partBlocks parts) then (p.1, { p.2 with dirty := false }) else p) =
          fun x : Nat × WBlock => x.1 := by
        funext p; simp only [Function.comp]; split <;> rfl
      rw [this]; exact h.keys
    · intro k b hk
      simp only [Writer.reset, lookup_map_flag] at hk
      rw [Option.map_eq_some_iff] at hk
      obtain ⟨b0, hb0, rfl⟩ := hk
      obtain ⟨h1, h2, h3, _⟩ := h.kept k b0 hb0
      refine ⟨h1, ?_, h3, fun _ => ?_⟩
      · split <;> exact h2
      · split <;> exact h2.symm

theorem extendIndex_spec {index : Bytes} {n : Nat} {B : Nat → IndexBlock} (f : FileOK index n B) (q : UInt64)
    (hq : q.toNat ≤ 255 * 524287) : ∃ n', n ≤ n' ∧ FileOK (extendIndex index q) n' B := by
  have hlt : blockIndex q.toNat < 524287 := by unfold blockIndex; omega
  have hl := f.len
  have hb := f.bound
  simp only [extendIndex, blockOff_eq _ hlt]
  split
  · exact ⟨n, Nat.le_refl _, f⟩
  · next hc =>
    have e : index.length + (((4096 * blockIndex q.toNat : Nat) : Int) - index.length).toNat % 2 ^ 32 =
        4096 * blockIndex q.toNat := by
      rw [Nat.mod_eq_of_lt]
      · omega
      · omega
    rw [e]
    exact ⟨_, by omega, f.extend _ (by omega) (by omega)⟩

/-- What holds between two syncs. -/
structure SInv (s : Store) (L : Loc) (freed : List UInt64) : Prop where
  file : ∃ n, FileOK s.index n (absBlock L)
  data : DataInv s ⟨0, [], [], s.data.length⟩ L freed
  loc : LocOK L
  sub : ∀ q ∈ freed, q ∈ L.map (·.1.seq)

theorem newBlockWriter_spec {s : Store} {L : Loc} {freed : List UInt64} (h : SInv s L freed) :
    ∃ w, newBlockWriter s = some w ∧ EInv s w L freed ∧ w.buffer = [] := by
  obtain ⟨n, f⟩ := h.file
  have hl := f.len
  have hb := f.bound
  have hd := h.data
  have hdata : ∀ bi bl, DataInv s ⟨bi, bl, [], s.data.length⟩ L freed := fun _ _ => ⟨hd.off, hd.good, hd.sound, hd.freeIn, hd.bytes⟩
  unfold newBlockWriter
  by_cases h0 : s.index.length > 0
  · rw [if_pos h0]
    have hn : s.index.length / blockSize = n := by rw [hl]; show 4096 * n / 4096 = n; omega
    simp only [hn]
    have h1 : (4096 * Int32.ofNat n).toInt = 4096 * n := by
      have := blockOffset_eq n (by omega)
      rw [blockOffset, if_neg] at this
      · rw [← this, Int32.toInt_toInt64]
      · intro hc
        have h2 : (Int32.ofNat n).toInt = n := by rw [Int32.toInt_ofNat_of_lt]; omega
        have h3 : (-1 : Int32).toInt = -1 := by decide
        rw [hc, h3] at h2; omega
    rw [if_neg (by rw [h1]; omega)]
    refine ⟨_, rfl, ⟨⟨n, absBlock L, ⟨⟨f, by simp, by simp, fun k _ => rfl⟩, fun k => by simp⟩⟩, hdata _ _, h.loc, h.sub⟩, rfl⟩
  · rw [if_neg h0]
    have hn : n = 0 := by omega
    refine ⟨_, rfl, ⟨⟨n, absBlock L, ⟨⟨f, by simp, by simp, fun k _ => rfl⟩, fun k => by simp; omega⟩⟩, hdata _ _, h.loc, h.sub⟩, rfl⟩

theorem upperSeq_le (rs : List Rec) (m : Nat) (h : ∀ r ∈ rs, r.seq.toNat ≤ m) : (upperSeq rs).toNat ≤ m := by
  unfold upperSeq
  have : ∀ (a : UInt64), a.toNat ≤ m → (rs.foldl (fun m r => if m < r.seq then r.seq else m) a).toNat ≤ m := by
    induction rs with
    | nil => intro a ha; exact ha
    | cons r rs ih =>
      intro a ha
      rw [List.foldl_cons]
      apply ih (fun x hx => h x (List.mem_cons_of_mem _ hx))
      split
      · exact h r (by simp)
      · exact ha
  exact this 0 (by simp)

/-- One round: it succeeds, and stores exactly the new records. -/
theorem syncRound_spec {s : Store} {w : Writer} {L : Loc} {freed : List UInt64} (h : EInv s w L freed) (rs : List Rec)
    (hrs : ∀ r ∈ rs, r.OK) :
    ∃ s' w' L', syncRound s w rs = some (s', w') ∧ EInv s' w' (L ++ L') freed ∧ w'.buffer = [] ∧
      L'.map (·.1) = newRecs (L.map (·.1.seq)) rs ∧ (∃ n, FileOK s'.index n (absBlock (L ++ L'))) ∧
      s.data.length ≤ s'.data.length := by
  obtain ⟨s1, w1, L', h1, h2, h3, h4⟩ := appendAll_spec rs hrs h
  obtain ⟨n, B, hI⟩ := h2.idx
  obtain ⟨n1, hn1, f1⟩ := extendIndex_spec hI.file (upperSeq rs) (upperSeq_le rs _ (fun r hr => (hrs r hr).hi))
  have hC : IdxCore (extendIndex s1.index (upperSeq rs)) w1 (L ++ L') n1 B := ⟨f1, hI.keys, hI.kept, hI.other⟩
  obtain ⟨s2, w2, n2, h5, h6, h7, h8, h9, h10, _⟩ := write_spec (s := { s1 with index := extendIndex s1.index (upperSeq rs) }) h2.loc hC
  simp only at h6 h7
  have hd := h2.data
  refine ⟨s2, w2.reset s2, L', ?_, ⟨⟨n2, _, h10⟩, ?_, h2.loc, h2.sub⟩, rfl, h3, ⟨n2, h10.file⟩, ?_⟩
  · simp only [syncRound, h1, Option.bind_eq_bind, Option.bind_some, h5]
    rfl
  · refine ⟨?_, ?_, ?_, ?_, ?_⟩
    · show w2.offset = s2.data.length + 0
      rw [h8, h6, hd.off]; simp
    · rw [h7]; exact hd.good
    · rw [h7]; exact hd.sound
    · rw [h7, h6]; intro b hb
      have := hd.freeIn b hb
      simp only [List.length_append]; omega
    · intro p hp hpf
      show slice? (s2.data ++ []) _ _ = _
      rw [List.append_nil, h6]
      exact hd.bytes p hp hpf
  · rw [h6]; simp only [List.length_append]
    omega

theorem newRecs_append (known : List UInt64) (xs ys : List Rec) :
    newRecs known (xs ++ ys) = newRecs known xs ++ newRecs (known ++ (newRecs known xs).map (·.seq)) ys := by
  induction xs generalizing known with
  | nil => simp [newRecs]
  | cons x xs ih =>
    rw [List.cons_append, newRecs, newRecs]
    split
    · exact ih known
    · rw [ih]; simp

theorem rounds_spec {freed : List UInt64} (rounds : List (List Rec)) (hrs : ∀ rs ∈ rounds, ∀ r ∈ rs, r.OK) :
    ∀ {s : Store} {w : Writer} {L : Loc}, EInv s w L freed → w.buffer = [] → (∃ n, FileOK s.index n (absBlock L)) →
    ∃ s' w' L', rounds.foldlM (fun (s, w) rs => syncRound s w rs) (s, w) = some (s', w') ∧ EInv s' w' (L ++ L') freed ∧ w'.buffer = [] ∧
      L'.map (·.1) = newRecs (L.map (·.1.seq)) rounds.flatten ∧ (∃ n, FileOK s'.index n (absBlock (L ++ L'))) ∧
      s.data.length ≤ s'.data.length := by
  induction rounds with
  | nil => intro s w L h hb hf; exact ⟨s, w, [], rfl, by simpa using h, hb, rfl, by simpa using hf, Nat.le_refl _⟩
  | cons rs rounds ih =>
    intro s w L h hb hf
    obtain ⟨s1, w1, L1, h1, h2, h3, h4, h5, h6⟩ := syncRound_spec h rs (hrs rs (by simp))
    obtain ⟨s2, w2, L2, g1, g2, g3, g4, g5, g6⟩ := ih (fun x hx => hrs x (List.mem_cons_of_mem _ hx)) h2 h3 h5
    refine ⟨s2, w2, L1 ++ L2, ?_, by simpa using g2, g3, ?_, by simpa using g5, by omega⟩
    · rw [List.foldlM_cons]
      simp only [h1, Option.bind_eq_bind, Option.bind_some]
      exact g1
    · rw [List.flatten_cons, newRecs_append, List.map_append, h4, g4, ← h4]
      simp [Function.comp_def]

/-- One sync: it succeeds and stores exactly the new records. -/
theorem syncAll_spec {s : Store} {L : Loc} {freed : List UInt64} (h : SInv s L freed) (rounds : List (List Rec))
    (hrs : ∀ rs ∈ rounds, ∀ r ∈ rs, r.OK) :
    ∃ s' L', syncAll s rounds = some s' ∧ SInv s' (L ++ L') freed ∧ L'.map (·.1) = newRecs (L.map (·.1.seq)) rounds.flatten ∧
      s.data.length ≤ s'.data.length := by
  obtain ⟨w, h1, h2, h3⟩ := newBlockWriter_spec h
  obtain ⟨s', w', L', g1, g2, g3, g4, g5, g6⟩ := rounds_spec rounds hrs h2 h3 h.file
  refine ⟨s', L', ?_, ⟨g5, ?_, g2.loc, g2.sub⟩, g4, g6⟩
  · simp only [syncAll, h1, Option.bind_eq_bind, Option.bind_some]
    rw [g1]; rfl
  · have hd := g2.data
    refine ⟨by simp, hd.good, hd.sound, hd.freeIn, ?_⟩
    intro p hp hpf
    have := hd.bytes p hp hpf
    rw [g3] at this
    exact this

end Verif
