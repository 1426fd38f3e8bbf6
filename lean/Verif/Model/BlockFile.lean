import Verif.Model.EngineSync

/-!
# A file made of 4096-byte blocks

The index file and the window file are written block by block (block_writer.go:183-258, time_window_writer.go:132-194): blocks that
were read from the file one at a time, new blocks in consecutive ranges.
-/

namespace Verif

/-- time_window_writer.go:137, 168, 181: `int64(blockSize * bIdx)`, a 32-bit product. -/
def winOff (k : Nat) : Int := (4096 * Int32.ofNat k).toInt

/-- time_window_writer.go:165-192: one part of the block range. -/
def writeBlockPart (get : Nat → Option Bytes) (file : Bytes) (part : List Int) : Option Bytes :=
  match part with
  | [] => none
  | first :: _ => do
    let datas ← (partBlocks part).mapM fun k => get k.toNat
    fileWrite file (winOff first.toNat) datas.flatten

/-- time_window_writer.go:132-194: first the blocks `leased` one by one, then the blocks `fresh` in ranges; `get` gives the bytes
of a block. -/
def writeBlocks (get : Nat → Option Bytes) (leased fresh : List Nat) (file : Bytes) : Option Bytes := do
  let file ← leased.foldlM (fun f k => do
    let d ← get k
    fileWrite f (winOff k) d) file
  let parts ← blockRange ((fresh.insertionSort (· ≤ ·)).map fun (k : Nat) => (k : Int))
  parts.foldlM (writeBlockPart get) file

/-! ## Lemmas -/

theorem winOff_eq (k : Nat) (h : k < 2 ^ 19) : winOff k = 4096 * k := by
  have h1 := blockOffset_eq k h
  have hne : Int32.ofNat k ≠ -1 := by
    intro hc
    have : (Int32.ofNat k).toInt = (-1 : Int32).toInt := by rw [hc]
    rw [Int32.toInt_ofNat_of_lt (by omega)] at this
    have h2 : (-1 : Int32).toInt = -1 := rfl
    omega
  rw [blockOffset, if_neg hne, Int32.toInt_toInt64] at h1
  exact h1

/-- `file` is made of the `n` blocks `D 0 .. D (n-1)`. -/
structure BFile (file : Bytes) (n : Nat) (D : Nat → Bytes) : Prop where
  len : file.length = 4096 * n
  blocks : ∀ k, k < n → slice? file (4096 * k) (4096 * k + 4096) = some (D k)
  beyond : ∀ k, n ≤ k → D k = List.replicate 4096 0

theorem BFile.write {file : Bytes} {n : Nat} {D : Nat → Bytes} (f : BFile file n D) (k : Nat) {d : Bytes} (hl : d.length = 4096) :
    BFile (writeAt file (4096 * k) d) (max n (k + 1)) (Function.update D k d) := by
  have hne : d ≠ [] := by intro h; rw [h] at hl; simp at hl
  have hfl := f.len
  refine ⟨?_, ?_, ?_⟩
  · rw [length_writeAt _ _ _ hne, hl, f.len]; omega
  · intro j hj
    by_cases hjk : j = k
    · subst hjk
      rw [Function.update_self]
      have := slice?_writeAt_same file d (4096 * j) hne
      rw [hl] at this
      exact this
    · rw [Function.update_of_ne hjk]
      by_cases hjn : j < n
      · rw [slice?_writeAt_apart _ _ _ _ _ (by omega) (by omega) (by rw [hl]; omega)]
        exact f.blocks j hjn
      · rw [slice?_writeAt_hole _ _ _ _ _ hne (by omega) (by omega) (by omega), f.beyond j (by omega)]
        congr 2; omega
  · intro j hj
    rw [Function.update_of_ne (by omega)]
    exact f.beyond j (by omega)

theorem BFile.writeRange {d : Nat → Bytes} (hd : ∀ k, (d k).length = 4096) (m : Nat) :
    ∀ (a : Nat) {file : Bytes} {n : Nat} {D : Nat → Bytes}, BFile file n D →
    ∃ n', n ≤ n' ∧ BFile (writeAt file (4096 * a) ((List.range' a m).map d).flatten) n'
      (fun k => if k ∈ List.range' a m then d k else D k) ∧ (∀ k ∈ List.range' a m, k < n') ∧
      (∀ b, n ≤ b → (∀ k ∈ List.range' a m, k < b) → n' ≤ b) := by
  induction m with
  | zero =>
    intro a file n D f
    refine ⟨n, Nat.le_refl _, ?_, by simp, fun b hb _ => hb⟩
    simpa [writeAt] using f
  | succ m ih =>
    intro a file n D f
    obtain ⟨n', hn, f2, hk, hb⟩ := ih (a + 1) (f.write a (hd a))
    refine ⟨n', by omega, ?_, ?_, ?_⟩
    · have hne : d a ≠ [] := by intro h; have := hd a; rw [h] at this; simp at this
      rw [List.range'_succ, List.map_cons, List.flatten_cons, writeAt_append _ _ _ _ hne, hd a]
      have e2 : 4096 * a + 4096 = 4096 * (a + 1) := by omega
      rw [e2]
      have e3 : (fun k => if k ∈ a :: List.range' (a + 1) m then d k else D k) =
          (fun k => if k ∈ List.range' (a + 1) m then d k else Function.update D a (d a) k) := by
        funext k
        by_cases hka : k = a
        · subst hka; simp
        · simp [hka]
      rw [e3]
      exact f2
    · intro k hk'
      rw [List.range'_succ, List.mem_cons] at hk'
      rcases hk' with rfl | hk'
      · omega
      · exact hk k hk'
    · intro b hnb hall
      refine hb b ?_ fun k hk' => hall k (by rw [List.range'_succ]; exact List.mem_cons_of_mem _ hk')
      have := hall a (by rw [List.range'_succ]; simp)
      omega

theorem fileWrite_win (f d : Bytes) (k : Nat) (h : k < 2 ^ 19) : fileWrite f (winOff k) d = some (writeAt f (4096 * k) d) := by
  rw [fileWrite, winOff_eq k h, if_pos (by omega)]
  congr 2

theorem writeBlockKeys_spec {get : Nat → Option Bytes} {d : Nat → Bytes} (hd : ∀ k, (d k).length = 4096) (ks : List Nat)
    (hks : ∀ k ∈ ks, k < 2 ^ 19 ∧ get k = some (d k)) :
    ∀ {file : Bytes} {n : Nat} {D : Nat → Bytes}, BFile file n D →
    ∃ file' n', ks.foldlM (fun f k => do
        let d ← get k
        fileWrite f (winOff k) d) file = some file' ∧ n ≤ n' ∧
      BFile file' n' (fun k => if k ∈ ks then d k else D k) ∧ (∀ k ∈ ks, k < n') ∧
      (∀ b, n ≤ b → (∀ k ∈ ks, k < b) → n' ≤ b) := by
  induction ks with
  | nil => intro file n D f; exact ⟨file, n, rfl, Nat.le_refl _, by simpa using f, by simp, fun b hb _ => hb⟩
  | cons k ks ih =>
    intro file n D f
    obtain ⟨hk, hg⟩ := hks k (by simp)
    obtain ⟨file', n', h1, h2, h3, h4, h5⟩ := ih (fun j hj => hks j (List.mem_cons_of_mem _ hj)) (f.write k (hd k))
    refine ⟨file', n', ?_, by omega, ?_, ?_, ?_⟩
    · rw [List.foldlM_cons]
      have e : (do
          let d ← get k
          fileWrite file (winOff k) d) = some (writeAt file (4096 * k) (d k)) := by
        rw [hg]
        exact fileWrite_win _ _ _ hk
      rw [e]
      exact h1
    · have e3 : (fun j => if j ∈ k :: ks then d j else D j) =
          (fun j => if j ∈ ks then d j else Function.update D k (d k) j) := by
        funext j
        by_cases hka : j = k
        · subst hka; simp
        · simp [hka]
      rw [e3]; exact h3
    · intro j hj
      rcases List.mem_cons.1 hj with rfl | hj
      · omega
      · exact h4 j hj
    · intro b hnb hall
      refine h5 b ?_ fun j hj => hall j (List.mem_cons_of_mem _ hj)
      have := hall k (by simp)
      omega

theorem writeBlockParts_spec {get : Nat → Option Bytes} {d : Nat → Bytes} (hd : ∀ k, (d k).length = 4096)
    (parts : List (List Int))
    (hshape : ∀ p ∈ parts, ∃ x tl m, p = x :: tl ∧ partBlocks p = rangeFrom x (m + 1))
    (hks : ∀ k ∈ parts.flatMap partBlocks, 0 ≤ k ∧ k.toNat < 2 ^ 19 ∧ get k.toNat = some (d k.toNat)) :
    ∀ {file : Bytes} {n : Nat} {D : Nat → Bytes}, BFile file n D →
    ∃ file' n', parts.foldlM (writeBlockPart get) file = some file' ∧ n ≤ n' ∧
      BFile file' n' (fun k => if k ∈ (parts.flatMap partBlocks).map Int.toNat then d k else D k) ∧
      (∀ k ∈ (parts.flatMap partBlocks).map Int.toNat, k < n') ∧
      (∀ b, n ≤ b → (∀ k ∈ (parts.flatMap partBlocks).map Int.toNat, k < b) → n' ≤ b) := by
  induction parts with
  | nil => intro file n D f; exact ⟨file, n, rfl, Nat.le_refl _, by simpa using f, by simp, fun b hb _ => hb⟩
  | cons p ps ih =>
    intro file n D f
    obtain ⟨x, tl, m, rfl, hpb⟩ := hshape p (by simp)
    have hkp : ∀ k ∈ rangeFrom x (m + 1), 0 ≤ k ∧ k.toNat < 2 ^ 19 ∧ get k.toNat = some (d k.toNat) := by
      intro k hk
      exact hks k (by rw [List.flatMap_cons, hpb]; exact List.mem_append_left _ hk)
    have hx := hkp x (by rw [rangeFrom_succ]; simp)
    have hmem : (partBlocks (x :: tl)).map Int.toNat = List.range' x.toNat (m + 1) := by
      rw [hpb, rangeFrom_toNat x hx.1]
    obtain ⟨n1, hn1, f1, hk1, hb1⟩ := f.writeRange hd (m + 1) x.toNat
    obtain ⟨file', n', h1, h2, h3, h4, h5⟩ := ih (fun q hq => hshape q (List.mem_cons_of_mem _ hq))
      (fun k hk => hks k (by rw [List.flatMap_cons]; exact List.mem_append_right _ hk)) f1
    refine ⟨file', n', ?_, by omega, ?_, ?_, ?_⟩
    · rw [List.foldlM_cons]
      have e : writeBlockPart get file (x :: tl) =
          some (writeAt file (4096 * x.toNat) ((List.range' x.toNat (m + 1)).map d).flatten) := by
        have e1 : (partBlocks (x :: tl)).mapM (fun k => get k.toNat) =
            some ((partBlocks (x :: tl)).map fun k => d k.toNat) := by
          apply mapM_some
          intro k hk
          rw [hpb] at hk
          exact (hkp k hk).2.2
        have e2 : (partBlocks (x :: tl)).map (fun k => d k.toNat) = (List.range' x.toNat (m + 1)).map d := by
          rw [← hmem, List.map_map]; rfl
        simp only [writeBlockPart]
        rw [e1, e2]
        exact fileWrite_win _ _ _ hx.2.1
      rw [e]
      exact h1
    · have e3 : (fun j => if j ∈ ((((x :: tl) :: ps).flatMap partBlocks)).map Int.toNat then d j else D j) =
          (fun j => if j ∈ (ps.flatMap partBlocks).map Int.toNat then d j else
            (if j ∈ List.range' x.toNat (m + 1) then d j else D j)) := by
        funext j
        rw [List.flatMap_cons, List.map_append, hmem]
        by_cases h1 : j ∈ List.range' x.toNat (m + 1)
        · rw [if_pos (List.mem_append_left _ h1), if_pos h1]; split <;> rfl
        · by_cases h2 : j ∈ (ps.flatMap partBlocks).map Int.toNat
          · rw [if_pos (List.mem_append_right _ h2), if_pos h2]
          · rw [if_neg (by rw [List.mem_append]; tauto), if_neg h2, if_neg h1]
      rw [e3]; exact h3
    · intro j hj
      rw [List.flatMap_cons, List.map_append, hmem] at hj
      rcases List.mem_append.1 hj with hj | hj
      · have := hk1 j hj; omega
      · exact h4 j hj
    · intro b hnb hall
      rw [List.flatMap_cons, List.map_append, hmem] at hall
      exact h5 b (hb1 b hnb fun k hk => hall k (List.mem_append_left _ hk)) fun k hk => hall k (List.mem_append_right _ hk)

/-- The blocks listed are on file afterwards, the others as before. -/
theorem writeBlocks_spec {get : Nat → Option Bytes} {d : Nat → Bytes} (hd : ∀ k, (d k).length = 4096) {leased fresh : List Nat}
    (hnd : fresh.Nodup) (hks : ∀ k, k ∈ leased ∨ k ∈ fresh → k < 2 ^ 19 ∧ get k = some (d k))
    {file : Bytes} {n : Nat} {D : Nat → Bytes} (f : BFile file n D) :
    ∃ file' n', writeBlocks get leased fresh file = some file' ∧ n ≤ n' ∧
      BFile file' n' (fun k => if k ∈ leased ∨ k ∈ fresh then d k else D k) ∧ (∀ k, k ∈ leased ∨ k ∈ fresh → k < n') ∧
      (∀ b, n ≤ b → (∀ k, k ∈ leased ∨ k ∈ fresh → k < b) → n' ≤ b) := by
  obtain ⟨i1, n1, e1, hn1, f1, hb1, hc1⟩ := writeBlockKeys_spec hd leased (fun k hk => hks k (.inl hk)) f
  have hperm : (fresh.insertionSort (· ≤ ·)).Perm fresh := List.perm_insertionSort _ _
  have hsort : ((fresh.insertionSort (· ≤ ·)).map fun (k : Nat) => (k : Int)).Pairwise (· < ·) := by
    rw [List.pairwise_map]
    have h1 : (fresh.insertionSort (· ≤ ·)).Pairwise (· ≤ ·) := List.pairwise_insertionSort _ _
    have h2 : (fresh.insertionSort (· ≤ ·)).Nodup := hperm.nodup_iff.2 hnd
    exact (h1.and h2).imp (fun {a b} hab => by have := hab.1; have := hab.2; omega)
  obtain ⟨parts, e2, hpp⟩ := C12_ranges_exact _ hsort
  have hmem : ∀ k, k ∈ (parts.flatMap partBlocks).map Int.toNat ↔ k ∈ fresh := by
    intro k
    rw [(hpp.map Int.toNat).mem_iff, List.map_map]
    have : (Int.toNat ∘ fun (k : Nat) => (k : Int)) = id := by funext k; simp
    rw [this, List.map_id]
    exact hperm.mem_iff
  have hpk : ∀ k ∈ parts.flatMap partBlocks, ∃ j ∈ fresh, k = (j : Int) := by
    intro k hk
    have := hpp.subset hk
    rw [List.mem_map] at this
    obtain ⟨j, hj, rfl⟩ := this
    exact ⟨j, hperm.subset hj, rfl⟩
  obtain ⟨i2, n2, e3, hn2, f2, hb2, hc2⟩ := writeBlockParts_spec (get := get) hd parts (parts_shape _ parts e2) (by
    intro k hk
    obtain ⟨j, hj, rfl⟩ := hpk k hk
    have := hks j (.inr hj)
    exact ⟨by omega, by simpa using this.1, by simpa using this.2⟩) f1
  refine ⟨i2, n2, ?_, by omega, ?_, ?_, ?_⟩
  · simp only [writeBlocks, Option.bind_eq_bind, Option.bind_eq_some_iff]
    exact ⟨i1, e1, parts, e2, e3⟩
  · have : (fun k => if k ∈ leased ∨ k ∈ fresh then d k else D k) =
        fun k => if k ∈ (parts.flatMap partBlocks).map Int.toNat then d k else if k ∈ leased then d k else D k := by
      funext k
      by_cases h1 : k ∈ fresh
      · rw [if_pos (.inr h1), if_pos ((hmem k).2 h1)]
      · rw [if_neg (fun hc => h1 ((hmem k).1 hc))]
        simp only [h1, or_false]
    rw [this]; exact f2
  · rintro k (hk | hk)
    · have := hb1 k hk; omega
    · exact hb2 k ((hmem k).2 hk)
  · intro b hnb hall
    exact hc2 b (hc1 b hnb fun k hk => hall k (.inl hk)) fun k hk => hall k (.inr ((hmem k).1 hk))

end Verif
