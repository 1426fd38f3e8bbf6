import Verif.Model.WindowHist

/-!
# Reopening: which topics the window file yields

time_window_reader.go:58-80 `blockIterator` and db_internal.go:168-194 `loadTrie`.
-/

namespace Verif

/-- time_window_reader.go:61-79, the loop over block numbers: first sequence, topic and offset of the blocks in use that end a chain.
Reading past the end of the file ends the loop. -/
def iterBlocks (file : Bytes) : List Nat → List (UInt64 × UInt64 × Int)
  | [] => []
  | k :: ks =>
    match readWindowBlock file (winOff k) with
    | none => []
    | some b =>
      if b.entryIdx = 0 ∨ b.next ≠ 0 then iterBlocks file ks
      else ((b.entries.headD .zero).seq, b.topicHash, winOff k) :: iterBlocks file ks

/-- time_window_reader.go:30-43 and 58-60: block numbers `0 .. windowIdx`. -/
def blockIterator (file : Bytes) : List (UInt64 × UInt64 × Int) :=
  iterBlocks file (List.range (if file.length > 0 then file.length / blockSize + 1 else 0))

/-- db_internal.go:170-192, the callback of `loadTrie` for each block, and trie.go:117-153, which leaves a known topic alone.
`named seq` says what the stored record `seq` gives: `none` if it cannot be read, else whether it carries a topic. The result is the
offset of each topic. -/
def loadOffsets (named : UInt64 → Option Bool) : List (UInt64 × UInt64 × Int) → List (UInt64 × Int) → List (UInt64 × Int)
  | [], t => t
  | (seq, hash, off) :: rest, t =>
    match named seq with
    | none => t
    | some false => loadOffsets named rest t
    | some true => loadOffsets named rest (if (t.lookup hash).isSome then t else t ++ [(hash, off)])

/-- The trie after opening: the offset of each topic found. -/
def loadTrie (named : UInt64 → Option Bool) (file : Bytes) : List (UInt64 × Int) := loadOffsets named (blockIterator file) []

/-! ## Lemmas -/

theorem lookup_append_of_some {t : List (UInt64 × Int)} {h : UInt64} {o : Int} (z : List (UInt64 × Int)) (hl : t.lookup h = some o) :
    (t ++ z).lookup h = some o := by
  rw [List.lookup_append, hl]; rfl

theorem loadOffsets_keep (named : UInt64 → Option Bool) {h : UInt64} {o : Int} (l : List (UInt64 × UInt64 × Int)) :
    ∀ t : List (UInt64 × Int), t.lookup h = some o → (loadOffsets named l t).lookup h = some o := by
  induction l with
  | nil => intro t ht; exact ht
  | cons p rest ih =>
    obtain ⟨seq, hash, off⟩ := p
    intro t ht
    rw [loadOffsets]
    split
    · exact ht
    · exact ih t ht
    · split
      · exact ih t ht
      · exact ih _ (lookup_append_of_some _ ht)

/-- If exactly one of the blocks belongs to topic `h`, that block's offset is loaded. -/
theorem loadOffsets_found {named : UInt64 → Option Bool} {h : UInt64} {o : Int} (l : List (UInt64 × UInt64 × Int))
    (hread : ∀ p ∈ l, named p.1 ≠ none) (hh : ∃ p ∈ l, p.2.1 = h ∧ named p.1 = some true)
    (honly : ∀ p ∈ l, p.2.1 = h → p.2.2 = o) :
    ∀ t : List (UInt64 × Int), t.lookup h = none → (loadOffsets named l t).lookup h = some o := by
  induction l with
  | nil => obtain ⟨p, hp, _⟩ := hh; simp at hp
  | cons p rest ih =>
    obtain ⟨seq, hash, off⟩ := p
    intro t ht
    have hr := hread (seq, hash, off) (by simp)
    have ih := ih (fun p hp => hread p (List.mem_cons_of_mem _ hp))
    have honly' := fun p hp => honly p (List.mem_cons_of_mem _ hp)
    rw [loadOffsets]
    cases hn : named seq with
    | none => exact absurd hn hr
    | some v =>
      cases v with
      | false =>
        dsimp only
        obtain ⟨q, hq, h1, h2⟩ := hh
        rcases List.mem_cons.1 hq with rfl | hq
        · rw [hn] at h2; simp at h2
        · exact ih ⟨q, hq, h1, h2⟩ honly' t ht
      | true =>
        dsimp only
        by_cases he : hash = h
        · subst he
          have ho : off = o := honly (seq, hash, off) (by simp) rfl
          subst ho
          rw [ht]
          refine loadOffsets_keep named rest _ ?_
          rw [if_neg (by simp), List.lookup_append, ht]
          simp
        · obtain ⟨q, hq, h1, h2⟩ := hh
          have hq' : q ∈ rest := by
            rcases List.mem_cons.1 hq with rfl | hq
            · exact absurd h1 he
            · exact hq
          refine ih ⟨q, hq', h1, h2⟩ honly' _ ?_
          split
          · exact ht
          · rw [List.lookup_append, ht]
            have : (h == hash) = false := by simpa using fun hc => he (Eq.symm hc)
            simp [List.lookup_cons, this]

theorem mem_iterBlocks {file : Bytes} {n : Nat} {B : Nat → WinBlock} (hread : ∀ k, k < n → readWindowBlock file (winOff k) = some (B k))
    (hend : readWindowBlock file (winOff n) = none) (m : Nat) : ∀ a, a + m = n + 1 → ∀ p,
    p ∈ iterBlocks file (List.range' a m) ↔
      ∃ k, a ≤ k ∧ k < n ∧ (B k).entryIdx ≠ 0 ∧ (B k).next = 0 ∧ p = (((B k).entries.headD .zero).seq, (B k).topicHash, winOff k) := by
  induction m with
  | zero =>
    intro a ha p
    constructor
    · intro h; simp [iterBlocks] at h
    · rintro ⟨k, h1, h2, _⟩; omega
  | succ m ih =>
    intro a ha p
    rw [List.range'_succ, iterBlocks]
    by_cases han : a = n
    · subst han
      rw [hend]
      constructor
      · intro h; simp at h
      · rintro ⟨k, h1, h2, _⟩; omega
    · rw [hread a (by omega)]
      dsimp only
      by_cases hc : (B a).entryIdx = 0 ∨ (B a).next ≠ 0
      · rw [if_pos hc, ih (a + 1) (by omega) p]
        constructor
        · rintro ⟨k, h1, h2⟩; exact ⟨k, by omega, h2⟩
        · rintro ⟨k, h1, h2, h3, h4, h5⟩
          have : k ≠ a := by
            rintro rfl
            rcases hc with hc | hc
            · exact h3 hc
            · exact hc h4
          exact ⟨k, by omega, h2, h3, h4, h5⟩
      · rw [if_neg hc, List.mem_cons, ih (a + 1) (by omega) p]
        have hc' : (B a).entryIdx ≠ 0 ∧ (B a).next = 0 := by
          constructor
          · exact fun h => hc (.inl h)
          · by_contra h; exact hc (.inr h)
        constructor
        · rintro (rfl | ⟨k, h1, h2⟩)
          · exact ⟨a, by omega, by omega, hc'.1, hc'.2, rfl⟩
          · exact ⟨k, by omega, h2⟩
        · rintro ⟨k, h1, h2, h3, h4, h5⟩
          by_cases hka : k = a
          · subst hka; exact .inl h5
          · exact .inr ⟨k, by omega, h2, h3, h4, h5⟩

/-- The last block of a chain is the one without a successor. -/
theorem IsChain.last {C : Nat → WinBlock} {h : UInt64} (r : List Nat) : ∀ {k : Nat}, IsChain C h (k :: r) → (∀ j ∈ k :: r, j < 524287) →
    ∃ l, l ∈ k :: r ∧ (C l).next = 0 ∧ (∀ j ∈ k :: r, (C j).next = 0 → j = l) ∧ IsChain C h [l] ∧
      (r = [] ∧ l = k ∨ (C l).entryIdx.toNat = 335) ∧ ∃ z, content C (k :: r) = used (C l) ++ z := by
  induction r with
  | nil =>
    intro k c _
    exact ⟨k, by simp, c.2.2, by simp, c, .inl ⟨rfl, rfl⟩, [], by simp [content]⟩
  | cons j r ih =>
    intro k c hb
    obtain ⟨l, h1, h2, h3, h4, h5, z, h6⟩ := ih c.tail (fun i hi => hb i (List.mem_cons_of_mem _ hi))
    refine ⟨l, List.mem_cons_of_mem _ h1, h2, ?_, h4, .inr ?_, z ++ used (C k), ?_⟩
    · intro i hi hn
      rcases List.mem_cons.1 hi with rfl | hi
      · exfalso
        have h7 : (C i).next = Int64.ofInt (4096 * j) := c.2.2.2.1
        have h8 : 0 < j := c.2.2.2.2.1
        have h9 := hb j (by simp)
        rw [hn] at h7
        have : (0 : Int64).toInt = (Int64.ofInt (4096 * j)).toInt := by rw [← h7]
        rw [Int64.toInt_ofInt_of_le (by omega) (by omega)] at this
        have h0 : (0 : Int64).toInt = 0 := rfl
        omega
      · exact h3 i hi hn
    · rcases h5 with ⟨_, rfl⟩ | h5
      · exact c.2.2.2.2.2.2.1
      · exact h5
    · rw [content_cons, h6, List.append_assoc]

end Verif
