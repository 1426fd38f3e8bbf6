import Verif.Model.WindowInv
import Verif.Props.Codec

/-!
# The window file along a history of syncs
-/

namespace Verif

/-- The offset the trie holds for a topic whose blocks are `ks`. -/
def headOff : List Nat → Int
  | [] => 0
  | k :: _ => 4096 * k

/-- The window file, the offsets and the writer hold what `led` lists. `sf` tells whether the blocks of a topic still reach back without
a gap: reopening may end that for the topic synced first. -/
structure WAll (sf : Prop) (s : WinState) (led : List (UInt64 × List WinEntry)) (n : Nat) (B : Nat → WinBlock) (ks : UInt64 → List Nat) : Prop where
  inv : WInv s.file s.w n B ks
  offs : ∀ h, s.offs h = headOff (ks h)
  some : ∀ h, ks h ≠ [] → content (cur s.w B) (ks h) ≠ []
  suffix : sf → ∀ h, content (cur s.w B) (ks h) <:+ syncedFor led h
  all : ∀ h, led.head?.map (·.1) ≠ .some h → 0 ∉ ks h ∧ content (cur s.w B) (ks h) = syncedFor led h
  empty : led = [] → (∀ h, ks h = []) ∧ n = 0 ∧ s.w.windowIdx = -1
  nonempty : led ≠ [] → 0 ≤ s.w.windowIdx ∧ ∃ h, ks h ≠ []
  zero : ∀ p, led.head? = .some p → (cur s.w B 0).topicHash = p.1
  owned : Owned (cur s.w B) ks fun h => led.head?.map (·.1) = .some h
  has : ∀ h, syncedFor led h ≠ [] → ks h ≠ []
  member : ∀ k, ∀ e ∈ used (cur s.w B k), e ∈ syncedFor led (cur s.w B k).topicHash
  first : led ≠ [] → (cur s.w B 0).next = 0 ∧ used (cur s.w B 0) ≠ [] ∧ ∀ p, led.head? = .some p → used (cur s.w B 0) <+: p.2

/-- Nothing waits to be written. -/
def Clean (w : WinWriter) : Prop := ∀ k b, w.blocks.lookup k = some b → b.dirty = false

theorem syncedFor_append (led : List (UInt64 × List WinEntry)) (h h' : UInt64) (es : List WinEntry) :
    syncedFor (led ++ [(h, es)]) h' = syncedFor led h' ++ if h = h' then es else [] := by
  simp only [syncedFor, List.filter_append, List.flatMap_append]
  congr 1
  by_cases hh : h = h'
  · simp [hh]
  · simp [hh]

theorem WInv.read {file : Bytes} {w : WinWriter} {n : Nat} {B : Nat → WinBlock} {ks : UInt64 → List Nat} (i : WInv file w n B ks)
    {k : Nat} (hk : k < n) : readWindowBlock file (4096 * k) = some (B k) := by
  have h1 := i.file.blocks k hk
  have h2 : ((4096 * (k : Int)).toNat) = 4096 * k := by omega
  rw [readWindowBlock, readAt, if_pos (by omega), h2]
  show (slice? file (4096 * k) (4096 * k + 4096)).bind _ = _
  rw [h1]
  exact C04_window_block_roundtrip _ (i.good k).1

theorem append_mono {w w' : WinWriter} {file : Bytes} {now : Int64} {h : UInt64} {off off' : Int} {es : List WinEntry}
    (ha : w.append file now h off es = some (w', off')) : w.windowIdx ≤ w'.windowIdx := by
  simp only [WinWriter.append, Option.bind_eq_bind, Option.bind_eq_some_iff] at ha
  obtain ⟨⟨w1, k1, b1⟩, h1, ⟨w2, k2, b2⟩, h2, h3⟩ := ha
  have h4 := addWin_mono _ _ h2
  cases h3
  have h5 : w.windowIdx ≤ w1.windowIdx := by
    rw [WinWriter.openBlock] at h1
    split at h1
    · cases h1
    · dsimp only at h1
      by_cases h0 : off = 0
      · simp only [if_pos h0] at h1
        split at h1
        · cases h1; simp
        · split at h1
          · rw [Option.map_eq_some_iff] at h1; obtain ⟨_, _, h1⟩ := h1; cases h1; simp
          · cases h1; simp
      · simp only [if_neg h0] at h1
        split at h1
        · cases h1; simp
        · split at h1
          · rw [Option.map_eq_some_iff] at h1; obtain ⟨_, _, h1⟩ := h1; cases h1; simp
          · cases h1; simp
  exact Int.le_trans h5 h4

/-- The block the entries go to is or becomes the newest of the chain. -/
theorem openBlock_spec {sf : Prop} {s : WinState} {led : List (UInt64 × List WinEntry)} {n : Nat} {B : Nat → WinBlock} {ks : UInt64 → List Nat}
    (a : WAll sf s led n B ks) (h : UInt64) {w1 : WinWriter} {k1 : Nat} {b1 : WWin}
    (ho : s.w.openBlock s.file (s.offs h) = some (w1, k1, b1)) (hb : w1.windowIdx ≤ 524286) :
    ∃ ks1, Adding s.file w1 k1 { b1 with blk := { b1.blk with topicHash := h } } n B ks1 h ∧ 0 ≤ w1.windowIdx ∧
      (∀ h', h' ≠ h → ks1 h' = ks h' ∧
        content (cur (w1.setBlock k1 { b1 with blk := { b1.blk with topicHash := h } }) B) (ks h') = content (cur s.w B) (ks h')) ∧
      content (cur (w1.setBlock k1 { b1 with blk := { b1.blk with topicHash := h } }) B) (ks1 h) <:+ content (cur s.w B) (ks h) ∧
      (led.head?.map (·.1) ≠ .some h → led ≠ [] → 0 ∉ ks1 h ∧
        content (cur (w1.setBlock k1 { b1 with blk := { b1.blk with topicHash := h } }) B) (ks1 h) = content (cur s.w B) (ks h)) ∧
      (∀ k : Nat, (k : Int) ≤ s.w.windowIdx →
        (cur (w1.setBlock k1 { b1 with blk := { b1.blk with topicHash := h } }) B k).topicHash = (cur s.w B k).topicHash) ∧
      (led = [] → k1 = 0) ∧ s.w.windowIdx ≤ w1.windowIdx ∧
      (∀ P : UInt64 → Prop, Owned (cur s.w B) ks P → (0 ∈ ks h → P h) → (led = [] → P h) →
        Owned (cur (w1.setBlock k1 { b1 with blk := { b1.blk with topicHash := h } }) B) ks1 P ∧ (0 ∈ ks1 h → P h)) ∧
      (∀ k : Nat, (k : Int) ≤ s.w.windowIdx →
        cur (w1.setBlock k1 { b1 with blk := { b1.blk with topicHash := h } }) B k = cur s.w B k) ∧
      (∀ k : Nat, s.w.windowIdx < k → used (cur (w1.setBlock k1 { b1 with blk := { b1.blk with topicHash := h } }) B k) = []) ∧
      (led ≠ [] → k1 ≠ 0) ∧ (led = [] → b1.blk.next = 0 ∧ b1.blk.entryIdx.toNat = 0) := by
  have hlast := a.inv.last
  have hoff := a.offs h
  have hbey : ∀ k : Nat, s.w.windowIdx < k → used (cur s.w B k) = [] := by
    intro k hk
    have hl : s.w.blocks.lookup k = none := by
      cases hl : s.w.blocks.lookup k with
      | none => rfl
      | some b => have := (a.inv.kept _ _ hl).1; omega
    have hz : cur s.w B k = .zero := by
      simp only [cur, hl]
      exact a.inv.beyond k (by omega)
    rw [hz]; rfl
  rw [WinWriter.openBlock] at ho
  by_cases h0 : s.offs h = 0
  · -- a new block
    rw [h0, if_neg (by omega)] at ho
    dsimp only at ho
    rw [if_pos rfl] at ho
    have hnone : s.w.blocks.lookup (s.w.windowIdx + 1).toNat = none := by
      cases hl : s.w.blocks.lookup (s.w.windowIdx + 1).toNat with
      | none => rfl
      | some b => have := (a.inv.kept _ _ hl).1; omega
    rw [hnone] at ho
    dsimp only at ho
    rw [if_neg (by omega)] at ho
    simp only [Option.some.injEq, Prod.mk.injEq] at ho
    obtain ⟨rfl, rfl, rfl⟩ := ho
    have hb' : s.w.windowIdx + 1 ≤ 524286 := hb
    set nb : WWin := ⟨{ WinBlock.zero with topicHash := h }, true, false⟩ with hnb
    have i := a.inv.new (h := h) (r := []) (b := nb) (.inl rfl) (by intro j r' hc; cases hc) (by omega) hb' rfl rfl rfl
      (by show UInt16.toNat 0 ≤ 335; decide) (fun hc => absurd rfl hc) blockOK_zero
    have hnot : ∀ h', (s.w.windowIdx + 1).toNat ∉ ks h' := by
      intro h' hc
      have := (a.inv.bounds hc).1
      omega
    have hcur : ∀ d, cur (({ s.w with windowIdx := s.w.windowIdx + 1 } : WinWriter).setBlock (s.w.windowIdx + 1).toNat
        ⟨{ WinBlock.zero with topicHash := h }, d, false⟩) B =
        Function.update (cur s.w B) (s.w.windowIdx + 1).toNat { WinBlock.zero with topicHash := h } := by
      intro d; rw [cur_setBlock]; rfl
    have hnil : content (Function.update (cur s.w B) (s.w.windowIdx + 1).toNat { WinBlock.zero with topicHash := h })
        [(s.w.windowIdx + 1).toNat] = [] := by
      rw [content_cons, Function.update_self]
      rfl
    refine ⟨Function.update ks h [(s.w.windowIdx + 1).toNat], ⟨i, ⟨[], by rw [Function.update_self]⟩, fun _ => .inr rfl⟩, ?_, ?_, ?_, ?_, ?_, ?_, ?_, ?_, ?_, ?_, ?_, ?_⟩
    · show 0 ≤ s.w.windowIdx + 1; omega
    · intro h' hne
      rw [Function.update_of_ne hne]
      refine ⟨rfl, ?_⟩
      dsimp only
      rw [hcur, content_update_not_mem _ _ _ (hnot h')]
    · dsimp only
      rw [hcur, Function.update_self, hnil]
      exact List.nil_suffix
    · intro hf hne
      have hz := a.all h hf
      have hks : ks h = [] := by
        cases hk : ks h with
        | nil => rfl
        | cons k r =>
          rw [hk] at hoff hz
          simp only [headOff] at hoff
          have : k ≠ 0 := fun hc => hz.1 (by simp [hc])
          omega
      dsimp only
      rw [hcur, Function.update_self, hnil, hks]
      refine ⟨?_, rfl⟩
      intro hc
      have := (a.nonempty hne).1
      simp at hc
      omega
    · intro k hk
      dsimp only
      rw [hcur, Function.update_of_ne (by omega)]
    · intro hl
      have := (a.empty hl).2.2
      omega
    · show s.w.windowIdx ≤ s.w.windowIdx + 1; omega
    · intro P hP hP0 hP1
      constructor
      · intro k hk
        dsimp only at hk ⊢
        rw [hcur] at hk ⊢
        by_cases hkn : k = (s.w.windowIdx + 1).toNat
        · subst hkn
          rw [Function.update_self] at hk
          exact absurd hk (by show ¬ 1 ≤ UInt16.toNat 0; decide)
        · rw [Function.update_of_ne hkn] at hk ⊢
          rcases hP k hk with hk' | hk'
          · by_cases hh : (cur s.w B k).topicHash = h
            · rw [hh] at hk' ⊢
              right
              refine hP0 ?_
              cases hks : ks h with
              | nil => rw [hks] at hk'; simp at hk'
              | cons j r =>
                rw [hks] at hoff
                simp only [headOff] at hoff
                have : j = 0 := by omega
                simp [this]
            · left
              rw [Function.update_of_ne hh]; exact hk'
          · exact .inr hk'
      · rw [Function.update_self]
        intro hc
        simp only [List.mem_singleton] at hc
        by_cases hl : led = []
        · exact hP1 hl
        · have := (a.nonempty hl).1
          omega
    · intro k hk
      dsimp only
      rw [hcur, Function.update_of_ne (by omega)]
    · intro k hk
      dsimp only
      rw [hcur]
      by_cases hkn : k = (s.w.windowIdx + 1).toNat
      · rw [hkn, Function.update_self]; rfl
      · rw [Function.update_of_ne hkn]; exact hbey k hk
    · intro hl
      have := (a.nonempty hl).1
      omega
    · intro _; exact ⟨rfl, rfl⟩
  · -- the newest block of the chain
    cases hk : ks h with
    | nil => rw [hk] at hoff; simp only [headOff] at hoff; omega
    | cons k r =>
      rw [hk] at hoff
      simp only [headOff] at hoff
      have hmem : k ∈ ks h := by rw [hk]; simp
      have hbd := a.inv.bounds hmem
      have hidx : ((4096 * (k : Int)) / 4096).toNat = k := by omega
      rw [hoff, if_neg (by omega)] at ho
      dsimp only at ho
      rw [if_neg (by omega)] at ho
      dsimp only at ho
      rw [hidx] at ho
      have hch := a.inv.chain h
      rw [hk] at hch
      have hres : w1 = s.w ∧ k1 = k ∧ b1.blk = cur s.w B k ∧ (b1.dirty = false → core b1.blk = core (B k) ∧ k < n) := by
        cases hl : s.w.blocks.lookup k with
        | some b =>
          rw [hl] at ho
          dsimp only at ho
          simp only [Option.some.injEq, Prod.mk.injEq] at ho
          obtain ⟨rfl, rfl, rfl⟩ := ho
          exact ⟨rfl, rfl, by simp [cur, hl], (a.inv.kept _ _ hl).2.2.2⟩
        | none =>
          rw [hl] at ho
          dsimp only at ho
          have hkn : k < n := by
            rcases a.inv.known h k hmem with h1 | ⟨b, h1⟩
            · exact h1
            · rw [hl] at h1; cases h1
          rw [if_pos ⟨by omega, hbd.1⟩, a.inv.read hkn] at ho
          simp only [Option.map_some, Option.some.injEq, Prod.mk.injEq] at ho
          obtain ⟨rfl, rfl, rfl⟩ := ho
          exact ⟨rfl, rfl, by simp [cur, hl], fun _ => ⟨rfl, hkn⟩⟩
      obtain ⟨rfl, rfl, hblk, hclean⟩ := hres
      have hblk' : ({ b1.blk with topicHash := h } : WinBlock) = cur s.w B k1 := by
        rw [hblk, ← hch.head.1]
      have hle : (cur s.w B k1).entryIdx.toNat ≤ 335 := hch.head.2
      have hok : BlockOK (cur s.w B k1) := by
        unfold cur
        cases hl : s.w.blocks.lookup k1 with
        | none => exact a.inv.good k1
        | some b => exact (a.inv.kept _ _ hl).2.2.1
      have hcur : ∀ d, cur (s.w.setBlock k1 ⟨{ b1.blk with topicHash := h }, d, b1.leased⟩) B = cur s.w B := by
        intro d
        rw [cur_setBlock]
        dsimp only
        rw [hblk', Function.update_eq_self]
      have i := a.inv.replace hk (b := ⟨{ b1.blk with topicHash := h }, true, b1.leased⟩) (by simp) rfl
        (by dsimp only; rw [hblk]) (by dsimp only; rw [hblk]; exact hle)
        (by
          intro hr
          dsimp only
          rw [hblk]
          cases r with
          | nil => exact absurd rfl hr
          | cons j r => exact hch.2.1)
        (by dsimp only; rw [hblk']; exact hok)
      refine ⟨ks, ⟨i, ⟨r, hk⟩, ?_⟩, ?_, ?_, ?_, ?_, ?_, ?_, ?_, fun P hP hP0 _ => ⟨by rw [hcur]; exact hP, by rw [hk]; exact hP0⟩,
        fun j _ => by rw [hcur], fun j hj => by rw [hcur]; exact hbey j hj, fun _ => by rintro rfl; omega, ?_⟩
      · intro hd
        left
        have := hclean hd
        refine ⟨?_, this.2⟩
        dsimp only
        rw [hblk', ← hblk]
        exact this.1
      · omega
      · intro h' _; exact ⟨rfl, by rw [hcur]⟩
      · rw [hcur, hk]
      · intro hf _
        rw [hcur]
        exact ⟨(a.all h hf).1, by rw [hk]⟩
      · intro j _; rw [hcur]
      · intro hl
        have := (a.empty hl).1 h
        rw [hk] at this; cases this
      · omega
      · intro hl
        have := (a.empty hl).1 h
        rw [hk] at this; cases this

/-- `append` for one topic. -/
theorem append_spec {sf : Prop} {s : WinState} {led : List (UInt64 × List WinEntry)} {n : Nat} {B : Nat → WinBlock} {ks : UInt64 → List Nat}
    (a : WAll sf s led n B ks) {now : Int64} (hnow : 0 ≤ now.toInt) (h : UInt64) {es : List WinEntry} (hes0 : es ≠ [])
    (hes : ∀ e ∈ es, e.seq ≠ 0) {w' : WinWriter} {off' : Int} (ha : s.w.append s.file now h (s.offs h) es = some (w', off'))
    (hb : w'.windowIdx ≤ 524286) :
    ∃ ks', WAll sf { s with w := w', offs := Function.update s.offs h off' } (led ++ [(h, es)]) n B ks' := by
  simp only [WinWriter.append, Option.bind_eq_bind, Option.bind_eq_some_iff] at ha
  obtain ⟨⟨w1, k1, b1⟩, h1, ⟨w2, k2, b2⟩, h2, h3⟩ := ha
  simp only [Option.pure_def, Option.some.injEq, Prod.mk.injEq] at h3
  obtain ⟨rfl, rfl⟩ := h3
  have hb2 : w2.windowIdx ≤ 524286 := hb
  have hm := addWin_mono _ _ h2
  dsimp only at h2 hm
  obtain ⟨ks1, a1, hpos, hoth1, hsuf1, hall1, hth1, hk1, hm1, how1, hC1, hC1', hk0, hb0⟩ := openBlock_spec a h h1 (by omega)
  obtain ⟨ks2, a2, hoth2, hd2, hsuf2, hall2, hth2, how2⟩ := addWin_spec now hnow es hes a1 h2 hb2
  have hok1 := a1.inv.kept k1 _ (by rw [winLookup_setBlock, if_pos rfl])
  obtain ⟨g1, g2, g3⟩ := addWin_grow (B := B) now es hes h2 hok1.2.2.1.1 hok1.1
  obtain ⟨hdirty, hne⟩ := hd2 hes0
  have hb2' : ({ b2 with dirty := true } : WWin) = b2 := by
    cases b2; simp only at hdirty; simp [hdirty]
  have i2 := a2.inv
  rw [hb2'] at i2
  obtain ⟨r2, hr2⟩ := a2.head
  have hmem2 : k2 ∈ ks2 h := by rw [hr2]; simp
  have hoffk : winOff k2 = 4096 * k2 := winOff_eq k2 (by have := (i2.bounds hmem2).2; omega)
  have hothc : ∀ h', h' ≠ h → ks2 h' = ks h' ∧
      content (cur (w2.setBlock k2 b2) B) (ks2 h') = content (cur s.w B) (ks h') := by
    intro h' hne'
    obtain ⟨p1, p2⟩ := hoth1 h' hne'
    obtain ⟨q1, q2⟩ := hoth2 h' hne'
    refine ⟨q1.trans p1, ?_⟩
    rw [q1, q2, p1, p2]
  have hhead : ∀ h', (led ++ [(h, es)]).head?.map (·.1) ≠ .some h' → led.head?.map (·.1) ≠ .some h' := by
    intro h' hh
    cases led with
    | nil => simp
    | cons p l => simpa using hh
  refine ⟨ks2, i2, ?_, ?_, ?_, ?_, ?_, ?_, ?_, ?_, ?_, ?_, ?_⟩
  · intro h'
    dsimp only
    by_cases he : h' = h
    · subst he
      rw [Function.update_self, hr2, hoffk]; rfl
    · rw [Function.update_of_ne he, (hothc h' he).1]; exact a.offs h'
  · intro h' hk
    by_cases he : h' = h
    · subst he; exact hne
    · rw [(hothc h' he).1] at hk
      show content (cur (w2.setBlock k2 b2) B) (ks2 h') ≠ []
      rw [(hothc h' he).2]; exact a.some h' hk
  · intro hsf h'
    show content (cur (w2.setBlock k2 b2) B) (ks2 h') <:+ _
    rw [syncedFor_append]
    by_cases he : h' = h
    · subst he
      rw [if_pos rfl]
      have hsuf := hsuf1.trans (a.suffix hsf h')
      obtain ⟨t, ht⟩ := hsuf
      refine hsuf2.trans ⟨t, ?_⟩
      rw [← ht, List.append_assoc]
    · rw [if_neg (fun hc => he hc.symm), List.append_nil, (hothc h' he).2]
      exact a.suffix hsf h'
  · intro h' hf
    show 0 ∉ ks2 h' ∧ content (cur (w2.setBlock k2 b2) B) (ks2 h') = _
    rw [syncedFor_append]
    by_cases he : h' = h
    · subst he
      rw [if_pos rfl]
      have hled : led ≠ [] := by rintro rfl; simp at hf
      obtain ⟨p1, p2⟩ := hall1 (hhead h' hf) hled
      obtain ⟨q1, q2⟩ := hall2 p1
      exact ⟨q1, by rw [q2, p2, (a.all h' (hhead h' hf)).2]⟩
    · rw [if_neg (fun hc => he hc.symm), List.append_nil, (hothc h' he).2, (hothc h' he).1]
      exact a.all h' (hhead h' hf)
  · intro hc; simp at hc
  · intro _
    refine ⟨?_, h, by simp [hr2]⟩
    show 0 ≤ w2.windowIdx
    omega
  · intro p hp
    show (cur (w2.setBlock k2 b2) B 0).topicHash = p.1
    rw [hth2 0 (by simpa using hpos)]
    cases hl : led with
    | nil =>
      subst hl
      simp at hp
      have : k1 = 0 := hk1 rfl
      subst this hp
      rw [cur_setBlock, Function.update_self]
    | cons q l =>
      have h0 := (a.nonempty (by simp [hl])).1
      rw [hth1 0 (by simpa using h0)]
      refine a.zero p ?_
      rw [hl] at hp ⊢
      simpa using hp
  · show Owned (cur (w2.setBlock k2 b2) B) ks2 _
    obtain ⟨o1, o2⟩ := how1 (fun h' => (led ++ [(h, es)]).head?.map (·.1) = .some h') (by
        intro k hk
        rcases a.owned k hk with h1 | h1
        · exact .inl h1
        · right
          cases led with
          | nil => simp at h1
          | cons p l => simpa using h1) (by
        intro h0
        by_contra hc
        exact (a.all h (hhead h hc)).1 h0) (by rintro rfl; simp)
    exact how2 _ o1 o2
  · intro h' hs'
    by_cases he : h' = h
    · subst he; simp [hr2]
    · rw [syncedFor_append, if_neg (fun hc => he hc.symm), List.append_nil] at hs'
      rw [(hothc h' he).1]; exact a.has h' hs'
  · intro k e he
    dsimp only at he ⊢
    rw [syncedFor_append, List.mem_append]
    rcases g2 k e he with hx | ⟨hx, hh⟩
    · by_cases hk : (k : Int) ≤ s.w.windowIdx
      · rw [hC1 k hk] at hx
        left
        rw [(g1 k (by omega)).2.1, hC1 k hk]
        exact a.member k e hx
      · rw [hC1' k (by omega)] at hx
        simp at hx
    · right
      rw [if_pos (by rw [hh])]; exact hx
  · intro _
    dsimp only
    by_cases hl : led = []
    · have h0 : k1 = 0 := hk1 hl
      subst h0
      obtain ⟨q1, q2⟩ := hb0 hl
      refine ⟨?_, g3 hes0 (by dsimp only; omega), ?_⟩
      · rw [(g1 0 (by omega)).1, cur_setBlock, Function.update_self]
        exact q1
      · intro p hp
        obtain ⟨_, _, z, p3, p4, _⟩ := g1 0 (by omega)
        rw [hl] at hp
        simp only [List.nil_append, List.head?_cons, Option.some.injEq] at hp
        subst hp
        have hu : used (cur (w1.setBlock 0 { b1 with blk := { b1.blk with topicHash := h } }) B 0) = [] := by
          rw [cur_setBlock, Function.update_self]
          show b1.blk.entries.take b1.blk.entryIdx.toNat = []
          rw [q2]; rfl
        rw [p3, hu]
        exact p4
    · have h0 := (a.nonempty hl).1
      obtain ⟨p1, p2, z, p3, _, p5⟩ := g1 0 (by omega)
      rw [p5 (fun hc => hk0 hl hc.symm), List.append_nil] at p3
      rw [p1, p3, hC1 0 (by omega)]
      obtain ⟨f1, f2, f3⟩ := a.first hl
      refine ⟨f1, f2, fun p hp => f3 p ?_⟩
      cases hl' : led with
      | nil => exact absurd hl' hl
      | cons q l => rw [hl'] at hp; simpa using hp

theorem winAppendAll_mono (now : Int64) (batch : List (UInt64 × List WinEntry)) : ∀ {s s' : WinState},
    s.appendAll now batch = some s' → s.w.windowIdx ≤ s'.w.windowIdx := by
  induction batch with
  | nil => intro s s' h; cases h; exact Int.le_refl _
  | cons p rest ih =>
    intro s s' h
    obtain ⟨hash, es⟩ := p
    rw [WinState.appendAll] at h
    split at h
    · cases h
    · next w off ha =>
      have h1 := append_mono ha
      have h2 := ih h
      exact Int.le_trans h1 h2

theorem winAppendAll_spec {sf : Prop} {n : Nat} {B : Nat → WinBlock} {now : Int64} (hnow : 0 ≤ now.toInt)
    (batch : List (UInt64 × List WinEntry)) (hb : ∀ p ∈ batch, p.2 ≠ [] ∧ ∀ e ∈ p.2, e.seq ≠ 0) :
    ∀ {s s' : WinState} {led : List (UInt64 × List WinEntry)} {ks : UInt64 → List Nat}, WAll sf s led n B ks →
    s.appendAll now batch = some s' → s'.w.windowIdx ≤ 524286 → ∃ ks', WAll sf s' (led ++ batch) n B ks' := by
  induction batch with
  | nil => intro s s' led ks a h _; cases h; exact ⟨ks, by simpa using a⟩
  | cons p rest ih =>
    intro s s' led ks a h hbd
    obtain ⟨hash, es⟩ := p
    rw [WinState.appendAll] at h
    split at h
    · cases h
    · next w off ha =>
      have h2 := winAppendAll_mono now rest h
      obtain ⟨h3, h4⟩ := hb (hash, es) (by simp)
      obtain ⟨ks1, a1⟩ := append_spec a hnow hash h3 h4 ha (Int.le_trans h2 hbd)
      obtain ⟨ks2, a2⟩ := ih (fun q hq => hb q (List.mem_cons_of_mem _ hq)) a1 h hbd
      exact ⟨ks2, by simpa using a2⟩

theorem winLookup_clean (l : List (Nat × WWin)) (k : Nat) :
    (l.map fun p => (p.1, { p.2 with dirty := false })).lookup k = (l.lookup k).map fun b => { b with dirty := false } := by
  induction l with
  | nil => rfl
  | cons p ps ih =>
    obtain ⟨a, c⟩ := p
    rw [List.map_cons, List.lookup_cons, List.lookup_cons]
    by_cases hk : k = a
    · subst hk; simp
    · have h' : (k == a) = false := by simpa using hk
      simp only [h']
      exact ih

theorem mem_of_winLookup {l : List (Nat × WWin)} {k : Nat} {b : WWin} (h : l.lookup k = some b) : (k, b) ∈ l := by
  induction l with
  | nil => simp at h
  | cons p ps ih =>
    obtain ⟨a, c⟩ := p
    rw [List.lookup_cons] at h
    by_cases hk : k = a
    · subst hk; simp at h; subst h; simp
    · have h' : (k == a) = false := by simpa using hk
      rw [h'] at h
      exact List.mem_cons_of_mem _ (ih h)

theorem winLookup_of_mem {l : List (Nat × WWin)} {k : Nat} {b : WWin} (hn : (l.map (·.1)).Nodup) (h : (k, b) ∈ l) :
    l.lookup k = some b := by
  induction l with
  | nil => simp at h
  | cons p ps ih =>
    obtain ⟨a, c⟩ := p
    rw [List.map_cons, List.nodup_cons] at hn
    rw [List.lookup_cons]
    rcases List.mem_cons.1 h with h2 | h2
    · cases h2; simp
    · have hk : k ≠ a := fun hka => hn.1 (List.mem_map.2 ⟨_, h2, hka⟩)
      have h' : (k == a) = false := by simpa using hk
      rw [h']
      exact ih hn.2 h2

/-- `write` succeeds; afterwards the file holds every block. -/
theorem winWrite_spec {file : Bytes} {w : WinWriter} {n : Nat} {B : Nat → WinBlock} {ks : UInt64 → List Nat} (i : WInv file w n B ks) :
    ∃ file' w' n' B', w.write file = some (file', w') ∧ WInv file' w' n' B' ks ∧ cur w' B' = cur w B ∧ Clean w' ∧
      w'.windowIdx = w.windowIdx ∧ n ≤ n' ∧ (w.blocks = [] → n' = n) := by
  set leased := (w.blocks.filter fun p => p.2.leased && p.2.dirty).map (·.1) with hleased
  set fresh := (w.blocks.filter fun p => !p.2.leased && p.2.dirty).map (·.1) with hfresh
  have hiff : ∀ k, (k ∈ leased ∨ k ∈ fresh) ↔ ∃ b, w.blocks.lookup k = some b ∧ b.dirty = true := by
    intro k
    constructor
    · intro h
      have : ∃ b, (k, b) ∈ w.blocks ∧ b.dirty = true := by
        rcases h with h | h
        · simp only [hleased, List.mem_map, List.mem_filter, Bool.and_eq_true] at h
          obtain ⟨p, ⟨hp, _, hd⟩, rfl⟩ := h
          exact ⟨p.2, hp, hd⟩
        · simp only [hfresh, List.mem_map, List.mem_filter, Bool.and_eq_true] at h
          obtain ⟨p, ⟨hp, _, hd⟩, rfl⟩ := h
          exact ⟨p.2, hp, hd⟩
      obtain ⟨b, hb, hd⟩ := this
      exact ⟨b, winLookup_of_mem i.keys hb, hd⟩
    · rintro ⟨b, hb, hd⟩
      have := mem_of_winLookup hb
      cases hle : b.leased with
      | true => exact .inl (List.mem_map.2 ⟨(k, b), List.mem_filter.2 ⟨this, by simp [hle, hd]⟩, rfl⟩)
      | false => exact .inr (List.mem_map.2 ⟨(k, b), List.mem_filter.2 ⟨this, by simp [hle, hd]⟩, rfl⟩)
  have hok : ∀ k, BlockOK (cur w B k) := by
    intro k
    unfold cur
    cases hl : w.blocks.lookup k with
    | none => exact i.good k
    | some b => exact (i.kept _ _ hl).2.2.1
  have hlen : ∀ k, ((cur w B k).marshal).length = 4096 := fun k => WinBlock.length_marshal _ (hok k).1
  have hnd : fresh.Nodup := i.keys.sublist (List.filter_sublist.map _)
  obtain ⟨file', n', e1, hn, f', hlt, hmin⟩ := writeBlocks_spec (get := fun k => (w.blocks.lookup k).map fun b => b.blk.marshal)
    (d := fun k => (cur w B k).marshal) hlen (leased := leased) (fresh := fresh) hnd (by
      intro k hk
      obtain ⟨b, hb, _⟩ := (hiff k).1 hk
      have := (i.kept _ _ hb).2.1
      refine ⟨by omega, ?_⟩
      simp [hb, cur]) i.file
  have hn1 : n' ≤ 524287 := hmin 524287 i.bound fun k hk => by
    obtain ⟨b, hb, _⟩ := (hiff k).1 hk
    have := (i.kept _ _ hb).2.1
    omega
  have hn2 : (n' : Int) ≤ w.windowIdx + 1 := by
    have hl := i.last
    have := hmin (w.windowIdx + 1).toNat (by omega) fun k hk => by
      obtain ⟨b, hb, _⟩ := (hiff k).1 hk
      have := (i.kept _ _ hb).1
      omega
    omega
  set B' : Nat → WinBlock := fun k => if k ∈ leased ∨ k ∈ fresh then cur w B k else B k with hB'
  have hcore : ∀ k b, w.blocks.lookup k = some b → core b.blk = core (B' k) ∧ k < n' := by
    intro k b hl
    by_cases hd : b.dirty = true
    · have hk := (hiff k).2 ⟨b, hl, hd⟩
      refine ⟨?_, hlt k hk⟩
      simp only [hB', if_pos hk, cur, hl]
    · have hd' : b.dirty = false := by simpa using hd
      have h1 := (i.kept _ _ hl).2.2.2 hd'
      have hk : ¬ (k ∈ leased ∨ k ∈ fresh) := by
        intro hc
        obtain ⟨b', hb', hd2⟩ := (hiff k).1 hc
        rw [hl] at hb'; cases hb'; exact hd hd2
      refine ⟨?_, by omega⟩
      simp only [hB', if_neg hk]; exact h1.1
  have hcur : cur { w with blocks := w.blocks.map fun p => (p.1, { p.2 with dirty := false }) } B' = cur w B := by
    funext k
    unfold cur
    simp only [winLookup_clean]
    cases hl : w.blocks.lookup k with
    | some b => rfl
    | none =>
      have hk : ¬ (k ∈ leased ∨ k ∈ fresh) := by
        intro hc
        obtain ⟨b', hb', _⟩ := (hiff k).1 hc
        rw [hl] at hb'; cases hb'
      simp only [Option.map_none, hB', if_neg hk]
  refine ⟨file', { w with blocks := w.blocks.map fun p => (p.1, { p.2 with dirty := false }) }, n', B', ?_, ?_, hcur, ?_, rfl, hn, ?_⟩
  · simp only [WinWriter.write, Option.bind_eq_bind, Option.bind_eq_some_iff]
    exact ⟨file', e1, rfl⟩
  · refine ⟨?_, ?_, ?_, hn1, ?_, hn2, ?_, ?_, ?_⟩
    · have : (fun k => (B' k).marshal) = fun k => if k ∈ leased ∨ k ∈ fresh then (cur w B k).marshal else (B k).marshal := by
        funext k
        simp only [hB']
        split <;> rfl
      rw [this]; exact f'
    · intro k hk
      have : ¬ (k ∈ leased ∨ k ∈ fresh) := fun hc => by have := hlt k hc; omega
      simp only [hB', if_neg this]
      exact i.beyond k (by omega)
    · intro k
      simp only [hB']
      split
      · exact hok k
      · exact i.good k
    · rw [List.map_map]; exact i.keys
    · intro k b hk
      rw [winLookup_clean, Option.map_eq_some_iff] at hk
      obtain ⟨b0, hb0, rfl⟩ := hk
      obtain ⟨p1, p2, p3, _⟩ := i.kept k b0 hb0
      exact ⟨p1, p2, p3, fun _ => hcore k b0 hb0⟩
    · intro h; rw [hcur]; exact i.chain h
    · intro h k hk
      rcases i.known h k hk with h1 | ⟨b, h1⟩
      · exact .inl (by omega)
      · exact .inl (hcore k b h1).2
  · intro k b hk
    rw [winLookup_clean, Option.map_eq_some_iff] at hk
    obtain ⟨b0, _, rfl⟩ := hk
    rfl
  · intro hbl
    have := hmin n (Nat.le_refl _) (fun k hk => by
      obtain ⟨b, hb, _⟩ := (hiff k).1 hk
      rw [hbl] at hb; cases hb)
    omega

theorem WAll.ofFresh (sf : Prop) : ∃ n B ks, WAll sf .fresh [] n B ks ∧ Clean WinState.fresh.w := by
  refine ⟨0, fun _ => .zero, fun _ => [], ⟨⟨⟨rfl, fun _ h => absurd h (by omega), fun _ _ => winMarshal_zero⟩, fun _ _ => rfl,
    fun _ => blockOK_zero, by omega, by simp [WinState.fresh, newWindowWriter], by simp [WinState.fresh, newWindowWriter], ?_, fun _ => trivial, ?_⟩,
    fun _ => rfl, ?_, ?_, ?_, fun _ => ⟨fun _ => rfl, rfl, rfl⟩, ?_, ?_, ?_, fun h hc => absurd rfl hc, ?_, fun hc => absurd rfl hc⟩, ?_⟩
  · intro k b h; simp [WinState.fresh, newWindowWriter] at h
  · intro h k hk; simp at hk
  · intro h hc; exact absurd rfl hc
  · intro _ h; simp [content]
  · intro h _; simp [content, syncedFor]
  · intro hc; exact absurd rfl hc
  · intro p hp; simp at hp
  · intro k hk; exact absurd hk (by show ¬ 1 ≤ UInt16.toNat 0; decide)
  · intro k e he; exact absurd he (by show ¬ e ∈ used WinBlock.zero; simp [used, WinBlock.zero])
  · intro k b h; simp [WinState.fresh, newWindowWriter] at h

/-- A new writer on a file everything was written to. -/
theorem WAll.start {sf : Prop} {s : WinState} {led : List (UInt64 × List WinEntry)} {n : Nat} {B : Nat → WinBlock} {ks : UInt64 → List Nat}
    (a : WAll sf s led n B ks) (hc : Clean s.w) :
    ∃ n B ks, WAll sf { s with w := newWindowWriter s.file } led n B ks ∧ Clean (newWindowWriter s.file) := by
  have hn : ∀ h, ∀ k ∈ ks h, k < n := by
    intro h k hk
    rcases a.inv.known h k hk with h1 | ⟨b, h1⟩
    · exact h1
    · exact ((a.inv.kept k b h1).2.2.2 (hc k b h1)).2
  have hcore : ∀ k, core (B k) = core (cur s.w B k) := by
    intro k
    unfold cur
    cases hl : s.w.blocks.lookup k with
    | none => rfl
    | some b => exact ((a.inv.kept k b hl).2.2.2 (hc k b hl)).1.symm
  have hcur : cur (newWindowWriter s.file) B = B := by funext k; simp [cur, newWindowWriter]
  have hcont : ∀ l, content B l = content (cur s.w B) l := fun l => content_congr fun k _ => hcore k
  have hlen := a.inv.file.len
  have hdiv : 4096 * n / blockSize = n := by show 4096 * n / 4096 = n; omega
  have hidx : (newWindowWriter s.file).windowIdx = if n = 0 then -1 else (n : Int) := by
    simp only [newWindowWriter, hlen]
    by_cases h0 : n = 0
    · simp [h0]
    · rw [if_pos (by omega), if_neg h0, hdiv]
  refine ⟨n, B, ks, ⟨⟨a.inv.file, a.inv.beyond, a.inv.good, a.inv.bound, by simp [newWindowWriter], ?_, ?_, ?_, fun h k hk => .inl (hn h k hk)⟩,
    a.offs, ?_, ?_, ?_, ?_, ?_, ?_, ?_, a.has, ?_, ?_⟩, ?_⟩
  · show (n : Int) ≤ (newWindowWriter s.file).windowIdx + 1
    rw [hidx]; split <;> omega
  · intro k b h; simp [newWindowWriter] at h
  · intro h
    show IsChain (cur (newWindowWriter s.file) B) h (ks h)
    rw [hcur]
    exact (a.inv.chain h).congr fun k _ => hcore k
  · intro h hk
    show content (cur (newWindowWriter s.file) B) (ks h) ≠ []
    rw [hcur, hcont]; exact a.some h hk
  · intro hsf h
    show content (cur (newWindowWriter s.file) B) (ks h) <:+ _
    rw [hcur, hcont]; exact a.suffix hsf h
  · intro h hf
    show _ ∧ content (cur (newWindowWriter s.file) B) (ks h) = _
    rw [hcur, hcont]; exact a.all h hf
  · intro hl
    obtain ⟨h1, h2, _⟩ := a.empty hl
    refine ⟨h1, h2, ?_⟩
    show (newWindowWriter s.file).windowIdx = -1
    rw [hidx, if_pos h2]
  · intro hl
    obtain ⟨_, h, hne⟩ := a.nonempty hl
    refine ⟨?_, h, hne⟩
    show 0 ≤ (newWindowWriter s.file).windowIdx
    obtain ⟨k, hk⟩ := List.exists_mem_of_ne_nil _ hne
    have := hn h k hk
    rw [hidx, if_neg (by omega)]; omega
  · intro p hp
    show (cur (newWindowWriter s.file) B 0).topicHash = p.1
    rw [hcur]
    have h1 := hcore 0
    simp only [core, WinBlock.mk.injEq] at h1
    rw [h1.1]; exact a.zero p hp
  · show Owned (cur (newWindowWriter s.file) B) ks _
    rw [hcur]
    intro k hk
    have h1 := hcore k
    simp only [core, WinBlock.mk.injEq] at h1
    rw [h1.1]
    rw [h1.2.2.2.2] at hk
    exact a.owned k hk
  · show ∀ k, ∀ e ∈ used (cur (newWindowWriter s.file) B k), e ∈ syncedFor led (cur (newWindowWriter s.file) B k).topicHash
    rw [hcur]
    intro k e he
    have h1 := hcore k
    simp only [core, WinBlock.mk.injEq] at h1
    rw [h1.1]
    rw [used, h1.2.1, h1.2.2.2.2] at he
    exact a.member k e he
  · intro hl
    show (cur (newWindowWriter s.file) B 0).next = 0 ∧ used (cur (newWindowWriter s.file) B 0) ≠ [] ∧
      ∀ p, led.head? = .some p → used (cur (newWindowWriter s.file) B 0) <+: p.2
    rw [hcur]
    have h1 := hcore 0
    simp only [core, WinBlock.mk.injEq] at h1
    rw [used, h1.2.1, h1.2.2.2.2, h1.2.2.1]
    exact a.first hl
  · intro k b h; simp [newWindowWriter] at h

theorem WAll.round {sf : Prop} {s s' : WinState} {led batch : List (UInt64 × List WinEntry)} {n : Nat} {B : Nat → WinBlock}
    {ks : UInt64 → List Nat} (a : WAll sf s led n B ks) {now : Int64} (hnow : 0 ≤ now.toInt)
    (hbatch : ∀ p ∈ batch, p.2 ≠ [] ∧ ∀ e ∈ p.2, e.seq ≠ 0) (hr : s.round now batch = .some s') (hbd : s'.w.windowIdx ≤ 524286) :
    ∃ n B ks, WAll sf s' (led ++ batch) n B ks ∧ Clean s'.w := by
  simp only [WinState.round, Option.bind_eq_bind, Option.bind_eq_some_iff] at hr
  obtain ⟨s1, h1, ⟨f2, w2⟩, h2, h3⟩ := hr
  simp only [Option.pure_def, Option.some.injEq] at h3
  subst h3
  have hwi : w2.windowIdx = s1.w.windowIdx := by
    simp only [WinWriter.write, Option.bind_eq_bind, Option.bind_eq_some_iff] at h2
    obtain ⟨_, _, h2⟩ := h2
    simp only [Option.pure_def, Option.some.injEq, Prod.mk.injEq] at h2
    rw [← h2.2]
  dsimp only at hbd
  obtain ⟨ks1, a1⟩ := winAppendAll_spec hnow batch hbatch a h1 (by omega)
  obtain ⟨f3, w3, n3, B3, e3, i3, hcur, hcl, hw3, hn3, hn4⟩ := winWrite_spec a1.inv
  rw [e3] at h2
  simp only [Option.some.injEq, Prod.mk.injEq] at h2
  obtain ⟨rfl, rfl⟩ := h2
  refine ⟨n3, B3, ks1, ⟨i3, a1.offs, ?_, ?_, ?_, ?_, ?_, ?_, ?_, a1.has, ?_, ?_⟩, hcl⟩
  · intro h hk; dsimp only; rw [hcur]; exact a1.some h hk
  · intro hsf h; dsimp only; rw [hcur]; exact a1.suffix hsf h
  · intro h hf; dsimp only; rw [hcur]; exact a1.all h hf
  · intro hl
    obtain ⟨p1, p2, p3⟩ := a1.empty hl
    refine ⟨p1, ?_, by dsimp only; omega⟩
    have h4 := i3.last
    omega
  · intro hl
    obtain ⟨p1, p2⟩ := a1.nonempty hl
    exact ⟨by dsimp only; omega, p2⟩
  · intro p hp; dsimp only; rw [hcur]; exact a1.zero p hp
  · dsimp only; rw [hcur]; exact a1.owned
  · dsimp only; rw [hcur]; exact a1.member
  · dsimp only; rw [hcur]; exact a1.first

/-- Every history of syncs keeps the chains. -/
theorem WinHist.inv {s : WinState} {led : List (UInt64 × List WinEntry)} (H : WinHist s led) :
    ∃ n B ks, WAll True s led n B ks ∧ Clean s.w := by
  induction H with
  | fresh => exact WAll.ofFresh True
  | start _ ih =>
    obtain ⟨n, B, ks, a, hc⟩ := ih
    exact a.start hc
  | round _ hnow hbatch hr hbd ih =>
    obtain ⟨n, B, ks, a, hc⟩ := ih
    exact a.round hnow hbatch hr hbd

/-- The window file and the offsets hold what `led` lists, and nothing waits to be written. -/
def WinOK (s : WinState) (led : List (UInt64 × List WinEntry)) : Prop := ∃ n B ks, WAll False s led n B ks ∧ Clean s.w

theorem WAll.weaken {sf sf' : Prop} {s : WinState} {led : List (UInt64 × List WinEntry)} {n : Nat} {B : Nat → WinBlock}
    {ks : UInt64 → List Nat} (a : WAll sf s led n B ks) (h : sf' → sf) : WAll sf' s led n B ks :=
  ⟨a.inv, a.offs, a.some, fun hs => a.suffix (h hs), a.all, a.empty, a.nonempty, a.zero, a.owned, a.has, a.member, a.first⟩

theorem WinHist.ok {s : WinState} {led : List (UInt64 × List WinEntry)} (H : WinHist s led) : WinOK s led := by
  obtain ⟨n, B, ks, a, hc⟩ := H.inv
  exact ⟨n, B, ks, a.weaken False.elim, hc⟩

theorem WinOK.start {s : WinState} {led : List (UInt64 × List WinEntry)} (H : WinOK s led) :
    WinOK { s with w := newWindowWriter s.file } led := by
  obtain ⟨n, B, ks, a, hc⟩ := H
  exact a.start hc

theorem WinOK.round {s s' : WinState} {led batch : List (UInt64 × List WinEntry)} (H : WinOK s led) {now : Int64} (hnow : 0 ≤ now.toInt)
    (hbatch : ∀ p ∈ batch, p.2 ≠ [] ∧ ∀ e ∈ p.2, e.seq ≠ 0) (hr : s.round now batch = .some s') (hbd : s'.w.windowIdx ≤ 524286) :
    WinOK s' (led ++ batch) := by
  obtain ⟨n, B, ks, a, hc⟩ := H
  exact a.round hnow hbatch hr hbd

/-- All blocks are on file: the newest view of the file for a clean writer. -/
structure OnDisk (sf : Prop) (file : Bytes) (led : List (UInt64 × List WinEntry)) (offs : UInt64 → Int) (n : Nat) (B : Nat → WinBlock)
    (ks : UInt64 → List Nat) : Prop where
  len : file.length = 4096 * n
  bound : n ≤ 524287
  read : ∀ k, k < n → readWindowBlock file (4096 * k) = some (B k)
  good : ∀ k, BlockOK (B k)
  chain : ∀ h, IsChain B h (ks h)
  known : ∀ h, ∀ k ∈ ks h, k < n
  offs : ∀ h, offs h = headOff (ks h)
  some : ∀ h, ks h ≠ [] → content B (ks h) ≠ []
  suffix : sf → ∀ h, content B (ks h) <:+ syncedFor led h
  all : ∀ h, led.head?.map (·.1) ≠ .some h → 0 ∉ ks h ∧ content B (ks h) = syncedFor led h
  zero : ∀ p, led.head? = .some p → (B 0).topicHash = p.1
  owned : Owned B ks fun h => led.head?.map (·.1) = .some h
  empty : led = [] → n = 0
  has : ∀ h, syncedFor led h ≠ [] → ks h ≠ []
  member : ∀ k, ∀ e ∈ used (B k), e ∈ syncedFor led (B k).topicHash
  first : led ≠ [] → (B 0).next = 0 ∧ used (B 0) ≠ [] ∧ ∀ p, led.head? = .some p → used (B 0) <+: p.2

theorem WAll.onDisk {sf : Prop} {s : WinState} {led : List (UInt64 × List WinEntry)} {n : Nat} {B : Nat → WinBlock}
    {ks : UInt64 → List Nat} (a : WAll sf s led n B ks) (hc : Clean s.w) : ∃ n B ks, OnDisk sf s.file led s.offs n B ks := by
  obtain ⟨n, B, ks, a, hc⟩ := a.start hc
  have hcur : cur (newWindowWriter s.file) B = B := by funext k; simp [cur, newWindowWriter]
  have ha : ∀ {C}, C = cur ({ s with w := newWindowWriter s.file } : WinState).w B → C = B := fun h => h.trans hcur
  have e : cur ({ s with w := newWindowWriter s.file } : WinState).w B = B := hcur
  refine ⟨n, B, ks, a.inv.file.len, a.inv.bound, fun k hk => a.inv.read hk, a.inv.good, ?_, ?_, a.offs, ?_, ?_, ?_, ?_, ?_,
    fun hl => (a.empty hl).2.1, a.has, ?_, ?_⟩
  · intro h; have := a.inv.chain h; rwa [e] at this
  · intro h k hk
    rcases a.inv.known h k hk with h1 | ⟨b, h1⟩
    · exact h1
    · simp [newWindowWriter] at h1
  · intro h hk; have := a.some h hk; rwa [e] at this
  · intro hsf h; have := a.suffix hsf h; rwa [e] at this
  · intro h hf; have := a.all h hf; rwa [e] at this
  · intro p hp; have := a.zero p hp; rwa [e] at this
  · have := a.owned; rwa [e] at this
  · have := a.member; rwa [e] at this
  · have := a.first; rwa [e] at this

theorem WinHist.onDisk {s : WinState} {led : List (UInt64 × List WinEntry)} (H : WinHist s led) :
    ∃ n B ks, OnDisk True s.file led s.offs n B ks := by
  obtain ⟨n, B, ks, a, hc⟩ := H.inv
  exact a.onDisk hc

theorem WinOK.onDisk {s : WinState} {led : List (UInt64 × List WinEntry)} (H : WinOK s led) :
    ∃ n B ks, OnDisk False s.file led s.offs n B ks := by
  obtain ⟨n, B, ks, a, hc⟩ := H
  exact a.onDisk hc

theorem live_eq {now : UInt32} {es : List WinEntry} (h : ∀ e ∈ es, e.isExpired now = false) : live now es = es := by
  rw [live, List.filter_eq_self]
  intro e he; simp [h e he]

/-- One block, nothing expired. -/
theorem lookupBlock_eq {now : UInt32} {hash : UInt64} {cutoff : Int} {b : WinBlock} (hb : BlockOK b) (hh : b.topicHash = hash)
    (hc : cutoff ≤ 0) (hl : ∀ e ∈ used b, e.isExpired now = false) {acc : List WinEntry} {limit : Int} (ha : (acc.length : Int) ≤ limit) :
    lookupBlock now hash cutoff b acc limit =
      if (acc.length : Int) > limit - b.entryIdx.toNat then .stop ((acc ++ (used b).reverse).take limit.toNat)
      else .next (acc ++ (used b).reverse) limit := by
  obtain ⟨h1, h2, h3⟩ := hb
  have hcut : b.cutoff cutoff = false := by
    simp only [WinBlock.cutoff, Bool.and_eq_false_iff, decide_eq_false_iff_not]
    right; omega
  have hlen : (used b).length = b.entryIdx.toNat := by
    have : entriesPerWindowBlock = 335 := rfl
    rw [used, List.length_take, h1]; omega
  have hlr : live now (used b).reverse = (used b).reverse := live_eq fun e he => hl e (List.mem_reverse.1 he)
  have hlt : ∀ m, live now ((used b).reverse.take m) = (used b).reverse.take m := fun m =>
    live_eq fun e he => hl e (List.mem_reverse.1 (List.mem_of_mem_take he))
  have h335 : entriesPerWindowBlock = 335 := rfl
  unfold lookupBlock
  simp only [hh, ne_eq, not_true_eq_false, if_false]
  rw [if_neg (by omega)]
  change (if (acc.length : Int) > limit - b.entryIdx.toNat then
      if ((acc ++ live now ((used b).reverse.take (limit - acc.length).toNat)).length : Int) ≥ limit - acc.length then
        BlockRes.stop (acc ++ live now ((used b).reverse.take (limit - acc.length).toNat))
      else if b.cutoff cutoff = true then _ else _
    else if b.cutoff cutoff = true then BlockRes.stop (acc ++ live now (used b).reverse)
      else BlockRes.next (acc ++ live now (used b).reverse) limit) = _
  by_cases hg : (acc.length : Int) > limit - b.entryIdx.toNat
  · rw [if_pos hg, if_pos hg, hlt, if_pos]
    · congr 1
      have e1 : acc.take limit.toNat = acc := List.take_of_length_le (by omega)
      have e2 : (limit - acc.length).toNat = limit.toNat - acc.length := by omega
      rw [List.take_append, e1, e2]
    · rw [List.length_append, List.length_take, List.length_reverse, hlen]
      omega
  · rw [if_neg hg, if_neg hg, hcut, hlr]
    rfl

/-- Following a chain, nothing expired: everything in it, newest first, up to the limit. -/
theorem lookupChain_eq {sf : Prop} {now : UInt32} {file : Bytes} {led : List (UInt64 × List WinEntry)} {offs : UInt64 → Int} {n : Nat}
    {B : Nat → WinBlock} {ks : UInt64 → List Nat} (d : OnDisk sf file led offs n B ks) {hash : UInt64} {cutoff : Int} (hc : cutoff ≤ 0)
    (r : List Nat) : ∀ (k : Nat) (fuel : Nat) (acc : List WinEntry) (limit : Int), IsChain B hash (k :: r) → (∀ j ∈ k :: r, j < n) →
      (∀ e ∈ content B (k :: r), e.isExpired now = false) → r.length < fuel → (acc.length : Int) ≤ limit →
      lookupChain now file hash cutoff fuel (4096 * k) acc limit = .some ((acc ++ (content B (k :: r)).reverse).take limit.toNat) := by
  induction r with
  | nil =>
    intro k fuel acc limit c hk hl hf ha
    obtain ⟨fuel, rfl⟩ : ∃ m, fuel = m + 1 := ⟨fuel - 1, by simp at hf; omega⟩
    have hcont : content B [k] = used (B k) := by simp [content]
    rw [hcont] at hl ⊢
    rw [lookupChain, d.read k (hk k (by simp))]
    dsimp only
    rw [lookupBlock_eq (d.good k) c.1 hc hl ha]
    by_cases hg : (acc.length : Int) > limit - (B k).entryIdx.toNat
    · rw [if_pos hg]
    · rw [if_neg hg]
      dsimp only
      rw [if_pos c.2.2, List.take_of_length_le]
      have : (used (B k)).length ≤ (B k).entryIdx.toNat := by rw [used, List.length_take]; omega
      simp only [List.length_append, List.length_reverse]
      omega
  | cons j r ih =>
    intro k fuel acc limit c hk hl hf ha
    obtain ⟨fuel, rfl⟩ : ∃ m, fuel = m + 1 := ⟨fuel - 1, by simp at hf; omega⟩
    have hcont : content B (k :: j :: r) = content B (j :: r) ++ used (B k) := content_cons _ _ _
    rw [hcont] at hl ⊢
    have hlen : (used (B k)).length ≤ (B k).entryIdx.toNat := by rw [used, List.length_take]; omega
    have hlen2 : (used (B k)).length = (B k).entryIdx.toNat := by
      have h335 : entriesPerWindowBlock = 335 := rfl
      have := d.good k
      rw [used, List.length_take, this.1]; have := this.2.2; omega
    rw [lookupChain, d.read k (hk k (by simp))]
    dsimp only
    rw [lookupBlock_eq (d.good k) c.1 hc (fun e he => hl e (List.mem_append_right _ he)) ha]
    have hj : j < n := hk j (by simp)
    have hjn := d.bound
    have hnext : (B k).next = Int64.ofInt (4096 * j) := c.2.2.2.1
    have hjp : 0 < j := c.2.2.2.2.1
    have hval : (B k).next.toInt = 4096 * j := by
      rw [hnext, Int64.toInt_ofInt_of_le (by omega) (by omega)]
    by_cases hg : (acc.length : Int) > limit - (B k).entryIdx.toNat
    · rw [if_pos hg]
      dsimp only
      congr 1
      have e1 : limit.toNat ≤ (acc ++ (used (B k)).reverse).length := by
        simp only [List.length_append, List.length_reverse]; omega
      rw [List.reverse_append, ← List.append_assoc, List.take_append_of_le_length e1]
    · rw [if_neg hg]
      dsimp only
      have hne : (B k).next ≠ 0 := by
        intro h0
        rw [h0] at hval
        have : (0 : Int64).toInt = 0 := rfl
        omega
      rw [if_neg hne, hval, ih j fuel _ limit c.tail (fun i hi => hk i (List.mem_cons_of_mem _ hi))
        (fun e he => hl e (List.mem_append_left _ he)) (by simp at hf ⊢; omega) (by
          simp only [List.length_append, List.length_reverse]; omega)]
      rw [List.reverse_append, List.append_assoc]

theorem IsChain.length_le {C : Nat → WinBlock} {h : UInt64} {k : Nat} {r : List Nat} (c : IsChain C h (k :: r)) : r.length ≤ k := by
  induction r generalizing k with
  | nil => simp
  | cons j r ih =>
    have h1 := ih c.tail
    have h2 := c.2.2.2.2.2.1
    simp only [List.length_cons]
    omega

theorem addWin_le (now : Int64) (es : List WinEntry) : ∀ {w : WinWriter} {wIdx : Nat} {b : WWin} {r : WinWriter × Nat × WWin},
    addWin now es w wIdx b = some r → r.1.windowIdx ≤ w.windowIdx + es.length := by
  induction es with
  | nil => intro w wIdx b r h; cases h; simp
  | cons e es ih =>
    intro w wIdx b r h
    rw [addWin] at h
    rw [List.length_cons]
    split at h
    · have := ih h; omega
    · split at h
      · have := ih h
        simp only [WinWriter.setBlock] at this
        omega
      · split at h
        · cases h
        · have := ih h
          omega

theorem append_total {sf : Prop} {s : WinState} {led : List (UInt64 × List WinEntry)} {n : Nat} {B : Nat → WinBlock} {ks : UInt64 → List Nat}
    (a : WAll sf s led n B ks) (now : Int64) (h : UInt64) (es : List WinEntry) :
    ∃ w' off', s.w.append s.file now h (s.offs h) es = some (w', off') ∧ w'.windowIdx ≤ s.w.windowIdx + es.length + 1 := by
  have ho : ∃ w1 k1 b1, s.w.openBlock s.file (s.offs h) = some (w1, k1, b1) ∧ w1.windowIdx ≤ s.w.windowIdx + 1 ∧
      b1.blk.entryIdx.toNat ≤ 335 := by
    have h0 : 0 ≤ s.offs h := by rw [a.offs]; cases ks h <;> simp [headOff]
    rw [WinWriter.openBlock, if_neg (by omega)]
    by_cases hz : s.offs h = 0
    · simp only [if_pos hz]
      cases hl : List.lookup (s.w.windowIdx + 1).toNat s.w.blocks with
      | some b => exact ⟨_, _, _, rfl, Int.le_refl _, (a.inv.kept _ _ hl).2.2.1.2.2⟩
      | none =>
        dsimp only
        rw [if_neg (by omega)]
        exact ⟨_, _, _, rfl, Int.le_refl _, by decide⟩
    · simp only [if_neg hz]
      cases hl : List.lookup (s.offs h / 4096).toNat s.w.blocks with
      | some b => exact ⟨_, _, _, rfl, by omega, (a.inv.kept _ _ hl).2.2.1.2.2⟩
      | none =>
        dsimp only
        have hoff := a.offs h
        cases hk : ks h with
        | nil => rw [hk] at hoff; exact absurd hoff hz
        | cons k r =>
          rw [hk] at hoff
          simp only [headOff] at hoff
          have hkk : (s.offs h / 4096).toNat = k := by omega
          rw [hkk] at hl ⊢
          have hkn : k < n := by
            rcases a.inv.known h k (by rw [hk]; simp) with h1 | ⟨b, h1⟩
            · exact h1
            · rw [h1] at hl; cases hl
          have hlast := a.inv.last
          rw [if_pos ⟨by omega, by omega⟩, hoff, a.inv.read hkn]
          exact ⟨_, _, _, rfl, by omega, (a.inv.good k).2.2⟩
  obtain ⟨w1, k1, b1, h1, h2, h3⟩ := ho
  obtain ⟨⟨w2, k2, b2⟩, h4⟩ := addWin_total now es w1 k1 { b1 with blk := { b1.blk with topicHash := h } } h3
  have h5 := addWin_le now es h4
  refine ⟨w2.setBlock k2 b2, winOff k2, ?_, ?_⟩
  · rw [WinWriter.append, h1]
    show (addWin now es w1 k1 _).bind _ = _
    rw [h4]; rfl
  · show w2.windowIdx ≤ _
    dsimp only at h5
    omega

theorem appendAll_total {sf : Prop} {n : Nat} {B : Nat → WinBlock} {now : Int64} (hnow : 0 ≤ now.toInt)
    (batch : List (UInt64 × List WinEntry)) (hb : ∀ p ∈ batch, p.2 ≠ [] ∧ ∀ e ∈ p.2, e.seq ≠ 0) :
    ∀ {s : WinState} {led : List (UInt64 × List WinEntry)} {ks : UInt64 → List Nat}, WAll sf s led n B ks →
    s.w.windowIdx + ((batch.map fun p => p.2.length + 1).sum : Nat) ≤ 524286 →
    ∃ s', s.appendAll now batch = some s' ∧ s'.w.windowIdx ≤ s.w.windowIdx + ((batch.map fun p => p.2.length + 1).sum : Nat) := by
  induction batch with
  | nil => intro s led ks _ _; exact ⟨s, rfl, by simp⟩
  | cons p rest ih =>
    intro s led ks a hbd
    obtain ⟨hash, es⟩ := p
    obtain ⟨w', off', h1, h2⟩ := append_total a now hash es
    obtain ⟨h3, h4⟩ := hb (hash, es) (by simp)
    simp only [List.map_cons, List.sum_cons] at hbd ⊢
    obtain ⟨ks', a'⟩ := append_spec a hnow hash h3 h4 h1 (by omega)
    obtain ⟨s', h5, h6⟩ := ih (fun p hp => hb p (List.mem_cons_of_mem _ hp)) a' (by dsimp only; omega)
    refine ⟨s', ?_, ?_⟩
    · rw [WinState.appendAll, h1]; exact h5
    · dsimp only at h6; omega

theorem WAll.more {sf : Prop} {s : WinState} {led : List (UInt64 × List WinEntry)} {n : Nat} {B : Nat → WinBlock} {ks : UInt64 → List Nat}
    (a : WAll sf s led n B ks) {now : Int64} (hnow : 0 ≤ now.toInt)
    (batch : List (UInt64 × List WinEntry)) (hb : ∀ p ∈ batch, p.2 ≠ [] ∧ ∀ e ∈ p.2, e.seq ≠ 0)
    (hroom : s.w.windowIdx + ((batch.map fun p => p.2.length + 1).sum : Nat) ≤ 524286) :
    ∃ s', s.round now batch = .some s' ∧
      s'.w.windowIdx ≤ s.w.windowIdx + ((batch.map fun p => p.2.length + 1).sum : Nat) ∧
      (newWindowWriter s'.file).windowIdx ≤ s.w.windowIdx + ((batch.map fun p => p.2.length + 1).sum : Nat) + 1 := by
  obtain ⟨s1, h1, h2⟩ := appendAll_total hnow batch hb a hroom
  obtain ⟨ks1, a1⟩ := winAppendAll_spec hnow batch hb a h1 (by omega)
  obtain ⟨file', w', n', B', h3, i3, _, _, h4, _⟩ := winWrite_spec a1.inv
  have hr : s.round now batch = .some { s1 with file := file', w := w' } := by
    rw [WinState.round, h1]
    show (s1.w.write s1.file).bind _ = _
    rw [h3]; rfl
  refine ⟨_, hr, by dsimp only; omega, ?_⟩
  have h5 := i3.last
  have h6 := i3.file.len
  simp only [newWindowWriter, h6, show blockSize = 4096 from rfl]
  split <;> omega

/-- Syncing can always go on while there is room for more window blocks. -/
theorem WinHist.more {s : WinState} {led : List (UInt64 × List WinEntry)} (H : WinHist s led) {now : Int64} (hnow : 0 ≤ now.toInt)
    (batch : List (UInt64 × List WinEntry)) (hb : ∀ p ∈ batch, p.2 ≠ [] ∧ ∀ e ∈ p.2, e.seq ≠ 0)
    (hroom : s.w.windowIdx + ((batch.map fun p => p.2.length + 1).sum : Nat) ≤ 524286) :
    ∃ s', s.round now batch = some s' ∧ WinHist s' (led ++ batch) ∧
      s'.w.windowIdx ≤ s.w.windowIdx + ((batch.map fun p => p.2.length + 1).sum : Nat) ∧
      (newWindowWriter s'.file).windowIdx ≤ s.w.windowIdx + ((batch.map fun p => p.2.length + 1).sum : Nat) + 1 := by
  obtain ⟨n, B, ks, a, _⟩ := H.inv
  obtain ⟨s', h1, h2, h3⟩ := a.more hnow batch hb hroom
  exact ⟨s', h1, .round H hnow hb h1 (by omega), h2, h3⟩

theorem WinOK.more {s : WinState} {led : List (UInt64 × List WinEntry)} (H : WinOK s led) {now : Int64} (hnow : 0 ≤ now.toInt)
    (batch : List (UInt64 × List WinEntry)) (hb : ∀ p ∈ batch, p.2 ≠ [] ∧ ∀ e ∈ p.2, e.seq ≠ 0)
    (hroom : s.w.windowIdx + ((batch.map fun p => p.2.length + 1).sum : Nat) ≤ 524286) :
    ∃ s', s.round now batch = some s' ∧ WinOK s' (led ++ batch) ∧
      s'.w.windowIdx ≤ s.w.windowIdx + ((batch.map fun p => p.2.length + 1).sum : Nat) ∧
      (newWindowWriter s'.file).windowIdx ≤ s.w.windowIdx + ((batch.map fun p => p.2.length + 1).sum : Nat) + 1 := by
  obtain ⟨n, B, ks, a, hcl⟩ := H
  obtain ⟨s', h1, h2, h3⟩ := a.more hnow batch hb hroom
  exact ⟨s', h1, WinOK.round ⟨n, B, ks, a, hcl⟩ hnow hb h1 (by omega), h2, h3⟩

end Verif
