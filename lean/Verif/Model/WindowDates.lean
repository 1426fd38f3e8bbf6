import Mathlib.Tactic.Set
import Verif.Model.WindowHist

/-!
# The dates of the blocks of the window file

time_window_writer.go:112-114: a block that is full gets the time at which its successor is begun. `T` is the time at which the message
with a sequence was put, in seconds. No entry of such a block, or of an earlier block of its topic, belongs to a message put after that
second. This is what lets a lookup stop at the first block older than the cutoff (time_window.go:67-69, 320).
-/

namespace Verif

/-- `write` succeeds; afterwards the file holds every block. -/
theorem winWrite_full {file : Bytes} {w : WinWriter} {n : Nat} {B : Nat → WinBlock} {ks : UInt64 → List Nat} (i : WInv file w n B ks) :
    ∃ file' w' n' B', w.write file = some (file', w') ∧ WInv file' w' n' B' ks ∧ cur w' B' = cur w B ∧ Clean w' ∧
      w'.windowIdx = w.windowIdx ∧ n ≤ n' ∧ (w.blocks = [] → n' = n) ∧
      (∀ k, B' k = cur w B k ∨ (B' k = B k ∧ ∀ b, w.blocks.lookup k = some b → b.dirty = false)) := by
  set leased := (w.blocks.filter fun p => p.2.leased && p.2.dirty).map (·.1) with hleased
  set fresh := (w.blocks.filter fun p => !p.2.leased && p.2.dirty).map (·.1) with hfresh
  have hiff : ∀ k, (k ∈ leased ∨ k ∈ fresh) ↔ ∃ b, w.blocks.lookup k = some b ∧ b.dirty = true := by
    intro k
    constructor
    · intro h
      have : ∃ b, (k, b) ∈ w.blocks ∧ b.dirty = true := by
        rcases h with h | h
        · simp only [hleased, List.mem_map, List.mem_filter, Bool.and_eq_true] at h
          obtain ⟨p, ⟨hp, _, hd⟩, rfl⟩ := h
          exact ⟨p.2, hp, hd⟩
        · simp only [hfresh, List.mem_map, List.mem_filter, Bool.and_eq_true] at h
          obtain ⟨p, ⟨hp, _, hd⟩, rfl⟩ := h
          exact ⟨p.2, hp, hd⟩
      obtain ⟨b, hb, hd⟩ := this
      exact ⟨b, winLookup_of_mem i.keys hb, hd⟩
    · rintro ⟨b, hb, hd⟩
      have := mem_of_winLookup hb
      cases hle : b.leased with
      | true => exact .inl (List.mem_map.2 ⟨(k, b), List.mem_filter.2 ⟨this, by simp [hle, hd]⟩, rfl⟩)
      | false => exact .inr (List.mem_map.2 ⟨(k, b), List.mem_filter.2 ⟨this, by simp [hle, hd]⟩, rfl⟩)
  have hok : ∀ k, BlockOK (cur w B k) := by
    intro k
    unfold cur
    cases hl : w.blocks.lookup k with
    | none => exact i.good k
    | some b => exact (i.kept _ _ hl).2.2.1
  have hlen : ∀ k, ((cur w B k).marshal).length = 4096 := fun k => WinBlock.length_marshal _ (hok k).1
  have hnd : fresh.Nodup := i.keys.sublist (List.filter_sublist.map _)
  obtain ⟨file', n', e1, hn, f', hlt, hmin⟩ := writeBlocks_spec (get := fun k => (w.blocks.lookup k).map fun b => b.blk.marshal)
    (d := fun k => (cur w B k).marshal) hlen (leased := leased) (fresh := fresh) hnd (by
      intro k hk
      obtain ⟨b, hb, _⟩ := (hiff k).1 hk
      have := (i.kept _ _ hb).2.1
      refine ⟨by omega, ?_⟩
      simp [hb, cur]) i.file
  have hn1 : n' ≤ 524287 := hmin 524287 i.bound fun k hk => by
    obtain ⟨b, hb, _⟩ := (hiff k).1 hk
    have := (i.kept _ _ hb).2.1
    omega
  have hn2 : (n' : Int) ≤ w.windowIdx + 1 := by
    have hl := i.last
    have := hmin (w.windowIdx + 1).toNat (by omega) fun k hk => by
      obtain ⟨b, hb, _⟩ := (hiff k).1 hk
      have := (i.kept _ _ hb).1
      omega
    omega
  set B' : Nat → WinBlock := fun k => if k ∈ leased ∨ k ∈ fresh then cur w B k else B k with hB'
  have hcore : ∀ k b, w.blocks.lookup k = some b → core b.blk = core (B' k) ∧ k < n' := by
    intro k b hl
    by_cases hd : b.dirty = true
    · have hk := (hiff k).2 ⟨b, hl, hd⟩
      refine ⟨?_, hlt k hk⟩
      simp only [hB', if_pos hk, cur, hl]
    · have hd' : b.dirty = false := by simpa using hd
      have h1 := (i.kept _ _ hl).2.2.2 hd'
      have hk : ¬ (k ∈ leased ∨ k ∈ fresh) := by
        intro hc
        obtain ⟨b', hb', hd2⟩ := (hiff k).1 hc
        rw [hl] at hb'; cases hb'; exact hd hd2
      refine ⟨?_, by omega⟩
      simp only [hB', if_neg hk]; exact h1.1
  have hcur : cur { w with blocks := w.blocks.map fun p => (p.1, { p.2 with dirty := false }) } B' = cur w B := by
    funext k
    unfold cur
    simp only [winLookup_clean]
    cases hl : w.blocks.lookup k with
    | some b => rfl
    | none =>
      have hk : ¬ (k ∈ leased ∨ k ∈ fresh) := by
        intro hc
        obtain ⟨b', hb', _⟩ := (hiff k).1 hc
        rw [hl] at hb'; cases hb'
      simp only [Option.map_none, hB', if_neg hk]
  refine ⟨file', { w with blocks := w.blocks.map fun p => (p.1, { p.2 with dirty := false }) }, n', B', ?_, ?_, hcur, ?_, rfl, hn, ?_, ?_⟩
  · simp only [WinWriter.write, Option.bind_eq_bind, Option.bind_eq_some_iff]
    exact ⟨file', e1, rfl⟩
  · refine ⟨?_, ?_, ?_, hn1, ?_, hn2, ?_, ?_, ?_⟩
    · have : (fun k => (B' k).marshal) = fun k => if k ∈ leased ∨ k ∈ fresh then (cur w B k).marshal else (B k).marshal := by
        funext k
        simp only [hB']
        split <;> rfl
      rw [this]; exact f'
    · intro k hk
      have : ¬ (k ∈ leased ∨ k ∈ fresh) := fun hc => by have := hlt k hc; omega
      simp only [hB', if_neg this]
      exact i.beyond k (by omega)
    · intro k
      simp only [hB']
      split
      · exact hok k
      · exact i.good k
    · rw [List.map_map]; exact i.keys
    · intro k b hk
      rw [winLookup_clean, Option.map_eq_some_iff] at hk
      obtain ⟨b0, hb0, rfl⟩ := hk
      obtain ⟨p1, p2, p3, _⟩ := i.kept k b0 hb0
      exact ⟨p1, p2, p3, fun _ => hcore k b0 hb0⟩
    · intro h; rw [hcur]; exact i.chain h
    · intro h k hk
      rcases i.known h k hk with h1 | ⟨b, h1⟩
      · exact .inl (by omega)
      · exact .inl (hcore k b h1).2
  · intro k b hk
    rw [winLookup_clean, Option.map_eq_some_iff] at hk
    obtain ⟨b0, _, rfl⟩ := hk
    rfl
  · intro hbl
    have := hmin n (Nat.le_refl _) (fun k hk => by
      obtain ⟨b, hb, _⟩ := (hiff k).1 hk
      rw [hbl] at hb; cases hb)
    omega
  · intro k
    by_cases hk : k ∈ leased ∨ k ∈ fresh
    · left; simp only [hB', if_pos hk]
    · right
      refine ⟨by simp only [hB', if_neg hk], ?_⟩
      intro b hb
      cases hd : b.dirty with
      | false => rfl
      | true => exact absurd ((hiff k).2 ⟨b, hb, hd⟩) hk

/-- A block with a time holds, like the earlier blocks of its topic, no message put later. -/
def Dated (T : UInt64 → Int) (C : Nat → WinBlock) : Prop :=
  ∀ k j, j ≤ k → (C k).cutoffTime ≠ 0 → (C j).topicHash = (C k).topicHash → ∀ e ∈ used (C j), T e.seq ≤ (C k).cutoffTime.toInt

/-- No block of topic `h` from block `k` on has a time. -/
def Undated (C : Nat → WinBlock) (h : UInt64) (k : Nat) : Prop :=
  ∀ j, k ≤ j → (C j).topicHash = h → (C j).cutoffTime = 0

/-- What a writer kept of a block that is on file: the file may lack its time. -/
def FileDates (w : WinWriter) (B : Nat → WinBlock) : Prop :=
  ∀ k b, w.blocks.lookup k = some b → b.dirty = false → (B k).cutoffTime = 0 ∨ (B k).cutoffTime = b.blk.cutoffTime

theorem used_zero {b : WinBlock} (h : b.entryIdx.toNat = 0) : used b = [] := by simp [used, h]

/-- Adding entries to the newest block of topic `h`. -/
theorem addWin_dated {T : UInt64 → Int} {B : Nat → WinBlock} {h : UInt64} (now : Int64) (es : List WinEntry) (hT : ∀ e ∈ es, T e.seq ≤ now.toInt) :
    ∀ {w : WinWriter} {wIdx : Nat} {b : WWin} {w' : WinWriter} {wIdx' : Nat} {b' : WWin}, addWin now es w wIdx b = some (w', wIdx', b') →
    b.blk.topicHash = h → b.blk.entries.length = entriesPerWindowBlock → (wIdx : Int) ≤ w.windowIdx →
    (∀ k : Nat, w.windowIdx < k → cur w B k = .zero) →
    Dated T (cur (w.setBlock wIdx b) B) → Undated (cur (w.setBlock wIdx b) B) h wIdx →
    (∀ k, ∀ e ∈ used (cur (w.setBlock wIdx b) B k), T e.seq ≤ now.toInt) → FileDates (w.setBlock wIdx b) B →
    Dated T (cur (w'.setBlock wIdx' b') B) ∧ Undated (cur (w'.setBlock wIdx' b') B) h wIdx' ∧ FileDates (w'.setBlock wIdx' b') B ∧
      (∀ h', h' ≠ h → ∀ k, Undated (cur (w.setBlock wIdx b) B) h' k → Undated (cur (w'.setBlock wIdx' b') B) h' k) ∧
      (wIdx' : Int) ≤ w'.windowIdx := by
  induction es with
  | nil =>
    intro w wIdx b w' wIdx' b' hrun _ _ hidx _ hd hu _ hf
    cases hrun
    exact ⟨hd, hu, hf, fun _ _ _ h => h, hidx⟩
  | cons e es ih =>
    intro w wIdx b w' wIdx' b' hrun hh hlen hidx hz hd hu hb hf
    have ih' := @ih fun e he => hT e (List.mem_cons_of_mem _ he)
    rw [addWin] at hrun
    split at hrun
    · exact ih' hrun hh hlen hidx hz hd hu hb hf
    split at hrun
    · next _ hfull =>
      -- the block is full
      dsimp only at hrun
      have hk1 : ((w.windowIdx + 1).toNat : Int) = w.windowIdx + 1 := by omega
      have hne : (w.windowIdx + 1).toNat ≠ wIdx := by omega
      obtain ⟨k1, hk⟩ : ∃ k1 : Nat, (k1 : Int) = w.windowIdx + 1 := ⟨_, hk1⟩
      have hk1' : (w.windowIdx + 1).toNat = k1 := by omega
      rw [hk1'] at hne
      obtain ⟨closed, hcl⟩ : ∃ c : WWin, c = { b with blk := { b.blk with cutoffTime := now } } := ⟨_, rfl⟩
      obtain ⟨nb, hnb⟩ : ∃ c : WWin, c = ⟨⟨b.blk.topicHash, WinBlock.zero.entries.set 0 e, Int64.ofInt (winOff wIdx), 0, 1⟩, true, false⟩ := ⟨_, rfl⟩
      have hrun' : addWin now es { w.setBlock wIdx closed with windowIdx := w.windowIdx + 1 } k1 nb = some (w', wIdx', b') := by
        rw [hcl, hnb, ← hk1']; exact hrun
      have hC : cur (WinWriter.setBlock { w.setBlock wIdx closed with windowIdx := w.windowIdx + 1 } k1 nb) B =
          Function.update (Function.update (cur w B) wIdx closed.blk) k1 nb.blk := by
        rw [cur_setBlock]
        have : cur { w.setBlock wIdx closed with windowIdx := w.windowIdx + 1 } B = cur (w.setBlock wIdx closed) B := rfl
        rw [this, cur_setBlock]
      have hC0 : cur (w.setBlock wIdx b) B = Function.update (cur w B) wIdx b.blk := cur_setBlock _ _ _ _
      have hcut : b.blk.cutoffTime = 0 := by
        have := hu wIdx (Nat.le_refl _)
        rw [hC0, Function.update_self] at this
        exact this hh
      have hused : used closed.blk = used b.blk := by rw [hcl]; rfl
      have hnbused : used nb.blk = [e] := by rw [hnb]; rfl
      -- all entries so far
      have hall : ∀ k, ∀ x ∈ used (Function.update (Function.update (cur w B) wIdx closed.blk) k1 nb.blk k), T x.seq ≤ now.toInt := by
        intro k x hx
        by_cases h1 : k = k1
        · rw [h1, Function.update_self, hnbused, List.mem_singleton] at hx
          subst hx
          exact hT _ List.mem_cons_self
        · rw [Function.update_of_ne h1] at hx
          by_cases h2 : k = wIdx
          · rw [h2, Function.update_self, hused] at hx
            exact hb wIdx x (by rw [hC0, Function.update_self]; exact hx)
          · rw [Function.update_of_ne h2] at hx
            exact hb k x (by rw [hC0, Function.update_of_ne h2]; exact hx)
      have hzero : ∀ k, k1 ≤ k → cur w B k = .zero := fun k hkk => hz k (by omega)
      have hD : Dated T (Function.update (Function.update (cur w B) wIdx closed.blk) k1 nb.blk) := by
        intro k j hjk hck hhj x hx
        by_cases h1 : k = k1
        · rw [h1, Function.update_self, hnb] at hck
          exact absurd rfl hck
        · rw [Function.update_of_ne h1] at hck hhj ⊢
          by_cases h2 : k = wIdx
          · rw [h2, Function.update_self] at hck hhj ⊢
            have := hall j x hx
            rw [hcl]; exact this
          · rw [Function.update_of_ne h2] at hck hhj ⊢
            have hk2 : k < k1 := by
              by_contra hc
              rw [hzero k (by omega)] at hck
              exact absurd rfl hck
            have hj1 : j ≠ k1 := by omega
            rw [Function.update_of_ne hj1] at hhj hx
            have hd' := hd k j hjk
            rw [hC0, Function.update_of_ne h2] at hd'
            by_cases h3 : j = wIdx
            · rw [h3, Function.update_self] at hhj hx
              rw [h3, Function.update_self] at hd'
              rw [hused] at hx
              exact hd' hck (by rw [hcl] at hhj; exact hhj) x hx
            · rw [Function.update_of_ne h3] at hhj hx
              rw [Function.update_of_ne h3] at hd'
              exact hd' hck hhj x hx
      have hU : Undated (Function.update (Function.update (cur w B) wIdx closed.blk) k1 nb.blk) h k1 := by
        intro j hj _
        by_cases h1 : j = k1
        · rw [h1, Function.update_self, hnb]
        · rw [Function.update_of_ne h1, Function.update_of_ne (by omega), hzero j hj]; rfl
      have hF : FileDates (WinWriter.setBlock { w.setBlock wIdx closed with windowIdx := w.windowIdx + 1 } k1 nb) B := by
        intro k x hx hdx
        rw [winLookup_setBlock] at hx
        split at hx
        · cases hx
          rw [hnb] at hdx; cases hdx
        · have hx' : (w.setBlock wIdx closed).blocks.lookup k = some x := hx
          rw [winLookup_setBlock] at hx'
          split at hx'
          · next _ h2 =>
            cases hx'
            left
            rw [hcl] at hdx
            rcases hf wIdx b (by rw [winLookup_setBlock, if_pos rfl]) hdx with h3 | h3
            · rw [h2]; exact h3
            · rw [h2, h3, hcut]
          · next _ h2 => exact hf k x (by rw [winLookup_setBlock, if_neg h2]; exact hx') hdx
      obtain ⟨r1, r2, r3, r4, r5⟩ := ih' hrun' (by rw [hnb]; exact hh) (by rw [hnb]; simp [WinBlock.zero]) (by show (k1 : Int) ≤ w.windowIdx + 1; omega) (by
          intro k hk2
          have hk3 : w.windowIdx + 1 < k := hk2
          have : cur { w.setBlock wIdx closed with windowIdx := w.windowIdx + 1 } B = cur (w.setBlock wIdx closed) B := rfl
          rw [this, cur_setBlock, Function.update_of_ne (by omega)]
          exact hz k (by omega)) (by rw [hC]; exact hD) (by rw [hC]; exact hU) (by rw [hC]; exact hall) hF
      refine ⟨r1, r2, r3, ?_, r5⟩
      intro h' hne' k hk0
      refine r4 h' hne' k ?_
      rw [hC]
      intro j hj hhj
      by_cases h1 : j = k1
      · rw [h1, Function.update_self, hnb]
      · rw [Function.update_of_ne h1] at hhj ⊢
        by_cases h2 : j = wIdx
        · rw [h2, Function.update_self, hcl] at hhj
          exact absurd (hhj.symm.trans hh) hne'
        · rw [Function.update_of_ne h2] at hhj ⊢
          have := hk0 j hj
          rw [hC0, Function.update_of_ne h2] at this
          exact this hhj
    split at hrun
    · cases hrun
    · next _ hnf hle =>
      obtain ⟨nb, hnb⟩ : ∃ c : WWin, c = { b with blk := { b.blk with entries := b.blk.entries.set b.blk.entryIdx.toNat e, entryIdx := b.blk.entryIdx + 1 },
                                                  dirty := true } := ⟨_, rfl⟩
      rw [← hnb] at hrun
      have h335 : entriesPerWindowBlock = 335 := rfl
      have hlt : b.blk.entryIdx.toNat < 335 := by omega
      have hsucc : (b.blk.entryIdx + 1).toNat = b.blk.entryIdx.toNat + 1 := by
        rw [UInt16.toNat_add]; simp only [UInt16.toNat_ofNat]; omega
      have hused : used nb.blk = used b.blk ++ [e] := by
        rw [hnb]
        show (b.blk.entries.set b.blk.entryIdx.toNat e).take (b.blk.entryIdx + 1).toNat = _
        rw [hsucc, take_set_succ _ _ _ (by omega)]
        rfl
      have hC : cur (w.setBlock wIdx nb) B = Function.update (cur w B) wIdx nb.blk := cur_setBlock _ _ _ _
      have hC0 : cur (w.setBlock wIdx b) B = Function.update (cur w B) wIdx b.blk := cur_setBlock _ _ _ _
      have hhash : nb.blk.topicHash = b.blk.topicHash := by rw [hnb]
      have hcutE : nb.blk.cutoffTime = b.blk.cutoffTime := by rw [hnb]
      have hhashes : ∀ k, (cur (w.setBlock wIdx nb) B k).topicHash = (cur (w.setBlock wIdx b) B k).topicHash ∧
          (cur (w.setBlock wIdx nb) B k).cutoffTime = (cur (w.setBlock wIdx b) B k).cutoffTime := by
        intro k
        rw [hC, hC0]
        by_cases h1 : k = wIdx
        · rw [h1, Function.update_self, Function.update_self]; exact ⟨hhash, hcutE⟩
        · rw [Function.update_of_ne h1, Function.update_of_ne h1]; exact ⟨rfl, rfl⟩
      have husedO : ∀ k, k ≠ wIdx → used (cur (w.setBlock wIdx nb) B k) = used (cur (w.setBlock wIdx b) B k) := by
        intro k h1
        rw [hC, hC0, Function.update_of_ne h1, Function.update_of_ne h1]
      have husedI : used (cur (w.setBlock wIdx nb) B wIdx) = used (cur (w.setBlock wIdx b) B wIdx) ++ [e] := by
        rw [hC, hC0, Function.update_self, Function.update_self, hused]
      have hself : (cur (w.setBlock wIdx b) B wIdx).topicHash = h := by rw [hC0, Function.update_self]; exact hh
      obtain ⟨r1, r2, r3, r4, r5⟩ := ih' hrun (hhash.trans hh) (by rw [hnb]; simpa using hlen) hidx hz (by
          intro k j hjk hck hhj x hx
          rw [(hhashes k).2] at hck ⊢
          rw [(hhashes k).1, (hhashes j).1] at hhj
          by_cases h1 : j = wIdx
          · subst h1
            exact absurd (hu k hjk (hhj.symm.trans hself)) hck
          · rw [husedO j h1] at hx
            exact hd k j hjk hck hhj x hx) (by
          intro j hj hhj
          rw [(hhashes j).1] at hhj
          rw [(hhashes j).2]
          exact hu j hj hhj) (by
          intro k x hx
          by_cases h1 : k = wIdx
          · subst h1
            rw [husedI, List.mem_append, List.mem_singleton] at hx
            rcases hx with hx | rfl
            · exact hb _ x hx
            · exact hT _ List.mem_cons_self
          · rw [husedO k h1] at hx; exact hb k x hx) (by
          intro k x hx hdx
          rw [winLookup_setBlock] at hx
          split at hx
          · cases hx; rw [hnb] at hdx; cases hdx
          · next h1 => exact hf k x (by rw [winLookup_setBlock, if_neg h1]; exact hx) hdx)
      refine ⟨r1, r2, r3, ?_, r5⟩
      intro h' hne' k hk0
      refine r4 h' hne' k ?_
      intro j hj hhj
      rw [(hhashes j).1] at hhj
      rw [(hhashes j).2]
      exact hk0 j hj hhj

/-- The writer, the offsets and the file agree on the times of the blocks. -/
structure Dates (T : UInt64 → Int) (s : WinState) (B : Nat → WinBlock) : Prop where
  dated : Dated T (cur s.w B)
  head : ∀ h, 0 < s.offs h → Undated (cur s.w B) h (s.offs h / 4096).toNat
  file : FileDates s.w B

theorem WAll.beyond {sf : Prop} {s : WinState} {led : List (UInt64 × List WinEntry)} {n : Nat} {B : Nat → WinBlock} {ks : UInt64 → List Nat}
    (a : WAll sf s led n B ks) {k : Nat} (hk : s.w.windowIdx < k) : s.w.blocks.lookup k = none ∧ cur s.w B k = .zero := by
  have hl : s.w.blocks.lookup k = none := by
    cases hl : s.w.blocks.lookup k with
    | none => rfl
    | some b => have := (a.inv.kept _ _ hl).1; omega
  have hlast := a.inv.last
  refine ⟨hl, ?_⟩
  simp only [cur, hl]
  exact a.inv.beyond k (by omega)

/-- The block the entries of topic `h` go to. -/
theorem openBlock_dated {sf : Prop} {T : UInt64 → Int} {s : WinState} {led : List (UInt64 × List WinEntry)} {n : Nat} {B : Nat → WinBlock}
    {ks : UInt64 → List Nat} (a : WAll sf s led n B ks) (d : Dates T s B) (h : UInt64) {w1 : WinWriter} {k1 : Nat} {b1 : WWin}
    (ho : s.w.openBlock s.file (s.offs h) = some (w1, k1, b1)) {b2 : WWin} (hb2 : b2 = { b1 with blk := { b1.blk with topicHash := h } }) :
    b2.blk.entries.length = entriesPerWindowBlock ∧ (k1 : Int) ≤ w1.windowIdx ∧ s.w.windowIdx ≤ w1.windowIdx ∧
    (∀ k : Nat, w1.windowIdx < k → cur w1 B k = .zero) ∧
    Dated T (cur (w1.setBlock k1 b2) B) ∧ Undated (cur (w1.setBlock k1 b2) B) h k1 ∧ FileDates (w1.setBlock k1 b2) B ∧
    (∀ k, ∀ e ∈ used (cur (w1.setBlock k1 b2) B k), e ∈ used (cur s.w B k)) ∧
    (∀ h', h' ≠ h → ∀ k, Undated (cur s.w B) h' k → Undated (cur (w1.setBlock k1 b2) B) h' k) := by
  have hlast := a.inv.last
  have hoff := a.offs h
  rw [WinWriter.openBlock] at ho
  by_cases h0 : s.offs h = 0
  · rw [h0] at ho
    simp only [lt_irrefl, if_false, if_true] at ho
    obtain ⟨k, hk⟩ : ∃ k : Nat, (k : Int) = s.w.windowIdx + 1 := ⟨(s.w.windowIdx + 1).toNat, by omega⟩
    have hk' : (s.w.windowIdx + 1).toNat = k := by omega
    rw [hk'] at ho
    have hbk := a.beyond (k := k) (by omega)
    rw [hbk.1] at ho
    simp only [false_and, if_false, Option.some.injEq, Prod.mk.injEq] at ho
    obtain ⟨rfl, rfl, rfl⟩ := ho
    have hC : cur (WinWriter.setBlock { s.w with windowIdx := s.w.windowIdx + 1 } k b2) B = Function.update (cur s.w B) k b2.blk := by
      rw [cur_setBlock]; rfl
    have hu2 : used b2.blk = [] := by rw [hb2]; rfl
    have hc2 : b2.blk.cutoffTime = 0 := by rw [hb2]; rfl
    have hh2 : b2.blk.topicHash = h := by rw [hb2]
    refine ⟨by rw [hb2]; simp [WinBlock.zero], by show (k : Int) ≤ s.w.windowIdx + 1; omega, by show s.w.windowIdx ≤ s.w.windowIdx + 1; omega, ?_, ?_, ?_, ?_, ?_, ?_⟩
    · intro j hj
      have hj' : s.w.windowIdx + 1 < j := hj
      exact (a.beyond (k := j) (by omega)).2
    · rw [hC]
      intro i j hji hci hhj x hx
      by_cases h1 : i = k
      · rw [h1, Function.update_self, hc2] at hci; exact absurd rfl hci
      · by_cases h2 : j = k
        · rw [h2, Function.update_self, hu2] at hx; cases hx
        · rw [Function.update_of_ne h1] at hci hhj ⊢
          rw [Function.update_of_ne h2] at hhj hx
          exact d.dated i j hji hci hhj x hx
    · rw [hC]
      intro j hj _
      by_cases h1 : j = k
      · rw [h1, Function.update_self, hc2]
      · rw [Function.update_of_ne h1, (a.beyond (k := j) (by omega)).2]; rfl
    · intro j b hl hd
      rw [winLookup_setBlock] at hl
      split at hl
      · next h1 =>
        cases hl
        left
        rw [h1, a.inv.beyond k (by omega)]; rfl
      · exact d.file j b hl hd
    · rw [hC]
      intro j e he
      by_cases h1 : j = k
      · rw [h1, Function.update_self, hu2] at he; cases he
      · rwa [Function.update_of_ne h1] at he
    · rw [hC]
      intro h' hne' k0 hk0 j hj hhj
      by_cases h1 : j = k
      · rw [h1, Function.update_self, hc2]
      · rw [Function.update_of_ne h1] at hhj ⊢
        exact hk0 j hj hhj
  · cases hks : ks h with
    | nil => rw [hks] at hoff; exact absurd hoff h0
    | cons k r =>
      rw [hks] at hoff
      simp only [headOff] at hoff
      have hmem : k ∈ ks h := by rw [hks]; simp
      have hbk := a.inv.bounds hmem
      have hpos : 0 < s.offs h := by omega
      have hdiv : (s.offs h / 4096).toNat = k := by omega
      have hhash : (cur s.w B k).topicHash = h := ((a.inv.chain h).mem k hmem).1
      rw [if_neg (by omega), if_neg h0] at ho
      simp only [hdiv] at ho
      have hkey : w1 = s.w ∧ k1 = k ∧ b2.blk = cur s.w B k ∧ (∀ j b, (s.w.setBlock k b2).blocks.lookup j = some b → b.dirty = false →
          (B j).cutoffTime = 0 ∨ (B j).cutoffTime = b.blk.cutoffTime) := by
        cases hl : s.w.blocks.lookup k with
        | some b =>
          rw [hl] at ho
          simp only [Option.some.injEq, Prod.mk.injEq] at ho
          obtain ⟨rfl, rfl, rfl⟩ := ho
          have hc : cur s.w B k = b.blk := by simp [cur, hl]
          have hbb : b2 = b := by
            rw [hb2]
            rw [hc] at hhash
            cases b with
            | mk blk dirty leased =>
              cases blk
              simp only at hhash
              simp [hhash]
          refine ⟨rfl, rfl, by rw [hbb, hc], ?_⟩
          intro j b' hl' hd'
          rw [winLookup_setBlock] at hl'
          split at hl'
          · next h1 =>
            cases hl'
            rw [hbb] at hd' ⊢
            subst h1
            exact d.file _ b hl hd'
          · exact d.file j b' hl' hd'
        | none =>
          rw [hl] at ho
          have hkn : k < n := by
            rcases a.inv.known h k hmem with h1 | ⟨b, h1⟩
            · exact h1
            · rw [hl] at h1; cases h1
          have hrd := a.inv.read hkn
          simp only at ho
          rw [if_pos ⟨hpos, hbk.1⟩, hoff, hrd] at ho
          simp only [Option.map_some, Option.some.injEq, Prod.mk.injEq] at ho
          obtain ⟨rfl, rfl, rfl⟩ := ho
          have hc : cur s.w B k = B k := by simp [cur, hl]
          have hbb : b2.blk = B k := by
            rw [hb2]
            rw [hc] at hhash
            cases hB : B k with
            | mk x1 x2 x3 x4 x5 =>
              rw [hB] at hhash
              simp only at hhash
              simp [hhash]
          refine ⟨rfl, rfl, by rw [hbb, hc], ?_⟩
          intro j b' hl' hd'
          rw [winLookup_setBlock] at hl'
          split at hl'
          · next h1 =>
            cases hl'
            right
            rw [h1, hbb]
          · exact d.file j b' hl' hd'
      obtain ⟨rfl, rfl, hblk, hfd⟩ := hkey
      have hC : cur (s.w.setBlock k1 b2) B = cur s.w B := by
        rw [cur_setBlock, hblk, Function.update_eq_self]
      rw [hC]
      have hlen : (cur s.w B k1).entries.length = entriesPerWindowBlock := by
        unfold cur
        cases hl : s.w.blocks.lookup k1 with
        | none => exact (a.inv.good k1).1
        | some b => exact (a.inv.kept _ _ hl).2.2.1.1
      refine ⟨by rw [hblk]; exact hlen, hbk.1, Int.le_refl _, fun j hj => (a.beyond hj).2, d.dated, ?_, hfd, fun _ _ h => h, fun _ _ _ h => h⟩
      have := d.head h hpos
      rwa [hdiv] at this

theorem append_dated {sf : Prop} {T : UInt64 → Int} {s : WinState} {led : List (UInt64 × List WinEntry)} {n : Nat} {B : Nat → WinBlock}
    {ks : UInt64 → List Nat} (a : WAll sf s led n B ks) (d : Dates T s B) {now : Int64} {h : UInt64} {es : List WinEntry}
    (hT : ∀ e ∈ es, T e.seq ≤ now.toInt) (hold : ∀ p ∈ led, ∀ e ∈ p.2, T e.seq ≤ now.toInt) {w' : WinWriter} {off' : Int}
    (ha : s.w.append s.file now h (s.offs h) es = some (w', off')) (hb : w'.windowIdx ≤ 524286) :
    Dates T { s with w := w', offs := Function.update s.offs h off' } B := by
  simp only [WinWriter.append, Option.bind_eq_bind, Option.bind_eq_some_iff] at ha
  obtain ⟨⟨w1, k1, b1⟩, h1, ⟨w2, k2, b2⟩, h2, h3⟩ := ha
  simp only [Option.pure_def, Option.some.injEq, Prod.mk.injEq] at h3
  obtain ⟨rfl, rfl⟩ := h3
  dsimp only at h2
  obtain ⟨o1, o2, o3, o4, o5, o6, o7, o8, o9⟩ := openBlock_dated a d h h1 rfl
  have hbnd : ∀ k, ∀ e ∈ used (cur s.w B k), T e.seq ≤ now.toInt := by
    intro k e he
    have := a.member k e he
    simp only [syncedFor, List.mem_flatMap, List.mem_filter] at this
    obtain ⟨p, ⟨hp, _⟩, hpe⟩ := this
    exact hold p hp e hpe
  obtain ⟨r1, r2, r3, r4, hle⟩ := addWin_dated now es hT h2 rfl o1 o2 o4 o5 o6 (fun k e he => hbnd k e (o8 k e he)) o7
  have hb2 : w2.windowIdx ≤ 524286 := hb
  have hk2 : k2 ≤ 524286 := by omega
  refine ⟨r1, ?_, r3⟩
  intro h' hpos
  by_cases hh : h' = h
  · subst hh
    have hpos' : 0 < winOff k2 := by simpa using hpos
    show Undated _ _ (Function.update s.offs h' (winOff k2) h' / 4096).toNat
    rw [Function.update_self, winOff_eq k2 (by omega)]
    have : (4096 * (k2 : Int) / 4096).toNat = k2 := by omega
    rw [this]
    exact r2
  · have hpos' : 0 < s.offs h' := by
      have : Function.update s.offs h (winOff k2) h' = s.offs h' := Function.update_of_ne hh _ _
      rw [← this]; exact hpos
    show Undated _ _ (Function.update s.offs h (winOff k2) h' / 4096).toNat
    rw [Function.update_of_ne hh]
    exact r4 h' hh _ (o9 h' hh _ (d.head h' hpos'))

/-- The blocks on file. -/
def fileBlocks (file : Bytes) (k : Nat) : WinBlock := (readWindowBlock file (4096 * k)).getD .zero

theorem readWindowBlock_beyond {file : Bytes} {n : Nat} (hlen : file.length = 4096 * n) {k : Nat} (hk : n ≤ k) : readWindowBlock file (4096 * k) = none := by
  have h2 : ((4096 * (k : Int)).toNat) = 4096 * k := by omega
  rw [readWindowBlock, readAt, if_pos (by omega), h2]
  show (slice? file (4096 * k) (4096 * k + 4096)).bind _ = _
  rw [slice?, if_neg (by omega)]
  rfl

/-- The blocks of the invariant are those on file. -/
theorem WInv.blocks {file : Bytes} {w : WinWriter} {n : Nat} {B : Nat → WinBlock} {ks : UInt64 → List Nat} (i : WInv file w n B ks) : B = fileBlocks file := by
  funext k
  by_cases hk : k < n
  · rw [fileBlocks, i.read hk]; rfl
  · rw [fileBlocks, readWindowBlock_beyond i.file.len (by omega), i.beyond k (by omega)]; rfl

theorem appendAll_dated {sf : Prop} {T : UInt64 → Int} {n : Nat} {B : Nat → WinBlock} {now : Int64} (hnow : 0 ≤ now.toInt)
    (batch : List (UInt64 × List WinEntry)) (hb : ∀ p ∈ batch, p.2 ≠ [] ∧ ∀ e ∈ p.2, e.seq ≠ 0) (hT : ∀ p ∈ batch, ∀ e ∈ p.2, T e.seq ≤ now.toInt) :
    ∀ {s s' : WinState} {led : List (UInt64 × List WinEntry)} {ks : UInt64 → List Nat}, WAll sf s led n B ks → Dates T s B →
    (∀ p ∈ led, ∀ e ∈ p.2, T e.seq ≤ now.toInt) → s.appendAll now batch = some s' → s'.w.windowIdx ≤ 524286 → Dates T s' B := by
  induction batch with
  | nil => intro s s' led ks a d _ h _; cases h; exact d
  | cons p rest ih =>
    intro s s' led ks a d hold h hbd
    obtain ⟨hash, es⟩ := p
    rw [WinState.appendAll] at h
    split at h
    · cases h
    · next w off ha =>
      have h2 := winAppendAll_mono now rest h
      obtain ⟨h3, h4⟩ := hb (hash, es) (by simp)
      have hes := hT (hash, es) (by simp)
      obtain ⟨ks1, a1⟩ := append_spec a hnow hash h3 h4 ha (Int.le_trans h2 hbd)
      have d1 := append_dated a d hes hold ha (Int.le_trans h2 hbd)
      refine ih (fun q hq => hb q (List.mem_cons_of_mem _ hq)) (fun q hq => hT q (List.mem_cons_of_mem _ hq)) a1 d1 ?_ h hbd
      intro q hq
      rcases List.mem_append.1 hq with hq | hq
      · exact hold q hq
      · rw [List.mem_singleton] at hq; subst hq; exact hes

/-- The times after a sync of one time block. -/
theorem WinOK.round_dated {T : UInt64 → Int} {s s' : WinState} {led batch : List (UInt64 × List WinEntry)} (H : WinOK s led)
    (d : Dates T s (fileBlocks s.file)) {now : Int64} (hnow : 0 ≤ now.toInt) (hb : ∀ p ∈ batch, p.2 ≠ [] ∧ ∀ e ∈ p.2, e.seq ≠ 0)
    (hT : ∀ p ∈ led ++ batch, ∀ e ∈ p.2, T e.seq ≤ now.toInt) (hr : s.round now batch = some s') (hbd : s'.w.windowIdx ≤ 524286) :
    Dates T s' (fileBlocks s'.file) := by
  obtain ⟨n, B, ks, a, hc⟩ := H
  rw [← a.inv.blocks] at d
  simp only [WinState.round, Option.bind_eq_bind, Option.bind_eq_some_iff] at hr
  obtain ⟨s1, h1, ⟨f2, w2⟩, h2, h3⟩ := hr
  simp only [Option.pure_def, Option.some.injEq] at h3
  subst h3
  have hwi : w2.windowIdx = s1.w.windowIdx := by
    simp only [WinWriter.write, Option.bind_eq_bind, Option.bind_eq_some_iff] at h2
    obtain ⟨_, _, h2⟩ := h2
    simp only [Option.pure_def, Option.some.injEq, Prod.mk.injEq] at h2
    rw [← h2.2]
  dsimp only at hbd
  obtain ⟨ks1, a1⟩ := winAppendAll_spec hnow batch hb a h1 (by omega)
  have d1 := appendAll_dated hnow batch hb (fun p hp => hT p (List.mem_append_right _ hp)) a d (fun p hp => hT p (List.mem_append_left _ hp)) h1 (by omega)
  obtain ⟨f3, w3, n3, B3, e3, i3, hcur, hcl, hw3, hn3, hn4, hB3⟩ := winWrite_full a1.inv
  have h2' := h2
  rw [e3] at h2
  simp only [Option.some.injEq, Prod.mk.injEq] at h2
  obtain ⟨rfl, rfl⟩ := h2
  rw [← i3.blocks]
  refine ⟨?_, ?_, ?_⟩
  · show Dated T (cur w3 B3)
    rw [hcur]; exact d1.dated
  · intro h hpos
    show Undated (cur w3 B3) h _
    rw [hcur]; exact d1.head h hpos
  · show FileDates w3 B3
    intro k b hk _
    have hw : w3 = { s1.w with blocks := s1.w.blocks.map fun p => (p.1, { p.2 with dirty := false }) } := by
      simp only [WinWriter.write, Option.bind_eq_bind, Option.bind_eq_some_iff] at h2'
      obtain ⟨_, _, h2'⟩ := h2'
      simp only [Option.pure_def, Option.some.injEq, Prod.mk.injEq] at h2'
      exact h2'.2.symm
    rw [hw] at hk
    simp only at hk
    rw [winLookup_clean, Option.map_eq_some_iff] at hk
    obtain ⟨b0, hb0, rfl⟩ := hk
    rcases hB3 k with h4 | ⟨h4, h5⟩
    · right
      rw [h4]; simp only [cur, hb0]
    · rw [h4]
      exact d1.file k b0 hb0 (h5 b0 hb0)

/-- A new writer knows only what is on file. -/
theorem WinOK.start_dated {T : UInt64 → Int} {s : WinState} {led : List (UInt64 × List WinEntry)} (H : WinOK s led)
    (d : Dates T s (fileBlocks s.file)) : Dates T { s with w := newWindowWriter s.file } (fileBlocks s.file) := by
  obtain ⟨n, B, ks, a, hc⟩ := H
  rw [← a.inv.blocks] at d ⊢
  have hcur : cur (newWindowWriter s.file) B = B := by funext k; simp [cur, newWindowWriter]
  have hk : ∀ k, (B k).topicHash = (cur s.w B k).topicHash ∧ used (B k) = used (cur s.w B k) ∧
      ((B k).cutoffTime = 0 ∨ (B k).cutoffTime = (cur s.w B k).cutoffTime) := by
    intro k
    unfold cur
    cases hl : s.w.blocks.lookup k with
    | none => exact ⟨rfl, rfl, .inr rfl⟩
    | some b =>
      have h1 := ((a.inv.kept k b hl).2.2.2 (hc k b hl)).1
      simp only [core, WinBlock.mk.injEq] at h1
      refine ⟨h1.1.symm, ?_, d.file k b hl (hc k b hl)⟩
      simp only [used, h1.2.1, h1.2.2.2.2]
  refine ⟨?_, ?_, ?_⟩
  · show Dated T (cur (newWindowWriter s.file) B)
    rw [hcur]
    intro k j hjk hck hhj e he
    rw [(hk k).1, (hk j).1] at hhj
    rw [(hk j).2.1] at he
    rcases (hk k).2.2 with h1 | h1
    · exact absurd h1 hck
    · rw [h1] at hck ⊢
      exact d.dated k j hjk hck hhj e he
  · intro h hpos
    show Undated (cur (newWindowWriter s.file) B) h _
    rw [hcur]
    intro j hj hhj
    rw [(hk j).1] at hhj
    have := d.head h hpos j hj hhj
    rcases (hk j).2.2 with h1 | h1
    · exact h1
    · rw [h1, this]
  · intro k b hl
    simp [newWindowWriter] at hl

/-- Nothing is dated in an empty file. -/
theorem dates_fresh (T : UInt64 → Int) (offs : UInt64 → Int) : Dates T ⟨[], offs, newWindowWriter []⟩ (fileBlocks []) := by
  have hB : fileBlocks [] = fun _ => WinBlock.zero := by
    funext k
    rw [fileBlocks, readWindowBlock_beyond (n := 0) rfl (Nat.zero_le _)]; rfl
  have hcur : cur (newWindowWriter []) (fileBlocks []) = fun _ => WinBlock.zero := by funext k; simp [cur, newWindowWriter, hB]
  refine ⟨?_, ?_, ?_⟩
  · show Dated T (cur (newWindowWriter []) (fileBlocks []))
    rw [hcur]
    intro k j _ hc
    exact absurd rfl hc
  · intro h _
    show Undated (cur (newWindowWriter []) (fileBlocks [])) h _
    rw [hcur]
    intro j _ _
    rfl
  · intro k b hl
    simp [newWindowWriter] at hl

end Verif
