import Verif.Model.WindowWriter

/-!
# What the window file holds after every sync
-/

namespace Verif

/-- The blocks as they are or will be on file: those kept by the writer, and the others from the file. -/
def cur (w : WinWriter) (B : Nat → WinBlock) (k : Nat) : WinBlock :=
  match w.blocks.lookup k with
  | some b => b.blk
  | none => B k

/-- The entries used in a block. -/
def used (b : WinBlock) : List WinEntry := b.entries.take b.entryIdx.toNat

/-- The blocks `ks` are the chain of topic `h`, newest first. -/
def IsChain (C : Nat → WinBlock) (h : UInt64) : List Nat → Prop
  | [] => True
  | [k] => (C k).topicHash = h ∧ (C k).entryIdx.toNat ≤ 335 ∧ (C k).next = 0
  | k :: j :: r => (C k).topicHash = h ∧ 1 ≤ (C k).entryIdx.toNat ∧ (C k).entryIdx.toNat ≤ 335 ∧
      (C k).next = Int64.ofInt (4096 * j) ∧ 0 < j ∧ j < k ∧ (C j).entryIdx.toNat = 335 ∧ IsChain C h (j :: r)

/-- The entries of a chain, oldest first. -/
def content (C : Nat → WinBlock) (ks : List Nat) : List WinEntry := ks.reverse.flatMap fun k => used (C k)

/-- A block without its cutoff time. -/
def core (b : WinBlock) : WinBlock := { b with cutoffTime := 0 }

/-- What every block satisfies. -/
def BlockOK (b : WinBlock) : Prop :=
  b.entries.length = entriesPerWindowBlock ∧ 0 ≤ b.cutoffTime.toInt ∧ b.entryIdx.toNat ≤ 335

structure WInv (file : Bytes) (w : WinWriter) (n : Nat) (B : Nat → WinBlock) (ks : UInt64 → List Nat) : Prop where
  file : BFile file n fun k => (B k).marshal
  beyond : ∀ k, n ≤ k → B k = .zero
  good : ∀ k, BlockOK (B k)
  bound : n ≤ 524287
  keys : (w.blocks.map (·.1)).Nodup
  last : (n : Int) ≤ w.windowIdx + 1
  kept : ∀ k b, w.blocks.lookup k = some b → (k : Int) ≤ w.windowIdx ∧ k ≤ 524286 ∧ BlockOK b.blk ∧
    (b.dirty = false → core b.blk = core (B k) ∧ k < n)
  chain : ∀ h, IsChain (cur w B) h (ks h)
  known : ∀ h, ∀ k ∈ ks h, k < n ∨ ∃ b, w.blocks.lookup k = some b

theorem IsChain.tail {C : Nat → WinBlock} {h : UInt64} {k : Nat} {r : List Nat} (c : IsChain C h (k :: r)) : IsChain C h r := by
  cases r with
  | nil => trivial
  | cons j r => exact c.2.2.2.2.2.2.2

theorem IsChain.head {C : Nat → WinBlock} {h : UInt64} {k : Nat} {r : List Nat} (c : IsChain C h (k :: r)) :
    (C k).topicHash = h ∧ (C k).entryIdx.toNat ≤ 335 := by
  cases r with
  | nil => exact ⟨c.1, c.2.1⟩
  | cons j r => exact ⟨c.1, c.2.2.1⟩

theorem IsChain.mem {C : Nat → WinBlock} {h : UInt64} {ks : List Nat} (c : IsChain C h ks) : ∀ k ∈ ks,
    (C k).topicHash = h ∧ (C k).entryIdx.toNat ≤ 335 := by
  induction ks with
  | nil => intro k hk; simp at hk
  | cons a r ih =>
    intro k hk
    rcases List.mem_cons.1 hk with rfl | hk
    · exact c.head
    · exact ih c.tail k hk

theorem IsChain.lt {C : Nat → WinBlock} {h : UInt64} {k : Nat} {r : List Nat} (c : IsChain C h (k :: r)) : ∀ j ∈ r, 0 < j ∧ j < k := by
  induction r generalizing k with
  | nil => intro j hj; simp at hj
  | cons a r ih =>
    intro j hj
    have ha : 0 < a ∧ a < k := ⟨c.2.2.2.2.1, c.2.2.2.2.2.1⟩
    rcases List.mem_cons.1 hj with rfl | hj
    · exact ha
    · have := ih c.tail j hj; omega

/-- A chain only depends on its blocks, without their cutoff times. -/
theorem IsChain.congr {C C' : Nat → WinBlock} {h : UInt64} {ks : List Nat} (c : IsChain C h ks)
    (e : ∀ k ∈ ks, core (C' k) = core (C k)) : IsChain C' h ks := by
  have f : ∀ k ∈ ks, (C' k).topicHash = (C k).topicHash ∧ (C' k).entryIdx = (C k).entryIdx ∧ (C' k).next = (C k).next := by
    intro k hk
    have := e k hk
    simp only [core, WinBlock.mk.injEq] at this
    exact ⟨this.1, this.2.2.2.2, this.2.2.1⟩
  induction ks with
  | nil => trivial
  | cons k r ih =>
    obtain ⟨h1, h2, h3⟩ := f k (by simp)
    have ih := ih c.tail (fun j hj => e j (List.mem_cons_of_mem _ hj)) (fun j hj => f j (List.mem_cons_of_mem _ hj))
    cases r with
    | nil => exact ⟨by rw [h1]; exact c.1, by rw [h2]; exact c.2.1, by rw [h3]; exact c.2.2⟩
    | cons j r =>
      obtain ⟨c1, c2, c3, c4, c5, c6, c7, _⟩ := c
      exact ⟨by rw [h1]; exact c1, by rw [h2]; exact c2, by rw [h2]; exact c3, by rw [h3]; exact c4, c5, c6,
        by rw [(f j (by simp)).2.1]; exact c7, ih⟩

theorem content_congr {C C' : Nat → WinBlock} {ks : List Nat} (e : ∀ k ∈ ks, core (C' k) = core (C k)) : content C' ks = content C ks := by
  apply List.flatMap_congr
  intro k hk
  have := e k (List.mem_reverse.1 hk)
  simp only [core, WinBlock.mk.injEq] at this
  simp only [used, this.2.1, this.2.2.2.2]

theorem cur_setBlock (w : WinWriter) (B : Nat → WinBlock) (k : Nat) (b : WWin) :
    cur (w.setBlock k b) B = Function.update (cur w B) k b.blk := by
  funext j
  simp only [cur, winLookup_setBlock]
  by_cases h : j = k
  · subst h; simp
  · simp only [if_neg h, Function.update_of_ne h]; rfl

theorem blockOK_zero : BlockOK .zero := ⟨by simp [WinBlock.zero], by decide, by decide⟩

/-- The state while the entries of topic `h` are added: block `wIdx` is the newest of its chain. -/
structure Adding (file : Bytes) (w : WinWriter) (wIdx : Nat) (b : WWin) (n : Nat) (B : Nat → WinBlock) (ks : UInt64 → List Nat)
    (h : UInt64) : Prop where
  inv : WInv file (w.setBlock wIdx { b with dirty := true }) n B ks
  head : ∃ r, ks h = wIdx :: r
  clean : b.dirty = false → (core b.blk = core (B wIdx) ∧ wIdx < n) ∨ b.blk.entryIdx.toNat = 0

theorem WInv.other {file : Bytes} {w : WinWriter} {n : Nat} {B : Nat → WinBlock} {ks : UInt64 → List Nat} (i : WInv file w n B ks)
    {h h' : UInt64} {k : Nat} (hk : k ∈ ks h) (hne : h' ≠ h) : k ∉ ks h' := fun hk' =>
  hne (((i.chain h').mem k hk').1.symm.trans ((i.chain h).mem k hk).1)

theorem WInv.bounds {file : Bytes} {w : WinWriter} {n : Nat} {B : Nat → WinBlock} {ks : UInt64 → List Nat} (i : WInv file w n B ks)
    {h : UInt64} {k : Nat} (hk : k ∈ ks h) : (k : Int) ≤ w.windowIdx ∧ k ≤ 524286 := by
  have h1 := i.last
  have h2 := i.bound
  rcases i.known h k hk with h3 | ⟨b, h3⟩
  · omega
  · have := i.kept k b h3; exact ⟨this.1, this.2.1⟩

/-- Replacing the newest block of topic `h` by one of the same topic and successor. -/
theorem WInv.replace {file : Bytes} {w : WinWriter} {n : Nat} {B : Nat → WinBlock} {ks : UInt64 → List Nat} (i : WInv file w n B ks)
    {h : UInt64} {k : Nat} {r : List Nat} (hk : ks h = k :: r) {b : WWin} (hd : b.dirty = false → core b.blk = core (B k) ∧ k < n)
    (h1 : b.blk.topicHash = h) (h2 : b.blk.next = (cur w B k).next) (h3 : b.blk.entryIdx.toNat ≤ 335) (h4 : r ≠ [] → 1 ≤ b.blk.entryIdx.toNat)
    (h5 : BlockOK b.blk) : WInv file (w.setBlock k b) n B ks := by
  have hmem : k ∈ ks h := by rw [hk]; simp
  refine ⟨i.file, i.beyond, i.good, i.bound, winKeys_setBlock _ _ _ i.keys, i.last, ?_, ?_, ?_⟩
  · intro j c hj
    rw [winLookup_setBlock] at hj
    split at hj
    · next hjk =>
      subst hjk; cases hj
      exact ⟨(i.bounds hmem).1, (i.bounds hmem).2, h5, hd⟩
    · exact i.kept j c hj
  · intro h'
    rw [cur_setBlock]
    by_cases he : h' = h
    · subst he
      have c := i.chain h'
      rw [hk] at c ⊢
      have ct : IsChain (Function.update (cur w B) k b.blk) h' r := by
        refine c.tail.congr fun j hj => ?_
        have := c.lt j hj
        rw [Function.update_of_ne (by omega)]
      cases r with
      | nil =>
        refine ⟨by simpa using h1, by simpa using h3, ?_⟩
        rw [Function.update_self, h2]; exact c.2.2
      | cons j r =>
        obtain ⟨c1, c2, c3, c4, c5, c6, c7, _⟩ := c
        refine ⟨by simpa using h1, ?_, ?_, ?_, c5, c6, by rw [Function.update_of_ne (by omega)]; exact c7, ct⟩
        · rw [Function.update_self]; exact h4 (by simp)
        · rw [Function.update_self]; exact h3
        · rw [Function.update_self, h2]; exact c4
    · refine (i.chain h').congr fun j hj => ?_
      have : j ≠ k := fun hc => i.other hmem he (hc ▸ hj)
      rw [Function.update_of_ne this]
  · intro h' j hj
    rcases i.known h' j hj with h6 | ⟨c, h6⟩
    · exact .inl h6
    · right
      rw [winLookup_setBlock]
      split
      · exact ⟨_, rfl⟩
      · exact ⟨c, h6⟩

/-- The offset of the newest block of a chain. -/
def nextOf : List Nat → Int64
  | [] => 0
  | j :: _ => Int64.ofInt (4096 * j)

/-- A new block for topic `h`, number one past the last; the chain continues with `r`. -/
theorem WInv.new {file : Bytes} {w : WinWriter} {n : Nat} {B : Nat → WinBlock} {ks : UInt64 → List Nat} (i : WInv file w n B ks)
    {h : UInt64} {r : List Nat} (hr : r = [] ∨ (r = ks h ∧ r ≠ [] ∧ 0 ∉ r))
    (hfull : ∀ j r', r = j :: r' → (cur w B j).entryIdx.toNat = 335) {b : WWin}
    (hw : -1 ≤ w.windowIdx) (hb : w.windowIdx + 1 ≤ 524286)
    (hd : b.dirty = true) (h1 : b.blk.topicHash = h)
    (h2 : b.blk.next = nextOf r) (h3 : b.blk.entryIdx.toNat ≤ 335) (h4 : r ≠ [] → 1 ≤ b.blk.entryIdx.toNat) (h5 : BlockOK b.blk) :
    WInv file (({ w with windowIdx := w.windowIdx + 1 } : WinWriter).setBlock (w.windowIdx + 1).toNat b) n B
      (Function.update ks h ((w.windowIdx + 1).toNat :: r)) := by
  have hcur : cur ({ w with windowIdx := w.windowIdx + 1 } : WinWriter) B = cur w B := rfl
  have hnot : ∀ h', (w.windowIdx + 1).toNat ∉ ks h' := by
    intro h' hc
    have := (i.bounds hc).1
    omega
  refine ⟨i.file, i.beyond, i.good, i.bound, winKeys_setBlock _ _ _ i.keys, ?_, ?_, ?_, ?_⟩
  · have := i.last
    show (n : Int) ≤ w.windowIdx + 1 + 1
    omega
  · intro j c hj
    rw [winLookup_setBlock] at hj
    split at hj
    · next hjk =>
      subst hjk; cases hj
      refine ⟨?_, by omega, h5, by simp [hd]⟩
      show (((w.windowIdx + 1).toNat : Nat) : Int) ≤ w.windowIdx + 1
      omega
    · have := i.kept j c hj
      refine ⟨?_, this.2⟩
      show (j : Int) ≤ w.windowIdx + 1
      omega
  · intro h'
    rw [cur_setBlock, hcur]
    by_cases he : h' = h
    · subst he
      rw [Function.update_self]
      have ct : IsChain (Function.update (cur w B) (w.windowIdx + 1).toNat b.blk) h' r := by
        rcases hr with rfl | ⟨rfl, _, _⟩
        · trivial
        · refine (i.chain h').congr fun j hj => ?_
          have : j ≠ (w.windowIdx + 1).toNat := fun hc => hnot h' (hc ▸ hj)
          rw [Function.update_of_ne this]
      cases r with
      | nil => exact ⟨by simpa using h1, by simpa using h3, by rw [Function.update_self]; exact h2⟩
      | cons j r =>
        rcases hr with hr | ⟨hr, _, h0⟩
        · simp at hr
        have hj : j ∈ ks h' := by rw [← hr]; simp
        have := (i.bounds hj).1
        refine ⟨by simpa using h1, ?_, ?_, ?_, ?_, by omega, ?_, ct⟩
        rotate_left 4
        · rw [Function.update_of_ne (by omega)]; exact hfull j r rfl
        · rw [Function.update_self]; exact h4 (by simp)
        · rw [Function.update_self]; exact h3
        · rw [Function.update_self]; exact h2
        · rcases Nat.eq_zero_or_pos j with rfl | hp
          · simp at h0
          · exact hp
    · rw [Function.update_of_ne he]
      refine (i.chain h').congr fun j hj => ?_
      have : j ≠ (w.windowIdx + 1).toNat := fun hc => hnot h' (hc ▸ hj)
      rw [Function.update_of_ne this]
  · intro h' j hj
    rw [winLookup_setBlock]
    by_cases hjk : j = (w.windowIdx + 1).toNat
    · rw [if_pos hjk]; exact .inr ⟨_, rfl⟩
    · rw [if_neg hjk]
      have : j ∈ ks h' := by
        by_cases he : h' = h
        · subst he
          rw [Function.update_self, List.mem_cons] at hj
          rcases hj with hj | hj
          · exact absurd hj hjk
          · rcases hr with rfl | ⟨hr, _, _⟩
            · simp at hj
            · rw [← hr]; exact hj
        · rwa [Function.update_of_ne he] at hj
      exact i.known h' j this

theorem setBlock_setBlock (w : WinWriter) (k : Nat) (b c : WWin) : (w.setBlock k b).setBlock k c = w.setBlock k c := by
  simp only [WinWriter.setBlock]
  congr 2
  rw [List.filter_cons_of_neg (by simp), List.filter_filter]
  simp

theorem content_cons (C : Nat → WinBlock) (k : Nat) (r : List Nat) : content C (k :: r) = content C r ++ used (C k) := by
  simp [content]

theorem content_update_not_mem (C : Nat → WinBlock) (k : Nat) (b : WinBlock) {ks : List Nat} (h : k ∉ ks) :
    content (Function.update C k b) ks = content C ks := by
  apply content_congr
  intro j hj
  have : j ≠ k := fun hc => h (hc ▸ hj)
  rw [Function.update_of_ne this]

theorem take_set_succ {α : Type} (l : List α) (i : Nat) (e : α) (h : i < l.length) : (l.set i e).take (i + 1) = l.take i ++ [e] := by
  rw [List.take_add_one, List.take_set_of_le (Nat.le_refl i), List.getElem?_set_self h]
  rfl

theorem addWin_mono (now : Int64) (es : List WinEntry) : ∀ {w : WinWriter} {wIdx : Nat} {b : WWin} {r : WinWriter × Nat × WWin},
    addWin now es w wIdx b = some r → w.windowIdx ≤ r.1.windowIdx := by
  induction es with
  | nil => intro w wIdx b r h; cases h; exact Int.le_refl _
  | cons e es ih =>
    intro w wIdx b r h
    rw [addWin] at h
    split at h
    · exact ih h
    · split at h
      · have := ih h
        simp only [WinWriter.setBlock] at this
        omega
      · split at h
        · cases h
        · exact ih h

theorem addWin_total (now : Int64) (es : List WinEntry) : ∀ (w : WinWriter) (wIdx : Nat) (b : WWin), b.blk.entryIdx.toNat ≤ 335 →
    ∃ r, addWin now es w wIdx b = some r := by
  induction es with
  | nil => intro w wIdx b _; exact ⟨_, rfl⟩
  | cons e es ih =>
    intro w wIdx b h
    rw [addWin]
    split
    · exact ih _ _ _ h
    · split
      · exact ih _ _ _ (by show UInt16.toNat 1 ≤ 335; decide)
      · next h1 =>
        have h335 : entriesPerWindowBlock = 335 := rfl
        rw [if_neg (by omega)]
        refine ih _ _ _ ?_
        show (b.blk.entryIdx + 1).toNat ≤ 335
        rw [UInt16.toNat_add]
        have : (1 : UInt16).toNat = 1 := rfl
        omega

/-- Every block in use is in the chain of its topic, except for topics in `P`. -/
def Owned (C : Nat → WinBlock) (ks : UInt64 → List Nat) (P : UInt64 → Prop) : Prop :=
  ∀ k, 1 ≤ (C k).entryIdx.toNat → k ∈ ks (C k).topicHash ∨ P (C k).topicHash

theorem addWin_spec {file : Bytes} {n : Nat} {B : Nat → WinBlock} {h : UInt64} (now : Int64) (hnow : 0 ≤ now.toInt)
    (es : List WinEntry) (hes : ∀ e ∈ es, e.seq ≠ 0) :
    ∀ {w : WinWriter} {wIdx : Nat} {b : WWin} {ks : UInt64 → List Nat}, Adding file w wIdx b n B ks h →
    ∀ {w' : WinWriter} {wIdx' : Nat} {b' : WWin}, addWin now es w wIdx b = some (w', wIdx', b') → w'.windowIdx ≤ 524286 →
    ∃ ks', Adding file w' wIdx' b' n B ks' h ∧
      (∀ h', h' ≠ h → ks' h' = ks h' ∧
        content (cur (w'.setBlock wIdx' b') B) (ks h') = content (cur (w.setBlock wIdx b) B) (ks h')) ∧
      (es ≠ [] → b'.dirty = true ∧ content (cur (w'.setBlock wIdx' b') B) (ks' h) ≠ []) ∧
      content (cur (w'.setBlock wIdx' b') B) (ks' h) <:+ content (cur (w.setBlock wIdx b) B) (ks h) ++ es ∧
      (0 ∉ ks h → 0 ∉ ks' h ∧
        content (cur (w'.setBlock wIdx' b') B) (ks' h) = content (cur (w.setBlock wIdx b) B) (ks h) ++ es) ∧
      (∀ k : Nat, (k : Int) ≤ w.windowIdx → (cur (w'.setBlock wIdx' b') B k).topicHash = (cur (w.setBlock wIdx b) B k).topicHash) ∧
      (∀ P : UInt64 → Prop, Owned (cur (w.setBlock wIdx b) B) ks P → (0 ∈ ks h → P h) →
        Owned (cur (w'.setBlock wIdx' b') B) ks' P) := by
  induction es with
  | nil =>
    intro w wIdx b ks a w' wIdx' b' hrun hbd
    cases hrun
    exact ⟨ks, a, fun h' _ => ⟨rfl, rfl⟩, fun hc => absurd rfl hc, by simp, fun h0 => ⟨h0, by simp⟩, fun _ _ => rfl, fun _ h _ => h⟩
  | cons e es ih =>
    intro w wIdx b ks a w' wIdx' b' hrun hbd
    have he : e.seq ≠ 0 := hes e (by simp)
    replace ih := @ih (fun x hx => hes x (List.mem_cons_of_mem _ hx))
    rw [addWin, if_neg he] at hrun
    obtain ⟨r, hr⟩ := a.head
    have hcb : ∀ d, cur (w.setBlock wIdx { b with dirty := d }) B = Function.update (cur w B) wIdx b.blk := by
      intro d; rw [cur_setBlock]
    have hcb0 : cur (w.setBlock wIdx b) B = Function.update (cur w B) wIdx b.blk := by rw [cur_setBlock]
    have hmem : wIdx ∈ ks h := by rw [hr]; simp
    have hch := a.inv.chain h
    rw [hr, hcb] at hch
    have hle : b.blk.entryIdx.toNat ≤ 335 := by
      have := hch.head.2
      rwa [Function.update_self] at this
    have hth : b.blk.topicHash = h := by
      have := hch.head.1
      rwa [Function.update_self] at this
    have hok : BlockOK b.blk := by
      have := a.inv.kept wIdx { b with dirty := true } (by rw [winLookup_setBlock, if_pos rfl])
      exact this.2.2.1
    have hidx : wIdx < 2 ^ 19 := by have := (a.inv.bounds hmem).2; omega
    by_cases hf : b.blk.entryIdx.toNat = entriesPerWindowBlock
    · rw [if_pos hf] at hrun
      have h335 : entriesPerWindowBlock = 335 := rfl
      set bc : WWin := { b with blk := { b.blk with cutoffTime := now } } with hbc
      set w1 := w.setBlock wIdx bc with hw1
      have i1 : WInv file w1 n B ks := by
        have := a.inv.replace hr (b := bc) (by
            intro hd
            have hd : b.dirty = false := hd
            rcases a.clean hd with hc | hc
            · exact hc
            · omega) hth (by rw [hcb, Function.update_self]) hle (by intro _; show 1 ≤ b.blk.entryIdx.toNat; omega) ⟨hok.1, hnow, hle⟩
        rwa [setBlock_setBlock] at this
      have hmono := addWin_mono now es hrun
      have hmono : w1.windowIdx + 1 ≤ w'.windowIdx := hmono
      have hlast := i1.last
      have hcw1 : ∀ k, core (cur w1 B k) = core (cur (w.setBlock wIdx b) B k) := by
        intro k
        rw [hw1, cur_setBlock, hcb0]
        by_cases hk : k = wIdx
        · subst hk; rw [Function.update_self, Function.update_self]; rfl
        · rw [Function.update_of_ne hk, Function.update_of_ne hk]
      have hnot : ∀ h', (w1.windowIdx + 1).toNat ∉ ks h' := by
        intro h' hc
        have := (i1.bounds hc).1
        omega
      set nb : WWin := ⟨⟨b.blk.topicHash, WinBlock.zero.entries.set 0 e, Int64.ofInt (winOff wIdx), 0, 1⟩, true, false⟩ with hnb
      have hnbok : BlockOK nb.blk := ⟨by simp [hnb, WinBlock.zero], by show 0 ≤ (0 : Int64).toInt; decide, by show UInt16.toNat 1 ≤ 335; decide⟩
      have hused : used nb.blk = [e] := by
        show (WinBlock.zero.entries.set 0 e).take 1 = [e]
        exact take_set_succ _ 0 e (by simp only [WinBlock.zero, List.length_replicate]; omega)
      have h1le : nb.blk.entryIdx.toNat = 1 := rfl
      obtain ⟨r', hr', hnext, hcont⟩ : ∃ r', (r' = [] ∨ (r' = ks h ∧ r' ≠ [] ∧ 0 ∉ r')) ∧
          (nb.blk.next = nextOf r') ∧ (r' = [] → 0 ∈ ks h) := by
        by_cases h0 : wIdx = 0
        · subst h0
          exact ⟨[], .inl rfl, by simp only [hnb]; decide, fun _ => hmem⟩
        · refine ⟨ks h, .inr ⟨rfl, by simp [hr], ?_⟩, ?_, by simp [hr]⟩
          · rw [hr]
            intro hc
            rcases List.mem_cons.1 hc with hc | hc
            · exact h0 hc.symm
            · have := hch.lt 0 hc; omega
          · rw [hr]
            simp only [hnb]
            rw [winOff_eq wIdx hidx]; rfl
      have i2 := i1.new (h := h) (r := r') (b := nb) hr' (by
          intro j q hq
          rcases hr' with hr' | ⟨hr', _, _⟩
          · rw [hr'] at hq; cases hq
          · rw [hr', hr] at hq
            cases hq
            rw [hw1, cur_setBlock, Function.update_self]
            exact hf) (by omega) (by omega) rfl hth hnext (by omega) (by intro _; omega) hnbok
      have a2 : Adding file { w1 with windowIdx := w1.windowIdx + 1 } (w1.windowIdx + 1).toNat nb n B
          (Function.update ks h ((w1.windowIdx + 1).toNat :: r')) h :=
        ⟨i2, ⟨r', by rw [Function.update_self]⟩, fun hc => by simp [hnb] at hc⟩
      obtain ⟨ks', a', hoth, hdirty, hsuf, hall, hth', how⟩ := ih a2 hrun hbd
      have hcur2 : cur (({ w1 with windowIdx := w1.windowIdx + 1 } : WinWriter).setBlock (w1.windowIdx + 1).toNat nb) B =
          Function.update (cur w1 B) (w1.windowIdx + 1).toNat nb.blk := by rw [cur_setBlock]; rfl
      have hnr' : (w1.windowIdx + 1).toNat ∉ r' := by
        rcases hr' with rfl | ⟨rfl, _, _⟩
        · simp
        · exact hnot h
      have hc2 : content (Function.update (cur w1 B) (w1.windowIdx + 1).toNat nb.blk) ((w1.windowIdx + 1).toNat :: r') =
          content (cur (w.setBlock wIdx b) B) r' ++ [e] := by
        rw [content_cons, content_update_not_mem _ _ _ hnr', Function.update_self, hused]
        congr 1
        exact content_congr fun k _ => hcw1 k
      rw [hcur2, Function.update_self, hc2] at hsuf
      rw [hcur2, Function.update_self, hc2] at hall
      refine ⟨ks', a', ?_, ?_, ?_, ?_, ?_, ?_⟩
      · intro h' hne
        obtain ⟨o1, o2⟩ := hoth h' hne
        rw [Function.update_of_ne hne] at o1 o2
        refine ⟨o1, o2.trans ?_⟩
        rw [hcur2, content_update_not_mem _ _ _ (hnot h')]
        exact content_congr fun k _ => hcw1 k
      · intro _
        by_cases hes0 : es = []
        · subst hes0
          simp only [addWin, Option.some.injEq, Prod.mk.injEq] at hrun
          obtain ⟨rfl, rfl, rfl⟩ := hrun
          refine ⟨rfl, ?_⟩
          have hh := a'.head
          obtain ⟨q, hq⟩ := hh
          rw [hq, content_cons, hcur2, Function.update_self, hused]
          simp
        · exact hdirty hes0
      · refine hsuf.trans ?_
        rw [List.append_assoc]
        rcases hr' with rfl | ⟨rfl, _, _⟩
        · exact ⟨content (cur (w.setBlock wIdx b) B) (ks h), by simp [content]⟩
        · exact List.suffix_rfl
      · intro h0
        have hne : r' ≠ [] := fun hc => h0 (hcont hc)
        rcases hr' with hr' | ⟨rfl, _, h0'⟩
        · exact absurd hr' hne
        · have h00 : 0 ∉ (w1.windowIdx + 1).toNat :: ks h := by
            intro hc
            rcases List.mem_cons.1 hc with hc | hc
            · obtain ⟨k, hk⟩ : ∃ k, k ∈ ks h := ⟨wIdx, hmem⟩
              have := (i1.bounds hk).1
              omega
            · exact h0 hc
          obtain ⟨g1, g2⟩ := hall h00
          exact ⟨g1, by rw [g2, List.append_assoc]; rfl⟩
      · intro k hk
        have hk1 : (k : Int) ≤ w1.windowIdx := hk
        rw [hth' k (by show (k : Int) ≤ w1.windowIdx + 1; omega), hcur2, Function.update_of_ne (by omega)]
        have := hcw1 k
        simp only [core, WinBlock.mk.injEq] at this
        exact this.1
      · intro P hP hP0
        refine how P ?_ ?_
        · intro k hk
          rw [hcur2] at hk ⊢
          by_cases hkn : k = (w1.windowIdx + 1).toNat
          · subst hkn
            rw [Function.update_self]
            left
            have : nb.blk.topicHash = h := hth
            rw [this, Function.update_self]
            simp
          · rw [Function.update_of_ne hkn] at hk ⊢
            have hcw := hcw1 k
            simp only [core, WinBlock.mk.injEq] at hcw
            rw [hcw.1]
            rw [hcw.2.2.2.2] at hk
            rcases hP k hk with hk' | hk'
            · by_cases hh : (cur (w.setBlock wIdx b) B k).topicHash = h
              · rw [hh] at hk' ⊢
                rcases hr' with rfl | ⟨rfl, _, _⟩
                · exact .inr (hP0 (hcont rfl))
                · left
                  rw [Function.update_self]
                  exact List.mem_cons_of_mem _ hk'
              · left
                rw [Function.update_of_ne hh]; exact hk'
            · exact .inr hk'
        · rw [Function.update_self]
          intro hc
          rcases List.mem_cons.1 hc with hc | hc
          · have := (i1.bounds hmem).1
            omega
          · rcases hr' with rfl | ⟨rfl, _, _⟩
            · simp at hc
            · exact hP0 hc
    · rw [if_neg hf] at hrun
      have h335 : entriesPerWindowBlock = 335 := rfl
      rw [if_neg (by omega)] at hrun
      set b1 : WWin := { b with
        blk := { b.blk with entries := b.blk.entries.set b.blk.entryIdx.toNat e, entryIdx := b.blk.entryIdx + 1 }, dirty := true } with hb1
      have hidx1 : b1.blk.entryIdx.toNat = b.blk.entryIdx.toNat + 1 := by
        show (b.blk.entryIdx + 1).toNat = _
        rw [UInt16.toNat_add]
        have : (1 : UInt16).toNat = 1 := rfl
        omega
      have hused : used b1.blk = used b.blk ++ [e] := by
        show (b.blk.entries.set b.blk.entryIdx.toNat e).take b1.blk.entryIdx.toNat = _
        rw [hidx1]
        exact take_set_succ _ _ _ (by rw [hok.1]; omega)
      have i1 : WInv file (w.setBlock wIdx b1) n B ks := by
        have := a.inv.replace hr (b := b1) (by simp [hb1]) hth (by rw [hcb, Function.update_self]) (by omega) (by intro _; omega)
          ⟨by simp [hb1, hok.1], hok.2.1, by omega⟩
        rwa [setBlock_setBlock] at this
      have a2 : Adding file w wIdx b1 n B ks h := ⟨i1, ⟨r, hr⟩, fun hc => by simp [hb1] at hc⟩
      obtain ⟨ks', a', hoth, hdirty, hsuf, hall, hth', how⟩ := ih a2 hrun hbd
      have hcur2 : cur (w.setBlock wIdx b1) B = Function.update (cur w B) wIdx b1.blk := by rw [cur_setBlock]
      have hnr : wIdx ∉ r := fun hc => by have := hch.lt wIdx hc; omega
      have hc2 : content (cur (w.setBlock wIdx b1) B) (ks h) = content (cur (w.setBlock wIdx b) B) (ks h) ++ [e] := by
        rw [hcur2, hcb0, hr, content_cons, content_cons, content_update_not_mem _ _ _ hnr, content_update_not_mem _ _ _ hnr,
          Function.update_self, Function.update_self, hused, List.append_assoc]
      rw [hc2, List.append_assoc] at hsuf hall
      refine ⟨ks', a', ?_, ?_, hsuf, hall, ?_, ?_⟩
      · intro h' hne
        obtain ⟨o1, o2⟩ := hoth h' hne
        refine ⟨o1, o2.trans ?_⟩
        have : wIdx ∉ ks h' := a.inv.other hmem hne
        rw [hcur2, hcb0, content_update_not_mem _ _ _ this, content_update_not_mem _ _ _ this]
      · intro _
        by_cases hes0 : es = []
        · subst hes0
          simp only [addWin, Option.some.injEq, Prod.mk.injEq] at hrun
          obtain ⟨rfl, rfl, rfl⟩ := hrun
          refine ⟨rfl, ?_⟩
          obtain ⟨q, hq⟩ := a'.head
          rw [hq, content_cons, hcur2, Function.update_self, hused]
          simp
        · exact hdirty hes0
      · intro k hk
        rw [hth' k hk, hcur2, hcb0]
        by_cases hkw : k = wIdx
        · subst hkw; rw [Function.update_self, Function.update_self]
        · rw [Function.update_of_ne hkw, Function.update_of_ne hkw]
      · intro P hP hP0
        refine how P ?_ hP0
        intro k hk
        by_cases hkw : k = wIdx
        · subst hkw
          rw [hcur2, Function.update_self]
          left
          have : b1.blk.topicHash = h := hth
          rw [this]; exact hmem
        · have e : cur (w.setBlock wIdx b1) B k = cur (w.setBlock wIdx b) B k := by
            rw [hcur2, hcb0, Function.update_of_ne hkw, Function.update_of_ne hkw]
          rw [e] at hk ⊢
          exact hP k hk

/-- What adding entries does to the blocks: blocks known before keep their successor, topic and entries; the block written to gets a
prefix of the entries; every other entry found later is one of those added. -/
theorem addWin_grow {B : Nat → WinBlock} (now : Int64) (es : List WinEntry) (hes : ∀ e ∈ es, e.seq ≠ 0) :
    ∀ {w : WinWriter} {wIdx : Nat} {b : WWin} {w' : WinWriter} {wIdx' : Nat} {b' : WWin}, addWin now es w wIdx b = some (w', wIdx', b') →
    b.blk.entries.length = 335 → (wIdx : Int) ≤ w.windowIdx →
    (∀ k : Nat, (k : Int) ≤ w.windowIdx →
      (cur (w'.setBlock wIdx' b') B k).next = (cur (w.setBlock wIdx b) B k).next ∧
      (cur (w'.setBlock wIdx' b') B k).topicHash = (cur (w.setBlock wIdx b) B k).topicHash ∧
      ∃ z, used (cur (w'.setBlock wIdx' b') B k) = used (cur (w.setBlock wIdx b) B k) ++ z ∧ z <+: es ∧ (k ≠ wIdx → z = [])) ∧
    (∀ k e, e ∈ used (cur (w'.setBlock wIdx' b') B k) → e ∈ used (cur (w.setBlock wIdx b) B k) ∨
      (e ∈ es ∧ (cur (w'.setBlock wIdx' b') B k).topicHash = b.blk.topicHash)) ∧
    (es ≠ [] → b.blk.entryIdx.toNat < 335 → used (cur (w'.setBlock wIdx' b') B wIdx) ≠ []) := by
  induction es with
  | nil =>
    intro w wIdx b w' wIdx' b' hrun _ _
    cases hrun
    exact ⟨fun k _ => ⟨rfl, rfl, [], by simp, List.nil_prefix, fun _ => rfl⟩, fun k e he => .inl he, fun hc => absurd rfl hc⟩
  | cons e es ih =>
    intro w wIdx b w' wIdx' b' hrun hlen hidx
    have he : e.seq ≠ 0 := hes e (by simp)
    replace ih := @ih (fun x hx => hes x (List.mem_cons_of_mem _ hx))
    rw [addWin, if_neg he] at hrun
    have h335 : entriesPerWindowBlock = 335 := rfl
    by_cases hf : b.blk.entryIdx.toNat = entriesPerWindowBlock
    · rw [if_pos hf] at hrun
      set bc : WWin := { b with blk := { b.blk with cutoffTime := now } } with hbc
      set w1 := w.setBlock wIdx bc with hw1
      set nb : WWin := ⟨⟨b.blk.topicHash, WinBlock.zero.entries.set 0 e, Int64.ofInt (winOff wIdx), 0, 1⟩, true, false⟩ with hnb
      have hused : used nb.blk = [e] := by
        show (WinBlock.zero.entries.set 0 e).take 1 = [e]
        exact take_set_succ _ 0 e (by simp only [WinBlock.zero, List.length_replicate]; omega)
      have hwi : w1.windowIdx = w.windowIdx := rfl
      obtain ⟨i1, i2, _⟩ := ih hrun (by show (WinBlock.zero.entries.set 0 e).length = 335; rw [List.length_set]; simp only [WinBlock.zero, List.length_replicate]; rfl) (by show (((w1.windowIdx + 1).toNat : Nat) : Int) ≤ w1.windowIdx + 1; omega)
      have hcur2 : cur (({ w1 with windowIdx := w1.windowIdx + 1 } : WinWriter).setBlock (w1.windowIdx + 1).toNat nb) B =
          Function.update (cur w1 B) (w1.windowIdx + 1).toNat nb.blk := by rw [cur_setBlock]; rfl
      have hcur1 : ∀ k, used (cur w1 B k) = used (cur (w.setBlock wIdx b) B k) ∧ (cur w1 B k).next = (cur (w.setBlock wIdx b) B k).next ∧
          (cur w1 B k).topicHash = (cur (w.setBlock wIdx b) B k).topicHash := by
        intro k
        rw [hw1, cur_setBlock, cur_setBlock]
        by_cases hk : k = wIdx
        · subst hk; rw [Function.update_self, Function.update_self]; exact ⟨rfl, rfl, rfl⟩
        · rw [Function.update_of_ne hk, Function.update_of_ne hk]; exact ⟨rfl, rfl, rfl⟩
      refine ⟨?_, ?_, fun _ hc => by omega⟩
      · intro k hk
        have hne : k ≠ (w1.windowIdx + 1).toNat := by omega
        obtain ⟨g1, g2, z, g3, g4, g5⟩ := i1 k (by show (k : Int) ≤ w1.windowIdx + 1; omega)
        rw [hcur2, Function.update_of_ne hne] at g1 g2 g3
        obtain ⟨c1, c2, c3⟩ := hcur1 k
        refine ⟨g1.trans c2, g2.trans c3, [], ?_, List.nil_prefix, fun _ => rfl⟩
        rw [g3, g5 hne, c1]
      · intro k x hx
        rcases i2 k x hx with hx | ⟨hx, hh⟩
        · rw [hcur2] at hx
          by_cases hk : k = (w1.windowIdx + 1).toNat
          · subst hk
            rw [Function.update_self, hused, List.mem_singleton] at hx
            refine .inr ⟨by rw [hx]; exact List.mem_cons_self, ?_⟩
            rw [(i1 _ (by show (((w1.windowIdx + 1).toNat : Nat) : Int) ≤ w1.windowIdx + 1; omega)).2.1, hcur2, Function.update_self]
          · rw [Function.update_of_ne hk, (hcur1 k).1] at hx
            exact .inl hx
        · exact .inr ⟨List.mem_cons_of_mem _ hx, hh⟩
    · rw [if_neg hf] at hrun
      by_cases hlt : entriesPerWindowBlock < b.blk.entryIdx.toNat
      · rw [if_pos hlt] at hrun; cases hrun
      rw [if_neg hlt] at hrun
      set b1 : WWin := { b with
        blk := { b.blk with entries := b.blk.entries.set b.blk.entryIdx.toNat e, entryIdx := b.blk.entryIdx + 1 }, dirty := true } with hb1
      have hidx1 : b1.blk.entryIdx.toNat = b.blk.entryIdx.toNat + 1 := by
        show (b.blk.entryIdx + 1).toNat = _
        rw [UInt16.toNat_add]
        have : (1 : UInt16).toNat = 1 := rfl
        omega
      have hused : used b1.blk = used b.blk ++ [e] := by
        show (b.blk.entries.set b.blk.entryIdx.toNat e).take b1.blk.entryIdx.toNat = _
        rw [hidx1]
        exact take_set_succ _ _ _ (by rw [hlen]; omega)
      obtain ⟨i1, i2, _⟩ := ih hrun (by simp [hb1, hlen]) hidx
      rw [cur_setBlock w B wIdx b1] at i1 i2
      rw [cur_setBlock w B wIdx b]
      refine ⟨?_, ?_, ?_⟩
      · intro k hk
        obtain ⟨g1, g2, z, g3, g4, g5⟩ := i1 k hk
        by_cases hkw : k = wIdx
        · subst hkw
          rw [Function.update_self] at g1 g2 g3 ⊢
          refine ⟨g1, g2, e :: z, by rw [g3, hused, List.append_assoc]; rfl, ?_, fun hc => absurd rfl hc⟩
          exact (List.prefix_cons_inj e).2 g4
        · rw [Function.update_of_ne hkw] at g1 g2 g3 ⊢
          exact ⟨g1, g2, [], by rw [g3, g5 hkw], List.nil_prefix, fun _ => rfl⟩
      · intro k x hx
        rcases i2 k x hx with hx | ⟨hx, hh⟩
        · by_cases hkw : k = wIdx
          · subst hkw
            rw [Function.update_self] at hx ⊢
            rw [hused, List.mem_append, List.mem_singleton] at hx
            rcases hx with hx | hx
            · exact .inl hx
            · refine .inr ⟨by rw [hx]; exact List.mem_cons_self, ?_⟩
              rw [(i1 k hidx).2.1, Function.update_self]
          · rw [Function.update_of_ne hkw] at hx ⊢
            exact .inl hx
        · exact .inr ⟨List.mem_cons_of_mem _ hx, hh⟩
      · intro _ _
        obtain ⟨_, _, z, g3, _⟩ := i1 wIdx hidx
        rw [g3, Function.update_self, hused]
        simp

end Verif
