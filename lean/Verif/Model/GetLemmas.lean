import Verif.Model.Get
import Mathlib.Tactic.ByContra

/-! # The pagination loop of Get: invariant -/

namespace Verif

theorem getPage_inr {step : UInt64 → Step} {cs : List UInt64} : ∀ {items : List Bytes} {inv : Nat} {r : List Bytes × Nat},
    getPage step cs items inv = .inr r → ∀ c ∈ cs, step c ≠ .fail ∧ step c ≠ .panic := by
  induction cs with
  | nil => intro items inv r _ c hc; simp at hc
  | cons c cs ih =>
    intro items inv r h x hx
    cases hs : step c with
    | skip =>
      simp only [getPage, hs] at h
      rcases List.mem_cons.1 hx with rfl | hx
      · simp [hs]
      · exact ih h x hx
    | invalid =>
      simp only [getPage, hs] at h
      rcases List.mem_cons.1 hx with rfl | hx
      · simp [hs]
      · exact ih h x hx
    | item y =>
      simp only [getPage, hs] at h
      rcases List.mem_cons.1 hx with rfl | hx
      · simp [hs]
      · exact ih h x hx
    | fail => simp [getPage, hs] at h
    | panic => simp [getPage, hs] at h

theorem count_exact (step : UInt64 → Step) (cs : List UInt64)
    (h : ∀ c ∈ cs, step c ≠ .fail ∧ step c ≠ .panic ∧ step c ≠ .skip) :
    (payloads step cs).length + invalids step cs = cs.length := by
  induction cs with
  | nil => simp [invalids]
  | cons c cs ih =>
    have h1 := ih fun x hx => h x (List.mem_cons_of_mem _ hx)
    have h2 := h c (by simp)
    cases hs : step c <;> simp [payloads, invalids, hs] at h1 h2 ⊢ <;> omega

/-- The candidates and the zero rest of their backing array. -/
def padded (cands : List UInt64) (cap : Nat) : List UInt64 := cands ++ List.replicate (cap - cands.length) 0

theorem payloads_padded {step : UInt64 → Step} (h0 : step 0 = .skip) (cands : List UInt64) (cap : Nat) :
    payloads step (padded cands cap) = payloads step cands := by
  rw [padded, payloads_append, payloads_zeros h0, List.append_nil]

theorem payloads_take_prefix {step : UInt64 → Step} (h0 : step 0 = .skip) (cands : List UInt64) (cap n : Nat) :
    payloads step ((padded cands cap).take n) <+: payloads step cands := by
  rw [← payloads_padded h0 cands cap]
  conv_rhs => rw [← List.take_append_drop n (padded cands cap), payloads_append]
  exact List.prefix_append _ _

theorem payloads_take_all {step : UInt64 → Step} (h0 : step 0 = .skip) (cands : List UInt64) (cap n : Nat)
    (h : cands.length ≤ n) : payloads step ((padded cands cap).take n) = payloads step cands := by
  rw [padded, List.take_append, List.take_of_length_le h, payloads_append, List.take_replicate, payloads_zeros h0, List.append_nil]

/-- Invariant of the loop at the start of a page. -/
structure PageInv (step : UInt64 → Step) (cands : List UInt64) (cap : Nat) (q start limit : Int) (items : List Bytes) : Prop where
  pos : 0 ≤ start
  done : items = payloads step ((padded cands cap).take start.toNat)
  room : (items.length : Int) + (limit - start) ≤ q
  far : q ≤ limit ∨ limit = cands.length
  full : (∀ c ∈ cands, c ≠ 0) → limit ≤ cands.length → (items.length : Int) + (limit - start) = q ∨ limit = cands.length

/-- What the loop may return: a prefix of the payloads, at most `q`; when it returns without error, all of them up to `q`. -/
def GoodOut (step : UInt64 → Step) (cands : List UInt64) (q : Int) : GetOut → Prop
  | .ok r => (r.length : Int) ≤ q ∧ r <+: payloads step cands ∧
      ((∀ c ∈ cands, c ≠ 0) → r = (payloads step cands).take q.toNat)
  | .err r => (r.length : Int) ≤ q ∧ r <+: payloads step cands
  | .panic => True
  | .running => True

theorem prefix_eq_take {α : Type} {r l : List α} (h : r <+: l) {n : Nat} (hn : r.length = n) : r = l.take n := by
  subst hn; exact List.prefix_iff_eq_take.1 h

theorem getLoop_spec {step : UInt64 → Step} (h0 : ∀ c, step c = .skip ↔ c = 0) (cands : List UInt64) (cap : Nat) (q : Int)
    (fuel : Nat) : ∀ (start limit : Int) (items : List Bytes), PageInv step cands cap q start limit items →
    GoodOut step cands q (getLoop step cands cap q fuel start limit items) := by
  have hz : step 0 = .skip := (h0 0).2 rfl
  induction fuel with
  | zero => intro start limit items _; exact trivial
  | succ fuel ih =>
    intro start limit items h
    rw [getLoop]
    split
    · exact trivial
    · next hb =>
      have hs0 : 0 ≤ start := h.pos
      have hlt : start ≤ limit := by omega
      have hcap : limit ≤ cap := by omega
      change GoodOut step cands q (match getPage step (((padded cands cap).take limit.toNat).drop start.toNat) items 0 with
        | .inl out => out
        | .inr (items, inv) => _)
      have hsplit : (padded cands cap).take limit.toNat =
          (padded cands cap).take start.toNat ++ ((padded cands cap).take limit.toNat).drop start.toNat := by
        conv_lhs => rw [← List.take_append_drop start.toNat ((padded cands cap).take limit.toNat), List.take_take,
          Nat.min_eq_left (by omega)]
      generalize hw : ((padded cands cap).take limit.toNat).drop start.toNat = win at hsplit
      have hall : items ++ payloads step win = payloads step ((padded cands cap).take limit.toNat) := by
        rw [hsplit, payloads_append, ← h.done]
      have hwl : (win.length : Int) ≤ limit - start := by
        rw [← hw, List.length_drop, List.length_take]; omega
      rcases getPage_spec step win items 0 with hp | ⟨d, r, hd, hp⟩ | hp
      · rw [hp]; exact trivial
      · rw [hp]
        have hlen := count_split step d
        have hdl : d.length ≤ win.length := by rw [hd]; simp
        refine ⟨?_, ?_⟩
        · simp only [List.length_append]
          have := h.room
          push_cast
          omega
        · refine List.IsPrefix.trans ?_ (payloads_take_prefix hz cands cap limit.toNat)
          rw [← hall, hd, payloads_append, ← List.append_assoc]
          exact List.prefix_append _ _
      · have hno := getPage_inr hp
        rw [hp]
        simp only [Nat.zero_add]
        generalize hitems : items ++ payloads step win = items'
        generalize hinv : invalids step win = inv
        have hcnt := count_split step win
        have hil : items'.length = items.length + (payloads step win).length := by rw [← hitems, List.length_append]
        have hdone' : items' = payloads step ((padded cands cap).take limit.toNat) := by rw [← hitems, hall]
        have hpre : items' <+: payloads step cands := by rw [hdone']; exact payloads_take_prefix hz ..
        have hroom := h.room
        have hsum : (items'.length : Int) + inv ≤ q := by omega
        -- exact count when every candidate of the page is a real one
        have hexact : (∀ c ∈ cands, c ≠ 0) → limit ≤ cands.length → (items'.length : Int) + inv = q ∨ limit = cands.length := by
          intro hnz hle
          have hwin : ∀ c ∈ win, c ≠ 0 := by
            intro c hc
            rw [← hw] at hc
            have hc2 := List.mem_of_mem_drop hc
            rw [padded, List.take_append_of_le_length (by omega)] at hc2
            exact hnz c (List.mem_of_mem_take hc2)
          have he := count_exact step win fun c hc => ⟨(hno c hc).1, (hno c hc).2, fun hk => hwin c hc ((h0 c).1 hk)⟩
          have hwl2 : (win.length : Int) = limit - start := by
            rw [← hw, List.length_drop, List.length_take, padded, List.length_append, List.length_replicate]; omega
          rcases h.full hnz hle with hf | hf
          · left; omega
          · exact .inr hf
        have hstop : (cands.length : Int) ≤ limit → items' = payloads step cands := by
          intro hle; rw [hdone']; exact payloads_take_all hz _ _ _ (by omega)
        split
        · next hcond =>
          refine ⟨by omega, hpre, fun hnz => ?_⟩
          by_cases hle : (cands.length : Int) ≤ limit
          · rw [hstop hle, List.take_of_length_le]
            rw [← hstop hle]; omega
          · rcases hcond with hc | hc | hc
            · rcases hexact hnz (by omega) with he | he
              · exact prefix_eq_take hpre (by omega)
              · omega
            · exact prefix_eq_take hpre (by omega)
            · omega
        · next hcond =>
          have hinv0 : inv ≠ 0 := fun hc => hcond (.inl hc)
          have hne : (cands.length : Int) ≠ limit := fun hc => hcond (.inr (.inr hc))
          have hfar : q ≤ limit := by
            rcases h.far with hf | hf
            · exact hf
            · exact absurd hf.symm hne
          split
          · next hb2 =>
            exact ih limit cands.length items' ⟨by omega, hdone', by omega, .inr rfl, fun _ _ => .inr rfl⟩
          · next hb2 =>
            refine ih limit (limit + inv) items' ⟨by omega, hdone', by omega, .inl (by omega), fun hnz hle => ?_⟩
            rcases hexact hnz (by omega) with he | he
            · left; omega
            · exact absurd he.symm hne

theorem getItems_spec {step : UInt64 → Step} (h0 : ∀ c, step c = .skip ↔ c = 0) (cands : List UInt64) (cap : Nat) (q : Int)
    (hq : 0 ≤ q) : GoodOut step cands q (getItems step cands cap q) := by
  unfold getItems
  split
  · next h => subst h; exact ⟨by simpa using hq, by simp, fun _ => by simp⟩
  · refine getLoop_spec h0 cands cap q _ _ _ _ ⟨by omega, by simp, ?_, ?_, ?_⟩
    · simp only [List.length_nil]; split <;> omega
    · split <;> omega
    · intro _ _
      simp only [List.length_nil]
      split
      · exact .inr rfl
      · left; omega

/-- The loop always ends: a page starts further on than the one before, or the Get is over. -/
theorem getLoop_ends (step : UInt64 → Step) (cands : List UInt64) (cap : Nat) (q : Int) (fuel : Nat) :
    ∀ (start limit : Int) (items : List Bytes), 0 < fuel → (cap : Int) - limit + 1 < fuel →
      getLoop step cands cap q fuel start limit items ≠ .running := by
  induction fuel with
  | zero => intro start limit items h; omega
  | succ fuel ih =>
    intro start limit items _ hf
    rw [getLoop]
    split
    · simp
    · next hb =>
      generalize ((cands ++ List.replicate (cap - cands.length) 0).take limit.toNat).drop start.toNat = win
      rcases getPage_spec step win items 0 with hp | ⟨d, r, hd, hp⟩ | hp
      · rw [hp]; simp
      · rw [hp]; simp
      · rw [hp]
        dsimp only
        split
        · simp
        · next hcond =>
          have hinv0 : 0 + invalids step win ≠ 0 := fun hc => hcond (.inl hc)
          have hne : (cands.length : Int) ≠ limit := fun hc => hcond (.inr (.inr hc))
          split
          · by_cases hl : limit < cands.length
            · exact ih _ _ _ (by omega) (by omega)
            · obtain ⟨f, rfl⟩ : ∃ f, fuel = f + 1 := ⟨fuel - 1, by omega⟩
              rw [getLoop, if_pos (by omega)]
              simp
          · exact ih _ _ _ (by omega) (by omega)

theorem invalids_take_le (step : UInt64 → Step) (cands : List UInt64) (n : Nat) :
    invalids step (cands.take n) ≤ invalids step cands := by
  conv_rhs => rw [← List.take_append_drop n cands, invalids_append]
  omega

/-- The loop never slices out of range when the candidates reach as far as the invalid ones can push it. -/
theorem getLoop_no_panic {step : UInt64 → Step} (cands : List UInt64) (cap : Nat) (hcap : cands.length ≤ cap) (q : Int)
    (hp : ∀ c ∈ cands, step c ≠ .panic) (hfit : q + invalids step cands ≤ cands.length) (fuel : Nat) :
    ∀ (start limit : Int) (items : List Bytes), 0 ≤ start → start ≤ limit → limit ≤ cands.length →
      limit ≤ q + invalids step (cands.take start.toNat) → getLoop step cands cap q fuel start limit items ≠ .panic := by
  induction fuel with
  | zero => intro start limit items _ _ _ _; simp [getLoop]
  | succ fuel ih =>
    intro start limit items h1 h2 h3 h4
    rw [getLoop, if_neg (by omega)]
    have hw : ((cands ++ List.replicate (cap - cands.length) 0).take limit.toNat).drop start.toNat =
        (cands.take limit.toNat).drop start.toNat := by rw [List.take_append_of_le_length (by omega)]
    rw [hw]
    have hsplit : cands.take limit.toNat = cands.take start.toNat ++ (cands.take limit.toNat).drop start.toNat := by
      conv_lhs => rw [← List.take_append_drop start.toNat (cands.take limit.toNat), List.take_take, Nat.min_eq_left (by omega)]
    generalize (cands.take limit.toNat).drop start.toNat = win at hsplit
    have hwp : ∀ c ∈ win, step c ≠ .panic := fun c hc =>
      hp c (List.mem_of_mem_take (by rw [hsplit]; exact List.mem_append_right _ hc))
    have hnp := getPage_no_panic step win hwp items 0
    rcases getPage_spec step win items 0 with hpg | ⟨d, r, hd, hpg⟩ | hpg
    · exact absurd hpg hnp
    · rw [hpg]; simp
    · rw [hpg]
      have hI := invalids_append step (cands.take start.toNat) win
      rw [← hsplit] at hI
      have hle := invalids_take_le step cands limit.toNat
      dsimp only
      split
      · simp
      · next hcond =>
        split
        · exact ih _ _ _ (by omega) (by omega) (by omega) (by omega)
        · exact ih _ _ _ (by omega) (by omega) (by omega) (by omega)

end Verif
