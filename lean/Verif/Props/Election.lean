import Verif.Model.Election
import Mathlib.Data.Fintype.Card

/-! # C54, C67: one leader per term -/

namespace Verif

variable {n : Nat}

theorem setAt_self {β : Type} (f : Fin n → β) (i : Fin n) (v : β) : setAt f i v i = v := if_pos rfl

theorem setAt_ne {β : Type} (f : Fin n → β) {i j : Fin n} (v : β) (h : j ≠ i) : setAt f i v j = f j := if_neg h

theorem Elections.Inv.check {s : Elections n} (h : s.Inv) (i : Fin n) : (s.check i).Inv := by
  simp only [Elections.check]
  cases hr : s.running i with
  | none => exact h
  | some tv =>
    obtain ⟨t, votes⟩ := tv
    simp only
    split
    · next hge =>
      obtain ⟨hself, hterm⟩ := h.self i t votes hr
      have hsub : ∀ c t', (Elections.support { s with leader := setAt s.leader i (some i), running := setAt s.running i none, won := (t, i) :: s.won } c t').Sublist
          (s.support c t') := by
        intro c t'
        simp only [Elections.support]
        apply List.Sublist.append_left
        by_cases hc : c = i
        · subst hc; rw [setAt_self]; exact List.nil_sublist _
        · rw [setAt_ne _ _ hc]
      refine ⟨h.bounded, h.once, fun c t' => (h.nodup c t').sublist (hsub c t'), fun c t' v hv => h.voted c t' v ((hsub c t').subset hv),
        ?_, ?_, ?_, fun p hp => List.mem_cons_of_mem _ (h.pinged p hp)⟩
      · intro c t' votes' hc
        simp only at hc
        by_cases hci : c = i
        · subst hci; rw [setAt_self] at hc; simp at hc
        · rw [setAt_ne _ _ hci] at hc; exact h.self c t' votes' hc
      · intro t' c hw
        rcases List.mem_cons.mp hw with he | hw
        · simp only [Prod.mk.injEq] at he
          obtain ⟨rfl, rfl⟩ := he
          have hmem : ∀ v ∈ votes, v ∈ s.support c t' := by
            intro v hv
            simp only [Elections.support, hr, if_true]
            exact List.mem_append_right _ hv
          refine ⟨c :: votes, ?_, by simp only [List.length_cons]; omega, ?_⟩
          · rw [List.nodup_cons]
            refine ⟨fun hm => (h.voted c t' c (hmem c hm)).2 rfl, ?_⟩
            have := h.nodup c t'
            simp only [Elections.support, hr, if_true] at this
            exact (List.nodup_append.mp this).2.1
          · intro v hv
            rcases List.mem_cons.mp hv with rfl | hv
            · exact hself
            · exact (h.voted c t' v (hmem v hv)).1
        · exact h.majority t' c hw
      · intro v c hl
        simp only at hl ⊢
        by_cases hv : v = i
        · subst hv
          rw [setAt_self, Option.some.injEq] at hl
          subst hl
          rw [hterm]; exact List.mem_cons_self
        · rw [setAt_ne _ _ hv] at hl
          exact List.mem_cons_of_mem _ (h.leads v c hl)
    · exact h

theorem Elections.Inv.start {s : Elections n} (h : s.Inv) (i : Fin n) (hidle : s.running i = none) : (s.start i).Inv := by
  apply Elections.Inv.check
  have hnew : ∀ c, (i, s.term i + 1, c) ∉ s.granted := fun c hc => by have := h.bounded _ _ _ hc; omega
  have hsup : ∀ c t, Elections.support { s with term := setAt s.term i (s.term i + 1), leader := setAt s.leader i none, running := setAt s.running i (some (s.term i + 1, [])), reqs := s.reqs ++ ((List.finRange n).filter (· ≠ i)).map fun j => ⟨i, s.term i + 1, j⟩, granted := (i, s.term i + 1, i) :: s.granted } c t = s.support c t := by
    intro c t
    simp only [Elections.support]
    congr 1
    by_cases hc : c = i
    · subst hc; rw [setAt_self, hidle]; simp
    · rw [setAt_ne _ _ hc]
  refine ⟨?_, ?_, fun c t => hsup c t ▸ h.nodup c t, fun c t v hv => ?_, ?_, ?_, ?_, h.pinged⟩
  · intro v t c hg
    simp only
    replace hg : (v, t, c) ∈ (i, s.term i + 1, i) :: s.granted := hg
    rcases List.mem_cons.mp hg with he | hg2
    all_goals clear hg
    · simp only [Prod.mk.injEq] at he
      obtain ⟨rfl, rfl, rfl⟩ := he
      rw [setAt_self]
    · by_cases hv : v = i
      · subst hv; rw [setAt_self]; have := h.bounded _ _ _ hg2; omega
      · rw [setAt_ne _ _ hv]; exact h.bounded _ _ _ hg2
  · intro v t c c' h1 h2
    replace h1 : (v, t, c) ∈ (i, s.term i + 1, i) :: s.granted := h1
    replace h2 : (v, t, c') ∈ (i, s.term i + 1, i) :: s.granted := h2
    rcases List.mem_cons.mp h1 with e1 | k1 <;> rcases List.mem_cons.mp h2 with e2 | k2
    · simp only [Prod.mk.injEq] at e1 e2; rw [e1.2.2, e2.2.2]
    · simp only [Prod.mk.injEq] at e1
      obtain ⟨rfl, rfl, rfl⟩ := e1
      exact absurd k2 (hnew _)
    · simp only [Prod.mk.injEq] at e2
      obtain ⟨rfl, rfl, rfl⟩ := e2
      exact absurd k1 (hnew _)
    · exact h.once v t c c' k1 k2
  · rw [hsup] at hv
    exact ⟨List.mem_cons_of_mem _ (h.voted c t v hv).1, (h.voted c t v hv).2⟩
  · intro c t votes hc
    simp only at hc ⊢
    by_cases hci : c = i
    · subst hci
      rw [setAt_self, Option.some.injEq, Prod.mk.injEq] at hc
      obtain ⟨rfl, rfl⟩ := hc
      exact ⟨List.mem_cons_self, setAt_self _ _ _⟩
    · rw [setAt_ne _ _ hci] at hc
      obtain ⟨h1, h2⟩ := h.self c t votes hc
      exact ⟨List.mem_cons_of_mem _ h1, by rw [setAt_ne _ _ hci]; exact h2⟩
  · intro t c hw
    obtain ⟨vs, h1, h2, h3⟩ := h.majority t c hw
    exact ⟨vs, h1, h2, fun v hv => List.mem_cons_of_mem _ (h3 v hv)⟩
  · intro v c hl
    simp only at hl ⊢
    by_cases hv : v = i
    · subst hv; rw [setAt_self] at hl; simp at hl
    · rw [setAt_ne _ _ hv] at hl ⊢; exact h.leads v c hl

theorem Elections.Inv.dropReq {s : Elections n} (h : s.Inv) (k : Nat) : Elections.Inv { s with reqs := s.reqs.eraseIdx k } :=
  ⟨h.bounded, h.once, h.nodup, h.voted, h.self, h.majority, h.leads, h.pinged⟩

theorem Elections.Inv.dropPing {s : Elections n} (h : s.Inv) (k : Nat) : Elections.Inv { s with pings := s.pings.eraseIdx k } :=
  ⟨h.bounded, h.once, h.nodup, h.voted, h.self, h.majority, h.leads, fun p hp => h.pinged p ((List.eraseIdx_sublist s.pings k).subset hp)⟩

theorem Elections.Inv.dropResp {s : Elections n} (h : s.Inv) (k : Nat) : Elections.Inv { s with resps := s.resps.eraseIdx k } := by
  have hsub : ∀ c t, (Elections.support { s with resps := s.resps.eraseIdx k } c t).Sublist (s.support c t) := by
    intro c t
    simp only [Elections.support]
    exact List.Sublist.append_right (((List.eraseIdx_sublist s.resps k).filter _).map _) _
  exact ⟨h.bounded, h.once, fun c t => (h.nodup c t).sublist (hsub c t), fun c t v hv => h.voted c t v ((hsub c t).subset hv), h.self,
    h.majority, h.leads, h.pinged⟩

theorem Elections.Inv.stop {s : Elections n} (h : s.Inv) (i : Fin n) : Elections.Inv { s with running := setAt s.running i none } := by
  have hsub : ∀ c t, (Elections.support { s with running := setAt s.running i none } c t).Sublist (s.support c t) := by
    intro c t
    simp only [Elections.support]
    apply List.Sublist.append_left
    by_cases hc : c = i
    · subst hc; rw [setAt_self]; exact List.nil_sublist _
    · rw [setAt_ne _ _ hc]
  refine ⟨h.bounded, h.once, fun c t => (h.nodup c t).sublist (hsub c t), fun c t v hv => h.voted c t v ((hsub c t).subset hv), ?_,
    h.majority, h.leads, h.pinged⟩
  intro c t votes hc
  simp only at hc
  by_cases hci : c = i
  · subst hci; rw [setAt_self] at hc; simp at hc
  · rw [setAt_ne _ _ hci] at hc; exact h.self c t votes hc

theorem Elections.Inv.vote {s : Elections n} (h : s.Inv) (r : VoteReq n) (hidle : s.running r.voter = none) (hne : r.voter ≠ r.cand) :
    (s.vote r).Inv := by
  simp only [Elections.vote]
  split
  · next hlt =>
    have hnew : ∀ c, (r.voter, r.term, c) ∉ s.granted := fun c hc => by have := h.bounded _ _ _ hc; omega
    have hsup : ∀ c t, (Elections.support { s with term := setAt s.term r.voter r.term, leader := setAt s.leader r.voter none, resps := s.resps ++ [⟨r.cand, r.term, r.voter, true, r.term⟩], granted := (r.voter, r.term, r.cand) :: s.granted } c t).Perm
        (if r.cand = c ∧ r.term = t then r.voter :: s.support c t else s.support c t) := by
      intro c t
      simp only [Elections.support, List.filter_append, List.map_append]
      by_cases hct : r.cand = c ∧ r.term = t
      · obtain ⟨rfl, rfl⟩ := hct
        simp only [and_self, if_true, List.filter_cons, List.filter_nil, beq_self_eq_true, Bool.and_self, List.map_cons, List.map_nil]
        rw [List.append_assoc]
        exact List.perm_middle
      · have : (true && (r.cand == c) && (r.term == t)) = false := by
          by_cases h1 : r.cand = c
          · have h2 : r.term ≠ t := fun e => hct ⟨h1, e⟩
            simp [h2]
          · simp [h1]
        rw [if_neg hct]
        simp only [List.filter_cons, this, List.filter_nil]
        simp
    refine ⟨?_, ?_, ?_, ?_, ?_, ?_, ?_, h.pinged⟩
    · intro v t c hg
      simp only
      rcases List.mem_cons.mp hg with he | hg
      · simp only [Prod.mk.injEq] at he
        obtain ⟨rfl, rfl, rfl⟩ := he
        rw [setAt_self]
      · by_cases hv : v = r.voter
        · subst hv; rw [setAt_self]; have := h.bounded _ _ _ hg; omega
        · rw [setAt_ne _ _ hv]; exact h.bounded _ _ _ hg
    · intro v t c c' h1 h2
      rcases List.mem_cons.mp h1 with e1 | h1 <;> rcases List.mem_cons.mp h2 with e2 | h2
      · simp only [Prod.mk.injEq] at e1 e2; rw [e1.2.2, e2.2.2]
      · simp only [Prod.mk.injEq] at e1
        obtain ⟨rfl, rfl, rfl⟩ := e1
        exact absurd h2 (hnew _)
      · simp only [Prod.mk.injEq] at e2
        obtain ⟨rfl, rfl, rfl⟩ := e2
        exact absurd h1 (hnew _)
      · exact h.once v t c c' h1 h2
    · intro c t
      rw [(hsup c t).nodup_iff]
      split
      · next hct =>
        obtain ⟨rfl, rfl⟩ := hct
        rw [List.nodup_cons]
        exact ⟨fun hm => hnew _ (h.voted _ _ _ hm).1, h.nodup _ _⟩
      · exact h.nodup c t
    · intro c t v hv
      have hv := (hsup c t).subset hv
      split at hv
      · next hct =>
        obtain ⟨rfl, rfl⟩ := hct
        rcases List.mem_cons.mp hv with rfl | hv
        · exact ⟨List.mem_cons_self, hne⟩
        · exact ⟨List.mem_cons_of_mem _ (h.voted _ _ _ hv).1, (h.voted _ _ _ hv).2⟩
      · exact ⟨List.mem_cons_of_mem _ (h.voted c t v hv).1, (h.voted c t v hv).2⟩
    · intro c t votes hc
      simp only at hc ⊢
      obtain ⟨h1, h2⟩ := h.self c t votes hc
      have hcv : c ≠ r.voter := by rintro rfl; rw [hidle] at hc; simp at hc
      exact ⟨List.mem_cons_of_mem _ h1, by rw [setAt_ne _ _ hcv]; exact h2⟩
    · intro t c hw
      obtain ⟨vs, h1, h2, h3⟩ := h.majority t c hw
      exact ⟨vs, h1, h2, fun v hv => List.mem_cons_of_mem _ (h3 v hv)⟩
    · intro v c hl
      simp only at hl ⊢
      by_cases hv : v = r.voter
      · subst hv; rw [setAt_self] at hl; simp at hl
      · rw [setAt_ne _ _ hv] at hl ⊢; exact h.leads v c hl
  · have hsup : ∀ c t, Elections.support { s with resps := s.resps ++ [⟨r.cand, r.term, r.voter, false, s.term r.voter⟩] } c t = s.support c t := by
      intro c t
      simp [Elections.support, List.filter_append]
    exact ⟨h.bounded, h.once, fun c t => hsup c t ▸ h.nodup c t, fun c t v hv => h.voted c t v (hsup c t ▸ hv), h.self, h.majority, h.leads,
      h.pinged⟩

theorem Elections.Inv.ping {s : Elections n} (h : s.Inv) (p : LeaderPing n) (hidle : s.running p.dest = none) (hp : (p.term, p.leader) ∈ s.won) :
    (s.ping p).Inv := by
  simp only [Elections.ping]
  split
  · exact h
  · next hge =>
    split
    · next hgt =>
      refine ⟨?_, h.once, h.nodup, h.voted, ?_, h.majority, ?_, h.pinged⟩
      · intro v t c hg
        simp only
        have := h.bounded _ _ _ hg
        by_cases hv : v = p.dest
        · subst hv; rw [setAt_self]; omega
        · rw [setAt_ne _ _ hv]; exact this
      · intro c t votes hc
        obtain ⟨h1, h2⟩ := h.self c t votes hc
        have hcv : c ≠ p.dest := by rintro rfl; simp only at hc; rw [hidle] at hc; simp at hc
        exact ⟨h1, by simp only; rw [setAt_ne _ _ hcv]; exact h2⟩
      · intro v c hl
        simp only at hl ⊢
        by_cases hv : v = p.dest
        · subst hv
          rw [setAt_self, Option.some.injEq] at hl
          rw [setAt_self, ← hl]; exact hp
        · rw [setAt_ne _ _ hv] at hl ⊢; exact h.leads v c hl
    · next hngt =>
      have heq : s.term p.dest = p.term := by omega
      refine ⟨h.bounded, h.once, h.nodup, h.voted, h.self, h.majority, ?_, h.pinged⟩
      intro v c hl
      simp only at hl ⊢
      by_cases hv : v = p.dest
      · subst hv
        rw [setAt_self, Option.some.injEq] at hl
        rw [heq, ← hl]; exact hp
      · rw [setAt_ne _ _ hv] at hl; exact h.leads v c hl

/-- Counting an answer moves it from the messages in flight to the counted votes. -/
theorem Elections.Inv.answer {s : Elections n} (h : s.Inv) (k : Nat) (r : VoteResp n) (hk : s.resps[k]? = some r) :
    (Elections.answer { s with resps := s.resps.eraseIdx k } r).Inv := by
  have hdrop := h.dropResp k
  simp only [Elections.answer]
  cases hr : s.running r.cand with
  | none => exact hdrop
  | some tv =>
    obtain ⟨t, votes⟩ := tv
    simp only
    split
    · exact hdrop
    · next hte =>
      have hte : t = r.election := not_not.mp hte
      split
      · next hres =>
        apply Elections.Inv.check
        have hperm : s.resps.Perm (r :: s.resps.eraseIdx k) := by
          obtain ⟨hlt, rfl⟩ := List.getElem?_eq_some_iff.mp hk
          exact (List.getElem_cons_eraseIdx_perm hlt).symm
        have hsup : ∀ c t', (Elections.support { s with resps := s.resps.eraseIdx k, running := setAt s.running r.cand (some (t, r.voter :: votes)) } c t').Perm (s.support c t') := by
          intro c t'
          simp only [Elections.support]
          have hfp := (hperm.filter fun r => r.result && (r.cand == c) && (r.election == t')).map (·.voter)
          by_cases hc : c = r.cand
          · subst hc
            rw [setAt_self, hr]
            by_cases ht : t = t'
            · subst ht
              simp only [if_true]
              rw [List.filter_cons, if_pos (by simp [hres, ← hte])] at hfp
              rw [List.map_cons] at hfp
              exact List.perm_middle.trans (hfp.symm.append_right votes)
            · simp only [if_neg ht]
              rw [List.filter_cons, if_neg (by simp only [Bool.and_eq_true, beq_iff_eq, not_and]; intro _ e; exact ht (hte.trans e))] at hfp
              exact (hfp.symm).append_right _
          · rw [setAt_ne _ _ hc]
            rw [List.filter_cons, if_neg (by simp only [Bool.and_eq_true, beq_iff_eq, not_and]; rintro ⟨_, e⟩; exact absurd e.symm hc)] at hfp
            exact (hfp.symm).append_right _
        refine ⟨h.bounded, h.once, fun c t' => (hsup c t').nodup_iff.mpr (h.nodup c t'), fun c t' v hv => h.voted c t' v ((hsup c t').subset hv),
          ?_, h.majority, h.leads, h.pinged⟩
        intro c t' votes' hc
        simp only at hc
        by_cases hci : c = r.cand
        · subst hci
          rw [setAt_self, Option.some.injEq, Prod.mk.injEq] at hc
          obtain ⟨rfl, rfl⟩ := hc
          exact h.self _ _ votes hr
        · rw [setAt_ne _ _ hci] at hc; exact h.self c t' votes' hc
      · split
        · exact hdrop.stop r.cand
        · exact hdrop

/-- Requests in flight go to other nodes than the candidate. -/
def Elections.ReqOk (s : Elections n) : Prop := ∀ r ∈ s.reqs, r.voter ≠ r.cand

theorem Elections.check_reqs (s : Elections n) (i : Fin n) : (s.check i).reqs = s.reqs := by
  simp only [Elections.check]
  split
  · rfl
  · split <;> rfl

theorem Elections.step_reqOk (s : Elections n) (h : s.ReqOk) (e : ElectEvent n) : (s.step e).ReqOk := by
  have hsub : ∀ k, ∀ r ∈ s.reqs.eraseIdx k, r.voter ≠ r.cand := fun k r hr => h r ((List.eraseIdx_sublist s.reqs k).subset hr)
  cases e with
  | start i =>
    simp only [Elections.step]
    split
    · simp only [Elections.start, Elections.ReqOk, Elections.check_reqs]
      intro r hr
      rcases List.mem_append.mp hr with hr | hr
      · exact h r hr
      · obtain ⟨j, hj, rfl⟩ := List.mem_map.mp hr
        have := (List.mem_filter.mp hj).2
        simpa using this
    · exact h
  | timeout i => exact h
  | vote k =>
    simp only [Elections.step]
    split
    · exact h
    · split
      · simp only [Elections.vote, Elections.ReqOk]
        split <;> exact hsub k
      · exact h
  | answer k =>
    simp only [Elections.step]
    split
    · exact h
    · simp only [Elections.answer, Elections.ReqOk]
      split
      · exact h
      · split
        · exact h
        · split
          · rw [Elections.check_reqs]; exact h
          · split <;> exact h
  | sendPings i => simp only [Elections.step]; split <;> exact h
  | ping k =>
    simp only [Elections.step]
    split
    · exact h
    · split
      · simp only [Elections.ping, Elections.ReqOk]
        split
        · exact h
        · split <;> exact h
      · exact h
  | loseReq k => exact hsub k
  | loseResp k => exact h
  | losePing k => exact h

theorem Elections.step_inv (s : Elections n) (h : s.Inv) (hq : s.ReqOk) (e : ElectEvent n) : (s.step e).Inv := by
  cases e with
  | start i =>
    simp only [Elections.step]
    split
    · next hc => exact h.start i hc.1
    · exact h
  | timeout i => exact h.stop i
  | vote k =>
    simp only [Elections.step]
    split
    · exact h
    · next r hr =>
      split
      · next hidle => exact (h.dropReq k).vote r hidle (hq r (List.mem_of_getElem? hr))
      · exact h
  | answer k =>
    simp only [Elections.step]
    split
    · exact h
    · next r hr => exact h.answer k r hr
  | sendPings i =>
    simp only [Elections.step]
    split
    · next hc =>
      refine ⟨h.bounded, h.once, h.nodup, h.voted, h.self, h.majority, h.leads, ?_⟩
      intro p hp
      rcases List.mem_append.mp hp with hp | hp
      · exact h.pinged p hp
      · obtain ⟨j, _, rfl⟩ := List.mem_map.mp hp
        exact h.leads i i hc.2
    · exact h
  | ping k =>
    simp only [Elections.step]
    split
    · exact h
    · next p hp =>
      split
      · next hidle => exact (h.dropPing k).ping p hidle (h.pinged p (List.mem_of_getElem? hp))
      · exact h
  | loseReq k => exact h.dropReq k
  | loseResp k => exact h.dropResp k
  | losePing k => exact h.dropPing k

theorem Elections.initial_inv (n : Nat) : (Elections.initial n).Inv := by
  constructor <;> simp [Elections.initial, Elections.support]

theorem Elections.run_inv (es : List (ElectEvent n)) (s : Elections n) (h : s.Inv) (hq : s.ReqOk) : (s.run es).Inv := by
  induction es generalizing s with
  | nil => exact h
  | cons e es ih => exact ih (s.step e) (s.step_inv h hq e) (s.step_reqOk hq e)

/-- Two majorities share a node. -/
theorem majorities_meet (vs vs' : List (Fin n)) (h1 : vs.Nodup) (h2 : vs'.Nodup) (l1 : expectVotes n ≤ vs.length) (l2 : expectVotes n ≤ vs'.length) :
    ∃ v, v ∈ vs ∧ v ∈ vs' := by
  by_contra hno
  have hd : (vs ++ vs').Nodup := by
    rw [List.nodup_append]
    exact ⟨h1, h2, fun a ha b hb e => hno ⟨a, ha, e ▸ hb⟩⟩
  have := hd.length_le_card
  simp only [List.length_append, Fintype.card_fin, expectVotes] at *
  omega

theorem Elections.Inv.unique {s : Elections n} (h : s.Inv) (t : Nat) (c c' : Fin n) (h1 : (t, c) ∈ s.won) (h2 : (t, c') ∈ s.won) : c = c' := by
  obtain ⟨vs, a1, a2, a3⟩ := h.majority t c h1
  obtain ⟨vs', b1, b2, b3⟩ := h.majority t c' h2
  obtain ⟨v, hv, hv'⟩ := majorities_meet vs vs' a1 b1 a2 b2
  exact h.once v t c c' (a3 v hv) (b3 v hv')

/-- C54: in a cluster of any size, under every schedule of elections, votes, pings, delays and losses, no two
nodes win the same term. -/
theorem C54_one_winner (n : Nat) (es : List (ElectEvent n)) (t : Nat) (c c' : Fin n)
    (h1 : (t, c) ∈ ((Elections.initial n).run es).won) (h2 : (t, c') ∈ ((Elections.initial n).run es).won) : c = c' :=
  (Elections.run_inv es (Elections.initial n) (Elections.initial_inv n) (by simp [Elections.ReqOk, Elections.initial])).unique t c c' h1 h2

/-- C54: two nodes that are in the same term and have a leader have the same leader. -/
theorem C54_agreement (n : Nat) (es : List (ElectEvent n)) (v v' c c' : Fin n)
    (ht : ((Elections.initial n).run es).term v = ((Elections.initial n).run es).term v')
    (h1 : ((Elections.initial n).run es).leader v = some c) (h2 : ((Elections.initial n).run es).leader v' = some c') : c = c' := by
  have hi := Elections.run_inv es (Elections.initial n) (Elections.initial_inv n) (by simp [Elections.ReqOk, Elections.initial])
  exact hi.unique _ c c' (hi.leads v c h1) (ht ▸ hi.leads v' c' h2)

/-- C54: the case the code marks "It's a bug, should never happen!" does not: a ping of the node's own
term names the leader the node has, if it has one. -/
theorem C54_no_wrong_leader (n : Nat) (es : List (ElectEvent n)) (p : LeaderPing n) (c : Fin n)
    (hp : p ∈ ((Elections.initial n).run es).pings) (ht : p.term = ((Elections.initial n).run es).term p.dest)
    (hl : ((Elections.initial n).run es).leader p.dest = some c) : p.leader = c := by
  have hi := Elections.run_inv es (Elections.initial n) (Elections.initial_inv n) (by simp [Elections.ReqOk, Elections.initial])
  have h1 := hi.pinged p hp
  rw [ht] at h1
  exact hi.unique _ _ _ h1 (hi.leads _ c hl)

/-- A schedule in which node 0 of three wins term 1 although node 2 is a rival, and its ping arrives. -/
def demoSchedule : List (ElectEvent 3) :=
  [.start 0, .start 2, .vote 0, .answer 0, .timeout 2, .sendPings 0, .ping 1, .ping 0, .start 2]

example : ((Elections.initial 3).run demoSchedule).won = [(1, 0)] ∧
    ((Elections.initial 3).run demoSchedule).leader 1 = some 0 ∧ ((Elections.initial 3).run demoSchedule).term 2 = 2 := by decide +kernel

/-! ## C67: restarts -/

/-- A node restarts: cluster_leader.go:94-132 `failoverInit` begins at term 0 (nothing is stored). -/
def Elections.restart (s : Elections n) (i : Fin n) : Elections n :=
  { s with term := setAt s.term i 0, leader := setAt s.leader i none, running := setAt s.running i none }

/-- C67 (violated): when a node restarts between two elections, two nodes win the same term. -/
theorem C67_restart_violated :
    ∃ (a b : List (ElectEvent 3)) (i : Fin 3), ((((Elections.initial 3).run a).restart i).run b).won = [(1, 2), (1, 0)] :=
  ⟨[.start 0, .vote 0, .answer 0], [.start 2, .vote 2, .answer 0], 1, by decide +kernel⟩

end Verif
