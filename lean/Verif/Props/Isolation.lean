import Verif.Props.Delivery

/-!
# C85: messages stay within their contract
-/

namespace Verif

/-- The subscriptions are those of clients on the roll, for their contract. -/
def Enrolled (b : Spec.Desk) : Prop := ∀ r ∈ b.subs, ∃ i, AMap.get b.roll r.conn = some (r.contract, i)

theorem Enrolled.asked {b : Spec.Desk} (h : Enrolled b) (q : UInt32) (a : SubAsk) : Enrolled (b.asked q a) ∧ (b.asked q a).roll = b.roll := by
  simp only [Spec.Desk.asked]
  split
  · exact ⟨h, rfl⟩
  · next k i hk =>
    split
    · split
      · exact ⟨h, rfl⟩
      · split
        · refine ⟨?_, rfl⟩
          intro r hr
          obtain ⟨r0, hr0, rfl⟩ := List.mem_map.1 hr
          have := h r0 hr0
          split <;> exact this
        · refine ⟨?_, rfl⟩
          intro r hr
          rcases List.mem_cons.1 hr with rfl | hr
          · exact ⟨i, hk⟩
          · exact h r hr
    · exact ⟨h, rfl⟩

theorem Enrolled.dropped {b : Spec.Desk} (h : Enrolled b) (q : UInt32) (text : Bytes) : Enrolled (b.dropped q text) ∧ (b.dropped q text).roll = b.roll := by
  simp only [Spec.Desk.dropped]
  split
  · exact ⟨h, rfl⟩
  · split
    · refine ⟨?_, rfl⟩
      intro r hr
      obtain ⟨r0, hr0, rfl⟩ := List.mem_map.1 (List.mem_filter.1 hr).1
      have := h r0 hr0
      split <;> exact this
    · exact ⟨h, rfl⟩

theorem Enrolled.fold {α : Type} {f : Spec.Desk → α → Spec.Desk} (hf : ∀ b a, Enrolled b → Enrolled (f b a)) (l : List α) : ∀ b, Enrolled b → Enrolled (l.foldl f b) := by
  induction l with
  | nil => exact fun _ h => h
  | cons a l ih => exact fun b h => ih _ (hf b a h)

theorem Enrolled.present {b : Spec.Desk} (h : Enrolled b) (s : Srv) : Enrolled (b.present s) := by
  intro r hr
  obtain ⟨h1, h2⟩ := List.mem_filter.1 hr
  obtain ⟨i, hi⟩ := h r h1
  refine ⟨i, ?_⟩
  show AMap.get (b.roll.filter _) r.conn = _
  rw [AMap.get_filter b.roll (fun q => (AMap.get s.conns q).isSome) r.conn, hi]
  simp [h2]

theorem day_enrolled {v : SrvEnv} (hv : v.Sane) (hm : v.mac.cipher.Strips) {s : Srv} {b : Spec.Desk} (h : Spec.Day v s b) : Enrolled b := by
  induction h with
  | start => intro r hr; cases hr
  | @step s s' b ev h hp h1 hs ih =>
    refine Enrolled.present ?_ _
    cases ev with
    | accept q => exact ih
    | lost q => exact ih
    | packet q p =>
      cases p with
      | connect text epoch fresh insecure asked clean =>
        simp only [Spec.Desk.after]
        split
        · next id hid =>
          intro r hr
          by_cases hq : r.conn = q
          · exfalso
            obtain ⟨i, hi⟩ := ih r hr
            obtain ⟨hok, rows, F⟩ := day_fits hv hm h
            obtain ⟨c, hc⟩ := F.open_ _ _ hi
            rcases F.roll _ c hc with ⟨_, hn⟩ | ⟨k, hk, _⟩
            · rw [hi] at hn; cases hn
            · refine h1 q _ _ _ _ _ _ rfl ?_
              rw [← hq, (hok.conns _ c hc).told]
              intro hcl
              simp only [SrvConn.contract, hcl, Option.bind_none] at hk
              cases hk
          · obtain ⟨i, hi⟩ := ih r hr
            exact ⟨i, by show AMap.get (AMap.set b.roll q _) r.conn = _; rw [AMap.get_set, if_neg (fun e => hq (by first | exact e | exact e.symm))]; exact hi⟩
        · exact ih
      | subscribe mid asks => exact Enrolled.fold (fun b a hb => (hb.asked q a).1) asks b ih
      | unsubscribe mid texts => exact Enrolled.fold (fun b a hb => (hb.dropped q a).1) texts b ih
      | _ => exact ih

theorem reached_enrolled {α : Type} {v : SrvEnv} {b : Spec.Desk} (h : Enrolled b) {k : UInt32} {f : DMsg → Spec.Sub → List α} {ms : List DMsg} {x : α}
    (hx : x ∈ ms.flatMap (Spec.reached v b k f)) : ∃ m r i, x ∈ f m r ∧ AMap.get b.roll r.conn = some (k, i) := by
  obtain ⟨m, _, hx⟩ := List.mem_flatMap.1 hx
  simp only [Spec.reached] at hx
  split at hx
  · cases hx
  · next t ht =>
    obtain ⟨r, hr, hx⟩ := List.mem_flatMap.1 hx
    have hr := List.mem_of_mem_take hr
    simp only [Spec.Desk.subscribed, List.mem_filter, Bool.and_eq_true, beq_iff_eq] at hr
    obtain ⟨i, hi⟩ := h r hr.1
    exact ⟨_, r, i, hx, by rw [← hr.2.1]; exact hi⟩

/-- C85 (partial: the histories and packets of `C83_sent_partial`; what a client fetches from its session is not covered, see `C85_session_violated`). Whatever a publisher's packet makes the
server send or put in a batch is for a connection whose client has the publisher's contract, or the acknowledgement. -/
theorem C85_sent_partial (v : SrvEnv) (hv : v.Sane) (hm : v.mac.cipher.Strips) (s : Srv) (b : Spec.Desk) (h : Spec.Day v s b) (p : UInt32)
    (k : UInt32) (insecure : Bool) (hp : AMap.get b.roll p = some (k, insecure)) (pub : DPub) (hmid : pub.mid ≠ 0) (hms : ∀ m ∈ pub.msgs, Spec.Allowed v k insecure m) :
    ∃ s' new, s.step v (.packet p (.publish pub)) = .ok s' ∧ s'.out = s.out ++ new ++ [(p, .acked pub.mid)] ∧
      (∀ x ∈ new, ∃ i, AMap.get b.roll x.1 = some (k, i)) ∧
      ∀ q c, AMap.get s.conns q = some c → (∀ i, AMap.get b.roll q ≠ some (k, i)) → ∃ c', AMap.get s'.conns q = some c' ∧ c'.batch = c.batch := by
  obtain ⟨s', h1, h2, h3⟩ := C83_sent_partial v hv hm s b h p k insecure hp pub hmid hms
  have E := day_enrolled hv hm h
  refine ⟨s', _, h1, h2, ?_, ?_⟩
  · intro x hx
    obtain ⟨m, r, i, hx, hi⟩ := reached_enrolled E hx
    have : x.1 = r.conn := by
      simp only [Spec.sends] at hx
      split at hx
      · simp only [List.mem_singleton] at hx; rw [hx]
      · split at hx
        · simp only [List.mem_singleton] at hx; rw [hx]
        · simp at hx
    exact ⟨i, this ▸ hi⟩
  · intro q c hc hq
    obtain ⟨c', g1, g2⟩ := h3 q c hc
    refine ⟨c', g1, ?_⟩
    have : pub.msgs.flatMap (Spec.reached v b k (Spec.batches pub q)) = [] := by
      rw [List.eq_nil_iff_forall_not_mem]
      intro x hx
      obtain ⟨m, r, i, hx, hi⟩ := reached_enrolled E hx
      have : r.conn = q := by
        simp only [Spec.batches] at hx
        split at hx
        · next hc => exact hc.1
        · cases hx
      rw [this] at hi
      exact hq i hi
    rw [g2, this]
    cases c.batch <;> simp

/-- Clients 1 and 2 of contract 7, of which 2 reads `x`, and client 3 of contract 8, which connected in the same second as client 2. -/
def toyShare : List SrvEv :=
  toyConnect 1 100 7 true ++ toyConnect 2 101 7 true ++ toyConnect 3 101 8 true ++ [.packet 2 (.subscribe 3 [⟨toyText 107 120, 1, 0⟩])]

example : ∃ s b, Spec.Day toySrv s b ∧ AMap.get b.roll 1 = some (7, true) ∧ AMap.get b.roll 3 = some (8, true) ∧ Spec.Allowed toySrv 7 true ⟨toyText 107 120, [42]⟩ := by
  have h : (dayRun toySrv toyShare {} {}).any (fun r => decide (AMap.get r.2.roll 1 = some (7, true) ∧ AMap.get r.2.roll 3 = some (8, true) ∧ Spec.Allowed toySrv 7 true ⟨toyText 107 120, [42]⟩)) = true := by
    decide +kernel
  obtain ⟨r, h1, h2⟩ := (Option.any_eq_true _ _).1 h
  exact ⟨r.1, r.2, dayRun_sound .start h1, of_decide_eq_true h2⟩

/-- C85, violated: the session of a client is the second it was given its id (hdl_conn.go:132-157), so client 3 fetches the message that a client of contract 7
published for client 2 of contract 7. -/
theorem C85_session_violated : ∃ s b s', Spec.Day toySrv s b ∧ AMap.get b.roll 1 = some (7, true) ∧ AMap.get b.roll 3 = some (8, true) ∧
    Srv.run toySrv s [.packet 1 (.publish ⟨5, 1, [⟨toyText 107 120, [42]⟩]⟩), .packet 3 (.receive 5)] = .ok s' ∧ (3, .pub ⟨5, 1, [⟨toyText 107 120, [42]⟩]⟩) ∈ s'.out := by
  have h : (dayRun toySrv toyShare {} {}).any (fun r => decide (AMap.get r.2.roll 1 = some (7, true) ∧ AMap.get r.2.roll 3 = some (8, true)) &&
      ((r.1.run toySrv [.packet 1 (.publish ⟨5, 1, [⟨toyText 107 120, [42]⟩]⟩), .packet 3 (.receive 5)]).toOption.any fun s' =>
        s'.out.contains (3, .pub ⟨5, 1, [⟨toyText 107 120, [42]⟩]⟩))) = true := by decide +kernel
  obtain ⟨r, h1, h2⟩ := (Option.any_eq_true _ _).1 h
  rw [Bool.and_eq_true] at h2
  obtain ⟨h2, h3⟩ := h2
  obtain ⟨s', h3, h4⟩ := (Option.any_eq_true _ _).1 h3
  obtain ⟨g1, g2⟩ := of_decide_eq_true h2
  exact ⟨r.1, r.2, s', dayRun_sound .start h1, g1, g2, run_of_toOption h3, List.contains_iff_mem.1 h4⟩

end Verif
