import Verif.Props.ProtoLog
import Verif.Model.Front

/-!
# Properties of a server from bytes to bytes (C94)
-/

namespace Verif

/-! ## Strings and their pieces -/

/-- UTF-8 around a one-byte character. -/
theorem utf8_around : ∀ (n : Nat) (a : Bytes) (c : UInt8) (b : Bytes), a.length ≤ n → c.toNat < 128 → Pb.utf8 (a ++ c :: b) = true →
    Pb.utf8 a = true ∧ Pb.utf8 b = true := by
  intro n
  induction n with
  | zero =>
    intro a c b hn hc h
    have : a = [] := List.length_eq_zero_iff.1 (by omega)
    subst this
    rw [List.nil_append, Pb.utf8.eq_def] at h
    simp only at h
    rw [if_pos hc] at h
    exact ⟨by rw [Pb.utf8.eq_def], h⟩
  | succ n ih =>
    intro a c b hn hc h
    match a, hn, h with
    | [], _, h =>
      rw [List.nil_append, Pb.utf8.eq_def] at h
      simp only at h
      rw [if_pos hc] at h
      exact ⟨by rw [Pb.utf8.eq_def], h⟩
    | [x], _, h =>
      rw [List.cons_append, List.nil_append, Pb.utf8.eq_def] at h
      simp only at h
      by_cases hx : x.toNat < 0x80
      · rw [if_pos hx] at h
        have := ih [] c b (by simp) hc h
        exact ⟨by rw [Pb.utf8.eq_def]; simp only; rw [if_pos hx]; exact this.1, this.2⟩
      · rw [if_neg hx] at h
        split at h
        · simp only [Bool.and_eq_true, decide_eq_true_eq] at h; omega
        · split at h
          · cases h
          · split at h
            · simp only [Bool.and_eq_true, decide_eq_true_eq] at h
              have := h.1.1.1; split at this <;> omega
            · split at h
              · cases h
              · simp only [Bool.and_eq_true, decide_eq_true_eq] at h
                have := h.1.1.1.2.1; split at this <;> omega
    | [x, y], hn, h =>
      rw [List.cons_append, Pb.utf8.eq_def] at h
      simp only at h
      by_cases hx : x.toNat < 0x80
      · rw [if_pos hx] at h
        have := ih [y] c b (by simp at hn ⊢; omega) hc h
        exact ⟨by rw [Pb.utf8.eq_def]; simp only; rw [if_pos hx]; exact this.1, this.2⟩
      · rw [if_neg hx] at h
        simp only [List.cons_append, List.nil_append] at h
        split at h
        · next h2 =>
          simp only [Bool.and_eq_true, decide_eq_true_eq] at h
          have := ih [] c b (by simp) hc h.2
          refine ⟨?_, this.2⟩
          rw [Pb.utf8.eq_def]; simp only; rw [if_neg hx, if_pos h2]
          simp [h.1, this.1]
        · split at h
          · simp only [Bool.and_eq_true, decide_eq_true_eq] at h; omega
          · split at h
            · cases h
            · simp only [Bool.and_eq_true, decide_eq_true_eq] at h; omega
    | [x, y, z], hn, h =>
      rw [List.cons_append, Pb.utf8.eq_def] at h
      simp only at h
      by_cases hx : x.toNat < 0x80
      · rw [if_pos hx] at h
        have := ih [y, z] c b (by simp at hn ⊢; omega) hc h
        exact ⟨by rw [Pb.utf8.eq_def]; simp only; rw [if_pos hx]; exact this.1, this.2⟩
      · rw [if_neg hx] at h
        simp only [List.cons_append, List.nil_append] at h
        split at h
        · next h2 =>
          simp only [Bool.and_eq_true, decide_eq_true_eq] at h
          have := ih [z] c b (by simp at hn ⊢; omega) hc h.2
          refine ⟨?_, this.2⟩
          rw [Pb.utf8.eq_def]; simp only; rw [if_neg hx, if_pos h2]
          simp [h.1, this.1]
        · next h2 =>
          split at h
          · next h3 =>
            simp only [Bool.and_eq_true, decide_eq_true_eq] at h
            have := ih [] c b (by simp) hc h.2
            refine ⟨?_, this.2⟩
            rw [Pb.utf8.eq_def]; simp only; rw [if_neg hx, if_neg h2, if_pos h3]
            simp only [Bool.and_eq_true, decide_eq_true_eq]
            exact ⟨h.1, this.1⟩
          · simp only [Bool.and_eq_true, decide_eq_true_eq] at h; omega
    | x :: y :: z :: w :: a, hn, h =>
      rw [List.cons_append, Pb.utf8.eq_def] at h
      simp only at h
      by_cases hx : x.toNat < 0x80
      · rw [if_pos hx] at h
        have := ih (y :: z :: w :: a) c b (by simp at hn ⊢; omega) hc h
        exact ⟨by rw [Pb.utf8.eq_def]; simp only; rw [if_pos hx]; exact this.1, this.2⟩
      · rw [if_neg hx] at h
        simp only [List.cons_append] at h
        split at h
        · next h2 =>
          simp only [Bool.and_eq_true, decide_eq_true_eq] at h
          have := ih (z :: w :: a) c b (by simp at hn ⊢; omega) hc h.2
          refine ⟨?_, this.2⟩
          rw [Pb.utf8.eq_def]; simp only; rw [if_neg hx, if_pos h2]
          simp [h.1, this.1]
        · next h2 =>
          split at h
          · next h3 =>
            simp only [Bool.and_eq_true, decide_eq_true_eq] at h
            have := ih (w :: a) c b (by simp at hn ⊢; omega) hc h.2
            refine ⟨?_, this.2⟩
            rw [Pb.utf8.eq_def]; simp only; rw [if_neg hx, if_neg h2, if_pos h3]
            simp only [Bool.and_eq_true, decide_eq_true_eq]
            exact ⟨h.1, this.1⟩
          · next h3 =>
            simp only [Bool.and_eq_true, decide_eq_true_eq] at h
            have := ih a c b (by simp at hn ⊢; omega) hc h.2
            refine ⟨?_, this.2⟩
            rw [Pb.utf8.eq_def]; simp only; rw [if_neg hx, if_neg h2, if_neg h3]
            simp only [Bool.and_eq_true, decide_eq_true_eq]
            exact ⟨h.1, this.1⟩

theorem utf8_after_ascii : ∀ a b : Bytes, (∀ c ∈ a, c.toNat < 128) → Pb.utf8 b = true → Pb.utf8 (a ++ b) = true := by
  intro a
  induction a with
  | nil => intro b _ h; exact h
  | cons x a ih =>
    intro b hx h
    rw [List.cons_append, Pb.utf8.eq_def]
    simp only
    rw [if_pos (hx x (by simp))]
    exact ih b (fun c hc => hx c (by simp [hc])) h

theorem fieldsAux_utf8 {sep : UInt8} (hs : sep.toNat < 128) : ∀ (b cur : Bytes), Pb.utf8 (cur ++ b) = true → ∀ x ∈ fieldsAux sep cur b, Pb.utf8 x = true := by
  intro b
  induction b with
  | nil =>
    intro cur h x hx
    simp only [fieldsAux] at hx
    split at hx
    · simp at hx
    · simp only [List.mem_singleton] at hx; subst hx; simpa using h
  | cons d b ih =>
    intro cur h x hx
    simp only [fieldsAux] at hx
    split at hx
    · next e =>
      subst e
      obtain ⟨h1, h2⟩ := utf8_around _ cur d b (Nat.le_refl _) hs h
      split at hx
      · exact ih [] h2 x hx
      · rcases List.mem_cons.1 hx with rfl | hx
        · exact h1
        · exact ih [] h2 x hx
    · exact ih (cur ++ [d]) (by simpa using h) x hx

theorem fieldsAux_prefix {sep : UInt8} : ∀ (b cur : Bytes) (x : Bytes) (r : List Bytes), (cur ≠ [] ∨ b.head? ≠ some sep) → fieldsAux sep cur b = x :: r → x <+: cur ++ b := by
  intro b
  induction b with
  | nil =>
    intro cur x r _ h
    simp only [fieldsAux] at h
    split at h
    · cases h
    · injection h with h; subst h; exact ⟨[], by simp⟩
  | cons d b ih =>
    intro cur x r hc h
    simp only [fieldsAux] at h
    split at h
    · next e =>
      subst e
      rcases hc with hc | hc
      · rw [if_neg hc] at h
        injection h with h; subst h; exact ⟨_, rfl⟩
      · simp at hc
    · have := ih (cur ++ [d]) x r (.inl (by simp)) h
      simpa using this

theorem fieldsAux_first {sep : UInt8} : ∀ (b : Bytes) (x : Bytes) (r : List Bytes), fieldsAux sep [] b = x :: r →
    ∃ a c, b = a ++ x ++ c ∧ (a = [] ∨ ∃ a', a = a' ++ [sep]) := by
  intro b
  induction b with
  | nil => intro x r h; simp [fieldsAux] at h
  | cons d b ih =>
    intro x r h
    by_cases e : d = sep
    · simp only [fieldsAux, e, if_true] at h
      obtain ⟨a, c, rfl, ha⟩ := ih x r h
      refine ⟨d :: a, c, by simp, .inr ?_⟩
      rcases ha with rfl | ⟨a', rfl⟩
      · exact ⟨[], by simp [e]⟩
      · exact ⟨d :: a', by simp⟩
    · obtain ⟨c, hc⟩ := fieldsAux_prefix (d :: b) [] x r (.inr (by simpa using e)) h
      exact ⟨[], c, by simpa using hc.symm, .inl rfl⟩

theorem fieldsAux_second {sep : UInt8} : ∀ (b cur : Bytes) (k x : Bytes) (r : List Bytes), fieldsAux sep cur b = k :: x :: r → ∃ a c, b = a ++ sep :: x ++ c := by
  intro b
  induction b with
  | nil =>
    intro cur k x r h
    simp only [fieldsAux] at h
    split at h <;> simp at h
  | cons d b ih =>
    intro cur k x r h
    simp only [fieldsAux] at h
    split at h
    · next e =>
      subst e
      split at h
      · obtain ⟨a, c, rfl⟩ := ih [] k x r h
        exact ⟨d :: a, c, by simp⟩
      · injection h with _ h
        obtain ⟨a, c, rfl, ha⟩ := fieldsAux_first b x r h
        rcases ha with rfl | ⟨a', rfl⟩
        · exact ⟨[], c, by simp⟩
        · exact ⟨d :: a', c, by simp⟩
    · obtain ⟨a, c, rfl⟩ := ih _ k x r h
      exact ⟨d :: a, c, by simp⟩

/-- The text of a published topic in which no slash is followed by a question mark. -/
def Spec.Clear (text : Bytes) : Prop := ∀ a b, text ≠ a ++ 47 :: 63 :: b

theorem parse_utf8 {text : Bytes} (hu : Pb.utf8 text = true) (hc : Spec.Clear text) {t : ReqTopic} (h : parseRequest text = some t) :
    Pb.utf8 (t.topic.take t.size) = true := by
  have hall := fieldsAux_utf8 (sep := chSlash) (by decide) text [] (by simpa using hu)
  simp only [parseRequest] at h
  rw [show fields chSlash text = fieldsAux chSlash [] text from rfl] at h
  split at h
  · cases h
  · next x e =>
    rw [e] at hall
    injection h with h; subst h
    simpa using hall x (by simp)
  · next k x r e =>
    have hx := hall x (by rw [e]; simp)
    split at h
    · injection h with h; subst h; simp [Pb.utf8]
    · next p r' e' =>
      injection h with h; subst h
      have hh : x.head? ≠ some chQuery := by
        intro hh
        obtain ⟨a, c, hac⟩ := fieldsAux_second text [] k x r e
        cases x with
        | nil => simp at hh
        | cons d x =>
          simp only [List.head?_cons, Option.some.injEq] at hh
          subst hh
          exact hc a (x ++ c) (by rw [hac]; simp [chSlash, chQuery])
      have hp := fieldsAux_prefix x [] p r' (.inr hh) e'
      simp only [List.nil_append] at hp
      rw [← List.prefix_iff_eq_take.1 hp]
      exact fieldsAux_utf8 (sep := chQuery) (by decide) x [] (by simpa using hx) p (by rw [show fieldsAux chQuery [] x = fields chQuery x from rfl, e']; simp)

/-! ## What arrives is UTF-8 -/

theorem fill_inv {α : Type} {f : α → Nat → Pb.Val → Option α} {P : α → Prop} (hf : ∀ a n v a', P a → f a n v = some a' → P a') :
    ∀ (l : List (Nat × Pb.Val)) (a : α), P a → P (Pb.fill f a l).1 := by
  intro l
  induction l with
  | nil => intro a h; exact h
  | cons x l ih =>
    intro a h
    obtain ⟨n, v⟩ := x
    simp only [Pb.fill]
    cases e : f a n v with
    | none => exact h
    | some a' => exact ih a' (hf a n v a' h e)

theorem message_utf8 (b : Bytes) : Pb.utf8 (Pb.unmarshal PMessage.take {} b).1.topic = true := by
  refine fill_inv (P := fun m : PMessage => Pb.utf8 m.topic = true) ?_ _ _ (by decide)
  intro m n v m' h e
  simp only [PMessage.take] at e
  split at e
  · simp only [Pb.string] at e
    split at e
    · next hu => injection e with e; subst e; exact hu
    · cases e
  · injection e with e; subst e; exact h
  · simp only [Pb.string] at e
    split at e
    · injection e with e; subst e; exact h
    · cases e
  · injection e with e; subst e; exact h

theorem publish_utf8 (b : Bytes) : ∀ m ∈ (Pb.unmarshal PPublish.take {} b).1.messages, Pb.utf8 m.topic = true := by
  refine fill_inv (P := fun p : PPublish => ∀ m ∈ p.messages, Pb.utf8 m.topic = true) ?_ _ _ (by simp)
  intro p n v p' h e
  simp only [PPublish.take] at e
  split at e
  · injection e with e; subst e; exact h
  · injection e with e; subst e; exact h
  · next x =>
    simp only [Pb.append] at e
    split at e
    · next m hm =>
      injection e with e; subst e
      intro m' hm'
      rcases List.mem_append.1 hm' with hm' | hm'
      · exact h m' hm'
      · simp only [List.mem_singleton] at hm'
        subst hm'
        have := message_utf8 x
        rw [hm] at this
        exact this
    · cases e
  · injection e with e; subst e; exact h

/-- The topics of a publish that was read are UTF-8. -/
theorem read_utf8 {b rest : Bytes} {p : PPublish} (h : readPacket b = .ok (.publish p) rest) : ∀ m ∈ p.messages, Pb.utf8 m.topic = true := by
  simp only [readPacket] at h
  split at h
  · cases h
  · split at h
    · cases h
    · split at h
      · cases h
      · split at h
        · cases h
        · split at h
          · cases h
          · split at h
            · cases h
            · split at h
              · cases h
              · simp only [PbHeader.unpack] at h
                split at h
                · cases h
                · next q hq =>
                  injection h with h1 h2
                  subst h1
                  simp only [UPacket.fromBinary] at hq
                  split at hq
                  · cases hq
                  · split at hq
                    · cases hq
                    · split at hq
                      · injection hq with hq; injection hq with hq; subst hq; exact publish_utf8 _
                      · split at hq
                        · cases hq
                        · split at hq
                          · cases hq
                          · split at hq <;> cases hq

/-- What the log gives back is UTF-8, if its codec is that of the packets. -/
theorem logDecode_utf8 (b : Bytes) (p : DPub) (h : logDecode b = some (.pub p)) : ∀ m ∈ p.msgs, Pb.utf8 m.topic = true := by
  simp only [logDecode] at h
  split at h
  · next q rest hq =>
    injection h with h; injection h with h; subst h
    intro m hm
    simp only [List.mem_map] at hm
    obtain ⟨x, hx, rfl⟩ := hm
    exact read_utf8 hq x hx
  · cases h
  · cases h

/-! ## What is sent -/

/-- Everything sent since is of this kind. -/
def Outs (P : Sent → Prop) (s s' : Srv) : Prop := ∀ x ∈ s'.out, x ∈ s.out ∨ P x.2

theorem Outs.refl {P : Sent → Prop} (s : Srv) : Outs P s s := fun _ h => .inl h

theorem Outs.trans {P : Sent → Prop} {s s' s'' : Srv} (h : Outs P s s') (h' : Outs P s' s'') : Outs P s s'' := fun x hx =>
  (h' x hx).elim (fun hx => h x hx) .inr

theorem Outs.same {P : Sent → Prop} {s s' s'' : Srv} (h : Outs P s s') (e : s''.out = s'.out) : Outs P s s'' := fun x hx => h x (e ▸ hx)

theorem Outs.emit {P : Sent → Prop} {s s' : Srv} (h : Outs P s s') (q : UInt32) {x : Sent} (hx : P x) : Outs P s (s'.emit q x) := by
  intro y hy
  simp only [Srv.emit, List.mem_append, List.mem_singleton] at hy
  rcases hy with hy | rfl
  · exact h y hy
  · exact .inr hx

theorem outs_fold {P : Sent → Prop} {α β : Type} {f : α → β → SrvM α} (g : α → Srv) (hf : ∀ a b a', f a b = .ok a' → Outs P (g a) (g a')) :
    ∀ (l : List β) (a a' : α), SrvM.fold f a l = .ok a' → Outs P (g a) (g a') := by
  intro l
  induction l with
  | nil => intro a a' h; simp only [SrvM.fold] at h; injection h with h; subst h; exact .refl _
  | cons b l ih =>
    intro a a' h
    simp only [SrvM.fold] at h
    cases e : f a b with
    | error x => rw [e] at h; cases h
    | ok a1 => rw [e] at h; exact (hf a b a1 e).trans (ih a1 a' h)

/-- A packet the server may send: a control message, or a publish with topics that are UTF-8. -/
def Fair : Sent → Prop
  | .pub p => ∀ m ∈ p.msgs, Pb.utf8 m.topic = true
  | _ => True

theorem outs_sendMessage {v : SrvEnv} {s : Srv} {q : UInt32} {mid : UInt16} {mode : UInt8} {delay : UInt32} {m : DMsg} (hm : Pb.utf8 m.topic = true)
    {r : UInt16 × Srv} (h : s.sendMessage v q mid mode delay m = .ok r) : Outs Fair s r.2 := by
  simp only [Srv.sendMessage] at h
  split at h
  · injection h with h; subst h; exact .refl _
  · next c hc =>
    cases e : c.draw mid with
    | error x => rw [e] at h; cases h
    | ok d =>
      rw [e] at h
      simp only [Except.bind] at h
      split at h
      · split at h
        · cases h
        · injection h with h; subst h; exact .refl _
      · injection h with h; subst h
        refine Outs.emit (Outs.same (.refl s) rfl) _ ?_
        intro m' hm'
        simp only [List.mem_singleton] at hm'
        subst hm'; exact hm

theorem outs_deliver {v : SrvEnv} {p : UInt32} {pub : DPub} {m : DMsg} (hm : Pb.utf8 m.topic = true) {x r : UInt16 × Srv} {e : SubEntry}
    (h : Srv.deliver v p pub m x e = .ok r) : Outs Fair x.2 r.2 := by
  simp only [Srv.deliver] at h
  split at h
  · next c _ _ =>
    cases hd : SrvConn.draw _ x.1 with
    | error y => rw [hd] at h; cases h
    | ok d =>
      rw [hd] at h
      simp only [Except.bind] at h
      have h0 : Outs Fair x.2 (x.2.setConn p d.2) := Outs.same (.refl _) rfl
      split at h
      · split at h
        · split at h
          · injection h with h; subst h; exact h0
          · injection h with h; subst h
            exact Outs.emit (h0.same rfl) _ trivial
        · split at h
          · exact h0.trans (outs_sendMessage hm h)
          · injection h with h; subst h; exact h0
      · split at h
        · exact h0.trans (outs_sendMessage hm h)
        · injection h with h; subst h; exact h0
  · injection h with h; subst h; exact .refl _

theorem outs_publish {v : SrvEnv} {s s' : Srv} {p : UInt32} {c : SrvConn} {pub : DPub} {t : ReqTopic} {payload : Bytes}
    (ht : Pb.utf8 (t.topic.take t.size) = true) (h : s.publish v p c pub t payload = .ok s') : Outs Fair s s' := by
  simp only [Srv.publish] at h
  cases hk : c.contract with
  | error y => rw [hk] at h; cases h
  | ok k =>
    rw [hk] at h
    simp only [Except.bind] at h
    cases hf : SrvM.fold (Srv.deliver v p pub ⟨t.topic.take t.size, payload⟩) (pub.mid, s) (s.matching v k t.topic) with
    | error y => rw [hf] at h; cases h
    | ok r =>
      rw [hf] at h
      simp only [Except.map] at h
      injection h with h; subst h
      exact outs_fold (·.2) (fun a b a' e => outs_deliver (m := ⟨t.topic.take t.size, payload⟩) ht e) _ _ _ hf

theorem apiPrefix_ascii : ∀ c ∈ apiPrefix, c.toNat < 128 := by decide +kernel

theorem errorTopic_utf8 : Pb.utf8 errorTopic = true := by decide +kernel

theorem clientIdTopic_utf8 : Pb.utf8 clientIdTopic = true := by decide +kernel

theorem outs_notifyError {v : SrvEnv} {s s' : Srv} {q : UInt32} {e : Verdict} {mid : UInt16} (h : s.notifyError v q e mid = .ok s') : Outs Fair s s' := by
  simp only [Srv.notifyError] at h
  cases hs : s.sendMessage v q 0 0 0 ⟨errorTopic, v.errorText e mid⟩ with
  | error y => rw [hs] at h; cases h
  | ok r =>
    rw [hs] at h
    simp only [Except.map] at h
    injection h with h; subst h
    exact outs_sendMessage (m := ⟨errorTopic, v.errorText e mid⟩) errorTopic_utf8 hs

theorem outs_special {v : SrvEnv} {s s' : Srv} {q : UInt32} {c : SrvConn} {t : ReqTopic} {payload : Bytes} (ht : Pb.utf8 (t.topic.take t.size) = true)
    (h : s.special v q c t payload = .ok s') : Outs Fair s s' := by
  simp only [Srv.special] at h
  split at h
  · cases h
  · cases hs : s.sendMessage v q 0 0 0 ⟨apiPrefix ++ t.topic.take t.size, v.answer (t.topic.take t.size) payload⟩ with
    | error y => rw [hs] at h; cases h
    | ok r =>
      rw [hs] at h
      simp only [Except.map] at h
      injection h with h; subst h
      exact outs_sendMessage (m := ⟨apiPrefix ++ t.topic.take t.size, v.answer (t.topic.take t.size) payload⟩) (utf8_after_ascii _ _ apiPrefix_ascii ht) hs

/-- The topics of the messages, as they are sent on, are UTF-8. -/
def Sendable (msgs : List DMsg) : Prop := ∀ m ∈ msgs, ∀ t, parseRequest m.topic = some t → Pb.utf8 (t.topic.take t.size) = true

theorem outs_publishAll {v : SrvEnv} {q : UInt32} {pub : DPub} : ∀ (msgs : List DMsg) (_ : Sendable msgs) (s : Srv) (r : PubEnd × Srv),
    s.publishAll v q pub msgs = .ok r → Outs Fair s r.2 := by
  intro msgs
  induction msgs with
  | nil => intro _ s r h; simp only [Srv.publishAll] at h; injection h with h; subst h; exact .refl _
  | cons m ms ih =>
    intro hm s r h
    simp only [Srv.publishAll] at h
    split at h
    · injection h with h; subst h; exact .refl _
    · cases h
    · next c t hc ht =>
      have hu := hm m (by simp) t ht
      split at h
      · injection h with h; subst h; exact .refl _
      · split at h
        · cases hs : s.special v q c t m.payload with
          | error y => rw [hs] at h; cases h
          | ok s1 =>
            rw [hs] at h
            simp only [Except.map] at h
            injection h with h; subst h
            exact outs_special hu hs
        · cases hw : c.check t with
          | error y => rw [hw] at h; cases h
          | ok w =>
            rw [hw] at h
            simp only [Except.bind] at h
            split at h
            · injection h with h; subst h; exact .refl _
            · cases hk : c.contract with
              | error y => rw [hk] at h; cases h
              | ok k =>
                rw [hk] at h
                simp only at h
                split at h
                · cases hp : s.publish v q c pub t m.payload with
                  | error y => rw [hp] at h; cases h
                  | ok s1 =>
                    rw [hp] at h
                    exact (outs_publish hu hp).trans (ih (fun m' hm' => hm m' (by simp [hm'])) s1 r h)
                · injection h with h; subst h; exact .refl _
                · cases h
            · injection h with h; subst h; exact .refl _

theorem outs_onPublish {v : SrvEnv} {q : UInt32} {pub : DPub} (hm : Sendable pub.msgs) {s s' : Srv} (h : s.onPublish v q pub = .ok s') : Outs Fair s s' := by
  simp only [Srv.onPublish] at h
  cases hp : s.publishAll v q pub pub.msgs with
  | error y => rw [hp] at h; cases h
  | ok r =>
    rw [hp] at h
    simp only [Except.bind] at h
    have h0 := outs_publishAll pub.msgs hm s r hp
    split at h
    · injection h with h; subst h; exact h0.emit _ trivial
    · injection h with h; subst h; exact h0
    · cases hs : r.2.sendMessage v q 0 0 0 ⟨errorTopic, v.putError pub.mid⟩ with
      | error y => rw [hs] at h; cases h
      | ok r' =>
        rw [hs] at h
        simp only [Except.map] at h
        injection h with h; subst h
        exact h0.trans (outs_sendMessage (m := ⟨errorTopic, v.putError pub.mid⟩) errorTopic_utf8 hs)
    · exact h0.trans (outs_notifyError h)

theorem outs_request {v : SrvEnv} {s s' : Srv} {q : UInt32} {mid : UInt16} {text : Bytes} {f : SrvConn → ReqTopic → SrvM (Option Verdict × Srv)}
    (hf : ∀ c t r, f c t = .ok r → Outs Fair s r.2) (h : s.request v q mid text f = .ok s') : Outs Fair s s' := by
  simp only [Srv.request] at h
  split at h
  · injection h with h; subst h; exact .refl _
  · cases h
  · next c t _ _ =>
    split at h
    · exact outs_notifyError h
    · cases hw : c.check t with
      | error y => rw [hw] at h; cases h
      | ok w =>
        rw [hw] at h
        simp only [Except.bind] at h
        split at h
        · cases hr : f c t with
          | error y => rw [hr] at h; cases h
          | ok r =>
            rw [hr] at h
            simp only at h
            split at h
            · injection h with h; subst h; exact hf c t r hr
            · exact (hf c t r hr).trans (outs_notifyError h)
        · exact outs_notifyError h

theorem out_close {s s' : Srv} {q : UInt32} (h : s.close q = .ok s') : s'.out = s.out := by
  simp only [Srv.close] at h
  split at h
  · injection h with h; subst h; rfl
  · split at h
    · cases h
    · injection h with h; subst h; rfl

theorem out_subscribeTo {s : Srv} {q : UInt32} {c : SrvConn} {t : ReqTopic} {a : SubAsk} {r : Option Verdict × Srv} (h : s.subscribeTo q c t a = .ok r) : r.2.out = s.out := by
  simp only [Srv.subscribeTo] at h
  cases hk : c.contract with
  | error y => rw [hk] at h; cases h
  | ok k =>
    rw [hk] at h
    simp only [Except.bind] at h
    split at h
    · injection h with h; subst h; rfl
    · injection h with h; subst h
      simp only
      split <;> rfl

theorem out_unsubscribeFrom {s : Srv} {q : UInt32} {c : SrvConn} {t : ReqTopic} {r : Option Verdict × Srv} (h : s.unsubscribeFrom q c t = .ok r) : r.2.out = s.out := by
  simp only [Srv.unsubscribeFrom] at h
  cases hk : c.contract with
  | error y => rw [hk] at h; cases h
  | ok k =>
    rw [hk] at h
    simp only [Except.bind] at h
    split at h
    · injection h with h; subst h; rfl
    · split at h
      · injection h with h; subst h; rfl
      · injection h with h; subst h; rfl

theorem outs_notes (q : UInt32) : ∀ (l : List UInt16) (s : Srv), Outs Fair s (l.foldl (fun s n => s.emit q (.notify n)) s) := by
  intro l
  induction l with
  | nil => intro s; exact .refl _
  | cons n l ih => intro s; exact (Outs.emit (.refl s) q trivial).trans (ih _)

theorem outs_connect {v : SrvEnv} {s s' : Srv} {q : UInt32} {text : Bytes} {epoch : UInt32} {fresh : Bytes} {insecure : Bool} {asked : UInt32} {clean : Bool}
    (h : s.onConnectPacket v q text epoch fresh insecure asked clean = .ok s') : Outs Fair s s' := by
  simp only [Srv.onConnectPacket] at h
  split at h
  · injection h with h; subst h; exact .refl _
  · next c _ =>
    split at h
    · next cache _ =>
      have h0 : Outs Fair s ((({ s with cache } : Srv).setConn q { c with insecure }).emit q (.connack false)) := Outs.emit (Outs.same (.refl s) rfl) _ trivial
      cases hs : ((({ s with cache } : Srv).setConn q { c with insecure }).emit q (.connack false)).sendMessage v q 0 0 0 ⟨clientIdTopic, fresh⟩ with
      | error y => rw [hs] at h; cases h
      | ok r =>
        rw [hs] at h
        simp only [Except.bind] at h
        exact (h0.trans (outs_sendMessage (m := ⟨clientIdTopic, fresh⟩) clientIdTopic_utf8 hs)).same (out_close h)
    · split at h
      · cases h
      · split at h
        · cases h
        · next log ids notes _ =>
          injection h with h; subst h
          exact (Outs.emit (Outs.same (.refl s) rfl) _ trivial).trans (outs_notes q _ _)

theorem outs_relayOne {v : SrvEnv} {q : UInt32} {mid : UInt16} {s s' : Srv} {a : Bytes × List Bytes} (h : Srv.relayOne v q mid s a = .ok s') : Outs Fair s s' := by
  refine outs_request ?_ h
  intro c t r hr
  cases hk : c.contract with
  | error y => rw [hk] at hr; cases hr
  | ok k =>
    rw [hk] at hr
    simp only [Except.bind] at hr
    cases hf : SrvM.fold (fun s m => (s.sendMessage v q 0 2 0 ⟨t.topic, m⟩).map (·.2)) s a.2 with
    | error y => rw [hf] at hr; cases hr
    | ok s1 =>
      rw [hf] at hr
      simp only [Except.map] at hr
      injection hr with hr; subst hr
      refine outs_fold id ?_ _ _ _ hf
      intro b m b' e
      simp only [id]
      -- a message of delivery mode 2 goes to the batch
      simp only [Srv.sendMessage] at e
      split at e
      · simp only [Except.map] at e; injection e with e; subst e; exact .refl _
      · next c' _ =>
        cases hd : c'.draw 0 with
        | error y => rw [hd] at e; cases e
        | ok d =>
          rw [hd] at e
          simp only [Except.bind, true_or, if_true] at e
          split at e
          · cases e
          · simp only [Except.map] at e; injection e with e; subst e; exact .refl _

/-- The packets of a client whose topics are sent on as UTF-8. -/
def Packet.Fit : Packet → Prop
  | .publish p => Sendable p.msgs
  | _ => True

theorem outs_handle {v : SrvEnv} (hdec : ∀ b p, v.dec b = some (.pub p) → ∀ m ∈ p.msgs, Pb.utf8 m.topic = true) {s s' : Srv} {q : UInt32} {x : Packet} (hx : x.Fit)
    (h : s.handle v q x = .ok s') : Outs Fair s s' := by
  cases x with
  | connect text epoch fresh insecure asked clean => exact outs_connect h
  | subscribe mid asks =>
    simp only [Srv.handle] at h
    cases hf : SrvM.fold (fun s a => s.request v q mid a.text fun c t => s.subscribeTo q c t a) s asks with
    | error y => rw [hf] at h; cases h
    | ok s1 =>
      rw [hf] at h
      simp only [Except.map] at h
      injection h with h; subst h
      exact (outs_fold id (fun a b a' e => outs_request (fun c t r hr => Outs.same (.refl _) (out_subscribeTo hr)) e) _ _ _ hf).emit _ trivial
  | unsubscribe mid texts =>
    simp only [Srv.handle] at h
    cases hf : SrvM.fold (fun s text => s.request v q mid text fun c t => s.unsubscribeFrom q c t) s texts with
    | error y => rw [hf] at h; cases h
    | ok s1 =>
      rw [hf] at h
      simp only [Except.map] at h
      injection h with h; subst h
      exact (outs_fold id (fun a b a' e => outs_request (fun c t r hr => Outs.same (.refl _) (out_unsubscribeFrom hr)) e) _ _ _ hf).emit _ trivial
  | relay mid asks =>
    simp only [Srv.handle] at h
    cases hf : SrvM.fold (Srv.relayOne v q mid) s asks with
    | error y => rw [hf] at h; cases h
    | ok s1 =>
      rw [hf] at h
      simp only [Except.map] at h
      injection h with h; subst h
      exact (outs_fold id (fun a b a' e => outs_relayOne e) _ _ _ hf).emit _ trivial
  | publish p => exact outs_onPublish hx h
  | receive mid =>
    simp only [Srv.handle] at h
    split at h
    · injection h with h; subst h; exact .refl _
    · split at h
      · exact Outs.same (.refl _) (out_close h)
      · next p hp =>
        injection h with h; subst h
        obtain ⟨raw, _, hraw⟩ := Option.bind_eq_some_iff.1 hp
        exact Outs.emit (.refl _) _ (hdec raw p hraw)
      · injection h with h; subst h; exact .refl _
  | receipt mid =>
    simp only [Srv.handle] at h
    split at h
    · injection h with h; subst h; exact .refl _
    · injection h with h; subst h
      refine Outs.emit (Outs.same (.refl _) ?_) _ trivial
      split <;> rfl
  | ping => simp only [Srv.handle] at h; injection h with h; subst h; exact Outs.emit (.refl _) _ trivial
  | disconnect => exact Outs.same (.refl _) (out_close h)

theorem outs_step {v : SrvEnv} (hdec : ∀ b p, v.dec b = some (.pub p) → ∀ m ∈ p.msgs, Pb.utf8 m.topic = true) {s s' : Srv} {ev : SrvEv}
    (hx : ∀ q x, ev = .packet q x → x.Fit) (h : s.step v ev = .ok s') : Outs Fair s s' := by
  cases ev with
  | accept q => simp only [Srv.step] at h; injection h with h; subst h; exact Outs.same (.refl _) rfl
  | packet q x =>
    simp only [Srv.step] at h
    split at h
    · injection h with h; subst h; exact .refl _
    · exact outs_handle hdec (hx q x rfl) h
  | lost q => exact Outs.same (.refl _) (out_close h)

/-! ## A server and its packets -/

/-- The published topics among what was heard. -/
def Spec.AllClear (heard : List (UInt32 × UPacket)) : Prop :=
  ∀ x ∈ heard, ∀ p, x.2 = .publish p → ∀ m ∈ p.messages, Spec.Clear m.topic

/-- The packets a server writes: publishes on topics that are UTF-8, control messages whose type and flow control belong together, and the bare
acknowledgement of a ping. -/
def Proper94 : UPacket → Prop
  | .publish p => ∀ m ∈ p.messages, Pb.utf8 m.topic = true ∧ m.ttl = []
  | .control t f c => (f = 1 ∧ 1 ≤ t ∧ t ≤ 5 ∨ t = 2 ∧ 2 ≤ f ∧ f ≤ 5) ∨ (t = 6 ∧ f = 1 ∧ c = {})
  | _ => False

theorem packet_proper (w : Outside) (p : UPacket) (s : Srv) (q : UInt32) {x : Sent} (h : Fair x) : Proper94 (x.packet w p.ackType s q) := by
  cases x with
  | connack ok => exact .inl (.inl (by decide))
  | ack => exact .inr ⟨rfl, rfl, rfl⟩
  | acked mid =>
    refine .inl (.inl ⟨rfl, ?_⟩)
    cases p <;> simp only [UPacket.ackType] <;> decide
  | notify mid => exact .inl (.inr (by decide))
  | complete mid => exact .inl (.inr (by decide))
  | pub p =>
    intro m hm
    simp only [List.mem_map] at hm
    obtain ⟨y, hy, rfl⟩ := hm
    exact ⟨h y hy, rfl⟩

theorem handled_fit {w : Outside} {b rest : Bytes} {p : UPacket} {x : Packet} (hr : readPacket b = .ok p rest)
    (hc : ∀ pp, p = .publish pp → ∀ m ∈ pp.messages, Spec.Clear m.topic) (h : p.handled w = some x) : x.Fit := by
  cases p with
  | publish pp =>
    simp only [UPacket.handled, Option.some.injEq] at h
    subst h
    intro m hm t ht
    simp only [List.mem_map] at hm
    obtain ⟨y, hy, rfl⟩ := hm
    exact parse_utf8 (read_utf8 hr y hy) (hc pp rfl y hy) ht
  | control ty fl c =>
    simp only [UPacket.handled] at h
    split at h
    · injection h with h; subst h; trivial
    · split at h
      · injection h with h; subst h; trivial
      · cases h
  | connect c => simp only [UPacket.handled, Option.some.injEq] at h; subst h; trivial
  | relay c => simp only [UPacket.handled, Option.some.injEq] at h; subst h; trivial
  | subscribe c => simp only [UPacket.handled, Option.some.injEq] at h; subst h; trivial
  | unsubscribe c => simp only [UPacket.handled, Option.some.injEq] at h; subst h; trivial
  | ping => simp only [UPacket.handled, Option.some.injEq] at h; subst h; trivial
  | disconnect c => simp only [UPacket.handled, Option.some.injEq] at h; subst h; trivial

/-- What holds of a server and its packets as long as the topics heard are clear. -/
def Tidy (f : Front) : Prop := Spec.AllClear f.heard → (∀ x ∈ f.srv.out, Fair x.2) ∧ ∀ x ∈ f.wire, Proper94 x.2

theorem tidy_step {v : SrvEnv} (hdec : ∀ b p, v.dec b = some (.pub p) → ∀ m ∈ p.msgs, Pb.utf8 m.topic = true) {f f' : Front} {ev : FrontEv}
    (h : Tidy f) (hs : f.step v ev = .ok f') : Tidy f' := by
  have quiet : ∀ {s : Srv} {e : SrvEv}, (∀ q x, e ≠ .packet q x) → f.srv.step v e = .ok s → f'.srv = s → f'.heard = f.heard → f'.wire = f.wire → Tidy f' := by
    intro s e he hs h1 h2 h3 hc
    obtain ⟨g1, g2⟩ := h (h2 ▸ hc)
    refine ⟨fun x hx => ?_, h3 ▸ g2⟩
    exact (outs_step hdec (fun q x e' => absurd e' (he q x)) hs x (h1 ▸ hx)).elim (g1 x) id
  cases ev with
  | accept q b =>
    simp only [Front.step] at hs
    cases e : f.srv.step v (.accept q) with
    | error y => rw [e] at hs; cases hs
    | ok s => rw [e] at hs; simp only [Except.map] at hs; injection hs with hs; subst hs; exact quiet (fun _ _ e => by cases e) e rfl rfl rfl
  | lost q =>
    simp only [Front.step] at hs
    cases e : f.srv.step v (.lost q) with
    | error y => rw [e] at hs; cases hs
    | ok s => rw [e] at hs; simp only [Except.map] at hs; injection hs with hs; subst hs; exact quiet (fun _ _ e => by cases e) e rfl rfl rfl
  | turn q w =>
    simp only [Front.step] at hs
    split at hs
    · injection hs with hs; subst hs; exact h
    · split at hs
      · cases hs
      · cases e : f.srv.step v (.lost q) with
        | error y => rw [e] at hs; cases hs
        | ok s => rw [e] at hs; simp only [Except.map] at hs; injection hs with hs; subst hs; exact quiet (fun _ _ e => by cases e) e rfl rfl rfl
      · next p rest hr =>
        simp only [Front.handle] at hs
        split at hs
        · injection hs with hs; subst hs
          intro hc
          exact h (fun x hx => hc x (by simp [hx]))
        · next x hx =>
          cases e : f.srv.step v (.packet q x) with
          | error y => rw [e] at hs; cases hs
          | ok s =>
            rw [e] at hs; simp only [Except.map] at hs; injection hs with hs; subst hs
            intro hc
            obtain ⟨g1, g2⟩ := h (fun x hx => hc x (by simp [hx]))
            have hfit : x.Fit := handled_fit hr (fun pp e m hm => hc (q, p) (by simp) pp e m hm) hx
            have ho : ∀ x ∈ s.out, Fair x.2 := fun y hy => (outs_step hdec (fun q' x' e' => by injection e' with _ e'; subst e'; exact hfit) e y hy).elim (g1 y) id
            refine ⟨ho, fun y hy => ?_⟩
            rcases List.mem_append.1 hy with hy | hy
            · exact g2 y hy
            · obtain ⟨o, hmo, rfl⟩ := List.mem_map.1 hy
              exact packet_proper w p s o.1 (ho o (List.mem_of_mem_drop hmo))

theorem tidy_run {v : SrvEnv} (hdec : ∀ b p, v.dec b = some (.pub p) → ∀ m ∈ p.msgs, Pb.utf8 m.topic = true) :
    ∀ (evs : List FrontEv) {f f' : Front}, Tidy f → f.run v evs = .ok f' → Tidy f' := by
  intro evs
  induction evs with
  | nil => intro f f' h hs; simp only [Front.run, SrvM.fold] at hs; injection hs with hs; subst hs; exact h
  | cons ev evs ih =>
    intro f f' h hs
    simp only [Front.run, SrvM.fold] at hs
    cases e : f.step v ev with
    | error y => rw [e] at hs; cases hs
    | ok f1 => rw [e] at hs; exact ih (tidy_step hdec h e) hs

/-- How a client reads a packet of the server: the acknowledgement of a ping is read as a ping. -/
def Spec.seen : UPacket → UPacket
  | .control 6 1 _ => .ping
  | p => p

theorem elements_some {α : Type} {f : α → Option Bytes} {num : Nat} (xs : List α) (h : ∀ x ∈ xs, ∃ b, f x = some b) : ∃ b, Pb.elements num f xs = some b := by
  cases e : Pb.elements num f xs with
  | some b => exact ⟨b, rfl⟩
  | none =>
    obtain ⟨x, hx, hn⟩ := (elements_none xs).1 e
    obtain ⟨b, hb⟩ := h x hx
    rw [hn] at hb; cases hb

theorem proper_encodes {p : UPacket} (h : Proper94 p) : ∃ b, p.encode = some b ∧ p.toBinary = some b := by
  cases p with
  | publish pp =>
    have : ∃ b, (UPacket.publish pp).toBinary = some b := by
      cases e : (UPacket.publish pp).toBinary with
      | some b => exact ⟨b, rfl⟩
      | none =>
        obtain ⟨s, hs, hn⟩ := (C91_refused _).1 e
        simp only [Spec.strings, List.mem_flatMap] at hs
        obtain ⟨m, hm, hs⟩ := hs
        obtain ⟨h1, h2⟩ := h m hm
        simp only [List.mem_cons, List.not_mem_nil, or_false] at hs
        rcases hs with rfl | rfl
        · rw [h1] at hn; cases hn
        · rw [h2] at hn; simp [Pb.utf8] at hn
    obtain ⟨b, hb⟩ := this
    exact ⟨b, hb, hb⟩
  | control t f c => exact ⟨_, rfl, rfl⟩
  | connect c => exact h.elim
  | relay c => exact h.elim
  | subscribe c => exact h.elim
  | unsubscribe c => exact h.elim
  | ping => exact h.elim
  | disconnect c => exact h.elim

theorem proper_reads {p : UPacket} (h : Proper94 p) {b : Bytes} (hb : p.toBinary = some b) (hl : b.length < 2 ^ 31) (rest : Bytes) :
    readPacket (b ++ rest) = .ok (Spec.seen p) rest := by
  have carried : Spec.Carried p → Spec.seen p = p → readPacket (b ++ rest) = .ok (Spec.seen p) rest := fun hc e => by
    rw [e]; exact readPacket_one p b rest hb hc hl
  cases p with
  | publish pp => exact carried trivial rfl
  | control t f c =>
    rcases h with h | ⟨rfl, rfl, rfl⟩
    · refine carried h ?_
      simp only [Spec.seen]
      split
      · next e =>
        injection e with e1 e2 _
        subst e1 e2
        rcases h with h | h
        · exact absurd h (by decide)
        · exact absurd h (by decide)
      · rfl
    · obtain ⟨b', h1, h2⟩ := C91_ping_violated 0 [] rest
      have : b = b' := by
        have e := h1.symm.trans hb
        injection e with e; exact e.symm
      subst this
      simpa [Spec.seen, PControl.marshal, Pb.int32, Pb.signExtend, Pb.number, Pb.slice] using h2
  | connect c => exact h.elim
  | relay c => exact h.elim
  | subscribe c => exact h.elim
  | unsubscribe c => exact h.elim
  | ping => exact h.elim
  | disconnect c => exact h.elim

theorem writeAll_reads : ∀ (ws : List UPacket), (∀ x ∈ ws, Proper94 x) → (∀ x ∈ ws, ∀ b, x.toBinary = some b → b.length < 2 ^ 31) → ∀ rest,
    (writeAll ws).2 = true ∧ readPackets ((writeAll ws).1 ++ rest) = (ws.map Spec.seen ++ (readPackets rest).1, (readPackets rest).2) := by
  intro ws
  induction ws with
  | nil => intro _ _ rest; exact ⟨rfl, rfl⟩
  | cons x ws ih =>
    intro hp hl rest
    obtain ⟨b, h1, h2⟩ := proper_encodes (hp x (by simp))
    obtain ⟨i1, i2⟩ := ih (fun y hy => hp y (by simp [hy])) (fun y hy => hl y (by simp [hy])) rest
    simp only [writeAll, h1]
    refine ⟨i1, ?_⟩
    rw [List.append_assoc, readPackets_cons (proper_reads (hp x (by simp)) h2 (hl x (by simp) b h2) _), i2]
    rfl

/-- C94 (partial: published topics in which no slash is followed by a question mark, and packets shorter than 2³¹ bytes; the packets of batch managers are not among them).
Whatever bytes the clients of a server send, in whatever order their readers take turns: all that is put on the channels of a connection can be
written, and a reader of what was written, in any order, reads exactly these packets, each with every field; only the acknowledgement of a ping is read as
a ping. -/
theorem C94_written_partial (v : SrvEnv) (hdec : v.dec = logDecode) (evs : List FrontEv) (f : Front) (h : Front.run v {} evs = .ok f)
    (hc : Spec.AllClear f.heard) (q : UInt32) (ws : List UPacket) (hw : ∀ x ∈ ws, (q, x) ∈ f.wire)
    (hl : ∀ x ∈ ws, ∀ b, x.toBinary = some b → b.length < 2 ^ 31) :
    (writeAll ws).2 = true ∧ readPackets (writeAll ws).1 = (ws.map Spec.seen, .lost) := by
  have ht : Tidy f := tidy_run (hdec ▸ logDecode_utf8) evs (f := {}) (fun _ => ⟨by simp, by simp⟩) h
  obtain ⟨h1, h2⟩ := writeAll_reads ws (fun x hx => (ht hc).2 _ (hw x hx)) hl []
  refine ⟨h1, ?_⟩
  have h0 : readPackets [] = ([], .lost) := rfl
  rw [h0] at h2
  simpa using h2

/-! ## What is heard -/

/-- The packets read from connection `q`. -/
def Spec.heardFrom (q : UInt32) (f : Front) : List UPacket := (f.heard.filter (·.1 == q)).map (·.2)

theorem heard_step {v : SrvEnv} {f f' : Front} {ev : FrontEv} {q : UInt32} (hne : ∀ b, ev ≠ .accept q b) (hs : f.step v ev = .ok f') :
    ∃ new, Spec.heardFrom q f' = Spec.heardFrom q f ++ new ∧
      ∀ l, (readPackets ((AMap.get f.rest q).getD [])).1 = l → ∃ l', l = new ++ l' ∧ (readPackets ((AMap.get f'.rest q).getD [])).1 = l' := by
  have keep : f'.heard = f.heard → AMap.get f'.rest q = AMap.get f.rest q → ∃ new, Spec.heardFrom q f' = Spec.heardFrom q f ++ new ∧
      ∀ l, (readPackets ((AMap.get f.rest q).getD [])).1 = l → ∃ l', l = new ++ l' ∧ (readPackets ((AMap.get f'.rest q).getD [])).1 = l' := by
    intro h1 h2
    exact ⟨[], by simp [Spec.heardFrom, h1], fun l hl => ⟨l, rfl, by rw [h2]; exact hl⟩⟩
  cases ev with
  | accept q' b =>
    simp only [Front.step] at hs
    cases e : f.srv.step v (.accept q') with
    | error y => rw [e] at hs; cases hs
    | ok s =>
      rw [e] at hs; simp only [Except.map] at hs; injection hs with hs; subst hs
      exact keep rfl (AMap.get_set_ne _ _ (fun e => hne b (by rw [e])))
  | lost q' =>
    simp only [Front.step] at hs
    cases e : f.srv.step v (.lost q') with
    | error y => rw [e] at hs; cases hs
    | ok s => rw [e] at hs; simp only [Except.map] at hs; injection hs with hs; subst hs; exact keep rfl rfl
  | turn q' w =>
    simp only [Front.step] at hs
    split at hs
    · injection hs with hs; subst hs; exact keep rfl rfl
    · split at hs
      · cases hs
      · cases e : f.srv.step v (.lost q') with
        | error y => rw [e] at hs; cases hs
        | ok s => rw [e] at hs; simp only [Except.map] at hs; injection hs with hs; subst hs; exact keep rfl rfl
      · next p rest hr =>
        have key : f'.heard = f.heard ++ [(q', p)] ∧ f'.rest = AMap.set f.rest q' rest := by
          simp only [Front.handle] at hs
          split at hs
          · injection hs with hs; subst hs; exact ⟨rfl, rfl⟩
          · cases e : f.srv.step v (.packet q' _) with
            | error y => rw [e] at hs; cases hs
            | ok s => rw [e] at hs; simp only [Except.map] at hs; injection hs with hs; subst hs; exact ⟨rfl, rfl⟩
        by_cases hq : q' = q
        · subst hq
          refine ⟨[p], by simp [Spec.heardFrom, key.1], fun l hl => ?_⟩
          rw [readPackets_cons hr] at hl
          refine ⟨(readPackets rest).1, hl.symm, ?_⟩
          rw [key.2, AMap.get_set_self]
          rfl
        · refine ⟨[], by simp [Spec.heardFrom, key.1, hq], fun l hl => ⟨l, rfl, ?_⟩⟩
          rw [key.2, AMap.get_set_ne _ _ (fun e => hq e.symm)]
          exact hl

theorem heard_run {v : SrvEnv} {q : UInt32} : ∀ (evs : List FrontEv) {f f' : Front}, (∀ b, FrontEv.accept q b ∉ evs) → f.run v evs = .ok f' →
    ∃ new, Spec.heardFrom q f' = Spec.heardFrom q f ++ new ∧ new <+: (readPackets ((AMap.get f.rest q).getD [])).1 := by
  intro evs
  induction evs with
  | nil => intro f f' _ hs; simp only [Front.run, SrvM.fold] at hs; injection hs with hs; subst hs; exact ⟨[], by simp, List.nil_prefix⟩
  | cons ev evs ih =>
    intro f f' hne hs
    simp only [Front.run, SrvM.fold] at hs
    cases e : f.step v ev with
    | error y => rw [e] at hs; cases hs
    | ok f1 =>
      rw [e] at hs
      obtain ⟨n1, h1, h2⟩ := heard_step (q := q) (fun b e => hne b (by simp [e])) e
      obtain ⟨l', h3, h4⟩ := h2 _ rfl
      obtain ⟨n2, h5, h6⟩ := ih (fun b hb => hne b (by simp [hb])) hs
      refine ⟨n1 ++ n2, by rw [h5, h1, List.append_assoc], ?_⟩
      rw [h3]
      rw [h4] at h6
      exact (List.prefix_append_right_inj n1).2 h6

/-- C94: a connection that is accepted while its client sends these packets is heard to send these packets, each with every field, in order and none twice, as far as the server got;
no other connection adds to them. -/
theorem C94_heard (v : SrvEnv) (f0 f : Front) (q : UInt32) (sent : List (UPacket × Bytes)) (hsent : Spec.Written sent) (evs : List FrontEv)
    (h : f0.run v (.accept q (sent.flatMap (·.2)) :: evs) = .ok f) (hno : ∀ b, FrontEv.accept q b ∉ evs) :
    ∃ new, Spec.heardFrom q f = Spec.heardFrom q f0 ++ new ∧ new <+: sent.map (·.1) := by
  simp only [Front.run, SrvM.fold, Front.step, Srv.step, Except.map, Except.bind] at h
  obtain ⟨new, h1, h2⟩ := heard_run evs hno h
  refine ⟨new, h1, ?_⟩
  rw [AMap.get_set_self, Option.getD_some, C91_fields_partial sent hsent] at h2
  exact h2

/-! ## The same server -/

/-- The packets of a run of the server. -/
def Spec.packetsOf (evs : List SrvEv) : List (UInt32 × Packet) := evs.filterMap fun e => match e with
  | .packet q x => some (q, x)
  | _ => none

theorem run_snoc {v : SrvEnv} {s2 : Srv} {e : SrvEv} : ∀ (evs : List SrvEv) {s s1 : Srv}, s.run v evs = .ok s1 → s1.step v e = .ok s2 → s.run v (evs ++ [e]) = .ok s2 := by
  intro evs
  induction evs with
  | nil => intro s s1 h he; injection h with h; subst h; simp [Srv.run, SrvM.fold, he, Except.bind]
  | cons a evs ih =>
    intro s s1 h he
    simp only [Srv.run, SrvM.fold] at h
    cases ha : s.step v a with
    | error y => rw [ha] at h; cases h
    | ok s' =>
      rw [ha] at h
      have := ih h he
      simp only [Srv.run] at this
      simp only [Srv.run, List.cons_append, SrvM.fold, ha, Except.bind, this]

/-- The packets heard, each with what its handling took from elsewhere, as the server handles them. -/
def Spec.handledAll (heard : List (UInt32 × UPacket)) (ws : List Outside) : List (UInt32 × Packet) :=
  (heard.zip ws).filterMap fun x => (x.1.2.handled x.2).map fun p => (x.1.1, p)

theorem handledAll_snoc {heard : List (UInt32 × UPacket)} {ws : List Outside} (hl : ws.length = heard.length) (q : UInt32) (p : UPacket) (w : Outside) :
    Spec.handledAll (heard ++ [(q, p)]) (ws ++ [w]) = Spec.handledAll heard ws ++ ((p.handled w).map fun x => (q, x)).toList := by
  simp only [Spec.handledAll]
  rw [List.zip_append hl.symm, List.filterMap_append]
  congr 1

theorem packetsOf_append (a b : List SrvEv) : Spec.packetsOf (a ++ b) = Spec.packetsOf a ++ Spec.packetsOf b := by
  simp [Spec.packetsOf, List.filterMap_append]

def Same (v : SrvEnv) (f : Front) : Prop := ∃ (evs : List SrvEv) (ws : List Outside), ws.length = f.heard.length ∧ Srv.run v {} evs = .ok f.srv ∧
  Spec.packetsOf evs = Spec.handledAll f.heard ws

theorem same_step {v : SrvEnv} {f f' : Front} {ev : FrontEv} (h : Same v f) (hs : f.step v ev = .ok f') : Same v f' := by
  obtain ⟨evs, ws, h1, h2, h3⟩ := h
  have quiet : ∀ {e : SrvEv} {s : Srv}, (∀ q x, e ≠ .packet q x) → f.srv.step v e = .ok s → f'.srv = s → f'.heard = f.heard → Same v f' := by
    intro e s he hs g1 g2
    refine ⟨evs ++ [e], ws, by rw [g2]; exact h1, by rw [g1]; exact run_snoc evs h2 hs, ?_⟩
    rw [packetsOf_append, g2, ← h3]
    cases e with
    | packet q x => exact absurd rfl (he q x)
    | accept q => simp [Spec.packetsOf]
    | lost q => simp [Spec.packetsOf]
  cases ev with
  | accept q b =>
    simp only [Front.step] at hs
    cases e : f.srv.step v (.accept q) with
    | error y => rw [e] at hs; cases hs
    | ok s => rw [e] at hs; simp only [Except.map] at hs; injection hs with hs; subst hs; exact quiet (fun _ _ e => by cases e) e rfl rfl
  | lost q =>
    simp only [Front.step] at hs
    cases e : f.srv.step v (.lost q) with
    | error y => rw [e] at hs; cases hs
    | ok s => rw [e] at hs; simp only [Except.map] at hs; injection hs with hs; subst hs; exact quiet (fun _ _ e => by cases e) e rfl rfl
  | turn q w =>
    simp only [Front.step] at hs
    split at hs
    · injection hs with hs; subst hs; exact ⟨evs, ws, h1, h2, h3⟩
    · split at hs
      · cases hs
      · cases e : f.srv.step v (.lost q) with
        | error y => rw [e] at hs; cases hs
        | ok s => rw [e] at hs; simp only [Except.map] at hs; injection hs with hs; subst hs; exact quiet (fun _ _ e => by cases e) e rfl rfl
      · next p rest hr =>
        simp only [Front.handle] at hs
        split at hs
        · next hn =>
          injection hs with hs; subst hs
          refine ⟨evs, ws ++ [w], by simp [h1], h2, ?_⟩
          simp only
          rw [handledAll_snoc h1, hn, h3]
          simp
        · next x hx =>
          cases e : f.srv.step v (.packet q x) with
          | error y => rw [e] at hs; cases hs
          | ok s =>
            rw [e] at hs; simp only [Except.map] at hs; injection hs with hs; subst hs
            refine ⟨evs ++ [.packet q x], ws ++ [w], by simp [h1], run_snoc evs h2 e, ?_⟩
            simp only
            rw [handledAll_snoc h1, hx, packetsOf_append, h3]
            rfl

/-- C94: the server that is sent bytes is a server that is sent packets: those that were heard, in that order. What C83 to C86 say of runs of packets is thereby said of the bytes
of clients. -/
theorem C94_as_packets (v : SrvEnv) (evs : List FrontEv) (f : Front) (h : Front.run v {} evs = .ok f) :
    ∃ (evs' : List SrvEv) (ws : List Outside), ws.length = f.heard.length ∧ Srv.run v {} evs' = .ok f.srv ∧
      Spec.packetsOf evs' = Spec.handledAll f.heard ws := by
  suffices H : ∀ (evs : List FrontEv) {f f' : Front}, Same v f → f.run v evs = .ok f' → Same v f' from H evs (f := {}) ⟨[], [], rfl, rfl, rfl⟩ h
  intro evs
  induction evs with
  | nil => intro f f' h hs; simp only [Front.run, SrvM.fold] at hs; injection hs with hs; subst hs; exact h
  | cons ev evs ih =>
    intro f f' h hs
    simp only [Front.run, SrvM.fold] at hs
    cases e : f.step v ev with
    | error y => rw [e] at hs; cases hs
    | ok f1 => rw [e] at hs; exact ih (same_step h e) hs

/-! ## Delivering -/

/-- The packets that take message `m` of the publish `pub` to subscription `r`. -/
def Spec.parcels (pub : PPublish) (m : DMsg) (r : Spec.Sub) : List (UInt32 × UPacket) :=
  if (pub.mode = 1 ∨ pub.mode = 2) ∧ (r.mode = 1 ∨ r.mode = 2) then [(r.conn, .control 2 2 { id := pub.id })]
  else if (pub.mode = 0 ∨ (pub.mode = 1 ∨ pub.mode = 2) ∧ r.mode = 0) ∧ r.mode ≠ 2 ∧ delayed r.delay = false then
    [(r.conn, .publish ⟨pub.id, r.mode, [{ topic := m.topic, payload := m.payload }]⟩)]
  else []

/-- The messages of a publish as the server sees them. -/
def Spec.messages (pub : PPublish) : List DMsg := pub.messages.map fun m => ⟨m.topic, m.payload⟩

theorem sends_parcels (w : Outside) (t : UInt8) (s : Srv) (pub : PPublish) (ms : List DMsg) (m : DMsg) (r : Spec.Sub) :
    (Spec.sends ⟨pub.id, pub.mode, ms⟩ m r).map (fun o => (o.1, o.2.packet w t s o.1)) = Spec.parcels pub m r := by
  have hk : Spec.kept ⟨pub.id, pub.mode, ms⟩ r = true ↔ (pub.mode = 1 ∨ pub.mode = 2) ∧ (r.mode = 1 ∨ r.mode = 2) := by simp [Spec.kept]
  have hd : (Spec.direct ⟨pub.id, pub.mode, ms⟩ r && !r.batched) = true ↔
      (pub.mode = 0 ∨ (pub.mode = 1 ∨ pub.mode = 2) ∧ r.mode = 0) ∧ r.mode ≠ 2 ∧ delayed r.delay = false := by simp [Spec.direct, Spec.Sub.batched]
  simp only [Spec.sends, Spec.parcels]
  by_cases h1 : (pub.mode = 1 ∨ pub.mode = 2) ∧ (r.mode = 1 ∨ r.mode = 2)
  · rw [if_pos h1, if_pos (hk.2 h1)]
    rfl
  · rw [if_neg h1, if_neg (fun e => h1 (hk.1 e))]
    by_cases h2 : (pub.mode = 0 ∨ (pub.mode = 1 ∨ pub.mode = 2) ∧ r.mode = 0) ∧ r.mode ≠ 2 ∧ delayed r.delay = false
    · rw [if_pos h2, if_pos (hd.2 h2)]
      rfl
    · rw [if_neg h2, if_neg (fun e => h2 (hd.1 e))]
      rfl

theorem reached_map {α β : Type} (v : SrvEnv) (b : Spec.Desk) (k : UInt32) (f : DMsg → Spec.Sub → List α) (g : α → β) (m : DMsg) :
    (Spec.reached v b k f m).map g = Spec.reached v b k (fun m r => (f m r).map g) m := by
  simp only [Spec.reached]
  split
  · rfl
  · rw [List.map_flatMap]

/-- C94 (partial: as in C83, the histories of `Spec.Day`, a message id that is not zero, messages the client may publish). The bytes of a PUBLISH that the server reads next from a
connection put these packets on the channels of the readers, and an acknowledgement on those of the publisher. -/
theorem C94_delivered_partial (v : SrvEnv) (hv : v.Sane) (hm : v.mac.cipher.Strips) (f : Front) (b : Spec.Desk) (h : Spec.Day v f.srv b) (p : UInt32)
    (k : UInt32) (insecure : Bool) (hp : AMap.get b.roll p = some (k, insecure)) (pub : PPublish) (hmid : pub.id ≠ 0)
    (hms : ∀ m ∈ Spec.messages pub, Spec.Allowed v k insecure m) (bytes rest : Bytes) (hb : (UPacket.publish pub).toBinary = some bytes) (hl : bytes.length < 2 ^ 31)
    (hr : AMap.get f.rest p = some (bytes ++ rest)) (w : Outside) :
    ∃ f', f.step v (.turn p w) = .ok f' ∧ AMap.get f'.rest p = some rest ∧
      f'.wire = f.wire ++ (Spec.messages pub).flatMap (Spec.reached v b k (Spec.parcels pub)) ++ [(p, .control 2 1 { id := pub.id })] := by
  obtain ⟨s', h1, h2, _⟩ := C83_sent_partial v hv hm f.srv b h p k insecure hp ⟨pub.id, pub.mode, Spec.messages pub⟩ hmid hms
  obtain ⟨_, rows, hf⟩ := day_fits hv hm h
  obtain ⟨c, hc⟩ := hf.open_ p _ hp
  have hread : readPacket ((AMap.get f.rest p).getD []) = .ok (.publish pub) rest := by
    rw [hr]; exact readPacket_one _ bytes rest hb trivial hl
  simp only [Front.step, hc, hread, Front.handle, UPacket.handled]
  rw [show (pub.messages.map fun m => (⟨m.topic, m.payload⟩ : DMsg)) = Spec.messages pub from rfl, h1]
  refine ⟨_, rfl, AMap.get_set_self _ _ _, ?_⟩
  simp only [h2, List.append_assoc]
  rw [List.drop_left, List.map_append, List.map_flatMap]
  congr 3
  funext m
  rw [reached_map]
  congr 1
  funext m r
  exact sends_parcels w 2 s' pub (Spec.messages pub) m r

theorem front_snoc {v : SrvEnv} {f2 : Front} {e : FrontEv} : ∀ (evs : List FrontEv) {f f1 : Front}, f.run v evs = .ok f1 → f1.step v e = .ok f2 → f.run v (evs ++ [e]) = .ok f2 := by
  intro evs
  induction evs with
  | nil => intro s s1 h he; injection h with h; subst h; simp [Front.run, SrvM.fold, he, Except.bind]
  | cons a evs ih =>
    intro s s1 h he
    simp only [Front.run, SrvM.fold] at h
    cases ha : s.step v a with
    | error y => rw [ha] at h; cases h
    | ok s' =>
      rw [ha] at h
      have := ih h he
      simp only [Front.run] at this
      simp only [Front.run, List.cons_append, SrvM.fold, ha, Except.bind, this]

/-- C94 (partial: as above). From bytes to bytes: after any run, a client whose bytes begin with a PUBLISH makes the server put a packet on the channels of each reader, and from
whatever is written of the channels of that reader, with this packet among it, the reader's client reads this packet with its topic, its payload and its delivery mode. -/
theorem C94_end_to_end_partial (v : SrvEnv) (hv : v.Sane) (hm : v.mac.cipher.Strips) (hdec : v.dec = logDecode) (evs : List FrontEv) (f : Front)
    (h : Front.run v {} evs = .ok f) (hc : Spec.AllClear f.heard) (b : Spec.Desk) (hd : Spec.Day v f.srv b) (p k : UInt32) (insecure : Bool)
    (hp : AMap.get b.roll p = some (k, insecure)) (pub : PPublish) (hmid : pub.id ≠ 0) (hms : ∀ m ∈ Spec.messages pub, Spec.Allowed v k insecure m)
    (hclear : ∀ m ∈ pub.messages, Spec.Clear m.topic) (bytes rest : Bytes) (hb : (UPacket.publish pub).toBinary = some bytes) (hl : bytes.length < 2 ^ 31)
    (hr : AMap.get f.rest p = some (bytes ++ rest)) (w : Outside) :
    ∃ f', f.step v (.turn p w) = .ok f' ∧ ∀ m ∈ pub.messages, ∀ t, parseRequest m.topic = some t → ∀ r ∈ b.readers v k t.topic,
      ∀ x ∈ Spec.parcels pub ⟨t.topic.take t.size, m.payload⟩ r, x ∈ f'.wire ∧
        ∀ ws : List UPacket, (∀ y ∈ ws, (r.conn, y) ∈ f'.wire) → (∀ y ∈ ws, ∀ b, y.toBinary = some b → b.length < 2 ^ 31) → x.2 ∈ ws →
          x.2 ∈ (readPackets (writeAll ws).1).1 := by
  obtain ⟨f', h1, _, h3⟩ := C94_delivered_partial v hv hm f b hd p k insecure hp pub hmid hms bytes rest hb hl hr w
  refine ⟨f', h1, fun m hmm t ht r hrr x hx => ⟨?_, fun ws hw hlw hxw => ?_⟩⟩
  · rw [h3]
    refine List.mem_append_left _ (List.mem_append_right _ (List.mem_flatMap.2 ⟨⟨m.topic, m.payload⟩, List.mem_map.2 ⟨m, hmm, rfl⟩, ?_⟩))
    simp only [Spec.reached, ht]
    exact List.mem_flatMap.2 ⟨r, hrr, hx⟩
  · have hheard : f'.heard = f.heard ++ [(p, .publish pub)] := by
      obtain ⟨_, rows, hf⟩ := day_fits hv hm hd
      obtain ⟨c, hc⟩ := hf.open_ p _ hp
      have hread : readPacket ((AMap.get f.rest p).getD []) = .ok (.publish pub) rest := by
        rw [hr]; exact readPacket_one _ bytes rest hb trivial hl
      simp only [Front.step, hc, hread, Front.handle, UPacket.handled] at h1
      cases e : f.srv.step v (.packet p (.publish ⟨pub.id, pub.mode, pub.messages.map fun m => ⟨m.topic, m.payload⟩⟩)) with
      | error y => rw [e] at h1; cases h1
      | ok s => rw [e] at h1; simp only [Except.map] at h1; injection h1 with h1; subst h1; rfl
    have hall : Spec.AllClear f'.heard := by
      intro y hy q e m hm'
      rw [hheard] at hy
      rcases List.mem_append.1 hy with hy | hy
      · exact hc y hy q e m hm'
      · simp only [List.mem_singleton] at hy
        subst hy
        injection e with e; subst e
        exact hclear m hm'
    obtain ⟨_, g⟩ := C94_written_partial v hdec (evs ++ [.turn p w]) f' (front_snoc evs h h1) hall r.conn ws hw hlw
    rw [g]
    refine List.mem_map.2 ⟨x.2, hxw, ?_⟩
    simp only [Spec.parcels] at hx
    split at hx
    · simp only [List.mem_singleton] at hx; subst hx; rfl
    · split at hx
      · simp only [List.mem_singleton] at hx; subst hx; rfl
      · simp at hx

theorem Srv.close_gone {s s' : Srv} {q : UInt32} (h : s.close q = .ok s') : AMap.get s'.conns q = none := by
  simp only [Srv.close] at h
  split at h
  · next hc => injection h with h; subst h; exact hc
  · split at h
    · cases h
    · injection h with h; subst h; exact AMap.get_del_self _ _

theorem notifies_conns (q : UInt32) (ns : List UInt16) : ∀ s : Srv, (ns.foldl (fun s n => s.emit q (.notify n)) s).conns = s.conns := by
  induction ns with
  | nil => intro s; rfl
  | cons n ns ih => intro s; rw [List.foldl_cons, ih]; rfl

/-- C94: a server checks the keys of a client unless the bytes of its CONNECT packet ask for it not to. -/
theorem C94_key_checks (v : SrvEnv) (f f' : Front) (p : UInt32) (con : PConnect) (bytes rest : Bytes) (hb : (UPacket.connect con).toBinary = some bytes)
    (hl : bytes.length < 2 ^ 31) (hp : (AMap.get f.srv.conns p).isSome) (hr : AMap.get f.rest p = some (bytes ++ rest)) (w : Outside)
    (h : f.step v (.turn p w) = .ok f') : ∀ c, AMap.get f'.srv.conns p = some c → c.insecure = con.insecure := by
  obtain ⟨c0, hc⟩ := Option.isSome_iff_exists.1 hp
  have hread : readPacket ((AMap.get f.rest p).getD []) = .ok (.connect con) rest := by
    rw [hr]; exact readPacket_one _ bytes rest hb trivial hl
  simp only [Front.step, hc, hread, Front.handle, UPacket.handled, Srv.step, Srv.handle] at h
  generalize hs : f.srv.onConnectPacket v p con.clientId w.epoch w.fresh con.insecure con.sessKey con.clean = r at h
  cases r with
  | error x => cases h
  | ok s =>
    injection h with h
    subst h
    simp only
    intro c hg
    simp only [Srv.onConnectPacket, hc] at hs
    split at hs
    · next cache e =>
      cases hx : (({ f.srv with cache := cache } : Srv).setConn p { c0 with insecure := con.insecure }).emit p (.connack false) |>.sendMessage v p 0 0 0 ⟨clientIdTopic, w.fresh⟩ with
      | error y => rw [hx] at hs; cases hs
      | ok r =>
        rw [hx] at hs
        rw [Srv.close_gone (s := r.2) hs] at hg
        cases hg
    · next id cache e =>
      split at hs
      · cases hs
      · split at hs
        · cases hs
        · next log ids notes e2 =>
          injection hs with hs
          subst hs
          rw [notifies_conns] at hg
          simp only [Srv.emit, Srv.setConn, AMap.get_set_self] at hg
          injection hg with hg
          subst hg
          rfl

/-! ## Concrete runs -/

def UPacket.bytes (p : UPacket) : Bytes := p.toBinary.getD []

/-- Client 1 connects and publishes under `text`, client 2 connects and subscribes to it. -/
def toyFront (text : Bytes) : List FrontEv :=
  [.accept 1 ((UPacket.connect { insecure := true, clientId := toyClient 100 7, clean := true }).bytes ++
      (UPacket.publish { id := 5, messages := [{ topic := text, payload := [42] }] }).bytes),
   .accept 2 ((UPacket.connect { insecure := true, clientId := toyClient 101 7, clean := true }).bytes ++
      (UPacket.subscribe { id := 3, items := [{ topic := text }] }).bytes ++ UPacket.ping.bytes),
   .turn 1 { epoch := 100 }, .turn 2 { epoch := 101 }, .turn 2 {}, .turn 2 {}]

/-- The packets on the channels of connection `q`. -/
def Front.wireTo (q : UInt32) (f : Front) : List UPacket := (f.wire.filter (·.1 == q)).map (·.2)

/-- The same as events of packets. -/
def toyFrontPackets (text : Bytes) : List SrvEv :=
  [.accept 1, .accept 2, .packet 1 (.connect (toyClient 100 7) 100 [] true 0 true), .packet 2 (.connect (toyClient 101 7) 101 [] true 0 true),
   .packet 2 (.subscribe 3 [⟨text, 0, 0⟩]), .packet 2 .ping]

theorem toyLogged_sane : toyLogged.Sane := ⟨C83_codec.1, fun t p => by simp only [toyLogged, toySrv]; split <;> decide⟩

theorem front_of_toOption {v : SrvEnv} {f f' : Front} {evs : List FrontEv} (h : (f.run v evs).toOption = some f') : f.run v evs = .ok f' := by
  cases hr : f.run v evs with
  | error e => rw [hr] at h; cases h
  | ok s1 => rw [hr] at h; injection h with h; rw [h]

def clearB (text : Bytes) : Bool := (List.range text.length).all fun i => !([47, 63].isPrefixOf (text.drop i))

theorem clearB_sound {text : Bytes} (h : clearB text = true) : Spec.Clear text := by
  intro a b e
  simp only [clearB, List.all_eq_true, List.mem_range] at h
  have := h a.length (by rw [e]; simp)
  rw [e, List.drop_left] at this
  simp [List.isPrefixOf] at this

def allClearB (heard : List (UInt32 × UPacket)) : Bool := heard.all fun x => match x.2 with
  | .publish p => p.messages.all fun m => clearB m.topic
  | _ => true

theorem allClearB_sound {heard : List (UInt32 × UPacket)} (h : allClearB heard = true) : Spec.AllClear heard := by
  intro x hx p e m hm
  simp only [allClearB, List.all_eq_true] at h
  have := h x hx
  rw [e] at this
  simp only [List.all_eq_true] at this
  exact clearB_sound (this m hm)

/-- All that was sent to client 2 is read by it. -/
example : ∃ f, Front.run toyLogged {} (toyFront (toyText 107 120) ++ [.turn 1 {}]) = .ok f ∧ Spec.AllClear f.heard ∧ (∀ x ∈ f.wireTo 2, (2, x) ∈ f.wire) ∧
    readPackets (writeAll (f.wireTo 2)).1 = ([.control 1 1 { message := [16, 101, 24, 2] }, .control 4 1 { id := 3 }, .ping,
      .publish ⟨5, 0, [{ topic := [120], payload := [42] }]⟩], .lost) := by
  have h : (Front.run toyLogged {} (toyFront (toyText 107 120) ++ [.turn 1 {}])).toOption.any (fun f => allClearB f.heard && decide (readPackets (writeAll (f.wireTo 2)).1 =
      ([.control 1 1 { message := [16, 101, 24, 2] }, .control 4 1 { id := 3 }, .ping, .publish ⟨5, 0, [{ topic := [120], payload := [42] }]⟩], .lost))) = true := by decide +kernel
  obtain ⟨f, h1, h2⟩ := (Option.any_eq_true _ _).1 h
  rw [Bool.and_eq_true] at h2
  refine ⟨f, front_of_toOption h1, allClearB_sound h2.1, ?_, of_decide_eq_true h2.2⟩
  intro x hx
  simp only [Front.wireTo, List.mem_map, List.mem_filter, beq_iff_eq] at hx
  obtain ⟨⟨q, y⟩, ⟨hy, rfl⟩, rfl⟩ := hx
  exact hy

/-- A client that does not ask for it has its keys checked, and one that starts no clean session may ask for its keys not to be. -/
example : ∀ con ∈ [({ clientId := toyClient 100 7, clean := true } : PConnect), { insecure := true, clientId := toyClient 100 7 }],
    (Front.run toyLogged {} [.accept 1 (UPacket.connect con).bytes]).toOption.any (fun f => decide ((AMap.get f.srv.conns 1).isSome ∧
      AMap.get f.rest 1 = some ((UPacket.connect con).bytes ++ []) ∧ (UPacket.connect con).toBinary = some (UPacket.connect con).bytes) &&
      (f.step toyLogged (.turn 1 { epoch := 100 })).toOption.any fun f' => (AMap.get f'.srv.conns 1).any fun c => c.insecure == con.insecure) = true := by
  decide +kernel

/-- The three packets heard from client 2 are those it sent. -/
example : (Front.run toyLogged {} (toyFront (toyText 107 120))).toOption.any (fun f => decide ((Spec.heardFrom 2 f).length = 3 ∧ (Spec.heardFrom 1 f).length = 1)) = true := by decide +kernel

/-- Client 1 of this run is about to publish to a reader. -/
example : ∃ f b, Front.run toyLogged {} (toyFront (toyText 107 120)) = .ok f ∧ Spec.AllClear f.heard ∧ Spec.Day toyLogged f.srv b ∧ AMap.get b.roll 1 = some (7, true) ∧
    AMap.get f.rest 1 = some (UPacket.publish { id := 5, messages := [{ topic := toyText 107 120, payload := [42] }] }).bytes ∧
    Spec.Allowed toyLogged 7 true ⟨toyText 107 120, [42]⟩ ∧ Spec.Clear (toyText 107 120) ∧ ∃ r ∈ b.readers toyLogged 7 [120], r.conn = 2 := by
  have h : (Front.run toyLogged {} (toyFront (toyText 107 120))).toOption.any (fun f => (dayRun toyLogged (toyFrontPackets (toyText 107 120)) {} {}).any fun r =>
      allClearB f.heard && decide (r.1 = f.srv ∧ AMap.get r.2.roll 1 = some (7, true) ∧
        AMap.get f.rest 1 = some (UPacket.publish { id := 5, messages := [{ topic := toyText 107 120, payload := [42] }] }).bytes ∧
        ∃ x ∈ r.2.readers toyLogged 7 [120], x.conn = 2)) = true := by decide +kernel
  obtain ⟨f, h1, h2⟩ := (Option.any_eq_true _ _).1 h
  obtain ⟨r, h3, h4⟩ := (Option.any_eq_true _ _).1 h2
  rw [Bool.and_eq_true] at h4
  obtain ⟨g1, g2, g3, g4⟩ := of_decide_eq_true h4.2
  exact ⟨f, r.2, front_of_toOption h1, allClearB_sound h4.1, g1 ▸ dayRun_sound .start h3, g2, g3, by decide +kernel, clearB_sound (by decide), g4⟩

/-! ## Topics that are cut -/

theorem writeAll_stops {x : UPacket} (hx : x.encode = none) : ∀ ws : List UPacket, x ∈ ws → (writeAll ws).2 = false := by
  intro ws
  induction ws with
  | nil => intro h; cases h
  | cons y ws ih =>
    intro h
    simp only [writeAll]
    rcases List.mem_cons.1 h with rfl | h
    · rw [hx]
    · cases y.encode with
      | none => rfl
      | some b => exact ih h

/-- C94, violated: the text of a topic is well-formed, but the part of it that is sent on ends in the middle of a character. The packet put on the channels of a reader cannot be
written, and its connection ends. -/
theorem C94_cut_violated (v : SrvEnv) (hv : v.Sane) (hm : v.mac.cipher.Strips) (f : Front) (b : Spec.Desk) (h : Spec.Day v f.srv b) (p : UInt32)
    (k : UInt32) (insecure : Bool) (hp : AMap.get b.roll p = some (k, insecure)) (pub : PPublish) (hmid : pub.id ≠ 0)
    (hms : ∀ m ∈ Spec.messages pub, Spec.Allowed v k insecure m) (bytes rest : Bytes) (hb : (UPacket.publish pub).toBinary = some bytes) (hl : bytes.length < 2 ^ 31)
    (hr : AMap.get f.rest p = some (bytes ++ rest)) (w : Outside) (m : PMessage) (hmm : m ∈ pub.messages) (t : ReqTopic) (ht : parseRequest m.topic = some t)
    (hcut : Pb.utf8 (t.topic.take t.size) = false) (hmode : pub.mode = 0) (r : Spec.Sub) (hrr : r ∈ b.readers v k t.topic) (hrm : r.mode ≠ 2) (hrd : delayed r.delay = false) :
    ∃ f', f.step v (.turn p w) = .ok f' ∧ ∃ x, (r.conn, x) ∈ f'.wire ∧ ∀ ws, x ∈ ws → (writeAll ws).2 = false := by
  obtain ⟨f', h1, _, h3⟩ := C94_delivered_partial v hv hm f b h p k insecure hp pub hmid hms bytes rest hb hl hr w
  refine ⟨f', h1, .publish ⟨pub.id, r.mode, [{ topic := t.topic.take t.size, payload := m.payload }]⟩, ?_, writeAll_stops ?_⟩
  · rw [h3]
    refine List.mem_append_left _ (List.mem_append_right _ (List.mem_flatMap.2 ⟨⟨m.topic, m.payload⟩, List.mem_map.2 ⟨m, hmm, rfl⟩, ?_⟩))
    simp only [Spec.reached, ht]
    refine List.mem_flatMap.2 ⟨r, hrr, ?_⟩
    simp [Spec.parcels, hmode, hrm, hrd]
  · exact (C91_refused (.publish ⟨pub.id, r.mode, [{ topic := t.topic.take t.size, payload := m.payload }]⟩)).2 ⟨t.topic.take t.size, by simp [Spec.strings], hcut⟩

/-- The topic text `k/?é`. -/
def toyCut : Bytes := [107, 47, 63, 195, 169]

example : ∃ f b, Front.run toyLogged {} (toyFront toyCut) = .ok f ∧ Spec.Day toyLogged f.srv b ∧ AMap.get b.roll 1 = some (7, true) ∧
    AMap.get f.rest 1 = some (UPacket.publish { id := 5, messages := [{ topic := toyCut, payload := [42] }] }).bytes ∧
    Spec.Allowed toyLogged 7 true ⟨toyCut, [42]⟩ ∧ (∃ t, parseRequest toyCut = some t ∧ Pb.utf8 toyCut = true ∧ Pb.utf8 (t.topic.take t.size) = false ∧
      ∃ r ∈ b.readers toyLogged 7 t.topic, r.conn = 2 ∧ r.mode ≠ 2 ∧ delayed r.delay = false) := by
  have h : (Front.run toyLogged {} (toyFront toyCut)).toOption.any (fun f => (dayRun toyLogged (toyFrontPackets toyCut) {} {}).any fun r =>
      decide (r.1 = f.srv ∧ AMap.get r.2.roll 1 = some (7, true) ∧
        AMap.get f.rest 1 = some (UPacket.publish { id := 5, messages := [{ topic := toyCut, payload := [42] }] }).bytes ∧
        ∃ x ∈ r.2.readers toyLogged 7 [63, 195, 169], x.conn = 2 ∧ x.mode ≠ 2 ∧ delayed x.delay = false)) = true := by decide +kernel
  obtain ⟨f, h1, h2⟩ := (Option.any_eq_true _ _).1 h
  obtain ⟨r, h3, h4⟩ := (Option.any_eq_true _ _).1 h2
  obtain ⟨g1, g2, g3, g4⟩ := of_decide_eq_true h4
  exact ⟨f, r.2, front_of_toOption h1, g1 ▸ dayRun_sound .start h3, g2, g3, by decide +kernel, ⟨⟨[107], [63, 195, 169], 2, true⟩, by decide +kernel, by decide +kernel, by decide +kernel, g4⟩⟩

end Verif
