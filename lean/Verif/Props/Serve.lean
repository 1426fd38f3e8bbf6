import Verif.Model.DeliveryInv
import Verif.Props.Credentials

/-!
# C84: no packet stops the server
-/

namespace Verif

/-! ## The claim -/

/-- The topic texts of a packet. -/
def Spec.texts : Packet → List Bytes
  | .subscribe _ asks => asks.map (·.text)
  | .unsubscribe _ texts => texts
  | .relay _ asks => asks.map (·.1)
  | .publish p => p.msgs.map (·.topic)
  | _ => []

/-- What may happen next for `C84_partial`: a connection gets an id that was not in use before, a client that was not told its CONNECT succeeded sends
no topics, a topic is not made of slashes alone (see `C62_crash_iff`), and a CONNECT asks for a clean session. -/
def Spec.Proper (s : Srv) : SrvEv → Prop
  | .accept q => AMap.get s.conns q = none ∧ ∀ x, (q, x) ∉ s.out
  | .lost _ => True
  | .packet q p => (Spec.texts p = [] ∨ (q, .connack true) ∈ s.out) ∧ (∀ t ∈ Spec.texts p, ∃ c ∈ t, c ≠ chSlash) ∧
      ∀ text epoch fresh insecure asked clean, p = .connect text epoch fresh insecure asked clean → clean = true

/-- The servers reached by such events. -/
inductive Spec.Served (v : SrvEnv) : Srv → Prop
  | start : Spec.Served v {}
  | step {s s' : Srv} {ev : SrvEv} : Spec.Served v s → Spec.Proper s ev → s.step v ev = .ok s' → Spec.Served v s'

/-- Stored packets are longer than three bytes, and the message store does not panic (see `C84_put_violated`). -/
structure SrvEnv.Sane (v : SrvEnv) : Prop where
  enc : ∀ x, 4 ≤ (v.enc x).length
  puts : ∀ topic payload, v.puts topic payload ≠ .panics

/-! ## The invariant -/

structure ConnOk (out : List (UInt32 × Sent)) (q : UInt32) (c : SrvConn) : Prop where
  resume : c.ids.resume = []
  client : ∀ id, c.client = some id → id.length = 12
  subs : c.subs ≠ [] → c.client ≠ none
  batch : c.client ≠ none → c.batch.isSome = true
  told : (q, Sent.connack true) ∈ out ↔ c.client ≠ none

structure SrvOk (s : Srv) : Prop where
  conns : ∀ q c, AMap.get s.conns q = some c → ConnOk s.out q c
  log : ∀ x ∈ s.log, 4 ≤ x.2.length
  stored : ∀ e ∈ s.stored, (e.2.conn, Sent.connack true) ∈ s.out

theorem SrvOk.calm {v : SrvEnv} (hv : v.Sane) {s s' : Srv} (h : SrvOk s) (k : Calm v s s') : SrvOk s' := by
  have same : ∀ q, (q, Sent.connack true) ∈ s'.out ↔ (q, Sent.connack true) ∈ s.out := by
    intro q
    obtain ⟨new, ho, hn⟩ := k.out
    rw [ho, List.mem_append]
    exact ⟨fun hm => hm.elim id fun hm => absurd rfl (hn _ hm true), .inl⟩
  refine ⟨fun q c hc => ?_, fun x hx => ?_, fun e he => ?_⟩
  · obtain ⟨c', h1, h2⟩ := k.back hc
    have := h.conns q c' h1
    simp only [SrvConn.core, Prod.mk.injEq] at h2
    obtain ⟨e1, e2, e3, e4, e5, e6⟩ := h2
    refine ⟨e6 ▸ this.resume, e1 ▸ this.client, ?_, ?_, ?_⟩
    · rw [← e4, ← e1]; exact this.subs
    · rw [← e1, ← e5]; exact this.batch
    · rw [← e1, same]; exact this.told
  · rcases k.log x hx with hx | ⟨i, hi⟩
    · exact h.log x hx
    · rw [hi]; exact hv.enc i
  · rw [same]
    rw [k.stored] at he
    exact h.stored e he

theorem contract_ok {c : SrvConn} {out : List (UInt32 × Sent)} {q : UInt32} (h : ConnOk out q c) (hc : c.client ≠ none) :
    ∃ k, c.contract = .ok k := by
  cases hid : c.client with
  | none => exact absurd hid hc
  | some id =>
    have hl := h.client id hid
    simp only [SrvConn.contract, hid, Option.bind_some, cidContract, be32At, slice?]
    simp [hl]

theorem check_ok {c : SrvConn} {out : List (UInt32 × Sent)} {q : UInt32} (h : ConnOk out q c) (hc : c.client ≠ none) (t : ReqTopic) :
    ∃ w, c.check t = .ok w := by
  obtain ⟨k, hk⟩ := contract_ok h hc
  simp only [SrvConn.check, hk]
  split
  · exact ⟨_, rfl⟩
  · split
    · exact ⟨_, rfl⟩
    · split
      · exact ⟨_, rfl⟩
      · exact ⟨_, rfl⟩

theorem parse_ok {text : Bytes} (h : ∃ c ∈ text, c ≠ chSlash) : ∃ t, parseRequest text = some t := by
  cases hp : parseRequest text with
  | some t => exact ⟨t, rfl⟩
  | none =>
    obtain ⟨c, h1, h2⟩ := h
    exact absurd ((C62_crash_iff text).1 hp c h1) h2

theorem close_ok {s : Srv} (h : SrvOk s) (q : UInt32) : ∃ s', s.close q = .ok s' ∧ SrvOk s' := by
  simp only [Srv.close]
  cases hc : AMap.get s.conns q with
  | none => exact ⟨s, rfl, h⟩
  | some c =>
    have hk := h.conns q c hc
    simp only
    split
    · next hb =>
      obtain ⟨k, hk'⟩ := contract_ok hk (hk.subs hb.1)
      simp only [SrvConn.contract, hb.2] at hk'
      cases hk'
    · refine ⟨_, rfl, ⟨fun r d hd => ?_, h.log, fun e he => h.stored e (List.mem_filter.1 he).1⟩⟩
      simp only [AMap.get_del] at hd
      split at hd
      · cases hd
      · exact h.conns r d hd

theorem notifyError_ok {v : SrvEnv} (hv : v.Sane) {s : Srv} (h : SrvOk s) {q : UInt32} {c : SrvConn} (hc : AMap.get s.conns q = some c)
    (e : Verdict) (mid : UInt16) : ∃ s', s.notifyError v q e mid = .ok s' ∧ SrvOk s' ∧ Calm v s s' := by
  obtain ⟨r, hr⟩ := Srv.sendMessage_ok (v := v) hc (h.conns q c hc).resume 0 0 0 ⟨errorTopic, v.errorText e mid⟩ (.inl (by decide))
  have C := Srv.sendMessage_calm hr
  exact ⟨r.2, by simp only [Srv.notifyError, hr, Except.map], h.calm hv C, C⟩

theorem special_ok {v : SrvEnv} (hv : v.Sane) {s : Srv} (h : SrvOk s) {q : UInt32} {c : SrvConn} (hc : AMap.get s.conns q = some c)
    (hn : c.client ≠ none) (t : ReqTopic) (payload : Bytes) : ∃ s', s.special v q c t payload = .ok s' ∧ SrvOk s' ∧ Calm v s s' := by
  obtain ⟨r, hr⟩ := Srv.sendMessage_ok (v := v) hc (h.conns q c hc).resume 0 0 0
    ⟨apiPrefix ++ t.topic.take t.size, v.answer (t.topic.take t.size) payload⟩ (.inl (by decide))
  have C := Srv.sendMessage_calm hr
  refine ⟨r.2, ?_, h.calm hv C, C⟩
  simp only [Srv.special]
  rw [if_neg (fun e => hn e.2), hr]
  rfl

theorem deliver_ok {v : SrvEnv} (hv : v.Sane) {p : UInt32} {pub : DPub} {m : DMsg} {x : UInt16 × Srv} (h : SrvOk x.2) (e : SubEntry)
    (he : (e.conn, Sent.connack true) ∈ x.2.out) : ∃ r, Srv.deliver v p pub m x e = .ok r ∧ SrvOk r.2 := by
  have key : ∃ r, Srv.deliver v p pub m x e = .ok r := by
    simp only [Srv.deliver]
    split
    · next a c ha hc =>
      obtain ⟨d, hd⟩ := c.draw_ok x.1 (h.conns p c hc).resume
      have C := Calm.setConn (v := v) hc (SrvConn.draw_core hd)
      have O := h.calm hv C
      have send : ∀ mode delay, ∃ r, (x.2.setConn p d.2).sendMessage v e.conn d.1 mode delay m = .ok r := by
        intro mode delay
        obtain ⟨a', h1, h2⟩ := C.some ha
        have hcl : a'.client ≠ none := by
          simp only [SrvConn.core, Prod.mk.injEq] at h2
          rw [h2.1]; exact (h.conns _ _ ha).told.1 he
        exact Srv.sendMessage_ok h1 (O.conns _ _ h1).resume _ _ _ _ (.inr ((O.conns _ _ h1).batch hcl))
      simp only [hd, Except.bind]
      split
      · split
        · split <;> exact ⟨_, rfl⟩
        · split
          · exact send _ _
          · exact ⟨_, rfl⟩
      · split
        · exact send _ _
        · exact ⟨_, rfl⟩
    · exact ⟨_, rfl⟩
  obtain ⟨r, hr⟩ := key
  exact ⟨r, hr, h.calm hv (Srv.deliver_calm hr)⟩

theorem publish_ok {v : SrvEnv} (hv : v.Sane) {s : Srv} (h : SrvOk s) {p : UInt32} {c : SrvConn} (hc : AMap.get s.conns p = some c)
    (hn : c.client ≠ none) (pub : DPub) (t : ReqTopic) (payload : Bytes) : ∃ s', s.publish v p c pub t payload = .ok s' ∧ SrvOk s' ∧ Calm v s s' := by
  have key : ∃ s', s.publish v p c pub t payload = .ok s' := by
    obtain ⟨k, hk⟩ := contract_ok (h.conns p c hc) hn
    obtain ⟨r, h1, _⟩ := SrvM.fold_ok (f := Srv.deliver v p pub ⟨t.topic.take t.size, payload⟩) (l := s.matching v k t.topic)
      (fun x => SrvOk x.2 ∧ Calm v s x.2) (a := (pub.mid, s)) (by
        intro a b hb ha
        have hst : (b.conn, Sent.connack true) ∈ s.out := by
          have := (List.mem_filter.1 (List.mem_of_mem_take hb)).1
          obtain ⟨e, he, rfl⟩ := List.mem_map.1 this
          exact h.stored e he
        obtain ⟨new, ho, _⟩ := ha.2.out
        obtain ⟨r, hr, hok⟩ := deliver_ok hv (p := p) (pub := pub) (m := ⟨t.topic.take t.size, payload⟩) ha.1 b (by rw [ho]; exact List.mem_append_left _ hst)
        exact ⟨r, hr, hok, ha.2.trans (Srv.deliver_calm hr)⟩) ⟨h, .refl v s⟩
    exact ⟨r.2, by simp [Srv.publish, hk, Except.bind, h1, Except.map]⟩
  obtain ⟨s', hs⟩ := key
  exact ⟨s', hs, h.calm hv (Srv.publish_calm hs), Srv.publish_calm hs⟩

theorem publishAll_ok {v : SrvEnv} (hv : v.Sane) {q : UInt32} {pub : DPub} (ms : List DMsg) (hms : ∀ m ∈ ms, ∃ c ∈ m.topic, c ≠ chSlash) :
    ∀ {s : Srv}, SrvOk s → (q, Sent.connack true) ∈ s.out → ∃ r, Srv.publishAll v q pub ms s = .ok r := by
  induction ms with
  | nil => intro s _ _; exact ⟨_, rfl⟩
  | cons m ms ih =>
    intro s h hq
    obtain ⟨t, ht⟩ := parse_ok (hms m (by simp))
    simp only [Srv.publishAll, ht]
    cases hc : AMap.get s.conns q with
    | none => exact ⟨_, rfl⟩
    | some c =>
      have hn := (h.conns q c hc).told.1 hq
      simp only
      split
      · exact ⟨_, rfl⟩
      · split
        · obtain ⟨s', h1, _⟩ := special_ok hv h hc hn t m.payload
          rw [h1]; exact ⟨_, rfl⟩
        · obtain ⟨w, hw⟩ := check_ok (h.conns q c hc) hn t
          rw [hw]
          simp only [Except.bind]
          split
          · exact ⟨_, rfl⟩
          · obtain ⟨k, hk⟩ := contract_ok (h.conns q c hc) hn
            rw [hk]
            simp only
            split
            · obtain ⟨s', h1, h2, h3⟩ := publish_ok hv h hc hn pub t m.payload
              rw [h1]
              obtain ⟨new, ho, _⟩ := h3.out
              exact ih (fun m hm => hms m (List.mem_cons_of_mem _ hm)) h2 (by rw [ho]; exact List.mem_append_left _ hq)
            · exact ⟨_, rfl⟩
            · next hp => exact absurd hp (hv.puts _ _)
          · exact ⟨_, rfl⟩

/-- Handling something for a connection keeps the server in order and the connection told. -/
def Fine (q : UInt32) (s : Srv) : Prop := SrvOk s ∧ (q, Sent.connack true) ∈ s.out

theorem Fine.calm {v : SrvEnv} (hv : v.Sane) {q : UInt32} {s s' : Srv} (h : Fine q s) (k : Calm v s s') : Fine q s' := by
  obtain ⟨new, ho, _⟩ := k.out
  exact ⟨h.1.calm hv k, by rw [ho]; exact List.mem_append_left _ h.2⟩

theorem onPublish_ok {v : SrvEnv} (hv : v.Sane) {q : UInt32} {s : Srv} (h : Fine q s) {c : SrvConn} (hc : AMap.get s.conns q = some c)
    (pub : DPub) (hms : ∀ m ∈ pub.msgs, ∃ c ∈ m.topic, c ≠ chSlash) : ∃ s', s.onPublish v q pub = .ok s' := by
  obtain ⟨r, hr⟩ := publishAll_ok hv (q := q) (pub := pub) pub.msgs hms h.1 h.2
  have C := Srv.publishAll_calm _ hr
  simp only [Srv.onPublish, hr, Except.bind]
  split
  · exact ⟨_, rfl⟩
  · exact ⟨_, rfl⟩
  · obtain ⟨c', hc', _⟩ := C.some hc
    obtain ⟨x, h1⟩ := Srv.sendMessage_ok (v := v) hc' ((h.calm hv C).1.conns q c' hc').resume 0 0 0 ⟨errorTopic, v.putError pub.mid⟩ (.inl (by decide))
    rw [h1]; exact ⟨_, rfl⟩
  · obtain ⟨c', hc', _⟩ := C.some hc
    obtain ⟨s', h1, _⟩ := notifyError_ok hv (h.calm hv C).1 hc' ‹_› pub.mid
    exact ⟨s', h1⟩

theorem request_ok {v : SrvEnv} (hv : v.Sane) {q : UInt32} {s : Srv} (h : Fine q s) (mid : UInt16) {text : Bytes} (ht : ∃ c ∈ text, c ≠ chSlash)
    {f : SrvConn → ReqTopic → SrvM (Option Verdict × Srv)}
    (hf : ∀ c t, AMap.get s.conns q = some c → c.client ≠ none → ∃ r, f c t = .ok r ∧ Fine q r.2 ∧ ∃ c', AMap.get r.2.conns q = some c') :
    ∃ s', s.request v q mid text f = .ok s' ∧ Fine q s' := by
  obtain ⟨t, ht⟩ := parse_ok ht
  simp only [Srv.request, ht]
  cases hc : AMap.get s.conns q with
  | none => exact ⟨s, rfl, h⟩
  | some c =>
    have hn := (h.1.conns q c hc).told.1 h.2
    have err : ∀ e, ∃ s', s.notifyError v q e mid = .ok s' ∧ Fine q s' := by
      intro e
      obtain ⟨s', h1, _, h3⟩ := notifyError_ok hv h.1 hc e mid
      exact ⟨s', h1, h.calm hv h3⟩
    simp only
    split
    · exact err _
    · obtain ⟨w, hw⟩ := check_ok (h.1.conns q c hc) hn t
      rw [hw]
      simp only [Except.bind]
      split
      · obtain ⟨r, h1, h2, c', h3⟩ := hf c t hc hn
        rw [h1]
        simp only
        split
        · exact ⟨_, rfl, h2⟩
        · obtain ⟨s', g1, _, g3⟩ := notifyError_ok hv h2.1 h3 ‹_› mid
          exact ⟨s', g1, h2.calm hv g3⟩
      · exact err _

theorem Fine.setConn {q : UInt32} {s : Srv} (h : Fine q s) {c : SrvConn} (hc : AMap.get s.conns q = some c) (hn : c.client ≠ none) (subs : AMap Bytes SubCount)
    (stored : List (Nat × SubEntry)) (hs : ∀ e ∈ stored, e ∈ s.stored ∨ e.2.conn = q) (n : Nat) :
    Fine q { s.setConn q { c with subs := subs } with stored := stored, nextId := n } := by
  refine ⟨⟨fun r d hd => ?_, h.1.log, fun e he => ?_⟩, h.2⟩
  · simp only [Srv.setConn, AMap.get_set] at hd
    split at hd
    · next e =>
      subst e
      injection hd with hd; subst hd
      have := h.1.conns r c hc
      exact ⟨this.resume, this.client, fun _ => hn, this.batch, this.told⟩
    · exact h.1.conns r d hd
  · rcases hs e he with he | he
    · exact h.1.stored e he
    · rw [he]; exact h.2

theorem subscribeTo_ok {q : UInt32} {s : Srv} (h : Fine q s) {c : SrvConn} (hc : AMap.get s.conns q = some c) (hn : c.client ≠ none) (t : ReqTopic) (a : SubAsk) :
    ∃ r, s.subscribeTo q c t a = .ok r ∧ Fine q r.2 ∧ ∃ c', AMap.get r.2.conns q = some c' := by
  obtain ⟨k, hk⟩ := contract_ok (h.1.conns q c hc) hn
  simp only [Srv.subscribeTo, hk, Except.bind]
  split
  · exact ⟨_, rfl, h, c, hc⟩
  · next key _ =>
    refine ⟨_, rfl, ?_, ?_⟩
    · simp only
      split
      · exact h.setConn hc hn _ _ (by
          intro e he
          rcases List.mem_cons.1 he with rfl | he
          · exact .inr rfl
          · exact .inl he) _
      · exact h.setConn hc hn _ _ (fun e he => .inl he) _
    · simp only
      split
      · exact ⟨_, AMap.get_set_self _ _ _⟩
      · exact ⟨_, AMap.get_set_self _ _ _⟩

theorem unsubscribeFrom_ok {q : UInt32} {s : Srv} (h : Fine q s) {c : SrvConn} (hc : AMap.get s.conns q = some c) (hn : c.client ≠ none) (t : ReqTopic) :
    ∃ r, s.unsubscribeFrom q c t = .ok r ∧ Fine q r.2 ∧ ∃ c', AMap.get r.2.conns q = some c' := by
  obtain ⟨k, hk⟩ := contract_ok (h.1.conns q c hc) hn
  simp only [Srv.unsubscribeFrom, hk, Except.bind]
  split
  · exact ⟨_, rfl, h, c, hc⟩
  · split
    · exact ⟨_, rfl, h.setConn hc hn _ _ (fun e he => .inl (List.mem_filter.1 he).1) _, _, AMap.get_set_self _ _ _⟩
    · exact ⟨_, rfl, h.setConn hc hn _ _ (fun e he => .inl he) _, _, AMap.get_set_self _ _ _⟩

theorem relayOne_ok {v : SrvEnv} (hv : v.Sane) {q : UInt32} {s : Srv} (h : Fine q s) (mid : UInt16) (a : Bytes × List Bytes)
    (ht : ∃ c ∈ a.1, c ≠ chSlash) : ∃ s', Srv.relayOne v q mid s a = .ok s' ∧ Fine q s' := by
  refine request_ok hv h mid ht ?_
  intro c t hc hn
  obtain ⟨k, hk⟩ := contract_ok (h.1.conns q c hc) hn
  obtain ⟨r, h1, h2, h3⟩ := SrvM.fold_ok (f := fun s m => (s.sendMessage v q 0 2 0 ⟨t.topic, m⟩).map (·.2)) (l := a.2)
    (fun s' => Fine q s' ∧ Calm v s s') (a := s) (by
      intro s' m _ ⟨hf, hca⟩
      obtain ⟨c', h1, _⟩ := hca.some hc
      have hk' := hf.1.conns q c' h1
      obtain ⟨r, hr⟩ := Srv.sendMessage_ok (v := v) h1 hk'.resume 0 2 0 ⟨t.topic, m⟩ (.inr (hk'.batch (hk'.told.1 hf.2)))
      have C := Srv.sendMessage_calm hr
      exact ⟨r.2, by simp [hr, Except.map], hf.calm hv C, hca.trans C⟩) ⟨h, .refl v s⟩
  obtain ⟨c', hc', _⟩ := h3.some hc
  refine ⟨(none, r), ?_, h2, c', hc'⟩
  rw [hk]
  show (SrvM.fold _ s a.2).map _ = _
  rw [h1]
  rfl

/-- Opening removes the 16 bytes of the tag. -/
def Aead.Strips (c : Aead) : Prop := ∀ n x p, c.unlock n x = some p → x.length = p.length + 16

theorem onConnect_length {m : Mac} (hm : m.cipher.Strips) {cache cache' : ClientCache} {epoch : UInt32} {text id : Bytes}
    (h : onConnect m cache epoch text = (.accepted id, cache')) : id.length = 12 := by
  have hdec : ∀ i, cidDecode m text = some i → i.length = 12 := by
    intro i hi
    simp only [cidDecode] at hi
    split at hi
    · cases hi
    · next hl =>
      have hl : 52 ≤ text.length := by omega
      have hb : ((TextId.decodeInPlace 32 text).take 32).length = 32 := by
        rw [TextId.decodeInPlace_eq 32 text (by omega)]
        simp [TextId.decodeN]
      generalize hx : (TextId.decodeInPlace 32 text).take 32 = x at hi hb
      simp only [Mac.decrypt, Mac.overhead, hb] at hi
      cases hu : m.cipher.unlock (m.salt ++ x.take 8) (x.drop 8) with
      | none => simp [hu] at hi
      | some plain =>
        have := hm _ _ _ hu
        simp only [List.length_drop, hb] at this
        simp [hu] at hi
        subst hi
        simp [hb]
        omega
  simp only [onConnect] at h
  split at h
  · injection h with h _; injection h with h; subst h; simp [newClientID]
  · split at h
    · injection h with h _; cases h
    · next i hi =>
      split at h
      · injection h with h _; injection h with h; subst h; exact hdec _ hi
      · split at h
        · injection h with h _; injection h with h; subst h; exact hdec _ hi
        · injection h with h _; injection h with h; subst h; exact hdec _ hi

theorem LogMap.mem_of_get {l : LogMap} {k : UInt64} {raw : Bytes} (h : l.get k = some raw) : ∃ x ∈ l, x.2 = raw := by
  simp only [LogMap.get, Option.map_eq_some_iff] at h
  obtain ⟨x, h1, h2⟩ := h
  exact ⟨x, List.mem_of_find?_eq_some h1, h2⟩

theorem LogMap.mem_put {l : LogMap} {k : UInt64} {raw : Bytes} {x : UInt64 × Bytes} (h : x ∈ l.put k raw) : x ∈ l ∨ x.2 = raw := by
  simp only [LogMap.put, List.mem_cons, List.mem_filter] at h
  rcases h with rfl | h
  · exact .inr rfl
  · exact .inl h.1

theorem LogMap.mem_reset {l : LogMap} {b : UInt32} {x : UInt64 × Bytes} (h : x ∈ l.reset b) : x ∈ l := by
  simp only [LogMap.reset] at h
  generalize hks : l.map (·.1) = ks at h
  clear hks
  suffices ∀ acc : LogMap, x ∈ ks.foldl (fun acc k => if inBlock b k then acc.delete k else acc) acc → x ∈ acc from this l h
  clear h
  intro acc
  induction ks generalizing acc with
  | nil => exact id
  | cons k ks ih =>
    intro hx
    have := ih _ hx
    simp only at this
    split at this
    · exact (List.mem_filter.1 this).1
    · exact this

theorem session_ok (read : Bytes → Option LogPacket) {l : LogMap} (hl : ∀ x ∈ l, 4 ≤ x.2.length) (lid asked epoch : UInt32) :
    ∃ l' ids, connectSession read l lid asked epoch true = some (l', ids, []) ∧ ∀ x ∈ l', 4 ≤ x.2.length := by
  have hrec : ∀ n, 4 ≤ (sessionRecord n).length := fun n => by simp [sessionRecord]
  have put : ∀ (l : LogMap) k n, (∀ x ∈ l, 4 ≤ x.2.length) → ∀ x ∈ l.put k (sessionRecord n), 4 ≤ x.2.length := by
    intro l k n hl x hx
    rcases LogMap.mem_put hx with hx | hx
    · exact hl x hx
    · rw [hx]; exact hrec n
  have key : ∀ (l2 : LogMap) (sess : UInt32), (∀ x ∈ l2, 4 ≤ x.2.length) →
      ∀ x ∈ (if asked ≠ 0 ∧ asked ≠ epoch then (l2.put (sessionKey asked epoch) (sessionRecord lid)).put epoch.toUInt64 (sessionRecord lid)
        else l2.put (sessionKey asked epoch) (sessionRecord lid)), 4 ≤ x.2.length := by
    intro l2 sess h2
    split
    · exact put _ _ _ (put _ _ _ h2)
    · exact put _ _ _ h2
  simp only [connectSession]
  cases hg : l.get (sessionKey asked epoch) with
  | none => exact ⟨_, _, rfl, key l lid hl⟩
  | some raw =>
    obtain ⟨x, hx, he⟩ := LogMap.mem_of_get hg
    have h4 : ¬ raw.length < 4 := by have := hl x hx; rw [he] at this; omega
    simp only [sessionOf, if_neg h4, Option.map_some, if_true]
    exact ⟨_, _, rfl, key _ 0 (fun x hx => hl x (LogMap.mem_reset hx))⟩

theorem connect_ok {v : SrvEnv} (hv : v.Sane) (hm : v.mac.cipher.Strips) {s : Srv} (h : SrvOk s) {q : UInt32} {c : SrvConn}
    (hc : AMap.get s.conns q = some c) (text : Bytes) (epoch : UInt32) (fresh : Bytes) (insecure : Bool) (asked : UInt32) :
    ∃ s', s.onConnectPacket v q text epoch fresh insecure asked true = .ok s' ∧ SrvOk s' := by
  have hk := h.conns q c hc
  simp only [Srv.onConnectPacket, hc]
  split
  · next cache hcon =>
    obtain ⟨s1, hs1⟩ : ∃ s1, s1 = ((({ s with cache } : Srv).setConn q { c with insecure }).emit q (.connack false)) := ⟨_, rfl⟩
    have O : SrvOk s1 := by
      subst hs1
      refine ⟨fun r d hd => ?_, h.log, fun e he => List.mem_append_left _ (h.stored e he)⟩
      have told : ∀ r, (r, Sent.connack true) ∈ s.out ++ [(q, Sent.connack false)] ↔ (r, Sent.connack true) ∈ s.out := by simp
      simp only [Srv.emit, Srv.setConn, AMap.get_set] at hd
      split at hd
      · next e =>
        subst e; injection hd with hd; subst hd
        exact ⟨hk.resume, hk.client, hk.subs, hk.batch, (told _).trans hk.told⟩
      · have := h.conns r d hd
        exact ⟨this.resume, this.client, this.subs, this.batch, (told _).trans this.told⟩
    have hc1 : AMap.get s1.conns q = some { c with insecure } := by subst hs1; exact AMap.get_set_self _ _ _
    rw [← hs1]
    obtain ⟨r, hr⟩ := Srv.sendMessage_ok (v := v) hc1 (O.conns _ _ hc1).resume 0 0 0 ⟨clientIdTopic, fresh⟩ (.inl (by decide))
    rw [hr]
    exact close_ok (O.calm hv (Srv.sendMessage_calm hr)) q
  · next id cache hcon =>
    have hid := onConnect_length hm hcon
    obtain ⟨ep, hep⟩ : ∃ ep, cidEpoch id = some ep := by simp [cidEpoch, be32At, slice?, hid]
    obtain ⟨l', ids, hs, hl'⟩ := session_ok v.read h.log c.sess asked ep
    simp only [hep, hs, List.foldl_nil]
    refine ⟨_, rfl, fun r d hd => ?_, hl', fun e he => List.mem_append_left _ (h.stored e he)⟩
    simp only [Srv.emit, Srv.setConn, AMap.get_set] at hd
    split at hd
    · next e =>
      subst e; injection hd with hd; subst hd
      refine ⟨hk.resume, ?_, fun _ => by simp, fun _ => rfl, ?_⟩
      · intro i hi; injection hi with hi; subst hi; exact hid
      · simp [Srv.emit]
    · next hne =>
      have := h.conns r d hd
      refine ⟨this.resume, this.client, this.subs, this.batch, ?_⟩
      rw [← this.told]
      simp [Srv.emit, Srv.setConn, hne]

theorem step_ok {v : SrvEnv} (hv : v.Sane) (hm : v.mac.cipher.Strips) {s : Srv} (h : SrvOk s) {ev : SrvEv} (hp : Spec.Proper s ev) :
    ∃ s', s.step v ev = .ok s' ∧ SrvOk s' := by
  cases ev with
  | accept q =>
    refine ⟨_, rfl, fun r d hd => ?_, h.log, h.stored⟩
    simp only [Srv.setConn, AMap.get_set] at hd
    split at hd
    · next e =>
      subst e; injection hd with hd; subst hd
      exact ⟨rfl, fun _ e => (by cases e), fun e => absurd rfl e, fun e => absurd rfl e, ⟨fun e => absurd e (hp.2 _), fun e => absurd rfl e⟩⟩
    · exact h.conns r d hd
  | lost q => exact close_ok h q
  | packet q p =>
    obtain ⟨h1, h2, h3⟩ := hp
    simp only [Srv.step]
    cases hc : AMap.get s.conns q with
    | none => exact ⟨s, rfl, h⟩
    | some c =>
      simp only
      have emit : ∀ {s' : Srv} {x : Sent}, SrvOk s' → (∀ b, x ≠ .connack b) → SrvOk (s'.emit q x) := fun h hx => h.calm hv (.emit hx)
      cases p with
      | connect text epoch fresh insecure asked clean =>
        have := h3 _ _ _ _ _ _ rfl
        subst this
        exact connect_ok hv hm h hc text epoch fresh insecure asked
      | subscribe mid asks =>
        simp only [Srv.handle]
        cases asks with
        | nil => exact ⟨_, rfl, emit h (by intro b e; cases e)⟩
        | cons a asks =>
          have hf : Fine q s := ⟨h, h1.resolve_left (by simp [Spec.texts])⟩
          obtain ⟨r, g1, g2⟩ := SrvM.fold_ok (f := fun s a => Srv.request v s q mid a.text fun c t => s.subscribeTo q c t a) (l := a :: asks) (Fine q) (by
            intro s' b hb hs'
            exact request_ok hv hs' mid (h2 _ (List.mem_map_of_mem hb)) (fun c t hc hn => subscribeTo_ok hs' hc hn t b)) hf
          rw [g1]
          exact ⟨_, rfl, emit g2.1 (by intro b e; cases e)⟩
      | unsubscribe mid texts =>
        simp only [Srv.handle]
        cases texts with
        | nil => exact ⟨_, rfl, emit h (by intro b e; cases e)⟩
        | cons a asks =>
          have hf : Fine q s := ⟨h, h1.resolve_left (by simp [Spec.texts])⟩
          obtain ⟨r, g1, g2⟩ := SrvM.fold_ok (f := fun s text => Srv.request v s q mid text fun c t => s.unsubscribeFrom q c t) (l := a :: asks) (Fine q) (by
            intro s' b hb hs'
            exact request_ok hv hs' mid (h2 _ hb) (fun c t hc hn => unsubscribeFrom_ok hs' hc hn t)) hf
          rw [g1]
          exact ⟨_, rfl, emit g2.1 (by intro b e; cases e)⟩
      | relay mid asks =>
        simp only [Srv.handle]
        cases asks with
        | nil => exact ⟨_, rfl, emit h (by intro b e; cases e)⟩
        | cons a asks =>
          have hf : Fine q s := ⟨h, h1.resolve_left (by simp [Spec.texts])⟩
          obtain ⟨r, g1, g2⟩ := SrvM.fold_ok (f := Srv.relayOne v q mid) (l := a :: asks) (Fine q) (by
            intro s' b hb hs'
            exact relayOne_ok hv hs' mid b (h2 _ (List.mem_map_of_mem hb))) hf
          rw [g1]
          exact ⟨_, rfl, emit g2.1 (by intro b e; cases e)⟩
      | publish pub =>
        have key : ∃ s', s.onPublish v q pub = .ok s' := by
          cases hms : pub.msgs with
          | nil => exact ⟨s.emit q (.acked pub.mid), by simp [Srv.onPublish, hms, Srv.publishAll, Except.bind]⟩
          | cons m ms =>
            refine onPublish_ok hv ⟨h, h1.resolve_left (by simp [Spec.texts, hms])⟩ hc pub ?_
            intro m hm
            exact h2 _ (List.mem_map_of_mem hm)
        obtain ⟨s', hs⟩ := key
        exact ⟨s', hs, h.calm hv (Srv.onPublish_calm hs)⟩
      | receive mid =>
        simp only [Srv.handle, hc]
        split
        · exact close_ok h q
        · exact ⟨_, rfl, emit h (by intro b e; cases e)⟩
        · exact ⟨_, rfl, h⟩
      | receipt mid =>
        simp only [Srv.handle, hc]
        refine ⟨_, rfl, emit ?_ (by intro b e; cases e)⟩
        split
        · exact h
        · refine ⟨h.conns, fun x hx => ?_, h.stored⟩
          have := (List.mem_filter.1 hx).1
          rcases LogMap.mem_put this with hx | hx
          · exact h.log x hx
          · rw [hx]; exact hv.enc _
      | ping => exact ⟨_, rfl, emit h (by intro b e; cases e)⟩
      | disconnect => exact close_ok h q

/-- C84 (partial: the conditions of `Spec.Proper`). Whatever the clients send, and in whichever order connections come, send and go, the server handles the
next packet: nothing panics and no goroutine waits forever. -/
theorem C84_serves_partial (v : SrvEnv) (hv : v.Sane) (hm : v.mac.cipher.Strips) (s : Srv) (h : Spec.Served v s) (ev : SrvEv)
    (hp : Spec.Proper s ev) : ∃ s', s.step v ev = .ok s' := by
  have O : SrvOk s := by
    clear hp
    induction h with
    | start => exact ⟨fun q c hc => (by cases hc), fun x hx => (by simp at hx), fun e he => (by simp at he)⟩
    | step _ hp' hs ih =>
      obtain ⟨s2, h1, h2⟩ := step_ok hv hm ih hp'
      rw [hs] at h1
      injection h1 with h1; subst h1
      exact h2
  obtain ⟨s', h1, _⟩ := step_ok hv hm O hp
  exact ⟨s', h1⟩

/-! ## A toy server -/

theorem toyAead_strips : toyAead.Strips := by
  intro n x p h
  simp only [toyAead] at h
  split at h
  · cases h
  · next h1 =>
    split at h
    · injection h with h; subst h; simp; omega
    · cases h

/-- A codec of the log. -/
def toyBytes (b : Bytes) : Bytes := (b.flatMap fun x => [1, x]) ++ [0]

def toyUnbytes : Bytes → Option (Bytes × Bytes)
  | 0 :: r => some ([], r)
  | 1 :: x :: r => (toyUnbytes r).map fun p => (x :: p.1, p.2)
  | _ => none

def toyMsgs (ms : List DMsg) : Bytes := (ms.flatMap fun m => 1 :: (toyBytes m.topic ++ toyBytes m.payload)) ++ [0]

def toyUnmsgs : Nat → Bytes → Option (List DMsg)
  | 0, _ => none
  | _ + 1, 0 :: _ => some []
  | n + 1, 1 :: r => (toyUnbytes r).bind fun t => (toyUnbytes t.2).bind fun p => (toyUnmsgs n p.2).map (⟨t.1, p.1⟩ :: ·)
  | _ + 1, _ => none

def toyEnc : LogItem → Bytes
  | .pub p => put16 p.mid ++ (0 :: p.mode :: toyMsgs p.msgs)
  | .receipt mid => put16 mid ++ [1, 0]

def toyDec (b : Bytes) : Option LogItem :=
  (get16 b 0).bind fun mid =>
    match b.drop 2 with
    | 0 :: mode :: r => (toyUnmsgs (r.length + 1) r).map fun ms => .pub ⟨mid, mode, ms⟩
    | 1 :: _ => some (.receipt mid)
    | _ => none

theorem toyUnbytes_toyBytes (b r : Bytes) : toyUnbytes (toyBytes b ++ r) = some (b, r) := by
  induction b with
  | nil => rfl
  | cons x b ih =>
    have e : toyBytes (x :: b) ++ r = 1 :: x :: (toyBytes b ++ r) := by simp [toyBytes]
    rw [e, toyUnbytes, ih]
    rfl

theorem toyUnmsgs_toyMsgs (ms : List DMsg) : ∀ n, ms.length < n → toyUnmsgs n (toyMsgs ms) = some ms := by
  induction ms with
  | nil => intro n hn; cases n with
    | zero => omega
    | succ n => rfl
  | cons m ms ih =>
    intro n hn
    cases n with
    | zero => omega
    | succ n =>
      have e : toyMsgs (m :: ms) = 1 :: (toyBytes m.topic ++ (toyBytes m.payload ++ toyMsgs ms)) := by simp [toyMsgs]
      rw [e, toyUnmsgs, toyUnbytes_toyBytes]
      simp only [Option.bind_some, toyUnbytes_toyBytes]
      rw [ih n (by simp only [List.length_cons] at hn; omega)]
      rfl

theorem toyMsgs_length (ms : List DMsg) : ms.length ≤ (toyMsgs ms).length := by
  induction ms with
  | nil => simp
  | cons m ms ih =>
    have e : toyMsgs (m :: ms) = 1 :: (toyBytes m.topic ++ (toyBytes m.payload ++ toyMsgs ms)) := by simp [toyMsgs]
    rw [e]; simp only [List.length_cons, List.length_append]; omega

theorem toyDec_toyEnc (x : LogItem) : toyDec (toyEnc x) = some x := by
  cases x with
  | pub p =>
    have e : (toyEnc (.pub p)).drop 2 = 0 :: p.mode :: toyMsgs p.msgs := List.drop_left' (by simp)
    simp only [toyDec, e]
    rw [toyUnmsgs_toyMsgs _ _ (Nat.lt_succ_of_le (toyMsgs_length _))]
    simp [toyEnc]
  | receipt mid =>
    have e : (toyEnc (.receipt mid)).drop 2 = [1, 0] := List.drop_left' (by simp)
    simp only [toyDec, e]
    simp [toyEnc]

theorem toyEnc_length (x : LogItem) : 4 ≤ (toyEnc x).length := by
  cases x with
  | pub p => simp only [toyEnc, List.length_append, List.length_cons, length_put16]; omega
  | receipt mid => simp [toyEnc]

/-- A server whose subscriptions are to exact topics. -/
def toySrv : SrvEnv where
  mac := mac0
  enc := toyEnc
  dec := toyDec
  hits := fun a b => a == b
  limit := 1000
  errorText := fun _ _ => [101]
  answer := fun _ _ => [97]
  asksKey := fun _ => true
  puts := fun _ p => if p = [] then .refused else .stored
  putError := fun _ => [101]

/-- The text of a client id of contract `k` made at `epoch`. -/
def toyClient (epoch k : UInt32) : Bytes := (cidEncode mac0 (newClientID epoch 1 0 k)).getD []

/-- A connection with a CONNECT that asks for no checks of topics. -/
def toyConnect (q epoch k : UInt32) (clean : Bool) : List SrvEv := [.accept q, .packet q (.connect (toyClient epoch k) epoch [] true 0 clean)]

/-- A text key and topic. -/
def toyText (key topic : UInt8) : Bytes := [key, chSlash, topic]

def properB (s : Srv) : SrvEv → Bool
  | .accept q => (AMap.get s.conns q).isNone && s.out.all (·.1 != q)
  | .lost _ => true
  | .packet q p => ((Spec.texts p).isEmpty || s.out.contains (q, .connack true)) && (Spec.texts p).all (·.any (· != chSlash)) &&
      match p with
      | .connect _ _ _ _ _ clean => clean
      | _ => true

theorem properB_sound {s : Srv} {ev : SrvEv} (h : properB s ev = true) : Spec.Proper s ev := by
  cases ev with
  | accept q =>
    simp only [properB, Bool.and_eq_true, Option.isNone_iff_eq_none, List.all_eq_true, bne_iff_ne] at h
    exact ⟨h.1, fun x hx => h.2 _ hx rfl⟩
  | lost q => trivial
  | packet q p =>
    simp only [properB, Bool.and_eq_true, Bool.or_eq_true, List.isEmpty_iff, List.contains_iff_mem, List.all_eq_true, List.any_eq_true, bne_iff_ne] at h
    refine ⟨h.1.1, fun t ht => ?_, ?_⟩
    · exact h.1.2 t ht
    · intro text epoch fresh insecure asked clean e
      subst e
      exact h.2

def servedRun (v : SrvEnv) : List SrvEv → Srv → Option Srv
  | [], s => some s
  | ev :: evs, s =>
    if properB s ev then
      match s.step v ev with
      | .ok s' => servedRun v evs s'
      | .error _ => none
    else none

theorem servedRun_sound {v : SrvEnv} {evs : List SrvEv} : ∀ {s s' : Srv}, Spec.Served v s → servedRun v evs s = some s' → Spec.Served v s' := by
  induction evs with
  | nil => intro s s' h e; injection e with e; subst e; exact h
  | cons ev evs ih =>
    intro s s' h e
    simp only [servedRun] at e
    split at e
    · next hp =>
      split at e
      · next s1 hs => exact ih (.step h (properB_sound hp) hs) e
      · cases e
    · cases e

/-- Two clients; one subscribes to `x` reliably and the other publishes. -/
def toyServed : List SrvEv :=
  toyConnect 1 100 7 true ++ toyConnect 2 101 7 true ++ [.packet 2 (.subscribe 3 [⟨toyText 107 120, 1, 0⟩]), .packet 1 (.publish ⟨5, 1, [⟨toyText 107 120, [42]⟩]⟩)]

example : ∃ s, Spec.Served toySrv s ∧ Spec.Proper s (.packet 2 (.receive 5)) ∧ (2, Sent.notify 5) ∈ s.out := by
  have h : (servedRun toySrv toyServed {}).any (fun s => properB s (.packet 2 (.receive 5)) && s.out.contains (2, .notify 5)) = true := by decide +kernel
  obtain ⟨s, h1, h2⟩ := (Option.any_eq_true _ _).1 h
  simp only [Bool.and_eq_true, List.contains_iff_mem] at h2
  exact ⟨s, servedRun_sound .start h1, properB_sound h2.1, h2.2⟩

/-- C84, violated: a client that was accepted and sends a PUBLISH for a client id before it sends CONNECT stops the server, whatever the environment. -/
theorem C84_before_connect_violated (v : SrvEnv) (q : UInt32) (payload : Bytes) (mid : UInt16) (mode : UInt8) :
    Srv.run v {} [.accept q, .packet q (.publish ⟨mid, mode, [⟨"unitdb/clientid".toUTF8.toList, payload⟩]⟩)] = .error .panic := by
  obtain ⟨text, e⟩ : ∃ text, text = "unitdb/clientid".toUTF8.toList := ⟨_, rfl⟩
  obtain ⟨name, hp, ht, hn⟩ : ∃ name : Bytes, parseRequest text = some ⟨specialKey, name, 8, true⟩ ∧ serverHash (name.take 8) messageContract = requestClientId ∧ name.take 8 ≠ [] :=
    ⟨"clientid".toUTF8.toList, by rw [e]; decide +kernel⟩
  rw [← e]
  have hg : AMap.get (({} : Srv).setConn q { sess := q }).conns q = some { sess := q } := AMap.get_set_self _ _ _
  simp only [Srv.run, SrvM.fold, Srv.step, Except.bind, hg, Srv.handle, Srv.onPublish, Srv.publishAll, hp, Srv.special, ht]
  rw [if_neg (by simp), if_pos trivial, if_pos ⟨⟨hn, .inl trivial⟩, trivial⟩]
  rfl

/-- C84, violated: a client that may read some topic and subscribes before it sends CONNECT stops the server. -/
theorem C84_subscribe_violated (v : SrvEnv) (q : UInt32) (key topic : Bytes) (raw : Bytes) (hk : keyDecode key = some raw) (hr : hasPermission raw allowRead = true)
    (text : Bytes) (ht : parseRequest text = some ⟨key, topic, topic.length, true⟩) (mid : UInt16) (mode : UInt8) (delay : UInt32) :
    Srv.run v {} [.accept q, .packet q (.subscribe mid [⟨text, mode, delay⟩])] = .error .panic := by
  have hg : AMap.get (({} : Srv).setConn q { sess := q }).conns q = some { sess := q } := AMap.get_set_self _ _ _
  simp [Srv.run, SrvM.fold, Srv.step, Except.bind, hg, Srv.handle, Srv.request, ht, SrvConn.check, hk, hr, SrvConn.contract, Except.map]

example : ∃ key raw text topic, keyDecode key = some raw ∧ hasPermission raw allowRead = true ∧ parseRequest text = some ⟨key, topic, topic.length, true⟩ :=
  ⟨(generateKey 7 [120] allowRead).getD [], ((generateKey 7 [120] allowRead).bind keyDecode).getD [], (generateKey 7 [120] allowRead).getD [] ++ [chSlash, 120], [120], by decide +kernel⟩

theorem check_eq {c : SrvConn} {k : UInt32} (hk : c.contract = .ok k) (t : ReqTopic) :
    c.check t = .ok (if c.insecure then .granted false else onSecureRequest k t) := by
  simp only [SrvConn.check, hk, Except.map]
  split
  · rfl
  · cases hd : keyDecode t.key with
    | none => simp [onSecureRequest, hd]
    | some key =>
      simp only
      split
      · next hp => simp [onSecureRequest, hd, hp]
      · rfl

theorem check_allowed {c : SrvConn} {k : UInt32} {m : DMsg} {t : ReqTopic} (hk : c.contract = .ok k) (ht : parseRequest m.topic = some t) (hs : t.key ≠ specialKey)
    (hg : onPublishRequest c.insecure k m.topic = some (.granted false)) : t.valid = true ∧ c.check t = .ok (.granted false) := by
  simp only [onPublishRequest, ht, Option.map_some, Option.some.injEq] at hg
  rw [check_eq hk]
  split at hg
  · cases hg
  · next hv =>
    refine ⟨by simpa using hv, ?_⟩
    split at hg
    · next hi => rw [if_pos hi]
    · next hi =>
      rw [if_neg hi]
      split at hg
      · cases hg
      · rw [hg]

theorem run_of_toOption {v : SrvEnv} {s s' : Srv} {evs : List SrvEv} (h : (s.run v evs).toOption = some s') : s.run v evs = .ok s' := by
  cases hr : s.run v evs with
  | error e => rw [hr] at h; cases h
  | ok s1 => rw [hr] at h; injection h with h; rw [h]

/-- C84, violated: the server stops when a client publishes, on a topic it may publish to, a message the message store panics on. By C71 the store panics when its database
was opened a second time and the compressed payload is shorter than four bytes. -/
theorem C84_put_violated (v : SrvEnv) (s : Srv) (q : UInt32) (c : SrvConn) (k : UInt32) (hc : AMap.get s.conns q = some c) (hk : c.contract = .ok k) (m : DMsg) (t : ReqTopic)
    (hg : onPublishRequest c.insecure k m.topic = some (.granted false)) (ht : parseRequest m.topic = some t) (hs : t.key ≠ specialKey)
    (hput : v.puts t.topic m.payload = .panics) (mid : UInt16) (mode : UInt8) :
    s.step v (.packet q (.publish ⟨mid, mode, [m]⟩)) = .error .panic := by
  obtain ⟨h1, h2⟩ := check_allowed hk ht hs hg
  simp [Srv.step, hc, Srv.handle, Srv.onPublish, Srv.publishAll, ht, h1, hs, h2, Except.bind, hk, hput]

example : ∃ v s c t, Srv.run v {} [.accept 1, .packet 1 (.connect (toyClient 100 7) 100 [] true 0 false)] = .ok s ∧ AMap.get s.conns 1 = some c ∧ c.contract = .ok 7 ∧
    onPublishRequest c.insecure 7 (toyText 107 120) = some (.granted false) ∧ parseRequest (toyText 107 120) = some t ∧ t.key ≠ specialKey ∧ v.puts t.topic [1] = .panics := by
  have h : (Srv.run { toySrv with puts := fun _ p => if p.length < 2 then .panics else .stored } {} [.accept 1, .packet 1 (.connect (toyClient 100 7) 100 [] true 0 false)]).toOption.any
      (fun s => (AMap.get s.conns 1).any fun c => decide (c.contract = .ok 7 ∧ onPublishRequest c.insecure 7 (toyText 107 120) = some (.granted false)) &&
        (parseRequest (toyText 107 120)).any fun t => decide (t.key ≠ specialKey)) = true := by decide +kernel
  obtain ⟨s, h1, h2⟩ := (Option.any_eq_true _ _).1 h
  obtain ⟨c, h2, h3⟩ := (Option.any_eq_true _ _).1 h2
  rw [Bool.and_eq_true] at h3
  obtain ⟨t, h4, h5⟩ := (Option.any_eq_true _ _).1 h3.2
  obtain ⟨g1, g2⟩ := of_decide_eq_true h3.1
  exact ⟨_, s, c, t, run_of_toOption h1, h2, g1, g2, h4, of_decide_eq_true h5, rfl⟩

/-- One client subscribes reliably, is sent a message with id 1 and is lost before it asks for it; it connects again and asks for its messages. -/
def toyHang : List SrvEv :=
  toyServed.dropLast ++ [.packet 1 (.publish ⟨1, 1, [⟨toyText 107 120, [42]⟩]⟩), .lost 2, .accept 3, .packet 3 (.connect (toyClient 101 7) 101 [] true 0 false)]

/-- C84, violated: after a client came back to a session with a message of id 1 not yet fetched, the first error the server wants to tell it makes the server wait forever for a
lock it holds; here an invalid topic is subscribed to. -/
theorem C84_resumed_violated : ∃ s, Srv.run toySrv {} toyHang = .ok s ∧ (3, Sent.notify 1) ∈ s.out ∧
    s.step toySrv (.packet 3 (.subscribe 4 [⟨[107, chSlash, chQuery], 0, 0⟩])) = .error .hang := by
  have h : (Srv.run toySrv {} toyHang).toOption.any (fun s => s.out.contains (3, .notify 1) &&
      decide (s.step toySrv (.packet 3 (.subscribe 4 [⟨[107, chSlash, chQuery], 0, 0⟩])) = .error .hang)) = true := by decide +kernel
  obtain ⟨s, h1, h2⟩ := (Option.any_eq_true _ _).1 h
  simp only [Bool.and_eq_true, List.contains_iff_mem, decide_eq_true_eq] at h2
  refine ⟨s, ?_, h2⟩
  cases hr : Srv.run toySrv {} toyHang with
  | error e => rw [hr] at h1; cases h1
  | ok s1 => rw [hr] at h1; injection h1 with h1; rw [h1]

end Verif
