import Verif.Model.Delivery

/-! # What handling a packet leaves alone -/

namespace Verif

/-- What publishing does not change in a connection. -/
def SrvConn.core (c : SrvConn) : Option Bytes × Bool × UInt32 × AMap Bytes SubCount × Bool × List UInt32 :=
  (c.client, c.insecure, c.sess, c.subs, c.batch.isSome, c.ids.resume)

/-- Nothing happened but that packets were sent and logged, and ids drawn. -/
structure Calm (v : SrvEnv) (s s' : Srv) : Prop where
  stored : s'.stored = s.stored
  nextId : s'.nextId = s.nextId
  cache : s'.cache = s.cache
  conn : ∀ q, (AMap.get s'.conns q).map SrvConn.core = (AMap.get s.conns q).map SrvConn.core
  out : ∃ new, s'.out = s.out ++ new ∧ ∀ x ∈ new, ∀ b, x.2 ≠ .connack b
  log : ∀ x ∈ s'.log, x ∈ s.log ∨ ∃ i, x.2 = v.enc i

theorem Calm.refl (v : SrvEnv) (s : Srv) : Calm v s s := ⟨rfl, rfl, rfl, fun _ => rfl, ⟨[], by simp⟩, fun _ h => .inl h⟩

theorem Calm.trans {v : SrvEnv} {a b c : Srv} (h : Calm v a b) (k : Calm v b c) : Calm v a c := by
  refine ⟨k.stored.trans h.stored, k.nextId.trans h.nextId, k.cache.trans h.cache, fun q => (k.conn q).trans (h.conn q), ?_, ?_⟩
  · obtain ⟨n1, e1, h1⟩ := h.out
    obtain ⟨n2, e2, h2⟩ := k.out
    refine ⟨n1 ++ n2, by rw [e2, e1, List.append_assoc], ?_⟩
    intro x hx
    rcases List.mem_append.1 hx with hx | hx
    · exact h1 x hx
    · exact h2 x hx
  · intro x hx
    rcases k.log x hx with hx | hx
    · exact h.log x hx
    · exact .inr hx

/-- A connection that exists keeps its core. -/
theorem Calm.some {v : SrvEnv} {s s' : Srv} (h : Calm v s s') {q : UInt32} {c : SrvConn} (hc : AMap.get s.conns q = some c) :
    ∃ c', AMap.get s'.conns q = Option.some c' ∧ c'.core = c.core := by
  have := h.conn q
  rw [hc, Option.map_some] at this
  exact Option.map_eq_some_iff.1 this

theorem Calm.back {v : SrvEnv} {s s' : Srv} (h : Calm v s s') {q : UInt32} {c : SrvConn} (hc : AMap.get s'.conns q = Option.some c) :
    ∃ c', AMap.get s.conns q = Option.some c' ∧ c'.core = c.core := by
  have := h.conn q
  rw [hc, Option.map_some] at this
  exact Option.map_eq_some_iff.1 this.symm

theorem Calm.setConn {v : SrvEnv} {s : Srv} {q : UInt32} {c d : SrvConn} (hc : AMap.get s.conns q = Option.some c) (h : d.core = c.core) :
    Calm v s (s.setConn q d) := by
  refine ⟨rfl, rfl, rfl, ?_, ⟨[], by simp [Srv.setConn]⟩, fun _ h => .inl h⟩
  intro r
  simp only [Srv.setConn, AMap.get_set]
  split
  · next e => subst e; simp [hc, h]
  · rfl

theorem Calm.emit {v : SrvEnv} {s : Srv} {q : UInt32} {x : Sent} (hx : ∀ b, x ≠ .connack b) : Calm v s (s.emit q x) :=
  ⟨rfl, rfl, rfl, fun _ => rfl, ⟨[(q, x)], rfl, by simpa using hx⟩, fun _ h => .inl h⟩

theorem Calm.persist {v : SrvEnv} {s : Srv} {b : UInt32} {m : UInt16} {x : LogItem} : Calm v s (s.persist v b m x) := by
  refine ⟨rfl, rfl, rfl, fun _ => rfl, ⟨[], by simp [Srv.persist]⟩, ?_⟩
  intro y hy
  simp only [Srv.persist, LogMap.persist, LogMap.put, List.mem_cons, List.mem_filter] at hy
  rcases hy with rfl | hy
  · exact .inr ⟨x, rfl⟩
  · exact .inl hy.1

theorem SrvConn.draw_core {c : SrvConn} {mid : UInt16} {d : UInt16 × SrvConn} (h : c.draw mid = .ok d) : d.2.core = c.core := by
  simp only [SrvConn.draw] at h
  split at h
  · injection h with h; subst h; rfl
  · split at h
    · cases h
    · next i ids e =>
      injection h with h; subst h
      simp only [MIds.nextID] at e
      split at e
      · cases e
      · injection e with e; injection e with _ e; subst e; rfl

theorem SrvConn.draw_ok {c : SrvConn} (mid : UInt16) (h : c.ids.resume = []) : ∃ d, c.draw mid = .ok d := by
  simp only [SrvConn.draw]
  split
  · exact ⟨_, rfl⟩
  · simp [MIds.nextID, h]

theorem SrvConn.draw_of_ne {c : SrvConn} {mid : UInt16} (h : mid ≠ 0) : c.draw mid = .ok (mid, c) := by
  simp [SrvConn.draw, h]

theorem Srv.sendMessage_calm {v : SrvEnv} {s : Srv} {q : UInt32} {mid : UInt16} {mode : UInt8} {delay : UInt32} {m : DMsg} {r : UInt16 × Srv}
    (h : s.sendMessage v q mid mode delay m = .ok r) : Calm v s r.2 := by
  simp only [Srv.sendMessage] at h
  cases hc : AMap.get s.conns q with
  | none => rw [hc] at h; injection h with h; subst h; exact .refl v s
  | some c =>
    rw [hc] at h
    simp only at h
    cases hd : c.draw mid with
    | error => rw [hd] at h; cases h
    | ok d =>
      rw [hd] at h
      have hcore := SrvConn.draw_core hd
      simp only [Except.bind] at h
      split at h
      · split at h
        · cases h
        · next b hb =>
          injection h with h; subst h
          refine Calm.setConn hc ?_
          rw [← hcore]
          simp [SrvConn.core, hb]
      · injection h with h; subst h
        exact ((Calm.setConn hc hcore).trans .persist).trans (.emit (by intro b e; cases e))

theorem Srv.sendMessage_ok {v : SrvEnv} {s : Srv} {q : UInt32} {c : SrvConn} (hc : AMap.get s.conns q = some c) (hr : c.ids.resume = [])
    (mid : UInt16) (mode : UInt8) (delay : UInt32) (m : DMsg) (hb : (mode ≠ 2 ∧ delayed delay = false) ∨ c.batch.isSome = true) :
    ∃ r, s.sendMessage v q mid mode delay m = .ok r := by
  obtain ⟨d, hd⟩ := c.draw_ok mid hr
  have hcore := SrvConn.draw_core hd
  simp only [Srv.sendMessage, hc, hd, Except.bind]
  split
  · next hm =>
    split
    · next hn =>
      rcases hb with ⟨h1, h2⟩ | hb
      · rcases hm with hm | hm
        · exact absurd hm h1
        · rw [h2] at hm; cases hm
      · simp only [SrvConn.core, Prod.mk.injEq] at hcore
        rw [← hcore.2.2.2.2.1, hn] at hb
        cases hb
    · exact ⟨_, rfl⟩
  · exact ⟨_, rfl⟩

theorem Srv.deliver_calm {v : SrvEnv} {p : UInt32} {pub : DPub} {m : DMsg} {x : UInt16 × Srv} {e : SubEntry} {r : UInt16 × Srv}
    (h : Srv.deliver v p pub m x e = .ok r) : Calm v x.2 r.2 := by
  simp only [Srv.deliver] at h
  split at h
  · next a c ha hc =>
    cases hd : c.draw x.1 with
    | error => rw [hd] at h; cases h
    | ok d =>
      rw [hd] at h
      simp only [Except.bind] at h
      have C := Calm.setConn (v := v) hc (SrvConn.draw_core hd)
      split at h
      · split at h
        · split at h
          · injection h with h; subst h; exact C
          · injection h with h; subst h
            exact (C.trans .persist).trans (.emit (by intro b e; cases e))
        · split at h
          · exact C.trans (Srv.sendMessage_calm h)
          · injection h with h; subst h; exact C
      · split at h
        · exact C.trans (Srv.sendMessage_calm h)
        · injection h with h; subst h; exact C
  · injection h with h; subst h; exact .refl _ _

theorem SrvM.fold_inv {α β : Type} {f : α → β → SrvM α} (P : α → Prop) {l : List β} (hf : ∀ a b r, b ∈ l → P a → f a b = .ok r → P r) :
    ∀ {a r}, P a → SrvM.fold f a l = .ok r → P r := by
  induction l with
  | nil => intro a r ha h; simp only [SrvM.fold] at h; injection h with h; subst h; exact ha
  | cons b l ih =>
    intro a r ha h
    simp only [SrvM.fold] at h
    cases hb : f a b with
    | error => rw [hb] at h; cases h
    | ok a' =>
      rw [hb] at h
      exact ih (fun a b r hm => hf a b r (List.mem_cons_of_mem _ hm)) (hf a b a' (by simp) ha hb) h

theorem SrvM.fold_ok {α β : Type} {f : α → β → SrvM α} (P : α → Prop) {l : List β} (hf : ∀ a b, b ∈ l → P a → ∃ r, f a b = .ok r ∧ P r) :
    ∀ {a}, P a → ∃ r, SrvM.fold f a l = .ok r ∧ P r := by
  induction l with
  | nil => intro a ha; exact ⟨a, rfl, ha⟩
  | cons b l ih =>
    intro a ha
    obtain ⟨a', h1, h2⟩ := hf a b (by simp) ha
    obtain ⟨r, h3, h4⟩ := ih (fun a b hm => hf a b (List.mem_cons_of_mem _ hm)) h2
    exact ⟨r, by simp [SrvM.fold, h1, Except.bind, h3], h4⟩

theorem Srv.publish_calm {v : SrvEnv} {s : Srv} {p : UInt32} {c : SrvConn} {pub : DPub} {t : ReqTopic} {payload : Bytes} {r : Srv}
    (h : s.publish v p c pub t payload = .ok r) : Calm v s r := by
  simp only [Srv.publish] at h
  cases hk : c.contract with
  | error => rw [hk] at h; cases h
  | ok k =>
    rw [hk] at h
    simp only [Except.bind] at h
    cases hf : SrvM.fold (Srv.deliver v p pub ⟨t.topic.take t.size, payload⟩) (pub.mid, s) (s.matching v k t.topic) with
    | error => rw [hf] at h; cases h
    | ok y =>
      rw [hf] at h
      simp only [Except.map] at h
      injection h with h; subst h
      exact SrvM.fold_inv (fun x => Calm v s x.2) (fun a b r _ ha hr => ha.trans (Srv.deliver_calm hr)) (.refl v s) hf

theorem Srv.special_calm {v : SrvEnv} {s : Srv} {q : UInt32} {c : SrvConn} {t : ReqTopic} {payload : Bytes} {r : Srv}
    (h : s.special v q c t payload = .ok r) : Calm v s r := by
  simp only [Srv.special] at h
  split at h
  · cases h
  · cases hs : s.sendMessage v q 0 0 0 ⟨apiPrefix ++ t.topic.take t.size, v.answer (t.topic.take t.size) payload⟩ with
    | error => rw [hs] at h; cases h
    | ok y =>
      rw [hs] at h
      injection h with h; subst h
      exact Srv.sendMessage_calm hs

theorem Srv.notifyError_calm {v : SrvEnv} {s : Srv} {q : UInt32} {e : Verdict} {mid : UInt16} {r : Srv}
    (h : s.notifyError v q e mid = .ok r) : Calm v s r := by
  simp only [Srv.notifyError] at h
  cases hs : s.sendMessage v q 0 0 0 ⟨errorTopic, v.errorText e mid⟩ with
  | error => rw [hs] at h; cases h
  | ok y =>
    rw [hs] at h
    injection h with h; subst h
    exact Srv.sendMessage_calm hs

theorem Srv.publishAll_calm {v : SrvEnv} {q : UInt32} {pub : DPub} (ms : List DMsg) : ∀ {s : Srv} {r : PubEnd × Srv},
    Srv.publishAll v q pub ms s = .ok r → Calm v s r.2 := by
  induction ms with
  | nil => intro s r h; simp only [Srv.publishAll] at h; injection h with h; subst h; exact .refl _ _
  | cons m ms ih =>
    intro s r h
    simp only [Srv.publishAll] at h
    split at h
    · injection h with h; subst h; exact .refl _ _
    · cases h
    · next c t hc ht =>
      split at h
      · injection h with h; subst h; exact .refl _ _
      · split at h
        · cases hs : s.special v q c t m.payload with
          | error => rw [hs] at h; cases h
          | ok y =>
            rw [hs] at h
            injection h with h; subst h
            exact Srv.special_calm hs
        · cases hw : c.check t with
          | error => rw [hw] at h; cases h
          | ok w =>
            rw [hw] at h
            simp only [Except.bind] at h
            split at h
            · injection h with h; subst h; exact .refl _ _
            · cases hk : c.contract with
              | error => rw [hk] at h; cases h
              | ok k =>
                rw [hk] at h
                simp only at h
                split at h
                · cases hp : s.publish v q c pub t m.payload with
                  | error => rw [hp] at h; cases h
                  | ok y =>
                    rw [hp] at h
                    exact (Srv.publish_calm hp).trans (ih h)
                · injection h with h; subst h; exact .refl _ _
                · cases h
            · injection h with h; subst h; exact .refl _ _

theorem Srv.onPublish_calm {v : SrvEnv} {s : Srv} {q : UInt32} {pub : DPub} {r : Srv} (h : s.onPublish v q pub = .ok r) : Calm v s r := by
  simp only [Srv.onPublish] at h
  cases hp : s.publishAll v q pub pub.msgs with
  | error => rw [hp] at h; cases h
  | ok y =>
    rw [hp] at h
    have C := Srv.publishAll_calm _ hp
    simp only [Except.bind] at h
    split at h
    · injection h with h; subst h; exact C.trans (.emit (by intro b e; cases e))
    · injection h with h; subst h; exact C
    · cases hs : y.2.sendMessage v q 0 0 0 ⟨errorTopic, v.putError pub.mid⟩ with
      | error => rw [hs] at h; cases h
      | ok z =>
        rw [hs] at h
        injection h with h; subst h
        exact C.trans (Srv.sendMessage_calm hs)
    · exact C.trans (Srv.notifyError_calm h)

end Verif
