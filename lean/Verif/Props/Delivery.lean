import Verif.Props.Serve
import Verif.Props.Sessions
import Verif.Props.ServerState

/-!
# C83: who gets a message
-/

namespace Verif

/-! ## The book of subscriptions -/

/-- A subscription as its client sees it: the connection, the key and contract it was asked for with, the topic, how it is to be delivered, and by how many
the subscribes exceed the unsubscribes. -/
structure Spec.Sub where
  conn : UInt32
  key : Bytes
  contract : UInt32
  topic : Bytes
  name : Bytes
  mode : UInt8
  delay : UInt32
  count : Nat
  deriving DecidableEq

/-- The connected clients with their contract and whether they gave up security, and the subscriptions, newest first. -/
structure Spec.Desk where
  roll : AMap UInt32 (UInt32 × Bool) := []
  subs : List Spec.Sub := []

def Spec.Sub.isFor (q : UInt32) (key : Bytes) (r : Spec.Sub) : Bool := r.conn == q && r.key == key

/-- An accepted request to subscribe: counted, if its key is known on the connection, or else entered. -/
def Spec.Desk.asked (q : UInt32) (b : Spec.Desk) (a : SubAsk) : Spec.Desk :=
  match AMap.get b.roll q with
  | none => b
  | some (k, insecure) =>
    match onTopicRequest insecure k a.text, parseRequest a.text with
    | some (.granted _), some t =>
      match subscribeKey k t with
      | none => b
      | some key =>
        if b.subs.any (Spec.Sub.isFor q key) then { b with subs := b.subs.map fun r => if r.isFor q key then { r with count := r.count + 1 } else r }
        else { b with subs := ⟨q, key, k, t.topic, t.topic.take t.size, a.mode, a.delay, 1⟩ :: b.subs }
    | _, _ => b

/-- An accepted request to unsubscribe. -/
def Spec.Desk.dropped (q : UInt32) (b : Spec.Desk) (text : Bytes) : Spec.Desk :=
  match AMap.get b.roll q with
  | none => b
  | some (k, insecure) =>
    match onTopicRequest insecure k text, parseRequest text with
    | some (.granted _), some t =>
      { b with subs := (b.subs.map fun r => if r.isFor q t.key then { r with count := r.count - 1 } else r).filter fun r => r.count != 0 }
    | _, _ => b

/-- What an event does to the book. -/
def Spec.Desk.after (v : SrvEnv) (s : Srv) (b : Spec.Desk) : SrvEv → Spec.Desk
  | .packet q (.connect text epoch _ insecure _ _) =>
    match (onConnect v.mac s.cache epoch text).1 with
    | .accepted id => { b with roll := AMap.set b.roll q ((cidContract id).getD 0, insecure) }
    | .invalid => b
  | .packet q (.subscribe _ asks) => asks.foldl (Spec.Desk.asked q) b
  | .packet q (.unsubscribe _ texts) => texts.foldl (Spec.Desk.dropped q) b
  | _ => b

/-- The book without the connections that are closed. -/
def Spec.Desk.present (s : Srv) (b : Spec.Desk) : Spec.Desk :=
  { roll := b.roll.filter fun x => (AMap.get s.conns x.1).isSome, subs := b.subs.filter fun r => (AMap.get s.conns r.conn).isSome }

/-- A server with the book of its history: the events of `Spec.Proper`, and a connection sends one CONNECT that succeeds. -/
inductive Spec.Day (v : SrvEnv) : Srv → Spec.Desk → Prop
  | start : Spec.Day v {} {}
  | step {s s' : Srv} {b : Spec.Desk} {ev : SrvEv} : Spec.Day v s b → Spec.Proper s ev →
      (∀ q text epoch fresh insecure asked clean, ev = .packet q (.connect text epoch fresh insecure asked clean) → (q, .connack true) ∉ s.out) →
      s.step v ev = .ok s' → Spec.Day v s' ((b.after v s ev).present s')

/-! ## The book and the store -/

def Spec.Sub.entry (r : Spec.Sub) : SubEntry := ⟨r.contract, r.topic, r.mode, r.conn, r.delay⟩

/-- The book and the server say the same; `rows` is the book with the ids of the subscription store. -/
structure Fits (s : Srv) (b : Spec.Desk) (rows : List (Nat × Spec.Sub)) : Prop where
  book : b.subs = rows.map (·.2)
  stored : s.stored = rows.map fun r => (r.1, r.2.entry)
  fresh : ∀ r ∈ rows, r.1 < s.nextId
  ids : (rows.map (·.1)).Nodup
  keys : ∀ r ∈ rows, ∀ r' ∈ rows, r.2.conn = r'.2.conn → r.2.key = r'.2.key → r = r'
  count : ∀ r ∈ rows, 1 ≤ r.2.count
  live : ∀ r ∈ rows, ∃ c, AMap.get s.conns r.2.conn = some c
  subs : ∀ q c, AMap.get s.conns q = some c → ∀ key st, AMap.get c.subs key = some st ↔
    ∃ r ∈ rows, r.2.conn = q ∧ r.2.key = key ∧ st = ⟨r.1, r.2.name, r.2.count⟩
  nodup : ∀ q c, AMap.get s.conns q = some c → AMap.Nodup c.subs
  roll : ∀ q c, AMap.get s.conns q = some c → (c.client = none ∧ AMap.get b.roll q = none) ∨ ∃ k, c.contract = .ok k ∧ AMap.get b.roll q = some (k, c.insecure)
  open_ : ∀ q x, AMap.get b.roll q = some x → ∃ c, AMap.get s.conns q = some c

theorem Fits.calm {v : SrvEnv} {s s' : Srv} {b : Spec.Desk} {rows : List (Nat × Spec.Sub)} (h : Fits s b rows) (k : Calm v s s') : Fits s' b rows := by
  refine ⟨h.book, k.stored.trans h.stored, by rw [k.nextId]; exact h.fresh, h.ids, h.keys, h.count, ?_, ?_, ?_, ?_, ?_⟩
  · intro r hr
    obtain ⟨c, hc⟩ := h.live r hr
    obtain ⟨c', hc', _⟩ := k.some hc
    exact ⟨c', hc'⟩
  · intro q c hc
    obtain ⟨c', hc', e⟩ := k.back hc
    simp only [SrvConn.core, Prod.mk.injEq] at e
    rw [← e.2.2.2.1]
    exact h.subs q c' hc'
  · intro q c hc
    obtain ⟨c', hc', e⟩ := k.back hc
    simp only [SrvConn.core, Prod.mk.injEq] at e
    rw [← e.2.2.2.1]
    exact h.nodup q c' hc'
  · intro q c hc
    obtain ⟨c', hc', e⟩ := k.back hc
    simp only [SrvConn.core, Prod.mk.injEq] at e
    have := h.roll q c' hc'
    simpa only [SrvConn.contract, e.1, e.2.1] using this
  · intro q x hx
    obtain ⟨c, hc⟩ := h.open_ q x hx
    obtain ⟨c', hc', _⟩ := k.some hc
    exact ⟨c', hc'⟩

theorem filter_map_row {rows : List (Nat × Spec.Sub)} (hn : (rows.map (·.1)).Nodup) {r : Nat × Spec.Sub} (hr : r ∈ rows) :
    (rows.map fun x => (x.1, x.2.entry)).filter (·.1 != r.1) = (rows.filter (· != r)).map fun x => (x.1, x.2.entry) := by
  induction rows with
  | nil => rfl
  | cons x rows ih =>
    simp only [List.map_cons, List.nodup_cons] at hn
    have hne : ∀ y ∈ rows, y.1 ≠ x.1 := fun y hy e => hn.1 (e ▸ List.mem_map_of_mem hy)
    rcases List.mem_cons.1 hr with rfl | hr
    · have h1 : rows.filter (· != r) = rows := List.filter_eq_self.2 (fun y hy => by
        have := hne y hy
        simp only [bne_iff_ne]
        intro e; exact this (by rw [e]))
      have h2 : (rows.map fun x => (x.1, x.2.entry)).filter (·.1 != r.1) = rows.map fun x => (x.1, x.2.entry) := List.filter_eq_self.2 (by
        intro y hy
        obtain ⟨z, hz, rfl⟩ := List.mem_map.1 hy
        simpa using hne z hz)
      simp only [List.map_cons, List.filter_cons, bne_self_eq_false, h1]
      exact h2
    · have hx : x ≠ r := by rintro rfl; exact hne x hr rfl
      have hx1 : x.1 ≠ r.1 := fun e => hne r hr e.symm
      simp only [List.map_cons, List.filter_cons, bne_iff_ne.2 hx, bne_iff_ne.2 hx1, if_true]
      rw [ih hn.2 hr]

theorem row_eq {rows : List (Nat × Spec.Sub)} (hn : (rows.map (·.1)).Nodup) {r r' : Nat × Spec.Sub} (hr : r ∈ rows) (hr' : r' ∈ rows) (e : r.1 = r'.1) : r = r' := by
  induction rows with
  | nil => simp at hr
  | cons x rows ih =>
    simp only [List.map_cons, List.nodup_cons] at hn
    rcases List.mem_cons.1 hr with h1 | h1 <;> rcases List.mem_cons.1 hr' with h2 | h2
    · rw [h1, h2]
    · exact absurd (List.mem_map_of_mem (f := (·.1)) h2) (by rw [← e, h1]; exact hn.1)
    · exact absurd (List.mem_map_of_mem (f := (·.1)) h1) (by rw [e, h2]; exact hn.1)
    · exact ih hn.2 h1 h2

theorem AMap.get_filter {κ ν : Type} [DecidableEq κ] (m : AMap κ ν) (p : κ → Bool) (k : κ) :
    AMap.get (m.filter fun x => p x.1) k = if p k then AMap.get m k else none := by
  induction m with
  | nil => simp
  | cons x m ih =>
    rw [List.filter_cons]
    by_cases hx : x.1 = k
    · subst hx
      cases hp : p x.1
      · simp only [Bool.false_eq_true, if_false]; rw [ih, hp]; rfl
      · simp [AMap.get]
    · have hg : AMap.get (x :: m) k = AMap.get m k := by simp [AMap.get, hx]
      rw [hg]
      split
      · simp only [AMap.get, if_neg hx]; exact ih
      · exact ih

theorem AMap.del_of_get_none {κ ν : Type} [DecidableEq κ] {m : AMap κ ν} {k : κ} (h : AMap.get m k = none) : AMap.del m k = m := by
  refine List.filter_eq_self.2 fun x hx => ?_
  have h2 := (AMap.mem_keys m x.1).1 (List.mem_map_of_mem hx)
  simp only [ne_eq, decide_not, Bool.not_eq_eq_eq_not, Bool.not_true, decide_eq_false_iff_not]
  rintro rfl
  rw [h] at h2; cases h2

theorem Fits.present_self {s : Srv} {b : Spec.Desk} {rows : List (Nat × Spec.Sub)} (h : Fits s b rows) : b.present s = b := by
  have h1 : b.roll.filter (fun x => (AMap.get s.conns x.1).isSome) = b.roll := List.filter_eq_self.2 (by
    intro x hx
    have : (AMap.get b.roll x.1).isSome = true := (AMap.mem_keys b.roll x.1).1 (List.mem_map_of_mem hx)
    obtain ⟨y, hy⟩ := Option.isSome_iff_exists.1 this
    obtain ⟨c, hc⟩ := h.open_ _ _ hy
    simp [hc])
  have h2 : b.subs.filter (fun r => (AMap.get s.conns r.conn).isSome) = b.subs := List.filter_eq_self.2 (by
    intro r hr
    rw [h.book] at hr
    obtain ⟨x, hx, rfl⟩ := List.mem_map.1 hr
    obtain ⟨c, hc⟩ := h.live x hx
    simp [hc])
  simp only [Spec.Desk.present, h1, h2]

/-- Closing a connection. -/
theorem Fits.close {s s' : Srv} {b : Spec.Desk} {rows : List (Nat × Spec.Sub)} (h : Fits s b rows) {q : UInt32} (hc : s.close q = .ok s') :
    Fits s' (b.present s') (rows.filter fun r => r.2.conn != q) := by
  simp only [Srv.close] at hc
  cases hq : AMap.get s.conns q with
  | none =>
    rw [hq] at hc
    injection hc with hc; subst hc
    have : rows.filter (fun r => r.2.conn != q) = rows := List.filter_eq_self.2 (by
      intro r hr
      obtain ⟨c, hc⟩ := h.live r hr
      simp only [bne_iff_ne]
      rintro e
      rw [e, hq] at hc; cases hc)
    rw [this, h.present_self]
    exact h
  | some c =>
    rw [hq] at hc
    simp only at hc
    split at hc
    · cases hc
    · injection hc with hc
      have hmem : ∀ r ∈ rows, c.subs.any (·.2.id == r.1) = (r.2.conn == q) := by
        intro r hr
        rw [Bool.eq_iff_iff, List.any_eq_true, beq_iff_eq]
        constructor
        · rintro ⟨⟨k, st⟩, hm, he⟩
          obtain ⟨r', h1, h2, _, h4⟩ := (h.subs q c hq k st).1 ((h.nodup q c hq).get_of_mem hm)
          have : r = r' := row_eq h.ids hr h1 (by rw [h4] at he; simpa using (beq_iff_eq.1 he).symm)
          rw [this]; exact h2
        · intro e
          have := (h.subs q c hq r.2.key ⟨r.1, r.2.name, r.2.count⟩).2 ⟨r, hr, e, rfl, rfl⟩
          exact ⟨_, AMap.mem_of_get _ this, by simp⟩
      have hst : (s.stored.filter fun e => !c.subs.any (·.2.id == e.1)) = (rows.filter fun r => r.2.conn != q).map fun r => (r.1, r.2.entry) := by
        rw [h.stored, List.filter_map]
        congr 1
        refine List.filter_congr fun r hr => ?_
        have := hmem r hr
        simp only [Function.comp, this, bne]
      have hget : ∀ r, AMap.get s'.conns r = if r = q then none else AMap.get s.conns r := by
        intro r; subst hc; exact AMap.get_del _ _ _
      have hsub : ∀ {r}, r ∈ rows.filter (fun r => r.2.conn != q) → r ∈ rows ∧ r.2.conn ≠ q := by
        intro r hr
        simpa using List.mem_filter.1 hr
      have hroll : ∀ r, AMap.get (b.present s').roll r = if r = q then none else AMap.get b.roll r := by
        intro r
        have := AMap.get_filter b.roll (fun k => (AMap.get s'.conns k).isSome) r
        show AMap.get (b.roll.filter _) r = _
        rw [this, hget]
        by_cases hr : r = q
        · simp [hr]
        · simp only [hr, if_false]
          split
          · rfl
          · next hn =>
            cases hb : AMap.get b.roll r with
            | none => rfl
            | some x =>
              obtain ⟨c', hc'⟩ := h.open_ r x hb
              rw [hc'] at hn
              exact absurd rfl hn
      refine ⟨?_, ?_, ?_, ?_, ?_, ?_, ?_, ?_, ?_, ?_, ?_⟩
      · simp only [Spec.Desk.present, h.book, List.filter_map]
        congr 1
        refine List.filter_congr fun r hr => ?_
        simp only [Function.comp, hget]
        obtain ⟨c', hc'⟩ := h.live r hr
        by_cases e : r.2.conn = q
        · simp [e]
        · simp [e, hc']
      · subst hc; exact hst
      · subst hc; exact fun r hr => h.fresh r (hsub hr).1
      · exact List.Pairwise.sublist (List.Sublist.map _ List.filter_sublist) h.ids
      · exact fun r hr r' hr' => h.keys r (hsub hr).1 r' (hsub hr').1
      · exact fun r hr => h.count r (hsub hr).1
      · intro r hr
        rw [hget, if_neg (hsub hr).2]
        exact h.live r (hsub hr).1
      · intro r d hd key st
        rw [hget] at hd
        split at hd
        · cases hd
        · next hne =>
          rw [h.subs r d hd key st]
          constructor
          · rintro ⟨x, h1, h2, h3⟩
            exact ⟨x, List.mem_filter.2 ⟨h1, by simpa [h2] using hne⟩, h2, h3⟩
          · rintro ⟨x, h1, h2⟩
            exact ⟨x, (hsub h1).1, h2⟩
      · intro r d hd
        rw [hget] at hd
        split at hd
        · cases hd
        · exact h.nodup r d hd
      · intro r d hd
        rw [hget] at hd
        split at hd
        · cases hd
        · next hne =>
          rw [hroll, if_neg hne]
          exact h.roll r d hd
      · intro r x hx
        rw [hroll] at hx
        split at hx
        · cases hx
        · next hne =>
          rw [hget, if_neg hne]
          exact h.open_ r x hx

/-! ## Requests -/

theorem request_cases {v : SrvEnv} {s s' : Srv} {q : UInt32} {mid : UInt16} {text : Bytes} {f : SrvConn → ReqTopic → SrvM (Option Verdict × Srv)} {c : SrvConn} {k : UInt32}
    (hc : AMap.get s.conns q = some c) (hk : c.contract = .ok k) (h : s.request v q mid text f = .ok s') :
    (∃ w t r, onTopicRequest c.insecure k text = some (.granted w) ∧ parseRequest text = some t ∧ f c t = .ok r ∧ (r.1 = none ∧ s' = r.2 ∨ r.1 ≠ none ∧ Calm v r.2 s')) ∨
    ((∀ w, onTopicRequest c.insecure k text ≠ some (.granted w)) ∧ Calm v s s') := by
  simp only [Srv.request, hc] at h
  cases ht : parseRequest text with
  | none => rw [ht] at h; cases h
  | some t =>
    rw [ht] at h
    simp only [check_eq hk t, Except.bind] at h
    simp only [onTopicRequest, ht, Option.map_some]
    split at h
    · next hv =>
      right
      simp only [hv, if_true]
      exact ⟨fun w e => (by cases e), Srv.notifyError_calm h⟩
    · next hv =>
      rw [if_neg hv]
      split at h
      · next w hw =>
        left
        cases hf : f c t with
        | error => rw [hf] at h; cases h
        | ok r =>
          rw [hf] at h
          refine ⟨w, t, r, by rw [hw], rfl, hf, ?_⟩
          simp only at h
          split at h
          · next e => injection h with h; exact .inl ⟨e, h.symm⟩
          · next e => exact .inr ⟨by rw [e]; simp, Srv.notifyError_calm h⟩
      · next w hw =>
        right
        refine ⟨fun w' e => ?_, Srv.notifyError_calm h⟩
        injection e with e
        exact hw w' e

/-- The count of one subscription changes. -/
def bump (q : UInt32) (key : Bytes) (f : Nat → Nat) (r : Spec.Sub) : Spec.Sub := if r.isFor q key then { r with count := f r.count } else r

theorem bump_fields (q : UInt32) (key : Bytes) (f : Nat → Nat) (r : Spec.Sub) : (bump q key f r).conn = r.conn ∧ (bump q key f r).key = r.key ∧
    (bump q key f r).name = r.name ∧ (bump q key f r).entry = r.entry := by
  simp only [bump]
  split <;> exact ⟨rfl, rfl, rfl, rfl⟩

theorem isFor_iff {q : UInt32} {key : Bytes} {r : Spec.Sub} : r.isFor q key = true ↔ r.conn = q ∧ r.key = key := by
  simp [Spec.Sub.isFor]

theorem Fits.bump {s : Srv} {b : Spec.Desk} {rows : List (Nat × Spec.Sub)} (h : Fits s b rows) {q : UInt32} {c : SrvConn} (hc : AMap.get s.conns q = some c)
    {r : Nat × Spec.Sub} (hr : r ∈ rows) (hq : r.2.conn = q) (f : Nat → Nat) (hf : 1 ≤ f r.2.count) (n : Nat) (hn : s.nextId ≤ n) :
    Fits { s.setConn q { c with subs := AMap.set c.subs r.2.key ⟨r.1, r.2.name, f r.2.count⟩ } with nextId := n } { b with subs := b.subs.map (Verif.bump q r.2.key f) }
      (rows.map fun x => (x.1, Verif.bump q r.2.key f x.2)) := by
  have hfor : ∀ x ∈ rows, x.2.isFor q r.2.key = true → x = r := fun x hx e => h.keys x hx r hr ((isFor_iff.1 e).1.trans hq.symm) (isFor_iff.1 e).2
  have hget : ∀ p, AMap.get ({ s.setConn q { c with subs := AMap.set c.subs r.2.key ⟨r.1, r.2.name, f r.2.count⟩ } with nextId := n } : Srv).conns p =
      if p = q then some { c with subs := AMap.set c.subs r.2.key ⟨r.1, r.2.name, f r.2.count⟩ } else AMap.get s.conns p := by
    intro p; exact AMap.get_set _ _ _ _
  refine ⟨?_, ?_, ?_, ?_, ?_, ?_, ?_, ?_, ?_, ?_, ?_⟩
  · simp only [h.book, List.map_map]; rfl
  · simp only [Srv.setConn, h.stored, List.map_map]
    refine List.map_congr_left fun x _ => ?_
    simp [(bump_fields q r.2.key f x.2).2.2.2]
  · intro x hx
    obtain ⟨y, hy, rfl⟩ := List.mem_map.1 hx
    exact Nat.lt_of_lt_of_le (h.fresh y hy) hn
  · rw [List.map_map]; exact h.ids
  · intro x hx y hy e1 e2
    obtain ⟨x', hx', rfl⟩ := List.mem_map.1 hx
    obtain ⟨y', hy', rfl⟩ := List.mem_map.1 hy
    simp only [bump_fields] at e1 e2
    rw [h.keys x' hx' y' hy' e1 e2]
  · intro x hx
    obtain ⟨y, hy, rfl⟩ := List.mem_map.1 hx
    simp only [Verif.bump]
    split
    · next e => rw [hfor y hy e]; exact hf
    · exact h.count y hy
  · intro x hx
    obtain ⟨y, hy, rfl⟩ := List.mem_map.1 hx
    simp only [bump_fields, hget]
    split
    · exact ⟨_, rfl⟩
    · exact h.live y hy
  · intro p d hd key st
    rw [hget] at hd
    split at hd
    · next e =>
      subst e
      injection hd with hd; subst hd
      simp only [AMap.get_set]
      split
      · next ek =>
        subst ek
        constructor
        · intro e; injection e with e; subst e
          exact ⟨(r.1, Verif.bump p r.2.key f r.2), List.mem_map.2 ⟨r, hr, rfl⟩, by simp [bump_fields, hq], by simp [bump_fields],
            by simp [Verif.bump, Spec.Sub.isFor, hq]⟩
        · rintro ⟨x, hx, e1, e2, e3⟩
          obtain ⟨y, hy, rfl⟩ := List.mem_map.1 hx
          simp only [bump_fields] at e1 e2
          have := hfor y hy (isFor_iff.2 ⟨e1, e2⟩)
          subst this
          rw [e3]
          simp [Verif.bump, Spec.Sub.isFor, hq]
      · next ek =>
        rw [h.subs p c hc key st]
        constructor
        · rintro ⟨y, hy, e1, e2, e3⟩
          refine ⟨(y.1, Verif.bump p r.2.key f y.2), List.mem_map.2 ⟨y, hy, rfl⟩, by simp [bump_fields, e1], by simp [bump_fields, e2], ?_⟩
          have : y.2.isFor p r.2.key = false := by
            rw [Bool.eq_false_iff]; intro e; exact ek (e2 ▸ (isFor_iff.1 e).2)
          simp [Verif.bump, this, e3]
        · rintro ⟨x, hx, e1, e2, e3⟩
          obtain ⟨y, hy, rfl⟩ := List.mem_map.1 hx
          simp only [bump_fields] at e1 e2
          have : y.2.isFor p r.2.key = false := by
            rw [Bool.eq_false_iff]; intro e; exact ek (e2 ▸ (isFor_iff.1 e).2)
          exact ⟨y, hy, e1, e2, by simpa [Verif.bump, this] using e3⟩
    · next hne =>
      rw [h.subs p d hd key st]
      constructor
      · rintro ⟨y, hy, e1, e2, e3⟩
        have : y.2.isFor q r.2.key = false := by
          rw [Bool.eq_false_iff]; intro e; exact hne (e1 ▸ (isFor_iff.1 e).1)
        refine ⟨(y.1, Verif.bump q r.2.key f y.2), List.mem_map.2 ⟨y, hy, rfl⟩, by simp [bump_fields, e1], by simp [bump_fields, e2], ?_⟩
        simp [Verif.bump, this, e3]
      · rintro ⟨x, hx, e1, e2, e3⟩
        obtain ⟨y, hy, rfl⟩ := List.mem_map.1 hx
        simp only [bump_fields] at e1 e2
        have : y.2.isFor q r.2.key = false := by
          rw [Bool.eq_false_iff]; intro e; exact hne (e1 ▸ (isFor_iff.1 e).1)
        exact ⟨y, hy, e1, e2, by simpa [Verif.bump, this] using e3⟩
  · intro p d hd
    rw [hget] at hd
    split at hd
    · injection hd with hd; subst hd; exact (h.nodup q c hc).set _ _
    · exact h.nodup p d hd
  · intro p d hd
    rw [hget] at hd
    split at hd
    · next e => subst e; injection hd with hd; subst hd; exact h.roll p c hc
    · exact h.roll p d hd
  · intro p x hx
    rw [hget]
    split
    · exact ⟨_, rfl⟩
    · exact h.open_ p x hx

theorem Fits.any_iff {s : Srv} {b : Spec.Desk} {rows : List (Nat × Spec.Sub)} (h : Fits s b rows) {q : UInt32} {c : SrvConn} (hc : AMap.get s.conns q = some c) (key : Bytes) :
    b.subs.any (Spec.Sub.isFor q key) = (AMap.get c.subs key).isSome := by
  rw [Bool.eq_iff_iff, List.any_eq_true, h.book]
  constructor
  · rintro ⟨x, hx, e⟩
    obtain ⟨r, hr, rfl⟩ := List.mem_map.1 hx
    rw [(h.subs q c hc key ⟨r.1, r.2.name, r.2.count⟩).2 ⟨r, hr, (isFor_iff.1 e).1, (isFor_iff.1 e).2, rfl⟩]
    rfl
  · intro e
    obtain ⟨st, hst⟩ := Option.isSome_iff_exists.1 e
    obtain ⟨r, hr, e1, e2, _⟩ := (h.subs q c hc key st).1 hst
    exact ⟨r.2, List.mem_map.2 ⟨r, hr, rfl⟩, isFor_iff.2 ⟨e1, e2⟩⟩

/-- A new subscription. -/
theorem Fits.add {s : Srv} {b : Spec.Desk} {rows : List (Nat × Spec.Sub)} (h : Fits s b rows) {c : SrvConn} (r : Spec.Sub) (hc : AMap.get s.conns r.conn = some c)
    (hn : AMap.get c.subs r.key = none) (h1 : r.count = 1) :
    Fits { s.setConn r.conn { c with subs := AMap.set c.subs r.key ⟨s.nextId, r.name, 1⟩ } with nextId := s.nextId + 1, stored := (s.nextId, r.entry) :: s.stored }
      { b with subs := r :: b.subs } ((s.nextId, r) :: rows) := by
  have hget : ∀ p, AMap.get (AMap.set s.conns r.conn { c with subs := AMap.set c.subs r.key ⟨s.nextId, r.name, 1⟩ }) p =
      if p = r.conn then some { c with subs := AMap.set c.subs r.key ⟨s.nextId, r.name, 1⟩ } else AMap.get s.conns p := fun p => AMap.get_set _ _ _ _
  have hnew : ∀ x ∈ rows, x.2.conn = r.conn → x.2.key = r.key → False := by
    intro x hx e1 e2
    have := (h.subs r.conn c hc r.key ⟨x.1, x.2.name, x.2.count⟩).2 ⟨x, hx, e1, e2, rfl⟩
    rw [hn] at this; cases this
  refine ⟨?_, ?_, ?_, ?_, ?_, ?_, ?_, ?_, ?_, ?_, ?_⟩
  · simp [h.book]
  · simp [h.stored]
  · intro x hx
    rcases List.mem_cons.1 hx with rfl | hx
    · exact Nat.lt_succ_self _
    · exact Nat.lt_succ_of_lt (h.fresh x hx)
  · refine List.nodup_cons.2 ⟨fun e => ?_, h.ids⟩
    obtain ⟨x, hx, e⟩ := List.mem_map.1 e
    exact absurd (h.fresh x hx) (by rw [e]; exact Nat.lt_irrefl _)
  · intro x hx y hy e1 e2
    rcases List.mem_cons.1 hx with rfl | hx <;> rcases List.mem_cons.1 hy with rfl | hy
    · rfl
    · exact (hnew y hy e1.symm e2.symm).elim
    · exact (hnew x hx e1 e2).elim
    · exact h.keys x hx y hy e1 e2
  · intro x hx
    rcases List.mem_cons.1 hx with rfl | hx
    · exact Nat.le_of_eq h1.symm
    · exact h.count x hx
  · intro x hx
    simp only [Srv.setConn, hget]
    split
    · exact ⟨_, rfl⟩
    · next hne =>
      rcases List.mem_cons.1 hx with rfl | hx
      · exact absurd rfl hne
      · exact h.live x hx
  · intro p d hd key st
    simp only [Srv.setConn, hget] at hd
    split at hd
    · next e =>
      subst e
      injection hd with hd; subst hd
      simp only [AMap.get_set]
      split
      · next ek =>
        subst ek
        constructor
        · intro e; injection e with e; subst e
          exact ⟨(s.nextId, r), List.mem_cons_self, rfl, rfl, by simp [h1]⟩
        · rintro ⟨x, hx, e1, e2, e3⟩
          rcases List.mem_cons.1 hx with rfl | hx
          · rw [e3, h1]
          · exact (hnew x hx e1 e2).elim
      · next ek =>
        rw [h.subs r.conn c hc key st]
        constructor
        · rintro ⟨x, hx, e⟩
          exact ⟨x, List.mem_cons_of_mem _ hx, e⟩
        · rintro ⟨x, hx, e1, e2, e3⟩
          rcases List.mem_cons.1 hx with rfl | hx
          · exact absurd e2.symm ek
          · exact ⟨x, hx, e1, e2, e3⟩
    · next hne =>
      rw [h.subs p d hd key st]
      constructor
      · rintro ⟨x, hx, e⟩
        exact ⟨x, List.mem_cons_of_mem _ hx, e⟩
      · rintro ⟨x, hx, e1, e2, e3⟩
        rcases List.mem_cons.1 hx with rfl | hx
        · exact absurd e1.symm hne
        · exact ⟨x, hx, e1, e2, e3⟩
  · intro p d hd
    simp only [Srv.setConn, hget] at hd
    split at hd
    · injection hd with hd; subst hd; exact (h.nodup r.conn c hc).set _ _
    · exact h.nodup p d hd
  · intro p d hd
    simp only [Srv.setConn, hget] at hd
    split at hd
    · next e => subst e; injection hd with hd; subst hd; exact h.roll r.conn c hc
    · exact h.roll p d hd
  · intro p x hx
    simp only [Srv.setConn, hget]
    split
    · exact ⟨_, rfl⟩
    · exact h.open_ p x hx

/-- The last count of a subscription goes. -/
theorem Fits.remove {s : Srv} {b : Spec.Desk} {rows : List (Nat × Spec.Sub)} (h : Fits s b rows) {q : UInt32} {c : SrvConn} (hc : AMap.get s.conns q = some c)
    {r : Nat × Spec.Sub} (hr : r ∈ rows) (hq : r.2.conn = q) :
    Fits { s.setConn q { c with subs := AMap.del c.subs r.2.key } with stored := s.stored.filter (·.1 != r.1) }
      { b with subs := (rows.filter (· != r)).map (·.2) } (rows.filter (· != r)) := by
  have hget : ∀ p, AMap.get (AMap.set s.conns q { c with subs := AMap.del c.subs r.2.key }) p =
      if p = q then some { c with subs := AMap.del c.subs r.2.key } else AMap.get s.conns p := fun p => AMap.get_set _ _ _ _
  have hsub : ∀ {x}, x ∈ rows.filter (· != r) → x ∈ rows ∧ x ≠ r := by
    intro x hx
    simpa using List.mem_filter.1 hx
  refine ⟨rfl, ?_, fun x hx => h.fresh x (hsub hx).1, List.Pairwise.sublist (List.Sublist.map _ List.filter_sublist) h.ids,
    fun x hx y hy => h.keys x (hsub hx).1 y (hsub hy).1, fun x hx => h.count x (hsub hx).1, ?_, ?_, ?_, ?_, ?_⟩
  · simp only [h.stored]
    exact filter_map_row h.ids hr
  · intro x hx
    simp only [Srv.setConn, hget]
    split
    · exact ⟨_, rfl⟩
    · exact h.live x (hsub hx).1
  · intro p d hd key st
    simp only [Srv.setConn, hget] at hd
    split at hd
    · next e =>
      subst e
      injection hd with hd; subst hd
      simp only [AMap.get_del]
      split
      · next ek =>
        subst ek
        constructor
        · intro e; cases e
        · rintro ⟨x, hx, e1, e2, e3⟩
          exact absurd (h.keys x (hsub hx).1 r hr (e1.trans hq.symm) e2) (hsub hx).2
      · next ek =>
        rw [h.subs p c hc key st]
        constructor
        · rintro ⟨x, hx, e1, e2, e3⟩
          exact ⟨x, List.mem_filter.2 ⟨hx, by simp only [bne_iff_ne]; rintro rfl; exact ek e2.symm⟩, e1, e2, e3⟩
        · rintro ⟨x, hx, e⟩
          exact ⟨x, (hsub hx).1, e⟩
    · next hne =>
      rw [h.subs p d hd key st]
      constructor
      · rintro ⟨x, hx, e1, e2⟩
        exact ⟨x, List.mem_filter.2 ⟨hx, by simp only [bne_iff_ne]; rintro rfl; exact hne (e1.symm.trans hq)⟩, e1, e2⟩
      · rintro ⟨x, hx, e⟩
        exact ⟨x, (hsub hx).1, e⟩
  · intro p d hd
    simp only [Srv.setConn, hget] at hd
    split at hd
    · injection hd with hd; subst hd; exact (h.nodup q c hc).del _
    · exact h.nodup p d hd
  · intro p d hd
    simp only [Srv.setConn, hget] at hd
    split at hd
    · next e => subst e; injection hd with hd; subst hd; exact h.roll p c hc
    · exact h.roll p d hd
  · intro p x hx
    simp only [Srv.setConn, hget]
    split
    · exact ⟨_, rfl⟩
    · exact h.open_ p x hx

/-- The client of a connection changes, not its subscriptions. -/
theorem Fits.client {s : Srv} {b b' : Spec.Desk} {rows : List (Nat × Spec.Sub)} (h : Fits s b rows) {q : UInt32} {c c' : SrvConn} (hc : AMap.get s.conns q = some c)
    (hs : c'.subs = c.subs) (hb : b'.subs = b.subs) (hroll : ∀ p, p ≠ q → AMap.get b'.roll p = AMap.get b.roll p)
    (hq : (c'.client = none ∧ AMap.get b'.roll q = none) ∨ ∃ k, c'.contract = .ok k ∧ AMap.get b'.roll q = some (k, c'.insecure)) (cache : ClientCache) (log : LogMap) :
    Fits (({ s with cache, log } : Srv).setConn q c') b' rows := by
  have hget : ∀ p, AMap.get (AMap.set s.conns q c') p = if p = q then some c' else AMap.get s.conns p := fun p => AMap.get_set _ _ _ _
  refine ⟨hb.trans h.book, h.stored, h.fresh, h.ids, h.keys, h.count, ?_, ?_, ?_, ?_, ?_⟩
  · intro x hx
    simp only [Srv.setConn, hget]
    split
    · exact ⟨_, rfl⟩
    · exact h.live x hx
  · intro p d hd
    simp only [Srv.setConn, hget] at hd
    split at hd
    · next e => subst e; injection hd with hd; subst hd; rw [hs]; exact h.subs p c hc
    · exact h.subs p d hd
  · intro p d hd
    simp only [Srv.setConn, hget] at hd
    split at hd
    · next e => subst e; injection hd with hd; subst hd; rw [hs]; exact h.nodup p c hc
    · exact h.nodup p d hd
  · intro p d hd
    simp only [Srv.setConn, hget] at hd
    split at hd
    · next e => subst e; injection hd with hd; subst hd; exact hq
    · next hne => rw [hroll p hne]; exact h.roll p d hd
  · intro p x hx
    simp only [Srv.setConn, hget]
    split
    · exact ⟨_, rfl⟩
    · next hne => rw [hroll p hne] at hx; exact h.open_ p x hx

/-- A connection is accepted. -/
theorem Fits.accept {s : Srv} {b : Spec.Desk} {rows : List (Nat × Spec.Sub)} (h : Fits s b rows) {q : UInt32} (hq : AMap.get s.conns q = none) :
    Fits (s.setConn q { sess := q }) b rows := by
  have hget : ∀ p, AMap.get (AMap.set s.conns q { sess := q }) p = if p = q then some { sess := q } else AMap.get s.conns p := fun p => AMap.get_set _ _ _ _
  refine ⟨h.book, h.stored, h.fresh, h.ids, h.keys, h.count, ?_, ?_, ?_, ?_, ?_⟩
  · intro x hx
    simp only [Srv.setConn, hget]
    split
    · exact ⟨_, rfl⟩
    · exact h.live x hx
  · intro p d hd key st
    simp only [Srv.setConn, hget] at hd
    split at hd
    · next e =>
      subst e; injection hd with hd; subst hd
      constructor
      · intro e; simp at e
      · rintro ⟨x, hx, e, _⟩
        obtain ⟨c, hc⟩ := h.live x hx
        rw [e, hq] at hc; cases hc
    · exact h.subs p d hd key st
  · intro p d hd
    simp only [Srv.setConn, hget] at hd
    split at hd
    · injection hd with hd; subst hd; simp [AMap.Nodup, AMap.keys]
    · exact h.nodup p d hd
  · intro p d hd
    simp only [Srv.setConn, hget] at hd
    split at hd
    · next e =>
      subst e; injection hd with hd; subst hd
      refine .inl ⟨rfl, ?_⟩
      cases hb : AMap.get b.roll p with
      | none => rfl
      | some x =>
        obtain ⟨c, hc⟩ := h.open_ p x hb
        rw [hq] at hc; cases hc
    · exact h.roll p d hd
  · intro p x hx
    simp only [Srv.setConn, hget]
    split
    · exact ⟨_, rfl⟩
    · exact h.open_ p x hx

/-- The book after one request to subscribe. -/
theorem Fits.asked {v : SrvEnv} {s s' : Srv} {b : Spec.Desk} {rows : List (Nat × Spec.Sub)} (h : Fits s b rows) {q : UInt32} {c : SrvConn} {k : UInt32}
    (hc : AMap.get s.conns q = some c) (hk : c.contract = .ok k) (hb : AMap.get b.roll q = some (k, c.insecure)) (mid : UInt16) (a : SubAsk)
    (hs : s.request v q mid a.text (fun c t => s.subscribeTo q c t a) = .ok s') : ∃ rows', Fits s' (b.asked q a) rows' := by
  simp only [Spec.Desk.asked, hb]
  rcases request_cases hc hk hs with ⟨w, t, r, h1, h2, h3, h4⟩ | ⟨h1, h2⟩
  · simp only [h1, h2]
    simp only [Srv.subscribeTo, hk, Except.bind] at h3
    cases hkey : subscribeKey k t with
    | none =>
      simp only [hkey] at h3
      injection h3 with h3; subst h3
      rcases h4 with ⟨e, _⟩ | ⟨_, h4⟩
      · cases e
      · exact ⟨rows, h.calm h4⟩
    | some key =>
      simp only [hkey] at h3
      injection h3 with h3; subst h3
      rcases h4 with ⟨_, h4⟩ | ⟨e, _⟩
      · subst h4
        simp only [h.any_iff hc key]
        cases hst : AMap.get c.subs key with
        | none =>
          simp only [Option.getD_none, Option.isSome_none, Bool.false_eq_true, if_false, Nat.zero_add, if_true]
          exact ⟨_, h.add ⟨q, key, k, t.topic, t.topic.take t.size, a.mode, a.delay, 1⟩ hc hst rfl⟩
        | some st =>
          obtain ⟨r, hr, e1, e2, e3⟩ := (h.subs q c hc key st).1 hst
          subst e2 e3
          have := h.count r hr
          have hne : ¬ r.2.count + 1 = 1 := by omega
          simp only [Option.getD_some, Option.isSome_some, if_true, if_neg hne]
          exact ⟨_, h.bump hc hr e1 (· + 1) (Nat.le_add_left _ _) (s.nextId + 1) (Nat.le_succ _)⟩
      · exact absurd rfl e
  · refine ⟨rows, ?_⟩
    split
    · next w t e _ => exact absurd e (h1 w)
    · exact h.calm h2

/-- The book after one request to unsubscribe. -/
theorem Fits.dropped {v : SrvEnv} {s s' : Srv} {b : Spec.Desk} {rows : List (Nat × Spec.Sub)} (h : Fits s b rows) {q : UInt32} {c : SrvConn} {k : UInt32}
    (hc : AMap.get s.conns q = some c) (hk : c.contract = .ok k) (hb : AMap.get b.roll q = some (k, c.insecure)) (mid : UInt16) (text : Bytes)
    (hs : s.request v q mid text (fun c t => s.unsubscribeFrom q c t) = .ok s') : ∃ rows', Fits s' (b.dropped q text) rows' := by
  simp only [Spec.Desk.dropped, hb]
  rcases request_cases hc hk hs with ⟨w, t, r, h1, h2, h3, h4⟩ | ⟨h1, h2⟩
  · simp only [h1, h2]
    simp only [Srv.unsubscribeFrom, hk, Except.bind] at h3
    have all : ∀ (g : Spec.Sub → Spec.Sub), (∀ r ∈ rows, 1 ≤ (g r.2).count) → (b.subs.map g).filter (fun r => r.count != 0) = b.subs.map g := by
      intro g hg
      refine List.filter_eq_self.2 fun x hx => ?_
      obtain ⟨y, hy, rfl⟩ := List.mem_map.1 hx
      rw [h.book] at hy
      obtain ⟨z, hz, rfl⟩ := List.mem_map.1 hy
      have := hg z hz
      simp only [bne_iff_ne]
      omega
    cases hst : AMap.get c.subs t.key with
    | none =>
      simp only [hst] at h3
      injection h3 with h3; subst h3
      rcases h4 with ⟨_, h4⟩ | ⟨e, _⟩
      · subst h4
        have hno : ∀ x ∈ rows, x.2.isFor q t.key = false := by
          intro x hx
          rw [Bool.eq_false_iff]; intro e
          have := (h.subs q c hc t.key ⟨x.1, x.2.name, x.2.count⟩).2 ⟨x, hx, (isFor_iff.1 e).1, (isFor_iff.1 e).2, rfl⟩
          rw [hst] at this; cases this
        rw [all _ (fun x hx => by simp only [hno x hx, Bool.false_eq_true, if_false]; exact h.count x hx)]
        have : (b.subs.map fun r => if r.isFor q t.key then { r with count := r.count - 1 } else r) = b.subs := by
          conv => rhs; rw [← List.map_id b.subs]
          refine List.map_congr_left fun x hx => ?_
          rw [h.book] at hx
          obtain ⟨y, hy, rfl⟩ := List.mem_map.1 hx
          simp [hno y hy]
        rw [this]
        exact ⟨rows, h⟩
      · exact absurd rfl e
    | some st =>
      obtain ⟨r, hr, e1, e2, e3⟩ := (h.subs q c hc t.key st).1 hst
      simp only [hst] at h3
      rw [← e2]
      rw [← e2] at h3
      subst e3
      have hfor : ∀ x ∈ rows, x.2.isFor q r.2.key = true → x = r := fun x hx e => h.keys x hx r hr ((isFor_iff.1 e).1.trans e1.symm) (isFor_iff.1 e).2
      split at h3
      · next hle =>
        injection h3 with h3; subst h3
        rcases h4 with ⟨_, h4⟩ | ⟨e, _⟩
        · subst h4
          have hcount : r.2.count = 1 := Nat.le_antisymm hle (h.count r hr)
          have : ((b.subs.map fun r' => if r'.isFor q r.2.key then { r' with count := r'.count - 1 } else r').filter fun r => r.count != 0) =
              (rows.filter (· != r)).map (·.2) := by
            rw [h.book]
            have hk2 : ∀ x ∈ rows, (if x.2.isFor q r.2.key then { x.2 with count := x.2.count - 1 } else x.2).count ≠ 0 ↔ x ≠ r := by
              intro x hx
              split
              · next e => rw [hfor x hx e]; simp [hcount]
              · next e =>
                have := h.count x hx
                constructor
                · rintro _ rfl; exact e (isFor_iff.2 ⟨e1, rfl⟩)
                · intro _; omega
            rw [List.map_map, List.filter_map]
            have hfc : rows.filter ((fun r => r.count != 0) ∘ ((fun r' => if r'.isFor q r.2.key then { r' with count := r'.count - 1 } else r') ∘ fun x => x.2)) =
                rows.filter (· != r) := by
              refine List.filter_congr fun x hx => ?_
              have := hk2 x hx
              rw [Bool.eq_iff_iff]
              simp only [Function.comp, bne_iff_ne]
              exact this
            rw [hfc]
            refine List.map_congr_left fun x hx => ?_
            have hx := List.mem_filter.1 hx
            have : x.2.isFor q r.2.key = false := by
              rw [Bool.eq_false_iff]; intro e
              have := hfor x hx.1 e
              simp [this] at hx
            simp [this]
          rw [this]
          exact ⟨_, h.remove hc hr e1⟩
        · exact absurd rfl e
      · next hle =>
        injection h3 with h3; subst h3
        rcases h4 with ⟨_, h4⟩ | ⟨e, _⟩
        · subst h4
          simp only [Nat.not_le] at hle
          rw [all _ (fun x hx => by
            split
            · next e => rw [hfor x hx e]; show 1 ≤ r.2.count - 1; omega
            · exact h.count x hx)]
          exact ⟨_, h.bump hc hr e1 (· - 1) (show 1 ≤ r.2.count - 1 by omega) s.nextId (Nat.le_refl _)⟩
        · exact absurd rfl e
  · refine ⟨rows, ?_⟩
    split
    · next w t e _ => exact absurd e (h1 w)
    · exact h.calm h2

theorem fold_book {α : Type} {P : Srv → Prop} {f : Srv → α → SrvM Srv} {g : Spec.Desk → α → Spec.Desk} {l : List α}
    (hstep : ∀ s b a s', a ∈ l → P s → (∃ rows, Fits s b rows) → f s a = .ok s' → P s' ∧ ∃ rows, Fits s' (g b a) rows) :
    ∀ {s s' : Srv} {b : Spec.Desk}, P s → (∃ rows, Fits s b rows) → SrvM.fold f s l = .ok s' → P s' ∧ ∃ rows, Fits s' (l.foldl g b) rows := by
  induction l with
  | nil => intro s s' b hp hb h; injection h with h; subst h; exact ⟨hp, hb⟩
  | cons a l ih =>
    intro s s' b hp hb h
    simp only [SrvM.fold] at h
    cases hf : f s a with
    | error => rw [hf] at h; cases h
    | ok s1 =>
      rw [hf] at h
      obtain ⟨h1, h2⟩ := hstep s b a s1 List.mem_cons_self hp hb hf
      exact ih (fun s b a s' ha => hstep s b a s' (List.mem_cons_of_mem _ ha)) h1 h2 h

/-- What a client that was told its CONNECT succeeded is in the book. -/
theorem Fits.known {s : Srv} {b : Spec.Desk} {rows : List (Nat × Spec.Sub)} (h : Fits s b rows) {q : UInt32} (hf : Fine q s) :
    (AMap.get s.conns q = none ∧ AMap.get b.roll q = none) ∨
    ∃ c k, AMap.get s.conns q = some c ∧ c.contract = .ok k ∧ AMap.get b.roll q = some (k, c.insecure) := by
  cases hc : AMap.get s.conns q with
  | none =>
    left
    refine ⟨rfl, ?_⟩
    cases hb : AMap.get b.roll q with
    | none => rfl
    | some x =>
      obtain ⟨c, hc'⟩ := h.open_ q x hb
      rw [hc] at hc'; cases hc'
  | some c =>
    rcases h.roll q c hc with ⟨h1, _⟩ | ⟨k, h1, h2⟩
    · exact absurd h1 ((hf.1.conns q c hc).told.1 hf.2)
    · exact .inr ⟨c, k, rfl, h1, h2⟩

theorem connect_fits {v : SrvEnv} {s s' : Srv} {b : Spec.Desk} {rows : List (Nat × Spec.Sub)} (h : Fits s b rows) (hm : v.mac.cipher.Strips) {q : UInt32} {c : SrvConn}
    (hc : AMap.get s.conns q = some c) (hn : c.client = none) (text : Bytes) (epoch : UInt32) (fresh : Bytes) (insecure : Bool) (asked : UInt32) (clean : Bool)
    (hs : s.onConnectPacket v q text epoch fresh insecure asked clean = .ok s') :
    ∃ rows', Fits s' ((b.after v s (.packet q (.connect text epoch fresh insecure asked clean))).present s') rows' := by
  have hroll : AMap.get b.roll q = none := by
    rcases h.roll q c hc with ⟨_, h2⟩ | ⟨k, h1, _⟩
    · exact h2
    · simp only [SrvConn.contract, hn, Option.bind_none] at h1; cases h1
  simp only [Srv.onConnectPacket, hc] at hs
  simp only [Spec.Desk.after]
  split at hs
  · next cache hcon =>
    simp only [hcon]
    have F := h.client (c' := { c with insecure }) (b' := b) hc rfl rfl (fun _ _ => rfl) (.inl ⟨hn, hroll⟩) cache s.log
    obtain ⟨s1, hs1⟩ : ∃ s1, s1 = ((({ s with cache } : Srv).setConn q { c with insecure }).emit q (.connack false)) := ⟨_, rfl⟩
    rw [← hs1] at hs
    have F1 : Fits s1 b rows := by
      subst hs1
      exact ⟨F.book, F.stored, F.fresh, F.ids, F.keys, F.count, F.live, F.subs, F.nodup, F.roll, F.open_⟩
    cases hr : s1.sendMessage v q 0 0 0 ⟨clientIdTopic, fresh⟩ with
    | error => rw [hr] at hs; cases hs
    | ok r =>
      rw [hr] at hs
      exact ⟨_, (F1.calm (Srv.sendMessage_calm hr)).close hs⟩
  · next id cache hcon =>
    simp only [hcon]
    have hid := onConnect_length hm hcon
    obtain ⟨ep, hep⟩ : ∃ ep, cidEpoch id = some ep := by simp [cidEpoch, be32At, slice?, hid]
    obtain ⟨k, hk⟩ : ∃ k, cidContract id = some k := by simp [cidContract, be32At, slice?, hid]
    simp only [hep] at hs
    split at hs
    · cases hs
    · next log ids notes hses =>
      injection hs with hs
      subst hs
      rw [hk, Option.getD_some]
      obtain ⟨c', hc'⟩ : ∃ c', c' = ({ c with insecure, client := some id, sess := ids.sessID, batch := some [], ids := notes.foldl (fun m n => m.resumeID n.toUInt32) { c.ids with id := 0 } } : SrvConn) := ⟨_, rfl⟩
      have F := h.client (c' := c') (b' := { b with roll := AMap.set b.roll q (k, insecure) }) hc (by rw [hc']) rfl (fun p hp => by simp [AMap.get_set, hp])
        (.inr ⟨k, by subst hc'; simp [SrvConn.contract, hk], by subst hc'; simp [AMap.get_set]⟩) cache log
      have hfold : ∀ (l : List UInt16) (s0 : Srv), (l.foldl (fun s n => s.emit q (.notify n)) s0).conns = s0.conns ∧
          (l.foldl (fun s n => s.emit q (.notify n)) s0).stored = s0.stored ∧ (l.foldl (fun s n => s.emit q (.notify n)) s0).nextId = s0.nextId := by
        intro l
        induction l with
        | nil => exact fun _ => ⟨rfl, rfl, rfl⟩
        | cons n l ih => intro s0; exact ih _
      have F1 : Fits (notes.foldl (fun s n => s.emit q (.notify n)) ((({ s with cache, log } : Srv).setConn q c').emit q (.connack true)))
          { b with roll := AMap.set b.roll q (k, insecure) } rows := by
        obtain ⟨e1, e2, e3⟩ := hfold notes ((({ s with cache, log } : Srv).setConn q c').emit q (.connack true))
        refine ⟨F.book, by rw [e2]; exact F.stored, by rw [e3]; exact F.fresh, F.ids, F.keys, F.count, ?_, ?_, ?_, ?_, ?_⟩
        · rw [e1]; exact F.live
        · rw [e1]; exact F.subs
        · rw [e1]; exact F.nodup
        · rw [e1]; exact F.roll
        · rw [e1]; exact F.open_
      subst hc'
      refine ⟨rows, ?_⟩
      rw [F1.present_self]
      exact F1

theorem Srv.relayOne_calm {v : SrvEnv} {s s' : Srv} {q : UInt32} {mid : UInt16} {a : Bytes × List Bytes} {c : SrvConn} {k : UInt32}
    (hc : AMap.get s.conns q = some c) (hk : c.contract = .ok k) (h : Srv.relayOne v q mid s a = .ok s') : Calm v s s' := by
  rcases request_cases hc hk h with ⟨w, t, r, _, _, h3, h4⟩ | ⟨_, h2⟩
  · have hr : Calm v s r.2 ∧ r.1 = none := by
      rw [hk] at h3
      simp only [Except.bind] at h3
      cases hf : SrvM.fold (fun s m => (s.sendMessage v q 0 2 0 ⟨t.topic, m⟩).map (·.2)) s a.2 with
      | error => rw [hf] at h3; cases h3
      | ok s1 =>
        rw [hf] at h3
        injection h3 with h3; subst h3
        refine ⟨SrvM.fold_inv (Calm v s) (fun a b a' _ hca hs => ?_) (.refl v s) hf, rfl⟩
        cases hm : a.sendMessage v q 0 2 0 ⟨t.topic, b⟩ with
        | error => rw [hm] at hs; cases hs
        | ok r => rw [hm] at hs; injection hs with hs; subst hs; exact hca.trans (Srv.sendMessage_calm hm)
    rcases h4 with ⟨_, h4⟩ | ⟨e, _⟩
    · subst h4; exact hr.1
    · exact absurd hr.2 e
  · exact h2

theorem step_fits {v : SrvEnv} (hv : v.Sane) (hm : v.mac.cipher.Strips) {s s' : Srv} {b : Spec.Desk} (hok : SrvOk s) (h : ∃ rows, Fits s b rows)
    {ev : SrvEv} (hp : Spec.Proper s ev) (h1 : ∀ q text epoch fresh insecure asked clean, ev = .packet q (.connect text epoch fresh insecure asked clean) → (q, .connack true) ∉ s.out)
    (hs : s.step v ev = .ok s') : ∃ rows, Fits s' ((b.after v s ev).present s') rows := by
  have self : ∀ {b' : Spec.Desk}, (∃ rows, Fits s' b' rows) → ∃ rows, Fits s' (b'.present s') rows := by
    rintro b' ⟨rows, h⟩
    exact ⟨rows, by rw [h.present_self]; exact h⟩
  obtain ⟨rows, h⟩ := h
  cases ev with
  | accept q =>
    injection hs with hs; subst hs
    exact self ⟨rows, h.accept hp.1⟩
  | lost q => exact ⟨_, h.close hs⟩
  | packet q p =>
    obtain ⟨hp1, hp2, hp3⟩ := hp
    simp only [Srv.step] at hs
    cases hc : AMap.get s.conns q with
    | none =>
      rw [hc] at hs
      injection hs with hs; subst hs
      have hroll : AMap.get b.roll q = none := by
        cases hb : AMap.get b.roll q with
        | none => rfl
        | some x => obtain ⟨c, hc'⟩ := h.open_ q x hb; rw [hc] at hc'; cases hc'
      have h2 : ∀ asks : List SubAsk, asks.foldl (Spec.Desk.asked q) b = b := by
        intro asks
        induction asks with
        | nil => rfl
        | cons a asks ih =>
          have : b.asked q a = b := by simp [Spec.Desk.asked, hroll]
          rw [List.foldl_cons, this, ih]
      have h3 : ∀ texts : List Bytes, texts.foldl (Spec.Desk.dropped q) b = b := by
        intro asks
        induction asks with
        | nil => rfl
        | cons a asks ih =>
          have : b.dropped q a = b := by simp [Spec.Desk.dropped, hroll]
          rw [List.foldl_cons, this, ih]
      cases p with
      | connect text epoch fresh insecure asked clean =>
        refine ⟨rows, ?_⟩
        have : ((b.after v s (.packet q (.connect text epoch fresh insecure asked clean))).present s) = b := by
          simp only [Spec.Desk.after]
          split
          · conv => rhs; rw [← h.present_self]
            simp only [Spec.Desk.present, AMap.set, List.filter_cons, hc, Option.isSome_none, Bool.false_eq_true, if_false, AMap.del_of_get_none hroll]
          · exact h.present_self
        rw [this]; exact h
      | subscribe mid asks => simp only [Spec.Desk.after, h2]; exact self ⟨rows, h⟩
      | unsubscribe mid texts => simp only [Spec.Desk.after, h3]; exact self ⟨rows, h⟩
      | _ => exact self ⟨rows, h⟩
    | some c =>
      rw [hc] at hs
      simp only at hs
      have emit : ∀ {s1 : Srv} {b1 : Spec.Desk} {x : Sent}, (∀ b, x ≠ .connack b) → (∃ rows, Fits s1 b1 rows) → ∃ rows, Fits (s1.emit q x) b1 rows := by
        rintro s1 b1 x hx ⟨rows, h⟩
        exact ⟨rows, h.calm (v := v) (.emit hx)⟩
      cases p with
      | connect text epoch fresh insecure asked clean =>
        have hn : c.client = none := by
          cases hcl : c.client with
          | none => rfl
          | some id => exact absurd ((hok.conns q c hc).told.2 (by rw [hcl]; simp)) (h1 _ _ _ _ _ _ _ rfl)
        exact connect_fits h hm hc hn text epoch fresh insecure asked clean hs
      | subscribe mid asks =>
        simp only [Srv.handle] at hs
        cases hf : SrvM.fold (fun s a => Srv.request v s q mid a.text fun c t => s.subscribeTo q c t a) s asks with
        | error => rw [hf] at hs; cases hs
        | ok s1 =>
          rw [hf] at hs
          injection hs with hs; subst hs
          refine self (emit (by intro b e; cases e) ?_)
          cases asks with
          | nil => injection hf with hf; subst hf; exact ⟨rows, h⟩
          | cons a asks =>
            have hf0 : Fine q s := ⟨hok, hp1.resolve_left (by simp [Spec.texts])⟩
            refine (fold_book (P := Fine q) (g := Spec.Desk.asked q) ?_ hf0 ⟨rows, h⟩ hf).2
            rintro s1 b1 a1 s2 ha hfine ⟨rows1, F⟩ hreq
            obtain ⟨s3, g1, g2⟩ := request_ok hv hfine mid (hp2 _ (List.mem_map_of_mem ha)) (fun c t hc hn => subscribeTo_ok hfine hc hn t a1)
            rw [hreq] at g1
            injection g1 with g1; subst g1
            refine ⟨g2, ?_⟩
            rcases F.known hfine with ⟨n1, n2⟩ | ⟨c, k, e1, e2, e3⟩
            · simp only [Srv.request, n1] at hreq
              injection hreq with hreq; subst hreq
              exact ⟨rows1, by simp only [Spec.Desk.asked, n2]; exact F⟩
            · exact F.asked e1 e2 e3 mid a1 hreq
      | unsubscribe mid texts =>
        simp only [Srv.handle] at hs
        cases hf : SrvM.fold (fun s text => Srv.request v s q mid text fun c t => s.unsubscribeFrom q c t) s texts with
        | error => rw [hf] at hs; cases hs
        | ok s1 =>
          rw [hf] at hs
          injection hs with hs; subst hs
          refine self (emit (by intro b e; cases e) ?_)
          cases texts with
          | nil => injection hf with hf; subst hf; exact ⟨rows, h⟩
          | cons a asks =>
            have hf0 : Fine q s := ⟨hok, hp1.resolve_left (by simp [Spec.texts])⟩
            refine (fold_book (P := Fine q) (g := Spec.Desk.dropped q) ?_ hf0 ⟨rows, h⟩ hf).2
            rintro s1 b1 a1 s2 ha hfine ⟨rows1, F⟩ hreq
            obtain ⟨s3, g1, g2⟩ := request_ok hv hfine mid (hp2 _ ha) (fun c t hc hn => unsubscribeFrom_ok hfine hc hn t)
            rw [hreq] at g1
            injection g1 with g1; subst g1
            refine ⟨g2, ?_⟩
            rcases F.known hfine with ⟨n1, n2⟩ | ⟨c, k, e1, e2, e3⟩
            · simp only [Srv.request, n1] at hreq
              injection hreq with hreq; subst hreq
              exact ⟨rows1, by simp only [Spec.Desk.dropped, n2]; exact F⟩
            · exact F.dropped e1 e2 e3 mid a1 hreq
      | relay mid asks =>
        simp only [Srv.handle] at hs
        cases hf : SrvM.fold (Srv.relayOne v q mid) s asks with
        | error => rw [hf] at hs; cases hs
        | ok s1 =>
          rw [hf] at hs
          injection hs with hs; subst hs
          refine self (emit (by intro b e; cases e) ?_)
          cases asks with
          | nil => injection hf with hf; subst hf; exact ⟨rows, h⟩
          | cons a asks =>
            have hf0 : Fine q s := ⟨hok, hp1.resolve_left (by simp [Spec.texts])⟩
            have := (fold_book (P := Fine q) (g := fun b _ => b) (b := b) ?_ hf0 ⟨rows, h⟩ hf).2
            · have e : ∀ l : List (Bytes × List Bytes), l.foldl (fun (b : Spec.Desk) _ => b) b = b := by
                intro l; induction l with
                | nil => rfl
                | cons _ l ih => exact ih
              rwa [e] at this
            rintro s1 b1 a1 s2 ha hfine ⟨rows1, F⟩ hreq
            obtain ⟨s3, g1, g2⟩ := relayOne_ok hv hfine mid a1 (hp2 _ (List.mem_map_of_mem ha))
            rw [hreq] at g1
            injection g1 with g1; subst g1
            refine ⟨g2, ?_⟩
            rcases F.known hfine with ⟨n1, n2⟩ | ⟨c, k, e1, e2, e3⟩
            · simp only [Srv.relayOne, Srv.request, n1] at hreq
              injection hreq with hreq; subst hreq
              exact ⟨rows1, F⟩
            · exact ⟨rows1, F.calm (Srv.relayOne_calm e1 e2 hreq)⟩
      | publish pub => exact self ⟨rows, h.calm (Srv.onPublish_calm hs)⟩
      | receive mid =>
        simp only [Srv.handle, hc] at hs
        split at hs
        · exact ⟨_, h.close hs⟩
        · injection hs with hs; subst hs; exact self (emit (by intro b e; cases e) ⟨rows, h⟩)
        · injection hs with hs; subst hs; exact self ⟨rows, h⟩
      | receipt mid =>
        simp only [Srv.handle, hc] at hs
        injection hs with hs; subst hs
        refine self (emit (by intro b e; cases e) ⟨rows, ?_⟩)
        split
        · exact h
        · exact ⟨h.book, h.stored, h.fresh, h.ids, h.keys, h.count, h.live, h.subs, h.nodup, h.roll, h.open_⟩
      | ping => injection hs with hs; subst hs; exact self (emit (by intro b e; cases e) ⟨rows, h⟩)
      | disconnect => exact ⟨_, h.close hs⟩

theorem day_fits {v : SrvEnv} (hv : v.Sane) (hm : v.mac.cipher.Strips) {s : Srv} {b : Spec.Desk} (h : Spec.Day v s b) : SrvOk s ∧ ∃ rows, Fits s b rows := by
  induction h with
  | start =>
    refine ⟨⟨fun q c hc => (by cases hc), fun x hx => (by simp at hx), fun e he => (by simp at he)⟩, [], ⟨rfl, rfl, by simp, by simp, by simp, by simp, by simp, ?_, ?_, ?_, ?_⟩⟩
    · intro q c hc; cases hc
    · intro q c hc; cases hc
    · intro q c hc; cases hc
    · intro q x hx; cases hx
  | step hd hp h1 hs ih =>
    obtain ⟨s2, g1, g2⟩ := step_ok hv hm ih.1 hp
    rw [hs] at g1
    injection g1 with g1; subst g1
    exact ⟨g2, step_fits hv hm ih.1 ih.2 hp h1 hs⟩

/-! ## The claim -/

/-- The subscriptions to the topic. -/
def Spec.Desk.subscribed (v : SrvEnv) (b : Spec.Desk) (k : UInt32) (topic : Bytes) : List Spec.Sub := b.subs.filter fun r => r.contract == k && v.hits r.topic topic

/-- The subscriptions a message reaches: the newest ones, no more than the limit. -/
def Spec.Desk.readers (v : SrvEnv) (b : Spec.Desk) (k : UInt32) (topic : Bytes) : List Spec.Sub := (b.subscribed v k topic).take v.limit

/-- A message for this subscription waits for its batch. -/
def Spec.Sub.batched (r : Spec.Sub) : Bool := r.mode == 2 || delayed r.delay

/-- The packet is kept until the subscriber asks for it. -/
def Spec.kept (pub : DPub) (r : Spec.Sub) : Bool := (pub.mode == 1 || pub.mode == 2) && (r.mode == 1 || r.mode == 2)

/-- The message goes to the subscriber at once. -/
def Spec.direct (pub : DPub) (r : Spec.Sub) : Bool := pub.mode == 0 || ((pub.mode == 1 || pub.mode == 2) && r.mode == 0)

/-- What is sent for a subscription. -/
def Spec.sends (pub : DPub) (m : DMsg) (r : Spec.Sub) : List (UInt32 × Sent) :=
  if Spec.kept pub r then [(r.conn, .notify pub.mid)]
  else if Spec.direct pub r && !r.batched then [(r.conn, .pub ⟨pub.mid, r.mode, [m]⟩)]
  else []

/-- What connection `q` gets into its batch. -/
def Spec.batches (pub : DPub) (q : UInt32) (m : DMsg) (r : Spec.Sub) : List (UInt32 × DMsg) :=
  if r.conn = q ∧ Spec.kept pub r = false ∧ Spec.direct pub r = true ∧ r.batched = true then [(r.delay, m)] else []

/-- A message of a packet by a client of contract `k`, and whom it is for. -/
def Spec.reached {α : Type} (v : SrvEnv) (b : Spec.Desk) (k : UInt32) (f : DMsg → Spec.Sub → List α) (m : DMsg) : List α :=
  match parseRequest m.topic with
  | none => []
  | some t => (b.readers v k t.topic).flatMap (f ⟨t.topic.take t.size, m.payload⟩)

/-- The client may publish the message, and it is no request to the server. -/
def Spec.Allowed (v : SrvEnv) (k : UInt32) (insecure : Bool) (m : DMsg) : Prop :=
  onPublishRequest insecure k m.topic = some (.granted false) ∧ ∃ t, parseRequest m.topic = some t ∧ t.key ≠ specialKey ∧ v.puts t.topic m.payload = .stored

/-! ## Delivering -/

theorem draw_of_mid {c : SrvConn} {mid : UInt16} (h : mid ≠ 0) : c.draw mid = .ok (mid, c) := by simp [SrvConn.draw, h]

/-- Setting a connection to what it is. -/
theorem get_setConn_same {s : Srv} {p : UInt32} {c : SrvConn} (hc : AMap.get s.conns p = some c) (q : UInt32) : AMap.get (s.setConn p c).conns q = AMap.get s.conns q := by
  simp only [Srv.setConn, AMap.get_set]
  split
  · next e => rw [e, hc]
  · rfl

theorem deliver_to {v : SrvEnv} {p : UInt32} {pub : DPub} {m : DMsg} (hmid : pub.mid ≠ 0) {s : Srv} {c d : SrvConn} (hc : AMap.get s.conns p = some c) (r : Spec.Sub)
    (hd : AMap.get s.conns r.conn = some d) (hb : d.batch.isSome = true) :
    ∃ s', Srv.deliver v p pub m (pub.mid, s) r.entry = .ok (pub.mid, s') ∧ s'.out = s.out ++ Spec.sends pub m r ∧
      (∀ q c, AMap.get s.conns q = some c → ∃ c', AMap.get s'.conns q = some c' ∧ c'.sess = c.sess ∧ c'.batch = c.batch.map (· ++ Spec.batches pub q m r)) ∧
      s'.log = (if Spec.kept pub r then s.log.persist d.sess pub.mid (v.enc (.pub pub))
        else if Spec.direct pub r && !r.batched then s.log.persist r.conn pub.mid (v.enc (.pub ⟨pub.mid, r.mode, [m]⟩)) else s.log) := by
  have hgs := get_setConn_same hc
  have same : ∀ s' : Srv, (∀ q, AMap.get s'.conns q = AMap.get s.conns q) → (∀ q, Spec.batches pub q m r = []) →
      ∀ q c, AMap.get s.conns q = some c → ∃ c', AMap.get s'.conns q = some c' ∧ c'.sess = c.sess ∧ c'.batch = c.batch.map (· ++ Spec.batches pub q m r) := by
    intro s' h1 h2 q c hc
    exact ⟨c, by rw [h1, hc], rfl, by simp [h2]⟩
  have send : Spec.kept pub r = false → Spec.direct pub r = true → ∃ s', (s.setConn p c).sendMessage v r.conn pub.mid r.mode r.delay m = .ok (pub.mid, s') ∧
      s'.out = s.out ++ Spec.sends pub m r ∧
      (∀ q c, AMap.get s.conns q = some c → ∃ c', AMap.get s'.conns q = some c' ∧ c'.sess = c.sess ∧ c'.batch = c.batch.map (· ++ Spec.batches pub q m r)) ∧
      s'.log = (if Spec.kept pub r then s.log.persist d.sess pub.mid (v.enc (.pub pub))
        else if Spec.direct pub r && !r.batched then s.log.persist r.conn pub.mid (v.enc (.pub ⟨pub.mid, r.mode, [m]⟩)) else s.log) := by
    intro hk hdir
    simp only [Srv.sendMessage, hgs, hd, draw_of_mid hmid, Except.bind]
    split
    · next hbat =>
      have hbat' : r.batched = true := by simpa [Spec.Sub.batched] using hbat
      obtain ⟨l, hl⟩ := Option.isSome_iff_exists.1 hb
      simp only [hl]
      refine ⟨_, rfl, ?_, ?_, ?_⟩
      · simp [Srv.setConn, Spec.sends, hk, hdir, hbat']
      · intro q c1 hc1
        simp only [Srv.setConn, AMap.get_set]
        split
        · next e =>
          subst e
          rw [hd] at hc1; injection hc1 with hc1; subst hc1
          exact ⟨_, rfl, rfl, by simp [hl, Spec.batches, hk, hdir, hbat']⟩
        · next hne =>
          have hne' : ¬ r.conn = q := fun e => hne e.symm
          split
          · next e => subst e; rw [hc] at hc1; injection hc1 with hc1; subst hc1; exact ⟨_, rfl, rfl, by simp [Spec.batches, hne']⟩
          · exact ⟨c1, hc1, rfl, by simp [Spec.batches, hne']⟩
      · simp [Srv.setConn, hk, hdir, hbat']
    · next hbat =>
      have hbat' : r.batched = false := by
        rw [Bool.eq_false_iff]; intro e; exact hbat (by simpa [Spec.Sub.batched] using e)
      refine ⟨_, rfl, ?_, same _ ?_ (fun q => by simp [Spec.batches, hbat']), ?_⟩
      · simp [Srv.setConn, Srv.emit, Srv.persist, Spec.sends, hk, hdir, hbat']
      · intro q
        show AMap.get ((s.setConn p c).setConn r.conn d).conns q = _
        rw [get_setConn_same (by rw [hgs, hd]), hgs]
      · simp [Srv.setConn, Srv.emit, Srv.persist, hk, hdir, hbat']
  have hd' : AMap.get s.conns r.entry.conn = some d := hd
  simp only [Srv.deliver, hd', hc, draw_of_mid hmid, Except.bind]
  by_cases hm1 : pub.mode = 1 ∨ pub.mode = 2
  · simp only [if_pos hm1]
    have hne0 : pub.mode ≠ 0 := by rcases hm1 with e | e <;> rw [e] <;> decide
    have hm1' : (pub.mode == 1 || pub.mode == 2) = true := by simpa using hm1
    by_cases hm2 : r.entry.mode = 1 ∨ r.entry.mode = 2
    · simp only [if_pos hm2]
      have hm2' : (r.mode == 1 || r.mode == 2) = true := by simpa [Spec.Sub.entry] using hm2
      have hk : Spec.kept pub r = true := by simp only [Spec.kept, hm1', hm2']; rfl
      simp only [hgs, hd']
      refine ⟨_, rfl, ?_, same _ ?_ (fun q => by simp [Spec.batches, hk]), ?_⟩
      · simp [Srv.setConn, Srv.emit, Srv.persist, Spec.sends, hk, Spec.Sub.entry]
      · exact fun q => hgs q
      · simp [Srv.setConn, Srv.emit, Srv.persist, hk]
    · simp only [if_neg hm2]
      have hm2' : (r.mode == 1 || r.mode == 2) = false := by rw [Bool.eq_false_iff]; intro e; exact hm2 (by simpa [Spec.Sub.entry] using e)
      have hk : Spec.kept pub r = false := by simp only [Spec.kept, hm2', Bool.and_false]
      by_cases hz : r.entry.mode = 0
      · simp only [if_pos hz]; exact send hk (by have : r.mode = 0 := hz; simp [Spec.direct, hm1', this])
      · simp only [if_neg hz]
        have hdir : Spec.direct pub r = false := by
          have : ¬ r.mode = 0 := hz
          simp [Spec.direct, hne0, this]
        exact ⟨_, rfl, by simp [Srv.setConn, Spec.sends, hk, hdir], same _ hgs (fun q => by simp [Spec.batches, hdir]), by simp [Srv.setConn, hk, hdir]⟩
  · simp only [if_neg hm1]
    have hm1' : (pub.mode == 1 || pub.mode == 2) = false := by rw [Bool.eq_false_iff]; intro e; exact hm1 (by simpa using e)
    have hk : Spec.kept pub r = false := by simp only [Spec.kept, hm1', Bool.false_and]
    by_cases hz : pub.mode = 0
    · simp only [if_pos hz]; exact send hk (by simp [Spec.direct, hz])
    · simp only [if_neg hz]
      have hdir : Spec.direct pub r = false := by simp [Spec.direct, hm1', hz]
      exact ⟨_, rfl, by simp [Srv.setConn, Spec.sends, hk, hdir], same _ hgs (fun q => by simp [Spec.batches, hdir]), by simp [Srv.setConn, hk, hdir]⟩

/-- A packet was passed on for these messages and subscriptions. -/
structure Passed (v : SrvEnv) (pub : DPub) (l : List (DMsg × Spec.Sub)) (s s' : Srv) : Prop where
  calm : Calm v s s'
  out : s'.out = s.out ++ l.flatMap fun x => Spec.sends pub x.1 x.2
  conns : ∀ q c, AMap.get s.conns q = some c → ∃ c', AMap.get s'.conns q = some c' ∧ c'.sess = c.sess ∧
    c'.batch = c.batch.map (· ++ l.flatMap fun x => Spec.batches pub q x.1 x.2)
  other : ∀ mid block, mid ≠ pub.mid → s'.log.get (packetKey mid block) = s.log.get (packetKey mid block)
  kept : (∀ x ∈ l, Spec.kept pub x.2 = true) → (∀ key, s'.log.get key = s.log.get key ∨ s'.log.get key = some (v.enc (.pub pub))) ∧
    ∀ x ∈ l, ∀ d, AMap.get s.conns x.2.conn = some d → s'.log.get (packetKey pub.mid d.sess) = some (v.enc (.pub pub))

theorem Passed.nil (v : SrvEnv) (pub : DPub) (s : Srv) : Passed v pub [] s s :=
  ⟨.refl v s, by simp, fun q c hc => ⟨c, hc, rfl, by simp⟩, fun _ _ _ => rfl, fun _ => ⟨fun _ => .inl rfl, fun x hx => by simp at hx⟩⟩

theorem Passed.append {v : SrvEnv} {pub : DPub} {l l' : List (DMsg × Spec.Sub)} {s s' s'' : Srv} (h : Passed v pub l s s') (k : Passed v pub l' s' s'') :
    Passed v pub (l ++ l') s s'' := by
  refine ⟨h.calm.trans k.calm, by rw [k.out, h.out, List.flatMap_append, List.append_assoc], ?_, ?_, ?_⟩
  · intro q c hc
    obtain ⟨c', h1, h2, h3⟩ := h.conns q c hc
    obtain ⟨c'', k1, k2, k3⟩ := k.conns q c' h1
    refine ⟨c'', k1, k2.trans h2, ?_⟩
    rw [k3, h3, Option.map_map]
    simp [Function.comp_def]
  · intro mid block hm
    rw [k.other mid block hm, h.other mid block hm]
  · intro hall
    obtain ⟨h1, h2⟩ := h.kept fun x hx => hall x (List.mem_append_left _ hx)
    obtain ⟨k1, k2⟩ := k.kept fun x hx => hall x (List.mem_append_right _ hx)
    constructor
    · intro key
      rcases k1 key with e | e
      · rw [e]; exact h1 key
      · exact .inr e
    · intro x hx d hd
      rcases List.mem_append.1 hx with hx | hx
      · rcases k1 (packetKey pub.mid d.sess) with e | e
        · rw [e]; exact h2 x hx d hd
        · exact e
      · obtain ⟨d', g1, g2, _⟩ := h.conns _ d hd
        rw [← g2]; exact k2 x hx d' g1

theorem deliver_passed {v : SrvEnv} {p : UInt32} {pub : DPub} {m : DMsg} (hmid : pub.mid ≠ 0) {s : Srv} {c d : SrvConn} (hc : AMap.get s.conns p = some c) (r : Spec.Sub)
    (hd : AMap.get s.conns r.conn = some d) (hb : d.batch.isSome = true) :
    ∃ s', Srv.deliver v p pub m (pub.mid, s) r.entry = .ok (pub.mid, s') ∧ Passed v pub [(m, r)] s s' := by
  obtain ⟨s', h1, h2, h3, h4⟩ := deliver_to (v := v) (m := m) hmid hc r hd hb
  refine ⟨s', h1, Srv.deliver_calm h1, by simp [h2], by simpa using h3, ?_, ?_⟩
  · intro mid block hm
    have hne : ∀ b, packetKey mid block ≠ packetKey pub.mid b := fun b e => hm (C57_key_injective _ _ _ _ e).1
    rw [h4]
    split
    · rw [LogMap.persist, LogMap.get_put, if_neg (hne _)]
    · split
      · rw [LogMap.persist, LogMap.get_put, if_neg (hne _)]
      · rfl
  · intro hall
    have hk := hall (m, r) (by simp)
    simp only at hk
    rw [hk, if_pos rfl] at h4
    constructor
    · intro key
      rw [h4, LogMap.persist, LogMap.get_put]
      split
      · exact .inr rfl
      · exact .inl rfl
    · intro x hx d' hd'
      simp only [List.mem_singleton] at hx
      subst hx
      rw [hd] at hd'; injection hd' with hd'; subst hd'
      rw [h4, LogMap.persist, LogMap.get_put, if_pos rfl]

theorem fold_passed {v : SrvEnv} (hv : v.Sane) {p : UInt32} {pub : DPub} {m : DMsg} (hmid : pub.mid ≠ 0) (rs : List Spec.Sub) :
    ∀ {s : Srv}, SrvOk s → (∃ c, AMap.get s.conns p = some c) → (∀ r ∈ rs, (∃ c, AMap.get s.conns r.conn = some c) ∧ (r.conn, Sent.connack true) ∈ s.out) →
      ∃ s', SrvM.fold (Srv.deliver v p pub m) (pub.mid, s) (rs.map Spec.Sub.entry) = .ok (pub.mid, s') ∧ Passed v pub (rs.map (m, ·)) s s' := by
  induction rs with
  | nil => intro s _ _ _; exact ⟨s, rfl, .nil v pub s⟩
  | cons r rs ih =>
    intro s h hp hr
    obtain ⟨c, hc⟩ := hp
    obtain ⟨⟨d, hd⟩, ht⟩ := hr r (by simp)
    have hok := h.conns _ d hd
    obtain ⟨s1, h1, h2⟩ := deliver_passed (v := v) (m := m) hmid hc r hd (hok.batch (hok.told.1 ht))
    obtain ⟨c', hc', _⟩ := h2.calm.some hc
    obtain ⟨s2, h3, h4⟩ := ih (h.calm hv h2.calm) ⟨c', hc'⟩ (by
      intro r' hr'
      obtain ⟨⟨e, he⟩, ht'⟩ := hr r' (List.mem_cons_of_mem _ hr')
      obtain ⟨e', he', _⟩ := h2.calm.some he
      obtain ⟨new, ho, _⟩ := h2.calm.out
      exact ⟨⟨e', he'⟩, by rw [ho]; exact List.mem_append_left _ ht'⟩)
    refine ⟨s2, ?_, h2.append h4⟩
    simp only [List.map_cons, SrvM.fold, h1, Except.bind]
    exact h3

theorem Fits.matching {s : Srv} {b : Spec.Desk} {rows : List (Nat × Spec.Sub)} (h : Fits s b rows) (v : SrvEnv) (k : UInt32) (topic : Bytes) :
    s.matching v k topic = (b.readers v k topic).map Spec.Sub.entry := by
  have : (s.stored.map (·.2)) = b.subs.map Spec.Sub.entry := by
    rw [h.stored, h.book, List.map_map, List.map_map]; rfl
  simp only [Srv.matching, this, List.filter_map, Spec.Desk.readers, List.map_take]
  rfl

/-- The messages of a packet with the subscriptions they reach. -/
def pairs (v : SrvEnv) (b : Spec.Desk) (k : UInt32) (ms : List DMsg) : List (DMsg × Spec.Sub) := ms.flatMap (Spec.reached v b k fun m r => [(m, r)])

theorem pairs_flatMap {α : Type} (v : SrvEnv) (b : Spec.Desk) (k : UInt32) (ms : List DMsg) (f : DMsg → Spec.Sub → List α) :
    ((pairs v b k ms).flatMap fun x => f x.1 x.2) = ms.flatMap (Spec.reached v b k f) := by
  simp only [pairs, List.flatMap_assoc]
  congr 1
  funext m
  simp only [Spec.reached]
  split
  · rfl
  · simp [List.flatMap_assoc]

theorem publishAll_passed {v : SrvEnv} (hv : v.Sane) {q : UInt32} {pub : DPub} (hmid : pub.mid ≠ 0) {b : Spec.Desk} {k : UInt32} {insecure : Bool}
    {rows : List (Nat × Spec.Sub)} (ms : List DMsg) (hms : ∀ m ∈ ms, Spec.Allowed v k insecure m) :
    ∀ {s : Srv}, SrvOk s → Fits s b rows → (∃ c, AMap.get s.conns q = some c ∧ c.contract = .ok k ∧ c.insecure = insecure) →
      ∃ s', Srv.publishAll v q pub ms s = .ok (.acked, s') ∧ Passed v pub (pairs v b k ms) s s' := by
  induction ms with
  | nil => intro s _ _ _; exact ⟨s, rfl, .nil v pub s⟩
  | cons m ms ih =>
    rintro s h hf ⟨c, hc, hk, hi⟩
    obtain ⟨hg, t, ht, hs, hput⟩ := hms m (by simp)
    rw [← hi] at hg
    obtain ⟨g1, g2⟩ := check_allowed hk ht hs hg
    obtain ⟨s1, h1, h2⟩ := fold_passed hv (p := q) (m := ⟨t.topic.take t.size, m.payload⟩) hmid (b.readers v k t.topic) h ⟨c, hc⟩ (by
      intro r hr
      have hr := (List.mem_filter.1 (List.mem_of_mem_take hr)).1
      rw [hf.book] at hr
      obtain ⟨x, hx, rfl⟩ := List.mem_map.1 hr
      refine ⟨hf.live x hx, h.stored (x.1, x.2.entry) ?_⟩
      rw [hf.stored]; exact List.mem_map_of_mem (f := fun r : Nat × Spec.Sub => (r.1, r.2.entry)) hx)
    obtain ⟨c', hc', e⟩ := h2.calm.some hc
    simp only [SrvConn.core, Prod.mk.injEq] at e
    obtain ⟨s2, h3, h4⟩ := ih (fun m hm => hms m (List.mem_cons_of_mem _ hm)) (h.calm hv h2.calm) (hf.calm h2.calm)
      ⟨c', hc', by simpa only [SrvConn.contract, e.1] using hk, e.2.1.trans hi⟩
    refine ⟨s2, ?_, ?_⟩
    · simp only [Srv.publishAll, hc, ht, g1, Bool.not_true, Bool.false_eq_true, if_false, if_neg hs, g2, Except.bind, Srv.publish, hk, hput, hf.matching v k t.topic, h1, Except.map]
      exact h3
    · have e1 : pairs v b k (m :: ms) = (b.readers v k t.topic).map (fun r => (⟨t.topic.take t.size, m.payload⟩, r)) ++ pairs v b k ms := by
        simp only [pairs, List.flatMap_cons, Spec.reached, ht]
        congr 1
        rw [List.map_eq_flatMap]
      rw [e1]
      exact h2.append h4

theorem publish_passed {v : SrvEnv} (hv : v.Sane) (hm : v.mac.cipher.Strips) {s : Srv} {b : Spec.Desk} (h : Spec.Day v s b) {p : UInt32}
    {k : UInt32} {insecure : Bool} (hp : AMap.get b.roll p = some (k, insecure)) {pub : DPub} (hmid : pub.mid ≠ 0) (hms : ∀ m ∈ pub.msgs, Spec.Allowed v k insecure m) :
    ∃ s1, s.step v (.packet p (.publish pub)) = .ok (s1.emit p (.acked pub.mid)) ∧ Passed v pub (pairs v b k pub.msgs) s s1 := by
  obtain ⟨hok, rows, hf⟩ := day_fits hv hm h
  obtain ⟨c, hc⟩ := hf.open_ p _ hp
  have hk : c.contract = .ok k ∧ c.insecure = insecure := by
    rcases hf.roll p c hc with ⟨_, e⟩ | ⟨k', e1, e2⟩
    · rw [hp] at e; cases e
    · rw [hp] at e2; injection e2 with e2; injection e2 with e2 e3; exact ⟨e2 ▸ e1, e3.symm⟩
  obtain ⟨s1, h1, h2⟩ := publishAll_passed hv hmid pub.msgs hms hok hf ⟨c, hc, hk⟩
  exact ⟨s1, by simp [Srv.step, hc, Srv.handle, Srv.onPublish, h1, Except.bind], h2⟩

/-- C83 (partial: the histories of `Spec.Day`, a message id that is not zero, messages the client may publish, and of more subscriptions than the limit of a
query only the newest). What a PUBLISH makes the server send: for each message in order and each subscription it reaches, newest first, one packet to the connection of
the subscription, the message itself or, between reliable clients, the notice that it is there; then the acknowledgement. What is to be delivered in batches
is added to the batch of the connection. Nothing else is sent to anyone. -/
theorem C83_sent_partial (v : SrvEnv) (hv : v.Sane) (hm : v.mac.cipher.Strips) (s : Srv) (b : Spec.Desk) (h : Spec.Day v s b) (p : UInt32)
    (k : UInt32) (insecure : Bool) (hp : AMap.get b.roll p = some (k, insecure)) (pub : DPub) (hmid : pub.mid ≠ 0) (hms : ∀ m ∈ pub.msgs, Spec.Allowed v k insecure m) :
    ∃ s', s.step v (.packet p (.publish pub)) = .ok s' ∧
      s'.out = s.out ++ pub.msgs.flatMap (Spec.reached v b k (Spec.sends pub)) ++ [(p, .acked pub.mid)] ∧
      ∀ q c, AMap.get s.conns q = some c → ∃ c', AMap.get s'.conns q = some c' ∧
        c'.batch = c.batch.map (· ++ pub.msgs.flatMap (Spec.reached v b k (Spec.batches pub q))) := by
  obtain ⟨s1, h1, h2⟩ := publish_passed hv hm h hp hmid hms
  refine ⟨_, h1, ?_, ?_⟩
  · simp only [Srv.emit, h2.out, pairs_flatMap]
  · intro q c hc
    obtain ⟨c', g1, _, g3⟩ := h2.conns q c hc
    refine ⟨c', g1, ?_⟩
    rw [g3]
    congr 1
    funext l
    rw [pairs_flatMap]

/-- Packets of publishers that do not use the message id `mid`. -/
inductive Spec.Meanwhile (v : SrvEnv) (mid : UInt16) : Srv → Spec.Desk → Srv → Prop
  | refl {s : Srv} {b : Spec.Desk} : Spec.Meanwhile v mid s b s
  | step {s s1 s' : Srv} {b : Spec.Desk} {p : UInt32} {k : UInt32} {insecure : Bool} {pub : DPub} : AMap.get b.roll p = some (k, insecure) → pub.mid ≠ 0 → pub.mid ≠ mid →
      (∀ m ∈ pub.msgs, Spec.Allowed v k insecure m) → s.step v (.packet p (.publish pub)) = .ok s1 → Spec.Meanwhile v mid s1 b s' → Spec.Meanwhile v mid s b s'

theorem publish_day {v : SrvEnv} (hv : v.Sane) (hm : v.mac.cipher.Strips) {s s' : Srv} {b : Spec.Desk} (h : Spec.Day v s b) {p : UInt32}
    {x : UInt32 × Bool} (hp : AMap.get b.roll p = some x) {pub : DPub} (hms : ∀ m ∈ pub.msgs, ∃ t, parseRequest m.topic = some t)
    (hs : s.step v (.packet p (.publish pub)) = .ok s') : Spec.Day v s' b := by
  obtain ⟨hok, rows, hf⟩ := day_fits hv hm h
  obtain ⟨c, hc⟩ := hf.open_ p _ hp
  have hn : c.client ≠ none := by
    rcases hf.roll p c hc with ⟨_, e⟩ | ⟨k', e1, _⟩
    · rw [hp] at e; cases e
    · intro e; simp only [SrvConn.contract, e, Option.bind_none] at e1; cases e1
  have hprop : Spec.Proper s (.packet p (.publish pub)) := by
    refine ⟨.inr ((hok.conns p c hc).told.2 hn), ?_, ?_⟩
    · intro t ht
      obtain ⟨m, hm', rfl⟩ := List.mem_map.1 ht
      obtain ⟨t, ht⟩ := hms m hm'
      apply Classical.byContradiction
      intro hno
      have := (C62_crash_iff m.topic).2 (fun c hc => Classical.byContradiction fun e => hno ⟨c, hc, e⟩)
      rw [ht] at this; cases this
    · intro _ _ _ _ _ _ e; cases e
  have h1 : ∀ q text epoch fresh insecure asked clean, SrvEv.packet p (.publish pub) = .packet q (.connect text epoch fresh insecure asked clean) → (q, Sent.connack true) ∉ s.out := by
    intro _ _ _ _ _ _ _ e; cases e
  have D := Spec.Day.step h hprop h1 hs
  obtain ⟨rows', hf'⟩ := step_fits hv hm hok ⟨rows, hf⟩ hprop h1 hs
  have e : (b.after v s (.packet p (.publish pub))).present s' = b := by
    have : Calm v s s' := by
      simp only [Srv.step, hc, Srv.handle] at hs
      exact Srv.onPublish_calm hs
    exact (hf.calm this).present_self
  rw [e] at D
  exact D

theorem meanwhile_keeps {v : SrvEnv} (hv : v.Sane) (hm : v.mac.cipher.Strips) {mid : UInt16} {s s' : Srv} {b : Spec.Desk} (hw : Spec.Meanwhile v mid s b s') :
    ∀ {q : UInt32} {raw : Bytes}, Spec.Day v s b → ∀ {d : SrvConn}, AMap.get s.conns q = some d → s.log.get (packetKey mid d.sess) = some raw →
      ∃ d', AMap.get s'.conns q = some d' ∧ s'.log.get (packetKey mid d'.sess) = some raw := by
  induction hw with
  | refl => intro q raw _ d hd hl; exact ⟨d, hd, hl⟩
  | step hp' hm0 hne hms' hs' _ ih =>
    intro q raw D d hd hl
    obtain ⟨s2, g1, g2⟩ := publish_passed hv hm D hp' hm0 hms'
    have D' := publish_day hv hm D hp' (fun m hm' => let ⟨_, t, ht, _⟩ := hms' m hm'; ⟨t, ht⟩) hs'
    rw [hs'] at g1
    injection g1 with g1
    subst g1
    obtain ⟨d2, hd2, hs2, _⟩ := g2.conns _ d hd
    exact ih D' hd2 (by
      rw [hs2]
      exact (g2.other _ _ (Ne.symm hne)).trans hl)

/-- C83 (partial, as above). When both the publisher and the readers of all messages of a packet are reliable and the packet is read from the log as it was written (see `C83_codec`), a reader that asks for the packet gets it, also after other
packets were published, as long as no one used its message id. -/
theorem C83_fetched_partial (v : SrvEnv) (hv : v.Sane) (hm : v.mac.cipher.Strips) (s : Srv) (b : Spec.Desk)
    (h : Spec.Day v s b) (p : UInt32) (k : UInt32) (insecure : Bool) (hp : AMap.get b.roll p = some (k, insecure)) (pub : DPub)
    (hdec : v.dec (v.enc (.pub pub)) = some (.pub pub)) (hmid : pub.mid ≠ 0)
    (hms : ∀ m ∈ pub.msgs, Spec.Allowed v k insecure m) (hmode : pub.mode = 1 ∨ pub.mode = 2)
    (hr : ∀ m ∈ pub.msgs, ∀ t, parseRequest m.topic = some t → ∀ r ∈ b.readers v k t.topic, r.mode = 1 ∨ r.mode = 2) :
    ∃ s', s.step v (.packet p (.publish pub)) = .ok s' ∧ ∀ s'', Spec.Meanwhile v pub.mid s' b s'' →
      ∀ m ∈ pub.msgs, ∀ t, parseRequest m.topic = some t → ∀ r ∈ b.readers v k t.topic,
        s''.step v (.packet r.conn (.receive pub.mid)) = .ok (s''.emit r.conn (.pub pub)) := by
  obtain ⟨s1, h1, h2⟩ := publish_passed hv hm h hp hmid hms
  refine ⟨_, h1, ?_⟩
  obtain ⟨hok, rows, hf⟩ := day_fits hv hm h
  have D := publish_day hv hm h hp (fun m hm' => let ⟨_, t, ht, _⟩ := hms m hm'; ⟨t, ht⟩) h1
  have hkept : ∀ x ∈ pairs v b k pub.msgs, Spec.kept pub x.2 = true := by
    intro x hx
    obtain ⟨m, hm', hx⟩ := List.mem_flatMap.1 hx
    simp only [Spec.reached] at hx
    split at hx
    · simp at hx
    · next t ht =>
      obtain ⟨r, hr', hx⟩ := List.mem_flatMap.1 hx
      simp only [List.mem_singleton] at hx
      subst hx
      have := hr m hm' t ht r hr'
      simp [Spec.kept, hmode, this]
  intro s'' hw m hm' t ht r hr'
  have hmem : ((⟨t.topic.take t.size, m.payload⟩ : DMsg), r) ∈ pairs v b k pub.msgs := by
    refine List.mem_flatMap.2 ⟨m, hm', ?_⟩
    simp only [Spec.reached, ht]
    exact List.mem_flatMap.2 ⟨r, hr', by simp⟩
  obtain ⟨d, hd⟩ : ∃ d, AMap.get s.conns r.conn = some d := by
    have hr' := (List.mem_filter.1 (List.mem_of_mem_take hr')).1
    rw [hf.book] at hr'
    obtain ⟨x, hx, rfl⟩ := List.mem_map.1 hr'
    exact hf.live x hx
  have key : (s1.emit p (.acked pub.mid)).log.get (packetKey pub.mid d.sess) = some (v.enc (.pub pub)) := (h2.kept hkept).2 _ hmem d hd
  obtain ⟨d1, hd1, hs1, _⟩ := h2.conns _ d hd
  rw [← hs1] at key
  have hd1' : AMap.get (s1.emit p (.acked pub.mid)).conns r.conn = some d1 := hd1
  obtain ⟨d2, g1, g2⟩ := meanwhile_keeps hv hm hw D hd1' key
  simp [Srv.step, g1, Srv.handle, g2, hdec]

/-! ## Concrete days -/

def newB (s : Srv) : SrvEv → Bool
  | .packet q (.connect ..) => !s.out.contains (q, .connack true)
  | _ => true

def dayRun (v : SrvEnv) : List SrvEv → Srv → Spec.Desk → Option (Srv × Spec.Desk)
  | [], s, b => some (s, b)
  | ev :: evs, s, b =>
    if properB s ev && newB s ev then
      match s.step v ev with
      | .ok s' => dayRun v evs s' ((b.after v s ev).present s')
      | .error _ => none
    else none

theorem dayRun_sound {v : SrvEnv} {evs : List SrvEv} : ∀ {s : Srv} {b : Spec.Desk} {r : Srv × Spec.Desk}, Spec.Day v s b → dayRun v evs s b = some r → Spec.Day v r.1 r.2 := by
  induction evs with
  | nil => intro s b r h e; injection e with e; subst e; exact h
  | cons ev evs ih =>
    intro s b r h e
    simp only [dayRun] at e
    split at e
    · next hp =>
      simp only [Bool.and_eq_true] at hp
      split at e
      · next s1 hs =>
        refine ih (.step h (properB_sound hp.1) ?_ hs) e
        rintro q text epoch fresh insecure asked clean rfl hm
        have := hp.2
        simp only [newB, Bool.not_eq_true', List.contains_iff_mem, ← Bool.not_eq_true] at this
        exact this hm
      · cases e
    · cases e

theorem step_of_toOption {v : SrvEnv} {s s' : Srv} {ev : SrvEv} (h : (s.step v ev).toOption = some s') : s.step v ev = .ok s' := by
  cases hr : s.step v ev with
  | error e => rw [hr] at h; cases h
  | ok s1 => rw [hr] at h; injection h with h; rw [h]

/-- Client 1 publishes; client 2 reads `x` and client 3 reads `y`, both reliably; client 4 reads `x` at once. -/
def toyDay : List SrvEv :=
  toyConnect 1 100 7 true ++ toyConnect 2 101 7 true ++ toyConnect 3 102 7 true ++
  [.packet 2 (.subscribe 3 [⟨toyText 107 120, 1, 0⟩]), .packet 3 (.subscribe 3 [⟨toyText 107 121, 2, 0⟩])]

def toyDay4 : List SrvEv := toyDay ++ toyConnect 4 103 7 true ++ [.packet 4 (.subscribe 3 [⟨toyText 107 120, 0, 0⟩]), .packet 4 (.subscribe 4 [⟨toyText 108 121, 0, 9⟩])]

instance (v : SrvEnv) (k : UInt32) (insecure : Bool) (m : DMsg) : Decidable (Spec.Allowed v k insecure m) :=
  decidable_of_iff (onPublishRequest insecure k m.topic = some (.granted false) ∧ (parseRequest m.topic).any (fun t => t.key ≠ specialKey ∧ v.puts t.topic m.payload = .stored) = true)
    (by simp [Spec.Allowed, Option.any_eq_true])

/-- The packet of client 1 with a message on `x` and one on `y`. -/
def toyPacket (mid : UInt16) (mode : UInt8) : DPub := ⟨mid, mode, [⟨toyText 107 120, [42]⟩, ⟨toyText 107 121, [43]⟩]⟩

example : ∃ s b, Spec.Day toySrv s b ∧ AMap.get b.roll 1 = some (7, true) ∧ (toyPacket 5 1).mid ≠ 0 ∧ (∀ m ∈ (toyPacket 5 1).msgs, Spec.Allowed toySrv 7 true m) ∧
    (toyPacket 5 1).msgs.flatMap (Spec.reached toySrv b 7 (Spec.sends (toyPacket 5 1))) = [(4, .pub ⟨5, 0, [⟨[120], [42]⟩]⟩), (2, .notify 5), (3, .notify 5)] ∧
    (toyPacket 5 1).msgs.flatMap (Spec.reached toySrv b 7 (Spec.batches (toyPacket 5 1) 4)) = [(9, ⟨[121], [43]⟩)] := by
  have h : (dayRun toySrv toyDay4 {} {}).any (fun r => decide (AMap.get r.2.roll 1 = some (7, true) ∧ (toyPacket 5 1).mid ≠ 0 ∧ (∀ m ∈ (toyPacket 5 1).msgs, Spec.Allowed toySrv 7 true m) ∧
      (toyPacket 5 1).msgs.flatMap (Spec.reached toySrv r.2 7 (Spec.sends (toyPacket 5 1))) = [(4, .pub ⟨5, 0, [⟨[120], [42]⟩]⟩), (2, .notify 5), (3, .notify 5)] ∧
      (toyPacket 5 1).msgs.flatMap (Spec.reached toySrv r.2 7 (Spec.batches (toyPacket 5 1) 4)) = [(9, ⟨[121], [43]⟩)])) = true := by decide +kernel
  obtain ⟨r, h1, h2⟩ := (Option.any_eq_true _ _).1 h
  exact ⟨r.1, r.2, dayRun_sound .start h1, of_decide_eq_true h2⟩

/-- All readers are reliable. -/
def readersB (v : SrvEnv) (b : Spec.Desk) (k : UInt32) (pub : DPub) : Bool :=
  pub.msgs.all fun m => (parseRequest m.topic).all fun t => (b.readers v k t.topic).all fun r => r.mode == 1 || r.mode == 2

theorem readersB_sound {v : SrvEnv} {b : Spec.Desk} {k : UInt32} {pub : DPub} (h : readersB v b k pub = true) :
    ∀ m ∈ pub.msgs, ∀ t, parseRequest m.topic = some t → ∀ r ∈ b.readers v k t.topic, r.mode = 1 ∨ r.mode = 2 := by
  intro m hm t ht r hr
  simp only [readersB, List.all_eq_true] at h
  have := h m hm
  rw [ht] at this
  simp only [Option.all_some, List.all_eq_true] at this
  simpa using this r hr

/-- C83, violated: the packet a reliable reader fetches holds all messages of the publisher's packet, also those on topics it did not subscribe to. -/
theorem C83_only_readers_violated : ∃ s b s' s'', Spec.Day toySrv s b ∧ AMap.get b.roll 1 = some (7, true) ∧ (∀ m ∈ (toyPacket 5 1).msgs, Spec.Allowed toySrv 7 true m) ∧
    (∀ r ∈ b.subs, r.conn = 2 → r.topic = [120]) ∧
    s.step toySrv (.packet 1 (.publish (toyPacket 5 1))) = .ok s' ∧ s'.step toySrv (.packet 2 (.receive 5)) = .ok s'' ∧
    (2, .pub ⟨5, 1, [⟨toyText 107 120, [42]⟩, ⟨toyText 107 121, [43]⟩]⟩) ∈ s''.out := by
  have h : (dayRun toySrv toyDay {} {}).any (fun r => decide (AMap.get r.2.roll 1 = some (7, true) ∧ (∀ m ∈ (toyPacket 5 1).msgs, Spec.Allowed toySrv 7 true m) ∧ (∀ x ∈ r.2.subs, x.conn = 2 → x.topic = [120])) &&
      ((r.1.step toySrv (.packet 1 (.publish (toyPacket 5 1)))).toOption.any fun s' => (s'.step toySrv (.packet 2 (.receive 5))).toOption.any fun s'' =>
        s''.out.contains (2, .pub ⟨5, 1, [⟨toyText 107 120, [42]⟩, ⟨toyText 107 121, [43]⟩]⟩))) = true := by decide +kernel
  obtain ⟨r, h1, h2⟩ := (Option.any_eq_true _ _).1 h
  rw [Bool.and_eq_true] at h2
  obtain ⟨h2, h3⟩ := h2
  obtain ⟨s', h3, h4⟩ := (Option.any_eq_true _ _).1 h3
  obtain ⟨s'', h4, h5⟩ := (Option.any_eq_true _ _).1 h4
  obtain ⟨g1, g2, g3⟩ := of_decide_eq_true h2
  exact ⟨r.1, r.2, s', s'', dayRun_sound .start h1, g1, g2, g3, step_of_toOption h3, step_of_toOption h4, List.contains_iff_mem.1 h5⟩

example : ∃ s b, Spec.Day toySrv s b ∧ AMap.get b.roll 1 = some (7, true) ∧ (toyPacket 5 1).mid ≠ 0 ∧ (∀ m ∈ (toyPacket 5 1).msgs, Spec.Allowed toySrv 7 true m) ∧
    (∀ m ∈ (toyPacket 5 1).msgs, ∀ t, parseRequest m.topic = some t → ∀ r ∈ b.readers toySrv 7 t.topic, r.mode = 1 ∨ r.mode = 2) ∧
    (∃ s' s'', s.step toySrv (.packet 1 (.publish (toyPacket 5 1))) = .ok s' ∧ s'.step toySrv (.packet 1 (.publish (toyPacket 6 1))) = .ok s'' ∧ Spec.Meanwhile toySrv 5 s' b s'') := by
  have h : (dayRun toySrv toyDay {} {}).any (fun r => decide (AMap.get r.2.roll 1 = some (7, true) ∧ (toyPacket 5 1).mid ≠ 0 ∧ (∀ m ∈ (toyPacket 5 1).msgs, Spec.Allowed toySrv 7 true m) ∧
        (∀ m ∈ (toyPacket 6 1).msgs, Spec.Allowed toySrv 7 true m)) &&
      (readersB toySrv r.2 7 (toyPacket 5 1) &&
      ((r.1.step toySrv (.packet 1 (.publish (toyPacket 5 1)))).toOption.any fun s' => (s'.step toySrv (.packet 1 (.publish (toyPacket 6 1)))).toOption.isSome))) = true := by decide +kernel
  obtain ⟨r, h1, h2⟩ := (Option.any_eq_true _ _).1 h
  simp only [Bool.and_eq_true] at h2
  obtain ⟨h2, h6, h3⟩ := h2
  obtain ⟨s', h3, h4⟩ := (Option.any_eq_true _ _).1 h3
  obtain ⟨s'', h4⟩ := Option.isSome_iff_exists.1 h4
  obtain ⟨g1, g2, g3, g4⟩ := of_decide_eq_true h2
  exact ⟨r.1, r.2, dayRun_sound .start h1, g1, g2, g3, readersB_sound h6, s', s'', step_of_toOption h3, step_of_toOption h4,
    .step g1 (by decide) (by decide) g4 (step_of_toOption h4) .refl⟩

/-- Two publishers, 1 and 3, use the same message id. -/
def toyTwoPublish : List SrvEv := [.packet 1 (.publish ⟨5, 1, [⟨toyText 107 120, [42]⟩]⟩), .packet 3 (.publish ⟨5, 1, [⟨toyText 107 120, [43]⟩]⟩)]

/-- C83, violated: message ids are the publishers', and two of them with the same id make a reliable reader lose a message. It is told twice, and both times it
fetches the second message. Its log never holds the first one again. -/
theorem C83_same_id_violated : ∃ s b s', Spec.Day toySrv s b ∧ (∃ r ∈ b.subs, r.conn = 2 ∧ r.topic = [120]) ∧
    Srv.run toySrv s (toyTwoPublish ++ [.packet 2 (.receive 5), .packet 2 (.receive 5)]) = .ok s' ∧
    s'.out.filter (fun x => x.1 == 2) = s.out.filter (fun x => x.1 == 2) ++
      [(2, .notify 5), (2, .notify 5), (2, .pub ⟨5, 1, [⟨toyText 107 120, [43]⟩]⟩), (2, .pub ⟨5, 1, [⟨toyText 107 120, [43]⟩]⟩)] ∧
    (1, .acked 5) ∈ s'.out ∧ ∀ x ∈ s'.log, x.2 ≠ toyEnc (.pub ⟨5, 1, [⟨toyText 107 120, [42]⟩]⟩) := by
  have h : (dayRun toySrv toyDay {} {}).any (fun r => r.2.subs.any (fun x => x.conn == 2 && x.topic == [120]) &&
      ((r.1.run toySrv (toyTwoPublish ++ [.packet 2 (.receive 5), .packet 2 (.receive 5)])).toOption.any fun s' =>
        decide (s'.out.filter (fun x => x.1 == 2) = r.1.out.filter (fun x => x.1 == 2) ++
          [(2, .notify 5), (2, .notify 5), (2, .pub ⟨5, 1, [⟨toyText 107 120, [43]⟩]⟩), (2, .pub ⟨5, 1, [⟨toyText 107 120, [43]⟩]⟩)] ∧
          (1, .acked 5) ∈ s'.out ∧ ∀ x ∈ s'.log, x.2 ≠ toyEnc (.pub ⟨5, 1, [⟨toyText 107 120, [42]⟩]⟩)))) = true := by decide +kernel
  obtain ⟨r, h1, h2⟩ := (Option.any_eq_true _ _).1 h
  rw [Bool.and_eq_true] at h2
  obtain ⟨h2, h3⟩ := h2
  obtain ⟨s', h3, h4⟩ := (Option.any_eq_true _ _).1 h3
  obtain ⟨x, hx, hx2⟩ := List.any_eq_true.1 h2
  simp only [Bool.and_eq_true, beq_iff_eq] at hx2
  exact ⟨r.1, r.2, s', dayRun_sound .start h1, ⟨x, hx, hx2⟩, run_of_toOption h3, of_decide_eq_true h4⟩

/-- C83, violated: a reliable message published with the id zero is announced under another id than it is stored under. The reader asks for it, gets nothing and loses its connection. -/
theorem C83_id_zero_violated : ∃ s b s', Spec.Day toySrv s b ∧ (∃ r ∈ b.subs, r.conn = 2 ∧ r.topic = [120]) ∧
    Srv.run toySrv s [.packet 1 (.publish ⟨0, 1, [⟨toyText 107 120, [42]⟩]⟩), .packet 2 (.receive 1)] = .ok s' ∧
    s'.out.filter (fun x => x.1 == 2) = s.out.filter (fun x => x.1 == 2) ++ [(2, .notify 1)] ∧ (1, .acked 0) ∈ s'.out ∧
    (AMap.get s.conns 2).isSome = true ∧ AMap.get s'.conns 2 = none := by
  have h : (dayRun toySrv toyDay {} {}).any (fun r => r.2.subs.any (fun x => x.conn == 2 && x.topic == [120]) &&
      ((r.1.run toySrv [.packet 1 (.publish ⟨0, 1, [⟨toyText 107 120, [42]⟩]⟩), .packet 2 (.receive 1)]).toOption.any fun s' =>
        decide (s'.out.filter (fun x => x.1 == 2) = r.1.out.filter (fun x => x.1 == 2) ++ [(2, .notify 1)] ∧ (1, .acked 0) ∈ s'.out ∧
          (AMap.get r.1.conns 2).isSome = true ∧ AMap.get s'.conns 2 = none))) = true := by decide +kernel
  obtain ⟨r, h1, h2⟩ := (Option.any_eq_true _ _).1 h
  rw [Bool.and_eq_true] at h2
  obtain ⟨h2, h3⟩ := h2
  obtain ⟨s', h3, h4⟩ := (Option.any_eq_true _ _).1 h3
  obtain ⟨x, hx, hx2⟩ := List.any_eq_true.1 h2
  simp only [Bool.and_eq_true, beq_iff_eq] at hx2
  exact ⟨r.1, r.2, s', dayRun_sound .start h1, ⟨x, hx, hx2⟩, run_of_toOption h3, of_decide_eq_true h4⟩

/-- C83, violated: a packet with a delivery mode of 3 or more is acknowledged and reaches no one. -/
theorem C83_mode_violated (v : SrvEnv) (hv : v.Sane) (hm : v.mac.cipher.Strips) (s : Srv) (b : Spec.Desk) (h : Spec.Day v s b) (p : UInt32)
    (k : UInt32) (insecure : Bool) (hp : AMap.get b.roll p = some (k, insecure)) (pub : DPub) (hmid : pub.mid ≠ 0) (hms : ∀ m ∈ pub.msgs, Spec.Allowed v k insecure m)
    (hmode : 3 ≤ pub.mode) : ∃ s', s.step v (.packet p (.publish pub)) = .ok s' ∧ s'.out = s.out ++ [(p, .acked pub.mid)] := by
  obtain ⟨s', h1, h2, _⟩ := C83_sent_partial v hv hm s b h p k insecure hp pub hmid hms
  refine ⟨s', h1, ?_⟩
  have hno : ∀ m r, Spec.sends pub m r = [] := by
    intro m r
    have h0 : pub.mode ≠ 0 := by rintro e; rw [e] at hmode; exact absurd hmode (by decide)
    have h1 : pub.mode ≠ 1 := by rintro e; rw [e] at hmode; exact absurd hmode (by decide)
    have h2 : pub.mode ≠ 2 := by rintro e; rw [e] at hmode; exact absurd hmode (by decide)
    simp [Spec.sends, Spec.kept, Spec.direct, h0, h1, h2]
  have : pub.msgs.flatMap (Spec.reached v b k (Spec.sends pub)) = [] := by
    rw [List.flatMap_eq_nil_iff]
    intro m _
    simp only [Spec.reached]
    split
    · rfl
    · rw [List.flatMap_eq_nil_iff]; intro r _; exact hno _ r
  rw [h2, this, List.append_nil]

/-- C83, violated: subscriptions beyond the limit of a query (options.go:171: 1000) get nothing. `q` subscribed to the topic, and the newer subscriptions reach the limit. -/
theorem C83_limit_violated (v : SrvEnv) (hv : v.Sane) (hm : v.mac.cipher.Strips) (s : Srv) (b : Spec.Desk) (h : Spec.Day v s b) (p : UInt32)
    (k : UInt32) (insecure : Bool) (hp : AMap.get b.roll p = some (k, insecure)) (mid : UInt16) (hmid : mid ≠ 0) (mode : UInt8) (m : DMsg) (hms : Spec.Allowed v k insecure m)
    (t : ReqTopic) (ht : parseRequest m.topic = some t) (r : Spec.Sub) (_hr : r ∈ b.subscribed v k t.topic) (hnew : ∀ r' ∈ (b.subscribed v k t.topic).take v.limit, r'.conn ≠ r.conn)
    (hne : r.conn ≠ p) :
    ∃ s', s.step v (.packet p (.publish ⟨mid, mode, [m]⟩)) = .ok s' ∧ s'.out.filter (fun x => x.1 == r.conn) = s.out.filter (fun x => x.1 == r.conn) := by
  obtain ⟨s', h1, h2, _⟩ := C83_sent_partial v hv hm s b h p k insecure hp ⟨mid, mode, [m]⟩ hmid (by simpa using hms)
  refine ⟨s', h1, ?_⟩
  rw [h2, List.filter_append, List.filter_append]
  have e1 : ([m].flatMap (Spec.reached v b k (Spec.sends ⟨mid, mode, [m]⟩))).filter (fun x => x.1 == r.conn) = [] := by
    rw [List.filter_eq_nil_iff]
    intro x hx
    simp only [List.flatMap_cons, List.flatMap_nil, List.append_nil, Spec.reached, ht] at hx
    obtain ⟨r', hr', hx⟩ := List.mem_flatMap.1 hx
    have hc : x.1 = r'.conn := by
      simp only [Spec.sends] at hx
      split at hx
      · simp only [List.mem_singleton] at hx; rw [hx]
      · split at hx
        · simp only [List.mem_singleton] at hx; rw [hx]
        · simp at hx
    rw [hc]
    simpa using hnew r' hr'
  have hne' : ¬ p = r.conn := fun e => hne e.symm
  rw [e1]
  simp [hne']

/-- A server that returns one subscription a query, and a reader that comes after another one. -/
example : ∃ s b r, Spec.Day { toySrv with limit := 1 } s b ∧ AMap.get b.roll 1 = some (7, true) ∧ Spec.Allowed { toySrv with limit := 1 } 7 true ⟨toyText 107 120, [42]⟩ ∧
    r ∈ b.subscribed { toySrv with limit := 1 } 7 [120] ∧ (∀ r' ∈ (b.subscribed { toySrv with limit := 1 } 7 [120]).take 1, r'.conn ≠ r.conn) ∧ r.conn ≠ 1 := by
  have h : (dayRun { toySrv with limit := 1 } toyDay4 {} {}).any (fun x => decide (AMap.get x.2.roll 1 = some (7, true)) && (x.2.subscribed { toySrv with limit := 1 } 7 [120]).any fun r =>
      decide ((∀ r' ∈ (x.2.subscribed { toySrv with limit := 1 } 7 [120]).take 1, r'.conn ≠ r.conn) ∧ r.conn ≠ 1)) = true := by decide +kernel
  obtain ⟨x, h1, h2⟩ := (Option.any_eq_true _ _).1 h
  rw [Bool.and_eq_true] at h2
  obtain ⟨h2, h3⟩ := h2
  obtain ⟨r, hr, h4⟩ := List.any_eq_true.1 h3
  obtain ⟨g1, g2⟩ := of_decide_eq_true h4
  exact ⟨x.1, x.2, r, dayRun_sound .start h1, of_decide_eq_true h2, by decide +kernel, hr, g1, g2⟩

end Verif
