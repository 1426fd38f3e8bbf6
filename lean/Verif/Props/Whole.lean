import Verif.Model.Whole
import Verif.Props.MsgStore
import Verif.Props.ProtoLog

/-!
# C98: a server with its database does what the server with an ideal table does
-/

namespace Verif

/-! ## Calls that go well -/

/-- The database after these calls, newest first. -/
def Db.since (x : WholeEnv) (s0 : Db) : List StoreCall → Db
  | [] => s0
  | c :: l => (Db.since x s0 l).called x c

/-- Calls for which the database keeps what C97 promises, newest first, with what was stored, what is still in memory, what was in memory when a Sync
came after a Get had looked there, and whether no Get has: subscriptions are accepted, messages are accepted or refused as the environment of the server says,
nothing is deleted, what is looked for meets `Spec.Seeks`, and subscriptions have not expired and fit the limit. -/
inductive Spec.Fluent (x : WholeEnv) (s0 : Db) : List StoreCall → List Spec.Post → List Spec.Post → List Spec.Post → Bool → Prop
  | start : Spec.Fluent x s0 [] [] [] [] true
  | draw {l ps wait spoilt quiet} (now) : Spec.Fluent x s0 l ps wait spoilt quiet → (Db.since x s0 l).seq.toNat < 255 * 524287 →
      Spec.Fluent x s0 (.draw now :: l) ps wait spoilt quiet
  | putSub {l ps wait spoilt quiet} (now t k n id topic payload) : Spec.Fluent x s0 l ps wait spoilt quiet → id = newID t n →
      (Db.since x s0 l).seq.toNat < 255 * 524287 → Spec.Fresh x.db (Db.since x s0 l) (ps.map (·.entry.1)) (subscriptionEntry k id topic payload) → Spec.Era t →
      ((Db.since x s0 l).putEntry x.db now (subscriptionEntry k id topic payload)).2.2 = .ok →
      Spec.Fluent x s0 (.putSub now k id topic payload :: l) (ps ++ [Spec.postedSub x.db now k id topic payload t])
        (wait ++ [Spec.postedSub x.db now k id topic payload t]) spoilt quiet
  | putMsg {l ps wait spoilt quiet} (made now k topic payload ttl) : Spec.Fluent x s0 l ps wait spoilt quiet → x.srv.puts topic payload = .stored →
      (Db.since x s0 l).seq.toNat < 255 * 524287 → Spec.Fresh x.db (Db.since x s0 l) (ps.map (·.entry.1)) (messageEntry x.db.dur made k topic payload ttl) →
      Spec.Era (unixSec now) → ((Db.since x s0 l).putEntry x.db now (messageEntry x.db.dur made k topic payload ttl)).2.2 = .ok →
      Spec.Fluent x s0 (.putMsg made now k topic payload ttl :: l) (ps ++ [Spec.postedMsg x.db made now (Db.since x s0 l) k topic payload ttl])
        (wait ++ [Spec.postedMsg x.db made now (Db.since x s0 l) k topic payload ttl]) spoilt quiet
  | refused {l ps wait spoilt quiet} (made now k topic payload ttl e) : Spec.Fluent x s0 l ps wait spoilt quiet → x.srv.puts topic payload = .refused →
      (Db.since x s0 l).seq.toNat < 255 * 524287 → ((Db.since x s0 l).putEntry x.db now (messageEntry x.db.dur made k topic payload ttl)).2.2 = .err e →
      Spec.Fluent x s0 (.putMsg made now k topic payload ttl :: l) ps wait spoilt quiet
  | getSubs {l ps wait spoilt quiet} (made g k topic) : Spec.Fluent x s0 l ps wait spoilt quiet → Spec.Seeks x.db (Db.since x s0 l) ps spoilt g true k topic →
      (∀ p ∈ ps, p.sub = true → p.contract = k → Spec.covers (Spec.topicText p.topic) topic = true → p.alive (toU32 (unixSec g.now)) = true) →
      (ps.filter fun p => p.sub && p.contract == k && Spec.covers (Spec.topicText p.topic) topic).length ≤ x.srv.limit →
      Spec.Fluent x s0 (.getSubs made g k topic :: l) ps wait spoilt (quiet && wait.isEmpty)
  | getMsgs {l ps wait spoilt quiet} (made g k topic last) : Spec.Fluent x s0 l ps wait spoilt quiet → Spec.Seeks x.db (Db.since x s0 l) ps spoilt g false k topic →
      Spec.Fluent x s0 (.getMsgs made g k topic last :: l) ps wait spoilt (quiet && wait.isEmpty)
  | rotate {l ps wait spoilt quiet} (t) : Spec.Fluent x s0 l ps wait spoilt quiet → (Db.since x s0 l).mem.cur ≤ t →
      Spec.Fluent x s0 (.rotate t :: l) ps wait spoilt (quiet || (wait.isEmpty && decide ((Db.since x s0 l).mem.cur < t)))
  | write {l ps wait spoilt quiet} (id t) : Spec.Fluent x s0 l ps wait spoilt quiet → Spec.Fluent x s0 (.write id t :: l) ps wait spoilt quiet
  | sync {l ps wait spoilt quiet s' r} (e : SyncEnv) : Spec.Fluent x s0 l ps wait spoilt quiet → 0 ≤ e.now.toInt → (∀ p ∈ ps, p.second ≤ e.now.toInt) →
      (∀ m, (e.order m).Perm m) → (Db.since x s0 l).winFile.length + 8192 * (Db.since x s0 l).pending + 8192 ≤ 2 ^ 31 →
      (Db.since x s0 l).sync e = some (s', r) →
      Spec.Fluent x s0 (.sync e :: l) ps (if s'.pending = 0 then [] else wait) (if quiet then spoilt else spoilt ++ wait) quiet

/-- The calls of a history went well. -/
def Spec.Well (x : WholeEnv) (s0 : Db) (l : List StoreCall) : Prop := ∃ ps wait spoilt quiet, Spec.Fluent x s0 l ps wait spoilt quiet

theorem Spec.Well.tail {x : WholeEnv} {s0 : Db} {c : StoreCall} {l : List StoreCall} (h : Spec.Well x s0 (c :: l)) : Spec.Well x s0 l := by
  obtain ⟨ps, wait, spoilt, quiet, h⟩ := h
  cases h <;> exact ⟨_, _, _, _, ‹_›⟩

theorem Spec.Well.suffix {x : WholeEnv} {s0 : Db} {l l' : List StoreCall} (h : Spec.Well x s0 l') (hs : l <:+ l') : Spec.Well x s0 l := by
  obtain ⟨t, rfl⟩ := hs
  induction t with
  | nil => exact h
  | cons c t ih => exact ih h.tail

/-- Such calls are a history of C97. -/
theorem fluent_mail {x : WholeEnv} {s0 : Db} (h0 : Spec.Mail x.db x.ok s0 [] [] [] true) {l : List StoreCall} {ps wait spoilt : List Spec.Post} {quiet : Bool}
    (h : Spec.Fluent x s0 l ps wait spoilt quiet) : Spec.Mail x.db x.ok (Db.since x s0 l) ps wait spoilt quiet := by
  induction h with
  | start => exact h0
  | draw now _ h1 ih => exact .newId now ih h1
  | putSub now t k n id topic payload _ hid h1 h2 h3 h4 ih =>
    subst hid
    exact .subscribe now t k n topic payload ih h1 h2 h3 h4
  | putMsg made now k topic payload ttl _ _ h1 h2 h3 h4 ih => exact .publish made now k topic payload ttl ih h1 h2 h3 h4
  | refused made now k topic payload ttl e _ _ h1 h2 ih => exact .refused now _ e ih h1 h2
  | getSubs made g k topic _ _ _ _ ih => exact .subscriptions made g k topic ih
  | getMsgs made g k topic last _ _ ih => exact .messages made g k topic last ih
  | rotate t _ h1 ih => exact .rotate t ih h1
  | write id t _ ih => exact .write id t ih
  | @sync l ps wait spoilt quiet s' r e _ h1 h2 h3 h4 h5 ih =>
    have := ih.sync e h1 h2 h3 h4 h5
    simpa only [Db.since, Db.called, h5] using this

/-! ## The server and its database agree -/

/-- The subscriptions the server has stored are those in the database, and the newer they are the higher their sequences. -/
structure Agrees (w : Whole) (ps : List Spec.Post) : Prop where
  order : ps.Pairwise (fun a b => a.seq < b.seq)
  last : ∀ p ∈ ps, p.seq ≤ w.db.seq
  stored : (ps.filter (·.sub)).reverse.map (fun p => (p.contract, p.topic, p.payload)) =
    w.srv.stored.map fun e => (e.2.contract, e.2.topic, writeSubscription e.2.mode e.2.conn e.2.delay)

structure Agree (x : WholeEnv) (s0 : Db) (w : Whole) : Prop where
  db : w.db = Db.since x s0 w.calls
  posts : ∀ ps wait spoilt quiet, Spec.Fluent x s0 w.calls ps wait spoilt quiet → Agrees w ps

theorem Agree.onSrv {x : WholeEnv} {s0 : Db} {w : Whole} (h : Agree x s0 w) {s : Srv} (hs : s.stored = w.srv.stored) : Agree x s0 { w with srv := s } :=
  ⟨h.db, fun ps wait spoilt quiet H => let a := h.posts ps wait spoilt quiet H; ⟨a.order, a.last, by rw [a.stored, hs]⟩⟩

/-- From `w` to `w'` calls were made; if they went well, then the server did what it does with an ideal table. -/
def Follows (x : WholeEnv) (s0 : Db) (w w' : Whole) (r : SrvM Srv) : Prop :=
  w.calls <:+ w'.calls ∧ (Agree x s0 w → Spec.Well x s0 w'.calls → r = .ok w'.srv ∧ Agree x s0 w')

theorem Follows.refl (x : WholeEnv) (s0 : Db) (w : Whole) : Follows x s0 w w (.ok w.srv) := ⟨List.suffix_refl _, fun h _ => ⟨rfl, h⟩⟩

theorem Follows.trans {x : WholeEnv} {s0 : Db} {w w1 w2 : Whole} {r : SrvM Srv} {f : Srv → SrvM Srv} (h : Follows x s0 w w1 r) (k : Follows x s0 w1 w2 (f w1.srv)) :
    Follows x s0 w w2 (r.bind f) := by
  refine ⟨h.1.trans k.1, fun ha hw => ?_⟩
  obtain ⟨e1, a1⟩ := h.2 ha (hw.suffix k.1)
  obtain ⟨e2, a2⟩ := k.2 a1 hw
  exact ⟨by rw [e1]; exact e2, a2⟩

theorem Follows.onSrv {x : WholeEnv} {s0 : Db} {w w' : Whole} {f : Srv → SrvM Srv} (h : w.onSrv f = .ok w') (hs : ∀ s, f w.srv = .ok s → s.stored = w.srv.stored) :
    Follows x s0 w w' (f w.srv) := by
  simp only [Whole.onSrv] at h
  cases hf : f w.srv with
  | error => rw [hf] at h; cases h
  | ok s =>
    rw [hf] at h
    injection h with h
    subst h
    exact ⟨List.suffix_refl _, fun ha _ => ⟨rfl, ha.onSrv (hs s hf)⟩⟩

theorem Follows.fold {x : WholeEnv} {s0 : Db} {α : Type} {f : Whole → α → SrvM Whole} {g : Srv → α → SrvM Srv}
    (hf : ∀ w a w', f w a = .ok w' → Follows x s0 w w' (g w.srv a)) (l : List α) :
    ∀ {w w' : Whole}, SrvM.fold f w l = .ok w' → Follows x s0 w w' (SrvM.fold g w.srv l) := by
  induction l with
  | nil =>
    intro w w' h
    simp only [SrvM.fold] at h
    injection h with h; subst h
    exact .refl x s0 w
  | cons a l ih =>
    intro w w' h
    simp only [SrvM.fold] at h ⊢
    cases h1 : f w a with
    | error => rw [h1] at h; cases h
    | ok w1 =>
      rw [h1] at h
      exact (hf w a w1 h1).trans (f := fun s => SrvM.fold g s l) (ih h)

/-! ## Looking for subscriptions -/

theorem readSubscriptions_write (l : List SubEntry) :
    readSubscriptions (l.map fun e => writeSubscription e.mode e.conn e.delay) = some (l.map fun e => ⟨0, [], e.mode, e.conn, e.delay⟩) := by
  induction l with
  | nil => rfl
  | cons e l ih => simp only [List.map_cons, readSubscriptions, readSubscription_write, Option.bind_some, ih, Option.map_some]

theorem fold_bare (v : SrvEnv) (p : UInt32) (pub : DPub) (m : DMsg) (l : List SubEntry) : ∀ a : UInt16 × Srv,
    SrvM.fold (Srv.deliver v p pub m) a (l.map fun e => ⟨0, [], e.mode, e.conn, e.delay⟩) = SrvM.fold (Srv.deliver v p pub m) a l := by
  induction l with
  | nil => intro a; rfl
  | cons e l ih =>
    intro a
    simp only [List.map_cons, SrvM.fold]
    rw [show Srv.deliver v p pub m a ⟨0, [], e.mode, e.conn, e.delay⟩ = Srv.deliver v p pub m a e from rfl]
    cases Srv.deliver v p pub m a e with
    | error => rfl
    | ok b => exact ih b

theorem map_filter_of_map {α β γ : Type} {f : α → γ} {g : β → γ} {P : α → Bool} {Q : β → Bool} {R : γ → Bool} (hP : ∀ a, P a = R (f a)) (hQ : ∀ b, Q b = R (g b))
    {l : List α} {l' : List β} (h : l.map f = l'.map g) : (l.filter P).map f = (l'.filter Q).map g := by
  have e1 : (l.filter P).map f = (l.map f).filter R := by
    rw [List.filter_map]; congr 1; apply List.filter_congr; intro a _; exact hP a
  have e2 : (l'.filter Q).map g = (l'.map g).filter R := by
    rw [List.filter_map]; congr 1; apply List.filter_congr; intro a _; exact hQ a
  rw [e1, e2, h]

/-- What the database finds is what the table has. -/
theorem whole_found {x : WholeEnv} (hs : x.db.mac.cipher.Sound) (hde : ∀ b, x.db.decode (x.db.encode b) = some b) (htest : ∀ ks k, k ∈ ks → x.db.mem.test ks k = true)
    (hh : ∀ a b, x.srv.hits a b = Spec.covers (Spec.topicText a) b) {s0 : Db} (h0 : Spec.Mail x.db x.ok s0 [] [] [] true) {w : Whole} (ha : Agree x s0 w)
    (made : Int) (g : GetEnv) (k : UInt32) (topic : Bytes) (hw : Spec.Well x s0 (.getSubs made g k topic :: w.calls)) :
    (w.db.get x.db g (storeQuery x.db.dur x.ok made (k ^^^ connStoreId) topic []) []).2 =
      .out (.ok ((w.srv.matching x.srv k topic).map fun e => writeSubscription e.mode e.conn e.delay)) ∧
    Agree x s0 (w.did x (.getSubs made g k topic)) := by
  obtain ⟨ps, wait, spoilt, quiet, hw⟩ := hw
  cases hw with
  | @getSubs l ps wait spoilt quiet made g k topic H hseek hal hfew =>
  obtain ⟨hord, hlast, hst⟩ := ha.posts _ _ _ _ H
  have hM := fluent_mail h0 H
  rw [← ha.db] at hM hseek
  obtain ⟨out, e1, e2, e3⟩ := mail_get x.db hs hde htest x.ok w.db ps wait spoilt quiet hM made g true k topic [] hseek
  have e4 : ps.filter (fun p => p.sub == true && p.contract == k && Spec.covers (Spec.topicText p.topic) topic && p.alive (toU32 (unixSec g.now)) &&
      (decide (([] : Bytes) = [] ∨ x.ok [] = false) || decide (unixSec (made - x.db.dur []) ≤ 0 ∨ unixSec (made - x.db.dur []) ≤ p.second))) =
      (ps.filter (·.sub)).filter fun p => p.contract == k && Spec.covers (Spec.topicText p.topic) topic := by
    rw [List.filter_filter]
    apply List.filter_congr
    intro p hp
    have := hal p hp
    cases h1 : p.sub <;> cases h2 : (p.contract == k) <;> cases h3 : Spec.covers (Spec.topicText p.topic) topic <;> simp_all
  rw [e4] at e2
  have e5 : out = ((ps.filter (·.sub)).filter fun p => p.contract == k && Spec.covers (Spec.topicText p.topic) topic).reverse := by
    have hd : ((ps.filter (·.sub)).filter fun p => p.contract == k && Spec.covers (Spec.topicText p.topic) topic).reverse.Pairwise (fun a b => a.seq > b.seq) := by
      rw [List.pairwise_reverse]
      exact (hord.sublist ((List.filter_sublist).trans List.filter_sublist))
    exact (e2.trans (List.reverse_perm _).symm).eq_of_pairwise (le := fun a b => a.seq > b.seq) (fun a b _ _ h1 h2 => absurd h1 (by
      have h1 : b.seq.toNat < a.seq.toNat := h1
      have h2 : a.seq.toNat < b.seq.toNat := h2
      omega)) e3 hd
  have e6 : out.map (·.payload) = (w.srv.matching x.srv k topic).map fun e => writeSubscription e.mode e.conn e.delay := by
    have hm := map_filter_of_map (P := fun p : Spec.Post => p.contract == k && Spec.covers (Spec.topicText p.topic) topic)
      (Q := fun e : Nat × SubEntry => e.2.contract == k && Spec.covers (Spec.topicText e.2.topic) topic)
      (R := fun r => r.1 == k && Spec.covers (Spec.topicText r.2.1) topic) (fun _ => rfl) (fun _ => rfl) hst
    have hm2 := congrArg (List.map fun r : UInt32 × Bytes × Bytes => r.2.2) hm
    simp only [List.map_map, Function.comp_def] at hm2
    have hmatch : w.srv.matching x.srv k topic = (w.srv.stored.filter fun e => e.2.contract == k && Spec.covers (Spec.topicText e.2.topic) topic).map (·.2) := by
      simp only [Srv.matching, hh]
      rw [List.take_of_length_le]
      · rw [List.filter_map]; rfl
      · rw [List.filter_map, List.length_map]
        have := congrArg List.length hm
        rw [List.length_map, List.length_map, List.filter_reverse, List.length_reverse] at this
        refine Nat.le_trans (Nat.le_of_eq ?_) hfew
        rw [List.filter_filter] at this
        show (w.srv.stored.filter fun e => e.2.contract == k && Spec.covers (Spec.topicText e.2.topic) topic).length = _
        rw [← this]
        congr 1
        apply List.filter_congr
        intro p _
        cases p.sub <;> simp
    rw [e5, hmatch, ← List.filter_reverse, hm2, List.map_map]
    rfl
  constructor
  · have e1 : (w.db.get x.db g (storeQuery x.db.dur x.ok made (k ^^^ connStoreId) topic []) []).2.payloads? = some (out.map (·.payload)) := e1
    rw [e6] at e1
    cases hg : (w.db.get x.db g (storeQuery x.db.dur x.ok made (k ^^^ connStoreId) topic []) []).2 with
    | err e => rw [hg] at e1; cases e1
    | out o =>
      rw [hg] at e1
      cases o with
      | ok items => injection e1 with e1; rw [e1]
      | err _ => cases e1
      | panic => cases e1
      | running => cases e1
  · refine ⟨by rw [Whole.did]; simp only [Db.since]; rw [← ha.db], ?_⟩
    intro ps' wait' spoilt' quiet' H'
    simp only [Whole.did] at H'
    cases H' with
    | getSubs _ _ _ _ H' =>
    obtain ⟨o', l', s'⟩ := ha.posts _ _ _ _ H'
    refine ⟨o', ?_, s'⟩
    intro p hp
    have : (w.did x (.getSubs made g k topic)).db.seq = w.db.seq := by
      simp only [Whole.did, Db.called, Db.getSubscriptions]
      rw [Db.get_fields]
    rw [this]
    exact l' p hp

/-- What the database finds are the messages that were stored. -/
theorem whole_messages {x : WholeEnv} (hs : x.db.mac.cipher.Sound) (hde : ∀ b, x.db.decode (x.db.encode b) = some b) (htest : ∀ ks k, k ∈ ks → x.db.mem.test ks k = true)
    {s0 : Db} (h0 : Spec.Mail x.db x.ok s0 [] [] [] true) {w : Whole} (ha : Agree x s0 w)
    (made : Int) (g : GetEnv) (k : UInt32) (topic last : Bytes) (hw : Spec.Well x s0 (.getMsgs made g k topic last :: w.calls)) :
    (∃ (ps wait spoilt : List Spec.Post) (quiet : Bool) (out : List Spec.Post), Spec.Fluent x s0 w.calls ps wait spoilt quiet ∧
      (w.db.get x.db g (storeQuery x.db.dur x.ok made k topic last) []).2 = .out (.ok (out.map (·.payload))) ∧
      out.Perm (ps.filter fun p => !p.sub && p.contract == k && Spec.covers (Spec.topicText p.topic) topic && p.alive (toU32 (unixSec g.now)) &&
        (decide (last = [] ∨ x.ok last = false) || decide (unixSec (made - x.db.dur last) ≤ 0 ∨ unixSec (made - x.db.dur last) ≤ p.second))) ∧
      out.Pairwise (fun a b => a.seq > b.seq)) ∧
    Agree x s0 (w.did x (.getMsgs made g k topic last)) := by
  obtain ⟨ps, wait, spoilt, quiet, hw⟩ := hw
  cases hw with
  | @getMsgs l ps wait spoilt quiet made g k topic last H hseek =>
  have hM := fluent_mail h0 H
  rw [← ha.db] at hM hseek
  obtain ⟨out, e1, e2, e3⟩ := mail_get x.db hs hde htest x.ok w.db ps wait spoilt quiet hM made g false k topic last hseek
  constructor
  · refine ⟨ps, wait, spoilt, quiet, out, H, ?_, e2.trans (List.Perm.of_eq (List.filter_congr fun p _ => by cases hsub : p.sub <;> simp [hsub])), e3⟩
    have e1 : (w.db.get x.db g (storeQuery x.db.dur x.ok made k topic last) []).2.payloads? = some (out.map (·.payload)) := e1
    cases hg : (w.db.get x.db g (storeQuery x.db.dur x.ok made k topic last) []).2 with
    | err e => rw [hg] at e1; cases e1
    | out o =>
      rw [hg] at e1
      cases o with
      | ok items => injection e1 with e1; rw [e1]
      | err _ => cases e1
      | panic => cases e1
      | running => cases e1
  · refine ⟨by rw [Whole.did]; simp only [Db.since]; rw [← ha.db], ?_⟩
    intro ps' wait' spoilt' quiet' H'
    simp only [Whole.did] at H'
    cases H' with
    | getMsgs _ _ _ _ _ H' =>
    obtain ⟨o', l', s'⟩ := ha.posts _ _ _ _ H'
    refine ⟨o', ?_, s'⟩
    intro p hp
    have : (w.did x (.getMsgs made g k topic last)).db.seq = w.db.seq := by
      simp only [Whole.did, Db.called, Db.getMessages]
      rw [Db.get_fields]
    rw [this]
    exact l' p hp

/-! ## The handlers -/

theorem putEntry_ok_seq {v : DbEnv} {now : Int} {s : Db} {o : Obj} (h : (s.putEntry v now o).2.2 = .ok) (hid : o.id = none) : (s.putEntry v now o).1.seq = s.seq + 1 := by
  cases hse : s.setEntry v now o with
  | none =>
    simp only [Db.putEntry, hse] at h
    split at h
    · cases h
    · split at h <;> cases h
  | some y =>
    obtain ⟨s1, o1, h1, c1⟩ := y
    have hse' := hse
    simp only [Db.setEntry, Option.map_eq_some_iff, Prod.mk.injEq] at hse'
    obtain ⟨⟨s2, h2, c2⟩, hp, rfl, _, rfl, _⟩ := hse'
    obtain ⟨e1, e2, _⟩ := Db.packEntry_fields hp
    rw [Db.parseEntry_id] at e1 e2
    rw [Db.putEntry_seq h hse, e1]; simp [hid]

section Handlers

variable {x : WholeEnv} (hs : x.db.mac.cipher.Sound) (hde : ∀ b, x.db.decode (x.db.encode b) = some b) (htest : ∀ ks k, k ∈ ks → x.db.mem.test ks k = true)
  (hh : ∀ a b, x.srv.hits a b = Spec.covers (Spec.topicText a) b) {s0 : Db} (h0 : Spec.Mail x.db x.ok s0 [] [] [] true)

include hs hde htest hh h0 in
theorem publish_follows {w w' : Whole} {p : UInt32} {c : SrvConn} {pub : DPub} {t : ReqTopic} {payload : Bytes} (h : w.publish x p c pub t payload = .ok w') :
    Follows x s0 w w' (w.srv.publish x.srv p c pub t payload) := by
  simp only [Whole.publish, Srv.publish] at h ⊢
  cases hk : c.contract with
  | error => rw [hk] at h; cases h
  | ok k =>
  rw [hk] at h
  simp only [Except.bind] at h ⊢
  have hcalls : w'.calls = .getSubs (w.next x).made (w.next x).g k t.topic :: w.calls := by
    split at h
    · split at h
      · cases h
      · next l _ =>
        cases hf : SrvM.fold (Srv.deliver x.srv p pub ⟨t.topic.take t.size, payload⟩) (pub.mid, w.srv) l with
        | error => rw [hf] at h; cases h
        | ok r => rw [hf] at h; injection h with h; subst h; rfl
    · cases h
    · cases h
    · injection h with h; subst h; rfl
  refine ⟨by rw [hcalls]; exact List.suffix_cons _ _, fun ha hw => ?_⟩
  rw [hcalls] at hw
  obtain ⟨e1, a1⟩ := whole_found hs hde htest hh h0 ha _ _ _ _ hw
  rw [e1] at h
  simp only [readSubscriptions_write, fold_bare] at h
  cases hf : SrvM.fold (Srv.deliver x.srv p pub ⟨t.topic.take t.size, payload⟩) (pub.mid, w.srv) (w.srv.matching x.srv k t.topic) with
  | error => rw [hf] at h; cases h
  | ok r =>
    rw [hf] at h
    injection h with h
    subst h
    refine ⟨rfl, a1.onSrv ?_⟩
    exact (SrvM.fold_inv (fun a : UInt16 × Srv => a.2.stored = w.srv.stored) (fun a b r _ ha hd => (Srv.deliver_calm hd).stored.trans ha) rfl hf)

theorem putMsg_agrees {w : Whole} (ha : Agree x s0 w) {made now : Int} {k : UInt32} {topic payload ttl : Bytes}
    (hw : Spec.Well x s0 (.putMsg made now k topic payload ttl :: w.calls)) :
    ((w.db.putEntry x.db now (messageEntry x.db.dur made k topic payload ttl)).2.2 = .ok ∧ x.srv.puts topic payload = .stored ∨
      (∃ e, (w.db.putEntry x.db now (messageEntry x.db.dur made k topic payload ttl)).2.2 = .err e) ∧ x.srv.puts topic payload = .refused) ∧
    Agree x s0 (w.did x (.putMsg made now k topic payload ttl)) := by
  refine ⟨?_, by simp only [Whole.did, Db.since]; rw [← ha.db], ?_⟩
  · obtain ⟨ps, wait, spoilt, quiet, hw⟩ := hw
    cases hw with
    | putMsg _ _ _ _ _ _ _ hp _ _ _ hok => rw [← ha.db] at hok; exact .inl ⟨hok, hp⟩
    | refused _ _ _ _ _ _ e _ hp _ herr => rw [← ha.db] at herr; exact .inr ⟨⟨e, herr⟩, hp⟩
  · intro ps wait spoilt quiet H
    simp only [Whole.did] at H
    cases H with
    | putMsg _ _ _ _ _ _ H hp hb hf _ hok =>
      obtain ⟨o, l, st⟩ := ha.posts _ _ _ _ H
      rw [← ha.db] at hok hb ⊢
      have hseq := putEntry_ok_seq hok rfl
      have hlt : ∀ p : Spec.Post, p.seq ≤ w.db.seq → p.seq < w.db.seq + 1 := by
        intro p hp
        rw [UInt64.lt_iff_toNat_lt, UInt64.toNat_add]
        rw [UInt64.le_iff_toNat_le] at hp
        have : (1 : UInt64).toNat = 1 := rfl
        omega
      refine ⟨?_, ?_, ?_⟩
      · rw [List.pairwise_append]
        refine ⟨o, List.pairwise_singleton _ _, ?_⟩
        intro a ha' b hb'
        rw [List.mem_singleton] at hb'
        subst hb'
        exact hlt a (l a ha')
      · intro p hp'
        show p.seq ≤ (w.db.called x _).seq
        simp only [Db.called]
        rw [hseq]
        rcases List.mem_append.1 hp' with hp' | hp'
        · exact UInt64.le_of_lt (hlt p (l p hp'))
        · rw [List.mem_singleton] at hp'
          subst hp'
          exact UInt64.le_refl _
      · rw [List.filter_append]
        simp only [Spec.postedMsg, List.filter_cons, List.filter_nil, Bool.false_eq_true, if_false, List.append_nil]
        exact st
    | refused _ _ _ _ _ _ e H hp hb herr =>
      obtain ⟨o, l, st⟩ := ha.posts _ _ _ _ H
      refine ⟨o, ?_, st⟩
      intro p hp'
      rw [← ha.db] at hb
      show p.seq ≤ (w.db.called x _).seq
      simp only [Db.called]
      have := l p hp'
      rcases (w.db.putEntry_fields x.db now (messageEntry x.db.dur made k topic payload ttl)).2.2.2.2.2.2.2 with e | ⟨e, _⟩
      · rw [e]; exact this
      · rw [e]
        rw [UInt64.le_iff_toNat_le] at this ⊢
        rw [UInt64.toNat_add]
        have : (1 : UInt64).toNat = 1 := rfl
        omega

include hs hde htest hh h0 in
theorem publishAll_follows {q : UInt32} {pub : DPub} (ms : List DMsg) : ∀ {w : Whole} {r : PubEnd × Whole}, w.publishAll x q pub ms = .ok r →
    w.calls <:+ r.2.calls ∧ (Agree x s0 w → Spec.Well x s0 r.2.calls → Srv.publishAll x.srv q pub ms w.srv = .ok (r.1, r.2.srv) ∧ Agree x s0 r.2) := by
  induction ms with
  | nil =>
    intro w r h
    simp only [Whole.publishAll] at h
    injection h with h; subst h
    exact ⟨List.suffix_refl _, fun ha _ => ⟨rfl, ha⟩⟩
  | cons m ms ih =>
    intro w r h
    have stay : ∀ {e : PubEnd}, (Except.ok (e, w) : SrvM (PubEnd × Whole)) = .ok r → Srv.publishAll x.srv q pub (m :: ms) w.srv = .ok (e, w.srv) →
        w.calls <:+ r.2.calls ∧ (Agree x s0 w → Spec.Well x s0 r.2.calls → Srv.publishAll x.srv q pub (m :: ms) w.srv = .ok (r.1, r.2.srv) ∧ Agree x s0 r.2) := by
      intro e h1 h2
      injection h1 with h1; subst h1
      exact ⟨List.suffix_refl _, fun ha _ => ⟨h2, ha⟩⟩
    simp only [Whole.publishAll] at h
    cases hc : AMap.get w.srv.conns q with
    | none =>
      rw [hc] at h
      exact stay h (by simp only [Srv.publishAll, hc])
    | some c =>
      rw [hc] at h
      cases ht : parseRequest m.topic with
      | none => rw [ht] at h; cases h
      | some t =>
      rw [ht] at h
      simp only at h
      by_cases hv : t.valid = true
      · by_cases hsp : t.key = specialKey
        · simp only [hv, Bool.not_true, Bool.false_eq_true, if_false, if_pos hsp] at h
          cases hsr : w.srv.special x.srv q c t m.payload with
          | error => rw [hsr] at h; cases h
          | ok s =>
            rw [hsr] at h
            injection h with h; subst h
            refine ⟨List.suffix_refl _, fun ha _ => ⟨?_, ha.onSrv (Srv.special_calm hsr).stored⟩⟩
            simp only [Srv.publishAll, hc, ht, hv, Bool.not_true, Bool.false_eq_true, if_false, if_pos hsp, hsr]
            rfl
        · simp only [hv, Bool.not_true, Bool.false_eq_true, if_false, if_neg hsp] at h
          cases hg : c.check t with
          | error => rw [hg] at h; cases h
          | ok g =>
          rw [hg] at h
          simp only [Except.bind] at h
          have hS : Srv.publishAll x.srv q pub (m :: ms) w.srv = match (generalizing := false) g with
              | .granted true => .ok (.failed .forbidden, w.srv)
              | .granted false => c.contract.bind fun _ =>
                  match x.srv.puts t.topic m.payload with
                  | .stored => (w.srv.publish x.srv q c pub t m.payload).bind fun s => Srv.publishAll x.srv q pub ms s
                  | .refused => .ok (.refused, w.srv)
                  | .panics => .error .panic
              | e => .ok (.failed e, w.srv) := by
            simp only [Srv.publishAll, hc, ht, hv, Bool.not_true, Bool.false_eq_true, if_false, if_neg hsp, hg, Except.bind]
            rfl
          cases g with
          | badRequest => exact stay h hS
          | unauthorized => exact stay h hS
          | forbidden => exact stay h hS
          | granted wild =>
            cases wild with
            | true => exact stay h hS
            | false =>
              simp only at h hS
              cases hk : c.contract with
              | error => rw [hk] at h; cases h
              | ok k =>
              rw [hk] at h hS
              simp only at h
              rw [hS]
              simp only [Except.bind]
              cases hout : (w.db.putEntry x.db (w.next x).now (messageEntry x.db.dur (w.next x).made k t.topic m.payload (w.next x).ttl)).2.2 with
              | panic => rw [hout] at h; cases h
              | hang => rw [hout] at h; cases h
              | err e =>
                rw [hout] at h
                injection h with h; subst h
                refine ⟨List.suffix_cons _ _, fun ha hw => ?_⟩
                obtain ⟨hp, a1⟩ := putMsg_agrees ha hw
                refine ⟨?_, a1⟩
                rcases hp with ⟨e1, _⟩ | ⟨_, e2⟩
                · rw [hout] at e1; cases e1
                · rw [e2]; rfl
              | ok =>
                rw [hout] at h
                simp only at h
                cases hp : (w.did x (.putMsg (w.next x).made (w.next x).now k t.topic m.payload (w.next x).ttl)).publish x q c pub t m.payload with
                | error => rw [hp] at h; cases h
                | ok w1 =>
                  rw [hp] at h
                  simp only at h
                  obtain ⟨g1, g2⟩ := publish_follows hs hde htest hh h0 hp
                  obtain ⟨i1, i2⟩ := ih h
                  refine ⟨(List.suffix_cons _ _).trans (g1.trans i1), fun ha hw => ?_⟩
                  obtain ⟨hp', a1⟩ := putMsg_agrees ha (hw.suffix (g1.trans i1))
                  obtain ⟨j1, a2⟩ := g2 a1 (hw.suffix i1)
                  obtain ⟨j2, a3⟩ := i2 a2 hw
                  refine ⟨?_, a3⟩
                  rcases hp' with ⟨_, e2⟩ | ⟨⟨_, e1⟩, _⟩
                  · rw [e2]
                    simp only
                    rw [show w.srv.publish x.srv q c pub t m.payload = .ok w1.srv from j1]
                    exact j2
                  · rw [hout] at e1; cases e1
      · simp only [hv, Bool.not_false, if_true] at h
        exact stay h (by simp only [Srv.publishAll, hc, ht, hv, Bool.not_false, if_true])

include hs hde htest hh h0 in
theorem onPublish_follows {w w' : Whole} {q : UInt32} {pub : DPub} (h : w.onPublish x q pub = .ok w') : Follows x s0 w w' (w.srv.onPublish x.srv q pub) := by
  simp only [Whole.onPublish] at h
  cases hp : w.publishAll x q pub pub.msgs with
  | error => rw [hp] at h; cases h
  | ok r =>
  rw [hp] at h
  simp only [Except.bind] at h
  obtain ⟨g1, g2⟩ := publishAll_follows hs hde htest hh h0 _ hp
  obtain ⟨e, w1⟩ := r
  have fin : Follows x s0 w1 w' (match (generalizing := false) e with
    | .acked => .ok (w1.srv.emit q (.acked pub.mid))
    | .silent => .ok w1.srv
    | .refused => (w1.srv.sendMessage x.srv q 0 0 0 ⟨errorTopic, x.srv.putError pub.mid⟩).map (·.2)
    | .failed e => w1.srv.notifyError x.srv q e pub.mid) := by
    cases e with
    | acked => simp only at h ⊢; injection h with h; subst h; exact ⟨List.suffix_refl _, fun ha _ => ⟨rfl, ha.onSrv rfl⟩⟩
    | silent => simp only at h ⊢; injection h with h; subst h; exact .refl x s0 w1
    | refused =>
      refine Follows.onSrv (f := fun s => (s.sendMessage x.srv q 0 0 0 ⟨errorTopic, x.srv.putError pub.mid⟩).map (·.2)) h fun s hf => ?_
      cases hm : w1.srv.sendMessage x.srv q 0 0 0 ⟨errorTopic, x.srv.putError pub.mid⟩ with
      | error => simp only [hm] at hf; cases hf
      | ok r => simp only [hm] at hf; injection hf with hf; subst hf; exact (Srv.sendMessage_calm hm).stored
    | failed e => exact Follows.onSrv (f := fun s => s.notifyError x.srv q e pub.mid) h fun s hf => (Srv.notifyError_calm hf).stored
  refine ⟨g1.trans fin.1, fun ha hw => ?_⟩
  obtain ⟨e1, a1⟩ := g2 ha (hw.suffix fin.1)
  obtain ⟨e2, a2⟩ := fin.2 a1 hw
  refine ⟨?_, a2⟩
  simp only [Srv.onPublish, e1, Except.bind]
  exact e2

theorem subscribeTo_follows {w : Whole} {q : UInt32} {mid : UInt16} {c : SrvConn} {t : ReqTopic} {a : SubAsk} {r : Option Bytes × Whole}
    (h : w.subscribeTo x q mid c t a = .ok r) : w.calls <:+ r.2.calls ∧ (Agree x s0 w → Spec.Well x s0 r.2.calls →
      ∃ e, w.srv.subscribeTo q c t a = .ok (e, r.2.srv) ∧ r.1 = e.map (x.srv.errorText · mid) ∧ Agree x s0 r.2) := by
  simp only [Whole.subscribeTo, Srv.subscribeTo] at h ⊢
  cases hk : c.contract with
  | error => rw [hk] at h; cases h
  | ok k =>
  rw [hk] at h
  simp only [Except.bind] at h ⊢
  cases hkey : subscribeKey k t with
  | none =>
    rw [hkey] at h
    injection h with h; subst h
    exact ⟨List.suffix_refl _, fun ha _ => ⟨_, rfl, rfl, ha⟩⟩
  | some key =>
  rw [hkey] at h
  simp only at h ⊢
  generalize ((AMap.get c.subs key).getD ⟨w.srv.nextId, t.topic.take t.size, 0⟩) = st at h ⊢
  have hlt : ∀ (b : w.db.seq.toNat < 255 * 524287) (n : UInt64), n ≤ w.db.seq → n < w.db.seq + 1 := by
    intro b n hn
    rw [UInt64.lt_iff_toNat_lt, UInt64.toNat_add]
    rw [UInt64.le_iff_toNat_le] at hn
    have : (1 : UInt64).toNat = 1 := rfl
    omega
  by_cases h1 : st.counter + 1 = 1
  · simp only [h1, if_true] at h ⊢
    split at h
    · next hok =>
      injection h with h; subst h
      refine ⟨(List.suffix_cons _ _).trans (List.suffix_cons _ _), fun ha hw => ⟨none, rfl, rfl, ?_, ?_⟩⟩
      · simp only [Whole.did, Db.since, ← ha.db]
      · intro ps wait spoilt quiet H
        change Spec.Fluent x s0 (.putSub _ _ _ _ _ :: .draw _ :: w.calls) _ _ _ _ at H
        cases H with
        | putSub _ t' _ n _ _ _ H hid hb hf _ hok' =>
        cases H with
        | draw _ H hb' =>
        obtain ⟨o, l, s⟩ := ha.posts _ _ _ _ H
        rw [← ha.db] at hb'
        have hq : ∀ now, (Spec.postedSub x.db now k (w.db.newId (w.next x).now).2 t.topic (writeSubscription a.mode q a.delay) t').seq = w.db.seq + 1 := by
          intro now
          simp only [Spec.postedSub, Db.newId, idSequence_newID, Option.getD_some]
        have hseq : ∀ now id topic payload, (((w.db.newId (w.next x).now).1.putEntry x.db now (subscriptionEntry k id topic payload)).1).seq = w.db.seq + 1 := by
          intro now id topic payload
          rcases ((w.db.newId (w.next x).now).1.putEntry_fields x.db now (subscriptionEntry k id topic payload)).2.2.2.2.2.2.2 with e | ⟨_, e⟩
          · rw [e]; rfl
          · cases e
        refine ⟨?_, ?_, ?_⟩
        · rw [List.pairwise_append]
          refine ⟨o, List.pairwise_singleton _ _, ?_⟩
          intro y hy z hz
          rw [List.mem_singleton] at hz
          subst hz
          rw [hq]
          exact hlt hb' _ (l y hy)
        · intro p hp
          show p.seq ≤ (((w.db.newId (w.next x).now).1.putEntry x.db _ _).1).seq
          rw [hseq]
          rcases List.mem_append.1 hp with hp | hp
          · exact UInt64.le_of_lt (hlt hb' _ (l p hp))
          · rw [List.mem_singleton] at hp
            subst hp
            rw [hq]
            exact UInt64.le_refl _
        · rw [List.filter_append]
          simp only [Spec.postedSub, List.filter_cons, List.filter_nil, if_true, List.reverse_append, List.reverse_cons, List.reverse_nil, List.nil_append,
            List.map_append, List.map_cons, List.map_nil, Srv.setConn]
          rw [s]
          rfl
    · next herr =>
      injection h with h; subst h
      refine ⟨(List.suffix_cons _ _).trans (List.suffix_cons _ _), fun ha hw => ?_⟩
      obtain ⟨ps, wait, spoilt, quiet, H⟩ := hw
      change Spec.Fluent x s0 (.putSub _ _ _ _ _ :: .draw _ :: w.calls) _ _ _ _ at H
      cases H with
      | putSub _ _ _ _ _ _ _ _ _ _ _ _ hok =>
      simp only [Db.since, ← ha.db, Whole.did] at hok
      simp only [Whole.did] at herr
      rw [hok] at herr
      cases herr
    · cases h
    · cases h
  · simp only [if_neg h1] at h ⊢
    injection h with h; subst h
    refine ⟨List.suffix_cons _ _, fun ha hw => ⟨none, rfl, rfl, ?_, ?_⟩⟩
    · simp only [Whole.did, Db.since, ← ha.db]
    · intro ps wait spoilt quiet H
      change Spec.Fluent x s0 (.draw _ :: w.calls) _ _ _ _ at H
      cases H with
      | draw _ H hb' =>
      obtain ⟨o, l, s⟩ := ha.posts _ _ _ _ H
      rw [← ha.db] at hb'
      exact ⟨o, fun p hp => UInt64.le_of_lt (hlt hb' _ (l p hp)), s⟩

theorem delete_calls {w : Whole} {k : UInt32} {n : Nat} {topic : Bytes} {r : Option DErr × Whole} (h : w.delete x k n topic = .ok r) :
    ∃ id, r.2.calls = .delSub k id topic :: w.calls := by
  simp only [Whole.delete] at h
  split at h
  · injection h with h; subst h; exact ⟨_, rfl⟩
  · injection h with h; subst h; exact ⟨_, rfl⟩
  · cases h
  · cases h

theorem delete_ill {k : UInt32} {id topic : Bytes} {l : List StoreCall} : ¬ Spec.Well x s0 (.delSub k id topic :: l) := by
  rintro ⟨ps, wait, spoilt, quiet, H⟩
  cases H

theorem unsubscribeFrom_follows {w : Whole} {q : UInt32} {mid : UInt16} {c : SrvConn} {t : ReqTopic} {r : Option Bytes × Whole}
    (h : w.unsubscribeFrom x q mid c t = .ok r) : w.calls <:+ r.2.calls ∧ (Agree x s0 w → Spec.Well x s0 r.2.calls →
      ∃ e, w.srv.unsubscribeFrom q c t = .ok (e, r.2.srv) ∧ r.1 = e.map (x.srv.errorText · mid) ∧ Agree x s0 r.2) := by
  simp only [Whole.unsubscribeFrom, Srv.unsubscribeFrom] at h ⊢
  cases hk : c.contract with
  | error => rw [hk] at h; cases h
  | ok k =>
  rw [hk] at h
  simp only [Except.bind] at h ⊢
  cases hst : AMap.get c.subs t.key with
  | none =>
    rw [hst] at h
    injection h with h; subst h
    exact ⟨List.suffix_refl _, fun ha _ => ⟨none, rfl, rfl, ha⟩⟩
  | some st =>
  rw [hst] at h
  simp only at h ⊢
  split at h
  · cases hd : w.delete x k st.id (t.topic.take t.size) with
    | error => rw [hd] at h; cases h
    | ok d =>
      rw [hd] at h
      injection h with h; subst h
      obtain ⟨id, e⟩ := delete_calls hd
      refine ⟨by show w.calls <:+ d.2.calls; rw [e]; exact List.suffix_cons _ _, fun _ hw => ?_⟩
      change Spec.Well x s0 d.2.calls at hw
      rw [e] at hw
      exact absurd hw delete_ill
  · next hc =>
    injection h with h; subst h
    refine ⟨List.suffix_refl _, fun ha _ => ⟨none, ?_, rfl, ha.onSrv rfl⟩⟩
    rw [if_neg hc]

theorem request_follows {w w' : Whole} {q : UInt32} {mid : UInt16} {text : Bytes} {f : SrvConn → ReqTopic → SrvM (Option Bytes × Whole)}
    {f' : SrvConn → ReqTopic → SrvM (Option Verdict × Srv)} (hf : ∀ c t r, AMap.get w.srv.conns q = some c → parseRequest text = some t →
      f c t = .ok r → w.calls <:+ r.2.calls ∧ (Agree x s0 w → Spec.Well x s0 r.2.calls →
      ∃ e, f' c t = .ok (e, r.2.srv) ∧ r.1 = e.map (x.srv.errorText · mid) ∧ Agree x s0 r.2))
    (h : w.request x q mid text f = .ok w') : Follows x s0 w w' (w.srv.request x.srv q mid text f') := by
  have tell : ∀ e, (w.onSrv fun s => s.notifyError x.srv q e mid) = .ok w' → Follows x s0 w w' (w.srv.notifyError x.srv q e mid) := fun e h =>
    Follows.onSrv (f := fun s => s.notifyError x.srv q e mid) h fun s hf => (Srv.notifyError_calm hf).stored
  simp only [Whole.request, Srv.request] at h ⊢
  cases hc : AMap.get w.srv.conns q with
  | none => rw [hc] at h; injection h with h; subst h; exact .refl x s0 w
  | some c =>
  rw [hc] at h
  cases ht : parseRequest text with
  | none => rw [ht] at h; cases h
  | some t =>
  rw [ht] at h
  simp only at h ⊢
  by_cases hv : t.valid = true
  · simp only [hv, Bool.not_true, Bool.false_eq_true, if_false] at h ⊢
    cases hg : c.check t with
    | error => rw [hg] at h; cases h
    | ok g =>
    rw [hg] at h
    simp only [Except.bind] at h ⊢
    cases g with
    | badRequest => exact tell _ h
    | unauthorized => exact tell _ h
    | forbidden => exact tell _ h
    | granted wild =>
      simp only at h ⊢
      cases hr : f c t with
      | error => rw [hr] at h; cases h
      | ok r =>
      rw [hr] at h
      obtain ⟨g1, g2⟩ := hf c t r hc ht hr
      obtain ⟨e, w1⟩ := r
      simp only at h g1 g2
      cases e with
      | none =>
        injection h with h; subst h
        refine ⟨g1, fun ha hw => ?_⟩
        obtain ⟨e, e1, e2, a⟩ := g2 ha hw
        cases e with
        | none => rw [e1]; exact ⟨rfl, a⟩
        | some e => cases e2
      | some e =>
        have fin : Follows x s0 w1 w' ((w1.srv.sendMessage x.srv q 0 0 0 ⟨errorTopic, e⟩).map (·.2)) := by
          refine Follows.onSrv (f := fun s => (s.sendMessage x.srv q 0 0 0 ⟨errorTopic, e⟩).map (·.2)) h fun s hf => ?_
          cases hm : w1.srv.sendMessage x.srv q 0 0 0 ⟨errorTopic, e⟩ with
          | error => simp only [hm] at hf; cases hf
          | ok r => simp only [hm] at hf; injection hf with hf; subst hf; exact (Srv.sendMessage_calm hm).stored
        refine ⟨g1.trans fin.1, fun ha hw => ?_⟩
        obtain ⟨e', e1, e2, a⟩ := g2 ha (hw.suffix fin.1)
        obtain ⟨e3, a'⟩ := fin.2 a hw
        cases e' with
        | none => cases e2
        | some e' =>
          injection e2 with e2
          subst e2
          rw [e1]
          exact ⟨e3, a'⟩
  · simp only [hv, Bool.not_false, if_true] at h ⊢
    exact tell _ h

theorem close_follows {w w' : Whole} {q : UInt32} (h : w.close x q = .ok w') : Follows x s0 w w' (w.srv.close q) := by
  simp only [Whole.close] at h
  cases hc : AMap.get w.srv.conns q with
  | none =>
    rw [hc] at h; injection h with h; subst h
    have : w.srv.close q = .ok w.srv := by simp only [Srv.close, hc]
    rw [this]
    exact .refl x s0 w
  | some c =>
  rw [hc] at h
  simp only at h
  cases hsub : c.subs with
  | nil =>
    rw [hsub] at h
    simp only at h
    refine Follows.onSrv (f := fun s => s.close q) h fun s hf => ?_
    simp only [Srv.close, hc, hsub, ne_eq, not_true_eq_false, false_and, if_false] at hf
    injection hf with hf; subst hf
    simp
  | cons a l =>
    rw [hsub] at h
    cases hk : c.client.bind cidContract with
    | none => rw [hk] at h; cases h
    | some k =>
    rw [hk] at h
    simp only [SrvM.fold] at h
    cases hd : w.delete x k a.2.id a.2.topic with
    | error => rw [hd] at h; cases h
    | ok d =>
    rw [hd] at h
    simp only [Except.map, Except.bind] at h
    obtain ⟨id, e⟩ := delete_calls hd
    have hsuf : d.2.calls <:+ w'.calls := by
      cases hfo : SrvM.fold (fun w (st : Bytes × SubCount) => (w.delete x k st.2.id st.2.topic).map (·.2)) d.2 l with
      | error => simp only [Except.map] at hfo; rw [hfo] at h; cases h
      | ok w2 =>
        have h2 : d.2.calls <:+ w2.calls := by
          refine SrvM.fold_inv (fun w : Whole => d.2.calls <:+ w.calls) (fun y b r _ hy hr => ?_) (List.suffix_refl _) hfo
          cases hd2 : y.delete x k b.2.id b.2.topic with
          | error => rw [hd2] at hr; cases hr
          | ok d2 =>
            rw [hd2] at hr
            injection hr with hr; subst hr
            obtain ⟨id2, e2⟩ := delete_calls hd2
            rw [e2]
            exact hy.trans (List.suffix_cons _ _)
        simp only [Except.map] at hfo
        rw [hfo] at h
        simp only [Whole.onSrv] at h
        cases hcl : w2.srv.close q with
        | error => rw [hcl] at h; cases h
        | ok s => rw [hcl] at h; injection h with h; subst h; exact h2
    rw [e] at hsuf
    exact ⟨(List.suffix_cons _ _).trans hsuf, fun _ hw => absurd (hw.suffix hsuf) delete_ill⟩

theorem connect_stored {v : SrvEnv} {s s' : Srv} {q : UInt32} {text : Bytes} {epoch : UInt32} {fresh : Bytes} {insecure : Bool} {asked : UInt32} {clean : Bool}
    {id : Bytes} {cache : ClientCache} (ho : onConnect v.mac s.cache epoch text = (.accepted id, cache))
    (h : s.onConnectPacket v q text epoch fresh insecure asked clean = .ok s') : s'.stored = s.stored := by
  simp only [Srv.onConnectPacket] at h
  cases hc : AMap.get s.conns q with
  | none => rw [hc] at h; injection h with h; subst h; rfl
  | some c =>
  rw [hc, ho] at h
  simp only at h
  split at h
  · cases h
  · split at h
    · cases h
    · injection h with h
      subst h
      have : ∀ (l : List UInt16) (z : Srv), (l.foldl (fun s n => s.emit q (.notify n)) z).stored = z.stored := by
        intro l
        induction l with
        | nil => intro z; rfl
        | cons n l ih => intro z; rw [List.foldl_cons, ih]; rfl
      rw [this]
      rfl

theorem connect_follows {w w' : Whole} {q : UInt32} {text : Bytes} {epoch : UInt32} {fresh : Bytes} {insecure : Bool} {asked : UInt32} {clean : Bool}
    (h : w.onConnectPacket x q text epoch fresh insecure asked clean = .ok w') :
    Follows x s0 w w' (w.srv.onConnectPacket x.srv q text epoch fresh insecure asked clean) := by
  simp only [Whole.onConnectPacket] at h
  cases hc : AMap.get w.srv.conns q with
  | none =>
    rw [hc] at h; injection h with h; subst h
    have : w.srv.onConnectPacket x.srv q text epoch fresh insecure asked clean = .ok w.srv := by simp only [Srv.onConnectPacket, hc]
    rw [this]
    exact .refl x s0 w
  | some c =>
  rw [hc] at h
  simp only at h
  cases ho : onConnect x.srv.mac w.srv.cache epoch text with
  | mk o cache =>
  rw [ho] at h
  cases o with
  | accepted id =>
    simp only at h
    exact Follows.onSrv (f := fun s => s.onConnectPacket x.srv q text epoch fresh insecure asked clean) h fun s hf => connect_stored ho hf
  | invalid =>
    simp only at h
    cases h1 : w.onSrv fun s => (((({ s with cache } : Srv).setConn q { c with insecure }).emit q (.connack false)).sendMessage x.srv q 0 0 0 ⟨clientIdTopic, fresh⟩).map (·.2) with
    | error => rw [h1] at h; cases h
    | ok w1 =>
    rw [h1] at h
    have f1 := Follows.onSrv (x := x) (s0 := s0) h1 fun s hf => by
      cases hm : ((({ w.srv with cache } : Srv).setConn q { c with insecure }).emit q (.connack false)).sendMessage x.srv q 0 0 0 ⟨clientIdTopic, fresh⟩ with
      | error => simp only [hm] at hf; cases hf
      | ok r => simp only [hm] at hf; injection hf with hf; subst hf; rw [(Srv.sendMessage_calm hm).stored]; rfl
    have f2 := f1.trans (f := fun s => s.close q) (close_follows (x := x) (s0 := s0) h)
    have e : w.srv.onConnectPacket x.srv q text epoch fresh insecure asked clean =
        ((((({ w.srv with cache } : Srv).setConn q { c with insecure }).emit q (.connack false)).sendMessage x.srv q 0 0 0 ⟨clientIdTopic, fresh⟩).map (·.2)).bind
          fun s => s.close q := by
      simp only [Srv.onConnectPacket, hc, ho]
      cases ((({ w.srv with cache } : Srv).setConn q { c with insecure }).emit q (.connack false)).sendMessage x.srv q 0 0 0 ⟨clientIdTopic, fresh⟩ <;> rfl
    rw [e]
    exact f2

theorem relayOne_stored {v : SrvEnv} {s s' : Srv} {q : UInt32} {mid : UInt16} {a : Bytes × List Bytes} (h : Srv.relayOne v q mid s a = .ok s') : s'.stored = s.stored := by
  simp only [Srv.relayOne, Srv.request] at h
  split at h
  · injection h with h; subst h; rfl
  · cases h
  · next c t _ _ =>
    split at h
    · exact (Srv.notifyError_calm h).stored
    · cases hg : c.check t with
      | error => rw [hg] at h; cases h
      | ok g =>
      rw [hg] at h
      simp only [Except.bind] at h
      split at h
      · cases hk : c.contract with
        | error => rw [hk] at h; cases h
        | ok k =>
        rw [hk] at h
        simp only at h
        cases hf : SrvM.fold (fun s m => (s.sendMessage v q 0 2 0 ⟨t.topic, m⟩).map (·.2)) s a.2 with
        | error => rw [hf] at h; cases h
        | ok s1 =>
          rw [hf] at h
          simp only [Except.map] at h
          injection h with h
          subst h
          refine SrvM.fold_inv (fun z : Srv => z.stored = s.stored) (fun y b r _ hy hr => ?_) rfl hf
          cases hm : y.sendMessage v q 0 2 0 ⟨t.topic, b⟩ with
          | error => rw [hm] at hr; cases hr
          | ok r => rw [hm] at hr; injection hr with hr; subst hr; exact (Srv.sendMessage_calm hm).stored.trans hy
      · exact (Srv.notifyError_calm h).stored

theorem acked_follows {w w' : Whole} {q : UInt32} {mid : UInt16} {r : SrvM Whole} {r' : SrvM Srv} (hr : ∀ w1, r = .ok w1 → Follows x s0 w w1 r')
    (h : (r.map fun w => { w with srv := w.srv.emit q (.acked mid) }) = .ok w') : Follows x s0 w w' (r'.map fun s => s.emit q (.acked mid)) := by
  cases r with
  | error => cases h
  | ok w1 =>
    injection h with h
    subst h
    obtain ⟨g1, g2⟩ := hr w1 rfl
    refine ⟨g1, fun ha hw => ?_⟩
    obtain ⟨e, a⟩ := g2 ha hw
    rw [e]
    exact ⟨rfl, a.onSrv rfl⟩

include hs hde htest hh h0 in
theorem handle_follows {w w' : Whole} {q : UInt32} {p : Packet} (h : w.handle x q p = .ok w') : Follows x s0 w w' (w.srv.handle x.srv q p) := by
  cases p with
  | connect text epoch fresh insecure asked clean => exact connect_follows h
  | subscribe mid asks =>
    exact acked_follows (fun w1 h1 => Follows.fold (fun w a w' h => request_follows (fun c t r _ _ hr => subscribeTo_follows hr) h) asks h1) h
  | unsubscribe mid texts =>
    exact acked_follows (fun w1 h1 => Follows.fold (fun w a w' h => request_follows (fun c t r _ _ hr => unsubscribeFrom_follows hr) h) texts h1) h
  | publish p => exact onPublish_follows hs hde htest hh h0 h
  | relay mid asks =>
    refine Follows.onSrv (f := fun s => s.handle x.srv q (.relay mid asks)) h fun s hf => ?_
    simp only [Srv.handle] at hf
    cases hr : SrvM.fold (Srv.relayOne x.srv q mid) w.srv asks with
    | error => rw [hr] at hf; cases hf
    | ok s1 =>
      rw [hr] at hf
      injection hf with hf; subst hf
      change s1.stored = w.srv.stored
      exact SrvM.fold_inv (f := Srv.relayOne x.srv q mid) (fun z : Srv => z.stored = w.srv.stored) (fun y b r _ hy hr => (relayOne_stored hr).trans hy) rfl hr
  | receive mid =>
    simp only [Whole.handle] at h
    cases hc : AMap.get w.srv.conns q with
    | none =>
      rw [hc] at h; injection h with h; subst h
      have : w.srv.handle x.srv q (.receive mid) = .ok w.srv := by simp only [Srv.handle, hc]
      rw [this]
      exact .refl x s0 w
    | some c =>
      rw [hc] at h
      simp only at h
      cases hl : (w.srv.log.get (packetKey mid c.sess)).bind x.srv.dec with
      | none =>
        rw [hl] at h
        have : w.srv.handle x.srv q (.receive mid) = w.srv.close q := by simp only [Srv.handle, hc, hl]
        rw [this]
        exact close_follows h
      | some i =>
        rw [hl] at h
        refine Follows.onSrv (f := fun s => s.handle x.srv q (.receive mid)) h fun s hf => ?_
        simp only [Srv.handle, hc, hl] at hf
        cases i with
        | pub p => injection hf with hf; subst hf; rfl
        | receipt m => injection hf with hf; subst hf; rfl
  | receipt mid =>
    refine Follows.onSrv (f := fun s => s.handle x.srv q (.receipt mid)) h fun s hf => ?_
    simp only [Srv.handle] at hf
    split at hf
    · injection hf with hf; subst hf; rfl
    · injection hf with hf; subst hf
      split <;> rfl
  | ping =>
    refine Follows.onSrv (f := fun s => s.handle x.srv q .ping) h fun s hf => ?_
    simp only [Srv.handle] at hf
    injection hf with hf; subst hf; rfl
  | disconnect => exact close_follows h

/-- The same of what the database does by itself. -/
theorem work_agrees {w : Whole} (ha : Agree x s0 w) {c : StoreCall} (hc : (∃ t, c = .rotate t) ∨ (∃ id t, c = .write id t) ∨ ∃ e, c = .sync e) : Agree x s0 (w.did x c) := by
  refine ⟨by simp only [Whole.did, Db.since, ← ha.db], ?_⟩
  intro ps wait spoilt quiet H
  have hseq : (w.did x c).db.seq = w.db.seq := by
    rcases hc with ⟨t, rfl⟩ | ⟨id, t, rfl⟩ | ⟨e, rfl⟩
    · rfl
    · rfl
    · simp only [Whole.did, Db.called]
      split
      · rfl
      · next r hr => exact (Db.sync_fields hr).2.2.2.1
  have keep : ∀ {ps wait spoilt quiet}, Spec.Fluent x s0 w.calls ps wait spoilt quiet → Agrees (w.did x c) ps := by
    intro ps wait spoilt quiet H
    obtain ⟨o, l, s⟩ := ha.posts _ _ _ _ H
    exact ⟨o, by rw [hseq]; exact l, s⟩
  change Spec.Fluent x s0 (c :: w.calls) ps wait spoilt quiet at H
  rcases hc with ⟨t, rfl⟩ | ⟨id, t, rfl⟩ | ⟨e, rfl⟩
  · cases H with
    | rotate _ H _ => exact keep H
  · cases H with
    | write _ _ H => exact keep H
  · cases H with
    | sync _ H _ _ _ _ _ => exact keep H

/-- What the messages of a relay request are to the server. -/
theorem relayed_stored {v : SrvEnv} {q : UInt32} {topic : Bytes} {l : List Bytes} {s s' : Srv}
    (h : SrvM.fold (fun s m => (s.sendMessage v q 0 2 0 ⟨topic, m⟩).map (·.2)) s l = .ok s') : s'.stored = s.stored := by
  refine SrvM.fold_inv (fun z : Srv => z.stored = s.stored) (fun y b r _ hy hr => ?_) rfl h
  cases hm : y.sendMessage v q 0 2 0 ⟨topic, b⟩ with
  | error => rw [hm] at hr; cases hr
  | ok r => rw [hm] at hr; injection hr with hr; subst hr; exact (Srv.sendMessage_calm hm).stored.trans hy

/-- The answers that belong to a request. -/
def Whole.answers (x : WholeEnv) (w : Whole) (q : UInt32) (a : Bytes × Bytes) : List Bytes :=
  match (AMap.get w.srv.conns q).bind fun c => c.contract.toOption, parseRequest a.1 with
  | some k, some t =>
    if a.2 = [] then []
    else ((w.db.get x.db (w.next x).g (storeQuery x.db.dur x.ok (w.next x).made k t.topic a.2) []).2.payloads?).getD []
  | _, _ => []

include hs hde htest h0 in
theorem relayOne_follows {w w' : Whole} {q : UInt32} {mid : UInt16} {a : Bytes × Bytes} (h : w.relayOne x q mid a = .ok w') :
    Follows x s0 w w' (Srv.relayOne x.srv q mid w.srv (a.1, w.answers x q a)) := by
  refine request_follows (fun c t r hc ht hr => ?_) h
  simp only [Whole.answers, hc, ht, Option.bind_some]
  cases hk : c.contract with
  | error => rw [hk] at hr; cases hr
  | ok k =>
  rw [hk] at hr
  simp only [Except.bind, Except.toOption] at hr ⊢
  by_cases ha : a.2 = []
  · rw [if_pos ha] at hr
    injection hr with hr; subst hr
    simp only [ha, if_true]
    exact ⟨List.suffix_refl _, fun ha _ => ⟨none, rfl, rfl, ha⟩⟩
  · rw [if_neg ha] at hr
    simp only [if_neg ha]
    generalize hg : (w.db.get x.db (w.next x).g (storeQuery x.db.dur x.ok (w.next x).made k t.topic a.2) []).2 = got at hr ⊢
    have bad : Agree x s0 w → Spec.Well x s0 ((w.did x (.getMsgs (w.next x).made (w.next x).g k t.topic a.2)).calls) →
        (∃ items, got = .out (.ok items)) ∧ Agree x s0 (w.did x (.getMsgs (w.next x).made (w.next x).g k t.topic a.2)) := by
      intro hag hw
      obtain ⟨⟨_, _, _, _, out, _, e, _⟩, a'⟩ := whole_messages hs hde htest h0 hag _ _ _ _ _ hw
      rw [hg] at e
      exact ⟨⟨_, e⟩, a'⟩
    split at hr
    · next items =>
      simp only [Whole.onSrv, DGet.payloads?, Option.getD_some] at hr ⊢
      change (Except.map _ (Except.map _ (SrvM.fold _ w.srv items))) = _ at hr
      cases hf : SrvM.fold (fun s m => (s.sendMessage x.srv q 0 2 0 ⟨t.topic, m⟩).map (·.2)) w.srv items with
      | error => rw [hf] at hr; cases hr
      | ok s1 =>
        rw [hf] at hr
        injection hr with hr; subst hr
        refine ⟨List.suffix_cons _ _, fun hag hw => ⟨none, rfl, rfl, ?_⟩⟩
        exact (bad hag hw).2.onSrv (relayed_stored hf)
    · cases hr
    · cases hr
    · next hne _ _ =>
      injection hr with hr; subst hr
      refine ⟨List.suffix_cons _ _, fun hag hw => ?_⟩
      obtain ⟨⟨items, e⟩, _⟩ := bad hag hw
      exact absurd e (by intro e; exact hne items e)

/-- What a server is asked, with the answers of the database to relay requests. -/
inductive Spec.Heard : List WholeEv → List SrvEv → Prop
  | nil : Spec.Heard [] []
  | srv {l l'} (ev) : Spec.Heard l l' → Spec.Heard (.srv ev :: l) (ev :: l')
  | relay {l l'} (q mid asks answers) : answers.map (·.1) = asks.map (·.1) → Spec.Heard l l' →
      Spec.Heard (.relay q mid asks :: l) (.packet q (.relay mid answers) :: l')
  | rotate {l l'} (t) : Spec.Heard l l' → Spec.Heard (.rotate t :: l) l'
  | write {l l'} (id t) : Spec.Heard l l' → Spec.Heard (.write id t :: l) l'
  | sync {l l'} (e) : Spec.Heard l l' → Spec.Heard (.sync e :: l) l'

include hs hde htest h0 in
theorem relay_follows {q : UInt32} {mid : UInt16} (asks : List (Bytes × Bytes)) : ∀ {w w' : Whole}, SrvM.fold (Whole.relayOne x q mid) w asks = .ok w' →
    ∃ answers : List (Bytes × List Bytes), answers.map (·.1) = asks.map (·.1) ∧ Follows x s0 w w' (SrvM.fold (Srv.relayOne x.srv q mid) w.srv answers) := by
  induction asks with
  | nil => intro w w' h; injection h with h; subst h; exact ⟨[], rfl, .refl x s0 w⟩
  | cons a asks ih =>
    intro w w' h
    simp only [SrvM.fold] at h
    cases h1 : w.relayOne x q mid a with
    | error => rw [h1] at h; cases h
    | ok w1 =>
    rw [h1] at h
    obtain ⟨as, e, f⟩ := ih h
    refine ⟨(a.1, w.answers x q a) :: as, by simp [e], ?_⟩
    exact (relayOne_follows hs hde htest h0 h1).trans (f := fun s => SrvM.fold (Srv.relayOne x.srv q mid) s as) f

include hs hde htest hh h0 in
theorem step_follows {w w' : Whole} {ev : WholeEv} (h : w.step x ev = .ok w') : ∃ l, Spec.Heard [ev] l ∧ Follows x s0 w w' (w.srv.run x.srv l) := by
  have one : ∀ e, w.srv.run x.srv [e] = w.srv.step x.srv e := by
    intro e
    simp only [Srv.run, SrvM.fold]
    cases w.srv.step x.srv e <;> rfl
  have work : ∀ c, w' = w.did x c → ((∃ t, c = .rotate t) ∨ (∃ id t, c = .write id t) ∨ ∃ e, c = .sync e) → Follows x s0 w w' (.ok w.srv) := by
    rintro c rfl hc
    exact ⟨List.suffix_cons _ _, fun ha _ => ⟨rfl, work_agrees ha hc⟩⟩
  cases ev with
  | rotate t => injection h with h; exact ⟨[], .rotate t .nil, work _ h.symm (.inl ⟨t, rfl⟩)⟩
  | write id t => injection h with h; exact ⟨[], .write id t .nil, work _ h.symm (.inr (.inl ⟨id, t, rfl⟩))⟩
  | sync e =>
    simp only [Whole.step] at h
    split at h
    · cases h
    · injection h with h; exact ⟨[], .sync e .nil, work _ h.symm (.inr (.inr ⟨e, rfl⟩))⟩
  | relay q mid asks =>
    simp only [Whole.step] at h
    cases hc : AMap.get w.srv.conns q with
    | none =>
      rw [hc] at h; injection h with h; subst h
      refine ⟨[.packet q (.relay mid (asks.map fun a => (a.1, [])))], .relay q mid asks _ (by simp) .nil, ?_⟩
      rw [one]
      simp only [Srv.step, hc]
      exact .refl x s0 w
    | some c =>
      rw [hc] at h
      cases hf : SrvM.fold (Whole.relayOne x q mid) w asks with
      | error => rw [hf] at h; cases h
      | ok w1 =>
        obtain ⟨as, e, f⟩ := relay_follows hs hde htest h0 asks hf
        refine ⟨[.packet q (.relay mid as)], .relay q mid asks as e .nil, ?_⟩
        rw [one]
        simp only [Srv.step, hc, Srv.handle]
        exact acked_follows (r := SrvM.fold (Whole.relayOne x q mid) w asks) (fun w2 h2 => by rw [hf] at h2; injection h2 with h2; subst h2; exact f) h
  | srv ev =>
    refine ⟨[ev], .srv ev .nil, ?_⟩
    rw [one]
    cases ev with
    | accept q => exact Follows.onSrv (f := fun s => s.step x.srv (.accept q)) h fun s hf => by injection hf with hf; subst hf; rfl
    | lost q => exact close_follows h
    | packet q p =>
      simp only [Whole.step, Srv.step] at h ⊢
      cases hc : AMap.get w.srv.conns q with
      | none => rw [hc] at h; injection h with h; subst h; exact .refl x s0 w
      | some c => rw [hc] at h; exact handle_follows hs hde htest hh h0 h

include hs hde htest hh h0 in
theorem run_follows (evs : List WholeEv) : ∀ {w w' : Whole}, w.run x evs = .ok w' → ∃ l, Spec.Heard evs l ∧ Follows x s0 w w' (w.srv.run x.srv l) := by
  induction evs with
  | nil =>
    intro w w' h
    injection h with h; subst h
    exact ⟨[], .nil, .refl x s0 w⟩
  | cons ev evs ih =>
    intro w w' h
    simp only [Whole.run, SrvM.fold] at h
    cases h1 : w.step x ev with
    | error => rw [h1] at h; cases h
    | ok w1 =>
    rw [h1] at h
    obtain ⟨l1, g1, f1⟩ := step_follows hs hde htest hh h0 h1
    obtain ⟨l2, g2, f2⟩ := ih h
    have f := f1.trans (f := fun s => s.run x.srv l2) f2
    have el : (w.srv.run x.srv l1).bind (fun s => s.run x.srv l2) = w.srv.run x.srv (l1 ++ l2) := by
      cases g1 with
      | srv ev g => cases g; simp only [Srv.run, SrvM.fold, List.singleton_append]; cases w.srv.step x.srv ev <;> rfl
      | relay q mid asks as _ g => cases g; simp only [Srv.run, SrvM.fold, List.singleton_append]; cases w.srv.step x.srv (.packet q (.relay mid as)) <;> rfl
      | rotate _ g => cases g; rfl
      | write _ _ g => cases g; rfl
      | sync _ g => cases g; rfl
    rw [el] at f
    refine ⟨l1 ++ l2, ?_, f⟩
    cases g1 with
    | srv ev g => cases g; exact .srv ev g2
    | relay q mid asks as hm g => cases g; exact .relay q mid asks as hm g2
    | rotate t g => cases g; exact .rotate t g2
    | write id t g => cases g; exact .write id t g2
    | sync e g => cases g; exact .sync e g2

end Handlers

theorem run_one (v : SrvEnv) (s : Srv) (e : SrvEv) : s.run v [e] = s.step v e := by
  simp only [Srv.run, SrvM.fold]
  cases s.step v e <;> rfl

/-- After a history whose calls went well the server and its database agree. -/
theorem run_agree {x : WholeEnv} (hs : x.db.mac.cipher.Sound) (hde : ∀ b, x.db.decode (x.db.encode b) = some b) (htest : ∀ ks k, k ∈ ks → x.db.mem.test ks k = true)
    (hh : ∀ a b, x.srv.hits a b = Spec.covers (Spec.topicText a) b) {s0 : Db} (h0 : Spec.Mail x.db x.ok s0 [] [] [] true) {evs : List WholeEv} {w : Whole}
    (h : Whole.run x { db := s0 } evs = .ok w) (hw : Spec.Well x s0 w.calls) : Agree x s0 w := by
  obtain ⟨l, _, f⟩ := run_follows hs hde htest hh h0 evs h
  exact (f.2 ⟨rfl, fun ps wait spoilt quiet H => by cases H; exact ⟨.nil, fun p hp => absurd hp (by simp), rfl⟩⟩ hw).2

theorem onSrv_calls {w w' : Whole} {f : Srv → SrvM Srv} (h : w.onSrv f = .ok w') : w'.calls = w.calls := by
  simp only [Whole.onSrv] at h
  cases hf : f w.srv with
  | error => rw [hf] at h; cases h
  | ok s => rw [hf] at h; injection h with h; subst h; rfl

/-- What is put in the batch of a connection. -/
theorem relayed_batch {v : SrvEnv} {q : UInt32} {topic : Bytes} (l : List Bytes) : ∀ {s s' : Srv} {c : SrvConn} {bt : List (UInt32 × DMsg)}, AMap.get s.conns q = some c →
    c.batch = some bt → SrvM.fold (fun s m => (s.sendMessage v q 0 2 0 ⟨topic, m⟩).map (·.2)) s l = .ok s' →
    s'.out = s.out ∧ ∃ c', AMap.get s'.conns q = some c' ∧ c'.batch = some (bt ++ l.map fun m => (0, ⟨topic, m⟩)) := by
  induction l with
  | nil => intro s s' c bt hc hb h; injection h with h; subst h; exact ⟨rfl, c, hc, by simpa using hb⟩
  | cons m l ih =>
    intro s s' c bt hc hb h
    simp only [SrvM.fold, Srv.sendMessage, hc] at h
    cases hd : c.draw 0 with
    | error => rw [hd] at h; cases h
    | ok d =>
    rw [hd] at h
    have hdb : d.2.batch = some bt := by
      simp only [SrvConn.draw] at hd
      split at hd
      · injection hd with hd; subst hd; exact hb
      · split at hd
        · cases hd
        · injection hd with hd; subst hd; exact hb
    simp only [Except.bind, if_pos, true_or, hdb, Except.map] at h
    obtain ⟨e1, c', e2, e3⟩ := ih (c := { d.2 with batch := some (bt ++ [(0, ⟨topic, m⟩)]) }) (by simp only [Srv.setConn, AMap.get_set, if_pos]) rfl h
    exact ⟨e1, c', e2, by rw [e3, List.map_cons, List.append_assoc, List.singleton_append]⟩

/-! ## C98 -/

/-- C98 (partial: the histories of `Spec.Well`, in particular nothing is deleted, so no client with subscriptions leaves; one server without a cluster). A server that keeps its subscriptions and messages in its database does packet by packet what the server of C83 to C85 does, whose
subscriptions are in an ideal table: it is in the same state and has sent the same packets. To relay requests the database gives the answers. -/
theorem C98_as_table_partial (x : WholeEnv) (hs : x.db.mac.cipher.Sound) (hde : ∀ b, x.db.decode (x.db.encode b) = some b)
    (htest : ∀ ks k, k ∈ ks → x.db.mem.test ks k = true) (hh : ∀ a b, x.srv.hits a b = Spec.covers (Spec.topicText a) b)
    (o : OpenOpts) (r : RecEnv) (e : SyncEnv) (now : Int) (s0 : Db) (hcap : (x.db.mem.cap : Int) ≤ now) (hdel : r.orderDel [] = []) (h0 : openDb x.db o r e now {} = .ok s0)
    (evs : List WholeEv) (w : Whole) (h : Whole.run x { db := s0 } evs = .ok w) (hw : Spec.Well x s0 w.calls) :
    ∃ l, Spec.Heard evs l ∧ Srv.run x.srv {} l = .ok w.srv := by
  obtain ⟨l, g, f⟩ := run_follows hs hde htest hh (Spec.Mail.opened hcap hdel h0) evs h
  refine ⟨l, g, (f.2 ⟨rfl, ?_⟩ hw).1⟩
  intro ps wait spoilt quiet H
  cases H
  exact ⟨.nil, fun p hp => absurd hp (by simp), rfl⟩

/-- C98 (partial as above). So a PUBLISH reaches exactly the subscribers C83 says it does, also when the subscriptions are in the database. -/
theorem C98_delivered_partial (x : WholeEnv) (hs : x.db.mac.cipher.Sound) (hde : ∀ b, x.db.decode (x.db.encode b) = some b)
    (htest : ∀ ks k, k ∈ ks → x.db.mem.test ks k = true) (hh : ∀ a b, x.srv.hits a b = Spec.covers (Spec.topicText a) b) (hv : x.srv.Sane) (hm : x.srv.mac.cipher.Strips)
    (o : OpenOpts) (r : RecEnv) (e : SyncEnv) (now : Int) (s0 : Db) (hcap : (x.db.mem.cap : Int) ≤ now) (hdel : r.orderDel [] = []) (h0 : openDb x.db o r e now {} = .ok s0)
    (evs : List WholeEv) (w : Whole) (h : Whole.run x { db := s0 } evs = .ok w) (b : Spec.Desk) (hb : Spec.Day x.srv w.srv b) (p k : UInt32) (insecure : Bool)
    (hp : AMap.get b.roll p = some (k, insecure)) (pub : DPub) (hmid : pub.mid ≠ 0) (hms : ∀ m ∈ pub.msgs, Spec.Allowed x.srv k insecure m)
    (w' : Whole) (h' : w.step x (.srv (.packet p (.publish pub))) = .ok w') (hw : Spec.Well x s0 w'.calls) :
    w'.srv.out = w.srv.out ++ pub.msgs.flatMap (Spec.reached x.srv b k (Spec.sends pub)) ++ [(p, .acked pub.mid)] := by
  have h0 := Spec.Mail.opened (ok := x.ok) hcap hdel h0
  obtain ⟨l, hl, g1, g2⟩ := step_follows hs hde htest hh h0 h'
  have ha := run_agree hs hde htest hh h0 h (hw.suffix g1)
  have e1 := (g2 ha hw).1
  cases hl with
  | srv ev hl =>
  cases hl
  rw [run_one] at e1
  obtain ⟨s', k1, k2, _⟩ := C83_sent_partial x.srv hv hm w.srv b hb p k insecure hp pub hmid hms
  change w.srv.step x.srv (.packet p (.publish pub)) = .ok w'.srv at e1
  rw [k1] at e1
  injection e1 with e1
  rw [← e1]
  exact k2

/-- C98 (partial as above; one topic, and a connection of `Spec.Day`). A client that asks to be sent the messages of a topic since `last`, and may read it, is sent in a batch exactly
the messages that were stored for its contract under topics that cover this one, have not expired, and were put since `last`: each once, newest first, under
the topic it asked for. Then the request is acknowledged. -/
theorem C98_relay_partial (x : WholeEnv) (hs : x.db.mac.cipher.Sound) (hde : ∀ b, x.db.decode (x.db.encode b) = some b)
    (htest : ∀ ks k, k ∈ ks → x.db.mem.test ks k = true) (hh : ∀ a b, x.srv.hits a b = Spec.covers (Spec.topicText a) b) (hv : x.srv.Sane) (hm : x.srv.mac.cipher.Strips)
    (o : OpenOpts) (r : RecEnv) (e : SyncEnv) (now : Int) (s0 : Db) (hcap : (x.db.mem.cap : Int) ≤ now) (hdel : r.orderDel [] = []) (h0 : openDb x.db o r e now {} = .ok s0)
    (evs : List WholeEv) (w : Whole) (h : Whole.run x { db := s0 } evs = .ok w) (b : Spec.Desk) (hb : Spec.Day x.srv w.srv b) (q k : UInt32) (insecure : Bool)
    (hq : AMap.get b.roll q = some (k, insecure)) (mid : UInt16) (text last : Bytes) (t : ReqTopic) (ht : parseRequest text = some t)
    (hr : ∃ wild, onTopicRequest insecure k text = some (.granted wild)) (hl : last ≠ [])
    (w' : Whole) (h' : w.step x (.relay q mid [(text, last)]) = .ok w') (hw : Spec.Well x s0 w'.calls) :
    ∃ (ps wait spoilt : List Spec.Post) (quiet : Bool) (out : List Spec.Post) (c c' : SrvConn) (bt : List (UInt32 × DMsg)),
      Spec.Fluent x s0 w.calls ps wait spoilt quiet ∧
      out.Perm (ps.filter fun p => !p.sub && p.contract == k && Spec.covers (Spec.topicText p.topic) t.topic && p.alive (toU32 (unixSec (x.env w.calls.length).g.now)) &&
        (decide (x.ok last = false) || decide (unixSec ((x.env w.calls.length).made - x.db.dur last) ≤ 0 ∨ unixSec ((x.env w.calls.length).made - x.db.dur last) ≤ p.second))) ∧
      out.Pairwise (fun a b => a.seq > b.seq) ∧
      AMap.get w.srv.conns q = some c ∧ c.batch = some bt ∧ AMap.get w'.srv.conns q = some c' ∧ c'.batch = some (bt ++ out.map fun p => (0, ⟨t.topic, p.payload⟩)) ∧
      w'.srv.out = w.srv.out ++ [(q, .acked mid)] := by
  have h0 := Spec.Mail.opened (ok := x.ok) hcap hdel h0
  obtain ⟨ok, rows, F⟩ := day_fits hv hm hb
  obtain ⟨c, hc⟩ := F.open_ _ _ hq
  obtain ⟨hk, hi⟩ : c.contract = .ok k ∧ c.insecure = insecure := by
    rcases F.roll q c hc with ⟨_, h2⟩ | ⟨k', h1, h2⟩
    · rw [hq] at h2; cases h2
    · rw [hq] at h2; cases h2; exact ⟨h1, rfl⟩
  have hn : c.client ≠ none := by
    intro hn
    simp only [SrvConn.contract, hn, Option.bind_none] at hk
    cases hk
  obtain ⟨bt, hbt⟩ := Option.isSome_iff_exists.1 ((ok.conns q c hc).batch hn)
  obtain ⟨wild, hr⟩ := hr
  simp only [onTopicRequest, ht, Option.map_some, Option.some.injEq] at hr
  obtain ⟨hvalid, hcheck⟩ : t.valid = true ∧ c.check t = .ok (.granted wild) := by
    by_cases hva : t.valid = true
    · refine ⟨hva, ?_⟩
      simp only [hva, Bool.not_true, Bool.false_eq_true, if_false] at hr
      rw [check_eq hk t, hi, hr]
    · simp only [hva, Bool.not_false, if_true] at hr
      cases hr
  simp only [Whole.step, hc, SrvM.fold, Whole.relayOne, Whole.request, ht, hvalid, Bool.not_true, Bool.false_eq_true, if_false, hcheck, hk, Except.bind, if_neg hl] at h'
  generalize hg : (w.db.get x.db (w.next x).g (storeQuery x.db.dur x.ok (w.next x).made k t.topic last) []).2 = got at h'
  have look : w'.calls = .getMsgs (w.next x).made (w.next x).g k t.topic last :: w.calls → ∃ (ps wait spoilt : List Spec.Post) (quiet : Bool) (out : List Spec.Post),
      Spec.Fluent x s0 w.calls ps wait spoilt quiet ∧ got = .out (.ok (out.map (·.payload))) ∧
      out.Perm (ps.filter fun p => !p.sub && p.contract == k && Spec.covers (Spec.topicText p.topic) t.topic && p.alive (toU32 (unixSec (x.env w.calls.length).g.now)) &&
        (decide (x.ok last = false) || decide (unixSec ((x.env w.calls.length).made - x.db.dur last) ≤ 0 ∨ unixSec ((x.env w.calls.length).made - x.db.dur last) ≤ p.second))) ∧
      out.Pairwise (fun a b => a.seq > b.seq) := by
    intro hcalls
    have ha := run_agree hs hde htest hh h0 h (hw.suffix (hcalls ▸ List.suffix_cons _ _))
    rw [hcalls] at hw
    obtain ⟨⟨ps, wait, spoilt, quiet, out, e1, e2, e3, e4⟩, _⟩ := whole_messages hs hde htest h0 ha _ _ _ _ _ hw
    rw [hg] at e2
    refine ⟨ps, wait, spoilt, quiet, out, e1, e2, ?_, e4⟩
    have el : decide (last = [] ∨ x.ok last = false) = decide (x.ok last = false) := decide_eq_decide.2 (by simp [hl])
    rw [el] at e3
    exact e3.trans (List.Perm.of_eq (List.filter_congr fun p _ => by congr 2))
  have gone : got ≠ .out .panic → got ≠ .out .running → (∀ items, got ≠ .out (.ok items)) → False := by
    intro n1 n2 n3
    have h2 : ∃ w1, ((w.did x (.getMsgs (w.next x).made (w.next x).g k t.topic last)).onSrv fun s => (s.sendMessage x.srv q 0 0 0 ⟨errorTopic, x.srv.putError mid⟩).map (·.2)) = .ok w1 ∧
        w'.calls = w1.calls := by
      have h2 := h'
      cases got with
      | err e =>
        simp only at h2
        split at h2
        · cases h2
        · next w1 hw1 => injection h2 with h2; subst h2; exact ⟨w1, hw1, rfl⟩
      | out o =>
        cases o with
        | ok items => exact absurd rfl (n3 items)
        | panic => exact absurd rfl n1
        | running => exact absurd rfl n2
        | err e =>
          simp only at h2
          split at h2
          · cases h2
          · next w1 hw1 => injection h2 with h2; subst h2; exact ⟨w1, hw1, rfl⟩
    obtain ⟨w1, e1, e2⟩ := h2
    obtain ⟨_, _, _, _, out, _, e3, _⟩ := look (by rw [e2, onSrv_calls e1]; rfl)
    exact n3 _ e3
  cases got with
  | err e => exact (gone (by simp) (by simp) (by simp)).elim
  | out g =>
  cases g with
  | err e => exact (gone (by simp) (by simp) (by simp)).elim
  | panic => cases h'
  | running => cases h'
  | ok items =>
  simp only at h'
  cases hs1 : (w.did x (.getMsgs (w.next x).made (w.next x).g k t.topic last)).onSrv
      (fun s => SrvM.fold (fun s m => (s.sendMessage x.srv q 0 2 0 ⟨t.topic, m⟩).map (·.2)) s items) with
  | error => rw [hs1] at h'; cases h'
  | ok w1 =>
  rw [hs1] at h'
  injection h' with h'
  subst h'
  obtain ⟨ps, wait, spoilt, quiet, out, e1, e2, e3, e4⟩ := look (onSrv_calls hs1)
  simp only [DGet.out.injEq, GetOut.ok.injEq] at e2
  subst e2
  simp only [Whole.onSrv] at hs1
  cases hf : SrvM.fold (fun s m => (s.sendMessage x.srv q 0 2 0 ⟨t.topic, m⟩).map (·.2)) w.srv (out.map (·.payload)) with
  | error => rw [show (w.did x (.getMsgs (w.next x).made (w.next x).g k t.topic last)).srv = w.srv from rfl, hf] at hs1; cases hs1
  | ok s1 =>
  rw [show (w.did x (.getMsgs (w.next x).made (w.next x).g k t.topic last)).srv = w.srv from rfl, hf] at hs1
  injection hs1 with hs1
  subst hs1
  obtain ⟨f1, c', f2, f3⟩ := relayed_batch _ hc hbt hf
  refine ⟨ps, wait, spoilt, quiet, out, c, c', bt, e1, e3, e4, hc, hbt, f2, by rw [f3, List.map_map]; rfl, ?_⟩
  change s1.out ++ _ = _
  rw [f1]

/-! ## A concrete history -/

section Known

variable {x : WholeEnv} {P : StoreCall → Prop} (hP : ∀ c, (∀ made g k topic, c ≠ .getSubs made g k topic) →
    (∀ made g k topic last, c ≠ .getMsgs made g k topic last) → (∀ e, c ≠ .sync e) → P c)
  (hG : ∀ n k topic, P (.getSubs (x.env n).made (x.env n).g k topic)) (hR : ∀ n k topic last, P (.getMsgs (x.env n).made (x.env n).g k topic last))

/-- All calls so far are of some kind. -/
def Known (P : StoreCall → Prop) (w : Whole) : Prop := ∀ c ∈ w.calls, P c

theorem Known.did {w : Whole} (h : Known P w) {c : StoreCall} (hc : P c) : Known P (w.did x c) := by
  intro d hd
  rcases List.mem_cons.1 hd with rfl | hd
  · exact hc
  · exact h d hd

theorem Known.onSrv {w w' : Whole} (h : Known P w) {f : Srv → SrvM Srv} (hf : w.onSrv f = .ok w') : Known P w' := by
  simp only [Whole.onSrv] at hf
  cases hs : f w.srv with
  | error => rw [hs] at hf; cases hf
  | ok s => rw [hs] at hf; injection hf with hf; subst hf; exact h

include hG in
theorem Known.publish {w w' : Whole} (h : Known P w) {p : UInt32} {c : SrvConn} {pub : DPub} {t : ReqTopic} {payload : Bytes}
    (hf : w.publish x p c pub t payload = .ok w') : Known P w' := by
  simp only [Whole.publish] at hf
  cases hk : c.contract with
  | error => rw [hk] at hf; cases hf
  | ok k =>
  rw [hk] at hf
  simp only [Except.bind] at hf
  have h1 : Known P (w.did x (.getSubs (w.next x).made (w.next x).g k t.topic)) := h.did (hG _ _ _)
  split at hf
  · split at hf
    · cases hf
    · next l _ =>
      cases hs : SrvM.fold (Srv.deliver x.srv p pub ⟨t.topic.take t.size, payload⟩) (pub.mid, w.srv) l with
      | error => rw [hs] at hf; cases hf
      | ok s => rw [hs] at hf; injection hf with hf; subst hf; exact h1
  · cases hf
  · cases hf
  · injection hf with hf; subst hf; exact h1

include hP hG in
theorem Known.publishAll {q : UInt32} {pub : DPub} (ms : List DMsg) : ∀ {w : Whole} {r : PubEnd × Whole}, Known P w → Whole.publishAll x q pub ms w = .ok r → Known P r.2 := by
  induction ms with
  | nil => intro w r h hf; injection hf with hf; subst hf; exact h
  | cons m ms ih =>
    intro w r h hf
    simp only [Whole.publishAll] at hf
    split at hf
    · injection hf with hf; subst hf; exact h
    · cases hf
    · next c t _ _ =>
      split at hf
      · injection hf with hf; subst hf; exact h
      · split at hf
        · cases hs : w.srv.special x.srv q c t m.payload with
          | error => rw [hs] at hf; cases hf
          | ok s => rw [hs] at hf; injection hf with hf; subst hf; exact h
        · cases hg : c.check t with
          | error => rw [hg] at hf; cases hf
          | ok g =>
          rw [hg] at hf
          simp only [Except.bind] at hf
          split at hf
          · injection hf with hf; subst hf; exact h
          · cases hk : c.contract with
            | error => rw [hk] at hf; cases hf
            | ok k =>
            rw [hk] at hf
            simp only at hf
            have h1 : Known P (w.did x (.putMsg (w.next x).made (w.next x).now k t.topic m.payload (w.next x).ttl)) := h.did (hP _ (by simp) (by simp) (by simp))
            split at hf
            · cases hp : (w.did x (.putMsg (w.next x).made (w.next x).now k t.topic m.payload (w.next x).ttl)).publish x q c pub t m.payload with
              | error => rw [hp] at hf; cases hf
              | ok w1 => rw [hp] at hf; exact ih (h1.publish hG hp) hf
            · injection hf with hf; subst hf; exact h1
            · cases hf
            · cases hf
          · injection hf with hf; subst hf; exact h

include hP in
theorem Known.subscribeTo {w : Whole} (h : Known P w) {q : UInt32} {mid : UInt16} {c : SrvConn} {t : ReqTopic} {a : SubAsk} {r : Option Bytes × Whole}
    (hf : w.subscribeTo x q mid c t a = .ok r) : Known P r.2 := by
  simp only [Whole.subscribeTo] at hf
  cases hk : c.contract with
  | error => rw [hk] at hf; cases hf
  | ok k =>
  rw [hk] at hf
  simp only [Except.bind] at hf
  split at hf
  · injection hf with hf; subst hf; exact h
  · have h1 : Known P (w.did x (.draw (w.next x).now)) := h.did (hP _ (by simp) (by simp) (by simp))
    split at hf
    · split at hf
      · injection hf with hf; subst hf; exact h1.did (x := x) (hP _ (by simp) (by simp) (by simp))
      · injection hf with hf; subst hf; exact h1.did (x := x) (hP _ (by simp) (by simp) (by simp))
      · cases hf
      · cases hf
    · injection hf with hf; subst hf; exact h1

include hP in
theorem Known.delete {w : Whole} (h : Known P w) {k : UInt32} {n : Nat} {topic : Bytes} {r : Option DErr × Whole} (hf : w.delete x k n topic = .ok r) : Known P r.2 := by
  simp only [Whole.delete] at hf
  split at hf
  · injection hf with hf; subst hf; exact h.did (hP _ (by simp) (by simp) (by simp))
  · injection hf with hf; subst hf; exact h.did (hP _ (by simp) (by simp) (by simp))
  · cases hf
  · cases hf

include hP in
theorem Known.unsubscribeFrom {w : Whole} (h : Known P w) {q : UInt32} {mid : UInt16} {c : SrvConn} {t : ReqTopic} {r : Option Bytes × Whole}
    (hf : w.unsubscribeFrom x q mid c t = .ok r) : Known P r.2 := by
  simp only [Whole.unsubscribeFrom] at hf
  cases hk : c.contract with
  | error => rw [hk] at hf; cases hf
  | ok k =>
  rw [hk] at hf
  simp only [Except.bind] at hf
  split at hf
  · injection hf with hf; subst hf; exact h
  · next st _ =>
    split at hf
    · cases hd : w.delete x k st.id (t.topic.take t.size) with
      | error => rw [hd] at hf; cases hf
      | ok d => rw [hd] at hf; injection hf with hf; subst hf; exact h.delete hP hd
    · injection hf with hf; subst hf; exact h

theorem Known.request {w w' : Whole} (h : Known P w) {q : UInt32} {mid : UInt16} {text : Bytes} {f : SrvConn → ReqTopic → SrvM (Option Bytes × Whole)}
    (hr : ∀ c t r, f c t = .ok r → Known P r.2) (hf : w.request x q mid text f = .ok w') : Known P w' := by
  simp only [Whole.request] at hf
  split at hf
  · injection hf with hf; subst hf; exact h
  · cases hf
  · next c t _ _ =>
    split at hf
    · exact h.onSrv hf
    · cases hg : c.check t with
      | error => rw [hg] at hf; cases hf
      | ok g =>
      rw [hg] at hf
      simp only [Except.bind] at hf
      split at hf
      · cases hq : f c t with
        | error => rw [hq] at hf; cases hf
        | ok r =>
        rw [hq] at hf
        simp only at hf
        have h1 := hr c t r hq
        split at hf
        · injection hf with hf; subst hf; exact h1
        · exact h1.onSrv hf
      · exact h.onSrv hf

include hP in
theorem Known.close {w w' : Whole} (h : Known P w) {q : UInt32} (hf : w.close x q = .ok w') : Known P w' := by
  simp only [Whole.close] at hf
  split at hf
  · injection hf with hf; subst hf; exact h
  · split at hf
    · exact h.onSrv hf
    · cases hf
    · next sub subs k _ _ =>
      cases hq : SrvM.fold (fun w (st : Bytes × SubCount) => (w.delete x k st.2.id st.2.topic).map (·.2)) w (sub :: subs) with
      | error => rw [hq] at hf; cases hf
      | ok w1 =>
      rw [hq] at hf
      refine Known.onSrv (f := (·.close q)) (SrvM.fold_inv (Known P) (fun y b r _ hy hr => ?_) h hq) hf
      cases hd : y.delete x k b.2.id b.2.topic with
      | error => rw [hd] at hr; cases hr
      | ok d => rw [hd] at hr; injection hr with hr; subst hr; exact hy.delete hP hd

theorem Known.acked {r : SrvM Whole} {q : UInt32} {mid : UInt16} {w' : Whole} (h : ∀ w, r = .ok w → Known P w)
    (hf : (r.map fun w => { w with srv := w.srv.emit q (.acked mid) }) = .ok w') : Known P w' := by
  cases r with
  | error => cases hf
  | ok w => injection hf with hf; subst hf; exact h w rfl

include hP hG in
theorem Known.handle {w w' : Whole} (h : Known P w) {q : UInt32} {p : Packet} (hf : w.handle x q p = .ok w') : Known P w' := by
  cases p with
  | connect text epoch fresh insecure asked clean =>
    simp only [Whole.handle, Whole.onConnectPacket] at hf
    split at hf
    · injection hf with hf; subst hf; exact h
    · next c _ =>
      split at hf
      · next cache _ =>
        cases hq : w.onSrv fun s => (((({ s with cache } : Srv).setConn q { c with insecure }).emit q (.connack false)).sendMessage x.srv q 0 0 0 ⟨clientIdTopic, fresh⟩).map (·.2) with
        | error => rw [hq] at hf; cases hf
        | ok w1 => rw [hq] at hf; exact (h.onSrv hq).close hP hf
      · exact h.onSrv hf
  | subscribe mid asks =>
    exact Known.acked (fun w1 h1 => SrvM.fold_inv (f := fun w (a : SubAsk) => w.request x q mid a.text fun c t => w.subscribeTo x q mid c t a) (Known P)
      (fun y b r _ hy hr => hy.request (fun c t r hr => hy.subscribeTo hP hr) hr) h h1) hf
  | unsubscribe mid texts =>
    exact Known.acked (fun w1 h1 => SrvM.fold_inv (f := fun w (text : Bytes) => w.request x q mid text fun c t => w.unsubscribeFrom x q mid c t) (Known P)
      (fun y b r _ hy hr => hy.request (fun c t r hr => hy.unsubscribeFrom hP hr) hr) h h1) hf
  | publish pub =>
    simp only [Whole.handle, Whole.onPublish] at hf
    cases hq : w.publishAll x q pub pub.msgs with
    | error => rw [hq] at hf; cases hf
    | ok r =>
    rw [hq] at hf
    simp only [Except.bind] at hf
    have h1 := Known.publishAll hP hG pub.msgs h hq
    split at hf
    · injection hf with hf; subst hf; exact h1
    · injection hf with hf; subst hf; exact h1
    · exact h1.onSrv hf
    · exact h1.onSrv hf
  | receive mid =>
    simp only [Whole.handle] at hf
    split at hf
    · injection hf with hf; subst hf; exact h
    · split at hf
      · exact h.close hP hf
      · exact h.onSrv hf
  | disconnect => exact h.close hP hf
  | relay mid asks => exact h.onSrv (f := fun s => s.handle x.srv q (.relay mid asks)) hf
  | receipt mid => exact h.onSrv (f := fun s => s.handle x.srv q (.receipt mid)) hf
  | ping => exact h.onSrv (f := fun s => s.handle x.srv q .ping) hf

include hR in
theorem Known.relayOne {w w' : Whole} (h : Known P w) {q : UInt32} {mid : UInt16} {a : Bytes × Bytes} (hf : w.relayOne x q mid a = .ok w') : Known P w' := by
  refine h.request (fun c t r hr => ?_) hf
  cases hk : c.contract with
  | error => rw [hk] at hr; cases hr
  | ok k =>
  rw [hk] at hr
  simp only [Except.bind] at hr
  have h1 : Known P (w.did x (.getMsgs (w.next x).made (w.next x).g k t.topic a.2)) := h.did (hR _ _ _ _)
  split at hr
  · injection hr with hr; subst hr; exact h
  · split at hr
    · next items _ =>
      cases hs : (w.did x (.getMsgs (w.next x).made (w.next x).g k t.topic a.2)).onSrv
          (fun s => SrvM.fold (fun s m => (s.sendMessage x.srv q 0 2 0 ⟨t.topic, m⟩).map (·.2)) s items) with
      | error => rw [hs] at hr; cases hr
      | ok w1 => rw [hs] at hr; injection hr with hr; subst hr; exact h1.onSrv hs
    · cases hr
    · cases hr
    · injection hr with hr; subst hr; exact h1

include hP hG hR in
theorem Known.run {evs : List WholeEv} (he : ∀ e, .sync e ∈ evs → P (.sync e)) {w w' : Whole} (h : Known P w) (hf : w.run x evs = .ok w') : Known P w' := by
  refine SrvM.fold_inv (Known P) (fun y ev r hev hy hr => ?_) h hf
  cases ev with
  | rotate t => injection hr with hr; subst hr; exact hy.did (hP _ (by simp) (by simp) (by simp))
  | write id t => injection hr with hr; subst hr; exact hy.did (hP _ (by simp) (by simp) (by simp))
  | sync e =>
    simp only [Whole.step] at hr
    split at hr
    · cases hr
    · injection hr with hr; subst hr; exact hy.did (he e hev)
  | relay q mid asks =>
    simp only [Whole.step] at hr
    split at hr
    · injection hr with hr; subst hr; exact hy
    · exact Known.acked (fun w1 h1 => SrvM.fold_inv (f := Whole.relayOne x q mid) (Known P) (fun y b r _ hy hr => hy.relayOne hR hr) hy h1) hr
  | srv ev =>
    cases ev with
    | accept q => exact hy.onSrv (f := fun s => s.step x.srv (.accept q)) hr
    | lost q => exact hy.close hP hr
    | packet q p =>
      simp only [Whole.step] at hr
      split at hr
      · injection hr with hr; subst hr; exact hy
      · exact hy.handle hP hG hr

end Known

/-- The toy server on the toy database. -/
def toyWhole : WholeEnv where
  srv := { toyLogged with hits := fun a b => Spec.covers (Spec.topicText a) b }
  db := .toy
  ok := toyOk
  env := fun _ => ⟨toyNow, toyNow, [], .toy⟩

/-- Queries and syncs in the toy environment. -/
def StoreCall.IsToy : StoreCall → Prop
  | .getSubs _ g _ _ => g = .toy
  | .getMsgs _ g _ _ _ => g = .toy
  | .sync e => e = .toy
  | _ => True

/-- What `Spec.Fluent` asks of one more call, in the toy environment. -/
def StoreCall.thenToy (z : ToyMail) (c : StoreCall) : Option ToyMail :=
  match c with
  | .draw now => if z.db.seq.toNat < 255 * 524287 then some { z with db := z.db.called toyWhole (.draw now) } else none
  | .putSub now k id topic payload =>
    let o := subscriptionEntry k id topic payload
    if id = newID 1600000000 z.db.seq ∧ z.db.seq.toNat < 255 * 524287 ∧ payload.length ≤ 100 ∧ id.length = 16 ∧ idSequence id = some z.db.seq ∧
        Spec.startsWithStar (Spec.topicText topic) = false ∧ (Spec.levels (Spec.topicText topic)).length ≤ 254 ∧ (∀ p ∈ z.ps, p.seq ≠ z.db.seq) ∧
        (z.db.putEntry .toy now o).2.2 = .ok
    then
      let p := Spec.postedSub .toy now k id topic payload 1600000000
      some { z with db := z.db.called toyWhole (.putSub now k id topic payload), ps := z.ps ++ [p], wait := z.wait ++ [p] }
    else none
  | .putMsg made now k topic payload ttl =>
    let o := messageEntry DbEnv.toy.dur made k topic payload ttl
    if ttl = [] ∧ toyWhole.srv.puts topic payload = .stored ∧ z.db.seq.toNat < 255 * 524287 ∧ payload.length ≤ 100 ∧
        Spec.startsWithStar (Spec.topicText topic) = false ∧ (Spec.levels (Spec.topicText topic)).length ≤ 254 ∧
        1555770000 ≤ unixSec now ∧ unixSec now < 1555770000 + 2 ^ 32 ∧ (z.db.putEntry .toy now o).2.2 = .ok
    then
      let p := Spec.postedMsg .toy made now z.db k topic payload ttl
      some { z with db := z.db.called toyWhole (.putMsg made now k topic payload ttl), ps := z.ps ++ [p], wait := z.wait ++ [p] }
    else none
  | .getSubs made g k topic =>
    if topic = [98, 46, 99] ∧ toySeeks z.db z.ps true k [98, 46, 99] ∧
        (∀ p ∈ z.ps, p.sub = true → p.contract = k → Spec.covers (Spec.topicText p.topic) [98, 46, 99] = true → p.alive (toU32 (unixSec GetEnv.toy.now)) = true) ∧
        (z.ps.filter fun p => p.sub && p.contract == k && Spec.covers (Spec.topicText p.topic) [98, 46, 99]).length ≤ 1000
    then some { z with db := z.db.called toyWhole (.getSubs made g k topic), quiet := z.quiet && z.wait.isEmpty }
    else none
  | .getMsgs made g k topic last =>
    if topic = [98, 46, 99] ∧ toySeeks z.db z.ps false k [98, 46, 99] then some { z with db := z.db.called toyWhole (.getMsgs made g k topic last), quiet := z.quiet && z.wait.isEmpty }
    else none
  | .delSub _ _ _ => none
  | .rotate t =>
    if z.db.mem.cur ≤ t then
      some { z with db := z.db.called toyWhole (.rotate t), quiet := z.quiet || (z.wait.isEmpty && decide (z.db.mem.cur < t)) }
    else none
  | .write id t => some { z with db := z.db.called toyWhole (.write id t) }
  | .sync e =>
    if (∀ p ∈ z.ps, p.second ≤ 1600000000) ∧ z.db.winFile.length + 8192 * z.db.pending + 8192 ≤ 2 ^ 31 then
      (z.db.sync e).map fun y => { z with db := y.1, wait := if y.1.pending = 0 then [] else z.wait, spoilt := if z.quiet then z.spoilt else z.spoilt ++ z.wait }
    else none

/-- The same of all calls, newest first. -/
def toyFluent (s0 : Db) : List StoreCall → Option ToyMail
  | [] => some ⟨s0, [], [], [], true⟩
  | c :: l => (toyFluent s0 l).bind fun z => c.thenToy z

theorem toyFluent_sound {s0 : Db} (l : List StoreCall) : ∀ {z : ToyMail}, (∀ c ∈ l, c.IsToy) → toyFluent s0 l = some z →
    z.db = Db.since toyWhole s0 l ∧ Spec.Fluent toyWhole s0 l z.ps z.wait z.spoilt z.quiet := by
  induction l with
  | nil => intro z _ h; injection h with h; subst h; exact ⟨rfl, .start⟩
  | cons c l ih =>
    intro z hc h
    simp only [toyFluent, Option.bind_eq_some_iff] at h
    obtain ⟨y, h1, h2⟩ := h
    obtain ⟨g1, g2⟩ := ih (fun d hd => hc d (by simp [hd])) h1
    have hc := hc c (by simp)
    cases c with
    | draw now =>
      simp only [StoreCall.thenToy] at h2
      split at h2
      · next hq => injection h2 with h2; subst h2; exact ⟨by simp only [Db.since, g1], .draw now g2 (g1 ▸ hq)⟩
      · cases h2
    | putSub now k id topic payload =>
      simp only [StoreCall.thenToy] at h2
      split at h2
      · next hq =>
        obtain ⟨q1, q2, q3, q4, q5, q6, q7, q8, q9⟩ := hq
        injection h2 with h2; subst h2
        refine ⟨by simp only [Db.since, g1], .putSub now 1600000000 k _ id topic payload g2 q1 (g1 ▸ q2) ?_ (by simp [Spec.Era]) (g1 ▸ q9)⟩
        refine ⟨saneToy _ ?_ (by simp only [subscriptionEntry]; omega), rfl, rfl, q6, q7, ?_⟩
        · intro b hb
          cases hb
          exact q4
        · intro id' q hi hq
          cases hi
          rw [q5] at hq
          cases hq
          refine ⟨g1 ▸ Nat.le_refl _, ?_⟩
          intro m hm
          obtain ⟨p, hp, rfl⟩ := List.mem_map.1 hm
          exact q8 p hp
      · cases h2
    | putMsg made now k topic payload ttl =>
      simp only [StoreCall.thenToy] at h2
      split at h2
      · next hq =>
        obtain ⟨q0, q1, q2, q3, q4, q5, q6, q7, q8⟩ := hq
        subst q0
        injection h2 with h2; subst h2
        have := Spec.Fluent.putMsg (x := toyWhole) made now k topic payload [] g2 q1 (g1 ▸ q2)
          ⟨saneToy _ (by intro b hb; cases hb) (by simp only [messageEntry]; omega), rfl, rfl, q4, q5, by intro id q hi hq; cases hi⟩ ⟨q6, q7⟩ (g1 ▸ q8)
        rw [← g1] at this
        exact ⟨by simp only [Db.since, g1], this⟩
      · cases h2
    | getSubs made g k topic =>
      change g = .toy at hc
      subst hc
      simp only [StoreCall.thenToy] at h2
      split at h2
      · next hq =>
        obtain ⟨q0, q1, q2, q3⟩ := hq
        subst q0
        injection h2 with h2; subst h2
        exact ⟨by simp only [Db.since, g1], .getSubs made .toy k [98, 46, 99] g2 (g1 ▸ toySeeks_seeks q1) q2 q3⟩
      · cases h2
    | getMsgs made g k topic last =>
      change g = .toy at hc
      subst hc
      simp only [StoreCall.thenToy] at h2
      split at h2
      · next hq =>
        obtain ⟨q0, q1⟩ := hq
        subst q0
        injection h2 with h2; subst h2
        exact ⟨by simp only [Db.since, g1], .getMsgs made .toy k [98, 46, 99] last g2 (g1 ▸ toySeeks_seeks q1)⟩
      · cases h2
    | delSub k id topic => cases h2
    | rotate t =>
      simp only [StoreCall.thenToy] at h2
      split at h2
      · next hq =>
        injection h2 with h2; subst h2
        have := Spec.Fluent.rotate t g2 (g1 ▸ hq)
        rw [← g1] at this
        exact ⟨by simp only [Db.since, g1], this⟩
      · cases h2
    | write id t => injection h2 with h2; subst h2; exact ⟨by simp only [Db.since, g1], .write id t g2⟩
    | sync e =>
      change e = .toy at hc
      subst hc
      simp only [StoreCall.thenToy] at h2
      split at h2
      · next hq =>
        obtain ⟨r, q1, q2⟩ := Option.map_eq_some_iff.1 h2
        subst q2
        rw [g1] at q1 hq
        refine ⟨by simp only [Db.since, Db.called, q1], .sync .toy g2 (by decide) (fun p hp => le_trans (hq.1 p hp) (by decide)) (fun m => List.Perm.refl _) hq.2 q1⟩
      · cases h2

/-- Client 2 reads `b.*` and `a`; the database syncs; then client 1 publishes to `b.c`. -/
def toyPlot : List WholeEv :=
  (toyConnect 1 100 7 true ++ toyConnect 2 101 7 true ++ [SrvEv.packet 2 (.subscribe 3 [⟨[107, chSlash, 98, 46, 42], 0, 0⟩, ⟨[108, chSlash, 97], 0, 0⟩])]).map .srv ++
    [.write 5001 5000, .rotate 6000, .sync .toy, .rotate 7000]

def toyNews : DPub := ⟨5, 0, [⟨[107, chSlash, 98, 46, 99], [42, 42, 42, 42]⟩]⟩

/-- The toy server on a database opened from an empty disk. -/
def toyWholeRun (evs : List WholeEv) : Option (Db × Whole) :=
  (openDb .toy {} .toy .toy 5000 {}).db?.bind fun s => (Whole.run toyWhole { db := s } evs).toOption.map fun w => (s, w)

theorem toyWhole_known {evs : List WholeEv} (he : ∀ e, .sync e ∈ evs → e = SyncEnv.toy) {s : Db} {w : Whole} (h : Whole.run toyWhole { db := s } evs = .ok w) :
    ∀ c ∈ w.calls, c.IsToy := by
  refine Known.run (x := toyWhole) (P := StoreCall.IsToy) ?_ (fun n k topic => rfl) (fun n k topic last => rfl) he (fun c hc => absurd hc (by simp)) h
  intro c h1 h2 h3
  cases c with
  | getSubs made g k topic => exact absurd rfl (h1 made g k topic)
  | getMsgs made g k topic last => exact absurd rfl (h2 made g k topic last)
  | sync e => exact absurd rfl (h3 e)
  | _ => trivial

theorem whole_of_toOption {x : SrvM Whole} {w : Whole} (h : x.toOption = some w) : x = .ok w := by
  cases x with
  | error e => cases h
  | ok w1 => injection h with h; rw [h]

/-- Without relay requests there are no answers. -/
theorem heard_plain {evs : List WholeEv} {l : List SrvEv} (h : Spec.Heard evs l) (hp : (evs.all fun | .relay _ _ _ => false | _ => true) = true) :
    l = evs.filterMap WholeEv.srv? := by
  induction h with
  | nil => rfl
  | srv ev _ ih => exact congrArg (ev :: ·) (ih hp)
  | relay q mid asks as _ _ ih => cases hp
  | rotate t _ ih => exact ih hp
  | write id t _ ih => exact ih hp
  | sync e _ ih => exact ih hp

theorem dayRun_run {v : SrvEnv} {evs : List SrvEv} : ∀ {s : Srv} {b : Spec.Desk} {r : Srv × Spec.Desk}, dayRun v evs s b = some r → s.run v evs = .ok r.1 := by
  induction evs with
  | nil => intro s b r h; injection h with h; subst h; rfl
  | cons ev evs ih =>
    intro s b r h
    simp only [dayRun] at h
    split at h
    · split at h
      · next s1 hs => simp only [Srv.run, SrvM.fold, hs]; exact ih h
      · cases h
    · cases h

theorem run_then (l : List WholeEv) : ∀ {a c d : Whole} {ev : WholeEv}, Whole.run toyWhole a l = .ok c → c.step toyWhole ev = .ok d → Whole.run toyWhole a (l ++ [ev]) = .ok d := by
  induction l with
  | nil => intro a c d ev k1 k2; injection k1 with k1; subst k1; simp only [List.nil_append, Whole.run, SrvM.fold, k2, Except.bind]
  | cons e l ih =>
    intro a c d ev k1 k2
    simp only [Whole.run, SrvM.fold, List.cons_append] at k1 ⊢
    cases he : a.step toyWhole e with
    | error => rw [he] at k1; cases k1
    | ok a1 => rw [he] at k1; exact ih k1 k2

theorem toyWhole_test : ∀ ks k, k ∈ ks → toyWhole.db.mem.test ks k = true := fun ks k hk => by simpa [toyWhole, DbEnv.toy, MEnv.one] using hk

example : toyWhole.srv.Sane ∧ toyWhole.srv.mac.cipher.Strips :=
  ⟨⟨C83_codec.1, fun _ p h => by simp only [toyWhole, toyLogged, toySrv] at h; split at h <;> cases h⟩, toyAead_strips⟩

/-- All hypotheses of C98 hold of that history: client 2 is sent what client 1 publishes. -/
example : ∃ (s0 : Db) (w w' : Whole) (b : Spec.Desk), openDb .toy {} .toy .toy 5000 {} = .ok s0 ∧ Whole.run toyWhole { db := s0 } toyPlot = .ok w ∧
    w.step toyWhole (.srv (.packet 1 (.publish toyNews))) = .ok w' ∧ Spec.Well toyWhole s0 w.calls ∧ Spec.Well toyWhole s0 w'.calls ∧ Spec.Day toyWhole.srv w.srv b ∧
    AMap.get b.roll 1 = some (7, true) ∧ (∀ m ∈ toyNews.msgs, Spec.Allowed toyWhole.srv 7 true m) ∧
    toyNews.msgs.flatMap (Spec.reached toyWhole.srv b 7 (Spec.sends toyNews)) = [(2, .pub ⟨5, 0, [⟨[98, 46, 99], [42, 42, 42, 42]⟩]⟩)] := by
  have h : ((toyWholeRun toyPlot).bind fun x => (x.2.step toyWhole (.srv (.packet 1 (.publish toyNews)))).toOption.map fun w' => (toyFluent x.1 w'.calls).isSome) = some true := by
    decide +kernel
  have hd : (dayRun toyWhole.srv (toyPlot.filterMap WholeEv.srv?) {} {}).any (fun r => decide (AMap.get r.2.roll 1 = some (7, true) ∧
      (∀ m ∈ toyNews.msgs, Spec.Allowed toyWhole.srv 7 true m) ∧
      toyNews.msgs.flatMap (Spec.reached toyWhole.srv r.2 7 (Spec.sends toyNews)) = [(2, .pub ⟨5, 0, [⟨[98, 46, 99], [42, 42, 42, 42]⟩]⟩)])) = true := by decide +kernel
  simp only [Option.bind_eq_some_iff, Option.map_eq_some_iff, toyWholeRun] at h
  obtain ⟨⟨s0, w⟩, ⟨s, g1, w1, g2, g3⟩, w', g4, g5⟩ := h
  injection g3 with g3 g6
  subst g3 g6
  have h0 := OpenOut.db?_some g1
  have h1 := whole_of_toOption g2
  have h2 := whole_of_toOption g4
  obtain ⟨z, hz⟩ := Option.isSome_iff_exists.1 g5
  have hw' : Spec.Well toyWhole s w'.calls := ⟨_, _, _, _, (toyFluent_sound _ (toyWhole_known (by
    intro e he
    simpa [toyPlot, toyConnect] using he) (run_then _ h1 h2)) hz).2⟩
  have hsuf : w1.calls <:+ w'.calls := by
    obtain ⟨_, _, f⟩ := step_follows (x := toyWhole) toyAead_sound (fun _ => rfl) toyWhole_test (fun _ _ => rfl) (Spec.Mail.opened (by decide) rfl h0) h2
    exact f.1
  have hw := hw'.suffix hsuf
  obtain ⟨r, hr, hr'⟩ := (Option.any_eq_true _ _).1 hd
  obtain ⟨evs', he, e⟩ := C98_as_table_partial toyWhole toyAead_sound (fun _ => rfl) toyWhole_test (fun _ _ => rfl) {} .toy .toy 5000 s (by decide) rfl h0 toyPlot w1 h1 hw
  rw [heard_plain he (by decide), dayRun_run hr] at e
  injection e with e
  obtain ⟨a1, a2, a3⟩ := of_decide_eq_true hr'
  exact ⟨s, w1, w', r.2, h0, h1, h2, hw, hw', e ▸ dayRun_sound .start hr, a1, a2, a3⟩

/-- Client 1 publishes to `b.c` twice. -/
def toyEarlier : List WholeEv :=
  (toyConnect 1 100 7 true ++ toyConnect 2 101 7 true ++ [SrvEv.packet 1 (.publish toyNews), .packet 1 (.publish ⟨6, 0, [⟨[107, chSlash, 98, 46, 99], [43, 43, 43, 43]⟩]⟩)]).map .srv

/-- All hypotheses of `C98_relay_partial` hold when client 2 then asks for the messages of the last hour: the batch it is sent has both, the newer first. -/
example : ∃ (s0 : Db) (w w' : Whole) (b : Spec.Desk), openDb .toy {} .toy .toy 5000 {} = .ok s0 ∧ Whole.run toyWhole { db := s0 } toyEarlier = .ok w ∧
    w.step toyWhole (.relay 2 9 [([107, chSlash, 98, 46, 99], [49, 104])]) = .ok w' ∧ Spec.Well toyWhole s0 w'.calls ∧ Spec.Day toyWhole.srv w.srv b ∧
    AMap.get b.roll 2 = some (7, true) ∧ onTopicRequest true 7 [107, chSlash, 98, 46, 99] = some (.granted false) ∧
    (AMap.get w'.srv.conns 2).bind (·.batch) = some [(0, ⟨[98, 46, 99], [43, 43, 43, 43]⟩), (0, ⟨[98, 46, 99], [42, 42, 42, 42]⟩)] := by
  have h : ((toyWholeRun toyEarlier).bind fun x => (x.2.step toyWhole (.relay 2 9 [([107, chSlash, 98, 46, 99], [49, 104])])).toOption.map fun w' =>
      (toyFluent x.1 w'.calls).isSome && decide ((AMap.get w'.srv.conns 2).bind (·.batch) = some [(0, ⟨[98, 46, 99], [43, 43, 43, 43]⟩), (0, ⟨[98, 46, 99], [42, 42, 42, 42]⟩)])) =
      some true := by
    decide +kernel
  have hd : (dayRun toyWhole.srv (toyEarlier.filterMap WholeEv.srv?) {} {}).any (fun r => decide (AMap.get r.2.roll 2 = some (7, true))) = true := by decide +kernel
  simp only [Option.bind_eq_some_iff, Option.map_eq_some_iff, toyWholeRun] at h
  obtain ⟨⟨s0, w⟩, ⟨s, g1, w1, g2, g3⟩, w', g4, g5⟩ := h
  injection g3 with g3 g6
  subst g3 g6
  rw [Bool.and_eq_true] at g5
  have h0 := OpenOut.db?_some g1
  have h1 := whole_of_toOption g2
  have h2 := whole_of_toOption g4
  obtain ⟨z, hz⟩ := Option.isSome_iff_exists.1 g5.1
  have hw' : Spec.Well toyWhole s w'.calls := ⟨_, _, _, _, (toyFluent_sound _ (toyWhole_known (by
    intro e he
    simp [toyEarlier, toyConnect] at he) (run_then _ h1 h2)) hz).2⟩
  have hsuf : w1.calls <:+ w'.calls := by
    obtain ⟨_, _, f⟩ := step_follows (x := toyWhole) toyAead_sound (fun _ => rfl) toyWhole_test (fun _ _ => rfl) (Spec.Mail.opened (by decide) rfl h0) h2
    exact f.1
  obtain ⟨r, hr, hr'⟩ := (Option.any_eq_true _ _).1 hd
  obtain ⟨evs', he, e⟩ := C98_as_table_partial toyWhole toyAead_sound (fun _ => rfl) toyWhole_test (fun _ _ => rfl) {} .toy .toy 5000 s (by decide) rfl h0 toyEarlier w1 h1 (hw'.suffix hsuf)
  rw [heard_plain he (by decide), dayRun_run hr] at e
  injection e with e
  exact ⟨s, w1, w', r.2, h0, h1, h2, hw', e ▸ dayRun_sound .start hr, of_decide_eq_true hr', by decide, Option.bind_eq_some_iff.2 (of_decide_eq_true g5.2)⟩

/-! ## Deleted subscriptions -/

/-- Clients 2 and 3 read `b.c`, client 2 leaves, client 1 publishes to it. -/
def toyLeaving : List SrvEv :=
  toyConnect 1 100 7 true ++ toyConnect 2 101 7 true ++ toyConnect 3 102 7 true ++
    [.packet 2 (.subscribe 3 [⟨[107, chSlash, 98, 46, 99], 0, 0⟩]), .packet 3 (.subscribe 3 [⟨[107, chSlash, 98, 46, 99], 0, 0⟩]), .packet 2 .disconnect,
      .packet 1 (.publish toyNews)]

/-- C98 is false once something is deleted: client 2 leaves, and what client 1 publishes no longer reaches client 3, though client 1 gets its acknowledgement. With the
ideal table client 3 is sent the message. -/
theorem C98_leaving_violated : ∃ s0 w s, openDb .toy {} .toy .toy 5000 {} = .ok s0 ∧ Whole.run toyWhole { db := s0 } (toyLeaving.map .srv) = .ok w ∧
    Srv.run toyWhole.srv {} toyLeaving = .ok s ∧ (3, .pub ⟨5, 0, [⟨[98, 46, 99], [42, 42, 42, 42]⟩]⟩) ∈ s.out ∧
    (1, .acked 5) ∈ w.srv.out ∧ w.srv.out.filter (·.1 == 3) = [(3, .connack true), (3, .acked 3)] := by
  have h : ((toyWholeRun (toyLeaving.map .srv)).map fun x => decide ((1, Sent.acked 5) ∈ x.2.srv.out ∧ x.2.srv.out.filter (·.1 == 3) = [(3, .connack true), (3, .acked 3)])) = some true := by
    decide +kernel
  have h' : ((Srv.run toyWhole.srv {} toyLeaving).toOption.map fun s => s.out.contains (3, .pub ⟨5, 0, [⟨[98, 46, 99], [42, 42, 42, 42]⟩]⟩)) = some true := by decide +kernel
  simp only [Option.bind_eq_some_iff, Option.map_eq_some_iff, toyWholeRun] at h
  obtain ⟨⟨s0, w⟩, ⟨s, g1, w1, g2, g3⟩, g4⟩ := h
  injection g3 with g3 g6
  subst g3 g6
  obtain ⟨s', k1, k2⟩ := Option.map_eq_some_iff.1 h'
  obtain ⟨a1, a2⟩ := of_decide_eq_true g4
  exact ⟨s, w1, s', OpenOut.db?_some g1, whole_of_toOption g2, run_of_toOption k1, List.contains_iff_mem.1 k2, a1, a2⟩

/-- Client 2 reads `b.c`, the database syncs, client 2 unsubscribes, client 1 publishes. -/
def toyUnsubscribed : List WholeEv :=
  (toyConnect 1 100 7 true ++ toyConnect 2 101 7 true ++ [SrvEv.packet 2 (.subscribe 3 [⟨[107, chSlash, 98, 46, 99], 0, 0⟩])]).map .srv ++
    [.write 5001 5000, .rotate 6000, .sync .toy, .srv (.packet 2 (.unsubscribe 4 [[107, chSlash, 98, 46, 99]])), .srv (.packet 1 (.publish toyNews))]

/-- C98 is false once something is deleted: client 2 is told that it no longer reads `b.c`, and is sent what is published to it. With the ideal table it is not. -/
theorem C98_unsubscribed_violated : ∃ s0 w s, openDb .toy {} .toy .toy 5000 {} = .ok s0 ∧ Whole.run toyWhole { db := s0 } toyUnsubscribed = .ok w ∧
    Srv.run toyWhole.srv {} (toyUnsubscribed.filterMap WholeEv.srv?) = .ok s ∧
    w.srv.out.filter (·.1 == 2) = [(2, .connack true), (2, .acked 3), (2, .acked 4), (2, .pub ⟨5, 0, [⟨[98, 46, 99], [42, 42, 42, 42]⟩]⟩)] ∧
    s.out.filter (·.1 == 2) = [(2, .connack true), (2, .acked 3), (2, .acked 4)] := by
  have h : ((toyWholeRun toyUnsubscribed).map fun x => decide
      (x.2.srv.out.filter (·.1 == 2) = [(2, .connack true), (2, .acked 3), (2, .acked 4), (2, .pub ⟨5, 0, [⟨[98, 46, 99], [42, 42, 42, 42]⟩]⟩)])) = some true := by
    decide +kernel
  have h' : ((Srv.run toyWhole.srv {} (toyUnsubscribed.filterMap WholeEv.srv?)).toOption.map fun s => decide
      (s.out.filter (·.1 == 2) = [(2, .connack true), (2, .acked 3), (2, .acked 4)])) = some true := by decide +kernel
  simp only [Option.bind_eq_some_iff, Option.map_eq_some_iff, toyWholeRun] at h
  obtain ⟨⟨s0, w⟩, ⟨s, g1, w1, g2, g3⟩, g4⟩ := h
  injection g3 with g3 g6
  subst g3 g6
  obtain ⟨s', k1, k2⟩ := Option.map_eq_some_iff.1 h'
  exact ⟨s, w1, s', OpenOut.db?_some g1, whole_of_toOption g2, run_of_toOption k1, of_decide_eq_true g4, of_decide_eq_true k2⟩

end Verif
