import Verif.Model.MsgStore
import Verif.Props.DbTale
import Verif.Props.Tables

/-!
# C97: the messages of a contract since a time, and its subscriptions
-/

namespace Verif

/-- A subscription that was stored or a message that was published: for which contract, until when it lives, and when it was stored. -/
structure Spec.Post where
  sub : Bool
  contract : UInt32
  topic : Bytes
  payload : Bytes
  expiry : UInt32
  seq : UInt64
  second : Int
deriving DecidableEq

/-- It has not expired at the Unix second `now`. -/
def Spec.Post.alive (p : Spec.Post) (now : UInt32) : Bool := p.expiry = 0 || decide (now < p.expiry)

/-- The message of the database for it. -/
def Spec.Post.entry (p : Spec.Post) : Spec.Message × Int :=
  (⟨dbContract (if p.sub then p.contract ^^^ connStoreId else p.contract), p.topic, p.payload, p.expiry, p.seq⟩, p.second)

/-- A new subscription, stored under an id. -/
def Spec.postedSub (v : DbEnv) (now : Int) (k : UInt32) (id topic payload : Bytes) (t : Int) : Spec.Post :=
  ⟨true, k, topic, payload, storedExpiry v.dur now topic 0, (idSequence id).getD 0, t⟩

/-- A new message; its expiry is that of `ttl`, or of its topic. -/
def Spec.postedMsg (v : DbEnv) (at_ now : Int) (s : Db) (k : UInt32) (topic payload ttl : Bytes) : Spec.Post :=
  ⟨false, k, topic, payload, storedExpiry v.dur now topic (if ttl = [] then 0 else withTTL v.dur at_ ttl), s.seq + 1, unixSec now⟩

/-- What the server does with its stores: it draws ids, stores subscriptions and messages, looks for them, and the database works in the background.
The lists are what was stored, what is still in memory, what was in memory when a Sync came after a Get had looked there, and whether no Get
has. -/
inductive Spec.Mail (v : DbEnv) (ok : Bytes → Bool) : Db → List Spec.Post → List Spec.Post → List Spec.Post → Bool → Prop
  | opened {o r e now s} : (v.mem.cap : Int) ≤ now → r.orderDel [] = [] → openDb v o r e now {} = .ok s → Spec.Mail v ok s [] [] [] true
  | newId {s ps wait spoilt quiet} (now) : Spec.Mail v ok s ps wait spoilt quiet → s.seq.toNat < 255 * 524287 →
      Spec.Mail v ok (s.newId now).1 ps wait spoilt quiet
  | subscribe {s ps wait spoilt quiet} (now t k n topic payload) : Spec.Mail v ok s ps wait spoilt quiet → s.seq.toNat < 255 * 524287 →
      Spec.Fresh v s (ps.map (·.entry.1)) (subscriptionEntry k (newID t n) topic payload) → Spec.Era t →
      (s.putEntry v now (subscriptionEntry k (newID t n) topic payload)).2.2 = .ok →
      Spec.Mail v ok (s.putEntry v now (subscriptionEntry k (newID t n) topic payload)).1 (ps ++ [Spec.postedSub v now k (newID t n) topic payload t])
        (wait ++ [Spec.postedSub v now k (newID t n) topic payload t]) spoilt quiet
  | publish {s ps wait spoilt quiet} (at_ now k topic payload ttl) : Spec.Mail v ok s ps wait spoilt quiet → s.seq.toNat < 255 * 524287 →
      Spec.Fresh v s (ps.map (·.entry.1)) (messageEntry v.dur at_ k topic payload ttl) → Spec.Era (unixSec now) →
      (s.putEntry v now (messageEntry v.dur at_ k topic payload ttl)).2.2 = .ok →
      Spec.Mail v ok (s.putEntry v now (messageEntry v.dur at_ k topic payload ttl)).1 (ps ++ [Spec.postedMsg v at_ now s k topic payload ttl])
        (wait ++ [Spec.postedMsg v at_ now s k topic payload ttl]) spoilt quiet
  | refused {s ps wait spoilt quiet} (now o e) : Spec.Mail v ok s ps wait spoilt quiet → s.seq.toNat < 255 * 524287 →
      (s.putEntry v now o).2.2 = .err e → Spec.Mail v ok (s.putEntry v now o).1 ps wait spoilt quiet
  | subscriptions {s ps wait spoilt quiet} (at_ g k topic) : Spec.Mail v ok s ps wait spoilt quiet →
      Spec.Mail v ok (s.getSubscriptions v ok at_ g k topic).1 ps wait spoilt (quiet && wait.isEmpty)
  | messages {s ps wait spoilt quiet} (at_ g k topic last) : Spec.Mail v ok s ps wait spoilt quiet →
      Spec.Mail v ok (s.getMessages v ok at_ g k topic last).1 ps wait spoilt (quiet && wait.isEmpty)
  | rotate {s ps wait spoilt quiet} (t) : Spec.Mail v ok s ps wait spoilt quiet → s.mem.cur ≤ t →
      Spec.Mail v ok { s with mem := s.mem.rotate t } ps wait spoilt (quiet || (wait.isEmpty && decide (s.mem.cur < t)))
  | write {s ps wait spoilt quiet} (id t) : Spec.Mail v ok s ps wait spoilt quiet → Spec.Mail v ok { s with mem := s.mem.write id t false } ps wait spoilt quiet
  | sync {s s' ps wait spoilt quiet r} (e : SyncEnv) : Spec.Mail v ok s ps wait spoilt quiet → 0 ≤ e.now.toInt → (∀ p ∈ ps, p.second ≤ e.now.toInt) →
      (∀ m, (e.order m).Perm m) → s.winFile.length + 8192 * s.pending + 8192 ≤ 2 ^ 31 → s.sync e = some (s', r) →
      Spec.Mail v ok s' ps (if s'.pending = 0 then [] else wait) (if quiet then spoilt else spoilt ++ wait) quiet

theorem mail_tale {v : DbEnv} {ok : Bytes → Bool} {s : Db} {ps wait spoilt : List Spec.Post} {quiet : Bool} (H : Spec.Mail v ok s ps wait spoilt quiet) :
    Spec.Tale v s (ps.map (·.entry)) (wait.map (·.entry.1)) (spoilt.map (·.entry.1)) quiet := by
  have hwe : ∀ l : List Spec.Post, (l.map (·.entry.1)).isEmpty = l.isEmpty := by intro l; cases l <;> rfl
  induction H with
  | opened h1 h2 h3 => exact .opened h1 h2 h3
  | newId now _ h1 ih => exact .newId now ih h1
  | subscribe now t k n topic payload _ h1 h2 h3 h4 ih =>
    have := ih.put now (subscriptionEntry k (newID t n) topic payload) t h1 (by rw [List.map_map]; exact h2) (.inr ⟨n, rfl⟩) h3 h4
    simp only [List.map_append, List.map_cons, List.map_nil]
    exact this
  | publish at_ now k topic payload ttl _ h1 h2 h3 h4 ih =>
    have := ih.put now (messageEntry v.dur at_ k topic payload ttl) (unixSec now) h1 (by rw [List.map_map]; exact h2) (.inl ⟨rfl, rfl⟩) h3 h4
    simp only [List.map_append, List.map_cons, List.map_nil]
    exact this
  | refused now o e _ h1 h2 ih => exact .refused now o e ih h1 h2
  | subscriptions at_ g k topic _ ih => rw [← hwe]; exact .get g _ [] ih
  | messages at_ g k topic last _ ih => rw [← hwe]; exact .get g _ [] ih
  | rotate t _ h1 ih => rw [← hwe]; exact .rotate t ih h1
  | write id t _ ih => exact .write id t ih
  | @sync s s' ps wait spoilt quiet r e _ h1 h2 h3 h4 h5 ih =>
    have := ih.sync e h1 (by
      intro m hm
      obtain ⟨p, hp, rfl⟩ := List.mem_map.1 hm
      exact h2 p hp) h3 h4 h5
    have e1 : (if s'.pending = 0 then [] else wait : List Spec.Post).map (·.entry.1) = if s'.pending = 0 then [] else wait.map (·.entry.1) := by split <;> rfl
    have e2 : (if quiet then spoilt else spoilt ++ wait : List Spec.Post).map (·.entry.1) =
        if quiet then spoilt.map (·.entry.1) else spoilt.map (·.entry.1) ++ wait.map (·.entry.1) := by
      split
      · rfl
      · rw [List.map_append]
    rw [e1, e2]
    exact this

/-- What is asked of what was stored, for a query for `topic`, of subscriptions or of messages of contract `k`: the topic has no wildcards and no
options, contracts and topics have no collisions, all that is found fits the limit of 1000 (and the database has no lower one), none of it is of the topic that was synced first, and
either reading a buffer that was given back to the pool fails, or none of it was in memory when a Sync came after a Get had looked there. -/
structure Spec.Seeks (v : DbEnv) (s : Db) (ps spoilt : List Spec.Post) (g : GetEnv) (sub : Bool) (k : UInt32) (topic : Bytes) : Prop where
  data : s.store.data.length < 2 ^ 63
  some : topic ≠ []
  size : topic.length ≤ 65536
  bare : 63 ∉ topic
  static : Spec.isStatic topic = true
  levels : (Spec.levels topic).length ≤ 255
  wins : ∀ w, (g.orderWin w).Perm w
  topics : ∀ ts, (g.orderTopics ts).Perm ts
  clash : ∀ p ∈ ps, p.entry.1.contract = dbContract (if sub then k ^^^ connStoreId else k) → p.sub = sub ∧ p.contract = k
  own : ∀ p ∈ ps, ∀ p' ∈ ps, topicHash p.entry.1.contract p.topic = topicHash p'.entry.1.contract p'.topic →
    (parseTopic p.entry.1.contract p.topic).1.parts = (parseTopic p'.entry.1.contract p'.topic).1.parts
  contracts : ∀ p ∈ ps, p.entry.1.contract ≠ wildcardHash
  hashes : ∀ p ∈ ps, ∀ l ∈ Spec.levels (Spec.topicText p.topic), Spec.isStar l = false → Hash.withSalt l p.entry.1.contract ≠ wildcardHash ∧
    ∀ t ∈ Spec.levels topic, Hash.withSalt l p.entry.1.contract = Hash.withSalt t p.entry.1.contract → l = t
  first : ∀ p ∈ ps, p.sub = sub → p.contract = k → Spec.covers (Spec.topicText p.topic) topic = true →
    (readWindowBlock s.winFile 0).map (·.topicHash) ≠ Option.some (topicHash p.entry.1.contract p.topic)
  few : (ps.filter fun p => p.sub == sub && p.contract == k && Spec.covers (Spec.topicText p.topic) topic).length ≤ 1000
  default : (1000 : Int) ≤ v.q.default
  cap : (ps.filter fun p => p.sub == sub && p.contract == k && Spec.covers (Spec.topicText p.topic) topic).length ≤ g.cap
  spoilt : v.stale = none ∨ ∀ p ∈ ps, p.sub = sub → p.contract = k → Spec.covers (Spec.topicText p.topic) topic = true → ∀ x ∈ spoilt, x.seq ≠ p.seq


theorem perm_map_inv {α β : Type} (f : α → β) : ∀ (out : List β) (l : List α), out.Perm (l.map f) → ∃ l' : List α, l'.map f = out ∧ l'.Perm l := by
  intro out
  induction out with
  | nil =>
    intro l h
    have := h.nil_eq
    rw [eq_comm, List.map_eq_nil_iff] at this
    subst this
    exact ⟨[], rfl, .refl _⟩
  | cons b out ih =>
    intro l h
    obtain ⟨x, hx, rfl⟩ := List.mem_map.1 (h.mem_iff.1 List.mem_cons_self)
    obtain ⟨l1, l2, rfl⟩ := List.append_of_mem hx
    have h2 : (l1 ++ x :: l2).Perm (x :: (l1 ++ l2)) := List.perm_middle
    obtain ⟨l', e, hp⟩ := ih (l1 ++ l2) ((h.trans (h2.map f)).cons_inv)
    exact ⟨x :: l', by rw [List.map_cons, e], (hp.cons x).trans h2.symm⟩

theorem parseKey_bare {topic : Bytes} (h0 : topic ≠ []) (hb : 63 ∉ topic) : parseKey topic = (topic, []) := by
  have h := fieldsAux_whole hb [] (by simpa using h0)
  rw [List.nil_append] at h
  have e : fields chQuery topic = [topic] := h
  rw [parseKey, e]

/-- The query of the stores, as the database takes it. -/
theorem storeQuery_ask (v : DbEnv) (ok : Bytes → Bool) (at_ now : Int) (k : UInt32) (topic last : Bytes) (h0 : topic ≠ []) (hb : 63 ∉ topic) :
    (storeQuery v.dur ok at_ k topic last).topic = topic ∧
    (storeQuery v.dur ok at_ k topic last).ask v.dur now v.q =
      ⟨dbContract k, if last = [] ∨ ok last = false then 0 else unixSec (at_ - v.dur last), if last = [] ∨ ok last = false then v.q.default else 1000⟩ := by
  have hl0 : topicLast v.dur now (parseOptions (parseKey topic).2) = none := by
    rw [parseKey_bare h0 hb]; rfl
  by_cases hl : last = [] ∨ ok last = false
  · simp only [storeQuery, if_pos hl, newQuery, Query.ask, hl0, resolveLimit]
    exact ⟨trivial, rfl⟩
  · simp only [storeQuery, if_neg hl, newQuery, Query.withLast, Query.ask]
    refine ⟨rfl, ?_⟩
    simp only [Option.bind_eq_bind, Option.bind_some, Option.pure_def, Option.getD_some, hl0, resolveLimit]
    rfl

/-- What a query of the stores finds. -/
theorem mail_get (v : DbEnv) (hs : v.mac.cipher.Sound) (hde : ∀ x, v.decode (v.encode x) = some x) (htest : ∀ ks k, k ∈ ks → v.mem.test ks k = true)
    (ok : Bytes → Bool) (s : Db) (ps wait spoilt : List Spec.Post) (quiet : Bool) (H : Spec.Mail v ok s ps wait spoilt quiet)
    (at_ : Int) (g : GetEnv) (sub : Bool) (k : UInt32) (topic last : Bytes) (A : Spec.Seeks v s ps spoilt g sub k topic) :
    ∃ out : List Spec.Post, (s.get v g (storeQuery v.dur ok at_ (if sub then k ^^^ connStoreId else k) topic last) []).2.payloads? = some (out.map (·.payload)) ∧
      out.Perm (ps.filter fun p => p.sub == sub && p.contract == k && Spec.covers (Spec.topicText p.topic) topic && p.alive (toU32 (unixSec g.now)) &&
        (decide (last = [] ∨ ok last = false) || decide (unixSec (at_ - v.dur last) ≤ 0 ∨ unixSec (at_ - v.dur last) ≤ p.second))) ∧
      out.Pairwise (fun a b => a.seq > b.seq) := by
  obtain ⟨e1, e2⟩ := storeQuery_ask v ok at_ g.now (if sub then k ^^^ connStoreId else k) topic last A.some A.bare
  have ett : Spec.topicText topic = topic := by rw [← parseKey_topic, parseKey_bare A.some A.bare]
  have hkind : ∀ p ∈ ps, p.entry.1.contract = dbContract (if sub then k ^^^ connStoreId else k) ↔ p.sub = sub ∧ p.contract = k := by
    refine fun p hp => ⟨A.clash p hp, ?_⟩
    rintro ⟨rfl, rfl⟩
    rfl
  have hsame : ∀ now cut, Spec.addressedSince (ps.map (·.entry)) (dbContract (if sub then k ^^^ connStoreId else k)) topic now cut =
      (ps.filter fun p => p.sub == sub && p.contract == k && Spec.covers (Spec.topicText p.topic) topic && p.alive now && (decide (cut ≤ 0 ∨ cut ≤ p.second))).map (·.entry) := by
    intro now cut
    rw [Spec.addressedSince, List.filter_map, ett]
    congr 1
    apply List.filter_congr
    intro p hp
    have h1 : decide (p.entry.1.contract = dbContract (if sub then k ^^^ connStoreId else k)) = (p.sub == sub && p.contract == k) := by
      rw [Bool.eq_iff_iff]
      simp only [decide_eq_true_eq, Bool.and_eq_true, beq_iff_eq]
      exact hkind p hp
    simp only [Function.comp, h1, Bool.decide_or]
    rfl
  have hin : ∀ m ∈ Spec.addressedSince (ps.map (·.entry)) (dbContract (if sub then k ^^^ connStoreId else k)) topic 0 0,
      ∃ p ∈ ps, p.entry = m ∧ p.sub = sub ∧ p.contract = k ∧ Spec.covers (Spec.topicText p.topic) topic = true := by
    intro m hm
    rw [hsame] at hm
    obtain ⟨p, hp, rfl⟩ := List.mem_map.1 hm
    simp only [List.mem_filter, Bool.and_eq_true, beq_iff_eq] at hp
    exact ⟨p, hp.1, rfl, hp.2.1.1.1.1, hp.2.1.1.1.2, hp.2.1.1.2⟩
  have hle : ∀ now, (Spec.addressedSince (ps.map (·.entry)) (dbContract (if sub then k ^^^ connStoreId else k)) topic now 0).length ≤
      (ps.filter fun p => p.sub == sub && p.contract == k && Spec.covers (Spec.topicText p.topic) topic).length := by
    intro now
    rw [hsame, List.length_map]
    refine (List.monotone_filter_right ps fun p hp => ?_).length_le
    simp only [Bool.and_eq_true] at hp ⊢
    exact hp.1.1
  have hT := mail_tale H
  obtain ⟨out, h1, h2, h3⟩ := tale_get v hs hde htest s _ _ _ quiet hT g (storeQuery v.dur ok at_ (if sub then k ^^^ connStoreId else k) topic last) A.data
    (by rw [e1]; exact A.some) (by rw [e1]; exact A.size) (by
      rw [e1, e2]
      have := hle 0
      have := A.few
      have := A.default
      by_cases hl : last = [] ∨ ok last = false
      · simp only [if_pos hl]; omega
      · simp only [if_neg hl]; omega) A.wins A.topics (by rw [e1, ett]; exact A.static) (by rw [e1, ett]; exact A.levels) (by
      intro m hm m' hm'
      obtain ⟨p, hp, rfl⟩ := List.mem_map.1 hm
      obtain ⟨p', hp', rfl⟩ := List.mem_map.1 hm'
      exact A.own p hp p' hp') (by
      intro m hm
      obtain ⟨p, hp, rfl⟩ := List.mem_map.1 hm
      exact A.contracts p hp) (by
      intro m hm
      obtain ⟨p, hp, rfl⟩ := List.mem_map.1 hm
      rw [e1, ett]
      exact A.hashes p hp) (by
      intro m hm
      rw [e1, e2] at hm
      obtain ⟨p, hp, rfl, a, b, c⟩ := hin m hm
      exact A.first p hp a b c) (by
      rw [e1, e2]
      exact Nat.le_trans (hle _) A.cap) (by
      refine A.spoilt.imp id fun h m hm hsp => ?_
      rw [e1, e2] at hm
      obtain ⟨p, hp, rfl, a, b, c⟩ := hin m hm
      obtain ⟨p', hp', e⟩ := List.mem_map.1 hsp
      exact h p hp a b c p' hp' (congrArg Spec.Message.seq e))
  rw [e1, e2] at h2
  simp only at h2
  rw [hsame] at h2
  obtain ⟨l, rfl, hp⟩ := perm_map_inv _ _ _ h2
  refine ⟨l, ?_, hp.trans (List.Perm.of_eq ?_), ?_⟩
  · rw [h1, List.map_map]; rfl
  · apply List.filter_congr
    intro p _
    congr 1
    by_cases hl : last = [] ∨ ok last = false
    · simp [hl]
    · simp [hl]
  · rw [List.pairwise_map] at h3
    exact h3

/-- C97 (partial: no subscription was left, as deletes damage the database, see C30, and what `Spec.Seeks` asks for). What the server fetches for a
topic of a contract with `last` are the payloads of exactly the messages published for that contract, whose topic covers the one asked for,
which have not expired, and which were published not longer than `last` ago, or all if `last` is no duration: each once, the newest first,
under the topic asked for. -/
theorem C97_messages_partial (v : DbEnv) (hs : v.mac.cipher.Sound) (hde : ∀ x, v.decode (v.encode x) = some x)
    (htest : ∀ ks k, k ∈ ks → v.mem.test ks k = true) (ok : Bytes → Bool) (s : Db) (ps wait spoilt : List Spec.Post) (quiet : Bool)
    (H : Spec.Mail v ok s ps wait spoilt quiet) (at_ : Int) (g : GetEnv) (k : UInt32) (topic last : Bytes) (A : Spec.Seeks v s ps spoilt g false k topic)
    (hcut : 0 < unixSec (at_ - v.dur last)) :
    ∃ out : List Spec.Post, (s.getMessages v ok at_ g k topic last).2 = some (out.map fun p => (topic, p.payload)) ∧
      out.Perm (ps.filter fun p => !p.sub && p.contract == k && Spec.covers (Spec.topicText p.topic) topic && p.alive (toU32 (unixSec g.now)) &&
        (decide (last = [] ∨ ok last = false) || decide (unixSec (at_ - v.dur last) ≤ p.second))) ∧
      out.Pairwise (fun a b => a.seq > b.seq) := by
  obtain ⟨out, h1, h2, h3⟩ := mail_get v hs hde htest ok s ps wait spoilt quiet H at_ g false k topic last A
  refine ⟨out, ?_, h2.trans (List.Perm.of_eq (List.filter_congr fun p _ => ?_)), h3⟩
  · simp only [Db.getMessages]
    rw [show (s.get v g (storeQuery v.dur ok at_ k topic last) []).2.payloads? = _ from h1, Option.map_some, List.map_map]
    rfl
  · have : ¬ unixSec (at_ - v.dur last) ≤ 0 := by omega
    simp [this]

/-- C97 (partial as above). What the server finds when it looks for the subscriptions of a contract to a topic are exactly those stored for it whose topic
covers that topic. -/
theorem C97_subscriptions_partial (v : DbEnv) (hs : v.mac.cipher.Sound) (hde : ∀ x, v.decode (v.encode x) = some x)
    (htest : ∀ ks k, k ∈ ks → v.mem.test ks k = true) (ok : Bytes → Bool) (s : Db) (ps wait spoilt : List Spec.Post) (quiet : Bool)
    (H : Spec.Mail v ok s ps wait spoilt quiet) (at_ : Int) (g : GetEnv) (k : UInt32) (topic : Bytes) (A : Spec.Seeks v s ps spoilt g true k topic) :
    ∃ out : List Spec.Post, (s.getSubscriptions v ok at_ g k topic).2 = some (out.map (·.payload)) ∧
      out.Perm (ps.filter fun p => p.sub && p.contract == k && Spec.covers (Spec.topicText p.topic) topic && p.alive (toU32 (unixSec g.now))) ∧
      out.Pairwise (fun a b => a.seq > b.seq) := by
  obtain ⟨out, h1, h2, h3⟩ := mail_get v hs hde htest ok s ps wait spoilt quiet H at_ g true k topic [] A
  refine ⟨out, h1, h2.trans (List.Perm.of_eq (List.filter_congr fun p _ => ?_)), h3⟩
  simp

/-! ## A concrete history -/

structure ToyMail where
  db : Db
  ps : List Spec.Post := []
  wait : List Spec.Post := []
  spoilt : List Spec.Post := []
  quiet : Bool := true

/-- What happens in the toy environment. -/
inductive ToyMailOp where
  | sub (k : UInt32) (topic payload : Bytes)
  | pub (ago : Int) (k : UInt32) (topic payload : Bytes)
  | ask (k : UInt32) (topic last : Bytes)
  | write (id t : Int)
  | rotate (t : Int)
  | sync

/-- Every duration is accepted; all have length 0 in the toy environment. -/
def toyOk : Bytes → Bool := fun d => d == [49, 104]

def ToyMailOp.then (x : ToyMail) : ToyMailOp → Option ToyMail
  | .sub k topic payload =>
    let s := (x.db.newId toyNow).1
    let o := subscriptionEntry k (newID 1600000000 s.seq) topic payload
    if x.db.seq.toNat < 255 * 524287 ∧ s.seq.toNat < 255 * 524287 ∧ payload.length ≤ 100 ∧ (newID 1600000000 s.seq).length = 16 ∧ idSequence (newID 1600000000 s.seq) = some s.seq ∧
        Spec.startsWithStar (Spec.topicText topic) = false ∧ (Spec.levels (Spec.topicText topic)).length ≤ 254 ∧ (∀ p ∈ x.ps, p.seq ≠ s.seq) ∧
        (s.putEntry .toy toyNow o).2.2 = .ok
    then
      let p := Spec.postedSub .toy toyNow k (newID 1600000000 s.seq) topic payload 1600000000
      some { x with db := (s.putEntry .toy toyNow o).1, ps := x.ps ++ [p], wait := x.wait ++ [p] }
    else none
  | .pub ago k topic payload =>
    let now := toyNow - ago * 1000000000
    let o := messageEntry DbEnv.toy.dur now k topic payload []
    if x.db.seq.toNat < 255 * 524287 ∧ payload.length ≤ 100 ∧
        Spec.startsWithStar (Spec.topicText topic) = false ∧ (Spec.levels (Spec.topicText topic)).length ≤ 254 ∧
        1555770000 ≤ unixSec now ∧ unixSec now < 1555770000 + 2 ^ 32 ∧ (x.db.putEntry .toy now o).2.2 = .ok
    then
      let p := Spec.postedMsg .toy now now x.db k topic payload []
      some { x with db := (x.db.putEntry .toy now o).1, ps := x.ps ++ [p], wait := x.wait ++ [p] }
    else none
  | .ask k topic last => some { x with db := (x.db.getMessages .toy toyOk toyNow .toy k topic last).1, quiet := x.quiet && x.wait.isEmpty }
  | .write id t => some { x with db := { x.db with mem := x.db.mem.write id t false } }
  | .rotate t =>
    if x.db.mem.cur ≤ t then
      some { x with db := { x.db with mem := x.db.mem.rotate t }, quiet := x.quiet || (x.wait.isEmpty && decide (x.db.mem.cur < t)) }
    else none
  | .sync =>
    if (∀ p ∈ x.ps, p.second ≤ 1600000000) ∧ x.db.winFile.length + 8192 * x.db.pending + 8192 ≤ 2 ^ 31 then
      (x.db.sync .toy).map fun y => { x with db := y.1, wait := if y.1.pending = 0 then [] else x.wait, spoilt := if x.quiet then x.spoilt else x.spoilt ++ x.wait }
    else none

def ToyMail.Holds (x : ToyMail) : Prop := Spec.Mail .toy toyOk x.db x.ps x.wait x.spoilt x.quiet

theorem ToyMailOp.then_holds {x y : ToyMail} {op : ToyMailOp} (H : x.Holds) (h : op.then x = some y) : y.Holds := by
  cases op with
  | sub k topic payload =>
    simp only [ToyMailOp.then] at h
    split at h
    · next hc =>
      obtain ⟨h0, h1, h2, h3, h4, h5, h6, h7, h8⟩ := hc
      injection h with h
      subst h
      have H' := Spec.Mail.newId toyNow H h0
      refine Spec.Mail.subscribe toyNow 1600000000 k (x.db.newId toyNow).1.seq topic payload H' h1 ⟨saneToy _ ?_ (by simp only [subscriptionEntry]; omega), rfl, rfl, h5, h6, ?_⟩ (by simp [Spec.Era]) h8
      · intro b hb
        cases hb
        exact h3
      · intro id q hi hq
        cases hi
        rw [h4] at hq
        cases hq
        refine ⟨Nat.le_refl _, ?_⟩
        intro m hm
        obtain ⟨p, hp, rfl⟩ := List.mem_map.1 hm
        exact h7 p hp
    · cases h
  | pub ago k topic payload =>
    simp only [ToyMailOp.then] at h
    split at h
    · next hc =>
      obtain ⟨h1, h2, h5, h6, h7, h9, h8⟩ := hc
      injection h with h
      subst h
      refine Spec.Mail.publish _ _ k topic payload [] H h1 ⟨saneToy _ ?_ (by simp only [messageEntry]; omega), rfl, rfl, h5, h6, ?_⟩ ⟨h7, h9⟩ h8
      · intro b hb
        cases hb
      · intro id q hi hq
        cases hi
    · cases h
  | ask k topic last => cases h; exact Spec.Mail.messages toyNow .toy k topic last H
  | write id t => cases h; exact Spec.Mail.write id t H
  | rotate t =>
    simp only [ToyMailOp.then] at h
    split at h
    · next hc => cases h; exact Spec.Mail.rotate t H hc
    · cases h
  | sync =>
    simp only [ToyMailOp.then] at h
    split at h
    · next hc =>
      obtain ⟨y', h1, h2⟩ := Option.map_eq_some_iff.1 h
      subst h2
      exact Spec.Mail.sync .toy H (by decide) (fun p hp => le_trans (hc.1 p hp) (by decide)) (fun m => List.Perm.refl _) hc.2 h1
    · cases h

theorem toyMail_holds (ops : List ToyMailOp) : ∀ {x y : ToyMail}, x.Holds → ops.foldlM ToyMailOp.then x = some y → y.Holds := by
  induction ops with
  | nil => intro x y H h; cases h; exact H
  | cons op ops ih =>
    intro x y H h
    rw [List.foldlM_cons, Option.bind_eq_bind, Option.bind_eq_some_iff] at h
    obtain ⟨z, h1, h2⟩ := h
    exact ih (ToyMailOp.then_holds H h1) h2

/-- Such a history from an empty disk. -/
def toyMailed (ops : List ToyMailOp) : Option ToyMail := (openDb .toy {} .toy .toy 5000 {}).db?.bind fun s => ops.foldlM ToyMailOp.then ⟨s, [], [], [], true⟩

/-- For contract 7 a subscription to `b.*` and a message of `b.c`, ten seconds ago, and a message of contract 9. These are synced, then a message of `b.c` is published. -/
def toyPostbox : List ToyMailOp :=
  [.sub 7 [98, 46, 42] (writeSubscription 1 5 0), .pub 10 7 [98, 46, 99] [2, 2, 2, 2], .pub 0 9 [97] [1, 1, 1, 1], .write 5001 5000, .rotate 6000, .sync, .rotate 7000,
    .pub 0 7 [98, 46, 99] [3, 3, 3, 3], .ask 7 [98, 46, 99] []]

/-- What `Spec.Seeks` asks for, in the toy environment. -/
def toySeeks (s : Db) (ps : List Spec.Post) (sub : Bool) (k : UInt32) (topic : Bytes) : Prop :=
  s.store.data.length < 2 ^ 63 ∧
  (∀ p ∈ ps, p.entry.1.contract = dbContract (if sub then k ^^^ connStoreId else k) → p.sub = sub ∧ p.contract = k) ∧
  (∀ p ∈ ps, ∀ p' ∈ ps, topicHash p.entry.1.contract p.topic = topicHash p'.entry.1.contract p'.topic →
    (parseTopic p.entry.1.contract p.topic).1.parts = (parseTopic p'.entry.1.contract p'.topic).1.parts) ∧
  (∀ p ∈ ps, p.entry.1.contract ≠ wildcardHash) ∧
  (∀ p ∈ ps, ∀ l ∈ Spec.levels (Spec.topicText p.topic), Spec.isStar l = false → Hash.withSalt l p.entry.1.contract ≠ wildcardHash ∧
    ∀ t ∈ Spec.levels topic, Hash.withSalt l p.entry.1.contract = Hash.withSalt t p.entry.1.contract → l = t) ∧
  (∀ p ∈ ps, p.sub = sub → p.contract = k → Spec.covers (Spec.topicText p.topic) topic = true →
    (readWindowBlock s.winFile 0).map (·.topicHash) ≠ Option.some (topicHash p.entry.1.contract p.topic)) ∧
  (ps.filter fun p => p.sub == sub && p.contract == k && Spec.covers (Spec.topicText p.topic) topic).length ≤ 1000 ∧
  (ps.filter fun p => p.sub == sub && p.contract == k && Spec.covers (Spec.topicText p.topic) topic).length ≤ GetEnv.toy.cap

instance (s : Db) (ps : List Spec.Post) (sub : Bool) (k : UInt32) (topic : Bytes) : Decidable (toySeeks s ps sub k topic) := by
  unfold toySeeks; infer_instance

theorem toySeeks_seeks {s : Db} {ps spoilt : List Spec.Post} {sub : Bool} {k : UInt32} (h : toySeeks s ps sub k [98, 46, 99]) :
    Spec.Seeks .toy s ps spoilt .toy sub k [98, 46, 99] :=
  let ⟨a, b, c, d, e, f, g, i⟩ := h
  ⟨a, by decide, by decide, by decide, by decide +kernel, by decide +kernel, fun _ => .refl _, fun _ => .refl _, b, c, d, e, f, g, by decide, i, .inl rfl⟩

/-- All hypotheses of C97 hold of that history and `b.c` of contract 7: both messages are fetched, only one of them with `1h`, and the subscription is found. -/
example : ∃ (s : Db) (ps wait spoilt : List Spec.Post) (quiet : Bool), Spec.Mail .toy toyOk s ps wait spoilt quiet ∧
    Spec.Seeks .toy s ps spoilt .toy false 7 [98, 46, 99] ∧ Spec.Seeks .toy s ps spoilt .toy true 7 [98, 46, 99] ∧ 0 < unixSec (toyNow - DbEnv.toy.dur [49, 104]) ∧
    (s.getMessages .toy toyOk toyNow .toy 7 [98, 46, 99] []).2 = some [([98, 46, 99], [3, 3, 3, 3]), ([98, 46, 99], [2, 2, 2, 2])] ∧
    (s.getMessages .toy toyOk toyNow .toy 7 [98, 46, 99] [49, 104]).2 = some [([98, 46, 99], [3, 3, 3, 3])] ∧
    (s.getSubscriptions .toy toyOk toyNow .toy 7 [98, 46, 99]).2 = some [writeSubscription 1 5 0] := by
  have h : ((toyMailed toyPostbox).map fun x => decide (toySeeks x.db x.ps false 7 [98, 46, 99] ∧ toySeeks x.db x.ps true 7 [98, 46, 99] ∧
      (x.db.getMessages .toy toyOk toyNow .toy 7 [98, 46, 99] []).2 = some [([98, 46, 99], [3, 3, 3, 3]), ([98, 46, 99], [2, 2, 2, 2])] ∧
      (x.db.getMessages .toy toyOk toyNow .toy 7 [98, 46, 99] [49, 104]).2 = some [([98, 46, 99], [3, 3, 3, 3])] ∧
      (x.db.getSubscriptions .toy toyOk toyNow .toy 7 [98, 46, 99]).2 = some [writeSubscription 1 5 0])) = some true := by decide +kernel
  rw [Option.map_eq_some_iff] at h
  obtain ⟨x, h1, h2⟩ := h
  obtain ⟨h3, h4, h5, h6, h7⟩ := of_decide_eq_true h2
  simp only [toyMailed, Option.bind_eq_some_iff] at h1
  obtain ⟨s, g1, g2⟩ := h1
  exact ⟨x.db, x.ps, x.wait, x.spoilt, x.quiet, toyMail_holds _ (x := ⟨s, [], [], [], true⟩) (Spec.Mail.opened (by decide) rfl (OpenOut.db?_some g1)) g2, toySeeks_seeks h3, toySeeks_seeks h4, by decide, h5, h6, h7⟩

/-! ## Deleted subscriptions -/

/-- C97 is false once a subscription is deleted: of two subscriptions to `b.c`, neither synced, the first is deleted. The subscriptions of
`b.c` can no longer be fetched, and a message published to it reaches nobody (conn.go:254-258). -/
theorem C97_unsubscribe_violated : (toyMailed [.sub 7 [98, 46, 99] (writeSubscription 1 5 0), .sub 7 [98, 46, 99] (writeSubscription 1 6 0)]).map
      (fun x => let d := x.db.deleteSubscription .toy 7 (newID 1600000000 1) [98, 46, 99]
        ((x.db.getSubscriptions .toy toyOk toyNow .toy 7 [98, 46, 99]).2, d.2, (d.1.getSubscriptions .toy toyOk toyNow .toy 7 [98, 46, 99]).2)) =
    some (some [writeSubscription 1 6 0, writeSubscription 1 5 0], .ok, none) := by decide +kernel

/-- C97 is false once a subscription is deleted: one that was synced is still found, and messages go on to its connection. -/
theorem C97_still_subscribed_violated : (toyMailed [.sub 7 [98, 46, 99] (writeSubscription 1 5 0), .write 5001 5000, .rotate 6000, .sync]).map
      (fun x => let d := x.db.deleteSubscription .toy 7 (newID 1600000000 1) [98, 46, 99]
        (d.2, (d.1.getSubscriptions .toy toyOk toyNow .toy 7 [98, 46, 99]).2)) =
    some (.ok, some [writeSubscription 1 5 0]) := by decide +kernel

end Verif
