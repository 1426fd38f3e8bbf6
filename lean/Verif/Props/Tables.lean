import Verif.Model.Tables

/-!
# C86: subscriptions and messages are kept apart
-/

namespace Verif

/-- Two tables: the subscriptions of the clients of each contract, and their messages, newest first. -/
structure Spec.Tables where
  subs : List (Nat × UInt32 × Bytes × UInt8 × UInt32 × UInt32) := []
  msgs : List (UInt32 × Bytes × Bytes) := []

def Spec.Tables.subscriptions (v : TabEnv) (t : Spec.Tables) (k : UInt32) (topic : Bytes) : List (UInt8 × UInt32 × UInt32) :=
  ((t.subs.filter fun r => r.2.1 == k && v.hits r.2.2.1 topic).take v.limit).map (·.2.2.2)

def Spec.Tables.messages (v : TabEnv) (t : Spec.Tables) (k : UInt32) (topic : Bytes) : List Bytes :=
  ((t.msgs.filter fun r => r.1 == k && v.hits r.2.1 topic).take v.limit).map (·.2.2)

/-- What a call does to the tables; a new subscription gets the id `next`. -/
def Spec.Tables.after (t : Spec.Tables) (next : Nat) : TabCall → Spec.Tables
  | .sub k topic mode conn delay => { t with subs := (next, k, topic, mode, conn, delay) :: t.subs }
  | .unsub id => { t with subs := t.subs.filter (·.1 != id) }
  | .pub k topic payload => { t with msgs := (k, topic, payload) :: t.msgs }

/-- A call by clients of these contracts; only a subscription is left, and it has been made. -/
def Spec.Tables.Allows (S : UInt32 → Prop) (t : Spec.Tables) : TabCall → Prop
  | .sub k _ _ _ _ => S k
  | .unsub id => ∃ r ∈ t.subs, r.1 = id
  | .pub k _ _ => S k

/-- The database after calls by clients of the contracts `S`. -/
inductive Spec.Kept (S : UInt32 → Prop) : TabDb → Spec.Tables → Prop
  | start : Spec.Kept S {} {}
  | call {d : TabDb} {t : Spec.Tables} {c : TabCall} : Spec.Kept S d t → t.Allows S c → Spec.Kept S (d.call c) (t.after d.next c)

/-- No two contracts of `S` share records. -/
def Spec.NoClash (S : UInt32 → Prop) : Prop :=
  ∀ a b, S a → S b → dbContract (a ^^^ connStoreId) ≠ dbContract b ∧ (dbContract a = dbContract b → a = b) ∧ (dbContract (a ^^^ connStoreId) = dbContract (b ^^^ connStoreId) → a = b)

/-! ## Proof -/

def subRow (r : Nat × UInt32 × Bytes × UInt8 × UInt32 × UInt32) : TabRow := ⟨r.1, dbContract (r.2.1 ^^^ connStoreId), r.2.2.1, writeSubscription r.2.2.2.1 r.2.2.2.2.1 r.2.2.2.2.2⟩

theorem readSubscription_write (mode : UInt8) (conn delay : UInt32) : readSubscription (writeSubscription mode conn delay) = some (mode, conn, delay) := by
  have h1 : get32 (writeSubscription mode conn delay) 1 = some conn := get32_mid [mode] conn (put32 delay) 1 rfl
  have h2 : get32 (writeSubscription mode conn delay) 5 = some delay := by
    have := get32_mid (mode :: put32 conn) delay [] 5 (by simp)
    rw [List.append_nil] at this
    exact this
  have h3 : (writeSubscription mode conn delay).head? = some mode := rfl
  simp [readSubscription, h1, h2, h3]

/-- The rows of the database are those of the two tables. -/
structure TabHolds (S : UInt32 → Prop) (d : TabDb) (t : Spec.Tables) : Prop where
  subs : ∀ k, S k → d.rows.filter (fun r => r.contract == dbContract (k ^^^ connStoreId)) = (t.subs.filter fun r => r.2.1 == k).map subRow
  msgs : ∀ k, S k → (d.rows.filter fun r => r.contract == dbContract k).map (fun r => (k, r.topic, r.payload)) = t.msgs.filter fun r => r.1 == k
  fresh : ∀ r ∈ d.rows, r.id < d.next
  known : ∀ r ∈ t.subs, S r.2.1 ∧ r.1 < d.next
  apart : ∀ k, S k → ∀ r ∈ d.rows, r.contract = dbContract k → ∀ x ∈ t.subs, r.id ≠ x.1

theorem TabHolds.call {S : UInt32 → Prop} (hS : Spec.NoClash S) {d : TabDb} {t : Spec.Tables} (h : TabHolds S d t) {c : TabCall} (ha : t.Allows S c) :
    TabHolds S (d.call c) (t.after d.next c) := by
  cases c with
  | sub k topic mode conn delay =>
    have ha : S k := ha
    refine ⟨?_, ?_, ?_, ?_, ?_⟩
    · intro k' hk'
      have := h.subs k' hk'
      by_cases e : k = k'
      · subst e
        simp [TabDb.call, TabDb.subscribe, TabDb.put, Spec.Tables.after, this, subRow]
      · have : ¬ dbContract (k ^^^ connStoreId) = dbContract (k' ^^^ connStoreId) := fun x => e ((hS k k' ha hk').2.2 x)
        simp [TabDb.call, TabDb.subscribe, TabDb.put, Spec.Tables.after, this, e, h.subs k' hk']
    · intro k' hk'
      have : ¬ dbContract (k ^^^ connStoreId) = dbContract k' := (hS k k' ha hk').1
      simp [TabDb.call, TabDb.subscribe, TabDb.put, Spec.Tables.after, this, h.msgs k' hk']
    · intro r hr
      rcases List.mem_cons.1 hr with rfl | hr
      · exact Nat.lt_succ_self _
      · exact Nat.lt_succ_of_lt (h.fresh r hr)
    · intro r hr
      rcases List.mem_cons.1 hr with rfl | hr
      · exact ⟨ha, Nat.lt_succ_self _⟩
      · exact ⟨(h.known r hr).1, Nat.lt_succ_of_lt (h.known r hr).2⟩
    · intro k' hk' r hr hc x hx
      rcases List.mem_cons.1 hr with rfl | hr
      · exact absurd hc (hS k k' ha hk').1
      · rcases List.mem_cons.1 hx with rfl | hx
        · exact Nat.ne_of_lt (h.fresh r hr)
        · exact h.apart k' hk' r hr hc x hx
  | unsub id =>
    obtain ⟨x, hx, rfl⟩ := ha
    refine ⟨?_, ?_, ?_, ?_, ?_⟩
    · intro k hk
      have := congrArg (List.filter fun r : TabRow => r.id != x.1) (h.subs k hk)
      rw [List.filter_filter, List.filter_map, List.filter_filter] at this
      simp only [TabDb.call, TabDb.delete, Spec.Tables.after, List.filter_filter]
      simp only [Bool.and_comm (_ != _)] at this
      rw [this]
      congr 1
      exact List.filter_congr fun r _ => by simp [subRow, Bool.and_comm]
    · intro k hk
      have e : (d.rows.filter (·.id != x.1)).filter (fun r => r.contract == dbContract k) = d.rows.filter fun r => r.contract == dbContract k := by
        rw [List.filter_filter]
        refine List.filter_congr fun r hr => ?_
        by_cases hc : r.contract = dbContract k
        · simp [hc, h.apart k hk r hr hc x hx]
        · simp [hc]
      simp only [TabDb.call, TabDb.delete, Spec.Tables.after]
      rw [e]
      exact h.msgs k hk
    · intro r hr; exact h.fresh r (List.mem_filter.1 hr).1
    · intro r hr; exact h.known r (List.mem_filter.1 hr).1
    · intro k hk r hr hc y hy; exact h.apart k hk r (List.mem_filter.1 hr).1 hc y (List.mem_filter.1 hy).1
  | pub k topic payload =>
    have ha : S k := ha
    refine ⟨?_, ?_, ?_, ?_, ?_⟩
    · intro k' hk'
      have : ¬ dbContract k = dbContract (k' ^^^ connStoreId) := fun e => (hS k' k hk' ha).1 e.symm
      simp [TabDb.call, TabDb.publish, TabDb.put, Spec.Tables.after, this, h.subs k' hk']
    · intro k' hk'
      have := h.msgs k' hk'
      by_cases e : k = k'
      · subst e
        simp [TabDb.call, TabDb.publish, TabDb.put, Spec.Tables.after, this]
      · have hn : ¬ dbContract k = dbContract k' := fun x => e ((hS k k' ha hk').2.1 x)
        simp [TabDb.call, TabDb.publish, TabDb.put, Spec.Tables.after, hn, e, this]
    · intro r hr
      rcases List.mem_cons.1 hr with rfl | hr
      · exact Nat.lt_succ_self _
      · exact Nat.lt_succ_of_lt (h.fresh r hr)
    · intro r hr
      exact ⟨(h.known r hr).1, Nat.lt_succ_of_lt (h.known r hr).2⟩
    · intro k' hk' r hr hc x hx
      rcases List.mem_cons.1 hr with rfl | hr
      · exact Nat.ne_of_gt (h.known x hx).2
      · exact h.apart k' hk' r hr hc x hx

/-- C86 (partial: no contract in use clashes with another one, see the theorems below). A query for subscriptions returns the subscriptions made for the contract, a query for messages its
messages, as if they were in two tables; every subscription can be read. -/
theorem C86_apart_partial (v : TabEnv) (S : UInt32 → Prop) (hS : Spec.NoClash S) (d : TabDb) (t : Spec.Tables) (h : Spec.Kept S d t) (k : UInt32) (hk : S k) (topic : Bytes) :
    (d.subscriptions v k topic).map readSubscription = (t.subscriptions v k topic).map some ∧ d.messages v k topic = t.messages v k topic := by
  have H : TabHolds S d t := by
    induction h with
    | start => exact ⟨fun _ _ => rfl, fun _ _ => rfl, fun r hr => (by cases hr), fun r hr => (by cases hr), fun _ _ r hr => (by cases hr)⟩
    | call _ ha ih => exact ih.call hS ha
  constructor
  · have := congrArg (List.filter fun r : TabRow => v.hits r.topic topic) (H.subs k hk)
    rw [List.filter_filter, List.filter_map, List.filter_filter] at this
    simp only [TabDb.subscriptions, TabDb.get, Spec.Tables.subscriptions]
    simp only [Bool.and_comm (v.hits _ _)] at this
    rw [this, ← List.map_take, List.map_map, List.map_map, List.map_map]
    simp only [Function.comp_def, subRow, readSubscription_write, Bool.and_comm]
  · have := congrArg (List.filter fun r : UInt32 × Bytes × Bytes => v.hits r.2.1 topic) (H.msgs k hk)
    rw [List.filter_filter, List.filter_map, List.filter_filter] at this
    simp only [TabDb.messages, TabDb.get, Spec.Tables.messages]
    simp only [Bool.and_comm (v.hits _ _), Function.comp_def] at this
    rw [← this, ← List.map_take, List.map_map]
    simp only [Function.comp_def]

def toyKept : List TabCall := [.sub 7 [120] 1 2 0, .pub 7 [120] [42], .sub 8 [120] 0 3 0, .sub 7 [121] 0 3 5, .unsub 0]

example : Spec.NoClash (· ∈ [7, 8]) ∧ ∃ t, Spec.Kept (· ∈ [7, 8]) (toyKept.foldl TabDb.call {}) t := by
  simp only [toyKept, List.foldl_cons, List.foldl_nil]
  refine ⟨?_, ⟨_, .call (.call (.call (.call (.call .start ?_) ?_) ?_) ?_) ?_⟩⟩
  · intro a b ha hb
    simp only [List.mem_cons, List.not_mem_nil, or_false] at ha hb
    rcases ha with rfl | rfl <;> rcases hb with rfl | rfl <;> decide
  · show (7 : UInt32) ∈ [7, 8]; decide
  · show (7 : UInt32) ∈ [7, 8]; decide
  · show (8 : UInt32) ∈ [7, 8]; decide
  · show (7 : UInt32) ∈ [7, 8]; decide
  · exact ⟨(0, 7, [120], 1, 2, 0), by decide, rfl⟩

/-- C86, violated: for every contract there is another one, and a message of less than nine bytes that a client of the other one publishes is taken for a subscription when a client of the
first publishes on the topic; reading it stops the server. -/
theorem C86_panic_violated (v : TabEnv) (hl : 0 < v.limit) (k : UInt32) (topic : Bytes) (ht : v.hits topic topic = true) (payload : Bytes) (hp : payload.length < 9) (d : TabDb) :
    k ^^^ connStoreId ≠ k ∧ none ∈ ((d.publish (k ^^^ connStoreId) topic payload).subscriptions v k topic).map readSubscription := by
  have h5 : get32 payload 5 = none := by simp [get32, slice?]; omega
  obtain ⟨n, hn⟩ : ∃ n, v.limit = n + 1 := ⟨v.limit - 1, by omega⟩
  refine ⟨?_, ?_⟩
  · intro e
    have : connStoreId = 0 := by
      have := congrArg (k ^^^ ·) e
      simpa [← UInt32.xor_assoc] using this
    exact absurd this (by decide)
  · refine List.mem_map.2 ⟨payload, ?_, ?_⟩
    · simp [TabDb.subscriptions, TabDb.publish, TabDb.get, TabDb.put, ht, hn]
    · simp only [readSubscription, h5]
      cases payload.head? with
      | none => rfl
      | some m => cases get32 payload 1 <;> rfl

/-- C86, violated: a message of a client of the other contract subscribes any connection to a topic of the first. -/
theorem C86_forged_violated (v : TabEnv) (hl : 0 < v.limit) (k : UInt32) (topic : Bytes) (ht : v.hits topic topic = true) (mode : UInt8) (conn delay : UInt32) (d : TabDb) :
    some (mode, conn, delay) ∈ ((d.publish (k ^^^ connStoreId) topic (writeSubscription mode conn delay)).subscriptions v k topic).map readSubscription := by
  obtain ⟨n, hn⟩ : ∃ n, v.limit = n + 1 := ⟨v.limit - 1, by omega⟩
  refine List.mem_map.2 ⟨_, ?_, readSubscription_write mode conn delay⟩
  simp [TabDb.subscriptions, TabDb.publish, TabDb.get, TabDb.put, ht, hn]

/-- C86, violated: a client of the other contract that asks for the messages of a topic gets the subscriptions of the first. -/
theorem C86_leak_violated (v : TabEnv) (hl : 0 < v.limit) (k : UInt32) (topic : Bytes) (ht : v.hits topic topic = true) (mode : UInt8) (conn delay : UInt32) (d : TabDb) :
    writeSubscription mode conn delay ∈ (d.call (.sub k topic mode conn delay)).messages v (k ^^^ connStoreId) topic := by
  obtain ⟨n, hn⟩ : ∃ n, v.limit = n + 1 := ⟨v.limit - 1, by omega⟩
  simp [TabDb.messages, TabDb.call, TabDb.subscribe, TabDb.get, TabDb.put, ht, hn]

example : ∃ v : TabEnv, 0 < v.limit ∧ v.hits [120] [120] = true := ⟨⟨fun a b => a == b, 1⟩, by decide, by decide⟩

end Verif
