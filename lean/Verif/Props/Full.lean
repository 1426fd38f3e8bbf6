import Verif.Model.Full
import Verif.Props.Front
import Verif.Props.Whole

/-!
# C101: a server from bytes to bytes, with its database
-/

namespace Verif

/-- The same history for a server with an ideal table: its readers take the same turns, the database gives the answers to relay requests, and what the database does
by itself is left out. -/
inductive Spec.Answered : List FullEv → List FrontEv → Prop
  | nil : Spec.Answered [] []
  | accept {l l'} (q b) : Spec.Answered l l' → Spec.Answered (.accept q b :: l) (.accept q b :: l')
  | turn {l l'} (q w found) : Spec.Answered l l' → Spec.Answered (.turn q w :: l) (.turn q { w with found } :: l')
  | lost {l l'} (q) : Spec.Answered l l' → Spec.Answered (.lost q :: l) (.lost q :: l')
  | rotate {l l'} (t) : Spec.Answered l l' → Spec.Answered (.rotate t :: l) l'
  | write {l l'} (id t) : Spec.Answered l l' → Spec.Answered (.write id t :: l) l'
  | sync {l l'} (e) : Spec.Answered l l' → Spec.Answered (.sync e :: l) l'

/-- The server without its database. -/
def Full.front (f : Full) : Front := { srv := f.whole.srv, rest := f.rest, heard := f.heard, wire := f.wire }

/-- From `f` to `f'` calls were made; if they went well, then the server did what it does with an ideal table. -/
def Keeps (x : WholeEnv) (s0 : Db) (f f' : Full) (r : SrvM Front) : Prop :=
  f.whole.calls <:+ f'.whole.calls ∧ (Agree x s0 f.whole → Spec.Well x s0 f'.whole.calls → r = .ok f'.front ∧ Agree x s0 f'.whole)

theorem Front.run_one (v : SrvEnv) (f : Front) (e : FrontEv) : f.run v [e] = f.step v e := by
  simp only [Front.run, SrvM.fold]
  cases f.step v e <;> rfl

theorem Front.run_append (v : SrvEnv) (l l' : List FrontEv) : ∀ {f f1 : Front}, f.run v l = .ok f1 → f.run v (l ++ l') = f1.run v l' := by
  induction l with
  | nil => intro f f1 h; injection h with h; subst h; rfl
  | cons e l ih =>
    intro f f1 h
    simp only [Front.run, SrvM.fold, List.cons_append] at h ⊢
    cases he : f.step v e with
    | error => rw [he] at h; cases h
    | ok f2 => rw [he] at h; exact ih h

theorem Sent.packet_found (w : Outside) (found : Nat → List Bytes) (t : UInt8) (s : Srv) (q : UInt32) (o : Sent) :
    o.packet { w with found } t s q = o.packet w t s q := by cases o <;> rfl

/-- The answers of a relay request by their places. -/
theorem zipIdx_answers : ∀ (items : List PRelayRequest) (answers : List (Bytes × List Bytes)) (n : Nat), answers.map (·.1) = items.map (·.topic) →
    (items.zipIdx n).map (fun r => (r.1.topic, ((answers[r.2 - n]?).map (·.2)).getD [])) = answers := by
  intro items
  induction items with
  | nil => intro answers n h; simpa using h.symm
  | cons i items ih =>
    intro answers n h
    cases answers with
    | nil => simp at h
    | cons a answers =>
      simp only [List.map_cons, List.cons.injEq] at h
      simp only [List.zipIdx_cons, List.map_cons, Nat.sub_self, List.getElem?_cons_zero, Option.map_some, Option.getD_some, ← h.1]
      congr 1
      rw [← ih answers (n + 1) h.2]
      refine List.map_congr_left fun r hr => ?_
      have := List.le_snd_of_mem_zipIdx hr
      rw [show r.2 - n = (r.2 - (n + 1)) + 1 by omega, List.getElem?_cons_succ]
      simp only [ih answers (n + 1) h.2]

section
variable {x : WholeEnv} (hs : x.db.mac.cipher.Sound) (hde : ∀ b, x.db.decode (x.db.encode b) = some b) (htest : ∀ ks k, k ∈ ks → x.db.mem.test ks k = true)
  (hh : ∀ a b, x.srv.hits a b = Spec.covers (Spec.topicText a) b) {s0 : Db} (h0 : Spec.Mail x.db x.ok s0 [] [] [] true)

include hs hde htest hh h0 in
/-- A packet is handled as with an ideal table. -/
theorem full_handle {f f' : Full} {q : UInt32} {w : Outside} {p : UPacket} {rest : Bytes} (h : f.handle x q w p rest = .ok f') (hc : (AMap.get f.whole.srv.conns q).isSome) :
    ∃ found, Keeps x s0 f f' (f.front.handle x.srv q { w with found } p rest) := by
  obtain ⟨c, hc⟩ := Option.isSome_iff_exists.1 hc
  have plain : ∀ (y : Packet) (found : Nat → List Bytes), (∀ r, p ≠ .relay r) → p.handled w = some y → p.handled { w with found } = some y →
      Keeps x s0 f f' (f.front.handle x.srv q { w with found } p rest) := by
    intro y found hp e1 e2
    have ea : p.asks w q = some (.srv (.packet q y)) := by
      cases p with
      | relay r => exact absurd rfl (hp r)
      | _ => simp only [UPacket.asks, e1, Option.map_some]
    simp only [Full.handle, ea] at h
    cases hst : f.whole.step x (.srv (.packet q y)) with
    | error => rw [hst] at h; cases h
    | ok w' =>
    rw [hst] at h
    injection h with h
    subst h
    obtain ⟨l, hl, g1, g2⟩ := step_follows hs hde htest hh h0 hst
    refine ⟨g1, fun ha hw => ?_⟩
    obtain ⟨g3, g4⟩ := g2 ha hw
    cases hl with
    | srv _ hl =>
    cases hl
    rw [run_one] at g3
    refine ⟨?_, g4⟩
    simp only [Front.handle, Full.front, e2, g3, Except.map, Sent.packet_found]
  cases hp : p with
  | relay r =>
    subst hp
    simp only [Full.handle, UPacket.asks] at h
    cases hst : f.whole.step x (.relay q r.id (r.items.map fun r => (r.topic, r.last))) with
    | error => rw [hst] at h; cases h
    | ok w' =>
    rw [hst] at h
    injection h with h
    subst h
    obtain ⟨l, hl, g1, g2⟩ := step_follows hs hde htest hh h0 hst
    cases hl with
    | relay _ _ _ answers he hl =>
    cases hl
    refine ⟨fun i => ((answers[i]?).map (·.2)).getD [], g1, fun ha hw => ?_⟩
    obtain ⟨g3, g4⟩ := g2 ha hw
    rw [run_one] at g3
    refine ⟨?_, g4⟩
    have ez := zipIdx_answers r.items answers 0 (by rw [he, List.map_map]; rfl)
    simp only [Nat.sub_zero] at ez
    simp only [Front.handle, Full.front, UPacket.handled, ez, g3, Except.map, Sent.packet_found]
  | control t fl c =>
    by_cases h3 : fl = 3
    · exact ⟨w.found, hp ▸ plain (.receive c.id) w.found (by rw [hp]; intro r e; cases e) (by simp [hp, UPacket.handled, h3]) (by simp [hp, UPacket.handled, h3])⟩
    by_cases h4 : fl = 4
    · exact ⟨w.found, hp ▸ plain (.receipt c.id) w.found (by rw [hp]; intro r e; cases e) (by simp [hp, UPacket.handled, h4]) (by simp [hp, UPacket.handled, h4])⟩
    subst hp
    simp only [Full.handle, UPacket.asks, UPacket.handled, h3, h4, if_false, Option.map_none] at h
    injection h with h
    subst h
    exact ⟨w.found, List.suffix_refl _, fun ha _ => ⟨by simp [Front.handle, Full.front, UPacket.handled, h3, h4], ha⟩⟩
  | connect c => exact ⟨w.found, hp ▸ plain _ w.found (by rw [hp]; intro r e; cases e) (by rw [hp]; rfl) (by rw [hp]; rfl)⟩
  | publish c => exact ⟨w.found, hp ▸ plain _ w.found (by rw [hp]; intro r e; cases e) (by rw [hp]; rfl) (by rw [hp]; rfl)⟩
  | subscribe c => exact ⟨w.found, hp ▸ plain _ w.found (by rw [hp]; intro r e; cases e) (by rw [hp]; rfl) (by rw [hp]; rfl)⟩
  | unsubscribe c => exact ⟨w.found, hp ▸ plain _ w.found (by rw [hp]; intro r e; cases e) (by rw [hp]; rfl) (by rw [hp]; rfl)⟩
  | ping => exact ⟨w.found, hp ▸ plain _ w.found (by rw [hp]; intro r e; cases e) (by rw [hp]; rfl) (by rw [hp]; rfl)⟩
  | disconnect c => exact ⟨w.found, hp ▸ plain _ w.found (by rw [hp]; intro r e; cases e) (by rw [hp]; rfl) (by rw [hp]; rfl)⟩

include hs hde htest hh h0 in
theorem full_step {f f' : Full} {ev : FullEv} (h : f.step x ev = .ok f') : ∃ l, Spec.Answered [ev] l ∧ Keeps x s0 f f' (f.front.run x.srv l) := by
  have work : ∀ (e : WholeEv) (r : AMap UInt32 Bytes), ((f.whole.step x e).map fun s => ({ f with whole := s, rest := r } : Full)) = .ok f' →
      ∃ l, Spec.Heard [e] l ∧ f.whole.calls <:+ f'.whole.calls ∧
        (Agree x s0 f.whole → Spec.Well x s0 f'.whole.calls → ((f.whole.srv.run x.srv l).map fun s => ({ f.front with srv := s, rest := r } : Front)) = .ok f'.front ∧ Agree x s0 f'.whole) := by
    intro e r he
    cases hst : f.whole.step x e with
    | error => rw [hst] at he; cases he
    | ok w' =>
    rw [hst] at he
    injection he with he
    subst he
    obtain ⟨l, hl, g1, g2⟩ := step_follows hs hde htest hh h0 hst
    refine ⟨l, hl, g1, fun ha hw => ?_⟩
    obtain ⟨g3, g4⟩ := g2 ha hw
    exact ⟨by rw [g3]; rfl, g4⟩
  cases ev with
  | accept q b =>
    obtain ⟨l, hl, g1, g2⟩ := work (.srv (.accept q)) (AMap.set f.rest q b) h
    cases hl with
    | srv _ hl =>
    cases hl
    refine ⟨[.accept q b], .accept q b .nil, g1, fun ha hw => ?_⟩
    rw [run_one] at g2
    rw [Front.run_one]
    exact g2 ha hw
  | lost q =>
    obtain ⟨l, hl, g1, g2⟩ := work (.srv (.lost q)) f.rest h
    cases hl with
    | srv _ hl =>
    cases hl
    refine ⟨[.lost q], .lost q .nil, g1, fun ha hw => ?_⟩
    rw [run_one] at g2
    rw [Front.run_one]
    exact g2 ha hw
  | rotate t =>
    obtain ⟨l, hl, g1, g2⟩ := work (.rotate t) f.rest h
    cases hl with
    | rotate _ hl =>
    cases hl
    exact ⟨[], .rotate t .nil, g1, g2⟩
  | write id t =>
    obtain ⟨l, hl, g1, g2⟩ := work (.write id t) f.rest h
    cases hl with
    | write _ _ hl =>
    cases hl
    exact ⟨[], .write id t .nil, g1, g2⟩
  | sync e =>
    obtain ⟨l, hl, g1, g2⟩ := work (.sync e) f.rest h
    cases hl with
    | sync _ hl =>
    cases hl
    exact ⟨[], .sync e .nil, g1, g2⟩
  | turn q w =>
    simp only [Full.step] at h
    cases hc : AMap.get f.whole.srv.conns q with
    | none =>
      rw [hc] at h
      injection h with h
      subst h
      refine ⟨[.turn q w], .turn q w w.found .nil, List.suffix_refl _, fun ha _ => ⟨?_, ha⟩⟩
      rw [Front.run_one]
      simp only [Front.step, Full.front, hc]
    | some c =>
      rw [hc] at h
      simp only at h
      cases hr : readPacket ((AMap.get f.rest q).getD []) with
      | panics => rw [hr] at h; cases h
      | error =>
        rw [hr] at h
        obtain ⟨l, hl, g1, g2⟩ := work (.srv (.lost q)) f.rest h
        cases hl with
        | srv _ hl =>
        cases hl
        refine ⟨[.turn q w], .turn q w w.found .nil, g1, fun ha hw => ?_⟩
        rw [run_one] at g2
        rw [Front.run_one]
        simp only [Front.step, Full.front, hc, hr]
        exact g2 ha hw
      | ok p rest =>
        rw [hr] at h
        obtain ⟨found, g1, g2⟩ := full_handle hs hde htest hh h0 h (by simp [hc])
        refine ⟨[.turn q { w with found }], .turn q w found .nil, g1, fun ha hw => ?_⟩
        rw [Front.run_one]
        simp only [Front.step, Full.front, hc, hr]
        exact g2 ha hw

theorem Spec.Answered.append {a b : List FullEv} {a' b' : List FrontEv} (h : Spec.Answered a a') (h' : Spec.Answered b b') : Spec.Answered (a ++ b) (a' ++ b') := by
  induction h with
  | nil => exact h'
  | accept q b _ ih => exact .accept q b ih
  | turn q w found _ ih => exact .turn q w found ih
  | lost q _ ih => exact .lost q ih
  | rotate t _ ih => exact .rotate t ih
  | write id t _ ih => exact .write id t ih
  | sync e _ ih => exact .sync e ih

include hs hde htest hh h0 in
theorem full_run (evs : List FullEv) : ∀ {f f' : Full}, f.run x evs = .ok f' → ∃ l, Spec.Answered evs l ∧ Keeps x s0 f f' (f.front.run x.srv l) := by
  induction evs with
  | nil =>
    intro f f' h
    injection h with h; subst h
    exact ⟨[], .nil, List.suffix_refl _, fun ha _ => ⟨rfl, ha⟩⟩
  | cons ev evs ih =>
    intro f f' h
    simp only [Full.run, SrvM.fold] at h
    cases h1 : f.step x ev with
    | error => rw [h1] at h; cases h
    | ok f1 =>
    rw [h1] at h
    obtain ⟨l, hl, g1, g2⟩ := full_step hs hde htest hh h0 h1
    obtain ⟨l', hl', g3, g4⟩ := ih h
    refine ⟨l ++ l', hl.append hl', g1.trans g3, fun ha hw => ?_⟩
    obtain ⟨g5, g6⟩ := g2 ha (hw.suffix g3)
    obtain ⟨g7, g8⟩ := g4 g6 hw
    exact ⟨by rw [Front.run_append _ _ _ g5, g7], g8⟩
end

/-! ## C101 -/

/-- C101 (partial: the calls to the database are those of `Spec.Well`, in particular nothing is deleted; one server without a cluster). A server that keeps its subscriptions and
messages in its database reads the same packets from the bytes of its clients and puts the same packets on the channels, in the same order, as one with an ideal table,
whatever the database does in between. -/
theorem C101_as_table_partial (x : WholeEnv) (hs : x.db.mac.cipher.Sound) (hde : ∀ b, x.db.decode (x.db.encode b) = some b)
    (htest : ∀ ks k, k ∈ ks → x.db.mem.test ks k = true) (hh : ∀ a b, x.srv.hits a b = Spec.covers (Spec.topicText a) b)
    (o : OpenOpts) (r : RecEnv) (e : SyncEnv) (now : Int) (s0 : Db) (hcap : (x.db.mem.cap : Int) ≤ now) (hdel : r.orderDel [] = []) (h0 : openDb x.db o r e now {} = .ok s0)
    (evs : List FullEv) (f : Full) (h : Full.run x { whole := { db := s0 } } evs = .ok f) (hw : Spec.Well x s0 f.whole.calls) :
    ∃ l f', Spec.Answered evs l ∧ Front.run x.srv {} l = .ok f' ∧ f'.srv = f.whole.srv ∧ f'.heard = f.heard ∧ f'.wire = f.wire ∧ f'.rest = f.rest := by
  obtain ⟨l, hl, _, g⟩ := full_run hs hde htest hh (Spec.Mail.opened hcap hdel h0) evs h
  refine ⟨l, f.front, hl, (g ⟨rfl, ?_⟩ hw).1, rfl, rfl, rfl, rfl⟩
  intro ps wait spoilt quiet H
  cases H
  exact ⟨.nil, fun p hp => absurd hp (by simp), rfl⟩

/-- C101 (partial as above, and published topics in which no slash is followed by a question mark, packets shorter than 2³¹ bytes). Whatever bytes the clients send, in whatever
order their readers take turns: all that is put on the channels of a connection can be written, and a reader of it reads exactly these packets. -/
theorem C101_written_partial (x : WholeEnv) (hs : x.db.mac.cipher.Sound) (hde : ∀ b, x.db.decode (x.db.encode b) = some b)
    (htest : ∀ ks k, k ∈ ks → x.db.mem.test ks k = true) (hh : ∀ a b, x.srv.hits a b = Spec.covers (Spec.topicText a) b) (hdec : x.srv.dec = logDecode)
    (o : OpenOpts) (r : RecEnv) (e : SyncEnv) (now : Int) (s0 : Db) (hcap : (x.db.mem.cap : Int) ≤ now) (hdel : r.orderDel [] = []) (h0 : openDb x.db o r e now {} = .ok s0)
    (evs : List FullEv) (f : Full) (h : Full.run x { whole := { db := s0 } } evs = .ok f) (hw : Spec.Well x s0 f.whole.calls)
    (hc : Spec.AllClear f.heard) (q : UInt32) (ws : List UPacket) (hws : ∀ y ∈ ws, (q, y) ∈ f.wire) (hl : ∀ y ∈ ws, ∀ b, y.toBinary = some b → b.length < 2 ^ 31) :
    (writeAll ws).2 = true ∧ readPackets (writeAll ws).1 = (ws.map Spec.seen, .lost) := by
  obtain ⟨l, f', _, g1, _, g3, g4, _⟩ := C101_as_table_partial x hs hde htest hh o r e now s0 hcap hdel h0 evs f h hw
  exact C94_written_partial x.srv hdec l f' g1 (g3 ▸ hc) q ws (g4 ▸ hws) hl

/-- C101 (partial as above, and the histories of `Spec.Day`). From bytes to bytes through the database: after any run, if the bytes of a client begin with a PUBLISH and its reader takes its turn, the server puts
a packet on the channels of each client that subscribed, although the subscriptions are found in the database; whatever is written of the channels of such a client, with this
packet among it, it reads this packet with its topic, its payload and its delivery mode. The publisher gets its acknowledgement and nobody else gets anything. -/
theorem C101_end_to_end_partial (x : WholeEnv) (hs : x.db.mac.cipher.Sound) (hde : ∀ b, x.db.decode (x.db.encode b) = some b)
    (htest : ∀ ks k, k ∈ ks → x.db.mem.test ks k = true) (hh : ∀ a b, x.srv.hits a b = Spec.covers (Spec.topicText a) b) (hv : x.srv.Sane) (hm : x.srv.mac.cipher.Strips)
    (hdec : x.srv.dec = logDecode)
    (o : OpenOpts) (r : RecEnv) (e : SyncEnv) (now : Int) (s0 : Db) (hcap : (x.db.mem.cap : Int) ≤ now) (hdel : r.orderDel [] = []) (h0 : openDb x.db o r e now {} = .ok s0)
    (evs : List FullEv) (f : Full) (h : Full.run x { whole := { db := s0 } } evs = .ok f) (hc : Spec.AllClear f.heard) (b : Spec.Desk) (hd : Spec.Day x.srv f.whole.srv b)
    (p k : UInt32) (insecure : Bool) (hp : AMap.get b.roll p = some (k, insecure)) (pub : PPublish) (hmid : pub.id ≠ 0)
    (hms : ∀ m ∈ Spec.messages pub, Spec.Allowed x.srv k insecure m) (hclear : ∀ m ∈ pub.messages, Spec.Clear m.topic) (bytes rest : Bytes)
    (hb : (UPacket.publish pub).toBinary = some bytes) (hl : bytes.length < 2 ^ 31) (hr : AMap.get f.rest p = some (bytes ++ rest)) (w : Outside)
    (f' : Full) (h' : f.step x (.turn p w) = .ok f') (hw : Spec.Well x s0 f'.whole.calls) :
    f'.wire = f.wire ++ (Spec.messages pub).flatMap (Spec.reached x.srv b k (Spec.parcels pub)) ++ [(p, .control 2 1 { id := pub.id })] ∧
    ∀ m ∈ pub.messages, ∀ t, parseRequest m.topic = some t → ∀ r ∈ b.readers x.srv k t.topic, ∀ y ∈ Spec.parcels pub ⟨t.topic.take t.size, m.payload⟩ r, y ∈ f'.wire ∧
      ∀ ws : List UPacket, (∀ z ∈ ws, (r.conn, z) ∈ f'.wire) → (∀ z ∈ ws, ∀ b, z.toBinary = some b → b.length < 2 ^ 31) → y.2 ∈ ws →
        y.2 ∈ (readPackets (writeAll ws).1).1 := by
  have h0 := Spec.Mail.opened (ok := x.ok) hcap hdel h0
  obtain ⟨l, _, g1, g2⟩ := full_run hs hde htest hh h0 evs h
  obtain ⟨l', hl', g3, g4⟩ := full_step hs hde htest hh h0 h'
  obtain ⟨e1, ha⟩ := g2 ⟨rfl, fun ps wait spoilt quiet H => by cases H; exact ⟨.nil, fun p hp => absurd hp (by simp), rfl⟩⟩ (hw.suffix g3)
  have e2 := (g4 ha hw).1
  cases hl' with
  | turn _ _ found hn =>
  cases hn
  rw [Front.run_one] at e2
  obtain ⟨f1, k1, _, k3⟩ := C94_delivered_partial x.srv hv hm f.front b hd p k insecure hp pub hmid hms bytes rest hb hl hr { w with found }
  obtain ⟨f2, k4, k5⟩ := C94_end_to_end_partial x.srv hv hm hdec l f.front e1 hc b hd p k insecure hp pub hmid hms hclear bytes rest hb hl hr { w with found }
  rw [e2] at k1 k4
  injection k1 with k1
  injection k4 with k4
  subst k1 k4
  exact ⟨k3, k5⟩

/-! ## A concrete history -/

/-- The server of C98 inside. -/
theorem full_whole (x : WholeEnv) (evs : List FullEv) : ∀ {f f' : Full}, f.run x evs = .ok f' →
    ∃ l, f.whole.run x l = .ok f'.whole ∧ ∀ e, .sync e ∈ l → .sync e ∈ evs := by
  have one : ∀ {f : Full} {ev : WholeEv} {w : Whole}, f.whole.step x ev = .ok w → f.whole.run x [ev] = .ok w := by
    intro f ev w h
    simp only [Whole.run, SrvM.fold, h, Except.bind]
  have step : ∀ {f f' : Full} {ev : FullEv}, f.step x ev = .ok f' → ∃ l, f.whole.run x l = .ok f'.whole ∧ ∀ e, .sync e ∈ l → ev = .sync e := by
    intro f f' ev h
    have via : ∀ (e : WholeEv) (g : Whole → Full), (∀ w, (g w).whole = w) → ((f.whole.step x e).map g) = .ok f' → (∀ e', e = .sync e' → ev = .sync e') →
        ∃ l, f.whole.run x l = .ok f'.whole ∧ ∀ e, .sync e ∈ l → ev = .sync e := by
      intro e g hg he hn
      cases hst : f.whole.step x e with
      | error => rw [hst] at he; cases he
      | ok w' =>
      rw [hst] at he
      injection he with he
      subst he
      exact ⟨[e], by rw [hg]; exact one hst, fun e' h' => hn e' (List.mem_singleton.1 h').symm⟩
    have none' : f' = f → ∃ l, f.whole.run x l = .ok f'.whole ∧ ∀ e, .sync e ∈ l → ev = .sync e := by
      rintro rfl
      exact ⟨[], rfl, by simp⟩
    cases ev with
    | accept q b => exact via (.srv (.accept q)) (fun s => { f with whole := s, rest := AMap.set f.rest q b }) (by intro w; rfl) h (by intro e' h; cases h)
    | lost q => exact via (.srv (.lost q)) (fun s => { f with whole := s }) (by intro w; rfl) h (by intro e' h; cases h)
    | rotate t => exact via (.rotate t) (fun s => { f with whole := s }) (by intro w; rfl) h (by intro e' h; cases h)
    | write id t => exact via (.write id t) (fun s => { f with whole := s }) (by intro w; rfl) h (by intro e' h; cases h)
    | sync e => exact via (.sync e) (fun s => { f with whole := s }) (by intro w; rfl) h (by intro e' h; injection h with h; rw [h])
    | turn q w =>
      simp only [Full.step] at h
      split at h
      · injection h with h; exact none' h.symm
      · split at h
        · cases h
        · exact via _ _ (by intro w; rfl) h (by intro e' h; cases h)
        · next p rest _ =>
          simp only [Full.handle] at h
          split at h
          · injection h with h
            exact ⟨[], by rw [← h]; rfl, by simp⟩
          · next ev he =>
            refine via ev _ ?_ h ?_
            · intro w; rfl
            · rintro e' rfl
              cases p with
              | relay r => simp [UPacket.asks] at he
              | _ => simp [UPacket.asks] at he
  induction evs with
  | nil => intro f f' h; injection h with h; subst h; exact ⟨[], rfl, by simp⟩
  | cons ev evs ih =>
    intro f f' h
    simp only [Full.run, SrvM.fold] at h
    cases h1 : f.step x ev with
    | error => rw [h1] at h; cases h
    | ok f1 =>
    rw [h1] at h
    obtain ⟨l, k1, k2⟩ := step h1
    obtain ⟨l', k3, k4⟩ := ih h
    refine ⟨l ++ l', ?_, ?_⟩
    · clear k2 k4
      revert k1
      generalize f.whole = a
      induction l generalizing a with
      | nil => intro k1; injection k1 with k1; subst k1; exact k3
      | cons e l ih =>
        intro k1
        simp only [Whole.run, SrvM.fold, List.cons_append] at k1 ⊢
        cases he : a.step x e with
        | error => rw [he] at k1; cases k1
        | ok a1 => rw [he] at k1; exact ih a1 k1
    · intro e he
      rcases List.mem_append.1 he with he | he
      · exact k2 e he ▸ List.mem_cons_self
      · exact List.mem_cons_of_mem _ (k4 e he)

/-- The PUBLISH of client 1. -/
def toyCall : PPublish := { id := 5, messages := [{ topic := [107, chSlash, 98, 46, 99], payload := [42, 42, 42, 42] }] }

/-- Client 1 connects and sends a PUBLISH to `b.c`, client 2 connects and subscribes to `b.*` and `a`, and the database syncs. -/
def toyFull : List FullEv :=
  [.accept 1 ((UPacket.connect { insecure := true, clientId := toyClient 100 7, clean := true }).bytes ++ (UPacket.publish toyCall).bytes),
   .accept 2 ((UPacket.connect { insecure := true, clientId := toyClient 101 7, clean := true }).bytes ++
      (UPacket.subscribe { id := 3, items := [{ topic := [107, chSlash, 98, 46, 42] }, { topic := [108, chSlash, 97] }] }).bytes),
   .turn 1 { epoch := 100 }, .turn 2 { epoch := 101 }, .turn 2 {}, .write 5001 5000, .rotate 6000, .sync .toy, .rotate 7000]

/-- The same as packets. -/
def toyFullPackets : List SrvEv :=
  [.accept 1, .accept 2, .packet 1 (.connect (toyClient 100 7) 100 [] true 0 true), .packet 2 (.connect (toyClient 101 7) 101 [] true 0 true),
   .packet 2 (.subscribe 3 [⟨[107, chSlash, 98, 46, 42], 0, 0⟩, ⟨[108, chSlash, 97], 0, 0⟩])]

theorem full_of_toOption {x : WholeEnv} {f f' : Full} {evs : List FullEv} (h : (f.run x evs).toOption = some f') : f.run x evs = .ok f' := by
  cases hr : f.run x evs with
  | error e => rw [hr] at h; cases h
  | ok s1 => rw [hr] at h; injection h with h; rw [h]

theorem toyWhole_sane : toyWhole.srv.Sane := ⟨C83_codec.1, fun _ p h => by simp only [toyWhole, toyLogged, toySrv] at h; split at h <;> cases h⟩

/-- All hypotheses of C101 hold of that history, when client 1 takes its turn. -/
example : ∃ (s0 : Db) (f f' : Full) (b : Spec.Desk), openDb .toy {} .toy .toy 5000 {} = .ok s0 ∧ Full.run toyWhole { whole := { db := s0 } } toyFull = .ok f ∧
    f.step toyWhole (.turn 1 {}) = .ok f' ∧ Spec.Well toyWhole s0 f'.whole.calls ∧ Spec.Day toyWhole.srv f.whole.srv b ∧ Spec.AllClear f.heard ∧
    AMap.get b.roll 1 = some (7, true) ∧ AMap.get f.rest 1 = some (UPacket.publish toyCall).bytes ∧ (UPacket.publish toyCall).toBinary = some (UPacket.publish toyCall).bytes ∧
    (∀ m ∈ Spec.messages toyCall, Spec.Allowed toyWhole.srv 7 true m) ∧ (∀ m ∈ toyCall.messages, Spec.Clear m.topic) ∧
    (Spec.messages toyCall).flatMap (Spec.reached toyWhole.srv b 7 (Spec.parcels toyCall)) =
      [(2, .publish ⟨5, 0, [{ topic := [98, 46, 99], payload := [42, 42, 42, 42] }]⟩)] := by
  have h : ((openDb .toy {} .toy .toy 5000 {}).db?.bind fun s => (Full.run toyWhole { whole := { db := s } } toyFull).toOption.bind fun f =>
      (f.run toyWhole [.turn 1 {}]).toOption.map fun f' => (toyFluent s f'.whole.calls).isSome && allClearB f.heard &&
        decide (AMap.get f.rest 1 = some (UPacket.publish toyCall).bytes) &&
        (dayRun toyWhole.srv toyFullPackets {} {}).any fun r => decide (r.1 = f.whole.srv ∧ AMap.get r.2.roll 1 = some (7, true) ∧
          (Spec.messages toyCall).flatMap (Spec.reached toyWhole.srv r.2 7 (Spec.parcels toyCall)) =
            [(2, .publish ⟨5, 0, [{ topic := [98, 46, 99], payload := [42, 42, 42, 42] }]⟩)])) = some true := by
    decide +kernel
  simp only [Option.bind_eq_some_iff, Option.map_eq_some_iff, Bool.and_eq_true] at h
  obtain ⟨s, g1, f, g2, f', g3, ⟨⟨g4, g5⟩, g6⟩, g7⟩ := h
  obtain ⟨r, hr, hr'⟩ := (Option.any_eq_true _ _).1 g7
  obtain ⟨a1, a2, a3⟩ := of_decide_eq_true hr'
  have h1 := full_of_toOption g2
  have h2 := full_of_toOption g3
  obtain ⟨l, k1, k2⟩ := full_whole toyWhole toyFull h1
  obtain ⟨l', k3, k4⟩ := full_whole toyWhole _ h2
  obtain ⟨z, hz⟩ := Option.isSome_iff_exists.1 g4
  have hk := Known.run (x := toyWhole) (P := StoreCall.IsToy) (by
      intro c h1 h2 h3
      cases c with
      | getSubs made g k topic => exact absurd rfl (h1 made g k topic)
      | getMsgs made g k topic last => exact absurd rfl (h2 made g k topic last)
      | sync e => exact absurd rfl (h3 e)
      | _ => trivial) (fun n k topic => rfl) (fun n k topic last => rfl) (evs := l')
    (fun e he => by simpa using k4 e he) (toyWhole_known (fun e he => by simpa [toyFull] using k2 e he) k1) k3
  have h3 : f.step toyWhole (.turn 1 {}) = .ok f' := by
    simp only [Full.run, SrvM.fold] at h2
    cases he : f.step toyWhole (.turn 1 {}) with
    | error => rw [he] at h2; cases h2
    | ok f1 => rw [he] at h2; exact h2
  exact ⟨s, f, f', r.2, OpenOut.db?_some g1, h1, h3, ⟨_, _, _, _, (toyFluent_sound _ hk hz).2⟩, a1 ▸ dayRun_sound .start hr, allClearB_sound g5, a2, of_decide_eq_true g6,
    by decide +kernel, by decide +kernel, fun m hm => clearB_sound (by revert m; decide), a3⟩

end Verif
