import Verif.Model.DbLemmas
import Verif.Props.Credentials
import Verif.Props.Codec
import Verif.Props.MemDb

/-!
# C36, C37, C38: the database as a state machine

Histories of API calls and of the two background activities (a new tiny log, the write of a tiny log).
-/

namespace Verif

/-- What a client does, and what the background does: `rotate` starts a tiny log, `write` writes a block to the log file. -/
inductive DbOp where
  | newId (now : Int)
  | put (now : Int) (o : Obj)
  | delete (o : Obj)
  | get (g : GetEnv) (q : Query) (old : List UInt64)
  | sync (e : SyncEnv)
  | close (id : Int)
  | rotate (t : Int)
  | write (id t : Int)

/-- What an operation answers. A put also changes the entry object of the caller. -/
inductive DbRes where
  | id (b : Bytes)
  | entry (o : Obj) (r : DOut)
  | out (r : DOut)
  | got (r : DGet)
  | done
deriving DecidableEq

/-- One operation; `none`: a sync failed (its state is not modelled). The background stops at close. -/
def Db.step (v : DbEnv) (s : Db) : DbOp → Option (Db × DbRes)
  | .newId now => some ((s.newId now).1, .id (s.newId now).2)
  | .put now o => some ((s.putEntry v now o).1, .entry (s.putEntry v now o).2.1 (s.putEntry v now o).2.2)
  | .delete o => some ((s.deleteEntry v o).1, .out (s.deleteEntry v o).2)
  | .get g q old => some ((s.get v g q old).1, .got (s.get v g q old).2)
  | .sync e => (s.sync e).map fun x => (x.1, .out x.2)
  | .close id => some ((s.close id).1, .out (s.close id).2)
  | .rotate t => some (if s.closed then s else { s with mem := s.mem.rotate t }, .done)
  | .write id t => some (if s.closed then s else { s with mem := s.mem.write id t false }, .done)

def Db.run (v : DbEnv) : Db → List DbOp → Option (Db × List DbRes)
  | s, [] => some (s, [])
  | s, op :: ops => (s.step v op).bind fun x => (Db.run v x.1 ops).map fun y => (y.1, x.2 :: y.2)

/-! ## What no operation changes -/

theorem Db.drawId_fields {now : Int} {s s' : Db} {o : Obj} {q : UInt64} {id : Bytes} (hd : s.drawId now o = some (s', q, id)) :
    s' = { s with seq := if o.id = none then s.seq + 1 else s.seq } ∧ (o.id = none → q = s.seq + 1) := by
  simp only [Db.drawId] at hd
  split at hd
  · next i hi =>
    simp only [Option.map_eq_some_iff, Prod.mk.injEq] at hd
    obtain ⟨_, _, rfl, rfl, rfl⟩ := hd
    exact ⟨by simp [hi], fun hc => by simp [hi] at hc⟩
  · next hi =>
    simp only [Option.some.injEq, Prod.mk.injEq] at hd
    obtain ⟨rfl, rfl, rfl⟩ := hd
    exact ⟨by simp [hi], fun _ => rfl⟩

theorem Db.packEntry_fields {v : DbEnv} {now : Int} {s s' : Db} {o : Obj} {raw : Bytes} {h : EntryHdr} {c : Bytes}
    (hp : s.packEntry v now o raw = some (s', h, c)) :
    s' = { s with seq := if o.id = none then s.seq + 1 else s.seq } ∧ (o.id = none → h.seq = s.seq + 1) ∧ h.topicHash = o.hash ∧
      h.expiresAt = o.expiresAt ∧ h.topicSize = o.topicSize ∧ h.seq ≠ 0 := by
  simp only [Db.packEntry, Option.bind_eq_some_iff] at hp
  obtain ⟨⟨s1, q, id⟩, h1, hp⟩ := hp
  obtain ⟨a1, a2⟩ := Db.drawId_fields h1
  split at hp
  · simp at hp
  · next hq =>
    simp only [Option.bind_eq_some_iff] at hp
    obtain ⟨pre, _, val, _, hp⟩ := hp
    simp only [Option.some.injEq, Prod.mk.injEq] at hp
    obtain ⟨rfl, rfl, rfl⟩ := hp
    exact ⟨a1, a2, rfl, rfl, rfl, hq⟩

theorem Db.parseEntry_id (v : DbEnv) (now : Int) (s : Db) (o : Obj) : (s.parseEntry v now o).1.id = o.id := by
  simp only [Db.parseEntry]; split <;> rfl

/-- A put keeps the flags; it moves the sequence by one, if it draws one. -/
theorem Db.putEntry_fields (v : DbEnv) (now : Int) (s : Db) (o : Obj) :
    (s.putEntry v now o).1.immutable = s.immutable ∧ (s.putEntry v now o).1.closed = s.closed ∧
    (s.putEntry v now o).1.info = s.info ∧ (s.putEntry v now o).1.lastSync = s.lastSync ∧
    (s.putEntry v now o).1.enc = s.enc ∧ (s.putEntry v now o).1.count = s.count ∧ (s.putEntry v now o).1.store = s.store ∧
    ((s.putEntry v now o).1.seq = s.seq ∨ (s.putEntry v now o).1.seq = s.seq + 1 ∧ o.id = none) := by
  simp only [Db.putEntry]
  split
  · simp
  · split
    · simp
    · split
      · simp
      · next s1 o1 h rec hse =>
        simp only [Db.setEntry, Option.map_eq_some_iff, Prod.mk.injEq] at hse
        obtain ⟨⟨s2, h2, c2⟩, hp, rfl, _, _, _⟩ := hse
        obtain ⟨rfl, _⟩ := Db.packEntry_fields hp
        rw [Db.parseEntry_id]
        have hseq : (if o.id = none then s.seq + 1 else s.seq) = s.seq ∨ (if o.id = none then s.seq + 1 else s.seq) = s.seq + 1 ∧ o.id = none := by
          by_cases hi : o.id = none <;> simp [hi]
        split
        · split <;> exact ⟨rfl, rfl, rfl, rfl, rfl, rfl, rfl, hseq⟩
        · exact ⟨rfl, rfl, rfl, rfl, rfl, rfl, rfl, hseq⟩

/-- After a successful put the sequence counter is the one `setEntry` left. -/
theorem Db.putEntry_seq {v : DbEnv} {now : Int} {s s1 : Db} {o o1 : Obj} {h : EntryHdr} {c : Bytes} (hout : (s.putEntry v now o).2.2 = .ok)
    (hse : s.setEntry v now o = some (s1, o1, h, c)) : (s.putEntry v now o).1.seq = s1.seq := by
  cases hc : s.closed with
  | true => simp [Db.putEntry, hc] at hout
  | false =>
    cases hr : o.refused with
    | some e => simp [Db.putEntry, hc, hr] at hout
    | none =>
      simp only [Db.putEntry, hc, hr, hse, Bool.false_eq_true, if_false]
      split
      · split <;> rfl
      · rfl

theorem Db.delete_fields (v : DbEnv) (s : Db) (q : UInt64) :
    (s.delete v q).1.immutable = s.immutable ∧ (s.delete v q).1.closed = s.closed ∧ (s.delete v q).1.info = s.info ∧ (s.delete v q).1.seq = s.seq := by
  simp only [Db.delete]
  split
  · simp
  · split
    · simp
    · split <;> simp

theorem Db.deleteEntry_fields (v : DbEnv) (s : Db) (o : Obj) :
    (s.deleteEntry v o).1.immutable = s.immutable ∧ (s.deleteEntry v o).1.closed = s.closed ∧ (s.deleteEntry v o).1.info = s.info ∧
    (s.deleteEntry v o).1.seq = s.seq := by
  simp only [Db.deleteEntry]
  repeat' split
  all_goals first | exact s.delete_fields v _ | simp

/-- A Get moves nothing but the query cache of the in-memory store. -/
theorem Db.get_fields (v : DbEnv) (g : GetEnv) (s : Db) (q : Query) (old : List UInt64) :
    (s.get v g q old).1 = { s with mem := (s.get v g q old).1.mem } := by
  simp only [Db.get]
  repeat' split
  all_goals rfl

theorem Db.flush_fields {s s' : Db} {h h' : Handle} {rs : List Rec} {n : Nat} (hf : s.flush h rs n = some (s', h')) :
    s'.immutable = s.immutable ∧ s'.closed = s.closed ∧ s'.enc = s.enc ∧ s'.seq = s.seq ∧ s'.info = s'.infoBytes ∧ s'.mem = s.mem ∧ s'.win = s.win := by
  simp only [Db.flush, Option.bind_eq_bind, Option.bind_eq_some_iff] at hf
  obtain ⟨⟨f, ww⟩, _, ⟨st, w⟩, _, hf⟩ := hf
  simp only [pure, Option.some.injEq, Prod.mk.injEq] at hf
  obtain ⟨rfl, _⟩ := hf
  exact ⟨rfl, rfl, rfl, rfl, rfl, rfl, rfl⟩

theorem Db.syncBlock_fields {e : SyncEnv} {s s' : Db} {h h' : Handle} {t : Int} (hf : s.syncBlock e h t = some (s', h')) :
    s'.immutable = s.immutable ∧ s'.closed = s.closed ∧ s'.enc = s.enc ∧ s'.seq = s.seq ∧ (s'.info = s.info ∧ s'.count = s.count ∨ s'.info = s'.infoBytes) := by
  simp only [Db.syncBlock, Option.bind_eq_bind, Option.bind_eq_some_iff] at hf
  obtain ⟨rs, _, hf⟩ := hf
  split at hf
  · simp only [pure, Option.some.injEq, Prod.mk.injEq] at hf
    obtain ⟨rfl, _⟩ := hf
    simp
  · simp only [Option.bind_eq_some_iff] at hf
    obtain ⟨⟨st, w, new⟩, _, ⟨tr, ww⟩, _, ⟨s1, h1⟩, hfl, win, _, hf⟩ := hf
    simp only [pure, Option.some.injEq, Prod.mk.injEq] at hf
    obtain ⟨rfl, _⟩ := hf
    obtain ⟨f1, f2, f3, f4, f5, _⟩ := Db.flush_fields hfl
    exact ⟨f1, f2, f3, f4, .inr f5⟩

theorem Db.syncBlocks_fields {e : SyncEnv} (ts : List Int) : ∀ {s s' : Db} {h h' : Handle}, Db.syncBlocks e ts s h = some (s', h') →
    s'.immutable = s.immutable ∧ s'.closed = s.closed ∧ s'.enc = s.enc ∧ s'.seq = s.seq ∧ (s'.info = s.info ∧ s'.count = s.count ∨ s'.info = s'.infoBytes) := by
  induction ts with
  | nil => intro s s' h h' hf; simp only [Db.syncBlocks, Option.some.injEq, Prod.mk.injEq] at hf; obtain ⟨rfl, _⟩ := hf; simp
  | cons t ts ih =>
    intro s s' h h' hf
    simp only [Db.syncBlocks, Option.bind_eq_some_iff] at hf
    obtain ⟨⟨s1, h1⟩, hb, hf⟩ := hf
    obtain ⟨a1, a2, a3, a4, a5⟩ := Db.syncBlock_fields hb
    obtain ⟨b1, b2, b3, b4, b5⟩ := ih hf
    refine ⟨b1.trans a1, b2.trans a2, b3.trans a3, b4.trans a4, ?_⟩
    rcases b5 with b5 | b5
    · rcases a5 with a5 | a5
      · exact .inl ⟨b5.1.trans a5.1, b5.2.trans a5.2⟩
      · refine .inr ?_
        rw [b5.1, a5]
        simp only [Db.infoBytes, b3, b4, b5.2]
    · exact .inr b5

theorem Db.sync_fields {e : SyncEnv} {s s' : Db} {r : DOut} (hf : s.sync e = some (s', r)) :
    s'.immutable = s.immutable ∧ s'.closed = s.closed ∧ s'.enc = s.enc ∧ s'.seq = s.seq ∧ (s'.info = s.info ∧ s'.count = s.count ∨ s'.info = s'.infoBytes) ∧
      (s.closed = true → s' = s) := by
  simp only [Db.sync] at hf
  split at hf
  · simp only [Option.some.injEq, Prod.mk.injEq] at hf
    obtain ⟨rfl, _⟩ := hf
    simp
  · next hc =>
    split at hf
    · simp only [Option.some.injEq, Prod.mk.injEq] at hf
      obtain ⟨rfl, _⟩ := hf
      simp
    · simp only [Option.bind_eq_bind, Option.bind_eq_some_iff] at hf
      obtain ⟨w, _, ⟨s1, h1⟩, hb, hf⟩ := hf
      simp only [pure, Option.some.injEq, Prod.mk.injEq] at hf
      obtain ⟨rfl, _⟩ := hf
      obtain ⟨a1, a2, a3, a4, a5⟩ := Db.syncBlocks_fields _ hb
      exact ⟨a1, a2, a3, a4, a5, fun h => absurd h hc⟩

/-! ## C36 -/

theorem Db.step_immutable {v : DbEnv} {s s' : Db} {op : DbOp} {r : DbRes} (h : s.step v op = some (s', r)) : s'.immutable = s.immutable := by
  cases op with
  | newId now => simp only [Db.step, Option.some.injEq, Prod.mk.injEq] at h; obtain ⟨rfl, _⟩ := h; rfl
  | put now o => simp only [Db.step, Option.some.injEq, Prod.mk.injEq] at h; obtain ⟨rfl, _⟩ := h; exact (s.putEntry_fields v now o).1
  | delete o => simp only [Db.step, Option.some.injEq, Prod.mk.injEq] at h; obtain ⟨rfl, _⟩ := h; exact (s.deleteEntry_fields v o).1
  | get g q old =>
    simp only [Db.step, Option.some.injEq, Prod.mk.injEq] at h
    obtain ⟨rfl, _⟩ := h
    rw [Db.get_fields]
  | sync e =>
    simp only [Db.step, Option.map_eq_some_iff] at h
    obtain ⟨⟨s1, o1⟩, hs, he⟩ := h
    simp only [Prod.mk.injEq] at he
    obtain ⟨rfl, _⟩ := he
    exact (Db.sync_fields hs).1
  | close id => simp only [Db.step, Option.some.injEq, Prod.mk.injEq] at h; obtain ⟨rfl, _⟩ := h; simp only [Db.close]; split <;> rfl
  | rotate t => simp only [Db.step, Option.some.injEq, Prod.mk.injEq] at h; obtain ⟨rfl, _⟩ := h; split <;> rfl
  | write id t => simp only [Db.step, Option.some.injEq, Prod.mk.injEq] at h; obtain ⟨rfl, _⟩ := h; split <;> rfl

def DbOp.isDelete : DbOp → Bool
  | .delete _ => true
  | _ => false

/-- C36. In an immutable database every delete, anywhere in any history, is answered with the error, and the history without the
deletes gives the same answers to the other calls and ends in the same state: memory, files and logs. -/
theorem C36_immutable (v : DbEnv) (s : Db) (him : s.immutable = true) (ops : List DbOp) : ∀ (s' : Db) (rs : List DbRes),
    s.run v ops = some (s', rs) →
    (∀ x ∈ ops.zip rs, x.1.isDelete = true → x.2 = .out (.err .immutable)) ∧
    s.run v (ops.filter (!·.isDelete)) = some (s', ((ops.zip rs).filter (!·.1.isDelete)).map (·.2)) := by
  induction ops generalizing s with
  | nil =>
    intro s' rs h
    simp only [Db.run, Option.some.injEq, Prod.mk.injEq] at h
    obtain ⟨rfl, rfl⟩ := h
    simp [Db.run]
  | cons op ops ih =>
    intro s' rs h
    simp only [Db.run, Option.bind_eq_some_iff, Option.map_eq_some_iff, Prod.mk.injEq] at h
    obtain ⟨⟨s1, r1⟩, h1, ⟨s2, rs2⟩, h2, rfl, rfl⟩ := h
    obtain ⟨a1, a2⟩ := ih s1 ((Db.step_immutable h1).trans him) s2 rs2 h2
    simp only [List.zip_cons_cons, List.mem_cons, forall_eq_or_imp]
    by_cases hd : op.isDelete = true
    · cases op with
      | delete o =>
        simp only [Db.step, Option.some.injEq, Prod.mk.injEq] at h1
        obtain ⟨e1, e2⟩ := h1
        have hs : s1 = s := by rw [← e1]; simp [Db.deleteEntry, him]
        have hr : r1 = .out (.err .immutable) := by rw [← e2]; simp [Db.deleteEntry, him]
        subst hs
        exact ⟨⟨fun _ => hr, a1⟩, by simpa [DbOp.isDelete] using a2⟩
      | _ => simp [DbOp.isDelete] at hd
    · have hd' : op.isDelete = false := by simpa using hd
      refine ⟨⟨fun hc => absurd hc hd, a1⟩, ?_⟩
      simp only [List.filter_cons, hd', Bool.not_false, if_true, Db.run, h1, Option.bind_some, a2, Option.map_some, List.map_cons]

/-! ## C37 -/

/-- C37, one operation on a closed database. -/
theorem Db.step_closed {v : DbEnv} {s s' : Db} {op : DbOp} {r : DbRes} (hc : s.closed = true) (h : s.step v op = some (s', r)) :
    s'.closed = true ∧ s'.disk = s.disk ∧
    (match op with
      | .put _ o => s' = s ∧ r = .entry o (.err .closed)
      | .get _ _ _ => s' = s ∧ r = .got (.err .closed)
      | .close _ => s' = s ∧ r = .out (.err .closed)
      | .newId _ => True
      | _ => s' = s) := by
  cases op with
  | newId now => simp only [Db.step, Option.some.injEq, Prod.mk.injEq] at h; obtain ⟨rfl, _⟩ := h; exact ⟨hc, rfl, trivial⟩
  | put now o =>
    simp only [Db.step, Db.putEntry, hc, if_true, Option.some.injEq, Prod.mk.injEq] at h
    obtain ⟨rfl, rfl⟩ := h; exact ⟨hc, rfl, rfl, rfl⟩
  | delete o =>
    have e : (s.deleteEntry v o).1 = s := by
      simp only [Db.deleteEntry, Db.delete, hc, if_true]
      repeat' split
      all_goals rfl
    simp only [Db.step, e, Option.some.injEq, Prod.mk.injEq] at h
    obtain ⟨rfl, _⟩ := h; exact ⟨hc, rfl, rfl⟩
  | get g q old =>
    simp only [Db.step, Db.get, hc, if_true, Option.some.injEq, Prod.mk.injEq] at h
    obtain ⟨rfl, rfl⟩ := h; exact ⟨hc, rfl, rfl, rfl⟩
  | sync e =>
    simp only [Db.step, Db.sync, hc, if_true, Option.map_some, Option.some.injEq, Prod.mk.injEq] at h
    obtain ⟨rfl, _⟩ := h; exact ⟨hc, rfl, rfl⟩
  | close id =>
    simp only [Db.step, Db.close, hc, if_true, Option.some.injEq, Prod.mk.injEq] at h
    obtain ⟨rfl, rfl⟩ := h; exact ⟨hc, rfl, rfl, rfl⟩
  | rotate t => simp only [Db.step, hc, if_true, Option.some.injEq, Prod.mk.injEq] at h; obtain ⟨rfl, _⟩ := h; exact ⟨hc, rfl, rfl⟩
  | write id t => simp only [Db.step, hc, if_true, Option.some.injEq, Prod.mk.injEq] at h; obtain ⟨rfl, _⟩ := h; exact ⟨hc, rfl, rfl⟩

/-- The error a put, a get or a close must answer with; nothing is asked of the others. -/
def Spec.refusedClosed : DbOp → DbRes → Prop
  | .put _ o, r => r = .entry o (.err .closed)
  | .get _ _ _, r => r = .got (.err .closed)
  | .close _, r => r = .out (.err .closed)
  | _, _ => True

/-- C37. Close any database, then do anything: every put, get and further close is answered with the error, entry objects stay as
they are, and the files are those close left. -/
theorem C37_closed (v : DbEnv) (s : Db) (id : Int) (ops : List DbOp) (s' : Db) (rs : List DbRes)
    (h : (s.close id).1.run v ops = some (s', rs)) :
    (∀ x ∈ ops.zip rs, Spec.refusedClosed x.1 x.2) ∧ s'.disk = (s.close id).1.disk ∧ s'.closed = true := by
  have hc : (s.close id).1.closed = true := by
    simp only [Db.close]
    split
    · next h => exact h
    · rfl
  generalize (s.close id).1 = s0 at h hc
  induction ops generalizing s0 s' rs with
  | nil =>
    simp only [Db.run, Option.some.injEq, Prod.mk.injEq] at h
    obtain ⟨rfl, rfl⟩ := h
    exact ⟨by simp, rfl, hc⟩
  | cons op ops ih =>
    simp only [Db.run, Option.bind_eq_some_iff, Option.map_eq_some_iff, Prod.mk.injEq] at h
    obtain ⟨⟨s1, r1⟩, h1, ⟨s2, rs2⟩, h2, rfl, rfl⟩ := h
    obtain ⟨a1, a2, a3⟩ := Db.step_closed hc h1
    obtain ⟨b1, b2, b3⟩ := ih s2 rs2 s1 h2 a1
    refine ⟨?_, b2.trans a2, b3⟩
    simp only [List.zip_cons_cons, List.mem_cons, forall_eq_or_imp]
    refine ⟨?_, b1⟩
    cases op <;> first | exact a3.2 | trivial

/-- C37: puts, gets and closes on a closed database leave the whole state as it is. -/
theorem C37_unchanged (v : DbEnv) (s : Db) (id : Int) (ops : List DbOp) (hops : ∀ op ∈ ops, match op with | .put _ _ | .get _ _ _ | .close _ => True | _ => False) :
    ∃ rs, (s.close id).1.run v ops = some ((s.close id).1, rs) := by
  have hc : (s.close id).1.closed = true := by
    simp only [Db.close]
    split
    · next h => exact h
    · rfl
  generalize (s.close id).1 = s0 at hc
  induction ops with
  | nil => exact ⟨[], rfl⟩
  | cons op ops ih =>
    obtain ⟨rs, hr⟩ := ih (fun o ho => hops o (List.mem_cons_of_mem _ ho))
    have h0 := hops op (by simp)
    have : ∃ r, s0.step v op = some (s0, r) := by
      cases op with
      | put now o => exact ⟨.entry o (.err .closed), by simp only [Db.step, Db.putEntry, hc, if_true]⟩
      | get g q old => exact ⟨.got (.err .closed), by simp only [Db.step, Db.get, hc, if_true]⟩
      | close id => exact ⟨.out (.err .closed), by simp only [Db.step, Db.close, hc, if_true]⟩
      | _ => exact h0.elim
    obtain ⟨r, h1⟩ := this
    exact ⟨r :: rs, by simp only [Db.run, h1, Option.bind_some, hr, Option.map_some]⟩

/-- Not part of C37: a delete on a closed database does not answer with an error but panics, for every id of a stored message. -/
theorem C37_delete_panics (v : DbEnv) (s : Db) (id : Int) (o : Obj) (hm : s.immutable = false) (b : Bytes) (hb : o.id = some b) (hl : b.length = 16)
    (ht : o.topic ≠ []) (ht2 : o.topic.length ≤ 65536) : ((s.close id).1.deleteEntry v o).2 = .panic := by
  have hc : (s.close id).1.closed = true := by
    simp only [Db.close]
    split
    · next h => exact h
    · rfl
  have him : (s.close id).1.immutable = false := by
    simp only [Db.close]; split <;> exact hm
  have h0 : o.topic.length ≠ 0 := fun h => ht (List.length_eq_zero_iff.mp h)
  simp only [Db.deleteEntry, him, hb, Option.getD_some, hl, if_neg h0, if_neg (by omega : ¬ o.topic.length > 65536)]
  simp only [Bool.false_eq_true, if_false, OfNat.ofNat_ne_zero]
  split
  · rfl
  · simp [Db.delete, hc]

/-! ## C38 -/

/-- The sequence in a header file; zero for a new database. -/
def headerSeq (info : Bytes) : UInt64 := ((DBInfo.unmarshal info).map (·.sequence)).getD 0

theorem headerSeq_infoBytes (s : Db) : headerSeq s.infoBytes = s.seq := by
  obtain ⟨j, h1, _, _, h2, _⟩ := C01_header_roundtrip
    { signature := dbSignature, version := 1, encryption := s.enc, sequence := s.seq, count := s.count } rfl
  simp only [headerSeq, Db.infoBytes, h1, Option.map_some, Option.getD_some, h2]

theorem Db.recoverBlock_fields {e : SyncEnv} {s s' : Db} {h h' : Handle} {p p' : AMap UInt64 (List WinEntry)} {t : Int}
    (hf : s.recoverBlock e h p t = some (s', h', p')) : s'.closed = s.closed ∧ s'.immutable = s.immutable ∧ s'.enc = s.enc ∧ s'.seq = s.seq ∧
      (s'.info = s.info ∧ s'.count = s.count ∨ s'.info = s'.infoBytes) := by
  simp only [Db.recoverBlock, Option.bind_eq_bind, Option.bind_eq_some_iff] at hf
  obtain ⟨rs, _, hf⟩ := hf
  split at hf
  · simp only [pure, Option.some.injEq, Prod.mk.injEq] at hf
    obtain ⟨rfl, _⟩ := hf
    simp
  · simp only [Option.bind_eq_some_iff] at hf
    obtain ⟨⟨st, w, new⟩, _, tr0, _, ⟨tr, ww⟩, _, ⟨s1, h1⟩, hfl, hf⟩ := hf
    simp only [pure, Option.some.injEq, Prod.mk.injEq] at hf
    obtain ⟨rfl, _⟩ := hf
    obtain ⟨f1, f2, f3, f4, f5, _⟩ := Db.flush_fields hfl
    exact ⟨f2, f1, f3, f4, .inr f5⟩

theorem Db.recoverBlocks_fields {e : SyncEnv} (ts : List Int) : ∀ {s s' : Db} {h h' : Handle} {p p' : AMap UInt64 (List WinEntry)},
    Db.recoverBlocks e ts s h p = some (s', h', p') → s'.closed = s.closed ∧ s'.immutable = s.immutable ∧ s'.enc = s.enc ∧ s'.seq = s.seq ∧
      (s'.info = s.info ∧ s'.count = s.count ∨ s'.info = s'.infoBytes) := by
  induction ts with
  | nil => intro s s' h h' p p' hf; simp only [Db.recoverBlocks, Option.some.injEq, Prod.mk.injEq] at hf; obtain ⟨rfl, _⟩ := hf; simp
  | cons t ts ih =>
    intro s s' h h' p p' hf
    simp only [Db.recoverBlocks, Option.bind_eq_some_iff] at hf
    obtain ⟨⟨s1, h1, p1⟩, hb, hf⟩ := hf
    obtain ⟨a1, a2, a3, a4, a5⟩ := Db.recoverBlock_fields hb
    obtain ⟨b1, b2, b3, b4, b5⟩ := ih hf
    refine ⟨b1.trans a1, b2.trans a2, b3.trans a3, b4.trans a4, ?_⟩
    rcases b5 with b5 | b5
    · rcases a5 with a5 | a5
      · exact .inl ⟨b5.1.trans a5.1, b5.2.trans a5.2⟩
      · refine .inr ?_
        rw [b5.1, a5]
        simp only [Db.infoBytes, b3, b4, b5.2]
    · exact .inr b5

theorem Db.recoverLog_fields {e : SyncEnv} {s s' : Db} {b : Bool} (hf : s.recoverLog e = some (s', b)) :
    s'.closed = s.closed ∧ s'.immutable = s.immutable ∧ s'.enc = s.enc ∧ s'.seq = s.seq ∧ (s'.info = s.info ∧ s'.count = s.count ∨ s'.info = s'.infoBytes) := by
  simp only [Db.recoverLog] at hf
  split at hf
  · simp only [Option.some.injEq, Prod.mk.injEq] at hf
    obtain ⟨rfl, _⟩ := hf
    simp
  · simp only [Option.bind_eq_bind, Option.bind_eq_some_iff] at hf
    obtain ⟨w, _, ⟨s1, h1, p1⟩, hb, hf⟩ := hf
    have hb := Db.recoverBlocks_fields _ hb
    split at hf
    · simp only [pure, Option.some.injEq, Prod.mk.injEq] at hf
      obtain ⟨rfl, _⟩ := hf
      exact hb
    · simp only [pure, Option.some.injEq, Prod.mk.injEq] at hf
      obtain ⟨rfl, _⟩ := hf
      exact hb

/-- An opened database starts with the sequence of the header file, which stays in it. -/
theorem openDb_seq {v : DbEnv} {o : OpenOpts} {r : RecEnv} {e : SyncEnv} {now : Int} {d : Disk} {s : Db} (h : openDb v o r e now d = .ok s) :
    s.closed = false ∧ s.seq = headerSeq d.info ∧ headerSeq s.info = s.seq := by
  simp only [openDb] at h
  generalize hinfo : (if d.info = [] then _ else d.info) = info at h
  cases hu : DBInfo.unmarshal info with
  | none => simp [hu] at h
  | some i =>
    simp only [hu] at h
    split at h
    · simp at h
    · split at h
      · simp at h
      · split at h
        · simp at h
        · simp at h
        · split at h
          · simp at h
          · next s1 hr =>
            simp only [OpenOut.ok.injEq] at h
            subst h
            obtain ⟨a1, _, _, a4, a5⟩ := Db.recoverLog_fields hr
            have hseq : i.sequence = headerSeq d.info := by
              by_cases hd : d.info = []
              · rw [if_pos hd] at hinfo
                subst hinfo
                obtain ⟨j, h1, _, _, h2, _⟩ := C01_header_roundtrip
                  { signature := dbSignature, version := 1, encryption := 0, sequence := 0, count := 0 } rfl
                rw [h1] at hu
                cases hu
                rw [h2, hd]
                rfl
              · rw [if_neg hd] at hinfo
                simp [headerSeq, hinfo, hu]
            refine ⟨a1, a4.trans hseq, ?_⟩
            rcases a5 with a5 | a5
            · rw [a5.1, a4]
              simp only [headerSeq, hu, Option.map_some, Option.getD_some]
            · rw [a5, headerSeq_infoBytes]
          · simp at h

/-- The sequences an operation hands out: the one in the id NewID returns; the one in the record a put without an id stores. -/
def Spec.handed (v : DbEnv) (s : Db) (op : DbOp) (r : DbRes) : List UInt64 :=
  match op, r with
  | .newId _, .id b => (idSequence b).toList
  | .put now o, .entry _ .ok => if o.id = none then ((s.setEntry v now o).map (·.2.2.1.seq)).toList else []
  | _, _ => []

/-- The life of a database from its creation: calls (NewID only while it is open; the sequence counter does not wrap), clean
restarts, and crashes at any point between calls. After a crash only the sequences up to the one in the header file are kept in the
list, whose head is the newest. -/
inductive Spec.Life (v : DbEnv) : Db → List UInt64 → Prop
  | create {o r e now s} : openDb v o r e now {} = .ok s → Spec.Life v s []
  | call {s hs op s' res} : Spec.Life v s hs → s.step v op = some (s', res) → s.seq.toNat + 1 < 2 ^ 64 →
      (s.closed = true → ∀ now, op ≠ .newId now) → Spec.Life v s' (Spec.handed v s op res ++ hs)
  | restart {s hs o r e now s'} : Spec.Life v s hs → s.closed = true → openDb v o r e now s.disk = .ok s' → Spec.Life v s' hs
  | crash {s hs o r e now s'} : Spec.Life v s hs → openDb v o r e now s.disk = .ok s' → Spec.Life v s' (hs.filter (· ≤ headerSeq s.info))

/-- What one call does to the sequence counter and the header. -/
theorem Db.step_seq {v : DbEnv} {s s' : Db} {op : DbOp} {r : DbRes} (h : s.step v op = some (s', r)) :
    (s'.seq = s.seq ∧ Spec.handed v s op r = [] ∨ s'.seq = s.seq + 1 ∧ (Spec.handed v s op r = [] ∨ Spec.handed v s op r = [s.seq + 1])) ∧
    (headerSeq s'.info = headerSeq s.info ∨ headerSeq s'.info = s'.seq) ∧
    (s'.closed = true → s.closed = true ∨ headerSeq s'.info = s'.seq) ∧
    (s.closed = true → s'.info = s.info ∧ ((∀ now, op ≠ .newId now) → s'.seq = s.seq)) := by
  cases op with
  | newId now =>
    simp only [Db.step, Option.some.injEq, Prod.mk.injEq] at h
    obtain ⟨rfl, rfl⟩ := h
    refine ⟨.inr ⟨rfl, .inr ?_⟩, .inl rfl, fun hc => .inl hc, fun _ => ⟨rfl, fun hn => absurd rfl (hn now)⟩⟩
    simp [Spec.handed, Db.newId, idSequence_newID]
  | put now o =>
    simp only [Db.step, Option.some.injEq, Prod.mk.injEq] at h
    obtain ⟨rfl, rfl⟩ := h
    obtain ⟨_, p2, p3, _, _, _, _, p8⟩ := s.putEntry_fields v now o
    refine ⟨?_, .inl (by rw [p3]), fun hc => .inl (p2 ▸ hc), fun hc => ⟨p3, fun _ => by simp [Db.putEntry, hc]⟩⟩
    by_cases hid : o.id = none
    · -- the counter moves exactly when a sequence was drawn
      have hh : ∀ r1, Spec.handed v s (.put now o) (.entry r1 (s.putEntry v now o).2.2) ≠ [] →
          Spec.handed v s (.put now o) (.entry r1 (s.putEntry v now o).2.2) = [s.seq + 1] ∧ (s.putEntry v now o).1.seq = s.seq + 1 := by
        intro r1 hne
        cases hout : (s.putEntry v now o).2.2 with
        | ok =>
          rw [hout] at hne
          simp only [Spec.handed, hid, if_true] at hne ⊢
          cases hse : s.setEntry v now o with
          | none => simp [hse] at hne
          | some x =>
            obtain ⟨s1, o1, h1, c1⟩ := x
            have hse' := hse
            simp only [Db.setEntry, Option.map_eq_some_iff, Prod.mk.injEq] at hse'
            obtain ⟨⟨s2, h2, c2⟩, hp, rfl, _, rfl, _⟩ := hse'
            obtain ⟨e1, e2, _⟩ := Db.packEntry_fields hp
            rw [Db.parseEntry_id] at e1 e2
            refine ⟨by simp [e2 hid], ?_⟩
            rw [Db.putEntry_seq hout hse, e1]; simp [hid]
        | err x => rw [hout] at hne; simp [Spec.handed] at hne
        | panic => rw [hout] at hne; simp [Spec.handed] at hne
        | hang => rw [hout] at hne; simp [Spec.handed] at hne
      by_cases hne : Spec.handed v s (.put now o) (.entry (s.putEntry v now o).2.1 (s.putEntry v now o).2.2) = []
      · rcases p8 with p8 | p8
        · exact .inl ⟨p8, hne⟩
        · exact .inr ⟨p8.1, .inl hne⟩
      · obtain ⟨x1, x2⟩ := hh _ hne
        exact .inr ⟨x2, .inr x1⟩
    · refine .inl ⟨?_, ?_⟩
      · rcases p8 with p8 | p8
        · exact p8
        · exact absurd p8.2 hid
      · simp only [Spec.handed]
        split <;> simp_all
  | delete o =>
    simp only [Db.step, Option.some.injEq, Prod.mk.injEq] at h
    obtain ⟨rfl, rfl⟩ := h
    obtain ⟨_, d2, d3, d4⟩ := s.deleteEntry_fields v o
    exact ⟨.inl ⟨d4, rfl⟩, .inl (by rw [d3]), fun hc => .inl (d2 ▸ hc), fun _ => ⟨d3, fun _ => d4⟩⟩
  | get g q old =>
    simp only [Db.step, Option.some.injEq, Prod.mk.injEq] at h
    obtain ⟨rfl, rfl⟩ := h
    rw [Db.get_fields]
    exact ⟨.inl ⟨rfl, rfl⟩, .inl rfl, fun hc => .inl hc, fun _ => ⟨rfl, fun _ => rfl⟩⟩
  | sync e =>
    simp only [Db.step, Option.map_eq_some_iff] at h
    obtain ⟨⟨s1, o1⟩, hs, he⟩ := h
    simp only [Prod.mk.injEq] at he
    obtain ⟨rfl, rfl⟩ := he
    obtain ⟨_, c2, _, c4, c5, c6⟩ := Db.sync_fields hs
    refine ⟨.inl ⟨c4, rfl⟩, ?_, fun hc => .inl (c2 ▸ hc), fun hc => ?_⟩
    · rcases c5 with c5 | c5
      · exact .inl (by rw [c5.1])
      · exact .inr (by rw [c5, headerSeq_infoBytes])
    · have := c6 hc
      subst this
      exact ⟨rfl, fun _ => rfl⟩
  | close id =>
    simp only [Db.step, Option.some.injEq, Prod.mk.injEq] at h
    obtain ⟨rfl, rfl⟩ := h
    simp only [Db.close]
    split
    · next hc => exact ⟨.inl ⟨rfl, rfl⟩, .inl rfl, fun _ => .inl hc, fun _ => ⟨rfl, fun _ => rfl⟩⟩
    · next hc =>
      exact ⟨.inl ⟨rfl, rfl⟩, .inr (headerSeq_infoBytes s), fun _ => .inr (headerSeq_infoBytes s), fun h => absurd h hc⟩
  | rotate t =>
    simp only [Db.step, Option.some.injEq, Prod.mk.injEq] at h
    obtain ⟨rfl, rfl⟩ := h
    split <;> exact ⟨.inl ⟨rfl, rfl⟩, .inl rfl, fun hc => .inl hc, fun _ => ⟨rfl, fun _ => rfl⟩⟩
  | write id t =>
    simp only [Db.step, Option.some.injEq, Prod.mk.injEq] at h
    obtain ⟨rfl, rfl⟩ := h
    split <;> exact ⟨.inl ⟨rfl, rfl⟩, .inl rfl, fun hc => .inl hc, fun _ => ⟨rfl, fun _ => rfl⟩⟩

theorem life_inv {v : DbEnv} {s : Db} {hs : List UInt64} (h : Spec.Life v s hs) :
    hs.Pairwise (· > ·) ∧ (∀ q ∈ hs, q ≤ s.seq) ∧ headerSeq s.info ≤ s.seq ∧ (s.closed = true → headerSeq s.info = s.seq) := by
  induction h with
  | create h =>
    obtain ⟨h1, _, h3⟩ := openDb_seq h
    exact ⟨by simp, by simp, UInt64.le_of_eq h3, fun _ => h3⟩
  | @call s hs op s' res _ hst hw hnew ih =>
    obtain ⟨i1, i2, i3, i4⟩ := ih
    obtain ⟨b1, b2, b3, b4⟩ := Db.step_seq hst
    have hlt : s.seq < s.seq + 1 := by
      rw [UInt64.lt_iff_toNat_lt, UInt64.toNat_add]
      have : UInt64.toNat 1 = 1 := rfl
      omega
    have hle : s.seq ≤ s'.seq := by
      rcases b1 with b1 | b1
      · exact UInt64.le_of_eq b1.1.symm
      · rw [b1.1]; exact UInt64.le_of_lt hlt
    have hold : ∀ q ∈ hs, q ≤ s'.seq := fun q hq => UInt64.le_trans (i2 q hq) hle
    refine ⟨?_, ?_, ?_, ?_⟩
    · rcases b1 with ⟨_, b⟩ | ⟨_, b | b⟩
      · rw [b]; exact i1
      · rw [b]; exact i1
      · rw [b, List.singleton_append, List.pairwise_cons]
        exact ⟨fun q hq => UInt64.lt_of_le_of_lt (i2 q hq) hlt, i1⟩
    · intro q hq
      rcases List.mem_append.1 hq with hq | hq
      · rcases b1 with ⟨_, b⟩ | ⟨e, b | b⟩
        · rw [b] at hq; simp at hq
        · rw [b] at hq; simp at hq
        · rw [b, List.mem_singleton] at hq; rw [hq, e]; exact UInt64.le_of_eq rfl
      · exact hold q hq
    · rcases b2 with b2 | b2
      · rw [b2]; exact UInt64.le_trans i3 hle
      · exact UInt64.le_of_eq b2
    · intro hc
      rcases b3 hc with b3 | b3
      · obtain ⟨x1, x2⟩ := b4 b3
        rw [x1, x2 (hnew b3)]
        exact i4 b3
      · exact b3
  | @restart s hs o r e now s' _ hc hop ih =>
    obtain ⟨i1, i2, i3, i4⟩ := ih
    obtain ⟨h1, h2, h3⟩ := openDb_seq hop
    have : s'.seq = s.seq := h2.trans (i4 hc)
    exact ⟨i1, by rw [this]; exact i2, UInt64.le_of_eq h3, fun _ => h3⟩
  | @crash s hs o r e now s' _ hop ih =>
    obtain ⟨i1, i2, i3, i4⟩ := ih
    obtain ⟨h1, h2, h3⟩ := openDb_seq hop
    refine ⟨i1.filter _, ?_, UInt64.le_of_eq h3, fun _ => h3⟩
    intro q hq
    rw [h2, show s.disk.info = s.info from rfl]
    simpa using (List.mem_filter.1 hq).2

/-- C38 (partial: a crash forgets the sequences handed out after the last write of the header file; `C38_crash_violated`). Over every
life of a database all other sequences handed out are distinct and each is larger than those before it; with clean restarts only,
that is all of them. -/
theorem C38_increasing_partial (v : DbEnv) (s : Db) (hs : List UInt64) (h : Spec.Life v s hs) : hs.Pairwise (· > ·) := (life_inv h).1

/-- C38: a database that was cleanly closed and opened again continues after the last sequence it had handed out. -/
theorem C38_restart (v : DbEnv) (s : Db) (hs : List UInt64) (h : Spec.Life v s hs) (hc : s.closed = true) (o : OpenOpts) (r : RecEnv) (e : SyncEnv)
    (now : Int) (s' : Db) (ho : openDb v o r e now s.disk = .ok s') (t : Int) : idSequence (s'.newId t).2 = some (s.seq + 1) := by
  have h1 := (life_inv h).2.2.2 hc
  have h2 := (openDb_seq ho).2.1
  simp only [Db.newId, idSequence_newID, h2, Option.some.injEq]
  rw [show s.disk.info = s.info from rfl, h1]

/-! ## Concrete databases -/

/-- The environment of the examples: one shard, an exact filter, a toy cipher, no compression. -/
def DbEnv.toy : DbEnv where
  mem := { MEnv.one with cap := 4000 }
  mac := mac0
  encode := id
  decode := some
  dur := fun _ => 0
  q := ⟨1000, 100000⟩
  stale := none

def RecEnv.toy : RecEnv := ⟨1000, [], id, id⟩
def SyncEnv.toy : SyncEnv := ⟨1600000000, fun m => m⟩
def toyNow : Int := 1600000000 * 1000000000
def GetEnv.toy : GetEnv := ⟨toyNow, id, id, 16⟩

def OpenOut.db? : OpenOut → Option Db
  | .ok s => some s
  | _ => none

/-- A database opened in the toy environment. -/
def toyOpen (o : OpenOpts) (now : Int) (d : Disk) : Option Db := (openDb .toy o .toy .toy now d).db?

/-- A history on a new mutable database. -/
def toyRun (ops : List DbOp) : Option (Db × List DbRes) := (toyOpen {} 5000 {}).bind fun s => s.run .toy ops

theorem OpenOut.db?_some {x : OpenOut} {s : Db} (h : x.db? = some s) : x = .ok s := by
  cases x <;> simp [OpenOut.db?] at h
  rw [h]

def toyEntry : Obj := { topic := [97], payload := [1, 1, 1, 1] }
def toyKill (q : UInt64) : Obj := { topic := [97], payload := [], id := some (newID 1600000000 q) }

/-- C36, C37: an immutable database with a history that contains a delete, and one that is closed and used again. -/
example : ((toyOpen { immutable := true } 5000 {}).bind fun s => (s.run .toy [.put toyNow toyEntry, .delete (toyKill 1), .get .toy (newQuery [97]) []]).map (·.2.drop 1)) =
    some [.out (.err .immutable), .got (.out (.ok [[1, 1, 1, 1]]))] := by decide +kernel

example : (toyRun [.put toyNow toyEntry, .close 5001, .get .toy (newQuery [97]) [], .put toyNow toyEntry, .close 5002, .delete (toyKill 1)]).map (·.2.drop 1) =
    some [.out .ok, .got (.err .closed), .entry toyEntry (.err .closed), .out (.err .closed), .out .panic] := by decide +kernel

/-- C38: a life with a put, a NewID, a close, a restart and another NewID. -/
example : ∃ s, Spec.Life .toy s [3, 2, 1] := by
  have h : ∃ s, ((toyOpen {} 5000 {}).bind fun s => toyOpen {} 7000 (((((s.putEntry .toy toyNow toyEntry).1).newId toyNow).1.close 5001).1).disk) = some s :=
    Option.isSome_iff_exists.mp (by decide +kernel)
  obtain ⟨s2, h⟩ := h
  rw [Option.bind_eq_some_iff] at h
  obtain ⟨s, h1, h2⟩ := h
  have h1' := OpenOut.db?_some h1
  have hq : s.seq = 0 := (openDb_seq h1').2.1
  have hc : s.closed = false := (openDb_seq h1').1
  have hput : ((toyOpen {} 5000 {}).bind fun s => some ((s.putEntry .toy toyNow toyEntry).2, (s.putEntry .toy toyNow toyEntry).1.seq,
      (s.putEntry .toy toyNow toyEntry).1.closed, Spec.handed .toy s (.put toyNow toyEntry) (.entry (s.putEntry .toy toyNow toyEntry).2.1 (s.putEntry .toy toyNow toyEntry).2.2))).map
      (fun x => (x.1.2, x.2)) = some (.ok, 1, false, [1]) := by decide +kernel
  rw [h1] at hput
  simp only [Option.bind_some, Option.map_some, Option.some.injEq, Prod.mk.injEq] at hput
  obtain ⟨_, p2, p3, p4⟩ := hput
  have l0 : Spec.Life .toy s [] := .create h1'
  have l1 := Spec.Life.call (op := .put toyNow toyEntry) l0 rfl (by rw [hq]; decide) (fun h => by simp [hc] at h)
  rw [p4] at l1
  have l2 := Spec.Life.call (op := .newId toyNow) l1 rfl (by rw [p2]; decide) (fun h => by simp [p3] at h)
  have e2 : ((s.putEntry .toy toyNow toyEntry).1.newId toyNow).1.seq = 2 := by simp only [Db.newId, p2]; rfl
  have l3 := Spec.Life.call (op := .close 5001) l2 rfl (by rw [e2]; decide) (fun _ now => by simp)
  have hcl : (((s.putEntry .toy toyNow toyEntry).1.newId toyNow).1.close 5001).1.closed = true := by
    simp only [Db.close, Db.newId, p3]; rfl
  have l4 := Spec.Life.restart l3 hcl (OpenOut.db?_some h2)
  have hs2 : s2.seq = 2 := by
    have := C38_restart _ _ _ l3 hcl _ _ _ _ _ (OpenOut.db?_some h2) toyNow
    have e3 : (((s.putEntry .toy toyNow toyEntry).1.newId toyNow).1.close 5001).1.seq = 2 := by
      simp only [Db.close, Db.newId, p2, p3]; rfl
    rw [e3] at this
    simp only [Db.newId, idSequence_newID, Option.some.injEq] at this
    exact (UInt64.add_left_inj 1).mp this
  have l5 := Spec.Life.call (op := .newId toyNow) l4 rfl (by rw [hs2]; decide) (fun h => by simp [(openDb_seq (OpenOut.db?_some h2)).1] at h)
  simp only [Spec.handed, Db.newId, idSequence_newID, hs2, p2, Option.toList_some, List.nil_append, List.cons_append] at l5
  exact ⟨_, l5⟩

/-- C38 is false with crashes: NewID, crash, open, NewID gives the same id again. -/
theorem C38_crash_violated : ((toyOpen {} 5000 {}).bind fun s => (toyOpen {} 7000 (s.newId toyNow).1.disk).map fun s' =>
    decide ((s.newId toyNow).2 = (s'.newId toyNow).2)) = some true := by decide +kernel

/-- C38 is false with crashes, also for stored messages: the first put is already in the log when the process dies, and the first put
after the restart gets the same sequence. -/
theorem C38_logged_violated : ((toyRun [.put toyNow toyEntry, .write 5001 5000]).bind fun x => (toyOpen {} 7000 x.1.disk).map fun s' =>
    (x.1.mem.wal.length, x.1.seq, (s'.putEntry .toy toyNow toyEntry).2.2, (s'.putEntry .toy toyNow toyEntry).1.seq)) = some (1, 1, .ok, 1) := by decide +kernel

/-- C38 is false with a NewID after Close: it is handed out but not written. -/
theorem C38_closed_violated : ((toyRun [.close 5001]).bind fun x => (toyOpen {} 7000 (x.1.newId toyNow).1.disk).map fun s' =>
    decide ((x.1.newId toyNow).2 = (s'.newId toyNow).2)) = some true := by decide +kernel

end Verif
