import Verif.Props.DbEffects

/-!
# C44, C72, C73: batches of the database
-/

namespace Verif

/-! ## C72: a committed batch -/

/-- C72 (partial: no `writeInternal` of the batch ended with an error, the tiny log is rotated before anything else happens, and the
restrictions of C68). After a batch of puts is committed, with or without writes in between, a Get returns exactly the messages put before
and in the batch that it asks for. -/
theorem C72_commit_partial (v : DbEnv) (hs : v.mac.cipher.Sound) (hde : ∀ x, v.decode (v.encode x) = some x)
    (htest : ∀ ks k, k ∈ ks → v.mem.test ks k = true) (s s1 s2 : Db) (b b2 : DBatch) (ms ms' : List Spec.Message) (quiet : Bool)
    (H : Spec.Story v s ms quiet) (hb : Spec.InBatch v s ms s1 b ms') (next next' t : Int) (h1 : b.mem.tid ≤ next) (h2 : next ≤ next') (h3 : next' ≤ t)
    (hc : { b with managed := false }.commit v next next' s1 = (s2, b2, .ok)) (hl : b2.lost = false)
    (g : GetEnv) (q : Query) (hlen : s2.store.data.length < 2 ^ 63) (ht0 : q.topic ≠ []) (ht1 : q.topic.length ≤ 65536)
    (hcut : (q.ask v.dur g.now v.q).cutoff ≤ 0) (hlim : ((Spec.addressed ms' (q.ask v.dur g.now v.q).contract q.topic 0).length : Int) ≤ (q.ask v.dur g.now v.q).limit)
    (how : ∀ w, (g.orderWin w).Perm w) (hot : ∀ ts, (g.orderTopics ts).Perm ts)
    (hst : Spec.isStatic (Spec.topicText q.topic) = true) (hlq : (Spec.levels (Spec.topicText q.topic)).length ≤ 255)
    (hown : ∀ m ∈ ms', ∀ m' ∈ ms', topicHash m.contract m.topic = topicHash m'.contract m'.topic →
      (parseTopic m.contract m.topic).1.parts = (parseTopic m'.contract m'.topic).1.parts)
    (hcw : ∀ m ∈ ms', m.contract ≠ wildcardHash)
    (hh : ∀ m ∈ ms', ∀ p ∈ Spec.levels (Spec.topicText m.topic), Spec.isStar p = false → Hash.withSalt p m.contract ≠ wildcardHash ∧
      ∀ t ∈ Spec.levels (Spec.topicText q.topic), Hash.withSalt p m.contract = Hash.withSalt t m.contract → p = t)
    (hfirst : ∀ m ∈ Spec.addressed ms' (q.ask v.dur g.now v.q).contract q.topic 0,
      (readWindowBlock s2.winFile 0).map (·.topicHash) ≠ some (topicHash m.contract m.topic))
    (hcap : (Spec.addressed ms' (q.ask v.dur g.now v.q).contract q.topic (toU32 (unixSec g.now))).length ≤ g.cap) :
    ∃ out : List Spec.Message, (({ s2 with mem := s2.mem.rotate t } : Db).get v g q []).2 = .out (.ok (out.map (·.payload))) ∧
      out.Perm (Spec.addressed ms' (q.ask v.dur g.now v.q).contract q.topic (toU32 (unixSec g.now))) ∧ out.Pairwise (fun a b => a.seq > b.seq) :=
  C68_put_get_partial v hs hde htest _ ms' quiet (.batch next next' t H hb h1 h2 h3 hc hl) g q hlen ht0 ht1 hcut hlim how hot hst hlq hown hcw hh
    hfirst hcap

/-- What `Batch` does when its function succeeds: commit. -/
theorem Db.batch_ok (v : DbEnv) (s s0 s1 : Db) (t next next' : Int) (ops : List DBatchOp) (b0 b : DBatch) (h : s.newBatch t = some (s0, b0))
    (hr : DBatch.steps v s0 { b0 with managed := true } ops = (s1, b, .ok)) :
    s.batch v t next next' ops false = (({ b with managed := false }.commit v next next' s1).1, ({ b with managed := false }.commit v next next' s1).2.2) := by
  simp only [Db.batch, h, hr, Bool.false_eq_true, if_false]

def toyAdd (topic : Bytes) (x : UInt8) : DBatchOp := .put toyNow { topic := topic, payload := [x, x, x, x] }

/-- Batches of puts and writes in the toy environment, checked step by step. -/
def toyFill : List DBatchOp → Db → DBatch → List Spec.Message → Option (Db × DBatch × List Spec.Message)
  | [], s, b, ms => some (s, b, ms)
  | op :: ops, s, b, ms =>
    match op with
    | .put now o =>
      if s.seq.toNat < 255 * 524287 ∧ o.id = none ∧ o.parsed = false ∧ o.topicSize = 0 ∧ o.payload.length ≤ 100 ∧
          Spec.startsWithStar (Spec.topicText o.topic) = false ∧ (Spec.levels (Spec.topicText o.topic)).length ≤ 254 ∧
          (b.putEntry .toy now s o).2.2.2 = .ok
      then toyFill ops (b.putEntry .toy now s o).1 (b.putEntry .toy now s o).2.1 (ms ++ [Spec.messageOf .toy now s o]) else none
    | .write next =>
      if b.mem.tid ≤ next ∧ (b.write .toy next s).2.2 = .ok ∧ (b.write .toy next s).2.1.lost = false
      then toyFill ops (b.write .toy next s).1 (b.write .toy next s).2.1 ms else none
    | .delete _ _ => none

theorem toyFill_inBatch {s0 : Db} {ms0 : List Spec.Message} (ops : List DBatchOp) : ∀ (s s' : Db) (b b' : DBatch) (ms ms' : List Spec.Message),
    Spec.InBatch .toy s0 ms0 s b ms → toyFill ops s b ms = some (s', b', ms') → Spec.InBatch .toy s0 ms0 s' b' ms' := by
  induction ops with
  | nil =>
    intro s s' b b' ms ms' H h
    simp only [toyFill, Option.some.injEq, Prod.mk.injEq] at h
    obtain ⟨rfl, rfl, rfl⟩ := h
    exact H
  | cons op ops ih =>
    intro s s' b b' ms ms' H h
    cases op with
    | put now o =>
      simp only [toyFill] at h
      split at h
      · next hc =>
        obtain ⟨h1, h2, h3, h4, h5, h6, h7, h8⟩ := hc
        refine ih _ _ _ _ _ _ (.put now o H h1 ⟨saneToy o (by rw [h2]; intro b hb; cases hb) (by omega), h3, h4, h6, h7, ?_⟩ h8) h
        intro id q hi
        rw [h2] at hi; cases hi
      · cases h
    | write next =>
      simp only [toyFill] at h
      split at h
      · next hc => exact ih _ _ _ _ _ _ (.write next H hc.1 hc.2.1 hc.2.2) h
      · cases h
    | delete now o => cases h

/-- A batch with a write in between, in the toy environment. -/
def toyBatch (s : Db) (ms : List Spec.Message) (t : Int) (ops : List DBatchOp) : Option (Db × DBatch × List Spec.Message) :=
  (s.newBatch t).bind fun x => toyFill ops x.1 { x.2 with managed := true } ms

/-- The hypotheses of `C72_commit_partial` hold of a history with two puts and a batch of three more, one of them written early; the query for
topic `b.c` asks for three messages. -/
example : ∃ (s s1 s2 : Db) (b b2 : DBatch) (ms ms' : List Spec.Message) (quiet : Bool), Spec.Story .toy s ms quiet ∧ Spec.InBatch .toy s ms s1 b ms' ∧
    b.mem.tid ≤ 6700 ∧ { b with managed := false }.commit .toy 6700 6800 s1 = (s2, b2, .ok) ∧ b2.lost = false ∧
    toyAsk s2 ms' .toy (newQuery [98, 46, 99]) ∧ (Spec.addressed ms' 3376684800 [98, 46, 99] 1600000000).length = 3 := by
  have h : ((toyStory [toyPut [97] 1, .write 5001 5000, .rotate 6000, .sync .toy, toyPut [98, 46, 99] 2]).bind fun x =>
      (toyBatch x.1 x.2.1 6500 [toyAdd [98, 46, 99] 3, .write 6600, toyAdd [97] 4, toyAdd [98, 46, 99] 5]).map fun y =>
        decide (x.1.mem.cur ≤ 6500 ∧ y.2.1.mem.tid ≤ 6700 ∧ ({ y.2.1 with managed := false }.commit .toy 6700 6800 y.1).2.2 = .ok ∧
          ({ y.2.1 with managed := false }.commit .toy 6700 6800 y.1).2.1.lost = false ∧
          toyAsk ({ y.2.1 with managed := false }.commit .toy 6700 6800 y.1).1 y.2.2 .toy (newQuery [98, 46, 99]) ∧
          (Spec.addressed y.2.2 3376684800 [98, 46, 99] 1600000000).length = 3)) = some true := by decide +kernel
  rw [Option.bind_eq_some_iff] at h
  obtain ⟨x, hx, h⟩ := h
  rw [Option.map_eq_some_iff] at h
  obtain ⟨y, hy, h⟩ := h
  obtain ⟨h0, h1, h2, h3, h4, h5⟩ := of_decide_eq_true h
  rw [toyBatch, Option.bind_eq_some_iff] at hy
  obtain ⟨z, hz, hy⟩ := hy
  exact ⟨x.1, y.1, _, y.2.1, ({ y.2.1 with managed := false }.commit .toy 6700 6800 y.1).2.1, x.2.1, y.2.2, x.2.2, toyStory_story hx,
    toyFill_inBatch _ _ _ _ _ _ _ (.start 6500 true h0 hz) hy, h1, by rw [← h2], h3, h4, h5⟩

/-- C72 is false when the buffer of the batch fills up: the commit succeeds, no call returned an error, and the second message is not
stored. -/
theorem C72_full_violated : ((toyOpen {} 5000 {}).map fun s =>
    let r := s.batch { DbEnv.toy with mem := { MEnv.one with cap := 100 } } 5500 5600 5700 [toyAdd [97] 1, toyAdd [98] 2] false
    (r.2, (r.1.get .toy .toy (newQuery [97]) []).2, (r.1.get .toy .toy (newQuery [98]) []).2)) =
    some (.ok, .out (.ok [[1, 1, 1, 1]]), .out (.ok [])) := by decide +kernel

/-- C68 is false for a put that follows a batch within the same second: the time block of the batch is newer than the current one, the
search for the message stops at it, and every Get for the topic fails, also after the next rotation. -/
theorem C68_after_batch_violated : ((toyOpen {} 5000 {}).map fun s =>
    let r := s.batch .toy 5500 5600 5700 [toyAdd [97] 1] false
    let p := r.1.putEntry .toy toyNow { topic := [97], payload := [2, 2, 2, 2] }
    (r.2, (r.1.get .toy .toy (newQuery [97]) []).2, p.2.2, (p.1.get .toy .toy (newQuery [97]) []).2,
      (({ p.1 with mem := p.1.mem.rotate 6000 } : Db).get .toy .toy (newQuery [97]) []).2)) =
    some (.ok, .out (.ok [[1, 1, 1, 1]]), .ok, .out (.err []), .out (.err [])) := by decide +kernel

/-! ## C44: a failing function -/

theorem DBatch.putEntry_managed (v : DbEnv) (now : Int) (s : Db) (b : DBatch) (o : Obj) : (b.putEntry v now s o).2.1.managed = b.managed := by
  simp only [DBatch.putEntry]
  repeat' split
  all_goals rfl

theorem DBatch.deleteEntry_managed (v : DbEnv) (now : Int) (s : Db) (b : DBatch) (o : Obj) : (b.deleteEntry v now s o).2.1.managed = b.managed := by
  simp only [DBatch.deleteEntry]
  repeat' split
  all_goals rfl

theorem DBatch.write_managed (v : DbEnv) (next : Int) (s : Db) (b : DBatch) : (b.write v next s).2.1.managed = b.managed := by
  simp only [DBatch.write]
  repeat' split
  all_goals rfl

theorem DBatch.step_managed (v : DbEnv) (s : Db) (b : DBatch) (op : DBatchOp) : (DBatch.step v s b op).2.1.managed = b.managed := by
  cases op with
  | put now o => exact b.putEntry_managed v now s o
  | delete now o => exact b.deleteEntry_managed v now s o
  | write next => exact b.write_managed v next s

theorem DBatch.steps_managed (v : DbEnv) (ops : List DBatchOp) : ∀ (s : Db) (b : DBatch), (DBatch.steps v s b ops).2.1.managed = b.managed := by
  induction ops with
  | nil => intro s b; rfl
  | cons op ops ih =>
    intro s b
    have h := b.step_managed v s op
    simp only [DBatch.steps]
    split
    · next he => rw [he] at h; exact h
    · next he => rw [he] at h; exact h
    · next he => rw [he] at h; exact (ih _ _).trans h

theorem DBatch.steps_out (v : DbEnv) (ops : List DBatchOp) : ∀ (s : Db) (b : DBatch),
    (DBatch.steps v s b ops).2.2 = .ok ∨ (DBatch.steps v s b ops).2.2 = .panic ∨ (DBatch.steps v s b ops).2.2 = .hang := by
  induction ops with
  | nil => intro s b; exact .inl rfl
  | cons op ops ih =>
    intro s b
    simp only [DBatch.steps]
    split
    · exact .inr (.inl rfl)
    · exact .inr (.inr rfl)
    · exact ih _ _

/-- C44 is false for every database, batch and failing function: the call never returns the error. It panics, unless the function
itself never returns. -/
theorem C44_db_panics_violated (v : DbEnv) (s : Db) (t next next' : Int) (ops : List DBatchOp) :
    (s.batch v t next next' ops true).2 = .panic ∨ (s.batch v t next next' ops true).2 = .hang := by
  simp only [Db.batch]
  split
  · exact .inl rfl
  · next s0 b0 _ =>
    have hm := DBatch.steps_managed v ops s0 { b0 with managed := true }
    have ho := DBatch.steps_out v ops s0 { b0 with managed := true }
    split
    · next s1 b1 he =>
      rw [he] at hm
      have hm' : b1.managed = true := hm
      have ha : b1.abort s1 = (s1, .panic) := by rw [DBatch.abort, if_pos hm']
      simp only [if_true, ha, reduceCtorEq, or_false]
    · next s1 b1 out hne he =>
      rw [he] at ho
      rcases ho with h | h | h
      · exact absurd h hne
      · exact .inl h
      · exact .inr h

/-- C44 is false for what the function wrote before it failed: it can be read. -/
theorem C44_db_written_violated : ((toyOpen {} 5000 {}).map fun s =>
    let r := s.batch .toy 5500 5600 5700 [toyAdd [97] 1, .write 5550, toyAdd [97] 2] true
    (r.2, (r.1.get .toy .toy (newQuery [97]) []).2)) = some (.panic, .out (.ok [[1, 1, 1, 1]])) := by decide +kernel

/-- C44 is false for a batch the caller runs and aborts: the entries it wrote leave the memory but not the time window, so a Get for their
topic fails from then on. -/
theorem C44_db_abort_violated : ((toyOpen {} 5000 {}).bind fun s => (s.newBatch 5500).map fun x =>
    let r := DBatch.steps .toy x.1 x.2 [toyAdd [97] 1, .write 5600]
    let a := r.2.1.abort r.1
    (r.2.2, (r.1.get .toy .toy (newQuery [97]) []).2, a.2, (a.1.get .toy .toy (newQuery [97]) []).2)) =
    some (.ok, .out (.ok [[1, 1, 1, 1]]), .ok, .out (.err [])) := by decide +kernel

theorem Db.setEntry_state {v : DbEnv} {now : Int} {s s' : Db} {o o' : Obj} {h : EntryHdr} {rec : Bytes} (hs : s.setEntry v now o = some (s', o', h, rec)) :
    ∃ n, s' = { s with seq := n } := by
  simp only [Db.setEntry, Option.map_eq_some_iff, Prod.mk.injEq] at hs
  obtain ⟨⟨s2, h2, c2⟩, hp, rfl, _⟩ := hs
  obtain ⟨q, id, pre, val, hdr, _⟩ := Db.packEntry_some hp
  exact (Db.drawId_some hdr).1

theorem DBatch.putEntry_state (v : DbEnv) (now : Int) (s : Db) (b : DBatch) (o : Obj) : ∃ n, (b.putEntry v now s o).1 = { s with seq := n } := by
  simp only [DBatch.putEntry]
  split
  · exact ⟨s.seq, rfl⟩
  · split
    · exact ⟨s.seq, rfl⟩
    · next hse => exact Db.setEntry_state hse

theorem DBatch.deleteEntry_state (v : DbEnv) (now : Int) (s : Db) (b : DBatch) (o : Obj) : ∃ n, (b.deleteEntry v now s o).1 = { s with seq := n } := by
  simp only [DBatch.deleteEntry]
  split
  · exact ⟨s.seq, rfl⟩
  · split
    · exact ⟨s.seq, rfl⟩
    · split
      · exact ⟨s.seq, rfl⟩
      · split
        · exact ⟨s.seq, rfl⟩
        · split
          · exact ⟨s.seq, rfl⟩
          · next hse => exact Db.setEntry_state hse

theorem DBatch.steps_unwritten (v : DbEnv) (ops : List DBatchOp) (hw : ∀ next, DBatchOp.write next ∉ ops) :
    ∀ (s : Db) (b : DBatch), ∃ n, (DBatch.steps v s b ops).1 = { s with seq := n } := by
  induction ops with
  | nil => intro s b; exact ⟨s.seq, rfl⟩
  | cons op ops ih =>
    intro s b
    have h1 : ∃ n, (DBatch.step v s b op).1 = { s with seq := n } := by
      cases op with
      | put now o => exact b.putEntry_state v now s o
      | delete now o => exact b.deleteEntry_state v now s o
      | write next => exact absurd (List.mem_cons_self ..) (hw next)
    obtain ⟨n, h1⟩ := h1
    have ih := ih fun next h => hw next (List.mem_cons_of_mem _ h)
    simp only [DBatch.steps]
    split
    · next he => rw [he] at h1; exact ⟨n, h1⟩
    · next he => rw [he] at h1; exact ⟨n, h1⟩
    · next s1 b1 out _ _ he =>
      rw [he] at h1
      simp only at h1
      obtain ⟨n', h2⟩ := ih s1 b1
      exact ⟨n', by rw [h2, h1]⟩

/-- C44 (partial: the call panics, and only for a function that does not write). What a failing function put or deleted without
writing changes nothing but the last sequence; an empty time block stays. -/
theorem C44_db_unwritten_partial (v : DbEnv) (s : Db) (t next next' : Int) (ops : List DBatchOp) (hw : ∀ next, DBatchOp.write next ∉ ops) (hc : s.closed = false) :
    ∃ n, (s.batch v t next next' ops true).1 = { s with seq := n, mem := s.mem.addTimeBlock t } := by
  have hb : s.newBatch t = some ({ s with mem := s.mem.addTimeBlock t }, { mem := { tid := t }, enc := s.enc = 1 }) := by
    rw [Db.newBatch, if_neg (by rw [hc]; simp)]
  obtain ⟨n, hn⟩ := DBatch.steps_unwritten v ops hw { s with mem := s.mem.addTimeBlock t } { mem := { tid := t }, enc := s.enc = 1, managed := true }
  have hm := DBatch.steps_managed v ops { s with mem := s.mem.addTimeBlock t } { mem := { tid := t }, enc := s.enc = 1, managed := true }
  refine ⟨n, ?_⟩
  simp only [Db.batch, hb]
  split
  · next s1 b1 he =>
    rw [he] at hn hm
    have hm' : b1.managed = true := hm
    have ha : b1.abort s1 = (s1, .panic) := by rw [DBatch.abort, if_pos hm']
    simp only [if_true, ha]
    exact hn
  · next s1 b1 out hne he =>
    rw [he] at hn
    exact hn

example : ((toyOpen {} 5000 {}).map fun s =>
    let r := s.batch .toy 5500 5600 5700 [toyAdd [97] 1, toyAdd [97] 2] true
    (s.closed, r.2, r.1.seq, (r.1.get .toy .toy (newQuery [97]) []).2)) = some (false, .panic, 2, .out (.ok [])) := by decide +kernel

/-! ## C36, C73: deletes of a batch -/

/-- C36: an immutable database refuses the delete of a batch, which changes neither the database nor the batch. -/
theorem C36_batch_immutable (v : DbEnv) (now : Int) (s : Db) (b : DBatch) (o : Obj) (h : s.immutable = true) :
    b.deleteEntry v now s o = (s, b, o, .err .immutable) := by
  rw [DBatch.deleteEntry, if_pos h]

/-- A database that is opened on a header the library wrote, or on none, encrypts, whatever it was created with. -/
theorem openDb_enc {v : DbEnv} {o : OpenOpts} {r : RecEnv} {e : SyncEnv} {now : Int} {d : Disk} {s : Db} (h : openDb v o r e now d = .ok s)
    (hd : d.info = [] ∨ ∃ i : DBInfo, i.Typed ∧ i.version = 1 ∧ d.info = i.marshal) : s.enc = 1 := by
  have hu : ∃ i : DBInfo, i.Typed ∧ i.version = 1 ∧ (if d.info = [] then
      ({ signature := dbSignature, version := 1, encryption := 0, sequence := 0, count := 0 } : DBInfo).marshal else d.info) = i.marshal := by
    by_cases hn : d.info = []
    · exact ⟨{ signature := dbSignature, version := 1, encryption := 0, sequence := 0, count := 0 }, rfl, rfl, by rw [if_pos hn]⟩
    · rcases hd with hd | ⟨i, h1, h2, h3⟩
      · exact absurd hd hn
      · exact ⟨i, h1, h2, by rw [if_neg hn, h3]⟩
  obtain ⟨i, h1, h2, h3⟩ := hu
  obtain ⟨j, hj, he⟩ := C02_flag_read i h1
  have he : j.encryption = 1 := by rw [he, h2]; rfl
  simp only [openDb] at h
  rw [h3] at h
  simp only [hj] at h
  split at h
  · simp at h
  · split at h
    · simp at h
    · split at h
      · simp at h
      · simp at h
      · split at h
        · simp at h
        · next s1 hr =>
          simp only [OpenOut.ok.injEq] at h
          subst h
          have := (Db.recoverLog_fields hr).2.2.1
          rw [this]
          simp only [he, ite_self]
        · simp at h

/-- C73 is false: on every open database that may delete, `Delete` on a batch panics, when the empty payload is compressed to fewer than
four bytes (snappy gives one byte) and the database encrypts, which every database does (`openDb_enc`). -/
theorem C73_delete_panics_violated (v : DbEnv) (now : Int) (s : Db) (b : DBatch) (id topic : Bytes) (hm : s.immutable = false) (he : s.enc = 1)
    (hv : (v.encode []).length < 4) (hi : id ≠ []) (ht : topic ≠ []) (hl : topic.length ≤ 65536) :
    (b.deleteEntry v now s { topic := topic, payload := [], id := some id }).2.2.2 = .panic := by
  have hse : s.setEntry v now { topic := topic, payload := [], id := some id } = none := by
    cases h : s.setEntry v now { topic := topic, payload := [], id := some id } with
    | none => rfl
    | some x =>
      simp only [Db.setEntry, Option.map_eq_some_iff] at h
      obtain ⟨⟨s2, h2, c2⟩, hp, _⟩ := h
      obtain ⟨q, id', pre, val, _, _, _, hval, _⟩ := Db.packEntry_some hp
      have hpl : (s.parseEntry v now { topic := topic, payload := [], id := some id }).1.payload = [] := rfl
      rw [hpl] at hval
      simp only [DbEnv.sealValue, Db.secret, he, decide_true, Bool.true_or, if_true, Mac.encrypt, hv, reduceCtorEq] at hval
  have h1 : id.length ≠ 0 := fun h => hi (List.length_eq_zero_iff.1 h)
  have h2 : topic.length ≠ 0 := fun h => ht (List.length_eq_zero_iff.1 h)
  have h3 : ¬ topic.length > 65536 := by omega
  simp only [DBatch.deleteEntry, hm, Bool.false_eq_true, if_false, Option.getD_some, h1, h2, h3, hse]

/-- The same seen from outside: the function deletes a message of the database. -/
example : ((toyOpen {} 5000 {}).map fun s =>
    let p := s.putEntry .toy toyNow { topic := [97], payload := [2, 2, 2, 2] }
    (s.enc, p.2.2, (p.1.batch .toy 5500 5600 5700 [.delete toyNow { topic := [97], payload := [], id := some (newID 1600000000 1) }] false).2)) =
    some (1, .ok, .panic) := by decide +kernel

/-- C73 (partial: `DeleteEntry` with a payload that is long enough, one entry). Writing a new batch that holds the delete of one message
does to the database what `DeleteEntry` on the database does, and starts the next tiny log of the batch. -/
theorem C73_delete_partial (v : DbEnv) (hs : v.mac.cipher.Sound) (hde : ∀ x, v.decode (v.encode x) = some x) (now t next : Int) (s s0 s1 : Db)
    (b0 b1 : DBatch) (o o1 : Obj) (hn : s.newBatch t = some (s0, b0)) (h : b0.deleteEntry v now s0 o = (s1, b1, o1, .ok))
    (hsane : Spec.Sane v o) (hp : o.parsed = false) (hts : o.topicSize = 0) (hplain : Spec.startsWithStar (Spec.topicText o.topic) = false)
    (hlev : (Spec.levels (Spec.topicText o.topic)).length ≤ 254) (hseq : s.seq.toNat < 255 * 524287)
    (hid : ∀ id q, o.id = some id → idSequence id = some q → q.toNat ≤ s.seq.toNat)
    (hd : (s0.deleteEntry v o).2 ≠ .panic ∧ (s0.deleteEntry v o).2 ≠ .hang) :
    (b1.write v next s1).2.2 = .ok ∧ (b1.write v next s1).1 =
      { (s0.deleteEntry v o).1 with mem := ((s0.deleteEntry v o).1.mem.write t t true).addTimeBlock next } := by
  rw [Db.newBatch] at hn
  split at hn
  · cases hn
  next hc =>
  simp only [Option.some.injEq, Prod.mk.injEq] at hn
  obtain ⟨rfl, rfl⟩ := hn
  simp only [DBatch.deleteEntry] at h
  split at h
  · simp at h
  next h1 =>
  split at h
  · simp at h
  next h2 =>
  split at h
  · simp at h
  next h3 =>
  split at h
  · simp at h
  next h4 =>
  split at h
  · simp at h
  next s2 o2 hd2 rec hse =>
  simp only [Prod.mk.injEq, and_true] at h
  obtain ⟨rfl, rfl, rfl⟩ := h
  simp only [Db.setEntry, Option.map_eq_some_iff, Prod.mk.injEq] at hse
  obtain ⟨⟨s3, hd3, rec3⟩, hse, rfl, rfl, rfl, rfl⟩ := hse
  have hs3 : s3 = { s with mem := s.mem.addTimeBlock t } := by
    obtain ⟨q, id, pre, val, hdr, _⟩ := Db.packEntry_some hse
    rcases (Db.drawId_some hdr).2.2 with ⟨_, h⟩ | ⟨h, _⟩
    · exact h
    · have : o.id = none := by rw [← h]; simp only [Db.parseEntry, hp, Bool.false_eq_true, if_false]
      rw [this] at h2
      exact absurd rfl h2
  obtain ⟨i, n, _, _, _, hok, rfl, rfl, _, _, _, _, _, _, hids, _⟩ :=
    Db.packed_item hs hde hse 0 hsane hp hts hplain hlev hseq hid
  subst hs3
  obtain ⟨id, hi, hq⟩ : ∃ id, o.id = some id ∧ idSequence id = some i.seq := by
    rcases hids with ⟨h, _⟩ | h
    · rw [h] at h2; exact absurd rfl h2
    · exact h
  have hdel : ({ s with mem := s.mem.addTimeBlock t } : Db).deleteEntry v o = ({ s with mem := s.mem.addTimeBlock t } : Db).delete v i.seq := by
    simp only [Db.deleteEntry]
    rw [if_neg h1, if_neg h2, if_neg h3, if_neg h4, hi, Option.getD_some, hq]
  rw [hdel] at hd ⊢
  have hent := DBatch.entryAt_new ({ mem := { tid := t }, enc := s.enc = 1 } : DBatch) true hok
  have hi0 : i.hdr.seq ≠ 0 := by
    have := hok.lo
    intro h
    have h' : i.seq = 0 := h
    rw [h'] at this
    exact absurd this (by decide)
  obtain ⟨r, hr⟩ : ∃ r, r = ({ s with mem := s.mem.addTimeBlock t } : Db).delete v i.seq := ⟨_, rfl⟩
  rw [← hr] at hd ⊢
  have hst : DBatch.store v (DBatch.append { mem := { tid := t }, enc := s.enc = 1 } true i.record) [(true, 0)] []
      { s with mem := s.mem.addTimeBlock t } = (r.1, .ok, false) := by
    simp only [DBatch.store]
    rw [show (DBatch.append { mem := { tid := t }, enc := s.enc = 1 } true i.record).entryAt 0 = some (i.hdr, i.record) from hent]
    simp only [hi0, ne_eq, not_false_eq_true, and_self, if_true]
    rw [show i.hdr.seq = i.seq from rfl, ← hr]
    obtain ⟨r1, r2⟩ := r
    cases r2 <;> first | rfl | exact absurd rfl hd.1 | exact absurd rfl hd.2
  have hw : ∃ b' : DBatch, DBatch.write v next { s with mem := s.mem.addTimeBlock t }
      (DBatch.append { mem := { tid := t }, enc := s.enc = 1 } true i.record) =
      ({ r.1 with mem := (r.1.mem.write t t true).addTimeBlock next }, b', .ok) := by
    rw [DBatch.write, if_neg (by simp [DBatch.append]), if_neg hc]
    rw [show (DBatch.append { mem := { tid := t }, enc := s.enc = 1 } true i.record).index = [(true, 0)] from rfl, hst]
    exact ⟨_, rfl⟩
  obtain ⟨b', hw⟩ := hw
  rw [hw]
  exact ⟨rfl, rfl⟩

/-- A synced message is deleted through a batch; the database counts one message less. -/
example : ((toyRun [toyPut [97] 1, toyPut [98] 2, .write 5001 5000, .rotate 6000, .sync .toy]).bind fun x => (x.1.newBatch 6500).map fun y =>
    let o : Obj := { topic := [97], payload := [0, 0, 0, 0], id := some (newID 1600000000 1) }
    let d := y.2.deleteEntry .toy toyNow y.1 o
    let w := d.2.1.write .toy 6600 d.1
    decide (d.2.2.2 = .ok ∧ (y.1.deleteEntry .toy o).2 = .ok ∧ idSequence (newID 1600000000 1) = some 1 ∧ x.1.seq = 2 ∧ w.2.2 = .ok ∧
      x.1.count = 2 ∧ w.1.count = 1)) = some true := by decide +kernel

end Verif
