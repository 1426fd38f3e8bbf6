import Verif.Model.ParInv

/-!
# C68: what was put is what Get returns

Histories of puts, batches, syncs, gets and background work on a database that was opened on an empty disk, without deletes and restarts.
-/

namespace Verif

/-- A message as its sender knows it. -/
structure Spec.Message where
  contract : UInt32
  topic : Bytes
  payload : Bytes
  expiry : UInt32
  seq : UInt64
deriving DecidableEq

/-- The sequence a put uses: that of the given id, else the next one. -/
def Spec.seqOf (s : Db) (o : Obj) : UInt64 :=
  match o.id with
  | none => s.seq + 1
  | some id => (idSequence id).getD 0

def Spec.messageOf (v : DbEnv) (now : Int) (s : Db) (o : Obj) : Spec.Message :=
  ⟨Spec.contractOf o, o.topic, o.payload, storedExpiry v.dur now o.topic o.expiresAt, Spec.seqOf s o⟩

/-- An entry a client makes: not used before, the topic does not start with a wildcard level and has at most 254 levels, and an id
given with it was handed out before and not used for another of the messages `ms`. -/
structure Spec.Fresh (v : DbEnv) (s : Db) (ms : List Spec.Message) (o : Obj) : Prop where
  sane : Spec.Sane v o
  parsed : o.parsed = false
  topicSize : o.topicSize = 0
  plain : Spec.startsWithStar (Spec.topicText o.topic) = false
  levels : (Spec.levels (Spec.topicText o.topic)).length ≤ 254
  id : ∀ id q, o.id = some id → idSequence id = some q → q.toNat ≤ s.seq.toNat ∧ ∀ m ∈ ms, m.seq ≠ q

/-- What a client does with a batch before committing it, on a database `s0` with the messages `ms0`: puts and writes. The batch and its
messages are in the order of the puts. No `writeInternal` ended with an error, which `Write` would not report (see
`C72_full_violated`). -/
inductive Spec.InBatch (v : DbEnv) (s0 : Db) (ms0 : List Spec.Message) : Db → DBatch → List Spec.Message → Prop
  | start {s b} (t managed) : s0.mem.cur ≤ t → s0.newBatch t = some (s, b) → Spec.InBatch v s0 ms0 s { b with managed := managed } ms0
  | put {s b ms} (now o) : Spec.InBatch v s0 ms0 s b ms → s.seq.toNat < 255 * 524287 → Spec.Fresh v s ms o →
      (b.putEntry v now s o).2.2.2 = .ok →
      Spec.InBatch v s0 ms0 (b.putEntry v now s o).1 (b.putEntry v now s o).2.1 (ms ++ [Spec.messageOf v now s o])
  | refused {s b ms} (now o) (e) : Spec.InBatch v s0 ms0 s b ms → (b.putEntry v now s o).2.2.2 = .err e →
      Spec.InBatch v s0 ms0 (b.putEntry v now s o).1 (b.putEntry v now s o).2.1 ms
  | write {s b ms} (next) : Spec.InBatch v s0 ms0 s b ms → b.mem.tid ≤ next → (b.write v next s).2.2 = .ok → (b.write v next s).2.1.lost = false →
      Spec.InBatch v s0 ms0 (b.write v next s).1 (b.write v next s).2.1 ms

/-- The message of a put that returned without an error. -/
def Spec.returned (v : DbEnv) (p : Putting) : Option Spec.Message :=
  match p.pc with
  | .done _ (some q) .ok => some ⟨Spec.contractOf p.o, p.o.topic, p.o.payload, storedExpiry v.dur p.now p.o.topic p.o.expiresAt, q⟩
  | _ => none

/-- Histories: the database and the messages put so far. Puts come one after the other, or several at the same time with their steps in any
order; a Get, a write to the log or a client drawing an id may come between two steps, a rotation or a sync may not (see
`C79_lost_violated` and `C79_unseen_violated`). The flag says that there was no Get yet: a sync is only taken before the
first Get (see `C68_stale_violated`), and after a batch nothing else happens before the next rotation of the tiny log (see
`C68_after_batch_violated`). The bound on the sequence is the size of the index file, the bound on the window file is
2 GB. -/
inductive Spec.Story (v : DbEnv) : Db → List Spec.Message → Bool → Prop
  | opened {o r e now s} : (v.mem.cap : Int) ≤ now → r.orderDel [] = [] → openDb v o r e now {} = .ok s → Spec.Story v s [] true
  | newId {s ms quiet} (now) : Spec.Story v s ms quiet → s.seq.toNat < 255 * 524287 → Spec.Story v (s.newId now).1 ms quiet
  | put {s ms quiet} (now o) : Spec.Story v s ms quiet → s.seq.toNat < 255 * 524287 → Spec.Fresh v s ms o →
      (s.putEntry v now o).2.2 = .ok → Spec.Story v (s.putEntry v now o).1 (ms ++ [Spec.messageOf v now s o]) quiet
  | refused {s ms quiet} (now o) (e) : Spec.Story v s ms quiet → s.seq.toNat < 255 * 524287 → (s.putEntry v now o).2.2 = .err e →
      Spec.Story v (s.putEntry v now o).1 ms quiet
  | get {s ms quiet} (g q old) : Spec.Story v s ms quiet → Spec.Story v (s.get v g q old).1 ms false
  | rotate {s ms quiet} (t) : Spec.Story v s ms quiet → s.mem.cur ≤ t → Spec.Story v { s with mem := s.mem.rotate t } ms quiet
  | write {s ms quiet} (id t) : Spec.Story v s ms quiet → Spec.Story v { s with mem := s.mem.write id t false } ms quiet
  | sync {s s' ms r} (e : SyncEnv) : Spec.Story v s ms true → 0 ≤ e.now.toInt → (∀ m, (e.order m).Perm m) →
      s.winFile.length + 8192 * s.pending + 8192 ≤ 2 ^ 31 → s.sync e = some (s', r) → Spec.Story v s' ms true
  | batch {s s1 s2 b b2 ms ms' quiet} (next next' t) : Spec.Story v s ms quiet → Spec.InBatch v s ms s1 b ms' → b.mem.tid ≤ next → next ≤ next' →
      next' ≤ t → { b with managed := false }.commit v next next' s1 = (s2, b2, .ok) → b2.lost = false → Spec.Story v { s2 with mem := s2.mem.rotate t } ms' quiet
  | burst {s ms quiet} (ps : List Putting) (sched : List ParOp) : Spec.Story v s ms quiet → s.seq.toNat + sched.length ≤ 255 * 524287 →
      (∀ p ∈ ps, p.pc = .start ∧ Spec.Fresh v s ms p.o) → (ps.filterMap fun p => p.o.id.bind idSequence).Nodup →
      (Par.run v ⟨s, ps⟩ sched).over = true →
      Spec.Story v (Par.run v ⟨s, ps⟩ sched).db (ms ++ (Par.run v ⟨s, ps⟩ sched).puts.filterMap (Spec.returned v)) (quiet && sched.all (! ·.isGet))

def Item.msg (i : Item) : Spec.Message := ⟨i.contract, i.topic, i.payload, i.exp, i.seq⟩

def Tag.msg (t : Tag) : Spec.Message := ⟨t.1, t.2.1, t.2.2.1, t.2.2.2.1, t.2.2.2.2⟩

/-! ## The invariant -/

theorem MemDb.put_mark (e : MEnv) (s : MemDb) (k : UInt64) (d : Bytes) : (s.put e k d).1.mark = s.mark := by
  simp only [MemDb.put, MemDb.putAt]
  repeat' split
  all_goals rfl

theorem Db.putEntry_mark (v : DbEnv) (now : Int) (s : Db) (o : Obj) : (s.putEntry v now o).1.mem.mark = s.mem.mark := by
  simp only [Db.putEntry]
  split
  · rfl
  · split
    · rfl
    · split
      · rfl
      · next s1 o1 h rec hse =>
        simp only [Db.setEntry, Option.map_eq_some_iff, Prod.mk.injEq] at hse
        obtain ⟨⟨s2, h2, c2⟩, hp, rfl, _, _, _⟩ := hse
        obtain ⟨rfl, _⟩ := Db.packEntry_fields hp
        have hm := MemDb.put_mark v.mem s.mem h.seq rec
        split
        · next m hput =>
          have hput' : s.mem.put v.mem h.seq rec = (m, .ok) := hput
          rw [hput'] at hm
          split <;> exact hm
        · next m out _ hput =>
          have hput' : s.mem.put v.mem h.seq rec = (m, out) := hput
          rw [hput'] at hm
          exact hm

theorem DbInv.init {v : DbEnv} {o : OpenOpts} {r : RecEnv} {e : SyncEnv} {now : Int} {s : Db} (hc : (v.mem.cap : Int) ≤ now)
    (hr : r.orderDel [] = []) (h : openDb v o r e now {} = .ok s) : DbInv v s [] [] [] [] ∧ s.mem.qblocks = [] ∧ Marked s.mem := by
  have hi : DBInfo.unmarshal (DBInfo.marshal { signature := dbSignature, version := 1, encryption := 0, sequence := 0, count := 0 }) =
      some { signature := dbSignature, version := 1, encryption := 1, sequence := 0, count := 0 } := by decide +kernel
  have hrec : MemDb.recover v.mem r [] now = some (MemDb.new now, .ok) := by
    simp only [MemDb.recover, MemDb.recLogs, Option.map_some, hr, List.foldl_nil]
    rfl
  have hbi : blockIterator [] = [] := by decide +kernel
  have hle : (Lease.new o.minFree).read [] = some (Lease.new o.minFree) := by
    rfl
  simp only [openDb, if_true, hi, hrec, hbi, loadTopics, hle, ne_eq, not_true_eq_false, if_false, Db.recoverLog, OpenOut.ok.injEq] at h
  subst h
  obtain ⟨g0, e0⟩ := Lease.good_new o.minFree
  have hg : ∀ t' a', (MemDb.new now).blocks.get t' = some a' → t' = now ∧ a' = 0 := by
    intro t' a' h'
    have : (MemDb.new now).blocks = [(now, 0)] := rfl
    rw [this] at h'
    simp only [AMap.get] at h'
    split at h'
    · next e' => simp only [Option.some.injEq] at h'; exact ⟨e'.symm, h'.symm⟩
    · simp at h'
  refine ⟨?_, rfl, ?_⟩
  · exact {
      opened := rfl
      ok := by simp
      nodup := by simp
      seqs := by simp
      mem := MInv.new v.mem now hc
      ready := by
        show (AMap.get [(now, 0)] now).isSome
        simp [AMap.get]
      blk := by
        intro t q
        simp only [List.not_mem_nil, false_and, exists_false, iff_false]
        rintro ⟨a, h1, h2⟩
        obtain ⟨_, rfl⟩ := hg t a h1
        have h3 : (AMap.get ([] : AMap MKey Int) ⟨false, q⟩).isSome := h2
        simp at h3
      winNodup := AMap.Nodup.nil
      win := by intro t h; rfl
      winNe := by intro k es h; simp at h
      store := by
        refine ⟨⟨0, ?_⟩, ⟨rfl, g0, ?_, ?_, by simp⟩, ⟨by simp, by simp⟩, by simp⟩
        · have : absBlock [] = fun _ => mkBlock [] := by funext k; rfl
          rw [this]; exact fileOK_empty
        · refine ⟨?_, ?_, g0.size⟩ <;> rw [e0] <;> simp [usedOf]
        · rw [e0]; simp
      stored := rfl
      count := rfl
      hist := ⟨_, WinHist.fresh.ok⟩
      synced := by intro h; rfl
      trie := ⟨[], rfl, by simp, by simp⟩ }
  · intro p hp
    cases hp

theorem seqOf_item {s : Db} {o : Obj} {i : Item} (h : o.id = none ∧ i.seq = s.seq + 1 ∨ ∃ id, o.id = some id ∧ idSequence id = some i.seq) :
    i.seq = Spec.seqOf s o := by
  rcases h with ⟨h1, h2⟩ | ⟨id, h1, h2⟩
  · simp only [Spec.seqOf, h1, h2]
  · simp only [Spec.seqOf, h1, h2, Option.getD_some]

/-- A batch in progress keeps the invariant. -/
theorem batch_inv {v : DbEnv} (hs : v.mac.cipher.Sound) (hde : ∀ x, v.decode (v.encode x) = some x) {s0 : Db} {U D : List Item} {L : Loc}
    {led : List (UInt64 × List WinEntry)} (I : DbInv v s0 U D L led) {ms0 : List Spec.Message} (hp0 : ((U ++ D).map Item.msg).Perm ms0)
    {s : Db} {b : DBatch} {ms : List Spec.Message} (H : Spec.InBatch v s0 ms0 s b ms) :
    ∃ U' P, BatchInv v s b U' D L led P ∧ ((U' ++ D ++ P).map Item.msg).Perm ms ∧ s.mem.qblocks = s0.mem.qblocks ∧ s.mem.mark = s0.mem.mark := by
  induction H with
  | start t managed ht h =>
    obtain ⟨B, h1, h2, _⟩ := I.newBatch ht h
    exact ⟨U, [], ⟨B.db, B.holds, B.items, B.nodup⟩, by simpa using hp0, h1, h2⟩
  | @put s b ms now o _ hq hf hok ih =>
    obtain ⟨U', P, B, hp, hb, hm⟩ := ih
    obtain ⟨i, B', h1, h2, h3, h4, h5, h6, h7, h8, _⟩ := B.put hs hde (o' := (b.putEntry v now s o).2.2.1) (s' := (b.putEntry v now s o).1)
      (b' := (b.putEntry v now s o).2.1) hf.sane hf.parsed hf.topicSize hf.plain hf.levels hq (by
        intro id q h1 h2
        obtain ⟨h3, h4⟩ := hf.id id q h1 h2
        refine ⟨h3, fun i hi hc => ?_⟩
        exact h4 i.msg (hp.mem_iff.1 (List.mem_map_of_mem hi)) hc) (by rw [← hok])
    refine ⟨U', P ++ [i], B', ?_, by rw [h6]; exact hb, by rw [h6]; exact hm⟩
    have e : i.msg = Spec.messageOf v now s o := by
      simp only [Item.msg, Spec.messageOf, h1, h2, h3, h4, seqOf_item h5]
    rw [← e, ← List.append_assoc, List.map_append]
    exact hp.append_right _
  | @refused s b ms now o e _ hr ih =>
    obtain ⟨U', P, B, hp, hb, hm⟩ := ih
    obtain ⟨h1, h2⟩ := DBatch.putEntry_err (o' := (b.putEntry v now s o).2.2.1) (s' := (b.putEntry v now s o).1) (b' := (b.putEntry v now s o).2.1)
      (e := e) (by rw [← hr])
    rw [h1, h2]
    exact ⟨U', P, B, hp, hb, hm⟩
  | @write s b ms next _ ht hok hl ih =>
    obtain ⟨U', P, B, hp, hb, hm⟩ := ih
    obtain ⟨P1, P2, B', h1, h2, h3, _, h4, _⟩ := B.write ht (s' := (b.write v next s).1) (b' := (b.write v next s).2.1) (by rw [← hok]) hl
    refine ⟨U' ++ P1, P2, B', ?_, h2.trans hb, h3.trans hm⟩
    have e : P.map Item.msg = (P1 ++ P2).map Item.msg := by
      have := congrArg (List.map Item.msg) h1
      rw [List.map_map, List.map_map] at this
      exact this
    refine List.Perm.trans ?_ hp
    simp only [List.map_append] at e ⊢
    rw [e]
    simp only [List.append_assoc]
    refine List.Perm.append_left _ ?_
    rw [← List.append_assoc, ← List.append_assoc]
    exact List.Perm.append_right _ List.perm_append_comm

/-- A burst of puts keeps the invariant. -/
theorem burst_inv {v : DbEnv} (hs : v.mac.cipher.Sound) (hde : ∀ x, v.decode (v.encode x) = some x) (htest : ∀ ks k, k ∈ ks → v.mem.test ks k = true)
    {s : Db} {ms : List Spec.Message} {U D : List Item} {L : Loc} {led : List (UInt64 × List WinEntry)} (I : DbInv v s U D L led)
    (hp : ((U ++ D).map Item.msg).Perm ms) (hm : Marked s.mem) (ps : List Putting) (sched : List ParOp) (hl : s.seq.toNat + sched.length ≤ 255 * 524287)
    (hf : ∀ p ∈ ps, p.pc = .start ∧ Spec.Fresh v s ms p.o) (hid : (ps.filterMap fun p => p.o.id.bind idSequence).Nodup)
    (ho : (Par.run v ⟨s, ps⟩ sched).over = true) :
    ∃ U', DbInv v (Par.run v ⟨s, ps⟩ sched).db U' D L led ∧
      ((U' ++ D).map Item.msg).Perm (ms ++ (Par.run v ⟨s, ps⟩ sched).puts.filterMap (Spec.returned v)) ∧
      (sched.all (! ·.isGet) = true → (Par.run v ⟨s, ps⟩ sched).db.mem.qblocks = s.mem.qblocks) ∧ Marked (Par.run v ⟨s, ps⟩ sched).db.mem := by
  have H := ParInv.init I (ps := ps) (fun p h => ⟨(hf p h).1, (hf p h).2.sane, (hf p h).2.parsed, (hf p h).2.topicSize, (hf p h).2.plain, (hf p h).2.levels⟩)
    hid (by
      intro q hq
      obtain ⟨p, h1, h2⟩ := List.mem_filterMap.1 hq
      obtain ⟨id, h3, h4⟩ := Option.bind_eq_some_iff.1 h2
      obtain ⟨h5, h6⟩ := (hf p h1).2.id id q h3 h4
      exact ⟨h5, fun i hi => h6 i.msg (hp.mem_iff.1 (List.mem_map_of_mem hi))⟩)
  obtain ⟨U', W', H', h1, h2⟩ := H.run hs hde htest sched hl hm
  obtain ⟨rfl, I'⟩ := H'.over ho
  refine ⟨U', I', ?_, h1, h2⟩
  have ht : ((U' ++ D).map Item.msg).Perm
      ((U ++ D).map Item.msg ++ ((Par.run v ⟨s, ps⟩ sched).puts.filterMap (Putting.tag v)).map Tag.msg) := by
    have ht := H'.tags.map Tag.msg
    rw [List.append_nil, List.map_append (l₁ := (U ++ D).map Item.tag), List.map_map, List.map_map] at ht
    exact ht
  have e : (Par.run v ⟨s, ps⟩ sched).puts.filterMap (Spec.returned v) = ((Par.run v ⟨s, ps⟩ sched).puts.filterMap (Putting.tag v)).map Tag.msg := by
    rw [List.map_filterMap]
    refine List.filterMap_congr fun p hp => ?_
    have hat := H'.puts p hp
    have hov := List.all_eq_true.1 ho p hp
    simp only [Putting.At] at hat
    simp only [Spec.returned, Putting.tag, Putting.kept]
    split
    · next hpc => simp only [hpc]; rfl
    · next hne =>
      obtain ⟨pc, hpc⟩ : ∃ pc, pc = p.pc := ⟨_, rfl⟩
      rw [← hpc] at hat hov hne ⊢
      cases pc with
      | done o q out =>
        simp only at hat
        cases q with
        | none => rfl
        | some q =>
          have : out = .ok := hat.1.1 rfl
          subst this
          exact absurd rfl (hne o q)
      | _ => simp at hov
  rw [e]
  exact ht.trans (hp.append_right _)

/-- Every history keeps the invariant. -/
theorem story_inv {v : DbEnv} (hs : v.mac.cipher.Sound) (hde : ∀ x, v.decode (v.encode x) = some x)
    (htest : ∀ ks k, k ∈ ks → v.mem.test ks k = true) {s : Db} {ms : List Spec.Message} {quiet : Bool} (H : Spec.Story v s ms quiet) :
    ∃ U D L led, DbInv v s U D L led ∧ ((U ++ D).map Item.msg).Perm ms ∧ (quiet = true → s.mem.qblocks = []) ∧ Marked s.mem := by
  induction H with
  | opened hc hr h =>
    obtain ⟨I, hq, hm⟩ := DbInv.init hc hr h
    exact ⟨[], [], [], [], I, List.Perm.refl _, fun _ => hq, hm⟩
  | newId now _ hq ih =>
    obtain ⟨U, D, L, led, I, hp, hb, hm⟩ := ih
    exact ⟨U, D, L, led, I.newId hq now, hp, hb, hm⟩
  | @put s ms quiet now o _ hq hf hok ih =>
    obtain ⟨U, D, L, led, I, hp, hb, hm⟩ := ih
    obtain ⟨i, I', h1, h2, h3, h4, _, h5, h6, _⟩ := I.put hs hde (o' := (s.putEntry v now o).2.1) (s' := (s.putEntry v now o).1) hf.sane hf.parsed
      hf.topicSize hf.plain hf.levels hq (by
        intro id q h1 h2
        obtain ⟨h3, h4⟩ := hf.id id q h1 h2
        refine ⟨h3, fun i hi hc => ?_⟩
        exact h4 i.msg (hp.mem_iff.1 (List.mem_map_of_mem hi)) hc) (by rw [← hok])
    refine ⟨U ++ [i], D, L, led, I', ?_, fun hx => h6.trans (hb hx), by rw [Marked, Db.putEntry_mark]; exact hm⟩
    have e : i.msg = Spec.messageOf v now s o := by
      simp only [Item.msg, Spec.messageOf, h1, h2, h3, h4, seqOf_item h5]
    rw [← e, List.append_assoc]
    refine (List.Perm.map Item.msg (List.perm_middle (l₁ := U) (l₂ := D) (a := i))).trans ?_
    rw [List.map_cons]
    exact (hp.cons i.msg).trans (List.perm_append_comm (l₁ := [i.msg]))
  | @refused s ms quiet now o e _ hq hr ih =>
    obtain ⟨U, D, L, led, I, hp, hb, hm⟩ := ih
    obtain ⟨I', h1⟩ := I.putErr (o' := (s.putEntry v now o).2.1) (s' := (s.putEntry v now o).1) hq (by rw [← hr])
    exact ⟨U, D, L, led, I', hp, fun hx => by rw [h1]; exact hb hx, by rw [h1]; exact hm⟩
  | @get s ms quiet g q old _ ih =>
    obtain ⟨U, D, L, led, I, hp, hb, hm⟩ := ih
    obtain ⟨m, h1, h2, h3⟩ := Db.get_keeps v htest g s q old _ I.mem
    refine ⟨U, D, L, led, I.getKeeps htest g q old, hp, fun hx => (by cases hx), ?_⟩
    rw [h1]
    obtain ⟨_, _, _, rfl⟩ := h3
    exact hm
  | @rotate s ms quiet t _ ht ih =>
    obtain ⟨U, D, L, led, I, hp, hb, hm⟩ := ih
    refine ⟨U, D, L, led, I.rotate t ht, hp, fun hx => ?_, ?_⟩
    · show (s.mem.rotate t).qblocks = []
      rw [← hb hx]; simp only [MemDb.rotate, MemDb.addTimeBlock]; split <;> rfl
    · have : (s.mem.rotate t).mark.released = s.mem.mark.released := by
        simp only [MemDb.rotate, MemDb.addTimeBlock]; split <;> rfl
      intro p hp'
      exact hm p (by rw [← this]; exact hp')
  | @write s ms quiet id t _ ih =>
    obtain ⟨U, D, L, led, I, hp, hb, hm⟩ := ih
    refine ⟨U, D, L, led, I.write id t, hp, fun hx => ?_, ?_⟩
    · show (s.mem.write id t false).qblocks = []
      rw [MemDb.write_qblocks]; exact hb hx
    · have : (s.mem.write id t false).mark = s.mem.mark.release t := by
        simp only [MemDb.write, Bool.false_eq_true, if_false]
        repeat' split
        all_goals rfl
      intro p hp'
      exact TimeMark.marked_release hm t p (by rw [← this]; exact hp')
  | @sync s s' ms r e _ hnow hord hroom hsy ih =>
    obtain ⟨U, D, L, led, I, hp, hb, hm⟩ := ih
    obtain ⟨s2, U', D', L', led', h1, I', h2, h3, h4, h5, _⟩ := I.sync (hb rfl) hnow hord hm hroom
    rw [h1] at hsy
    simp only [Option.some.injEq, Prod.mk.injEq] at hsy
    obtain ⟨rfl, _⟩ := hsy
    exact ⟨U', D', L', led', I', (h2.map _).trans hp, fun _ => h3, fun p hp' => hm p (h5 hp')⟩
  | @burst s ms quiet ps sched _ hl hf hid ho ih =>
    obtain ⟨U, D, L, led, I, hp, hq, hm⟩ := ih
    obtain ⟨U', I', h1, h2, h3⟩ := burst_inv hs hde htest I hp hm ps sched hl hf hid ho
    refine ⟨U', D, L, led, I', h1, fun hx => ?_, h3⟩
    rw [Bool.and_eq_true] at hx
    exact (h2 hx.2).trans (hq hx.1)
  | @batch s s1 s2 b b2 ms ms' quiet next next' t _ hb h1 h2 h3 hc hl ih =>
    obtain ⟨U, D, L, led, I, hp, hq, hm⟩ := ih
    obtain ⟨U', P, B, hp', hq', hm'⟩ := batch_inv hs hde I hp hb
    have B : BatchInv v s1 { b with managed := false } U' D L led P := ⟨B.db, B.holds, B.items, B.nodup⟩
    obtain ⟨P1, I', e, hq2, hm2⟩ := B.commit h1 h2 h3 hc hl (by rw [Marked, hm']; exact hm)
    refine ⟨U' ++ P1, D, L, led, I', ?_, fun hx => (hq2.trans hq').trans (hq hx), hm2⟩
    have e : P.map Item.msg = P1.map Item.msg := by
      have := congrArg (List.map Item.msg) e
      rw [List.map_map, List.map_map] at this
      exact this
    refine List.Perm.trans ?_ hp'
    simp only [List.map_append, List.append_assoc]
    rw [e]
    exact List.Perm.append_left _ List.perm_append_comm

/-! ## C68 -/

/-- The message has not expired at the Unix second `now`. -/
def Spec.Message.alive (m : Spec.Message) (now : UInt32) : Bool := m.expiry = 0 || decide (now < m.expiry)

/-- The messages a query for `topic` of `contract` asks for. -/
def Spec.addressed (ms : List Spec.Message) (contract : UInt32) (topic : Bytes) (now : UInt32) : List Spec.Message :=
  ms.filter fun m => m.contract = contract && Spec.covers (Spec.topicText m.topic) (Spec.topicText topic) && m.alive now

/-- At the time zero no message has expired. -/
theorem alive_zero (m : Spec.Message) : m.alive 0 = true := by
  by_cases e0 : m.expiry = 0
  · simp [Spec.Message.alive, e0]
  · have : 0 < m.expiry := UInt32.pos_iff_ne_zero.2 e0
    simp [Spec.Message.alive, this]

/-- The first block of the window file belongs to the topic synced first. -/
theorem firstBlock {ws : WinState} {led : List (UInt64 × List WinEntry)} (H : WinOK ws led) {h : UInt64} (hh : led.head?.map (·.1) = some h) :
    (readWindowBlock ws.file 0).map (·.topicHash) = some h := by
  obtain ⟨n, B, ks, O⟩ := H.onDisk
  rw [Option.map_eq_some_iff] at hh
  obtain ⟨p, hp, rfl⟩ := hh
  have hin : p ∈ led := List.mem_of_mem_head? hp
  have hs : syncedFor led p.1 ≠ [] := by
    intro hc
    obtain ⟨_, hu, _⟩ := O.first (List.ne_nil_of_mem hin)
    obtain ⟨e, he⟩ := List.exists_mem_of_ne_nil _ hu
    have := O.member 0 e he
    rw [O.zero p hp, hc] at this
    simp at this
  obtain ⟨k, hk⟩ := List.exists_mem_of_ne_nil _ (O.has _ hs)
  have hn := O.known _ _ hk
  have := O.read 0 (by omega)
  rw [show (4096 * ((0 : Nat) : Int)) = 0 from rfl] at this
  rw [this, Option.map_some, O.zero p hp]

/-- A Get on a database that holds the messages `ms`, none of those asked for among the deleted `ks`. -/
theorem inv_get (v : DbEnv) (htest : ∀ ks k, k ∈ ks → v.mem.test ks k = true) (s : Db) (ms : List Spec.Message) {U D : List Item} {L : Loc}
    {led : List (UInt64 × List WinEntry)} (I : DbInv v s U D L led) (hp : ((U ++ D).map Item.msg).Perm ms)
    (g : GetEnv) (q : Query) (hlen : s.store.data.length < 2 ^ 63) (ht0 : q.topic ≠ []) (ht1 : q.topic.length ≤ 65536)
    (hcut : (q.ask v.dur g.now v.q).cutoff ≤ 0) (hlim : ((Spec.addressed ms (q.ask v.dur g.now v.q).contract q.topic 0).length : Int) ≤ (q.ask v.dur g.now v.q).limit)
    (how : ∀ w, (g.orderWin w).Perm w) (hot : ∀ ts, (g.orderTopics ts).Perm ts)
    (hst : Spec.isStatic (Spec.topicText q.topic) = true) (hlq : (Spec.levels (Spec.topicText q.topic)).length ≤ 255)
    (hown : ∀ m ∈ ms, ∀ m' ∈ ms, topicHash m.contract m.topic = topicHash m'.contract m'.topic →
      (parseTopic m.contract m.topic).1.parts = (parseTopic m'.contract m'.topic).1.parts)
    (hcw : ∀ m ∈ ms, m.contract ≠ wildcardHash)
    (hh : ∀ m ∈ ms, ∀ p ∈ Spec.levels (Spec.topicText m.topic), Spec.isStar p = false → Hash.withSalt p m.contract ≠ wildcardHash ∧
      ∀ t ∈ Spec.levels (Spec.topicText q.topic), Hash.withSalt p m.contract = Hash.withSalt t m.contract → p = t)
    (hfirst : ∀ m ∈ Spec.addressed ms (q.ask v.dur g.now v.q).contract q.topic 0,
      (readWindowBlock s.winFile 0).map (·.topicHash) ≠ some (topicHash m.contract m.topic))
    (ks : List UInt64) (m0 : MemDb) (hks : ∀ m ∈ Spec.addressed ms (q.ask v.dur g.now v.q).contract q.topic 0, m.seq ∉ ks)
    (hM : ∀ M, MInv v.mem s.mem M → ∃ M', MInv v.mem m0 M' ∧ ∀ k, k ∉ ks → M' k = M k) (lease : Lease) (cnt : UInt64)
    (hcap : (Spec.addressed ms (q.ask v.dur g.now v.q).contract q.topic (toU32 (unixSec g.now))).length ≤ g.cap) :
    ∃ out : List Spec.Message, (({ s with mem := m0, store := { s.store with lease := lease }, count := cnt } : Db).get v g q []).2 = .out (.ok (out.map (·.payload))) ∧
      out.Perm (Spec.addressed ms (q.ask v.dur g.now v.q).contract q.topic (toU32 (unixSec g.now))) ∧ out.Pairwise (fun a b => a.seq > b.seq) := by
  obtain ⟨c, hcd⟩ : ∃ c, c = (q.ask v.dur g.now v.q).contract := ⟨_, rfl⟩
  obtain ⟨now, hnow⟩ : ∃ n, n = toU32 (unixSec g.now) := ⟨_, rfl⟩
  obtain ⟨ops, htr, hops1, hops2⟩ := I.trie
  obtain ⟨w, HW⟩ := I.hist
  have hmem : ∀ i ∈ U ++ D, i.msg ∈ ms := fun i hi => hp.mem_iff.1 (List.mem_map_of_mem hi)
  obtain ⟨sel, hseld⟩ : ∃ sel : Item → Bool, sel = fun i => decide (i.contract = c) && Spec.covers (Spec.topicText i.topic) (Spec.topicText q.topic) := ⟨_, rfl⟩
  have hsel : ∀ i ∈ U ++ D, i.hash ∈ (s.trie.find c q.topic).map TTopic.hash ↔ sel i = true := by
    intro i hi
    obtain ⟨off, hadd⟩ := hops1 i hi trivial
    rw [htr, hseld]
    simp only [Bool.and_eq_true, decide_eq_true_eq]
    refine C16_covers_exact_partial ops i.contract i.topic off hadd ?_ ?_ c q.topic hst (I.ok i hi).levels hlq (hcw _ (hmem i hi)) (hh _ (hmem i hi))
    · intro c' key' off' h'
      obtain ⟨j, hj, rfl, rfl⟩ := hops2 c' key' off' h'
      exact (I.ok j hj).plain
    · intro c' key' off' h' he
      obtain ⟨j, hj, rfl, rfl⟩ := hops2 c' key' off' h'
      exact hown _ (hmem j hj) _ (hmem i hi) he
  have hexp : ∀ i : Item, (!i.win.isExpired now) = i.msg.alive now := by
    intro i
    simp only [WinEntry.isExpired, Item.win, Spec.Message.alive, Item.msg]
    by_cases e0 : i.exp = 0
    · simp [e0]
    · by_cases e1 : i.exp ≤ now
      · have : ¬ now < i.exp := UInt32.not_lt.2 e1
        simp [e0, e1, this]
      · have : now < i.exp := UInt32.not_le.1 e1
        simp [e0, e1, this]
  have hwant : ((U ++ D).filter fun i => sel i && !i.win.isExpired now).map Item.msg = Spec.addressed ((U ++ D).map Item.msg) c q.topic now := by
    rw [Spec.addressed, List.filter_map]
    congr 1
    apply List.filter_congr
    intro i _
    rw [hexp, hseld]
    rfl
  have hwp : (Spec.addressed ((U ++ D).map Item.msg) c q.topic now).Perm (Spec.addressed ms c q.topic now) := hp.filter _
  have hlen2 : ((U ++ D).filter fun i => sel i && !i.win.isExpired now).length = (Spec.addressed ms c q.topic now).length := by
    rw [← hwp.length_eq, ← hwant, List.length_map]
  obtain ⟨M', hM1, hM2⟩ := hM _ I.mem
  have hin : ∀ i ∈ U ++ D, sel i = true → i.msg ∈ Spec.addressed ms (q.ask v.dur g.now v.q).contract q.topic 0 := by
    intro i hi hsi
    rw [Spec.addressed, List.mem_filter]
    refine ⟨hmem i hi, ?_⟩
    rw [hseld] at hsi
    simp only [Bool.and_eq_true, decide_eq_true_eq] at hsi
    rw [alive_zero, ← hcd]
    simp [Item.msg, hsi.1, hsi.2]
  have hall : ((U ++ D).filter sel).length ≤ (Spec.addressed ms (q.ask v.dur g.now v.q).contract q.topic 0).length := by
    rw [Spec.addressed, ← (hp.filter _).length_eq, List.filter_map, List.length_map, ← hcd]
    refine Nat.le_of_eq (congrArg List.length (List.filter_congr fun i _ => ?_))
    simp only [hseld, Function.comp, alive_zero, Bool.and_true]
    rfl
  obtain ⟨m, _, hget⟩ := I.get_other htest hlen g q ht0 ht1 hcut how hot sel (by omega) (by rw [← hcd]; exact hsel) (by
      intro i _ hi
      rw [hseld] at hi
      simp only [Bool.and_eq_true, decide_eq_true_eq] at hi
      rw [← hcd]; exact hi.1) (by
      intro i hi hsi hc
      have h1 := firstBlock HW hc
      exact hfirst i.msg (hin i hi hsi) h1) (by
      rw [← hnow, hlen2, hnow, hcd]; exact hcap) m0 M' hM1 (fun i hi hsi => hM2 _ (hks _ (hin i hi hsi))) lease cnt
  rw [← hnow] at hget
  refine ⟨(byseq ((U ++ D).filter fun i => sel i && !i.win.isExpired now)).map Item.msg, ?_, ?_, ?_⟩
  · rw [hget, List.map_map]; rfl
  · rw [← hcd, ← hnow]
    exact ((byseq_perm _).map _).trans (hwant ▸ hwp)
  · rw [List.pairwise_map]
    have hnd : ((byseq ((U ++ D).filter fun i => sel i && !i.win.isExpired now)).map Item.seq).Nodup :=
      (((byseq_perm _).map _).nodup_iff).2 (List.Nodup.sublist (List.Sublist.map _ List.filter_sublist) I.nodup)
    rw [List.Nodup, List.pairwise_map] at hnd
    refine ((byseq_sorted _).and hnd).imp ?_
    intro a b h
    exact UInt64.lt_of_le_of_ne h.1 (Ne.symm h.2)

/-- A Get of messages none of which is among the deleted `ks`. -/
theorem story_get (v : DbEnv) (hs : v.mac.cipher.Sound) (hde : ∀ x, v.decode (v.encode x) = some x)
    (htest : ∀ ks k, k ∈ ks → v.mem.test ks k = true) (s : Db) (ms : List Spec.Message) (quiet : Bool) (H : Spec.Story v s ms quiet)
    (g : GetEnv) (q : Query) (hlen : s.store.data.length < 2 ^ 63) (ht0 : q.topic ≠ []) (ht1 : q.topic.length ≤ 65536)
    (hcut : (q.ask v.dur g.now v.q).cutoff ≤ 0) (hlim : ((Spec.addressed ms (q.ask v.dur g.now v.q).contract q.topic 0).length : Int) ≤ (q.ask v.dur g.now v.q).limit)
    (how : ∀ w, (g.orderWin w).Perm w) (hot : ∀ ts, (g.orderTopics ts).Perm ts)
    (hst : Spec.isStatic (Spec.topicText q.topic) = true) (hlq : (Spec.levels (Spec.topicText q.topic)).length ≤ 255)
    (hown : ∀ m ∈ ms, ∀ m' ∈ ms, topicHash m.contract m.topic = topicHash m'.contract m'.topic →
      (parseTopic m.contract m.topic).1.parts = (parseTopic m'.contract m'.topic).1.parts)
    (hcw : ∀ m ∈ ms, m.contract ≠ wildcardHash)
    (hh : ∀ m ∈ ms, ∀ p ∈ Spec.levels (Spec.topicText m.topic), Spec.isStar p = false → Hash.withSalt p m.contract ≠ wildcardHash ∧
      ∀ t ∈ Spec.levels (Spec.topicText q.topic), Hash.withSalt p m.contract = Hash.withSalt t m.contract → p = t)
    (hfirst : ∀ m ∈ Spec.addressed ms (q.ask v.dur g.now v.q).contract q.topic 0,
      (readWindowBlock s.winFile 0).map (·.topicHash) ≠ some (topicHash m.contract m.topic))
    (ks : List UInt64) (m0 : MemDb) (hks : ∀ m ∈ Spec.addressed ms (q.ask v.dur g.now v.q).contract q.topic 0, m.seq ∉ ks)
    (hM : ∀ M, MInv v.mem s.mem M → ∃ M', MInv v.mem m0 M' ∧ ∀ k, k ∉ ks → M' k = M k) (lease : Lease) (cnt : UInt64)
    (hcap : (Spec.addressed ms (q.ask v.dur g.now v.q).contract q.topic (toU32 (unixSec g.now))).length ≤ g.cap) :
    ∃ out : List Spec.Message, (({ s with mem := m0, store := { s.store with lease := lease }, count := cnt } : Db).get v g q []).2 = .out (.ok (out.map (·.payload))) ∧
      out.Perm (Spec.addressed ms (q.ask v.dur g.now v.q).contract q.topic (toU32 (unixSec g.now))) ∧ out.Pairwise (fun a b => a.seq > b.seq) := by
  obtain ⟨U, D, L, led, I, hp, _, _⟩ := story_inv hs hde htest H
  exact inv_get v htest s ms I hp g q hlen ht0 ht1 hcut hlim how hot hst hlq hown hcw hh hfirst ks m0 hks hM lease cnt hcap

/-- C68 (partial: without deletes and restarts, no Sync after a Get, the whole result fits the limit, no hash collisions, and not for the
topic that was synced first, to which the first block of the window file belongs). After any such history a Get for a topic without
wildcards returns the payloads of exactly the messages put for that contract, whose topic covers the one asked for, and which have
not expired: each once, the one with the highest sequence first. -/
theorem C68_put_get_partial (v : DbEnv) (hs : v.mac.cipher.Sound) (hde : ∀ x, v.decode (v.encode x) = some x)
    (htest : ∀ ks k, k ∈ ks → v.mem.test ks k = true) (s : Db) (ms : List Spec.Message) (quiet : Bool) (H : Spec.Story v s ms quiet)
    (g : GetEnv) (q : Query) (hlen : s.store.data.length < 2 ^ 63) (ht0 : q.topic ≠ []) (ht1 : q.topic.length ≤ 65536)
    (hcut : (q.ask v.dur g.now v.q).cutoff ≤ 0) (hlim : ((Spec.addressed ms (q.ask v.dur g.now v.q).contract q.topic 0).length : Int) ≤ (q.ask v.dur g.now v.q).limit)
    (how : ∀ w, (g.orderWin w).Perm w) (hot : ∀ ts, (g.orderTopics ts).Perm ts)
    (hst : Spec.isStatic (Spec.topicText q.topic) = true) (hlq : (Spec.levels (Spec.topicText q.topic)).length ≤ 255)
    (hown : ∀ m ∈ ms, ∀ m' ∈ ms, topicHash m.contract m.topic = topicHash m'.contract m'.topic →
      (parseTopic m.contract m.topic).1.parts = (parseTopic m'.contract m'.topic).1.parts)
    (hcw : ∀ m ∈ ms, m.contract ≠ wildcardHash)
    (hh : ∀ m ∈ ms, ∀ p ∈ Spec.levels (Spec.topicText m.topic), Spec.isStar p = false → Hash.withSalt p m.contract ≠ wildcardHash ∧
      ∀ t ∈ Spec.levels (Spec.topicText q.topic), Hash.withSalt p m.contract = Hash.withSalt t m.contract → p = t)
    (hfirst : ∀ m ∈ Spec.addressed ms (q.ask v.dur g.now v.q).contract q.topic 0,
      (readWindowBlock s.winFile 0).map (·.topicHash) ≠ some (topicHash m.contract m.topic))
    (hcap : (Spec.addressed ms (q.ask v.dur g.now v.q).contract q.topic (toU32 (unixSec g.now))).length ≤ g.cap) :
    ∃ out : List Spec.Message, (s.get v g q []).2 = .out (.ok (out.map (·.payload))) ∧
      out.Perm (Spec.addressed ms (q.ask v.dur g.now v.q).contract q.topic (toU32 (unixSec g.now))) ∧ out.Pairwise (fun a b => a.seq > b.seq) :=
  story_get v hs hde htest s ms quiet H g q hlen ht0 ht1 hcut hlim how hot hst hlq hown hcw hh hfirst [] s.mem (by simp)
    (fun M h => ⟨M, h, fun _ _ => rfl⟩) s.store.lease s.count hcap

/-! ## Concrete histories -/

/-- Histories in the toy environment, checked step by step. -/
def toyTell : List DbOp → Db → List Spec.Message → Bool → Option (Db × List Spec.Message × Bool)
  | [], s, ms, quiet => some (s, ms, quiet)
  | op :: ops, s, ms, quiet =>
    match op with
    | .put now o =>
      if s.seq.toNat < 255 * 524287 ∧ o.id = none ∧ o.parsed = false ∧ o.topicSize = 0 ∧ o.payload.length ≤ 100 ∧
          Spec.startsWithStar (Spec.topicText o.topic) = false ∧ (Spec.levels (Spec.topicText o.topic)).length ≤ 254 ∧
          (s.putEntry .toy now o).2.2 = .ok
      then toyTell ops (s.putEntry .toy now o).1 (ms ++ [Spec.messageOf .toy now s o]) quiet else none
    | .get g q old => toyTell ops (s.get .toy g q old).1 ms false
    | .rotate t => if s.mem.cur ≤ t then toyTell ops { s with mem := s.mem.rotate t } ms quiet else none
    | .write id t => toyTell ops { s with mem := s.mem.write id t false } ms quiet
    | .sync _ =>
      if quiet = true ∧ s.winFile.length + 8192 * s.pending + 8192 ≤ 2 ^ 31 then
        (s.sync .toy).bind fun x => toyTell ops x.1 ms true
      else none
    | _ => none

theorem toyTell_story (ops : List DbOp) : ∀ (s s' : Db) (ms ms' : List Spec.Message) (quiet quiet' : Bool), Spec.Story .toy s ms quiet →
    toyTell ops s ms quiet = some (s', ms', quiet') → Spec.Story .toy s' ms' quiet' := by
  induction ops with
  | nil =>
    intro s s' ms ms' quiet quiet' H h
    simp only [toyTell, Option.some.injEq, Prod.mk.injEq] at h
    obtain ⟨rfl, rfl, rfl⟩ := h
    exact H
  | cons op ops ih =>
    intro s s' ms ms' quiet quiet' H h
    cases op with
    | put now o =>
      simp only [toyTell] at h
      split at h
      · next hc =>
        obtain ⟨h1, h2, h3, h4, h5, h6, h7, h8⟩ := hc
        refine ih _ _ _ _ _ _ (.put now o H h1 ⟨saneToy o (by rw [h2]; intro b hb; cases hb) (by omega), h3, h4, h6, h7, ?_⟩ h8) h
        intro id q hi
        rw [h2] at hi; cases hi
      · cases h
    | get g q old => exact ih _ _ _ _ _ _ (.get g q old H) h
    | rotate t =>
      simp only [toyTell] at h
      split at h
      · next hc => exact ih _ _ _ _ _ _ (.rotate t H hc) h
      · cases h
    | write id t => exact ih _ _ _ _ _ _ (.write id t H) h
    | sync e =>
      simp only [toyTell] at h
      split at h
      · next hc =>
        obtain ⟨rfl, hr⟩ := hc
        rw [Option.bind_eq_some_iff] at h
        obtain ⟨x, h1, h2⟩ := h
        exact ih _ _ _ _ _ _ (.sync .toy H (by decide) (fun m => List.Perm.refl _) hr h1) h2
      · cases h
    | newId now => cases h
    | delete o => cases h
    | close id => cases h

/-- A history of the toy environment from an empty disk. -/
def toyStory (ops : List DbOp) : Option (Db × List Spec.Message × Bool) := (toyOpen {} 5000 {}).bind fun s => toyTell ops s [] true

theorem toyStory_story {ops : List DbOp} {x : Db × List Spec.Message × Bool} (h : toyStory ops = some x) : Spec.Story .toy x.1 x.2.1 x.2.2 := by
  simp only [toyStory, Option.bind_eq_some_iff] at h
  obtain ⟨s, h1, h2⟩ := h
  exact toyTell_story ops s x.1 [] x.2.1 true x.2.2 (.opened (by decide) rfl (OpenOut.db?_some h1)) h2

def toyPut (topic : Bytes) (x : UInt8) : DbOp := .put toyNow { topic := topic, payload := [x, x, x, x] }

/-- Three puts, a sync, two more puts, a Get and a put: five messages, three of them for topic `b.c`, one under `b.*`. -/
def toyTale : List DbOp :=
  [toyPut [98, 46, 99] 1, toyPut [98, 46, 42] 2, toyPut [97] 3, .write 5001 5000, .rotate 6000, .sync .toy, toyPut [98, 46, 99] 4, .get .toy (newQuery [97]) [],
    .rotate 7000, toyPut [98, 46, 99] 5]

example : (toyStory toyTale).map (fun x => ((x.1.get .toy .toy (newQuery [98, 46, 99]) []).2, x.1.count, x.1.pending, x.2.1.length)) =
    some (.out (.ok [[5, 5, 5, 5], [4, 4, 4, 4], [2, 2, 2, 2], [1, 1, 1, 1]]), 3, 2, 5) := by decide +kernel

/-- What `C68_put_get_partial` asks of the messages, for a query in the toy environment. -/
def toyAsk (s : Db) (ms : List Spec.Message) (g : GetEnv) (q : Query) : Prop :=
  s.store.data.length < 2 ^ 63 ∧ q.topic ≠ [] ∧ q.topic.length ≤ 65536 ∧ (q.ask DbEnv.toy.dur g.now DbEnv.toy.q).cutoff ≤ 0 ∧
  ((Spec.addressed ms (q.ask DbEnv.toy.dur g.now DbEnv.toy.q).contract q.topic 0).length : Int) ≤ (q.ask DbEnv.toy.dur g.now DbEnv.toy.q).limit ∧ Spec.isStatic (Spec.topicText q.topic) = true ∧
  (Spec.levels (Spec.topicText q.topic)).length ≤ 255 ∧
  (∀ m ∈ ms, ∀ m' ∈ ms, topicHash m.contract m.topic = topicHash m'.contract m'.topic →
      (parseTopic m.contract m.topic).1.parts = (parseTopic m'.contract m'.topic).1.parts) ∧
  (∀ m ∈ ms, m.contract ≠ wildcardHash) ∧
  (∀ m ∈ ms, ∀ p ∈ Spec.levels (Spec.topicText m.topic), Spec.isStar p = false → Hash.withSalt p m.contract ≠ wildcardHash ∧
      ∀ t ∈ Spec.levels (Spec.topicText q.topic), Hash.withSalt p m.contract = Hash.withSalt t m.contract → p = t) ∧
  (∀ m ∈ Spec.addressed ms (q.ask DbEnv.toy.dur g.now DbEnv.toy.q).contract q.topic 0,
      (readWindowBlock s.winFile 0).map (·.topicHash) ≠ some (topicHash m.contract m.topic)) ∧
  (Spec.addressed ms (q.ask DbEnv.toy.dur g.now DbEnv.toy.q).contract q.topic (toU32 (unixSec g.now))).length ≤ g.cap

instance (s : Db) (ms : List Spec.Message) (g : GetEnv) (q : Query) : Decidable (toyAsk s ms g q) := by
  unfold toyAsk; infer_instance

/-- All hypotheses of `C68_put_get_partial` hold of that history and the query for `b.c`, which asks for four messages. -/
example : ∃ (s : Db) (ms : List Spec.Message) (quiet : Bool), DbEnv.toy.mac.cipher.Sound ∧ (∀ x, DbEnv.toy.decode (DbEnv.toy.encode x) = some x) ∧
    (∀ ks k, k ∈ ks → DbEnv.toy.mem.test ks k = true) ∧ Spec.Story .toy s ms quiet ∧ toyAsk s ms .toy (newQuery [98, 46, 99]) ∧
    (∀ w, (GetEnv.toy.orderWin w).Perm w) ∧ (∀ ts, (GetEnv.toy.orderTopics ts).Perm ts) ∧
    (Spec.addressed ms 3376684800 [98, 46, 99] 1600000000).length = 4 := by
  have h : ((toyStory toyTale).map fun x => decide (toyAsk x.1 x.2.1 .toy (newQuery [98, 46, 99]) ∧
      (Spec.addressed x.2.1 3376684800 [98, 46, 99] 1600000000).length = 4)) = some true := by decide +kernel
  rw [Option.map_eq_some_iff] at h
  obtain ⟨x, h1, h2⟩ := h
  obtain ⟨h3, h4⟩ := of_decide_eq_true h2
  exact ⟨x.1, x.2.1, x.2.2, toyAead_sound, fun _ => rfl, fun ks k hk => by simpa [DbEnv.toy, MEnv.one] using hk, toyStory_story h1, h3,
    fun _ => List.Perm.refl _, fun _ => List.Perm.refl _, h4⟩

/-- C68: in such a history a Sync succeeds. -/
theorem C68_sync_succeeds (v : DbEnv) (hs : v.mac.cipher.Sound) (hde : ∀ x, v.decode (v.encode x) = some x)
    (htest : ∀ ks k, k ∈ ks → v.mem.test ks k = true) (s : Db) (ms : List Spec.Message) (H : Spec.Story v s ms true) (e : SyncEnv)
    (hnow : 0 ≤ e.now.toInt) (hord : ∀ m, (e.order m).Perm m) (hroom : s.winFile.length + 8192 * s.pending + 8192 ≤ 2 ^ 31) :
    ∃ s', s.sync e = some (s', .ok) ∧ Spec.Story v s' ms true := by
  obtain ⟨U, D, L, led, I, hp, hb, hm⟩ := story_inv hs hde htest H
  obtain ⟨s2, _, _, _, _, h1, _⟩ := I.sync (hb rfl) hnow hord hm hroom
  exact ⟨s2, h1, .sync e H hnow hord hroom h1⟩

/-- C34 (partial: without deletes and restarts). Count is the number of messages put, less those still waiting in memory for a
sync. -/
theorem C34_count_partial (v : DbEnv) (hs : v.mac.cipher.Sound) (hde : ∀ x, v.decode (v.encode x) = some x)
    (htest : ∀ ks k, k ∈ ks → v.mem.test ks k = true) (s : Db) (ms : List Spec.Message) (quiet : Bool) (H : Spec.Story v s ms quiet) :
    s.pending ≤ ms.length ∧ s.count = UInt64.ofNat (ms.length - s.pending) := by
  obtain ⟨U, D, L, led, I, hp, _⟩ := story_inv hs hde htest H
  have := hp.length_eq
  rw [List.length_map, List.length_append] at this
  rw [I.pending, I.count]
  exact ⟨by omega, by congr 1; omega⟩

/-- C68 with a Sync after a Get is false. The block of the message is given back to the buffer pool by the Sync, but the query cache
keeps it. If its buffer now holds another record where that of the message was, a Get for topic `b` returns the payload of that
other record: here `[9, 9, 9, 9]`, which was never put for topic `b`. -/
theorem C68_stale_violated : ((openDb { DbEnv.toy with stale := some (packRecord ⟨3, 0, 4, 0, 77⟩ ([95, 94, 16, 0] ++ put32 masterContract) 0 [] [9, 9, 9, 9]) } {} .toy .toy 5000 {}).db?.bind fun s =>
      (s.run { DbEnv.toy with stale := some (packRecord ⟨3, 0, 4, 0, 77⟩ ([95, 94, 16, 0] ++ put32 masterContract) 0 [] [9, 9, 9, 9]) }
        [toyPut [97] 1, toyPut [98] 2, .get .toy (newQuery [98]) [], .write 5001 5000, .rotate 6000, .sync .toy, .get .toy (newQuery [98]) []]).map fun x =>
          (x.2.map Spec.outcome).drop 2) =
    some [.got (.out (.ok [[2, 2, 2, 2]])), .done, .done, .out .ok, .got (.out (.ok [[9, 9, 9, 9]]))] := by decide +kernel

/-- C68: without the Get between, the same history gives the message back. -/
example : ((toyRun [toyPut [97] 1, toyPut [98] 2, .write 5001 5000, .rotate 6000, .sync .toy, .get .toy (newQuery [98]) []]).map fun x =>
    (x.2.map Spec.outcome).drop 5) = some [.got (.out (.ok [[2, 2, 2, 2]]))] := by decide +kernel

end Verif
