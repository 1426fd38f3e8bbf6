import Verif.Props.DbSaga

/-!
# C33, C34, C38, C69, C74: restarts and a crash

Theorems about the histories of `Spec.Saga`.
-/

namespace Verif

/-! ## Restarts -/

/-- C33 (partial: a topic has at most 335 messages, see `C33_newest_lost_violated`, and the logs are older than the second in which the database is opened). After such a
history and a Close, opening succeeds. -/
theorem C33_reopen_partial (v : DbEnv) (hs : v.mac.cipher.Sound) (hde : ∀ x, v.decode (v.encode x) = some x)
    (htest : ∀ ks k, k ∈ ks → v.mem.test ks k = true) (s : Db) (b : Spec.Book) (H : Spec.Saga v s b) (hq : b.queue = []) (hfew : Spec.Few b.ms)
    (o : OpenOpts) (r : RecEnv) (e : SyncEnv) (now : Int) (hre : Reopens v r e now (s.close b.tiny).1.disk b.ms.length) :
    ∃ s', openDb v o r e now (s.close b.tiny).1.disk = .ok s' ∧ s'.seq = s.seq ∧ s'.count = UInt64.ofNat b.ms.length ∧ s'.pending = 0 := by
  obtain ⟨U, D, L, led, G, R, J⟩ := saga_inv hs hde htest H
  have T0 := J.track
  rw [hq, List.map_nil] at T0
  have hlen : b.ms.length = (D ++ U).length := by rw [← J.msgs, List.length_map]
  have h335 := few_items (by rw [J.msgs]; exact hfew)
  obtain ⟨s2, D', L', bl, h1, I', _, h2, h3, _⟩ := T0.reopen J.db h335 (hre.mono (by rw [hlen, List.length_append]; omega)) o 0
  have hm : D'.length = (D ++ U).length := by simpa using congrArg List.length (h2 Item.msg fun _ _ => rfl)
  exact ⟨s2, h1, h3, by rw [I'.count, hlen, hm], by rw [I'.pending]; rfl⟩

/-- C33 and C68 (partial, as above). Through any number of restarts a Get returns exactly the messages put that it asks for. -/
theorem C33_get_partial (v : DbEnv) (hs : v.mac.cipher.Sound) (hde : ∀ x, v.decode (v.encode x) = some x)
    (htest : ∀ ks k, k ∈ ks → v.mem.test ks k = true) (s : Db) (b : Spec.Book) (H : Spec.Saga v s b) (g : GetEnv) (q : Query)
    (A : Spec.Asks v s b.ms g q) : Spec.Answers v s b.ms g q := by
  obtain ⟨U, D, L, led, G, R, J⟩ := saga_inv hs hde htest H
  refine J.db.answers htest ?_ A
  rw [← J.msgs]
  exact List.perm_append_comm.map _

/-- C34 (partial: no deletes). Through any number of restarts Count is the number of messages put, less those still waiting in
memory for a sync. -/
theorem C34_restarts_partial (v : DbEnv) (hs : v.mac.cipher.Sound) (hde : ∀ x, v.decode (v.encode x) = some x)
    (htest : ∀ ks k, k ∈ ks → v.mem.test ks k = true) (s : Db) (b : Spec.Book) (H : Spec.Saga v s b) :
    s.pending ≤ b.ms.length ∧ s.count = UInt64.ofNat (b.ms.length - s.pending) := by
  obtain ⟨U, D, L, led, G, R, J⟩ := saga_inv hs hde htest H
  have := congrArg List.length J.msgs
  rw [List.length_map, List.length_append] at this
  rw [J.db.pending, J.db.count]
  exact ⟨by omega, by congr 1; omega⟩

/-- C29 (partial: no deletes). Through any number of restarts the messages have increasing sequences, in the order of the puts. -/
theorem C29_restarts_partial (v : DbEnv) (hs : v.mac.cipher.Sound) (hde : ∀ x, v.decode (v.encode x) = some x)
    (htest : ∀ ks k, k ∈ ks → v.mem.test ks k = true) (s : Db) (b : Spec.Book) (H : Spec.Saga v s b) :
    b.ms.Pairwise (fun m m' => m.seq < m'.seq) ∧ ∀ m ∈ b.ms, m.seq ≤ s.seq := by
  obtain ⟨U, D, L, led, G, R, J⟩ := saga_inv hs hde htest H
  rw [← J.msgs]
  refine ⟨List.pairwise_map.2 J.track.order, fun m hm => ?_⟩
  obtain ⟨i, hi, rfl⟩ := List.mem_map.1 hm
  rw [List.mem_append] at hi
  have := J.db.seqs i (List.mem_append.2 hi.symm)
  exact UInt64.le_iff_toNat_le.2 this

/-! ## C74: a Put is accepted -/

/-- C74 for the entry point alone: on an open database whose current time block exists and has room for the record, an entry with
accepted sizes is stored. -/
theorem put_accepted (v : DbEnv) (now : Int) (s : Db) (o : Obj) (hsane : Spec.Sane v o) (hp : o.parsed = false) (hts : o.topicSize = 0)
    (hplain : Spec.startsWithStar (Spec.topicText o.topic) = false) (hlev : (Spec.levels (Spec.topicText o.topic)).length ≤ 254)
    (hc : s.closed = false) (hmc : s.mem.closed = false) (hr : o.refused = none) (hq : Spec.seqOf s o ≠ 0)
    (henc : (s.enc = 1 ∨ o.encryption = true) → 4 ≤ (v.encode o.payload).length) {a : Nat} (ha : s.mem.blocks.get s.mem.cur = some a)
    (hroom : ∀ b x, v.sealValue b o.payload = some x → (s.mem.at a).data.length + 1348 + x.length ≤ v.mem.cap) :
    (s.putEntry v now o).2.2 = .ok := by
  have hnp : (s.putEntry v now o).2.2 ≠ .panic := by
    rw [Ne, C71_put_panics_partial v now s o hsane hp hts hplain hlev]
    rintro ⟨_, _, h | ⟨h1, h2⟩⟩
    · exact hq h
    · have := henc h1
      omega
  obtain ⟨hT1, hT2, hT3⟩ := parseTopic_fits (Spec.contractOf o) o.topic hplain hlev
  have hsz : (s.parseEntry v now o).1.topicSize = UInt16.ofNat (s.parseEntry v now o).2.length ∧ (s.parseEntry v now o).2.length ≤ 1300 ∧
      (s.parseEntry v now o).1.payload = o.payload ∧ (s.parseEntry v now o).1.id = o.id := by
    simp only [Db.parseEntry, hp, Bool.false_eq_true, if_false]
    obtain ⟨k, hk⟩ : ∃ k, k = (s.trie.getOffset (topicHash (Spec.contractOf o) o.topic)).isSome := ⟨_, rfl⟩
    refine ⟨?_, ?_, trivial, trivial⟩
    · show (if (s.trie.getOffset (topicHash (Spec.contractOf o) o.topic)).isSome = true then o.topicSize else
        UInt16.ofNat (if (s.trie.getOffset (topicHash (Spec.contractOf o) o.topic)).isSome = true then [] else (parseTopic (Spec.contractOf o) o.topic).1.marshal : Bytes).length) =
        UInt16.ofNat (if (s.trie.getOffset (topicHash (Spec.contractOf o) o.topic)).isSome = true then [] else (parseTopic (Spec.contractOf o) o.topic).1.marshal : Bytes).length
      rw [← hk]
      cases k
      · rfl
      · simp [hts]
    · show (if (s.trie.getOffset (topicHash (Spec.contractOf o) o.topic)).isSome = true then [] else (parseTopic (Spec.contractOf o) o.topic).1.marshal : Bytes).length ≤ 1300
      split
      · simp
      · exact hT3
  cases hk : s.packEntry v now (s.parseEntry v now o).1 (s.parseEntry v now o).2 with
  | none => exact absurd (by simp [Db.putEntry, hc, hr, Db.setEntry, hk]) hnp
  | some y =>
    obtain ⟨s1, hd, rec⟩ := y
    obtain ⟨q, id, pre, val, hdr, _, hpre, hval, hhd, hrec⟩ := Db.packEntry_some hk
    obtain ⟨⟨n, rfl⟩, _⟩ := Db.drawId_some hdr
    obtain ⟨e1, e2, e3, e4⟩ := hsz
    rw [e3] at hval
    have hvl := hsane.val _ _ hval
    have hpl : pre.length = 8 := by
      have hid : id.length = 16 := by
        simp only [Db.drawId, e4] at hdr
        cases ho : o.id with
        | none => rw [ho] at hdr; cases hdr; exact length_newID _ _
        | some b =>
          rw [ho, Option.map_eq_some_iff] at hdr
          obtain ⟨_, _, h⟩ := hdr
          simp only [Prod.mk.injEq] at h
          rw [← h.2.2]
          exact hsane.id b ho
      obtain ⟨p, h1, h2⟩ := idPrefix_some id (s.parseEntry v now o).1.contract hid
      rw [hpre] at h1
      cases h1; exact h2
    have hlen : rec.length ≤ 1335 + val.length := by
      have hz : hd.valueSize = UInt32.ofNat val.length := by rw [hhd]
      have ht : hd.topicSize = (s.parseEntry v now o).1.topicSize := by rw [hhd]
      rw [hrec, packRecord_eq _ _ _ _ _ hpl (by rw [ht, e1, UInt16.toNat_ofNat']; omega) (by rw [hz, UInt32.toNat_ofNat']; omega) (by omega)]
      simp only [List.length_append, EntryHdr.length_marshal, entrySize, hpl, List.length_singleton]
      omega
    have hput : ∃ m, s.mem.put v.mem hd.seq rec = (m, .ok) := by
      have := hroom _ _ hval
      obtain ⟨b', hb, _⟩ := MBlock.put_fits (cap := v.mem.cap) (b := s.mem.at a) (k := ⟨false, hd.seq⟩) (d := rec) (by omega)
      simp only [MemDb.put, MemDb.putAt, hmc, Bool.false_eq_true, if_false, ha, hb]
      exact ⟨_, rfl⟩
    obtain ⟨m, hm⟩ := hput
    simp only [Db.putEntry, hc, hr, Db.setEntry, hk, Option.map_some, hm, Bool.false_eq_true, if_false] at hnp ⊢
    split
    · next h => rw [h] at hnp; exact absurd rfl hnp
    · rfl

/-- C74 (partial: histories as above, entry objects not used before, topics of at most 254 levels that do not start with a wildcard). As long as the
buffer of the current time block has room for the record, a Put of an entry with accepted sizes succeeds. A value to be encrypted
needs four bytes once compressed (see `C71_short_violated`). -/
theorem C74_put_accepted_partial (v : DbEnv) (hs : v.mac.cipher.Sound) (hde : ∀ x, v.decode (v.encode x) = some x)
    (htest : ∀ ks k, k ∈ ks → v.mem.test ks k = true) (s : Db) (b : Spec.Book) (H : Spec.Saga v s b) (now : Int) (o : Obj)
    (hseq : s.seq.toNat < 255 * 524287) (hid : o.id = none) (hf : Spec.Fresh v s b.ms o) (ht : o.topic ≠ []) (htl : o.topic.length ≤ 65536)
    (hv : o.payload ≠ []) (hvl : o.payload.length ≤ 2 ^ 30)
    (henc : (s.enc = 1 ∨ o.encryption = true) → 4 ≤ (v.encode o.payload).length)
    (hroom : ∀ a b x, s.mem.blocks.get s.mem.cur = some a → v.sealValue b o.payload = some x → (s.mem.at a).data.length + 1348 + x.length ≤ v.mem.cap) :
    (s.putEntry v now o).2.2 = .ok := by
  obtain ⟨U, D, L, led, G, R, J⟩ := saga_inv hs hde htest H
  obtain ⟨a, ha⟩ := Option.isSome_iff_exists.1 J.db.ready
  obtain ⟨_, hl, _⟩ := J.track.logs.log
  refine put_accepted v now s o hf.sane hf.parsed hf.topicSize hf.plain hf.levels J.db.opened hl.opened ?_ ?_ henc ha fun b x hx => hroom a b x ha hx
  · have h1 : o.topic.length ≠ 0 := by simpa using ht
    have h2 : o.payload.length ≠ 0 := by simpa using hv
    simp only [Obj.refused, if_neg h1, if_neg h2, if_neg (Nat.not_lt.2 htl), if_neg (Nat.not_lt.2 hvl)]
  · simp only [Spec.seqOf, hid]
    intro hc
    have := congrArg UInt64.toNat hc
    rw [toNat_succ hseq] at this
    simp at this

/-! ## A crash -/

theorem Db.get_seq (v : DbEnv) (s : Db) (n : UInt64) (g : GetEnv) (q : Query) (old : List UInt64) :
    (({ s with seq := n } : Db).get v g q old).2 = (s.get v g q old).2 := by
  simp only [Db.get]
  repeat' split
  all_goals rfl

/-- C69 (partial: no crash during a Sync, a sync was done before, see `C69_before_sync_violated`, and the conditions of C33). The process is
killed and the database opened again. Opening succeeds, and the database has the first `k` messages put, where `k` counts at
least those whose tiny logs were written and those put before the last restart: a Get returns exactly those of them it asks for. -/
theorem C69_crash_partial (v : DbEnv) (hs : v.mac.cipher.Sound) (hde : ∀ x, v.decode (v.encode x) = some x)
    (htest : ∀ ks k, k ∈ ks → v.mem.test ks k = true) (s : Db) (b : Spec.Book) (H : Spec.Saga v s b) (hfew : Spec.Few b.ms)
    (hhead : ∀ i, DBInfo.unmarshal s.info = some i → i.sequence ≠ 0 ∨ s.mem.wal = [])
    (o : OpenOpts) (r : RecEnv) (e : SyncEnv) (now : Int) (hre : Reopens v r e now s.disk b.ms.length) :
    ∃ s' k, openDb v o r e now s.disk = .ok s' ∧ b.safe ≤ k ∧ k ≤ b.ms.length ∧ s'.count = UInt64.ofNat k ∧ s'.pending = 0 ∧
      ∀ g q, Spec.Asks v s' (b.ms.take k) g q → Spec.Answers v s' (b.ms.take k) g q := by
  obtain ⟨U, D, L, led, G, R, J⟩ := saga_inv hs hde htest H
  obtain ⟨s', D', L', bl, k, h1, I', _, hm, hl, h2, h3, _⟩ := J.crash (o := o) hfew hhead hre 0
  refine ⟨s', k, h1, h2, h3, ?_, I'.pending, fun g q hask => ?_⟩
  · rw [← hl]; exact I'.count
  · have hans : Spec.Answers v { s' with seq := s.seq } (b.ms.take k) g q :=
      I'.answers htest (by rw [List.nil_append, hm]) ⟨hask.data, hask.topic, hask.size, hask.cutoff, hask.limit, hask.wins, hask.topics, hask.static,
        hask.levels, hask.own, hask.contracts, hask.hashes, hask.first, hask.cap⟩
    obtain ⟨out, o1, o2⟩ := hans
    exact ⟨out, (Db.get_seq v s' s.seq g q []).symm.trans o1, o2⟩

/-! ## Concrete histories -/

inductive LifeOp where
  | put (topic : Bytes) (x : UInt8)
  | get (topic : Bytes)
  | rotate (t id : Int)
  | write
  | sync
  | reopen (now id : Int)
  | crash (now id : Int)

/-- `Reopens` in the toy environment. -/
def toyReopens (now : Int) (d : Disk) (n : Nat) : Prop :=
  d.data.length < 2 ^ 63 ∧ d.win.length + 8192 * n + 8192 ≤ 2 ^ 31 ∧ 4000 ≤ now ∧ (∀ l ∈ d.logs, 4000 ≤ truncTime 1000 l.1) ∧
  (∀ l ∈ d.logs, truncTime 1000 l.1 < now) ∧ ∀ l ∈ d.logs, logBytes .toy d.logs (truncTime 1000 l.1) ≤ 4000

instance (now : Int) (d : Disk) (n : Nat) : Decidable (toyReopens now d n) := by unfold toyReopens; infer_instance

theorem toyReopens_ok {now : Int} {d : Disk} {n : Nat} (h : toyReopens now d n) : Reopens .toy .toy .toy now d n :=
  ⟨h.1, h.2.1, fun _ => List.Perm.refl _, fun _ => List.Perm.refl _, by have := h.2.2.1; omega, h.2.2.1, h.2.2.2.1, h.2.2.2.2.1, h.2.2.2.2.2, by decide,
    fun _ => List.Perm.refl _⟩

/-- Histories in the toy environment, checked step by step. -/
def toyLive : List LifeOp → Db → Spec.Book → Option (Db × Spec.Book)
  | [], s, b => some (s, b)
  | .put topic x :: ops, s, b =>
    if s.seq.toNat < 255 * 524287 ∧ Spec.startsWithStar (Spec.topicText topic) = false ∧ (Spec.levels (Spec.topicText topic)).length ≤ 254 ∧
        (s.putEntry .toy toyNow { topic := topic, payload := [x, x, x, x] }).2.2 = .ok
    then toyLive ops (s.putEntry .toy toyNow { topic := topic, payload := [x, x, x, x] }).1
      { b with ms := b.ms ++ [Spec.messageOf .toy toyNow s { topic := topic, payload := [x, x, x, x] }] }
    else none
  | .get topic :: ops, s, b => toyLive ops (s.get .toy .toy (newQuery topic) []).1 { b with quiet := false }
  | .rotate t id :: ops, s, b =>
    if s.mem.cur ≤ t ∧ b.tiny < id then
      toyLive ops { s with mem := s.mem.rotate t } { b with tiny := id, queue := b.queue ++ [(b.tiny, s.mem.cur, b.ms.length)] }
    else none
  | .write :: ops, s, b =>
    match b.queue with
    | [] => none
    | x :: queue => toyLive ops { s with mem := s.mem.write x.1 x.2.1 false } { b with queue := queue, safe := max b.safe x.2.2 }
  | .sync :: ops, s, b =>
    if b.quiet = true ∧ s.winFile.length + 8192 * s.pending + 8192 ≤ 2 ^ 31 then (s.sync .toy).bind fun x => toyLive ops x.1 b else none
  | .reopen now id :: ops, s, b =>
    if b.queue = [] ∧ Spec.Few b.ms ∧ toyReopens now (s.close b.tiny).1.disk b.ms.length then
      (toyOpen {} now (s.close b.tiny).1.disk).bind fun s' => toyLive ops s' { tiny := id, ms := b.ms, safe := b.ms.length }
    else none
  | .crash now id :: ops, s, b =>
    match DBInfo.unmarshal s.info with
    | none => none
    | some i =>
      if Spec.Few b.ms ∧ i.sequence = s.seq ∧ (i.sequence ≠ 0 ∨ s.mem.wal = []) ∧ toyReopens now s.disk b.ms.length then
        (toyOpen {} now s.disk).bind fun s' => toyLive ops s' { tiny := id, ms := b.ms.take s'.count.toNat, safe := s'.count.toNat }
      else none

theorem toyLive_saga (ops : List LifeOp) : ∀ {s : Db} {b : Spec.Book} {y : Db × Spec.Book}, Spec.Saga .toy s b → toyLive ops s b = some y →
    Spec.Saga .toy y.1 y.2 := by
  induction ops with
  | nil =>
    intro s b y H h
    simp only [toyLive, Option.some.injEq] at h
    subst h
    exact H
  | cons op ops ih =>
    intro s b y H h
    cases op with
    | put topic x =>
      simp only [toyLive] at h
      split at h
      · next hc =>
        obtain ⟨h1, h2, h3, h4⟩ := hc
        refine ih (.put toyNow _ H h1 rfl ⟨saneToy _ (by intro b hb; cases hb) (by simp), rfl, rfl, h2, h3, ?_⟩ h4) h
        intro id q hi
        cases hi
      · cases h
    | get topic => exact ih (.get _ _ _ H) h
    | rotate t id =>
      simp only [toyLive] at h
      split at h
      · next hc => exact ih (.rotate t id H hc.1 hc.2) h
      · cases h
    | write =>
      simp only [toyLive] at h
      split at h
      · cases h
      · next x queue hq => exact ih (.write H hq) h
    | sync =>
      simp only [toyLive] at h
      split at h
      · next hc =>
        rw [Option.bind_eq_some_iff] at h
        obtain ⟨x, h1, h2⟩ := h
        exact ih (.sync .toy H hc.1 (by decide) (fun m => List.Perm.refl _) hc.2 h1) h2
      · cases h
    | reopen now id =>
      simp only [toyLive] at h
      split at h
      · next hc =>
        rw [Option.bind_eq_some_iff] at h
        obtain ⟨x, h1, h2⟩ := h
        exact ih (.reopen id H hc.1 hc.2.1 (toyReopens_ok hc.2.2) (OpenOut.db?_some h1)) h2
      · cases h
    | crash now id =>
      simp only [toyLive] at h
      split at h
      · cases h
      · next i hi =>
        split at h
        · next hc =>
          rw [Option.bind_eq_some_iff] at h
          obtain ⟨x, h1, h2⟩ := h
          exact ih (.crash id H hc.1 hi hc.2.1 hc.2.2.1 (toyReopens_ok hc.2.2.2) (OpenOut.db?_some h1)) h2
        · cases h

/-- A history of the toy environment from an empty disk. -/
def toySaga (ops : List LifeOp) : Option (Db × Spec.Book) := (toyOpen {} 5000 {}).bind fun s => toyLive ops s { tiny := 5001 }

theorem toySaga_saga {ops : List LifeOp} {x : Db × Spec.Book} (h : toySaga ops = some x) : Spec.Saga .toy x.1 x.2 := by
  simp only [toySaga, Option.bind_eq_some_iff] at h
  obtain ⟨s, h1, h2⟩ := h
  exact toyLive_saga ops (.opened 5001 (by decide) (by decide) rfl (OpenOut.db?_some h1)) h2

/-- Three puts, a Get, a restart with nothing synced, a put, a sync, two more puts of which one is logged. -/
def toyDays : List LifeOp :=
  [.put [98, 46, 99] 1, .put [98, 46, 42] 2, .rotate 5000 5100, .put [97] 3, .write, .get [97], .reopen 7000 7001,
    .put [98, 46, 99] 4, .rotate 8000 8001, .write, .sync, .put [98, 46, 99] 5, .rotate 9000 9001, .write, .put [98, 46, 99] 6]

/-- What the history of `toyDays` comes to: six messages, four of them in the files, one in a log, one only in memory. -/
example : (toySaga toyDays).map (fun x => (x.2.ms.length, x.2.safe, x.1.count, x.1.pending, (x.1.get .toy .toy (newQuery [98, 46, 99]) []).2)) =
    some (6, 5, 4, 2, .out (.ok [[6, 6, 6, 6], [5, 5, 5, 5], [4, 4, 4, 4], [2, 2, 2, 2], [1, 1, 1, 1]])) := by decide +kernel

theorem toyAsk_asks {s : Db} {ms : List Spec.Message} {q : Query} (h : toyAsk s ms .toy q) : Spec.Asks .toy s ms .toy q := by
  obtain ⟨h1, h2, h3, h4, h5, h6, h7, h8, h9, h10, h11, h12⟩ := h
  exact ⟨h1, h2, h3, h4, h5, fun _ => List.Perm.refl _, fun _ => List.Perm.refl _, h6, h7, h8, h9, h10, h11, h12⟩

theorem toyTest : ∀ ks k, k ∈ ks → DbEnv.toy.mem.test ks k = true := fun ks k hk => by simpa [DbEnv.toy, MEnv.one] using hk

/-- The hypotheses of `C33_reopen_partial`, `C33_get_partial`, `C34_restarts_partial` and `C29_restarts_partial`. -/
example : ∃ (s : Db) (b : Spec.Book), DbEnv.toy.mac.cipher.Sound ∧ (∀ x, DbEnv.toy.decode (DbEnv.toy.encode x) = some x) ∧
    (∀ ks k, k ∈ ks → DbEnv.toy.mem.test ks k = true) ∧ Spec.Saga .toy s b ∧ b.queue = [] ∧ Spec.Few b.ms ∧
    Reopens .toy .toy .toy 11000 (s.close b.tiny).1.disk b.ms.length ∧ Spec.Asks .toy s b.ms .toy (newQuery [98, 46, 99]) ∧ b.ms.length = 6 := by
  have h : ((toySaga toyDays).map fun x => decide (x.2.queue = [] ∧ Spec.Few x.2.ms ∧ toyReopens 11000 (x.1.close x.2.tiny).1.disk x.2.ms.length ∧
      toyAsk x.1 x.2.ms .toy (newQuery [98, 46, 99]) ∧ x.2.ms.length = 6)) = some true := by decide +kernel
  rw [Option.map_eq_some_iff] at h
  obtain ⟨x, h1, h2⟩ := h
  obtain ⟨a1, a2, a3, a4, a5⟩ := of_decide_eq_true h2
  exact ⟨x.1, x.2, toyAead_sound, fun _ => rfl, toyTest, toySaga_saga h1, a1, a2, toyReopens_ok a3, toyAsk_asks a4, a5⟩

/-- The hypotheses of `C69_crash_partial`: five of the six messages are safe, four of these are asked for. -/
example : ∃ (s s' : Db) (b : Spec.Book), Spec.Saga .toy s b ∧ Spec.Few b.ms ∧ (∀ i, DBInfo.unmarshal s.info = some i → i.sequence ≠ 0 ∨ s.mem.wal = []) ∧
    Reopens .toy .toy .toy 11000 s.disk b.ms.length ∧ openDb .toy {} .toy .toy 11000 s.disk = .ok s' ∧ b.safe = 5 ∧ b.ms.length = 6 ∧
    Spec.Asks .toy s' (b.ms.take 5) .toy (newQuery [98, 46, 99]) ∧
    (s'.get .toy .toy (newQuery [98, 46, 99]) []).2 = .out (.ok [[5, 5, 5, 5], [4, 4, 4, 4], [2, 2, 2, 2], [1, 1, 1, 1]]) := by
  have h : ((toySaga toyDays).bind fun x => (toyOpen {} 11000 x.1.disk).map fun s' => decide (Spec.Few x.2.ms ∧
      (DBInfo.unmarshal x.1.info).any (fun i => decide (i.sequence ≠ 0)) = true ∧ toyReopens 11000 x.1.disk x.2.ms.length ∧ x.2.safe = 5 ∧ x.2.ms.length = 6 ∧
      toyAsk s' (x.2.ms.take 5) .toy (newQuery [98, 46, 99]) ∧
      (s'.get .toy .toy (newQuery [98, 46, 99]) []).2 = .out (.ok [[5, 5, 5, 5], [4, 4, 4, 4], [2, 2, 2, 2], [1, 1, 1, 1]]))) = some true := by decide +kernel
  rw [Option.bind_eq_some_iff] at h
  obtain ⟨x, h1, h⟩ := h
  rw [Option.map_eq_some_iff] at h
  obtain ⟨s', h2, h3⟩ := h
  obtain ⟨a1, a2, a3, a4, a5, a6, a7⟩ := of_decide_eq_true h3
  refine ⟨x.1, s', x.2, toySaga_saga h1, a1, fun i hi => .inl ?_, toyReopens_ok a3, OpenOut.db?_some h2, a4, a5, toyAsk_asks a6, a7⟩
  rw [hi] at a2
  simpa using a2

/-- A history that goes on after two crashes: the header on disk has the current sequence, and the fourth message is lost in the second. -/
example : (toySaga [.put [98] 1, .put [97] 2, .rotate 6000 6001, .write, .sync, .crash 7000 7001, .put [98] 3, .rotate 8000 8001, .write,
      .put [98] 4, .sync, .crash 9000 9001, .put [98] 5]).map (fun x => (x.2.ms.map (·.payload), x.1.seq, (x.1.get .toy .toy (newQuery [98]) []).2)) =
    some ([[1, 1, 1, 1], [2, 2, 2, 2], [3, 3, 3, 3], [5, 5, 5, 5]], 5, .out (.ok [[5, 5, 5, 5], [3, 3, 3, 3], [1, 1, 1, 1]])) := by decide +kernel

/-- The hypotheses of `C74_put_accepted_partial`. -/
example : ∃ (s : Db) (b : Spec.Book), Spec.Saga .toy s b ∧ s.seq.toNat < 255 * 524287 ∧ Spec.Fresh .toy s b.ms { topic := [97], payload := [7, 7, 7, 7] } ∧
    (∀ a b x, s.mem.blocks.get s.mem.cur = some a → DbEnv.toy.sealValue b [7, 7, 7, 7] = some x → (s.mem.at a).data.length + 1348 + x.length ≤ DbEnv.toy.mem.cap) ∧
    b.ms.length = 6 := by
  have h : ((toySaga toyDays).map fun x => decide (x.1.seq.toNat < 255 * 524287 ∧
      (∀ b, (DbEnv.toy.sealValue b [7, 7, 7, 7]).all (fun x => decide (x.length ≤ 100)) = true) ∧
      (x.1.mem.blocks.get x.1.mem.cur).all (fun a => decide ((x.1.mem.at a).data.length + 1448 ≤ 4000)) = true ∧ x.2.ms.length = 6)) = some true := by decide +kernel
  rw [Option.map_eq_some_iff] at h
  obtain ⟨x, h1, h2⟩ := h
  obtain ⟨a1, a2, a3, a4⟩ := of_decide_eq_true h2
  refine ⟨x.1, x.2, toySaga_saga h1, a1, ⟨saneToy _ (by intro b hb; cases hb) (by simp), rfl, rfl, by decide +kernel, by decide +kernel, by intro id q hi; cases hi⟩, ?_, a4⟩
  intro a b y ha hy
  have h3 := a2 b
  rw [hy] at h3
  rw [ha] at a3
  simp only [Option.all_some, decide_eq_true_eq] at h3 a3
  show (x.1.mem.at a).data.length + 1348 + y.length ≤ 4000
  omega

end Verif
