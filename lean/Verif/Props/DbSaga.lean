import Verif.Model.DbTrack
import Verif.Props.DbEffects

/-!
# Histories with restarts and a crash

Histories of puts, gets, background work, syncs, and any number of clean restarts, at the end of which the process may be killed.
-/

namespace Verif

/-- What is known of a history: the id of the current tiny log; the tiny logs waiting to be written, oldest first, each with its id, its
time id and the number of messages put before it was queued; the messages put, in this order; how many of them must be on disk; and
whether there was no Get since the last open. -/
structure Spec.Book where
  tiny : Int
  queue : List (Int × Int × Nat) := []
  ms : List Spec.Message := []
  safe : Nat := 0
  quiet : Bool := true

/-- A topic has at most 335 messages. -/
def Spec.Few (ms : List Spec.Message) : Prop :=
  ∀ m ∈ ms, (ms.filter fun m' => topicHash m'.contract m'.topic = topicHash m.contract m.topic).length ≤ 335

instance (ms : List Spec.Message) : Decidable (Spec.Few ms) := by unfold Spec.Few; infer_instance

/-- Histories without explicit message ids, batches and deletes. A tiny log is queued when it is rotated, and the queue is written in order;
once a tiny log is written, the messages put before it was queued are on disk. A Sync is only taken before the first Get
after an open (see `C68_stale_violated`). A restart is a Close, before which the queue is written, and an Open.
After a crash the history goes on if the header on disk has the current sequence (else see `C69_reused_violated`), with as many messages
as the database then counts. -/
inductive Spec.Saga (v : DbEnv) : Db → Spec.Book → Prop
  | opened {o r e now s} (id) : 0 < now → (v.mem.cap : Int) ≤ now → r.orderDel [] = [] → openDb v o r e now {} = .ok s → Spec.Saga v s { tiny := id }
  | newId {s b} (now) : Spec.Saga v s b → s.seq.toNat < 255 * 524287 → Spec.Saga v (s.newId now).1 b
  | put {s b} (now o) : Spec.Saga v s b → s.seq.toNat < 255 * 524287 → o.id = none → Spec.Fresh v s b.ms o →
      (s.putEntry v now o).2.2 = .ok → Spec.Saga v (s.putEntry v now o).1 { b with ms := b.ms ++ [Spec.messageOf v now s o] }
  | refused {s b} (now o) (e) : Spec.Saga v s b → s.seq.toNat < 255 * 524287 → (s.putEntry v now o).2.2 = .err e →
      Spec.Saga v (s.putEntry v now o).1 b
  | get {s b} (g q old) : Spec.Saga v s b → Spec.Saga v (s.get v g q old).1 { b with quiet := false }
  | rotate {s b} (t id) : Spec.Saga v s b → s.mem.cur ≤ t → b.tiny < id →
      Spec.Saga v { s with mem := s.mem.rotate t } { b with tiny := id, queue := b.queue ++ [(b.tiny, s.mem.cur, b.ms.length)] }
  | write {s b id t n queue} : Spec.Saga v s b → b.queue = (id, t, n) :: queue →
      Spec.Saga v { s with mem := s.mem.write id t false } { b with queue := queue, safe := max b.safe n }
  | sync {s s' b r} (e : SyncEnv) : Spec.Saga v s b → b.quiet = true → 0 ≤ e.now.toInt → (∀ m, (e.order m).Perm m) →
      s.winFile.length + 8192 * s.pending + 8192 ≤ 2 ^ 31 → s.sync e = some (s', r) → Spec.Saga v s' b
  | reopen {s s' b o r e now} (id) : Spec.Saga v s b → b.queue = [] → Spec.Few b.ms → Reopens v r e now (s.close b.tiny).1.disk b.ms.length →
      openDb v o r e now (s.close b.tiny).1.disk = .ok s' → Spec.Saga v s' { tiny := id, ms := b.ms, safe := b.ms.length }
  | crash {s s' b o r e now i} (id) : Spec.Saga v s b → Spec.Few b.ms → DBInfo.unmarshal s.info = some i → i.sequence = s.seq →
      (i.sequence ≠ 0 ∨ s.mem.wal = []) → Reopens v r e now s.disk b.ms.length → openDb v o r e now s.disk = .ok s' →
      Spec.Saga v s' { tiny := id, ms := b.ms.take s'.count.toNat, safe := s'.count.toNat }

/-! ## The invariant -/

theorem Track.init {v : DbEnv} {o : OpenOpts} {r : RecEnv} {e : SyncEnv} {now : Int} {s : Db} (hc : (v.mem.cap : Int) ≤ now) (hpos : 0 < now)
    (hr : r.orderDel [] = []) (h : Verif.openDb v o r e now {} = .ok s) (cid : Int) : Track s [] [] cid [] [] [] := by
  obtain ⟨I, _⟩ := DbInv.init hc hr h
  have hi : DBInfo.unmarshal (DBInfo.marshal { signature := dbSignature, version := 1, encryption := 0, sequence := 0, count := 0 }) =
      some { signature := dbSignature, version := 1, encryption := 1, sequence := 0, count := 0 } := by decide +kernel
  have hrec : MemDb.recover v.mem r [] now = some (MemDb.new now, .ok) := by
    simp only [MemDb.recover, MemDb.recLogs, Option.map_some, hr, List.foldl_nil]
    rfl
  have hbi : blockIterator [] = [] := by decide +kernel
  have hle : (Lease.new o.minFree).read [] = some (Lease.new o.minFree) := rfl
  simp only [Verif.openDb, if_true, hi, hrec, hbi, loadTopics, hle, ne_eq, not_true_eq_false, if_false, Db.recoverLog, OpenOut.ok.injEq] at h
  subst h
  have hb : ∀ t a, (MemDb.new now).blocks.get t = some a → t = now ∧ a = 0 := by
    intro t' a' h'
    have : (MemDb.new now).blocks = [(now, 0)] := rfl
    rw [this] at h'
    simp only [AMap.get] at h'
    split at h'
    · next e' => simp only [Option.some.injEq] at h'; exact ⟨e'.symm, h'.symm⟩
    · simp at h'
  have hrecs : (MemDb.new now).mark.records = [(now, 1)] := rfl
  refine {
    logs := Logs.fresh rfl I.ready ?_ rfl rfl ?_ ?_ ?_ cid
    order := by simp
    raw := by simp
    headed := ?_
    lease := ⟨_, rfl⟩
    leaseFile := .inl rfl
    info := ⟨0, 0, rfl⟩
    pos := hpos
    blks := by simp }
  · intro t a h'
    obtain ⟨_, rfl⟩ := hb t a h'
    exact Nat.zero_lt_one
  · intro t n h'
    have h2 : (MemDb.new now).mark.records.get t = some n := h'
    rw [hrecs] at h2
    simp only [AMap.get] at h2
    split at h2
    · simpa using h2.symm
    · simp at h2
  · show ((MemDb.new now).mark.records.get now).isSome
    rw [hrecs]
    simp [AMap.get]
  · intro t a h'
    obtain ⟨rfl, rfl⟩ := hb t a h'
    exact ⟨rfl, rfl⟩
  · intro k i hi; cases hi

/-- What a history says about the state. -/
structure SagaInv (v : DbEnv) (s : Db) (b : Spec.Book) (U D : List Item) (L : Loc) (led : List (UInt64 × List WinEntry)) (G : List ItemLog)
    (R : List Item) : Prop where
  db : DbInv v s U D L led
  track : Track s U D b.tiny (b.queue.map fun x => (x.1, x.2.1)) G R
  msgs : (D ++ U).map Item.msg = b.ms
  quiet : b.quiet = true → s.mem.qblocks = []
  safe : b.safe ≤ (D ++ G.flatMap (·.2)).length
  queued : ∀ x ∈ b.queue, x.2.2 ≤ (D ++ U).length ∧ ∀ i ∈ (D ++ U).take x.2.2, i ∈ R → i.blk ≤ x.2.1
  last : s.lastSync.toNat ≤ s.seq.toNat ∧ ∀ i ∈ U, s.lastSync.toNat < i.seq.toNat

theorem SagaInv.logged {v : DbEnv} {s : Db} {b : Spec.Book} {U D : List Item} {L : Loc} {led : List (UInt64 × List WinEntry)} {G : List ItemLog}
    {R : List Item} (J : SagaInv v s b U D L led G R) {id t : Int} {n : Nat} {queue : List (Int × Int × Nat)} (hq : b.queue = (id, t, n) :: queue)
    (T : Track { s with mem := s.mem.write id t false } U D b.tiny (queue.map fun x => (x.1, x.2.1)) (G ++ newLog id t R) (R.filter fun i => i.blk ≠ t)) :
    n ≤ (D ++ (G ++ newLog id t R).flatMap (·.2)).length := by
  by_contra hlt
  obtain ⟨hn, hall⟩ := J.queued (id, t, n) (by rw [hq]; simp)
  simp only at hn hall
  obtain ⟨A, hA⟩ : ∃ A, A = D ++ (G ++ newLog id t R).flatMap (·.2) := ⟨_, rfl⟩
  rw [← hA] at hlt
  have hsp : D ++ U = A ++ R.filter fun i => i.blk ≠ t := by rw [hA, T.logs.split]; simp only [List.append_assoc]
  rw [hsp] at hn hall
  have hx : ∃ i B, (R.filter fun i => i.blk ≠ t) = i :: B := by
    cases hR : R.filter fun i => i.blk ≠ t with
    | nil => rw [hR] at hn; simp at hn; omega
    | cons i B => exact ⟨i, B, rfl⟩
  obtain ⟨i, B, hB⟩ := hx
  have hi : i ∈ R.filter fun i => i.blk ≠ t := by rw [hB]; simp
  rw [List.mem_filter] at hi
  have hne : i.blk ≠ t := by simpa using hi.2
  have hle := hall i (by
    rw [hB, List.take_append, List.mem_append]
    right
    obtain ⟨k, hk⟩ : ∃ k, n - A.length = k + 1 := ⟨n - A.length - 1, by omega⟩
    rw [hk]; simp) hi.1
  have hw := J.track.logs.waiting i hi.1
  have hti := J.track.logs.times
  rw [hq] at hw hti
  simp only [List.map_cons, List.cons_append, List.pairwise_cons, List.mem_cons] at hw hti
  rcases hw with h | h
  · exact hne h
  · have := hti.1 _ h
    omega

theorem few_items {U D : List Item} (h : Spec.Few ((D ++ U).map Item.msg)) (k : UInt64) :
    (D.filter fun i => i.hash = k).length ≤ 335 := by
  cases hD : D.filter fun i => i.hash = k with
  | nil => simp
  | cons j B =>
    have hj : j ∈ D.filter fun i => i.hash = k := by rw [hD]; simp
    rw [List.mem_filter] at hj
    have hjk : j.hash = k := by simpa using hj.2
    have := h j.msg (List.mem_map_of_mem (List.mem_append_left _ hj.1))
    rw [List.filter_map, List.length_map] at this
    rw [← hD]
    refine Nat.le_trans ?_ this
    rw [List.filter_append, List.length_append]
    refine Nat.le_trans (Nat.le_of_eq ?_) (Nat.le_add_right _ _)
    congr 1
    refine List.filter_congr fun i _ => ?_
    rw [← hjk]
    rfl

theorem InfoOK.read {info : Bytes} {n cnt : UInt64} (h : InfoOK info n cnt) {i : DBInfo} (hi : DBInfo.unmarshal info = some i) : i.sequence = n := by
  obtain ⟨enc, he⟩ := h
  obtain ⟨j, hj, _, _, h1, _⟩ := C01_header_roundtrip { signature := dbSignature, version := 1, encryption := enc, sequence := n, count := cnt } rfl
  rw [← he, hi] at hj
  cases hj
  exact h1

theorem InfoOK.readable {info : Bytes} {n cnt : UInt64} (h : InfoOK info n cnt) : ∃ i, DBInfo.unmarshal info = some i := by
  obtain ⟨enc, he⟩ := h
  obtain ⟨j, hj, _⟩ := C01_header_roundtrip { signature := dbSignature, version := 1, encryption := enc, sequence := n, count := cnt } rfl
  exact ⟨j, by rw [he]; exact hj⟩

/-- Opening after a crash. -/
theorem SagaInv.crash {v : DbEnv} {s : Db} {b : Spec.Book} {U D : List Item} {L : Loc} {led : List (UInt64 × List WinEntry)} {G : List ItemLog}
    {R : List Item} (J : SagaInv v s b U D L led G R) (hfew : Spec.Few b.ms) (hhead : ∀ i, DBInfo.unmarshal s.info = some i → i.sequence ≠ 0 ∨ s.mem.wal = [])
    {o : OpenOpts} {r : RecEnv} {e : SyncEnv} {now : Int} (hre : Reopens v r e now s.disk b.ms.length) (id : Int) :
    ∃ s' D' L' bl k, openDb v o r e now s.disk = .ok s' ∧ DbInv v { s' with seq := s.seq } [] D' (L ++ L') (led ++ bl) ∧ Track s' [] D' id [] [] [] ∧
      D'.map Item.msg = b.ms.take k ∧ D'.length = k ∧ b.safe ≤ k ∧ k ≤ b.ms.length ∧ s'.mem.qblocks = [] ∧
      ∀ i, DBInfo.unmarshal s.info = some i → s'.seq = i.sequence := by
  have hlen : b.ms.length = (D ++ U).length := by rw [← J.msgs, List.length_map]
  have hsp : D ++ U = (D ++ G.flatMap (·.2)) ++ R := by rw [J.track.logs.split, List.append_assoc]
  have h335 := few_items (by rw [J.msgs]; exact hfew)
  obtain ⟨n, hinf⟩ := J.track.info
  have hn : n ≠ 0 ∨ G = [] := by
    obtain ⟨i, hi⟩ := hinf.readable
    rw [← hinf.read hi]
    refine (hhead i hi).imp_right fun hw => ?_
    obtain ⟨last, hl, _⟩ := J.track.logs.log
    have hwal : s.mem.wal = (G.map ItemLog.recs).map encLog := hl.wal
    rw [hw] at hwal
    simpa using hwal.symm
  obtain ⟨s', L', bl, h1, I', T', h2, h3, _⟩ := J.track.openDb J.db hinf hn h335 (hre.mono (by
    rw [hlen, hsp, List.length_append, List.length_append]; omega)) o id
  obtain ⟨A, hA⟩ : ∃ A, A = D ++ G.flatMap (·.2) := ⟨_, rfl⟩
  have hm : (D ++ G.flatMap (ItemLog.recovered r)).map Item.msg = A.map Item.msg := by
    rw [hA, List.map_append, List.map_append]
    congr 1
    rw [List.map_flatMap, List.map_flatMap]
    congr 1
    funext l
    simp only [ItemLog.recovered, List.map_map]
    rfl
  have hk : b.ms.take A.length = A.map Item.msg := by
    rw [← J.msgs, hsp, ← hA, List.map_append, List.take_append_of_le_length (by simp), List.take_of_length_le (by simp)]
  have hl := congrArg List.length hm
  simp only [List.length_map] at hl
  exact ⟨s', _, L', bl, A.length, h1, I', T', by rw [hm, hk], hl, by rw [hA]; exact J.safe, by rw [hlen, hsp, ← hA, List.length_append]; omega, h3,
    fun i hi => by rw [h2, hinf.read hi]⟩

theorem saga_inv {v : DbEnv} (hs : v.mac.cipher.Sound) (hde : ∀ x, v.decode (v.encode x) = some x)
    (htest : ∀ ks k, k ∈ ks → v.mem.test ks k = true) {s : Db} {b : Spec.Book} (H : Spec.Saga v s b) :
    ∃ U D L led G R, SagaInv v s b U D L led G R := by
  induction H with
  | opened id hpos hc hr h =>
    obtain ⟨I, hq, _⟩ := DbInv.init hc hr h
    exact ⟨[], [], [], [], [], [], I, Track.init hc hpos hr h id, rfl, fun _ => hq, Nat.zero_le _, by simp,
      by rw [openDb_lastSync h]; simp⟩
  | @newId s b now _ hq ih =>
    obtain ⟨U, D, L, led, G, R, J⟩ := ih
    refine ⟨U, D, L, led, G, R, J.db.newId hq now, J.track.newId now, J.msgs, J.quiet, J.safe, J.queued, Nat.le_trans J.last.1 ?_, J.last.2⟩
    show _ ≤ (s.seq + 1).toNat
    rw [toNat_succ hq]; omega
  | @put s b now o _ hq hid hf hok ih =>
    obtain ⟨U, D, L, led, G, R, J⟩ := ih
    obtain ⟨i, I', h1, h2, h3, h4, hblk, h5, h6, _, _, hcar, hput⟩ := J.db.put hs hde (o' := (s.putEntry v now o).2.1) (s' := (s.putEntry v now o).1) hf.sane hf.parsed
      hf.topicSize hf.plain hf.levels hq (by
        intro id q h1
        rw [hid] at h1; cases h1) (by rw [← hok])
    have hseq : i.seq = s.seq + 1 := by
      rcases h5 with ⟨_, h⟩ | ⟨id, h, _⟩
      · exact h
      · rw [hid] at h; cases h
    have T := J.track.put J.db hblk hseq hq hcar hput
    refine ⟨U ++ [i], D, L, led, G, R ++ [i], I', T, ?_, fun hx => h6.trans (J.quiet hx), J.safe, ?_, ?_⟩
    · have e : i.msg = Spec.messageOf v now s o := by
        simp only [Item.msg, Spec.messageOf, h1, h2, h3, h4, seqOf_item h5]
      rw [← e, ← List.append_assoc, List.map_append, J.msgs]
      rfl
    · intro x hx
      obtain ⟨a1, a2⟩ := J.queued x hx
      rw [← List.append_assoc, List.length_append, List.take_append_of_le_length a1]
      refine ⟨by omega, fun j hj hjR => ?_⟩
      rw [List.mem_append, List.mem_singleton] at hjR
      rcases hjR with h | h
      · exact a2 j hj h
      · exfalso
        have ho := T.order
        rw [← List.append_assoc, List.pairwise_append] at ho
        have := ho.2.2 j (List.mem_of_mem_take hj) i (by simp)
        rw [h] at this
        exact UInt64.lt_irrefl _ this
    · have hl := J.last
      have hi := I'.seqs i (by simp)
      rw [(Db.putEntry_fields v now s o).2.2.2.1]
      rw [hseq, toNat_succ hq] at hi
      refine ⟨by omega, fun j hj => ?_⟩
      rcases List.mem_append.1 hj with hj | hj
      · exact hl.2 j hj
      · rw [List.mem_singleton] at hj
        rw [hj, hseq, toNat_succ hq]; omega
  | @refused s b now o e _ hq hr ih =>
    obtain ⟨U, D, L, led, G, R, J⟩ := ih
    obtain ⟨I', h1⟩ := J.db.putErr (o' := (s.putEntry v now o).2.1) (s' := (s.putEntry v now o).1) hq (by rw [← hr])
    obtain ⟨f1, f2, f3, f4, _⟩ := Db.putEntry_files v now s o
    refine ⟨U, D, L, led, G, R, I', ?_, J.msgs, fun hx => by rw [h1]; exact J.quiet hx, J.safe, J.queued, ?_⟩
    have T := J.track
    · exact ⟨by rw [h1]; exact T.logs, T.order, T.raw, T.headed, by rw [f4]; exact T.lease, by rw [f3]; exact T.leaseFile, by rw [f1, f2]; exact T.info,
      by rw [h1]; exact T.pos, T.blks⟩
    · obtain ⟨_, _, _, e1, _, _, _, e2⟩ := Db.putEntry_fields v now s o
      rw [e1]
      refine ⟨Nat.le_trans J.last.1 ?_, J.last.2⟩
      rcases e2 with e2 | ⟨e2, _⟩
      · rw [e2]
      · rw [e2, toNat_succ hq]; omega
  | @get s b g q old _ ih =>
    obtain ⟨U, D, L, led, G, R, J⟩ := ih
    obtain ⟨m, h1, h2, h3⟩ := Db.get_keeps v htest g s q old _ J.db.mem
    exact ⟨U, D, L, led, G, R, J.db.getKeeps htest g q old, by rw [h1]; exact J.track.mem_same h3, J.msgs, fun hx => (by cases hx), J.safe, J.queued, by rw [h1]; exact J.last⟩
  | @rotate s b t id _ ht hid ih =>
    obtain ⟨U, D, L, led, G, R, J⟩ := ih
    refine ⟨U, D, L, led, G, R, J.db.rotate t ht, ?_, J.msgs, fun hx => ?_, J.safe, ?_, J.last⟩
    · have := J.track.rotate ht hid
      simpa only [List.map_append, List.map_cons, List.map_nil] using this
    · show (s.mem.rotate t).qblocks = []
      rw [← J.quiet hx]; simp only [MemDb.rotate, MemDb.addTimeBlock]; split <;> rfl
    · intro x hx
      rw [List.mem_append, List.mem_singleton] at hx
      rcases hx with hx | rfl
      · exact J.queued x hx
      · refine ⟨by rw [← J.msgs, List.length_map], fun i _ hi => ?_⟩
        exact J.track.logs.le i (J.track.logs.mem_rest hi)
  | @write s b id t n queue _ hqu ih =>
    obtain ⟨U, D, L, led, G, R, J⟩ := ih
    have T0 := J.track
    rw [hqu, List.map_cons] at T0
    have T := T0.write
    refine ⟨U, D, L, led, G ++ newLog id t R, R.filter fun i => i.blk ≠ t, J.db.write id t, T, J.msgs, fun hx => ?_, ?_, ?_, J.last⟩
    · show (s.mem.write id t false).qblocks = []
      rw [MemDb.write_qblocks]; exact J.quiet hx
    · have h1 := J.logged hqu T
      have h2 := J.safe
      simp only [List.flatMap_append, List.length_append] at h1 h2 ⊢
      exact Nat.max_le.2 ⟨by omega, by omega⟩
    · intro x hx
      obtain ⟨a1, a2⟩ := J.queued x (by rw [hqu]; exact List.mem_cons_of_mem _ hx)
      exact ⟨a1, fun i hi hiR => a2 i hi (List.mem_of_mem_filter hiR)⟩
  | @sync s s' b r e _ hqt hnow hord hroom hsy ih =>
    obtain ⟨U, D, L, led, G, R, J⟩ := ih
    obtain ⟨s2, U', D', L', led', G', R', h1, I', T', hall, hlen, hqb, hsq, _, hsub, hsubU, hlast⟩ := J.track.sync J.db (J.quiet hqt) hnow hord hroom
    rw [h1] at hsy
    simp only [Option.some.injEq, Prod.mk.injEq] at hsy
    obtain ⟨rfl, _⟩ := hsy
    refine ⟨U', D', L', led', G', R', I', T', by rw [hall]; exact J.msgs, fun _ => hqb, Nat.le_trans J.safe hlen, ?_, ?_⟩
    · intro x hx
      rw [hall]
      obtain ⟨a1, a2⟩ := J.queued x hx
      exact ⟨a1, fun i hi hiR => a2 i hi (hsub i hiR)⟩
    · rcases hlast with hl | ⟨i, hi, hl⟩
      · rw [hl, hsq]
        exact ⟨J.last.1, fun j hj => J.last.2 j (hsubU j hj)⟩
      · rw [hl]
        refine ⟨I'.seqs i (List.mem_append_right _ hi), fun j hj => ?_⟩
        exact UInt64.lt_iff_toNat_lt.1 ((List.pairwise_append.1 T'.order).2.2 i hi j hj)
  | @reopen s s' b o r e now id _ hqu hfew hre hop ih =>
    obtain ⟨U, D, L, led, G, R, J⟩ := ih
    have T0 := J.track
    rw [hqu, List.map_nil] at T0
    have hlen : b.ms.length = (D ++ U).length := by rw [← J.msgs, List.length_map]
    have h335 := few_items (by rw [J.msgs]; exact hfew)
    obtain ⟨s2, D', L', bl, h1, I', T', h2, _, h3⟩ := T0.reopen J.db h335 (hre.mono (by rw [hlen, List.length_append]; omega)) o id
    rw [h1] at hop
    cases hop
    have hm : D'.map Item.msg = (D ++ U).map Item.msg := h2 Item.msg fun _ _ => rfl
    refine ⟨[], D', L ++ L', led ++ bl, [], [], I', T', ?_, fun _ => h3, ?_, by simp, by rw [openDb_lastSync h1]; simp⟩
    · rw [List.append_nil, hm]; exact J.msgs
    · have : D'.length = (D ++ U).length := by simpa using congrArg List.length hm
      rw [hlen, ← this]; simp
  | @crash s s' b o r e now i id _ hfew hi hseq hz hre hop ih =>
    obtain ⟨U, D, L, led, G, R, J⟩ := ih
    obtain ⟨s2, D', L', bl, k, h1, I', T', hm, hl, h2, h3, h4, h5⟩ := J.crash hfew (fun j hj => by rw [hi] at hj; cases hj; exact hz) hre id
    rw [h1] at hop
    cases hop
    have hsq : s'.seq = s.seq := by rw [h5 i hi, hseq]
    have I2 : DbInv v s' [] D' (L ++ L') (led ++ bl) := by
      have : ({ s' with seq := s.seq } : Db) = s' := by rw [← hsq]
      rw [← this]; exact I'
    have hcnt : s'.count.toNat = k := by
      rw [I2.count, hl, UInt64.toNat_ofNat_of_lt']
      have := hre.win
      show k < 2 ^ 64
      omega
    refine ⟨[], D', L ++ L', led ++ bl, [], [], I2, T', ?_, fun _ => h4, ?_, by simp, by rw [openDb_lastSync h1]; simp⟩
    · rw [List.append_nil, hcnt]; exact hm
    · rw [hcnt, ← hl]; simp

/-! ## Queries -/

/-- A query for a topic without wildcards whose whole result fits the limit, in a database whose topics have no hash collisions, and not for the
topic that was synced first (see `C68_first_topic_violated`), to which the first block of the window file belongs. -/
structure Spec.Asks (v : DbEnv) (s : Db) (ms : List Spec.Message) (g : GetEnv) (q : Query) : Prop where
  data : s.store.data.length < 2 ^ 63
  topic : q.topic ≠ []
  size : q.topic.length ≤ 65536
  cutoff : (q.ask v.dur g.now v.q).cutoff ≤ 0
  limit : ((Spec.addressed ms (q.ask v.dur g.now v.q).contract q.topic 0).length : Int) ≤ (q.ask v.dur g.now v.q).limit
  wins : ∀ w, (g.orderWin w).Perm w
  topics : ∀ ts, (g.orderTopics ts).Perm ts
  static : Spec.isStatic (Spec.topicText q.topic) = true
  levels : (Spec.levels (Spec.topicText q.topic)).length ≤ 255
  own : ∀ m ∈ ms, ∀ m' ∈ ms, topicHash m.contract m.topic = topicHash m'.contract m'.topic →
    (parseTopic m.contract m.topic).1.parts = (parseTopic m'.contract m'.topic).1.parts
  contracts : ∀ m ∈ ms, m.contract ≠ wildcardHash
  hashes : ∀ m ∈ ms, ∀ p ∈ Spec.levels (Spec.topicText m.topic), Spec.isStar p = false → Hash.withSalt p m.contract ≠ wildcardHash ∧
    ∀ t ∈ Spec.levels (Spec.topicText q.topic), Hash.withSalt p m.contract = Hash.withSalt t m.contract → p = t
  first : ∀ m ∈ Spec.addressed ms (q.ask v.dur g.now v.q).contract q.topic 0,
    (readWindowBlock s.winFile 0).map (·.topicHash) ≠ some (topicHash m.contract m.topic)
  cap : (Spec.addressed ms (q.ask v.dur g.now v.q).contract q.topic (toU32 (unixSec g.now))).length ≤ g.cap

/-- The query gives exactly the messages of `ms` it asks for, the one with the highest sequence first. -/
def Spec.Answers (v : DbEnv) (s : Db) (ms : List Spec.Message) (g : GetEnv) (q : Query) : Prop :=
  ∃ out : List Spec.Message, (s.get v g q []).2 = .out (.ok (out.map (·.payload))) ∧
    out.Perm (Spec.addressed ms (q.ask v.dur g.now v.q).contract q.topic (toU32 (unixSec g.now))) ∧ out.Pairwise (fun a b => a.seq > b.seq)

theorem DbInv.answers {v : DbEnv} (htest : ∀ ks k, k ∈ ks → v.mem.test ks k = true) {s : Db} {ms : List Spec.Message} {U D : List Item} {L : Loc}
    {led : List (UInt64 × List WinEntry)} (I : DbInv v s U D L led) (hp : ((U ++ D).map Item.msg).Perm ms) {g : GetEnv} {q : Query}
    (A : Spec.Asks v s ms g q) : Spec.Answers v s ms g q :=
  inv_get v htest s ms I hp g q A.data A.topic A.size A.cutoff A.limit A.wins A.topics A.static A.levels A.own A.contracts A.hashes A.first [] s.mem
    (by simp) (fun M h => ⟨M, h, fun _ _ => rfl⟩) s.store.lease s.count A.cap

end Verif
