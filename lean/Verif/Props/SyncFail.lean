import Verif.Props.DbLife
import Verif.Props.Par
import Verif.Model.SyncFail

/-!
# What a Sync does to what was put before it (C80)
-/

namespace Verif

/-- C80 (partial: no puts under way and no Get since the database was opened, no explicit ids). All older tiny logs are written (`hq`). The current one is
rotated out in a later second and written; then a Sync returns no error, and every message put so far is counted and none waits in memory.
The history can go on from there. -/
theorem C80_stored_partial (v : DbEnv) (hs : v.mac.cipher.Sound) (hde : ∀ x, v.decode (v.encode x) = some x)
    (htest : ∀ ks k, k ∈ ks → v.mem.test ks k = true) (s : Db) (b : Spec.Book) (H : Spec.Saga v s b) (hq : b.queue = []) (hquiet : b.quiet = true)
    (t id : Int) (ht : s.mem.cur < t) (hid : b.tiny < id) (e : SyncEnv) (hnow : 0 ≤ e.now.toInt) (hord : ∀ m, (e.order m).Perm m)
    (hroom : s.winFile.length + 8192 * s.pending + 8192 ≤ 2 ^ 31) :
    ∃ s', ({ s with mem := (s.mem.rotate t).write b.tiny s.mem.cur false } : Db).trySync e = some (s', .ok) ∧
      s'.count = UInt64.ofNat b.ms.length ∧ s'.pending = 0 ∧ Spec.Saga v s' { b with tiny := id, safe := max b.safe b.ms.length } := by
  have H1 := Spec.Saga.rotate t id H (by omega) hid
  have H2 := Spec.Saga.write (b := { b with tiny := id, queue := [(b.tiny, s.mem.cur, b.ms.length)] }) (by rw [hq] at H1; exact H1) rfl
  obtain ⟨U, D, L, led, G, R, J⟩ := saga_inv hs hde htest H
  have T0 := J.track
  rw [hq, List.map_nil] at T0
  have T := (T0.rotate (t := t) (by omega) hid).write
  have I := (J.db.rotate t (by omega)).write b.tiny s.mem.cur
  obtain ⟨s2, hs2⟩ : ∃ s2, s2 = ({ s with mem := (s.mem.rotate t).write b.tiny s.mem.cur false } : Db) := ⟨_, rfl⟩
  have hcur : s2.mem.cur = t := by rw [hs2]; exact ((s.mem.rotate t).write_same _ _ _).1
  have hquiet2 : s2.mem.qblocks = [] := by
    rw [hs2]
    show ((s.mem.rotate t).write b.tiny s.mem.cur false).qblocks = []
    rw [MemDb.write_qblocks, ← J.quiet hquiet]
    simp only [MemDb.rotate, MemDb.addTimeBlock]; split <;> rfl
  have hroom2 : s2.winFile.length + 8192 * s2.pending + 8192 ≤ 2 ^ 31 := by rw [hs2]; exact hroom
  have hlast : s2.lastSync = s.lastSync ∧ s2.seq = s.seq := by rw [hs2]; exact ⟨rfl, rfl⟩
  change Spec.Saga v ({ s with mem := (s.mem.rotate t).write b.tiny s.mem.cur false } : Db) _ at H2
  change Track ({ s with mem := (s.mem.rotate t).write b.tiny s.mem.cur false } : Db) _ _ _ _ _ _ at T
  change DbInv v ({ s with mem := (s.mem.rotate t).write b.tiny s.mem.cur false } : Db) _ _ _ _ at I
  rw [← hs2] at H2 T I ⊢
  obtain ⟨s', U', D', L', led', h1, I', hp, _, _, _, _, h8, h9⟩ := I.sync hquiet2 hnow hord T.logs.marked hroom2
  have H3 := Spec.Saga.sync e H2 hquiet hnow hord hroom2 h1
  have hU : U' = [] := by
    by_cases hl : s2.lastSync = s2.seq
    · obtain ⟨_, rfl, _⟩ := h9 hl
      rw [List.eq_nil_iff_forall_not_mem]
      intro i hi
      have h2 := J.last.2 i hi
      have h3 := J.db.seqs i (List.mem_append_left _ hi)
      rw [hlast.1, hlast.2] at hl
      rw [hl] at h2
      omega
    · rw [(h8 hl).1, List.filter_eq_nil_iff]
      intro i hi
      have h2 := T0.logs.le i hi
      simp only [decide_not, Bool.not_eq_eq_eq_not, Bool.not_true, decide_eq_false_iff_not, Decidable.not_not, hcur]
      rw [mem_timeRefs T.logs.marked]
      refine ⟨?_, T.blks i hi, by omega⟩
      have h3 : i ∉ R.filter fun i => i.blk ≠ s.mem.cur := by
        intro h3
        have h4 := T.logs.waiting i h3
        rw [hcur, List.map_nil, List.nil_append, List.mem_singleton] at h4
        omega
      have h4 := hi
      rw [T.logs.split, List.mem_append] at h4
      obtain ⟨l, hl, hi'⟩ := List.mem_flatMap.1 (h4.resolve_right h3)
      exact T.logs.done l hl i hi'
  subst hU
  have hlen : D'.length = b.ms.length := by
    have e1 := hp.length_eq
    have e2 := congrArg List.length J.msgs
    simp only [List.length_map, List.length_append, List.length_nil, Nat.zero_add] at e1 e2
    omega
  exact ⟨s', Db.trySync_eq h1, by rw [I'.count, hlen], by rw [I'.pending]; rfl, by rw [hq]; exact H3⟩

/-- The hypotheses of `C80_stored_partial`: a history with a restart, six messages, two of which wait in memory. -/
example : ∃ (s : Db) (b : Spec.Book), DbEnv.toy.mac.cipher.Sound ∧ (∀ x, DbEnv.toy.decode (DbEnv.toy.encode x) = some x) ∧
    (∀ ks k, k ∈ ks → DbEnv.toy.mem.test ks k = true) ∧ Spec.Saga .toy s b ∧ b.queue = [] ∧ b.quiet = true ∧ s.mem.cur < 10000 ∧ b.tiny < 10001 ∧
    0 ≤ SyncEnv.toy.now.toInt ∧ (∀ m, (SyncEnv.toy.order m).Perm m) ∧ s.winFile.length + 8192 * s.pending + 8192 ≤ 2 ^ 31 ∧ b.ms.length = 6 ∧ s.pending = 2 := by
  have h : ((toySaga toyDays).map fun x => decide (x.2.queue = [] ∧ x.2.quiet = true ∧ x.1.mem.cur < 10000 ∧ x.2.tiny < 10001 ∧
      x.1.winFile.length + 8192 * x.1.pending + 8192 ≤ 2 ^ 31 ∧ x.2.ms.length = 6 ∧ x.1.pending = 2)) = some true := by decide +kernel
  rw [Option.map_eq_some_iff] at h
  obtain ⟨x, h1, h2⟩ := h
  obtain ⟨a1, a2, a3, a4, a5, a6, a7⟩ := of_decide_eq_true h2
  exact ⟨x.1, x.2, toyAead_sound, fun _ => rfl, toyTest, toySaga_saga h1, a1, a2, a3, a4, by decide, fun _ => List.Perm.refl _, a5, a6, a7⟩

/-! ## What does not hold -/

/-- C80 with explicit ids is false. The id was drawn before the other message was put. When its message is put, the highest sequence handed out
is that of the last Sync, and Sync takes this to mean that there is nothing to do: it returns no error and one of two messages stays in memory. -/
theorem C80_skipped_violated : (toyRun [.newId toyNow, toyPut [98] 1, .write 5001 5000, .rotate 6000, .sync .toy,
      .put toyNow { topic := [98], payload := [2, 2, 2, 2], id := some (newID 1600000000 1) }, .write 6001 6000, .rotate 7000, .sync .toy]).map
      (fun x => ((x.2.map Spec.outcome).drop 4, x.1.count, x.1.pending)) =
    some ([.out .ok, .out .ok, .done, .done, .out .ok], 1, 1) := by decide +kernel

/-- Steps of puts, calls, and Syncs that may meet a message whose topic is not in the trie yet. -/
inductive SyncAct where
  | act (a : ParAct)
  | sync (e : SyncEnv)

def Par.actOrSync (v : DbEnv) (P : Par) : SyncAct → Option (Par × List DbRes)
  | .act a => P.act v a
  | .sync e => (P.db.trySync e).map fun x => (⟨x.1, P.puts⟩, [.out x.2])

def Par.actsOrSyncs (v : DbEnv) : Par → List SyncAct → Option (Par × List DbRes)
  | P, [] => some (P, [])
  | P, a :: as => (P.actOrSync v a).bind fun x => (Par.actsOrSyncs v x.1 as).map fun y => (y.1, x.2 ++ y.2)

def toySyncs (ps : List Putting) (as : List SyncAct) : Option (Par × List DbRes) :=
  (openDb .toy {} .toy .toy 5000 {}).db?.bind fun s => Par.actsOrSyncs .toy ⟨s, ps⟩ as

/-- The block of a time id is written to the log, the tiny log is rotated and a Sync follows. The Sync takes the topic put first first. -/
def toyRound (t t' : Int) : List SyncAct := [.act (.call (.write (t + 1) t)), .act (.call (.rotate t')), .sync ⟨1600000000, List.reverse⟩]

/-- The first put returns. The second has stored its message and not yet added its topic when the Sync comes; then it returns. -/
def toyEarly : List SyncAct := (stepsOf 0 7 ++ stepsOf 1 5).map .act ++ toyRound 5000 6000 ++ (stepsOf 1 2).map .act

/-- C80 with a put under way is false. The Sync stores neither message and returns no error, as does the next one. Count is 2^64 - 2. -/
theorem C80_unreported_violated :
    (toySyncs [toyPutting [97] 1, toyPutting [98] 2] (toyEarly ++ [.sync .toy])).map (fun x => (x.1.allOk, x.2, x.1.db.count, x.1.db.pending)) =
      some (true, [.done, .done, .out .ok, .out .ok], 18446744073709551614, 2) := by decide +kernel

/-- A message of topic `d` is put and synced. Then a put of topic `a` returns, and a put of topic `b` meets a Sync as in `toyEarly`. After it has returned,
a message of topic `c` is put and the Sync after that stores all three. -/
def toyMixed : List SyncAct := (stepsOf 0 7).map .act ++ toyRound 5000 6000 ++ (stepsOf 1 7 ++ stepsOf 2 5).map .act ++ toyRound 6000 7000 ++
  (stepsOf 2 2 ++ stepsOf 3 7).map .act ++ toyRound 7000 8000

/-- C80 with a put under way is false, also after the put has returned. The Sync that failed has left the offset of a window block in the trie that it did not
write. Topic `b` gets the same block: a Get for topic `b` returns the message of topic `a` too, and a Get for topic `a` returns nothing. Of the four
messages two are counted. -/
theorem C80_mixed_violated :
    (toySyncs [toyPutting [100] 9, toyPutting [97] 1, toyPutting [98] 2, toyPutting [99] 3]
        (toyMixed ++ [toyGet [97], toyGet [98], toyGet [99]].map .act)).map (fun x => (x.1.allOk, x.2.drop 6, x.1.db.count, x.1.db.pending)) =
      some (true, [.done, .done, .out .ok, .got (.out (.ok [])), .got (.out (.ok [[2, 2, 2, 2], [1, 1, 1, 1]])), .got (.out (.ok [[3, 3, 3, 3]]))], 2, 0) := by
  decide +kernel

end Verif
