import Verif.Model.Wal

/-!
# C05, C41, C43: the write-ahead log
-/

namespace Verif

open Wal

/-- The records a log is expected to give back: everything appended except empty records. -/
def Spec.logged (rs : List Bytes) : List Bytes := rs.filter (·.length ≠ 0)

/-- Bytes needed for the records: each costs its length and a 4 byte prefix. -/
def Spec.logBytes (rs : List Bytes) : Nat := (rs.map (·.length + 4)).sum

theorem Spec.logBytes_frames (rs : List Bytes) : (rs.flatMap frame).length = Spec.logBytes rs := by
  induction rs with
  | nil => rfl
  | cons r rs ih =>
    simp only [List.flatMap_cons, List.length_append, ih, Spec.logBytes, List.map_cons, List.sum_cons, frame, length_put32]
    omega

/-- C05 (records). Reading the buffer the writer filled returns the appended records in order and then ends normally. -/
theorem C05_records_roundtrip (rs : List Bytes) (hsize : Spec.logBytes (Spec.logged rs) < 2 ^ 32) :
    let w := Writer.new.appendAll rs
    readFrom w.buffer w.count.toNat 0 = (Spec.logged rs, .done) := by
  intro w
  obtain ⟨h1, h2, _⟩ := appendAll_eq Writer.new rs
  have hframes := Spec.logBytes_frames (Spec.logged rs)
  have hcount := count_le_frames (Spec.logged rs)
  have hc : w.count.toNat = (Spec.logged rs).length := by
    show (Writer.appendAll Writer.new rs).count.toNat = _
    rw [h2]
    simp only [Writer.new, UInt32.zero_add]
    rw [UInt32.toNat_ofNat']
    show (Spec.logged rs).length % 2 ^ 32 = (Spec.logged rs).length
    omega
  have hb : w.buffer = [] ++ (Spec.logged rs).flatMap frame ++ [] := by
    show (Writer.appendAll Writer.new rs).buffer = _
    rw [h1]; simp [Writer.new, Spec.logged]
  rw [hc, hb]
  apply readFrom_frames [] (Spec.logged rs) []
  intro r hr
  have := frame_length_le r _ hr
  omega

example : Spec.logged [[1, 2], [], [3]] = [[1, 2], [3]] ∧ Spec.logBytes (Spec.logged [[1, 2], [], [3]]) < 2 ^ 32 := by
  decide

/-- The writer's log, once completely on disk, is read as the records that were appended. -/
theorem recordsOf_written (rs : List Bytes) (t : Int64) (hsize : Spec.logBytes (Spec.logged rs) < 2 ^ 32) :
    let w := Writer.new.appendAll rs
    recordsOf ((LogInfo.mk 1 t w.count w.logSize).marshal ++ w.buffer) = (Spec.logged rs, .done) := by
  intro w
  obtain ⟨h1, _, h3⟩ := appendAll_eq Writer.new rs
  have hframes := Spec.logBytes_frames (Spec.logged rs)
  have hbuf : w.buffer = (Spec.logged rs).flatMap frame := by
    show (Writer.appendAll Writer.new rs).buffer = _
    rw [h1]; simp [Writer.new, Spec.logged]
  have hsz : w.logSize.toNat = w.buffer.length := by
    rw [hbuf]
    show (Writer.appendAll Writer.new rs).logSize.toNat = _
    rw [h3]
    simp only [Writer.new, UInt32.zero_add]
    rw [UInt32.toNat_ofNat']
    show ((Spec.logged rs).flatMap frame).length % 2 ^ 32 = _
    omega
  have hlen := LogInfo.length_marshal (LogInfo.mk 1 t w.count w.logSize)
  have hdec : LogInfo.unmarshal (LogInfo.mk 1 t w.count w.logSize).marshal = some (LogInfo.mk 1 t w.count w.logSize) := by
    simp only [LogInfo.unmarshal, LogInfo.marshal, List.append_assoc]
    simp [get32_skip, getI64_skip]
  have hread : readLog ((LogInfo.mk 1 t w.count w.logSize).marshal ++ w.buffer)
      = (LogInfo.mk 1 t w.count w.logSize, w.buffer, false) := by
    unfold readLog
    have h0 : ¬ ((LogInfo.mk 1 t w.count w.logSize).marshal ++ w.buffer).length < logHeaderSize := by
      rw [List.length_append, hlen]; omega
    have ht : List.take logHeaderSize ((LogInfo.mk 1 t w.count w.logSize).marshal ++ w.buffer)
        = (LogInfo.mk 1 t w.count w.logSize).marshal := by
      rw [← hlen, List.take_left']; rfl
    have hd : List.drop logHeaderSize ((LogInfo.mk 1 t w.count w.logSize).marshal ++ w.buffer) = w.buffer := by
      rw [← hlen, List.drop_left']; rfl
    simp only [h0, if_false, ht, hdec, hd, hsz]
    simp
  simp only [recordsOf, hread]
  exact C05_records_roundtrip rs hsize

/-- C41. Whatever the crash point while a log is written, the log files found afterwards are exactly the previous ones, or
the previous ones with this log completely written (replacing an older log of the same time block); and a completely written
log is read back as exactly the appended records. Partial: for writes that reach the disk in the order they are issued,
`C41_unordered_writes_violated`. -/
theorem C41_crash_atomic_partial (d : Dir) (rs : List Bytes) (t : Int64) (n : Nat)
    (hsize : Spec.logBytes (Spec.logged rs) < 2 ^ 32) :
    let after := crashAfter d (writeLogOps (Writer.new.appendAll rs) t) n
    after.logs = d.logs ∨
    ∃ content, after.logs = d.logs.filter (·.1 ≠ t) ++ [(t, content)] ∧ recordsOf content = (Spec.logged rs, .done) := by
  intro after
  by_cases h0 : (Writer.new.appendAll rs).logSize = 0
  · left
    show (crashAfter d (writeLogOps _ t) n).logs = d.logs
    simp [writeLogOps, h0, crashAfter]
  · have hops : writeLogOps (Writer.new.appendAll rs) t = putOps ⟨1, t, (Writer.new.appendAll rs).count,
        (Writer.new.appendAll rs).logSize⟩ (Writer.new.appendAll rs).buffer := by simp [writeLogOps, h0]
    have hafter : after = crashAfter d (putOps ⟨1, t, (Writer.new.appendAll rs).count,
        (Writer.new.appendAll rs).logSize⟩ (Writer.new.appendAll rs).buffer) n := by
      show crashAfter d (writeLogOps _ t) n = _
      rw [hops]
    rcases crash_putOps d ⟨1, t, (Writer.new.appendAll rs).count, (Writer.new.appendAll rs).logSize⟩
      (Writer.new.appendAll rs).buffer n with h | ⟨part, _, h⟩ | h
    · left; rw [hafter, h]
    · left
      rw [hafter, h, Dir.logs_append, Dir.logs_remove_tmp]
      simp [Dir.logs]
    · right
      refine ⟨_, ?_, recordsOf_written rs t hsize⟩
      rw [hafter, h, Dir.logs_append, Dir.logs_remove_log, Dir.logs_remove_tmp]
      simp [Dir.logs]

/-- And if no crash happens the second case is reached: the log is there. -/
theorem C41_completed (d : Dir) (rs : List Bytes) (t : Int64) (hne : Spec.logged rs ≠ [])
    (hsize : Spec.logBytes (Spec.logged rs) < 2 ^ 32) :
    ∃ n content, (crashAfter d (writeLogOps (Writer.new.appendAll rs) t) n).logs =
        d.logs.filter (·.1 ≠ t) ++ [(t, content)] ∧ recordsOf content = (Spec.logged rs, .done) := by
  have h3 := (appendAll_eq Writer.new rs).2.2
  have hframes := Spec.logBytes_frames (Spec.logged rs)
  have h0 : ¬ (Writer.new.appendAll rs).logSize = 0 := by
    intro h
    have h' : (Writer.new.appendAll rs).logSize.toNat = 0 := by rw [h]; rfl
    rw [h3] at h'
    simp only [Writer.new, UInt32.zero_add] at h'
    rw [UInt32.toNat_ofNat'] at h'
    have h'' : ((Spec.logged rs).flatMap frame).length % 2 ^ 32 = 0 := h'
    have hc := count_le_frames (Spec.logged rs)
    have : (Spec.logged rs).length = 0 := by omega
    exact hne (List.eq_nil_of_length_eq_zero this)
  refine ⟨(writeLogOps (Writer.new.appendAll rs) t).length, _, ?_, recordsOf_written rs t hsize⟩
  have hops : writeLogOps (Writer.new.appendAll rs) t = putOps ⟨1, t, (Writer.new.appendAll rs).count,
        (Writer.new.appendAll rs).logSize⟩ (Writer.new.appendAll rs).buffer := by simp [writeLogOps, h0]
  rw [crashAfter, List.take_length, hops]
  simp only [putOps, List.foldl_append, List.foldl_cons, List.foldl_nil]
  have : d.apply (.create (.tmp t)) = d.remove (.tmp t) ++ [(.tmp t, [])] := rfl
  rw [this, foldl_appendBytes]
  simp only [Dir.apply, Dir.find_append_self, Dir.remove_append_self, List.nil_append]
  rw [Dir.logs_append, Dir.logs_remove_log, Dir.logs_remove_tmp]
  simp [Dir.logs]

/-- An existing log 7, a crash after 9 effects while log 8 is written: log 7 is still the only log. -/
example : (crashAfter [(.log 7, [9])] (writeLogOps (Writer.new.appendAll [[1, 2], [3]]) 8) 9).logs = [(7, [9])] := by
  decide

/-- C41 needs writes to reach the disk before the rename: `put` never calls fsync (wal/file.go:85-96). If the rename is
durable while the tail of the data is not, the reader hands out a record with zeroed bytes and reports a normal end. -/
theorem C41_unordered_writes_violated :
    ∃ (rs : List Bytes) (t : Int64) (torn : Bytes),
      torn <+: (LogInfo.mk 1 t (Writer.new.appendAll rs).count (Writer.new.appendAll rs).logSize).marshal ++
        (Writer.new.appendAll rs).buffer ∧
      recordsOf torn = ([[1, 0, 0]], .done) ∧ Spec.logged rs = [[1, 2, 3]] := by
  refine ⟨[[1, 2, 3]], 5, (LogInfo.mk 1 5 1 7).marshal ++ [7, 0, 0, 0, 1], ⟨[2, 3], by decide⟩, by decide, by decide⟩

/-- C43. Releasing one log removes exactly that log: every other log keeps its content and place. -/
theorem C43_release_exact (d : Dir) (t : Int64) :
    (signalLogApplied d t).logs = d.logs.filter (·.1 ≠ t) :=
  Dir.logs_remove_log d t

/-- Releasing also leaves temporary and damaged files alone. -/
theorem C43_release_only_logs (d : Dir) (t : Int64) (n : Name) (c : Bytes) (hn : n ≠ .log t) :
    (n, c) ∈ signalLogApplied d t ↔ (n, c) ∈ d := by
  simp [signalLogApplied, Dir.remove, hn]

theorem Dir_all_eq (d : Dir) : d.all = d.logs.map (·.1) := by
  simp only [Dir.all, Dir.logs, List.map_filterMap]
  congr 1
  funext p
  rcases p.1 with t | t | t <;> rfl

/-- Resetting removes every log (`WAL.Reset`, and opening with the reset flag). -/
theorem C43_reset_clears (d : Dir) : (resetLogs d).logs = [] := by
  have key : ∀ (ts : List Int64) (d : Dir), (ts.foldl signalLogApplied d).logs = d.logs.filter (fun p => p.1 ∉ ts) := by
    intro ts
    induction ts with
    | nil => intro d; exact (List.filter_eq_self.mpr (by simp)).symm
    | cons t ts ih =>
      intro d
      rw [List.foldl_cons, ih, C43_release_exact, List.filter_filter]
      apply List.filter_congr
      intro p _
      simp [Bool.and_comm]
  rw [resetLogs, key, Dir_all_eq, List.filter_eq_nil_iff]
  intro p hp
  simp only [decide_eq_true_eq]
  exact fun h => h (List.mem_map_of_mem hp)

example : (signalLogApplied [(.log 7, [9]), (.log 8, [1]), (.tmp 7, [])] 7).logs = [(8, [1])] := by decide

end Verif
