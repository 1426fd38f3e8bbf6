import Verif.Model.Codec

/-!
# Write-ahead log: record framing, log files, crash points

Modelled: wal/writer.go `append`/`writeLog`, wal/reader.go `Iterator`/`Next`, wal/file.go `put`/`read`/`all`/`del`/`reset`.

Simplifications: file names are the parsed `timeID` plus extension (`FormatInt`/`ParseInt` are inverse);
`bpool.Buffer.Slice(a, b)` fails unless `a ≤ b ≤ size`; I/O errors other than short reads do not occur.
-/

namespace Verif.Wal

open Verif

/-- wal/writer.go:29-43, the fields that reach the log. -/
structure Writer where
  count : UInt32
  buffer : Bytes
  logSize : UInt32
deriving Repr

def Writer.new : Writer := ⟨0, [], 0⟩

/-- wal/writer.go:60-81 `append`: empty data is ignored; otherwise a 4 byte length (which includes itself) and the data. -/
def Writer.append (w : Writer) (data : Bytes) : Writer :=
  if data.length = 0 then w
  else
    let dataLen := UInt32.ofNat (data.length + 4)
    { count := w.count + 1
      buffer := w.buffer ++ put32 dataLen ++ data
      logSize := w.logSize + dataLen }

def Writer.appendAll (w : Writer) (rs : List Bytes) : Writer := rs.foldl Writer.append w

/-- Outcome of `Reader.Next`. -/
inductive Next where
  | done
  | record (data : Bytes) (off : Nat) (count : Nat)
  | err
  | panic
deriving DecidableEq, Repr

/-- wal/reader.go:80-93 `Next` at offset `off` with `count` entries left. A failing first slice makes
`binary.LittleEndian.Uint32(nil)` panic. -/
def next (buf : Bytes) (off count : Nat) : Next :=
  if count = 0 then .done
  else
    match get32 buf off with
    | none => .panic
    | some dataLen =>
      match slice? buf (off + 4) (off + dataLen.toNat) with
      | none => .err
      | some d => .record d (off + dataLen.toNat) (count - 1)

/-- How a log ends when the reader is called until it stops. -/
inductive End where
  | done
  | err
  | panic
deriving DecidableEq, Repr

/-- Calling `Next` until it stops, as memdb/recovery.go:101-108 does; `count` bounds the number of calls. -/
def readFrom (buf : Bytes) : (count : Nat) → (off : Nat) → List Bytes × End
  | 0, _ => ([], .done)
  | count + 1, off =>
    match next buf off (count + 1) with
    | .done => ([], .done)
    | .record d off' _ => let (ds, e) := readFrom buf count off'; (d :: ds, e)
    | .err => ([], .err)
    | .panic => ([], .panic)

/-! ## Log directory -/

/-- Names in the log directory (wal/file.go:222-235). -/
inductive Name where
  | log (timeID : Int64)
  | tmp (timeID : Int64)
  | corrupt (timeID : Int64)
deriving DecidableEq, Repr

/-- The directory, oldest modification first (`all` sorts by modification time, wal/file.go:180-182). -/
abbrev Dir := List (Name × Bytes)

def Dir.find (d : Dir) (n : Name) : Option Bytes := (d.find? (·.1 = n)).map (·.2)
def Dir.remove (d : Dir) (n : Name) : Dir := d.filter (·.1 ≠ n)

/-- File system effects of `put`, one byte at a time. -/
inductive FsOp where
  | create (n : Name)
  | appendByte (n : Name) (b : UInt8)
  | rename (src dst : Name)
  | delete (n : Name)
deriving DecidableEq, Repr

/-- Effect of one operation: creating truncates, appending changes the newest version, renaming replaces atomically. -/
def Dir.apply (d : Dir) : FsOp → Dir
  | .create n => d.remove n ++ [(n, [])]
  | .appendByte n b =>
    match d.find n with
    | some c => d.remove n ++ [(n, c ++ [b])]
    | none => d
  | .rename s t =>
    match d.find s with
    | some c => (d.remove s).remove t ++ [(t, c)]
    | none => d
  | .delete n => d.remove n

/-- wal/file.go:70-105 `put`: create the temporary file, write the 18 byte header, write the data, rename. -/
def putOps (info : LogInfo) (data : Bytes) : List FsOp :=
  [.create (.tmp info.timeID)] ++ (info.marshal ++ data).map (.appendByte (.tmp info.timeID)) ++
    [.rename (.tmp info.timeID) (.log info.timeID)]

/-- The directory after a crash that lets only the first `n` effects through. -/
def crashAfter (d : Dir) (ops : List FsOp) (n : Nat) : Dir := (ops.take n).foldl Dir.apply d

/-- wal/file.go:161-196 `all`: the time ids of the `.log` files in modification order. -/
def Dir.all (d : Dir) : List Int64 :=
  d.filterMap fun p => match p.1 with
    | .log t => some t
    | _ => none

/-- The log files themselves. -/
def Dir.logs (d : Dir) : List (Int64 × Bytes) :=
  d.filterMap fun p => match p.1 with
    | .log t => some (t, p.2)
    | _ => none

/-- wal/file.go:107-159 `read` of an existing log: header, then a buffer of `size` bytes, filled as far as the file goes.
The second component says whether the log was found damaged and renamed. -/
def readLog (content : Bytes) : LogInfo × Bytes × Bool :=
  let zero : LogInfo := ⟨0, 0, 0, 0⟩
  if content.length < logHeaderSize then (zero, [], true)
  else
    match LogInfo.unmarshal (content.take logHeaderSize) with
    | none => (zero, [], true)
    | some info =>
      let body := content.drop logHeaderSize
      if body.length < info.size.toNat then
        (info, body ++ List.replicate (info.size.toNat - body.length) 0, true)
      else (info, body.take info.size.toNat, false)

/-- The records recovery obtains from one log file. -/
def recordsOf (content : Bytes) : List Bytes × End :=
  let (info, buf, _) := readLog content
  readFrom buf info.count.toNat 0

/-- wal/writer.go:98-124 `writeLog` and wal/wal.go:112-118 `put`: nothing is written for an empty log. -/
def writeLogOps (w : Writer) (timeID : Int64) : List FsOp :=
  if w.logSize = 0 then [] else putOps ⟨1, timeID, w.count, w.logSize⟩ w.buffer

/-- wal/wal.go:121-133 `SignalLogApplied` → wal/file.go:198-213 `del`. -/
def signalLogApplied (d : Dir) (timeID : Int64) : Dir := d.remove (.log timeID)

/-- wal/file.go:216-220 `reset`. -/
def resetLogs (d : Dir) : Dir := d.all.foldl signalLogApplied d

/-! ## Lemmas on framing -/

/-- Bytes of one framed record. -/
def frame (data : Bytes) : Bytes := put32 (UInt32.ofNat (data.length + 4)) ++ data

theorem appendAll_eq (w : Writer) (rs : List Bytes) :
    (w.appendAll rs).buffer = w.buffer ++ (rs.filter (·.length ≠ 0)).flatMap frame ∧
    (w.appendAll rs).count = w.count + UInt32.ofNat (rs.filter (·.length ≠ 0)).length ∧
    (w.appendAll rs).logSize = w.logSize + UInt32.ofNat ((rs.filter (·.length ≠ 0)).flatMap frame).length := by
  induction rs generalizing w with
  | nil => simp [Writer.appendAll]
  | cons r rs ih =>
    have hstep : w.appendAll (r :: rs) = (w.append r).appendAll rs := rfl
    rw [hstep]
    obtain ⟨h1, h2, h3⟩ := ih (w.append r)
    by_cases hr : r.length = 0
    · have : w.append r = w := by simp [Writer.append, hr]
      rw [this] at h1 h2 h3 ⊢
      have hf : (r :: rs).filter (·.length ≠ 0) = rs.filter (·.length ≠ 0) :=
        List.filter_cons_of_neg (by simpa using hr)
      rw [hf]; exact ⟨h1, h2, h3⟩
    · have hf : (r :: rs).filter (·.length ≠ 0) = r :: rs.filter (·.length ≠ 0) :=
        List.filter_cons_of_pos (by simpa using hr)
      rw [hf]
      have hb : (w.append r).buffer = w.buffer ++ frame r := by simp [Writer.append, hr, frame]
      have hc : (w.append r).count = w.count + 1 := by simp [Writer.append, hr]
      have hl : (w.append r).logSize = w.logSize + UInt32.ofNat (r.length + 4) := by simp [Writer.append, hr]
      rw [h1, h2, h3, hb, hc, hl]
      refine ⟨by simp [List.flatMap_cons], ?_, ?_⟩
      · simp only [List.length_cons, UInt32.ofNat_add]
        rw [UInt32.add_assoc, UInt32.add_comm 1]; rfl
      · simp only [List.flatMap_cons, List.length_append, UInt32.ofNat_add, frame, length_put32]
        rw [UInt32.add_assoc]
        congr 1
        rw [UInt32.add_comm (UInt32.ofNat 4)]

theorem next_frame (pre r z : Bytes) (count : Nat) (hc : 0 < count) (hr : r.length + 4 < 2 ^ 32) :
    next (pre ++ frame r ++ z) pre.length count = .record r (pre ++ frame r).length (count - 1) := by
  have hcne : count ≠ 0 := by omega
  have hn : (UInt32.ofNat (r.length + 4)).toNat = r.length + 4 := by
    rw [UInt32.toNat_ofNat']; omega
  have hg : get32 (pre ++ frame r ++ z) pre.length = some (UInt32.ofNat (r.length + 4)) := by
    have := get32_mid pre (UInt32.ofNat (r.length + 4)) (r ++ z) pre.length rfl
    simpa [frame] using this
  have hs : slice? (pre ++ frame r ++ z) (pre.length + 4) (pre.length + (r.length + 4)) = some r := by
    have := slice?_mid (pre ++ put32 (UInt32.ofNat (r.length + 4))) r z (pre.length + 4) (pre.length + (r.length + 4))
      (by simp) (by simp; omega)
    simpa [frame] using this
  simp only [next, hcne, if_false, hg, hn, hs]
  congr 1
  simp [frame]; omega

theorem readFrom_frames (pre : Bytes) (rs : List Bytes) (z : Bytes) (h : ∀ r ∈ rs, r.length + 4 < 2 ^ 32) :
    readFrom (pre ++ rs.flatMap frame ++ z) rs.length pre.length = (rs, .done) := by
  induction rs generalizing pre with
  | nil => rfl
  | cons r rs ih =>
    have h1 := next_frame pre r (rs.flatMap frame ++ z) (rs.length + 1) (by omega) (h r (List.mem_cons_self ..))
    have h2 := ih (pre ++ frame r) (fun x hx => h x (List.mem_cons_of_mem _ hx))
    have e : pre ++ List.flatMap frame (r :: rs) ++ z = pre ++ frame r ++ (rs.flatMap frame ++ z) := by
      simp [List.flatMap_cons]
    rw [e]
    rw [List.append_assoc (pre ++ frame r)] at h2
    simp only [List.length_cons, readFrom, h1, h2]

theorem frame_length_le (r : Bytes) (rs : List Bytes) (h : r ∈ rs) :
    r.length + 4 ≤ (rs.flatMap frame).length := by
  induction rs with
  | nil => cases h
  | cons x xs ih =>
    simp only [List.flatMap_cons, List.length_append]
    rcases List.mem_cons.mp h with rfl | h
    · simp [frame]; omega
    · have := ih h; omega

theorem count_le_frames (rs : List Bytes) : rs.length ≤ (rs.flatMap frame).length := by
  induction rs with
  | nil => simp
  | cons x xs ih => simp only [List.flatMap_cons, List.length_append, List.length_cons, frame, length_put32] at *; omega

/-! ## Lemmas on the directory -/

theorem Dir.find_remove_self (d : Dir) (n : Name) : (d.remove n).find n = none := by
  simp only [Dir.find, Dir.remove, Option.map_eq_none_iff, List.find?_eq_none, List.mem_filter]
  intro x hx; simpa using hx.2

theorem Dir.find_append_self (d : Dir) (n : Name) (c : Bytes) : (d.remove n ++ [(n, c)]).find n = some c := by
  have h := Dir.find_remove_self d n
  simp only [Dir.find, Option.map_eq_none_iff] at h
  simp only [Dir.find, List.find?_append, h]
  simp

theorem Dir.remove_append_self (d : Dir) (n : Name) (c : Bytes) : Dir.remove (d.remove n ++ [(n, c)]) n = d.remove n := by
  simp [Dir.remove]

theorem Dir.logs_remove_tmp (d : Dir) (t : Int64) : (d.remove (.tmp t)).logs = d.logs := by
  simp only [Dir.logs, Dir.remove, List.filterMap_filter]
  congr 1
  funext p
  cases hp : p.1 <;> simp

theorem Dir.logs_remove_log (d : Dir) (t : Int64) : (d.remove (.log t)).logs = d.logs.filter (·.1 ≠ t) := by
  simp only [Dir.logs, Dir.remove, List.filterMap_filter, List.filter_filterMap]
  congr 1
  funext p
  rcases hp : p.1 with t' | t' | t' <;> simp [Option.filter]

theorem Dir.logs_append (d e : Dir) : Dir.logs (d ++ e) = d.logs ++ e.logs := by
  simp [Dir.logs]

theorem foldl_appendBytes (d : Dir) (n : Name) (c bs : Bytes) :
    (bs.map (FsOp.appendByte n)).foldl Dir.apply (d.remove n ++ [(n, c)]) = d.remove n ++ [(n, c ++ bs)] := by
  induction bs generalizing c with
  | nil => simp
  | cons b bs ih =>
    simp only [List.map_cons, List.foldl_cons, Dir.apply, Dir.find_append_self, Dir.remove_append_self]
    rw [ih]; simp

/-- Every state a crash can leave while `put` runs. -/
theorem crash_putOps (d : Dir) (info : LogInfo) (data : Bytes) (n : Nat) :
    let t := info.timeID
    crashAfter d (putOps info data) n = d ∨
    (∃ part, part <+: info.marshal ++ data ∧ crashAfter d (putOps info data) n = d.remove (.tmp t) ++ [(.tmp t, part)]) ∨
    crashAfter d (putOps info data) n = (d.remove (.tmp t)).remove (.log t) ++ [(.log t, info.marshal ++ data)] := by
  intro t
  rcases Nat.eq_zero_or_pos n with h0 | h0
  · subst h0; left; rfl
  · right
    have hops : putOps info data = .create (.tmp t) ::
        ((info.marshal ++ data).map (.appendByte (.tmp t)) ++ [.rename (.tmp t) (.log t)]) := rfl
    obtain ⟨m, rfl⟩ : ∃ m, n = m + 1 := ⟨n - 1, by omega⟩
    by_cases hm : m ≤ (info.marshal ++ data).length
    · left
      refine ⟨(info.marshal ++ data).take m, List.take_prefix .., ?_⟩
      have htake : List.take (m + 1) (putOps info data) =
          .create (.tmp t) :: ((info.marshal ++ data).take m).map (.appendByte (.tmp t)) := by
        rw [hops, List.take_succ_cons, List.take_append_of_le_length (by simpa using hm), List.map_take]
      rw [crashAfter, htake, List.foldl_cons]
      have : d.apply (.create (.tmp t)) = d.remove (.tmp t) ++ [(.tmp t, [])] := rfl
      rw [this, foldl_appendBytes]
      simp
    · right
      have htake : List.take (m + 1) (putOps info data) = putOps info data := by
        apply List.take_of_length_le
        rw [hops]
        simp only [List.length_cons, List.length_append, List.length_map, List.length_nil] at *
        omega
      rw [crashAfter, htake, hops, List.foldl_cons, List.foldl_append]
      have : d.apply (.create (.tmp t)) = d.remove (.tmp t) ++ [(.tmp t, [])] := rfl
      rw [this, foldl_appendBytes]
      simp only [List.foldl_cons, List.foldl_nil, Dir.apply, Dir.find_append_self, Dir.remove_append_self, List.nil_append]

end Verif.Wal
