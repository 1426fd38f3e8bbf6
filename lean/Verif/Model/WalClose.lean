import Verif.Base.Bytes

/-!
# The log while it is used and closed

wal/wal.go, wal/writer.go and wal/file.go:64-105, 198-213 as seen by goroutines that write logs, release them and close the log at the same time. The bytes of
a file are in `Verif.Model.Wal`; here a file is the list of entries appended to it. A caller waits for the answer to an Append before the next call, and
signals a writer once, as memdb/db_internal.go:279-289 does. Errors of the file system are left out, and so is a log of 4 GB (`logSize` is a uint32).
-/

namespace Verif

namespace WalUse

/-- wal/writer.go:29-43. -/
inductive Phase where
  | open
  | signalled (t : Nat)
  | told
deriving DecidableEq, Repr

structure W where
  phase : Phase
  data : List Bytes
deriving DecidableEq, Repr

/-- What callers are told: a log was written, could not be written, was released; a writer was refused; Close is done, or was called again. -/
inductive Out where
  | wrote (t : Nat) (c : List Bytes)
  | failed (t : Nat)
  | freed (t : Nat)
  | refused
  | closed
  | again
deriving DecidableEq, Repr

/-- wal/wal.go:44-60, file.go:33-37; `files` are the logs in the directory, `outs` the answers, newest first. -/
structure State where
  closing : Bool
  opened : Bool
  wg : Nat
  ws : List W
  files : Nat → Option (List Bytes)
  outs : List Out

/-- wal/wal.go:71-89 on an empty directory. -/
def State.init : State := ⟨false, true, 0, [], fun _ => none, []⟩

inductive Act where
  | writer
  | append (i : Nat) (d : Bytes)
  | signal (i t : Nat)
  | write (i : Nat)
  | applied (t : Nat)
  | close
  | closeEnd
deriving DecidableEq, Repr

/-- wal/writer.go:65-74: an entry takes four bytes more than its data. -/
def W.size (w : W) : Nat := (w.data.map fun d => d.length + 4).sum

/-- One step; `none` when it is not possible. -/
def step (s : State) : Act → Option State
  | .writer => -- wal/writer.go:46-58
    if s.closing then some { s with outs := .refused :: s.outs }
    else some { s with ws := s.ws ++ [⟨.open, []⟩] }
  | .append i d => -- wal/writer.go:60-95
    match s.ws[i]? with
    | some ⟨.open, c⟩ => some { s with ws := s.ws.set i ⟨.open, if d.length = 0 then c else c ++ [d]⟩ }
    | _ => none
  | .signal i t => -- wal/writer.go:129-142
    match s.ws[i]? with
    | some ⟨.open, c⟩ => some { s with ws := s.ws.set i ⟨.signalled t, c⟩, wg := s.wg + 1 }
    | _ => none
  | .write i => -- wal/writer.go:98-124, wal.go:112-118, file.go:70-105
    match s.ws[i]? with
    | some ⟨.signalled t, c⟩ =>
      let s' := { s with ws := s.ws.set i ⟨.told, c⟩, wg := s.wg - 1 }
      if W.size ⟨.told, c⟩ = 0 then some { s' with outs := .wrote t c :: s.outs }
      else if s.opened then some { s' with files := fun u => if u = t then some c else s.files u, outs := .wrote t c :: s.outs }
      else some { s' with outs := .failed t :: s.outs }
    | _ => none
  | .applied t => -- wal/wal.go:121-133, file.go:198-213
    some { s with files := fun u => if u = t ∧ s.opened then none else s.files u, outs := .freed t :: s.outs }
  | .close => -- wal/wal.go:98-101, 141-146
    if s.closing then some { s with outs := .again :: s.outs } else some { s with closing := true }
  | .closeEnd => -- wal/wal.go:104-109, file.go:64-68
    if s.closing ∧ s.opened ∧ s.wg = 0 then some { s with opened := false, outs := .closed :: s.outs } else none

def run : List Act → State → Option State
  | [], s => some s
  | a :: as, s => (step s a).bind (run as)

end WalUse

end Verif
