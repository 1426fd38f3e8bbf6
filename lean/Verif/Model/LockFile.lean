/-!
# The lock file of a database directory

`Open` begins by taking an advisory lock on the file `unitdb.lock` of the directory and `Close` ends by giving it back.
Both take several system calls, and between them the other programs that use the directory may do theirs.
The model has one step per system call:

* `OpenFile` with `O_CREATE` yields the file the name stands for, and makes a new one if there is none;
* `Flock` with `LOCK_NB` locks the FILE, not the name: it fails while another descriptor of the same file holds the lock;
* `Remove` takes the name away; descriptors of the file and its lock stay as they are;
* closing the descriptor, or the end of the program, gives the lock back.

Files are numbered in the order they are made.
Only the Unix version (file_unix.go) is modelled.
-/

namespace Verif

/-- Where one call of `Open`, and the database it returns, has got to. -/
inductive LPhase where
  /-- The lock file is open but not locked yet (file_unix.go:50-54). -/
  | opening (file : Nat)
  /-- `Open` has the lock: the database is in use (db.go:61-210). -/
  | inUse (file : Nat)
  /-- `Close` has removed the name but not closed the descriptor (file_unix.go:32-35). -/
  | removed (file : Nat)
  /-- `Close` could not remove the name and returned the error: the descriptor stays open (file_unix.go:32-34). -/
  | stuck (file : Nat)
  /-- `Open` returned an error after it got the lock: the descriptor is nobody's (db.go:69-186). -/
  | dropped (file : Nat)
  /-- `Open` returned `errLocked` (db.go:62-66, file_unix.go:54-57). -/
  | refused
  /-- The descriptor is closed: by `Close`, by the end of the program or by the garbage collector. -/
  | over
  deriving DecidableEq, Repr

/-- The file whose lock a descriptor in this phase holds. -/
def LPhase.locks : LPhase → Option Nat
  | .inUse i | .removed i | .stuck i | .dropped i => some i
  | .opening _ | .refused | .over => none

/-- A directory: the file the name `unitdb.lock` stands for, how many files were made, and the calls of `Open` so far. -/
structure LockDir where
  name : Option Nat
  made : Nat
  calls : List LPhase
  deriving DecidableEq, Repr

/-- A directory before the first `Open`. -/
def LockDir.new : LockDir := ⟨none, 0, []⟩

/-- Whether a descriptor holds the lock of this file. -/
def LockDir.locked (d : LockDir) (i : Nat) : Bool := d.calls.any fun c => c.locks == some i

/-- The system calls; the number is the call of `Open`, counted from 0. -/
inductive LStep where
  /-- A new `Open` opens the lock file. -/
  | openFile
  /-- `Open` asks for the lock. -/
  | flock (p : Nat)
  /-- `Open`, with the lock, meets an error and returns it. -/
  | fail (p : Nat)
  /-- `Close` removes the name. -/
  | remove (p : Nat)
  /-- `Close` closes the descriptor. -/
  | close (p : Nat)
  /-- The program ends without `Close`. -/
  | crash (p : Nat)
  /-- The garbage collector closes a descriptor nobody has. -/
  | collect (p : Nat)
  deriving DecidableEq, Repr

/-- `os.OpenFile(name, os.O_RDWR|os.O_CREATE, 0666)` in `newLockFile` (file_unix.go:49-53). -/
def LockDir.openFile (d : LockDir) : LockDir :=
  match d.name with
  | some i => { d with calls := d.calls ++ [.opening i] }
  | none => ⟨some d.made, d.made + 1, d.calls ++ [.opening d.made]⟩

/-- `lockFile` and what `newLockFile` and `Open` make of its result (file_unix.go:39-47 and 54-58, db.go:61-67). -/
def LockDir.flock (d : LockDir) (p : Nat) : LockDir :=
  match d.calls[p]? with
  | some (.opening i) =>
    if d.locked i then { d with calls := d.calls.set p .refused } else { d with calls := d.calls.set p (.inUse i) }
  | _ => d

/-- `Open` returns an error after `createLockFile` (db.go:69-186): no path unlocks. -/
def LockDir.fail (d : LockDir) (p : Nat) : LockDir :=
  match d.calls[p]? with
  | some (.inUse i) => { d with calls := d.calls.set p (.dropped i) }
  | _ => d

/-- `os.Remove(fl.name)` in `unlock` (file_unix.go:31-34): it removes the name whatever file it stands for. -/
def LockDir.remove (d : LockDir) (p : Nat) : LockDir :=
  match d.calls[p]? with
  | some (.inUse i) =>
    match d.name with
    | some _ => ⟨none, d.made, d.calls.set p (.removed i)⟩
    | none => { d with calls := d.calls.set p (.stuck i) }
  | _ => d

/-- `fl.f.Close()` in `unlock` (file_unix.go:35). -/
def LockDir.close (d : LockDir) (p : Nat) : LockDir :=
  match d.calls[p]? with
  | some (.removed _) => { d with calls := d.calls.set p .over }
  | _ => d

/-- The program ends: the kernel closes its descriptors, the file stays. -/
def LockDir.crash (d : LockDir) (p : Nat) : LockDir :=
  match d.calls[p]? with
  | some _ => { d with calls := d.calls.set p .over }
  | none => d

/-- The finalizer of the `os.File` of a descriptor nobody has. -/
def LockDir.collect (d : LockDir) (p : Nat) : LockDir :=
  match d.calls[p]? with
  | some (.dropped _) => { d with calls := d.calls.set p .over }
  | _ => d

/-- One system call. -/
def LockDir.step (d : LockDir) : LStep → LockDir
  | .openFile => d.openFile
  | .flock p => d.flock p
  | .fail p => d.fail p
  | .remove p => d.remove p
  | .close p => d.close p
  | .crash p => d.crash p
  | .collect p => d.collect p

/-- Several, one after the other. -/
def LockDir.run (d : LockDir) : List LStep → LockDir
  | [] => d
  | st :: rest => (d.step st).run rest

theorem LockDir.run_append (d : LockDir) (l k : List LStep) : d.run (l ++ k) = (d.run l).run k := by
  induction l generalizing d with
  | nil => rfl
  | cons a l ih => exact ih _

/-- A call of `Open` with nothing in between, on a directory with `n` earlier calls. -/
def LockDir.openNow (d : LockDir) : LockDir := (d.openFile).flock d.calls.length

/-- A call of `Close` with nothing in between. -/
def LockDir.closeNow (d : LockDir) (p : Nat) : LockDir := (d.remove p).close p

end Verif
