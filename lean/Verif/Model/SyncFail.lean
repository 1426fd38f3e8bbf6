import Verif.Model.Par

/-!
# A sync that meets a topic the trie does not know

`Db.sync` has no result when the callback of the sync stops with an error. Here the error is that of db_sync.go:266: a message is in
the in-memory store, but its topic is not in the trie yet, since the put that stored it has not got there (db.go:366-383).
-/

namespace Verif

/-- db_sync.go:264-276 up to the first topic the trie does not know; `true` if there is none. `none`: another error or a panic. -/
def appendWinsTo (now : Int64) (file : Bytes) : List (UInt64 × List WinEntry) → Trie → WinWriter → Option (Trie × Bool)
  | [], t, _ => some (t, true)
  | (h, es) :: rest, t, w =>
    match t.getOffset h with
    | none => some (t, false)
    | some off => (w.append file now h off.toInt es).bind fun x => appendWinsTo now file rest (t.setOffset ⟨h, Int64.ofInt x.2⟩) x.1

/-- db_sync.go:217-276 for a block whose callback stops at such a topic, then 107-124 `abort` and 91-105 `reset`. Nothing was
written to a file since the last `reset`: truncating the files to the sizes then (block_writer.go:317-322, time_window_writer.go:214-218)
changes nothing, and the entries to be rolled back are not in the files. The offsets set in the trie stay. `decount` is called with the
number of messages appended, which were not counted. Modelled for an empty free list: then no space was taken from it that is to be given back. -/
def Db.syncStop (e : SyncEnv) (s : Db) (h : Handle) (t : Int) : Option Db :=
  if s.store.lease.all ≠ [] then none
  else
    (s.mem.blockRecs t).bind fun rs =>
    (appendNew s.store h.w rs).bind fun x =>
    (appendWinsTo e.now s.winFile (e.order (groupWin x.2.2)) s.trie h.ww).bind fun y =>
    if y.2 then none
    else some { s with trie := y.1, count := s.count - UInt64.ofNat x.2.2.length, lastSync := upperSeq (rs.map (·.2)) }

/-- memdb/db.go:259-286 with the callback: the first error ends the iteration. -/
def Db.trySyncBlocks (e : SyncEnv) : List Int → Db → Handle → Option Db
  | [], s, _ => some s
  | t :: ts, s, h =>
    match s.syncBlock e h t with
    | some x => Db.trySyncBlocks e ts x.1 x.2
    | none => s.syncStop e h t

/-- db_sync.go:212-303 `Sync`. After `abort` the last line finds `upperSeq` zero and returns no error. -/
def Db.trySync (e : SyncEnv) (s : Db) : Option (Db × DOut) :=
  if s.closed then some (s, .hang)
  else if s.lastSync = s.seq then some (s, .ok)
  else
    (newBlockWriter s.store).bind fun w =>
    (Db.trySyncBlocks e (s.mem.mark.timeRefs s.mem.cur) s ⟨w, newWindowWriter s.winFile⟩).map fun s => (s, .ok)

theorem Db.trySyncBlocks_eq {e : SyncEnv} (ts : List Int) : ∀ {s : Db} {h : Handle} {x : Db × Handle}, s.syncBlocks e ts h = some x →
    s.trySyncBlocks e ts h = some x.1 := by
  induction ts with
  | nil => intro s h x hx; cases hx; rfl
  | cons t ts ih =>
    intro s h x hx
    rw [Db.syncBlocks, Option.bind_eq_some_iff] at hx
    obtain ⟨y, h1, h2⟩ := hx
    simp only [Db.trySyncBlocks, h1]
    exact ih h2

/-- A sync that meets no error is `Db.sync`. -/
theorem Db.trySync_eq {e : SyncEnv} {s : Db} {x : Db × DOut} (h : s.sync e = some x) : s.trySync e = some x := by
  unfold Db.sync at h
  unfold Db.trySync
  split
  · next hc => rw [if_pos hc] at h; exact h
  · next hc =>
    rw [if_neg hc] at h
    split
    · next hl => rw [if_pos hl] at h; exact h
    · next hl =>
      rw [if_neg hl] at h
      simp only [Option.bind_eq_bind, Option.bind_eq_some_iff] at h
      obtain ⟨w, h1, y, h2, h3⟩ := h
      cases h3
      rw [h1, Option.bind_some, Db.trySyncBlocks_eq _ h2]
      rfl

end Verif
