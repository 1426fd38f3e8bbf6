import Verif.Props.DbLife

/-!
# C33, C69, C74: what does not hold

Concrete histories with a crash or a restart that break the claims.
-/

namespace Verif

/-- A history, a crash, the database opened again at the time id `now`, and another history. -/
def toyTwice (ops : List DbOp) (now : Int) (ops' : List DbOp) : Option (Db × List DbRes) :=
  (toyRun ops).bind fun x => (toyOpen {} now x.1.disk).bind fun s => s.run .toy ops'

/-- C69 is false if sequences were handed out after the last write of the header: after the crash the next put uses the sequence of a
message that was recovered. A Get then returns the new message in place of the old one as well; after the next Sync the new message is lost,
and the database counts two messages. -/
theorem C69_reused_violated : (toyTwice [toyPut [98] 1, .write 5001 5000, .rotate 6000, .sync .toy, toyPut [97] 2, .write 6001 6000] 9000
      [.get .toy (newQuery [97]) [], toyPut [97] 3, .get .toy (newQuery [97]) [], .write 9001 9000, .rotate 10000, .sync .toy, .get .toy (newQuery [97]) []]).map
      (fun x => (x.2.map Spec.outcome, x.1.count)) =
    some ([.got (.out (.ok [[2, 2, 2, 2]])), .out .ok, .got (.out (.ok [[3, 3, 3, 3], [3, 3, 3, 3]])), .done, .done, .out .ok,
      .got (.out (.ok [[2, 2, 2, 2]]))], 2) := by decide +kernel

/-- C69 is false for a crash in the middle of a Sync, which makes a Get return a message twice: the window file is written before the index (db_sync.go:182-190). The message
is still in the log; recovery stores it and adds it to the window of its topic a second time. -/
theorem C69_mid_sync_violated : ((toyRun [toyPut [97] 1, toyPut [98] 2, .write 5001 5000, .rotate 6000, .sync .toy, toyPut [97] 3, .write 6001 6000, .rotate 7000]).bind
      fun x => (x.1.sync .toy).bind fun y =>
        (toyOpen {} 9000 { x.1.disk with index := extendIndex x.1.store.index x.1.seq, win := y.1.winFile }).map fun s =>
          ((s.get .toy .toy (newQuery [97]) []).2, s.count)) =
    some (.out (.ok [[3, 3, 3, 3], [3, 3, 3, 3], [1, 1, 1, 1]]), 3) := by decide +kernel

/-- C33 is false for an id from `NewID` that is used after a later message: sequence 2 is handed out, a message for topic `a` is put, then
another with sequence 2. Only the first carries the topic, but the Sync sorts by sequence, so the window of the topic starts with the other. After a
clean restart the topic is not known, and neither message is found. Topic `c`, whose window comes after, is found. -/
theorem C33_older_id_violated : ((toyRun [toyPut [98] 1, .write 5001 5000, .rotate 6000, .sync .toy, .newId toyNow, toyPut [97] 3,
      .put toyNow { topic := [97], payload := [2, 2, 2, 2], id := some (newID 1600000000 2) }, .get .toy (newQuery [97]) [],
      .write 6001 6000, .rotate 7000, .sync .toy, toyPut [99] 4, .write 7001 7000, .rotate 8000, .sync .toy]).bind fun x =>
        (toyOpen {} 9000 (x.1.close 8001).1.disk).map fun s =>
        ((x.2.map Spec.outcome).drop 7, (s.get .toy .toy (newQuery [97]) []).2, (s.get .toy .toy (newQuery [99]) []).2, s.count)) =
    some ([.got (.out (.ok [[3, 3, 3, 3], [2, 2, 2, 2]])), .done, .done, .out .ok, .out .ok, .done, .done, .out .ok], .out (.ok []),
      .out (.ok [[4, 4, 4, 4]]), 4) := by decide +kernel

/-- C74 is false right after an open: a log whose time id is that of the current time block is recovered into that block, which is given
back after recovery. Until the next tiny log every put is refused. -/
theorem C74_after_open_violated : (toyTwice [toyPut [98] 1, .write 5001 5000, .rotate 6000, .sync .toy, toyPut [97] 2, .write 6001 6000] 6000
      [toyPut [97] 3, .rotate 6000, toyPut [97] 3]).map (fun x => x.2.map Spec.outcome) = some [.out (.err .forbidden), .done, .out .ok] := by decide +kernel

end Verif
