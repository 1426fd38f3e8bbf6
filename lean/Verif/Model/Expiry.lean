import Verif.Model.Db

/-!
# The background expirer

expiry_window.go, db_sync.go:148-161, 306-328. A Get that comes across an expired entry files it in an expiry window; once a minute the
expirer takes the entries of windows that are over and frees the space of their messages. All of it only with
`WithBackgroundKeyExpiry`.
-/

namespace Verif

/-- db_internal.go:48 `maxExpDur`: the number of shards the expirer looks at. -/
def maxExpDur : Nat := 1

/-- expiry_window.go:73-77 `getWindows`: the shard of an expiry second. `InitConsistent(100000, 100000)` has no removed block, so
`FindBlock` stops at its first pick, cut to 16 bits. -/
def expShard (t : UInt32) : Nat := (Flea.init t.toUInt64).pick 100000

/-- expiry_window.go:133: the second truncated to the minute, plus one minute. -/
def expTime (t : UInt32) : Int := ((t.toNat / 60 * 60 + 60 : Nat) : Int)

/-- expiry_window.go:48-56 `_ExpiryWindowBucket`; the maps of all shards in one, by shard and window time. -/
structure ExpBucket where
  on : Bool
  windows : AMap (Nat × Int) (List WinEntry) := []
  earliest : Int := 0

namespace ExpBucket

/-- The window of an entry. -/
def keyOf (e : WinEntry) : Nat × Int := (expShard e.expiresAt, expTime e.expiresAt)

/-- expiry_window.go:129-148 `addExpiry`; `earliestExpiryHash` is set only if it is 0. -/
def add (b : ExpBucket) (e : WinEntry) : ExpBucket :=
  if b.on then
    { b with
      earliest := if b.earliest = 0 then expTime e.expiresAt else b.earliest
      windows := b.windows.set (keyOf e) ((b.windows.get (keyOf e)).getD [] ++ [e]) }
  else b

/-- expiry_window.go:106-123, the windows of one shard, earliest first. -/
def takeWindows (now : UInt32) (max : Int) (i : Nat) : List Int → AMap (Nat × Int) (List WinEntry) → List WinEntry →
    AMap (Nat × Int) (List WinEntry) × List WinEntry
  | [], m, acc => (m, acc)
  | t :: ts, m, acc =>
    if t > now.toNat ∨ (acc.length : Int) > max then (m, acc)
    else
      let es := (m.get (i, t)).getD []
      let out := es.filter fun e => e.expiresAt < now
      takeWindows now max i ts (if out.length = es.length then m.del (i, t) else m) (acc ++ out)

/-- The window times of a shard, in ascending order (expiry_window.go:101-105). -/
def times (m : AMap (Nat × Int) (List WinEntry)) (i : Nat) : List Int :=
  ((m.keys.filter fun k => k.1 = i).map (·.2)).insertionSort (· ≤ ·)

/-- expiry_window.go:96-124, the shards one after the other. -/
def takeShards (now : UInt32) (max : Int) : List Nat → AMap (Nat × Int) (List WinEntry) → List WinEntry →
    AMap (Nat × Int) (List WinEntry) × List WinEntry
  | [], m, acc => (m, acc)
  | i :: is, m, acc =>
    let r := takeWindows now max i (times m i) m acc
    takeShards now max is r.1 r.2

/-- expiry_window.go:85-126 `getExpiredEntries`. -/
def take (b : ExpBucket) (now : UInt32) (max : Int) : ExpBucket × List WinEntry :=
  if b.on then
    if b.earliest > now.toNat then (b, [])
    else
      let r := takeShards now max (List.range maxExpDur) b.windows []
      ({ b with windows := r.1, earliest := 0 }, r.2)
  else (b, [])

end ExpBucket

/-! ## The expired entries a Get comes across -/

/-- The entries of a list that are expired. -/
def dead (now : UInt32) (es : List WinEntry) : List WinEntry := es.filter fun e => e.isExpired now

/-- time_window.go:225-252, as `ilookupLoop`. -/
def ilookupDead (now : UInt32) (limit : Int) : List (List WinEntry) → (l : Int) → List WinEntry
  | [], _ => []
  | es :: rest, l =>
    if es.length > 0 then
      let l := limit - l
      let l : Int := if (es.length : Int) < l then es.length else l
      dead now (es.reverse.take l.toNat) ++ ilookupDead now limit rest l
    else ilookupDead now limit rest l

/-- time_window.go:283-322, as `lookupBlock`. -/
def lookupBlockDead (now : UInt32) (hash : UInt64) (b : WinBlock) (acc : List WinEntry) (limit : Int) : List WinEntry :=
  if b.topicHash ≠ hash then []
  else
    let es := (b.entries.take b.entryIdx.toNat).reverse
    if (acc.length : Int) > limit - b.entryIdx.toNat then
      let limit := limit - acc.length
      let part := es.take limit.toNat
      if ((acc ++ live now part).length : Int) ≥ limit then dead now part else dead now part ++ dead now es
    else dead now es

/-- time_window.go:266-281, as `lookupChain`. -/
def lookupChainDead (now : UInt32) (file : Bytes) (hash : UInt64) (cutoff : Int) :
    (fuel : Nat) → (off : Int) → List WinEntry → (limit : Int) → List WinEntry
  | 0, _, _, _ => []
  | fuel + 1, off, acc, limit =>
    match readWindowBlock file off with
    | none => []
    | some b =>
      lookupBlockDead now hash b acc limit ++
        match lookupBlock now hash cutoff b acc limit with
        | .panic => []
        | .stop _ => []
        | .next acc limit => if b.next = 0 then [] else lookupChainDead now file hash cutoff fuel b.next.toInt acc limit

/-- time_window.go:257-330, as `windowLookup`. -/
def windowLookupDead (now : UInt32) (lists : List (List WinEntry)) (file : Bytes) (hash : UInt64) (off cutoff limit : Int) : List WinEntry :=
  let acc := ilookup now lists limit
  ilookupDead now limit lists 0 ++
    if (acc.length : Int) ≥ limit then [] else lookupChainDead now file hash cutoff (file.length / blockSize + 1) off acc limit

/-- db_internal.go:217-234, as `dbLookup`. -/
def dbLookupDead (now : UInt32) (lists : UInt64 → List (List WinEntry)) (file : Bytes) (cutoff limit : Int) :
    List (UInt64 × Int) → List UInt64 → List WinEntry
  | [], _ => []
  | (hash, off) :: ts, cands =>
    if (cands.length : Int) > limit then []
    else
      windowLookupDead now (lists hash) file hash off cutoff (limit - cands.length) ++
        match windowLookup now (lists hash) file hash off cutoff (limit - cands.length) with
        | none => []
        | some es => dbLookupDead now lists file cutoff limit ts (cands ++ es.map (·.seq))

/-- The expired entries of a Get, as `Db.get`. -/
def Db.getDead (v : DbEnv) (g : GetEnv) (s : Db) (q : Query) (old : List UInt64) : List WinEntry :=
  if s.closed then []
  else if q.topic.length = 0 then []
  else if q.topic.length > 65536 then []
  else
    let a := q.ask v.dur g.now v.q
    let (t, ty) := parseTopic a.contract q.topic
    let topics := (g.orderTopics (s.trie.lookup t.parts t.depth ty)).map fun t => (t.hash, t.offset.toInt)
    dbLookupDead (toU32 (unixSec g.now)) (winLists g.orderWin s.win) s.winFile a.cutoff a.limit topics old

/-! ## The database with its expiry windows -/

structure XDb where
  db : Db
  exp : ExpBucket

/-- db_sync.go:313-325, the loop of `expireEntries`: an entry that cannot be read ends it. `none` is a panic: a message of size 0. -/
def Db.expireAll : List WinEntry → Db → Option (Db × DOut)
  | [], s => some (s, .ok)
  | we :: rest, s =>
    match readEntry s.store.index we.seq with
    | .error _ => some (s, .err .io)
    | .ok e => (s.store.lease.free e.msgOffset.toInt e.mSize.toNat).bind fun l =>
        Db.expireAll rest { s with store := { s.store with lease := l }, count := s.count - 1 }

/-- db_sync.go:306-328 `expireEntries` at the second `now`; on a closed database the expirer is stopped. -/
def XDb.expire (v : DbEnv) (now : UInt32) (x : XDb) : Option (XDb × DOut) :=
  if x.db.closed then some (x, .ok)
  else
    let r := x.exp.take now v.q.default
    (x.db.expireAll r.2).map fun y => (⟨y.1, r.1⟩, y.2)

/-- db.go:222-319 `Get`, with what it files for the expirer. -/
def XDb.get (v : DbEnv) (g : GetEnv) (x : XDb) (q : Query) (old : List UInt64) : XDb × DGet :=
  let r := x.db.get v g q old
  (⟨r.1, (x.db.getDead v g q old).foldl ExpBucket.add x.exp⟩, r.2)

end Verif
