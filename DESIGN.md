# Formal model of unit-io/unitdb in Lean 4

The Go source in /repo is read as text; it is neither built nor run here. This file says how each property is modelled and
proved, what the results are, where the code does not do what one would expect, and what has to be trusted.

## 1. How the model is laid out

| Directory | Content |
|-----------|---------|
| `lean/Verif/Base` | bytes (little-endian integers, slices), finite maps |
| `lean/Verif/Model` | definitions that follow the Go functions one by one, each citing file and lines, and lemmas about them |
| `lean/Verif/Spec` | small specifications that do not use the model's helpers (`Spec.…` names in the property files are of the same kind) |
| `lean/Verif/Props` | the property theorems `Cnn_…`, each next to an `example` that meets its hypotheses |

Conventions:

* **Machine integers are machine integers.** `UInt8/16/32/64` and `Int64` wrap as in Go. Where the model uses `Nat` or `Int` for
  a machine integer, the file says why nothing can wrap, or a theorem bounds the values.
* **A Go panic is a value.** A slice out of range, a nil map, a failed assertion is `none` or a constructor `panic`, so "does not
  crash" is a statement and not an assumption. A call that never returns is `hang`, `deadlock`, `loops` or `running`.
* **Loops are structural or take fuel**, and a theorem says that the fuel suffices (`C22_ends`, `C39_get_terminates`, …).
* **Everything the program does not decide is a parameter that theorems quantify over**: the clock, map iteration order, slice
  capacity, random keys, message loss and delay, crash points, the bytes found in a recycled buffer.
* **Names of theorems.** `Cnn_x` proves (part of) the statement of Cnn; `Cnn_x_partial` proves it under restrictions, listed in
  section 3; `Cnn_x_violated` proves that the code does *not* have the property, with a concrete reachable witness or for
  all inputs.

### Modules and what they cover

| Module | Go code | Simplifications |
|--------|---------|-----------------|
| `Codec` | db_info.go, block.go, time_window_block.go, entry.go, wal/log.go: fixed layouts | float/`Buffer` plumbing left out |
| `Address` | block.go:47-56 | the floating point division is replaced by the integer quotient, justified by `C11_float_exact` |
| `BlockRange`, `BlockFile`, `File` | block_writer.go:183-289, file.go | `os.File` is a byte list |
| `Engine`, `EngineInv`, `EngineLemmas`, `EngineSync` | block_writer.go, block_reader.go, db_sync.go | I/O errors other than short reads do not occur; `bpool` buffer is an append-only list |
| `Lease` | leasing.go | offsets are integers, sizes naturals (they only shrink) |
| `Hash`, `Consistent`, `Bloom` | hash/*.go, filter/*.go, filter.go | random keys are a parameter |
| `Message`, `TopicParse`, `TopicLemmas` | message/id.go, uid/uid.go, message/topic.go | bytes instead of runes (all separators are ASCII) |
| `Trie`, `TrieLemmas`, `TrieOffsets`, `TopicLookup` | trie.go | node order is insertion order; theorems speak about sets |
| `Par`, `ParInv` | db.go:346-387, memdb/db.go:367-391 | one step each: parse, pack and draw the sequence, read the time id, look up the block, store and add to the filter, list in the time window, add to the trie |
| `Delivery`, `DeliveryInv` | server/internal/conn.go, hdl_conn.go, store/store.go: CONNECT to DISCONNECT of one server | one packet is one step, unitdb an ideal table, no cluster; a packet put on a channel counts as sent; messages given to the batch manager end there (C58) |
| `Tables` | store/store.go:34, 130-181, db/unitdb/adapter.go | unitdb is an ideal table of records |
| `Sniff` | server/internal/net/listener/listener.go `serve`, `stream`, the matchers | no deadlines; a matcher ends; the other matchers of the file (unused) are covered by the quantifier over matchers |
| `Cluster` | server/internal/cluster.go `Master`, `routeToContract`, `connGone`, `rpcWriteLoop`; conn.go `subscribe`, `unsubscribe`, `publish` with a cluster | all nodes have one ring and are connected; a call returns before the next packet; only the first node a connection was forwarded to is kept; the order of what two nodes send to a client is not represented; the signal to close sent to a connection of the node's own is ignored |
| `Sample` | metrics/sample.go and server/internal/pkg/metrics/sample.go but for `hMean` and `stdDev` | ranks in integers instead of float64 (the same for samples of up to 50); the count does not wrap |
| `Stats` | server/internal/pkg/stats `transport`, the lines and their tags | one send loop; texts of numbers are given; a queue that is full for an instant although the loop is about to take a packet counts as full |
| `Proto` | server/proto/unitdb.proto, all of server/utp, server/internal/net/message.go `Read` | the wire format and the errors of the protobuf library (v1.5.2), which is not in the repository, are modelled as they are known, not from its source; unknown groups may be nested to any depth; memory suffices for every length |
| `Front` | server/internal/hdl_conn.go `readLoop`, `handler`, `writeLoop`, net/message.go `Encode` | all bytes of a client are there from the beginning; packets of batch managers are left out |
| `Failover` | server/internal/cluster_leader.go `failoverInit`, `sendPings`, `run`, cluster.go `rehash`, `call` | elections are won or lost as a parameter says (`Election` models them); any ping may be dropped; heartbeats have no times |
| `MemForget` | memdb/db.go:179-256 (the query cache), time_mark.go, db_sync.go:163-207 | the definitions are those of `MemDb` and `Db`; here: no operation but Get looks at the cache, and what a Get through a cache with blocks given back returns |
| `WindowDates`, `DbSince` | time_window_writer.go:112-114, time_window.go:67-69, 320, message/id.go `EvalPrefix` | the definitions are those of `WindowWriter`, `TimeWindow` and `Db`; these modules hold the invariants about dates |
| `MsgStore` | server/internal/store/store.go:130-181, server/internal/db/unitdb/adapter.go:131-174 | nil and empty payloads are not told apart |
| `Whole` | server/internal/conn.go:180-311, 389-424 and server/internal/hdl_conn.go:83-486 on `Delivery` and `MsgStore` | no cluster; publishes run one after the other; relay requests are looked up in the database |
| `Registry` | server/internal/pkg/metrics/metrics.go:57-133, counter.go:32-94 and the `GetOrRegister` functions of the other kinds | metrics are made lazily; values of gauges and series are not modelled (samples are in `Sample`) |
| `ConnId` | server/internal/pkg/uid/uid.go:30-36, 50-53, connid.go:26-29 | times as integers; the monotonic clock is dropped by `UTC().Round` as in Go |
| `Full` | `Front` on `Whole`: server/internal/hdl_conn.go:45-381 with the database | as `Front` and `Whole`; the time to live of a message is that of the environment of the call |
| `Reuse` | what Get leaves in its Query: db.go:222-246, query.go:90-123, db_internal.go:217-234 | one object is used by one goroutine |
| `Rollback` | abort and rollback of the block writer: block_writer.go:147-154, 291-322, db_sync.go:91-124, 212-303 | the rollback of index and window blocks is left out: it only changes blocks in memory that nothing writes any more; errors of the files are not modelled |
| `Busy` (in `Props`) | db.go:222-268, block_reader.go:60-91 between the steps of `EngineSync` and of expiry | the writes of one time block are one step |
| `Issue` | server/internal/hdl_conn.go:510-588, server/internal/types/types.go:55-97, clientid.go:152-163 | JSON of requests and answers is left out; the hash model gives the constants 2682859131 and 812942072 of hdl_conn.go:41-42 for "clientid" and "keygen" (`C105_words`) |
| `ShardPath` | hash/consistent.go:84-146 | as `Consistent` |
| `WalName` | wal/file.go:161-196, 222-235, and strconv.FormatInt and ParseInt in base 10 | the order of files by modification time is that of the list, as in `Wal` |
| `Link` | server/internal/cluster.go:136-186, 209-250, 559-570, 598-600 | steps between synchronisation points; reads and writes of one field are atomic; `net/rpc` answers or fails each call once |
| `Uptime` | meter.go:118-139 (also memdb/meter.go:91-112, server/internal/monitor.go:95-116) | `fmt.Sprintf("%d")` is the decimal text |
| `MuxListen` | server/internal/net/listener/listener.go:150-307 | which server matches is free; the default error handler; channels as one list in the order of sends, of which a server sees its own part |
| `Teardown` | server/internal/conn.go:248-291, 389-465, hdl_conn.go:44-77, 273-310 | steps between synchronisation points; `SendRawBytes` (conn.go:160-178), batches and the context of the service are left out |
| `MemLocks` | memdb/db.go:125-438, db_internal.go:105-338, batch.go:39-130, tiny_log.go:122-239 | the locks only; the data, the locks of other packages and the queues of the log are left out; that an offset in a block is not the time of a block is assumed (db.go:345) |
| `WalClose` | wal/wal.go:98-159, writer.go:46-142, file.go:64-105, 198-213 | a file is its list of entries; a write is one step since it holds the lock of the log; errors of the file system are left out |
| `DbLocks` | the lock actions of db.go:222-477, db_internal.go:123-343, db_sync.go:212-328, batch.go:71-257, trie.go:117-210, time_window.go:155-328, expiry_window.go:73-148, leasing.go:159-210, file.go:211-248 | only locks; data, queues and channels other than `syncLockC` and `writeLockC` are left out |
| `MapUse` | the accesses to maps in trie.go:110-211, time_window.go:168-328, expiry_window.go:85-148, leasing.go:126-206, memdb/db.go:125-391, memdb/db_internal.go:131-338, memdb/batch.go:59-80, memdb/time_mark.go, with their locks | only locks and accesses; all nodes of the trie count as one map; locks that guard none of these maps are left out (more interleavings) |
| `ServerMaps` | the accesses to maps in server/internal/conn_cache.go, message/messageids.go, message/sub.go, batch.go:46-153, conn.go:126-312, cluster.go:377-440, with their locks | as `MapUse`; the nodes of the cluster and the routing tables do not change while the server listens and are left out |
| `SyncFail` | db_sync.go:91-124, 212-303 | a Sync that stops at an unknown topic, for an empty free list |
| `LockFile` | file_unix.go:26-59, file.go:110-117, db.go:61-67 | one step per system call; file_windows.go left out |
| `LogQueue` | memdb/tiny_log.go, memdb/db_internal.go:259-312, memdb/batch.go:83-94 | channels are bounded lists; what a Sync takes away meanwhile is left out |
| `TrieRace`, `TrieRaceInv` | trie.go:117-153, mutex.go | the steps of one add are the lock, one read or write of a node's children each, the summary, the unlock; Go's memory model is sequential consistency here |
| `TimeWindow`, `WindowWriter`, `WindowInv`, `WindowHist`, `Reopen` | time_window.go, time_window_writer.go, time_window_reader.go, loadTrie | rollback after an I/O error not modelled |
| `Get`, `GetLemmas`, `Query` | db.go:222-319, query.go, entry.go TTL | `time.ParseDuration` is a parameter |
| `MemBlock`, `MemDb`, `MemDbInv`, `MemWhere`, `MemRecovery` | memdb/*.go | one operation at a time; blocks are pointers into a heap, so stale pointers are visible |
| `Wal` | wal/*.go | file names are parsed ids; crash model: any prefix of the file operations |
| `Db`, `DbLemmas`, `DbLookup`, `DbInv`, `DbSteps`, `DbSyncStep`, `DbBatch`, `DbBatchInv`, `DbReopen`, `MemReopen`, `DbRecover`, `DbOpen`, `DbLog`, `MemRecoverOk`, `DbTrack` | db.go, db_internal.go, db_sync.go, recovery.go, batch.go, entry.go | one operation at a time, composed of the models above; see the list of assumptions in section 5 |
| `Mac`, `TextId`, `Credentials` | crypto/mac.go, encoding/*.go, server uid/security/types, request checks of hdl_conn.go | the cipher is a parameter |
| `Varint`, `Wire`, `StreamConn` | server/utp, server/internal/net/message.go, server/common/conn.go and server/internal/net/hdl_grpc_web.go:140-217 (the same code) | the header codec is a parameter; `C63_protobuf` shows that the protobuf headers of `Proto` meet its conditions |
| `ServerState` | messageids.go, sub.go, store.go, sessions of hdl_conn.go, resume of conn.go | the adapter below the message log is an ideal map |
| `Patricia`, `Ring`, `Election`, `Batching` | listener/patricia.go, ringhash.go, cluster_leader.go, batch.go | goroutines are steps between their synchronisation points, interleaved in every order |

## 2. Plan per property

*Shape*: RT = round trip; INV = invariant by induction over histories; REF = refinement to a simple specification; DEC = decision
logic (exact characterisation); NEG = refutation.

| Id | What is modelled | How it is proved | Shape |
|----|------------------|------------------|-------|
| C01 | `_DBInfo` Marshal/Unmarshal | little-endian lemmas | RT |
| C02 | same | the flag byte is overwritten and the reader looks at the version byte; refuted for every header | NEG, DEC |
| C03 | `_IndexBlock`, 255 entries, 16-bit relative sequences | under the writer's invariant | RT |
| C04 | `_WindowBlock`, 335 entries | | RT |
| C05 | log header, record framing, reader loop | induction over the records | RT |
| C06 | record built by setEntry, readMessage/readTopic with 16-bit sums | topic sizes up to 65526; witness above | RT, NEG |
| C07 | `message.ID`, `uid` | field laws over UInt32/UInt64 | RT |
| C08 | `Topic.Marshal/Unmarshal` | induction over parts | RT |
| C09 | base8/base32 | bit regrouping of five bytes | RT |
| C10 | free-list codec | induction; a block at offset 0 is dropped | RT |
| C11 | blockIndex, blockOffset with int32 wrap | arithmetic; witness at block 2^19 | DEC, NEG |
| C12 | blockRange as the scan it is | induction over the sorted list | DEC |
| C13 | fleaInit, fleaRound, FastMod, FindBlock | range lemma and measure | DEC |
| C14 | Anchor arrays A, K, W, L, R, N | invariant over Remove/Add histories | INV |
| C15, C16 | trie | refinement to a list of topics plus a match relation (`Spec/Topic.lean`) | REF, NEG |
| C17 | GetHash | xor collision witness; what can clash | NEG, DEC |
| C18, C20, C21, C22, C24 | the Get loop over candidates and any store | loop invariant; termination measure | INV, NEG |
| C19 | entry flags over calls | state machine | INV, NEG |
| C23, C25 | timeWindow ilookup/lookup | induction over windows | INV, NEG |
| C26, C27 | Query.parse, TTL | case analysis, arithmetic | DEC, NEG |
| C28, C29, C30 | block writer, data file, index file on bytes | invariant over histories of syncs, expiries, reopenings | INV, NEG |
| C31 | free list: free, allocate, defrag | invariant; defrag refuted | INV, NEG |
| C32, C33 (files) | window writer and reader, chains on file | invariant; ledger of what was appended | INV, NEG |
| C34–C38 | the database as a whole (`Db`) | invariants over histories (`DbInv`), witnesses | INV, NEG |
| C39, C40, C42 | in-memory store, recovery from logs | refinement to a map (`MInv`, `RecInv`) | REF, NEG |
| C41, C43 | files of the log, all crash points | case analysis over prefixes of the file operations | INV |
| C44 | batch functions of memdb and of the database | state machine; every failing managed batch panics | NEG, DEC |
| C45 | bloom filter over words | monotonicity of set bits | INV, NEG |
| C46, C59 | MAC over an abstract AEAD | | RT, NEG |
| C47 | hash.New unrolled, shuffle | equality with a fold over a permutation | REF |
| C48, C49, C63 | varint, stream connection, packets | round trips, stream refinement | RT, REF |
| C50 | MessageIds | history invariant; deadlock witness | INV, NEG |
| C51, C52, C60, C61, C62 | client id, security key, request checks | round trips, bit laws, exact verdicts | RT, DEC, NEG |
| C53, C64 | subscription counters and the stored subscriptions | refinement to counters; histories | REF, NEG |
| C54, C67 | vote/elect transition system | invariant over all schedules; restart refuted | INV, NEG |
| C55 | ring hash | order independence, minimal movement | DEC |
| C56 | patricia tree | refinement to "some prefix matches" | REF |
| C57, C65, C66 | store keys, sessions | bit laws, histories of connects | DEC, NEG |
| C58 | batch manager, two goroutines | history invariant; dropped batches refuted | INV, NEG |
| C68, C70 | stories: any list of puts, syncs, gets, rotations (deletes) on a fresh database | `DbInv` is kept by every step; Get equals a specification that filters the list of puts | REF, NEG |
| C69 | crash and Open of the whole database | `SagaInv`: `DbInv` and what the logs on disk hold (`Track`) are kept by every step, restart and crash | REF, NEG |
| C33, C34, C74 | databases through restarts (`Spec.Saga`) | same invariant | REF, NEG |
| C76, C77 | expiry windows, what a Get files, expireEntries | what is filed equals what is taken plus what waits; `DbInv` for what is filed | INV, NEG |
| C78 | `trie.add` as separate reads and writes of nodes on a heap, run by many goroutines | invariant over all schedules (`RaceInv`), then the sequential trie's exact lookup | REF, NEG |
| C79 | PutEntry in seven steps, many of them at once | invariant over all schedules (`ParInv`): the database is in `DbInv` up to what the puts under way hold; a burst is one step of a story, so C34, C68, C70 and C72 cover bursts too | REF, NEG |
| C83 | every packet of every connection of one server (`Srv.step`) | refinement to a book of subscriptions (`Spec.Desk`), then what one publish sends as a function of the book | REF, NEG |
| C84 | same | invariant `SrvOk`, kept by each packet | INV, NEG |
| C85 | same | invariant of the book: subscriptions are of clients on the roll, with their contract | INV, NEG |
| C86 | the two stores over one table | refinement to two tables | REF, NEG |
| C87 | the wrapped connection as a state, matchers as trees of reads | the wrapped connection is at each moment a connection that yields the same bytes (`SniffStream.view`) | INV, REF, NEG |
| C88 | several servers of `Delivery` with forwarding between them | a step of the cluster at the owner is a step of that server; other nodes keep their state | INV, NEG |
| C89 | the array of durations as a list, events add and reset | the array is a rotation of the last durations (`SampleHas`) | INV, DEC, NEG |
| C90 | buffer, queue and socket as lists of bytes, events line, tick, take, close | an account of packets: lists of lines with their fate (`Spec.Account`) | INV, NEG |
| C91 | the proto3 encoding of all packets | fields before and after, read by number (`Pb.Parses`) | RT, DEC, NEG |
| C92 | `Read` on any bytes, a panic as an outcome | no length in bytes without four top bits in a row is negative (`Spec.Quiet`) | INV, NEG |
| C93 | as C91, what the decoder had read before an error stays | cuts and junk of the bytes of any packet | DEC, NEG |
| C94 | `readLoop` over all bytes of a client, `handler`, `writeLoop` with its channels in any order | what is sent has topics that are UTF-8 (`Fair`), through every packet; the server of bytes is the server of packets | REF, INV, RT, NEG |
| C95 | the loop `run` of every node with the pings between them; calls that are answered, refused or break | counts and lists from the calls seen, rings from the pings accepted, in every order of events; a leader and a node that never agree | INV, NEG |
| C96 | histories with the second of every message; the dates of window blocks through append, write, sync | no block with a date holds a later message, nor does an earlier block of its topic; so what a lookup with a cutoff leaves out is too old | INV, REF |
| C97 | the calls of the stores as puts and queries of the database; histories of the server | each such history is one of C96, its messages those of the contracts; the contract of a subscription is told from that of a message | REF |
| C98 | the server of C83 with every call to its stores made to the database; the calls are kept in a list | what the database holds agrees with the table of the server after every packet, for every list of calls that C97 covers | REF |
| C99 | requests in two steps and atomic additions, in any order | invariant: whatever was given out under a name is what the map has, and its value is the sum under that name | INV |
| C100 | starts of processes as times in nanoseconds, the low 32 bits of a duration, ids counted up from there | when two runs of consecutive numbers modulo 2^32 meet; a restart of the whole server as witness | DEC |
| C101 | the byte level of C94 on the server and database of C98 | each turn of a reader is a turn of the server of C94 with the answers of the database; C94 then applies | REF |
| C102 | programs that give one query object to Get again and again | what a Get leaves in its query asks the same at any time (the limit is resolved once); induction on the program; four witnesses | INV |
| C103 | the files and the free list of C28, with syncs that stop | space noted since the last round stays apart from the stored records; giving it back restores the invariant of C28 | INV |
| C104 | steps of syncs and expiries between the two reads of a Get | records keep their place; invariant of C28 for what is on disk, in every state of a sync | INV |
| C105 | the answers to requests for client ids and keys | C51 and C52 for what is given out; bits of the flags as sets of letters; the hash of three equal characters does not depend on the salt | DEC |
| C106 | GetPath and FindPreviousBlock on the tables of C13 | the loops with a path next to those without, step by step; removed shards by the invariant of C13 | INV, REF |
| C107 | names of log files as texts | decimal digits are read back, by induction over the number; refinement to the parsed names of C41 | RT, REF |
| C108 | goroutines of `reconnect` and `callAsync` as counters, interleaved | invariant: number of goroutines, flags, latest connection | INV |
| C109 | the text of `uptime` as bytes | a reader of such texts, induction on digits, arithmetic | FUN |
| C110 | goroutines of the shared listener, interleaved | invariant: every connection counted once over all places; a measure that falls with every step after the port failed | INV |
| C111 | reader, writer, closers and publishers of a connection, interleaved | invariant; a trap of states for the one that stays; paths to the end from all others | INV, NEG |
| C112 | goroutines as lists of lock operations, read-write locks with waiting writers | an order of the locks, kept by every operation; measure for the end | INV, NEG |
| C113 | writers, releases and Close of the log, interleaved, with the answers given | invariant that relates the directory to the answers | INV, NEG |
| C114 | operations of the database as lists of lock actions, on top of those of the in-memory store | an order of all locks; who waits, waits for one further up | INV, NEG |
| C115 | reads and writes of the Go maps between the locks around them, any number of goroutines | who writes a map holds its lock alone; every program keeps the map guarded | INV, NEG |
| C116 | the maps of the server on the machine of C115 | who writes a map holds its lock alone; every program keeps the map guarded | INV, NEG |
| C80 | Sync with the errors of its callback | the restart invariant `SagaInv`, with the last synced sequence below all that wait | INV, NEG |
| C81 | the system calls on the lock file, by any number of programs | invariant over all orders of the calls | INV, NEG |
| C82 | the three goroutines of the log and their channels | invariant over all schedules; measure for the end of Close | INV, NEG |
| C75 | size checks of Put, Get, Delete, batches | exact characterisation | DEC |
| C72 | batches inside stories | `BatchInv`: the database as if the batch's block were the current one, plus the records in the buffer | REF, NEG |
| C73 | batch deletes | case analysis; record round trip | DEC, NEG |
| C71 | PutEntry | exact characterisation of the panics | DEC, NEG |

## 3. Results: where the code does not have the property

Each line is a theorem. The `partial` theorem next to it says what holds instead. The restrictions in a `partial` theorem are those
without which a `violated` theorem applies, unless section 4 lists them as a gap.

**Files and codecs**
* C02: the header reader takes the encryption flag from the version byte; every database reopens encrypted.
* C06, C28: a topic of 13106 levels has a 16-bit size of zero; its messages cannot be read back.
* C11: the index offset is a 32-bit product; from block 2^19 (134 million messages) it is negative.
* C10: a free block at offset 0 is dropped by a reopen.
* C31: merging neighbouring free blocks leaves both the merged and the old block in the list; the range is given out twice.
* C30: an entry that expires twice is freed twice; deleting a synced entry frees the range at offset −1, after which the next
  allocation of that size goes to a bogus place and live data is overwritten.
* C32, C68: the topic whose window block is at offset 0 (the first one synced) starts a new chain at each sync, since offset 0 means
  "no block"; older messages become unreachable.
* C33: after a reopen only the last block of a chain without a next link is found: with more than 335 messages the newest are lost.
* C45: the filter file of a session is never the one consulted later.
* C23: a query object used again returns messages that have expired since its first use.
* C41 needs writes to reach the disk in order; the code never calls fsync (`fs.sync` iterates over a nil map).

**Queries**
* C15, C17: the topic hash is an exclusive-or, so `a.b` and `b.a` clash; the second cannot be found.
* C16: a stored topic that begins with a star is not found.
* C19: a reused entry object keeps its first topic.
* C21: an expired message among the newest makes a block's entries appear twice; a reused Query keeps its candidates; unsynced
  messages of one topic in two time blocks are taken in map order; of several matching topics the limit is filled from the one with
  the largest window offset.
* C22: Get slices beyond the capacity of its candidates and panics (three time blocks and a last-duration query).
* C25: an expired entry uses up a slot of the limit.
* C24: `last=-5` in a topic is neither a number nor a duration: only messages of the current second are returned (C24_last_negative).
* C26, C27: the configured maximum and default are not applied on some paths; a TTL in plain seconds means nanoseconds.

**Life of a database**
* C34: unsynced messages are not counted; deleting a missing message decrements the count.
* C35: the deleted index entry is never written, so synced messages come back.
* C37: after Close, Sync waits for ever and DeleteEntry panics; NewID still hands out numbers (C38).
* C38: after a crash, sequences handed out since the last header write are handed out again.
* C39, C42: putting a key again after a rotation brings back old values after a delete; tombstones disappear with their block.
* C44: a managed batch whose function fails panics, and what it wrote stays visible; a batch the caller aborts after a write leaves entries
  whose Get fails.
* C72: an error inside `Write` (a full buffer) is dropped: the commit succeeds and messages are lost.
* C73: `Delete` on a batch always panics: the empty payload is too short for the encryption that is always on (C02).
* C68: a Sync after a Get makes the next Get read a recycled buffer (the query cache is never cleared); a put in the same second
  as a committed batch makes every Get of its topic fail, since the batch's time block is newer than the current one.
* C69: nothing is recovered from the log before the first sync; a deleted first message takes its topic with it; recovery can make
  Open panic; sequences handed out after the last header write are handed out again after a crash, and a recovered message and a new one
  then share one; a crash between the window file and the index file of a Sync makes a Get return the message twice.
* C33: a message put with an id that is older than its topic's first message hides the topic after a restart.
* C74: after an Open in the second of a recovered log all puts are refused until the next tiny log.
* C70: a delete of an unsynced message in a topic hides others; a delete of a synced one corrupts later syncs (C30).
* C76: the expirer does not mark what it removes, so a later Get files it again: the count drops twice, and space that went to a live
  message in the meantime is freed and overwritten. C77: only the first of the 100000 shards of expiry windows is ever looked at.
* C78: the lock taken by `trie.add` is chosen by the topic's hash, so two adds run at the same time; if both find a level missing, both link
  a node and the second link hides the first: a topic that was put is found by no query, and later puts of it do not help.
* C79: a Put reads the time of the current tiny log, then the block of that time, then stores into it, without a lock around the three. If a
  Sync comes in between, the message goes into a block that is released already: the put is acknowledged, the message is lost, and every Get of
  its topic fails until a reopen (C79_lost_violated). If only the tiny log is rotated in between, Gets of the topic fail until the next Sync
  (C79_unseen_violated).
* C83: a reliable reader is told an id and fetches by it. The packet stored under the id is the publisher's whole packet, with topics the reader
  did not subscribe to and with the publisher's keys in them; the id is the publisher's choice, so that two publishers overwrite each
  other's packets; for id zero the notice names another id than the one it is stored under. A delivery mode above 2 is acknowledged
  and delivered to no one. At most 1000 subscriptions of a topic, the newest, get a message.
* C84: the client id of a connection is nil until CONNECT. A publish to `unitdb/clientid`, a subscribe with a valid key and others before
  CONNECT read its bytes and panic, in a goroutine nobody recovers. `ResumeID` marks ids as in use; if a marked id is the next one, `NextID` calls
  itself while it holds its lock, and the handler waits forever.
  A publish of a payload that the message store panics on stops the server too (`C84_put_violated`): by C71 that is any payload whose
  compressed form is shorter than four bytes once the database was opened a second time. `C84_serves_partial` assumes that the store never panics.
* C85: session ids are found under the epoch, in seconds, of the client id. Two clients whose ids were made in the same second share one
  session and fetch each other's messages, whatever their contracts.
* C86: subscriptions are stored in the same database as messages, under contract XOR 4105991048. For each contract k the messages of contract k XOR
  4105991048 are read as its subscriptions; one with less than nine bytes makes the next publish panic.
* C87: the wrapped connection keeps the error of the last read that returned bytes and returns it with every byte that is read again, so that a
  connection that returned its last bytes together with an error seems to end after the first of them.
* C88: a subscription is forwarded to the owner of the contract only if the connection holds it already (conn.go:192 tests `Has` where a new
  subscription is meant), a publish is forwarded to the owner alone, and messages the owner puts on the queue of a forwarded connection are not passed
  on (cluster.go:513-551 reads `send`, not `pub`). So readers that are not connected to the publisher's server or to the owner get nothing.
  `publish` forwards the packet once per message. `Master` looks up the connection by a number that is unique only within a server and gives it the
  client id of the request: two servers started in the same millisecond give the same numbers.
* C89: `_Sample.P50`, `Max` and the others, unlike those of a snapshot, read the array of durations as it is: unsorted, and with zeros where nothing was
  recorded yet.
* C90: `Service.Close` calls `stats.Unregister` and only then closes the store; handlers of open connections record a line per packet and panic on the
  closed queue once 1400 bytes of lines are collected. An error of the socket loses a packet that is not counted. A line longer than a packet makes an
  empty packet, which may be counted as lost.
* C91: `Disconnect.ToBinary` does not write the id. `Read` returns a ping for every header of type PINGREQ, also for the acknowledgement of one, and does
  not read its body.
* C92: `Read` calls `make` with the length of the header, an int32 that may be negative; nothing recovers the panic. Fourteen bytes stop the server.
* C93: every `FromBinary` ignores the error of `proto.Unmarshal` and goes on with the fields read before it: the first messages of a damaged publish are
  published. Ids are cut to 16 bits and delivery modes to 8.
* C94: `ParseKey` takes the length of the first non-empty field between question marks for the length of the topic, but the topic that is sent on is cut
  from the beginning of the text, with the question marks in front of that field. For `k/?é` the cut is inside the character; `Marshal` refuses
  the packet and `writeLoop` ends the connection of the reader: a publisher can disconnect the readers of a topic.
* C95: `run` rebuilds the ring from the list in a ping but does not keep the list, so a node that later becomes the leader sends the signature of
  its small ring together with the list of all nodes. A node that has come back rebuilds its ring from that list at every second ping and never
  gets the ring whose signature it is sent: it and the leader each take themselves to serve some contracts, as long as all goes well.
* C95: `call` reports an error over an open connection with `log.Fatal`, which is zerolog's and exits (we rely on zerolog's documentation; it is not
  in the repository): when a node dies, the leader that pings it, or any node that forwards a packet to it, dies with it.
* C95: `node_fail_after` is 0 if it is not configured; then every answered ping makes the leader drop all other nodes. (`heartbeat` 0 panics in `rand.Intn`
  at the start; this is not modelled.)
* C96: a full window block is dated by the clock of the sync that fills it, not by its messages. If the clock was set back in between, a lookup with a
  cutoff stops behind that block and misses messages put after the cutoff; the theorem assumes that no sync runs behind the second of a message.
* C97: a `last` that is no duration (such as `10`) gives no cutoff, and a ttl that is no duration lets the message expire at once (C27). Deleting one of
  two subscriptions to a topic before a sync makes every later fetch of the subscriptions of that topic fail, so that a message published to it
  reaches nobody; deleting one after the sync has no effect.
* C98: two clients read a topic; when one of them leaves before a sync, every later message to that topic is acknowledged and reaches nobody. A client that
  unsubscribes after a sync is sent the messages all the same.
* C99: the registry of metrics only keeps counters and gauges; each call of `GetOrRegisterTimeSeries` or `GetOrRegisterHistogram` is given a new one. The server registers
  its connections twice and its outgoing bytes never (monitor.go:54-59).
* C100: `uid.Next` is meant to be a time in milliseconds, but a duration counts nanoseconds, and its low 32 bits wrap every 4.29 s. Subscriptions of clients
  that did not leave in an orderly way stay in the database under the id of their connection; a later process gives that id to another client and delivers
  to it what the first had asked for, whatever its contract. The same holds between the nodes of a cluster, which keep connections of other nodes under their ids.
* C102: a Query keeps the candidates, the cutoff and the limit of the Get it was given to. Given to Get again, every message is returned twice; with another topic, the messages of the first topic are returned too, or messages are missed because of the cutoff of the first (`C102_again_violated`, `C102_topic_violated`, `C102_cutoff_violated`, `C102_limit_violated`). The objects can be used again as long as nothing was found (`C102_waiting_partial`).
* C103: the block writer notes the free space it uses, to give it back when the sync is aborted, but does not forget the notes when a time block is complete. When a sync stops in a later time block,
  the space of messages that are on disk is given back, and the next sync writes other messages over them: a Get then returns the payload of another message (`C103_freed_violated`).
* C104: expiry gives the space of a message back while a Get may be between reading its index entry and its bytes; when a Sync uses the space in between, the Get returns another message (`C104_expired_violated`).
* C105: nothing limits who may ask for a key (`C105_rights_violated`), and a key for "..." is the same in every contract, because its hash is that of three equal characters in any order (`C105_contract_violated`).
* C106: FindPreviousBlock writes into the slices of the hash (`C106_previous_violated`), names a wrong shard (`C106_before_violated`) and panics when nothing was removed (`C106_none_removed_violated`). Only tests call it.
* C107: `all` slices the last four bytes of every name in the directory (`C107_short_violated`) and drops the error of `ParseInt` (`C107_foreign_violated`).
* C108: `callAsync` reads `connected` and `endpoint` without the lock, so it can meet a nil endpoint (`C108_crash_violated`); a failure on an old connection closes the new one (`C108_healthy_violated`); only a goroutine that waits between attempts reads `done` (`C108_shutdown_violated`).
* C111: `publish` sends on the channel of a subscriber (conn.go:286) that `close` closes (conn.go:416) without waiting for publishers: send on a closed channel, the server ends (`C111_crash_violated`; also for a publisher that already waits, `C111_crash_waiting_violated`, and for the queue of the batches, `C111_crash_batch_violated`). `close` waits for `readLoop`, which may wait for a place in `c.send` after `writeLoop` is gone (`C111_stuck_violated`).
* C112: `Put` holds the lock of a block when `addTimeFilter` takes `db.mu` for writing (db_internal.go:163), `Keys` and `Size` hold `db.mu` when they take the locks of the blocks (db.go:126-132, 428-432): both wait for ever (`C112_keys_violated`), and with them everybody who looks into the map of blocks (`C112_all_wait_violated`). A server calls `Keys` when a client resumes its session (adapter.go:194), while others publish.
* C113: `SignalLogApplied` answers nil also when the store of files is closed and nothing was removed (file.go:202-205, wal.go:130-132), so a log reported as released after Close is read again at the next start (`C113_released_violated`).
* C114: Close takes the lock of Sync and never gives it back (db_internal.go:132), so a Sync or a round of the expirer that comes after it waits for ever (`C114_closed_violated`; the same for the syncer in C37).
* C115: `Get` of the in-memory store notes the block it found in maps of the query manager with no lock at all (memdb/db_internal.go:217-221, memdb/db.go:190-253), and the database's Get holds a lock for reading only: two Gets at the same time can end the process with "concurrent map writes" (`C115_gets_violated`). `trie.add` looks up the summary (trie.go:122) under the mutex chosen by the topic's hash only, while another `add` writes it under the lock of the trie (trie.go:146-149): two Puts of new topics at the same time can end the process with "concurrent map read and map write" (`C115_topics_violated`). Close merges free blocks and deletes from their cache without a lock (leasing.go:126-158) while a Delete that began before it may add one (`C115_close_violated`).
* C116: the publish loop of a connection ranges over its batches without the lock that `add` holds when it writes them (server/internal/batch.go:131-151, 93-109), so a batched publish can end the server with "concurrent map iteration and map write" (`C116_batches_violated`). `routeToContract` notes the node in a map of the connection without a lock (cluster.go:384-387) although every message of a packet is published by its own goroutine (hdl_conn.go:467), see `C116_nodes_violated`.
* C80: when Sync meets a topic the trie does not know (a put of another goroutine has listed its message but not yet added the topic), it
  gives up and takes its counts back, but not the window offsets it has written to the trie, and returns nil. The next Sync writes other
  topics' windows to those offsets: a Get of one topic returns another topic's message (C80_mixed_violated). A message whose explicit
  id was drawn before the last sync is skipped (C80_skipped_violated).
* C81: the lock is taken in two system calls and given back by removing the name first. A Close between the two of an Open leads to two
  databases on one directory, and the Close of the first takes away the lock file of the second. No error path of Open gives the lock back.
* C82: while 27 logs wait for the disk the next one is dropped; if it is the only one of its second, its messages are not in the log after
  Close. A failed write of the log is printed and forgotten. A batch whose log is dropped waits for ever; one that is written during Close
  sends on a closed channel.
* C71: payloads whose encoding is below four bytes, zero sequences and short ids make Put panic.

**Server**
* C52: of its own contract a key opens only topics with the hash of its own topic, unless that hashes like "..." (C52_key_opens_only). C61: an entry of the client cache is never replaced (C61_cache_stays).
* C49: a read into an empty buffer loses a message. C50: NextID deadlocks on a resumed id; 16-bit wire ids repeat.
* C56: an empty set of prefixes accepts everything. C58: batches are enqueued twice, reordered, and dropped when a channel is full.
* C59: Decrypt overwrites its input. C60: read permission is what publishing checks. C61: the client cache is keyed by four
  characters that are not checked. C62: topics of only slashes panic the handler.
* C64: two topics with one key share a counter. C65: packet ids with bit 4 are not resumed; a third connect loses the session.
* C66: clearing packets can delete a session record. C67: a restarted node votes twice in a term.

## 4. Gaps: what is not proved although it may hold

* C28, C29, C32: bounds on sizes (255·524287 sequences, 2^63 bytes of data, window files up to 2 GiB) follow from C11's overflow.
* C68 excludes messages that were in memory when a Sync came after a Get had looked there (refuted: C68_stale; they are covered by
  `C68_any_order_partial` if a buffer given back to the pool does not read as a record), topics that start with a wildcard (refuted: C16),
  topics that clash by hash (refuted: C17), and the topic synced first (refuted: C32). Queries whose limit cuts off messages are covered
  by `C21_limit_partial` for one topic, and otherwise at the level of the lookup (C21, C25), not by C68.
* C33, C34, C69, C74 through restarts: puts without explicit ids (refuted with: C33_older_id), no deletes and no batches, a crash not during a
  Sync (refuted: C69_mid_sync), and after a crash a history goes on only if the header held the last sequence (refuted: C69_reused).
* C79 has no rotation and no Sync while a put is under way (refuted: C79_unseen, C79_lost), and adding a topic to the trie is one step there.
* C80: with a non-empty free list the abort also frees the leases that earlier blocks of the same Sync took (block_writer.go:291-304); that is C103.
* C83, C84, C85: whether the message store takes, refuses or panics on a message is a function of topic and payload that the theorems quantify over
  (`SrvEnv.puts`); when it refuses one, the rest of the packet is dropped and the client is sent an error. The subscription store takes every subscription.
* C83, C84, C85: packets are handled one at a time, and the goroutines that `onPublish` starts run before the next packet. That a publish may send on the
  channel of a connection that closes meanwhile is not in these models; C111 is about that. `Delivery` keeps the subscriptions in their own table; C86 is about that.
* Concurrency: outside C54, C58, C67, C78, C79, C81, C82, C99, C108 and C110 to C116, operations of the library are atomic steps. Go's memory model is taken to be sequentially
  consistent; that the runtime may abort on a map read and written at once is in C115 and C116 only.

## 5. Trusted base

* Lean 4.33.0's kernel. No `sorry`, `native_decide`, `bv_decide` or own axiom is used. The axioms each theorem depends on are
  listed in section 7.
* The reading of the Go code into the model: each definition cites its lines, but nothing checks that reading mechanically.
* Assumptions about things outside /repo, all visible as parameters or hypotheses:
  * the AEAD opens what it sealed and adds 16 bytes (`Aead.Sound`); snappy decodes what it encoded (`decode (encode x) = some x`);
  * the protobuf library encodes and decodes as `Proto` says (`C63_protobuf`, `C83_codec` are proved of it);
  * the operating system's files behave as byte lists, writes land in order, rename is atomic;
  * `bpool`: a buffer grows by zeros, `Slice` fails out of range; a value read from the in-memory store is a copy (if it
    shares the buffer's memory, Decrypt in place rewrites the stored record: C59); the buffer of a freed block holds anything;
  * `time.ParseDuration`, the clock, `crypto/rand`, map order, slice capacity: any value.

**Modelled**: the library (package unitdb, memdb, wal, filter, hash, message, uid, crypto, encoding) except what follows, and the parts of the
server listed in section 1.

**Not modelled**: logging; the HTTP pages that show metrics (their numbers are in C89, C109 and `Registry`); command line and configuration; the
network below the listeners (what a connection matches and which server gets it is in C87 and C110, a gRPC stream is a queue of messages);
the transport of calls between nodes (the connection is in C108, the handling of calls in C88); the client library's reconnect loop;
errors of the operating system's files (`Rollback` and `SyncFail` have syncs that stop for other reasons); the background
goroutines' timing (syncer, expirer and log writer are steps that a history may contain anywhere); the state of a database after a sync
that failed in another way than in `SyncFail`, and after a recovery that failed half way (`OpenOut.unmodelled`).

## 6. Testing the theorems

`seeded/LOG.jsonl` has one line per wrong program: a definition of the model is edited in a scratch copy so that a claim becomes false,
and the build must fail. Each line names the edit, the claim it breaks, the theorems that failed and, where a theorem
had to be tightened, which one. Edits that break no claim are kept with the reason. Six edits survived and no theorem fails for them;
their lines have a note. A seventh (`DBatch.abort`) survived once and its second run gave no result. Two of them would show only on files that the database does not write, which no theorem covers: a log with a record of sequence zero
(`Writer.append`), and a header whose version is not 1 (`openDb`).

## 7. Axioms

<!-- axioms:begin -->
* **Classical.choice, Quot.sound, propext** (209): `C01_header_roundtrip`, `C02_flag_read`, `C02_flag_partial`, `C03_index_block_roundtrip`, `C04_window_block_roundtrip`, `C05_log_header_roundtrip`, `C05_records_roundtrip`, `C06_entry_header_roundtrip`, `C06_record_partial`, `C06_record_file_partial`, `C06_long_topic_violated`, `C07_id_fields`, `C07_set_contract`, `C07_ids_distinct`, `C08_topic_roundtrip`, `C09_key_text`, `C09_id_text`, `C10_free_space_survives`, `C11_float_exact`, `C11_positions_partial`, `C12_ranges_exact`, `C12_unordered_refused`, `C13_shard_exists`, `C14_removal_moves_only_its_keys`, `C15_exact_topic_found_partial`, `C16_covers_exact_partial`, `C17_reordered_levels_clash`, `C17_violated`, `C17_same_hash_partial`, `C18_contracts_isolated`, `C18_put_sets_contract`, `C19_fresh_partial`, `C19_first_topic`, `C20_at_most_limit`, `C21_limit_partial`, `C21_newest_first_partial`, `C22_no_crash_partial`, `C23_no_expired_partial`, `C24_get_not_older`, `C24_cutoff_exact`, `C24_last_negative`, `C25_nothing_hidden_partial`, `C26_get_max_partial`, `C26_last_count`, `C27_ttl_option_partial`, `C27_withTTL_partial`, `C27_withTTL_seconds_violated`, `C27_ttl_text_partial`, `C28_synced_readable_partial`, `C28_sync_succeeds`, `C28_absent_not_found`, `C28_long_topic_violated`, `C29_restarts_partial`, `C29_each_once`, `C29_resync_changes_nothing`, `C30_no_overlap_partial`, `C31_free_space_partial`, `C31_violated`, `C32_all_reachable_partial`, `C32_reached_is_suffix`, `C33_reopen_partial`, `C33_get_partial`, `C33_reopen_first_335`, `C33_reopen_same_partial`, `C33_newest_lost_violated`, `C34_count_partial`, `C34_restarts_partial`, `C38_increasing_partial`, `C38_restart`, `C39_refines_partial`, `C39_bloom_partial`, `C40_read_back_partial`, `C40_huge_violated`, `C41_crash_atomic_partial`, `C41_completed`, `C42_replay_partial`, `C42_puts_partial`, `C43_reset_clears`, `C44_db_unwritten_partial`, `C45_no_false_negative`, `C45_reopen_violated`, `C45_violated`, `C47_single_byte_change`, `C51_client_id_round_trip`, `C51_client_id_fields`, `C52_key_opens_topic`, `C52_key_opens_only`, `C52_request`, `C53_first`, `C54_one_winner`, `C54_agreement`, `C54_no_wrong_leader`, `C55_member`, `C55_order_independent`, `C55_minimal_move`, `C56_prefix_partial`, `C56_exact_partial`, `C57_isolated`, `C57_list`, `C58_once_partial`, `C58_batch_size_partial`, `C60_write_key_refused`, `C61_contract_violated`, `C61_contract_partial`, `C63_protobuf`, `C64_shared_key_violated`, `C64_keyless_violated`, `C64_partial`, `C65_resume_partial`, `C65_clean_session`, `C65_bit4_violated`, `C66_reset_deletes_session_violated`, `C66_partial`, `C68_put_get_partial`, `C68_sync_succeeds`, `C68_any_order_partial`, `C69_crash_partial`, `C70_others_partial`, `C71_put_panics_partial`, `C72_commit_partial`, `C73_delete_partial`, `C74_put_accepted_partial`, `C76_windows`, `C76_filed`, `C77_taken_partial`, `C77_never_violated`, `C78_found_partial`, `C78_exact_partial`, `C78_lost_violated`, `C79_meanwhile_partial`, `C79_returns_partial`, `C79_afterwards_partial`, `C80_stored_partial`, `C83_sent_partial`, `C83_fetched_partial`, `C83_mode_violated`, `C83_limit_violated`, `C85_sent_partial`, `C86_apart_partial`, `C86_panic_violated`, `C86_forged_violated`, `C86_leak_violated`, `C87_handed_partial`, `C87_closed_partial`, `C87_words`, `C87_preface`, `C87_server_partial`, `C88_home_partial`, `C89_empty`, `C89_reported`, `C89_percentile`, `C89_median`, `C89_average`, `C90_packets_partial`, `C90_nothing_lost_partial`, `C92_quiet_partial`, `C94_heard`, `C94_delivered_partial`, `C94_end_to_end_partial`, `C94_cut_violated`, `C95_members`, `C95_own_partial`, `C95_agree_partial`, `C95_one_leader_partial`, `C95_broken_call_violated`, `C95_limit_violated`, `C95_takeover_violated`, `C96_put_get_last_partial`, `C96_any_order_partial`, `C97_messages_partial`, `C97_subscriptions_partial`, `C98_as_table_partial`, `C98_delivered_partial`, `C98_relay_partial`, `C99_same_partial`, `C99_count_partial`, `C99_apart_partial`, `C100_process_iff`, `C100_start_iff`, `C101_as_table_partial`, `C101_written_partial`, `C101_end_to_end_partial`, `C103_kept_partial`, `C103_again_partial`, `C103_free_partial`, `C104_reads_partial`, `C105_client_id`, `C105_no_chain`, `C105_keys`, `C105_rights_violated`, `C105_contract_violated`, `C106_path`, `C107_all`, `C107_names_differ`, `C108_one_partial`, `C108_reconnects`, `C108_call_partial`, `C108_close_partial`, `C109_parts`, `C110_one_place`, `C110_right_server`, `C110_no_panic`, `C110_stopped`, `C110_stops`, `C110_in_order`, `C110_told`, `C111_stuck_violated`, `C112_ends_partial`, `C114_ends_partial`.
* **Quot.sound, propext** (201): `C08_too_deep`, `C10_first_block_lost`, `C11_violated`, `C13_large_table`, `C14_last_shard_violated`, `C14_spare_shards_violated`, `C15_hash_clash_violated`, `C16_leading_star_violated`, `C16_parent_not_matched`, `C17_wildcard_preimage_violated`, `C19_reuse_violated`, `C21_two_blocks_violated`, `C21_topics_violated`, `C22_ends`, `C24_last_duration`, `C26_default`, `C26_max_partial`, `C30_delete_corrupts_violated`, `C30_double_expiry_violated`, `C31_double_allocation_violated`, `C32_first_topic_violated`, `C33_older_id_violated`, `C34_unsynced_violated`, `C34_delete_missing_violated`, `C34_delete_unsynced_violated`, `C35_synced_violated`, `C36_immutable`, `C36_batch_immutable`, `C37_closed`, `C37_unchanged`, `C37_delete_panics`, `C38_crash_violated`, `C38_logged_violated`, `C38_closed_violated`, `C39_reput_violated`, `C39_cache_violated`, `C39_violated`, `C39_clock_violated`, `C39_full_violated`, `C39_freed_violated`, `C39_get_terminates`, `C40_accepts`, `C42_reput_violated`, `C42_tombstone_lost_violated`, `C42_wrong_block_violated`, `C42_short_payload_violated`, `C43_release_exact`, `C43_release_only_logs`, `C44_db_panics_violated`, `C44_db_written_violated`, `C44_db_abort_violated`, `C44_panics_violated`, `C44_visible_violated`, `C44_abort_keeps_violated`, `C44_abort_partial`, `C46_decrypt_encrypt`, `C46_short_payload`, `C47_unrolled_is_fold`, `C47_salted_is_permuted_fold`, `C48_length_round_trip`, `C48_limit`, `C49_prefix`, `C49_all_delivered`, `C50_distinct_partial`, `C50_resume_blocks_violated`, `C50_wire_repeats_violated`, `C50_wire_runs_exist`, `C52_too_long`, `C53_present`, `C53_last`, `C57_key_injective`, `C58_close_loses_violated`, `C58_delivery_partial`, `C59_decrypt_twice_violated`, `C60_read_key_publishes_violated`, `C60_publish_partial`, `C61_cache_stays`, `C62_crash_iff`, `C62_publish_crash_violated`, `C62_no_crash_partial`, `C63_packets_in_order_partial`, `C63_ping_ack_violated`, `C65_third_connect_violated`, `C68_after_batch_violated`, `C68_first_topic_violated`, `C68_stale_violated`, `C69_reused_violated`, `C69_mid_sync_violated`, `C69_before_sync_violated`, `C69_deleted_first_violated`, `C69_open_panics_violated`, `C70_unsynced_violated`, `C71_short_violated`, `C71_zero_violated`, `C71_id_violated`, `C72_full_violated`, `C73_delete_panics_violated`, `C74_after_open_violated`, `C75_put`, `C75_get`, `C75_delete`, `C75_batch_put`, `C75_batch_delete`, `C76_gets`, `C76_twice_violated`, `C76_live_violated`, `C77_second_violated`, `C79_lost_violated`, `C79_unseen_violated`, `C80_skipped_violated`, `C80_unreported_violated`, `C80_mixed_violated`, `C81_alone_partial`, `C81_refused_partial`, `C81_close_partial`, `C81_crash_partial`, `C82_logged_partial`, `C82_ends`, `C82_batch_partial`, `C82_logged_violated`, `C82_batch_hangs_violated`, `C83_only_readers_violated`, `C83_same_id_violated`, `C83_id_zero_violated`, `C83_codec`, `C84_serves_partial`, `C84_before_connect_violated`, `C84_subscribe_violated`, `C84_put_violated`, `C84_resumed_violated`, `C85_session_violated`, `C88_elsewhere_violated`, `C88_kept_violated`, `C88_takeover_violated`, `C88_unreached_violated`, `C88_twice_violated`, `C88_insecure_violated`, `C89_last_partial`, `C89_order`, `C89_range`, `C89_live_violated`, `C90_tags`, `C90_line`, `C91_fields_partial`, `C91_refused`, `C91_ascii`, `C91_connack`, `C91_disconnect_violated`, `C91_ping_violated`, `C92_bounded`, `C92_negative_violated`, `C93_cut_partial`, `C93_junk_violated`, `C93_message_violated`, `C93_string_violated`, `C93_range_violated`, `C94_written_partial`, `C94_as_packets`, `C94_key_checks`, `C97_unsubscribe_violated`, `C97_still_subscribed_violated`, `C98_leaving_violated`, `C98_unsubscribed_violated`, `C99_panics_iff`, `C99_series_violated`, `C99_unregistered_violated`, `C100_processes_iff`, `C100_soon_violated`, `C100_restart_violated`, `C102_waiting_partial`, `C102_again_violated`, `C102_topic_violated`, `C102_cutoff_violated`, `C102_limit_violated`, `C103_freed_violated`, `C104_expired_violated`, `C105_words`, `C106_previous_violated`, `C106_before_violated`, `C106_none_removed_violated`, `C108_not_stopped`, `C108_crash_violated`, `C108_healthy_violated`, `C108_shutdown_violated`, `C109_uptime`, `C111_once`, `C111_noticed`, `C111_after_both`, `C111_crash_partial`, `C111_ends_partial`, `C113_written`, `C113_entries`, `C113_released_partial`, `C113_waits`, `C113_answered`, `C113_closed`, `C114_closed_violated`, `C115_no_clash_partial`, `C115_safe_maps`, `C116_no_clash_partial`, `C116_safe_maps`.
* **no axiom** (8): `C07_not_sorted_violated`, `C25_expired_hides_violated`, `C41_unordered_writes_violated`, `C49_empty_buffer_loses`, `C82_batch_panics_violated`, `C89_place`, `C90_uncounted_violated`, `C90_miscounted_violated`.
* **propext** (38): `C02_violated`, `C21_repeats_violated`, `C21_reused_query_violated`, `C22_overrun_violated`, `C23_reused_query_violated`, `C26_max_violated`, `C26_withLast_default_violated`, `C27_option_seconds_violated`, `C27_option_past_violated`, `C50_resumed_partial`, `C56_empty_set_violated`, `C58_twice_violated`, `C58_order_violated`, `C58_full_drops_violated`, `C59_decrypt_overwrites`, `C59_failed_decrypt_partial`, `C67_restart_violated`, `C81_alone_violated`, `C81_close_violated`, `C81_failed_violated`, `C82_unreported_violated`, `C87_error_violated`, `C89_live_median_violated`, `C90_closed_violated`, `C100_later_violated`, `C107_short_violated`, `C107_foreign_violated`, `C111_crash_violated`, `C111_crash_waiting_violated`, `C111_crash_batch_violated`, `C112_keys_violated`, `C112_all_wait_violated`, `C113_released_violated`, `C115_topics_violated`, `C115_close_violated`, `C115_gets_violated`, `C116_batches_violated`, `C116_nodes_violated`.
<!-- axioms:end -->
