{"id": "C01", "title": "Header keeps the sequence and the count across reopen", "statement": "For every database header (signature, version, last sequence, message count), reading back the bytes that Close wrote gives the same signature, version, sequence and count, so a cleanly reopened database continues numbering after the last used sequence.", "quantifier": "every header value, all 2^64 sequences and counts", "why_tests_cant": "A test opens a handful of databases; the field layout must be non-overlapping for every 64-bit value.", "anchors": ["db_info.go:MarshalBinary", "db_info.go:UnmarshalBinary", "db_internal.go:writeInfo", "db.go:Open"]}
{"id": "C02", "title": "The encryption setting is what the user asked for", "statement": "For every header, the encryption flag read on reopen equals the flag that was written; a database opened without encryption does not start encrypting.", "quantifier": "every header value and both flag values", "why_tests_cant": "The defect depends on the version byte aliasing the flag byte, which a test that never inspects ciphertext does not see.", "anchors": ["db_info.go:MarshalBinary", "db_info.go:UnmarshalBinary", "db.go:Open"]}
{"id": "C03", "title": "Index blocks survive a write and a read", "statement": "For every index block whose used entries have sequence numbers belonging to that block, decoding the encoded 4096-ish byte block returns exactly the same entries (sequence, topic size, value size, offset) and the same entry count.", "quantifier": "every block content reachable by the writer: any 0..255 entries, any sizes and offsets", "why_tests_cant": "Sequences are stored as 16-bit differences to a base; the space of gaps and field values is far beyond sampling.", "anchors": ["block.go:marshalBinary", "block.go:unmarshalBinary", "block.go:blockIndex"]}
{"id": "C04", "title": "Window blocks survive a write and a read", "statement": "For every window block, decoding the encoded block returns the same topic hash, cutoff, next link, entry count and all 335 (sequence, expiry) slots.", "quantifier": "every window block value", "why_tests_cant": "All field values and all slots must round trip, including all-ones and zero.", "anchors": ["time_window.go:marshalBinary", "time_window.go:unmarshalBinary"]}
{"id": "C05", "title": "Write-ahead log records survive framing", "statement": "For every list of records appended to one log, reading the log returns exactly the non-empty records in order and then end-of-log; the log header returns its version, time and counts.", "quantifier": "every list of byte records with total size below 4 GiB, every header value", "why_tests_cant": "Framing bugs show at specific length combinations.", "anchors": ["wal/writer.go:append", "wal/reader.go:Next", "wal/header.go:MarshalBinary", "wal/header.go:UnmarshalBinary"]}
{"id": "C06", "title": "A stored record gives back its id, topic and payload", "statement": "For every message id, parsed topic and encoded payload, the record that Put builds, read through the sizes kept in its index entry, yields the same id, the same topic bytes and the same payload bytes.", "quantifier": "every id, topic byte string and payload byte string", "why_tests_cant": "The sizes are 16/32-bit fields and are summed in 16-bit arithmetic; overflow only appears for extreme topics.", "anchors": ["db_internal.go:setEntry", "block_reader.go:readMessage", "block_reader.go:readTopic", "entry.go:MarshalBinary", "entry.go:UnmarshalBinary", "db.go:PutEntry"]}
{"id": "C07", "title": "Message ids carry sequence, contract and creation time", "statement": "For every sequence, contract and creation second in the supported era, the id returned for a message yields exactly that sequence, contract and time; changing the contract changes nothing else; two ids with different sequences differ.", "quantifier": "every 64-bit sequence, 32-bit contract, every second in the 2^32 second era starting at 1555770000", "why_tests_cant": "Field packing and the complement-encoded clock must be right for every value, including era limits.", "anchors": ["message/id.go:NewID", "message/id.go:SetContract", "message/id.go:Sequence", "message/id.go:EvalPrefix", "uid/uid.go:NewApoch", "uid/uid.go:Time"]}
{"id": "C08", "title": "Parsed topics survive storage", "statement": "For every topic of at most 255 levels, the topic rebuilt from the stored bytes has the same depth, parts and wildcard counts.", "quantifier": "every parts list up to the depth limit", "why_tests_cant": "The decoder stops on a depth byte; the limit is only visible at 256 levels.", "anchors": ["message/topic.go:Marshal", "message/topic.go:Unmarshal"]}
{"id": "C09", "title": "Text identifiers round trip", "statement": "For every 8-byte key and every 32-byte identifier, decoding the textual form returns the original bytes, and the textual form only uses the alphabet.", "quantifier": "every byte string of the supported lengths", "why_tests_cant": "5-bit regrouping across byte borders needs every residue.", "anchors": ["server/internal/pkg/encoding/base8.go", "server/internal/pkg/encoding/base32.go", "server/internal/message/security/key.go:Encode", "server/internal/message/security/key.go:DecodeKey"]}
{"id": "C10", "title": "Free space survives reopen", "statement": "Every free block with a non-zero offset known at Close is known after Open with the same offset and size.", "quantifier": "every list of free blocks", "why_tests_cant": "List-shaped persistent data of unbounded length.", "anchors": ["leasing.go:MarshalBinary", "leasing.go:UnmarshalBinary", "leasing.go:read", "leasing.go:write"]}
{"id": "C11", "title": "Every message has its own, valid index position", "statement": "For every sequence number from 1 up, the index block chosen for it is determined by the sequence, consecutive groups of 255 sequences share a block, different groups use disjoint byte ranges of the index file, and the file offset is never negative.", "quantifier": "every 64-bit sequence number", "why_tests_cant": "Floating point division and 32-bit multiplication: failures only occur far out (after 133 million messages).", "anchors": ["block.go:blockIndex", "block.go:blockOffset"]}
{"id": "C12", "title": "Sync writes every dirty block exactly once", "statement": "For every set of dirty blocks, the batched write ranges cover each dirty block exactly once and no other block.", "quantifier": "every finite set of block numbers", "why_tests_cant": "Grouping of runs has special cases for runs of length 1, 2 and more; the set of sets is infinite.", "anchors": ["block_writer.go:blockRange", "block_writer.go:write", "time_window_writer.go:write"]}
{"id": "C13", "title": "Every key belongs to exactly one existing shard", "statement": "For every key, the shard chosen is in range, always the same for the same key, and choosing it terminates.", "quantifier": "every 64-bit key and every shard count up to 65535", "why_tests_cant": "A wrong reduction would index out of range for rare keys only.", "anchors": ["hash/consistent.go:FindBlock", "hash/modulo.go:FastMod", "hash/rand.go:fleaInit", "mutex.go:getMutex"]}
{"id": "C14", "title": "Removing a shard only moves that shard's keys", "statement": "For a hash whose shards all start working: after removing a working shard other than the last one, every key that was not on it stays where it was and no key maps to it; adding it back restores the assignment exactly, for every history of removals and additions.", "quantifier": "every key and every history of removals and additions", "why_tests_cant": "The claim quantifies over all histories of the permutation arrays.", "anchors": ["hash/consistent.go:RemoveBlock", "hash/consistent.go:AddBlock", "hash/consistent.go:FindBlock", "hash/consistent.go:InitConsistent"]}
{"id": "C15", "title": "A stored topic is found by its own name", "statement": "After any history of stored topics, a query for exactly a stored static topic finds that topic.", "quantifier": "every history of topic insertions and every static topic", "why_tests_cant": "Histories of a tree structure are unbounded.", "anchors": ["trie.go:add", "trie.go:lookup", "trie.go:ilookup"]}
{"id": "C16", "title": "Messages for wildcard topics reach exactly the covered topics", "statement": "A query for a topic without wildcards finds a message stored under a wildcard topic exactly when the stored topic covers the queried one: an asterisk level stands for one level, three trailing dots for everything below. Insertion order does not matter.", "quantifier": "every history of stored topics, every stored name and every queried name", "why_tests_cant": "Infinite pattern/topic pairs; insertion-order independence needs all orders.", "anchors": ["trie.go:ilookup", "message/topic.go:parseWildcardTopic"]}
{"id": "C17", "title": "Distinct topics do not share messages", "statement": "Messages stored under one topic are never returned for a query of a different static topic.", "quantifier": "every pair of different topics", "why_tests_cant": "Collisions are structural (order of levels) and only show for specific pairs.", "anchors": ["message/topic.go:GetHash", "trie.go:addUnique", "time_window.go:add"]}
{"id": "C18", "title": "Contracts are isolated", "statement": "Get for a contract never returns a message whose stored contract differs.", "quantifier": "every stored message, every query", "why_tests_cant": "Universal over contents of the database.", "anchors": ["db.go:Get", "message/id.go:EvalPrefix", "db_internal.go:setEntry"]}
{"id": "C19", "title": "An entry is stored under the topic it names", "statement": "Every PutEntry call stores the message under the topic the entry names at the time of the call, also when the caller reuses the entry object.", "quantifier": "every sequence of PutEntry calls on one entry object", "why_tests_cant": "Depends on the history of the entry object.", "anchors": ["entry.go:reset", "db_internal.go:setEntry", "db_internal.go:parseTopic", "db.go:PutEntry"]}
{"id": "C20", "title": "Get returns at most Limit messages", "statement": "For every database content and query, Get returns no more messages than the query limit.", "quantifier": "every candidate list, every readable/expired/foreign pattern", "why_tests_cant": "The pagination loop's bounds depend on how many candidates are invalid.", "anchors": ["db.go:Get"]}
{"id": "C21", "title": "Get returns messages newest first and without repeats", "statement": "Get returns each matching message at most once, in decreasing sequence order, and returns the newest ones when the limit excludes some.", "quantifier": "every database content, query, clock and map iteration order", "why_tests_cant": "Order and multiplicity over all lists and invalid patterns.", "anchors": ["db.go:Get", "db_internal.go:lookup", "time_window.go:lookup"]}
{"id": "C22", "title": "Get terminates without crashing", "statement": "For every database content and query, Get ends and never crashes.", "quantifier": "every candidate list, every pattern of unreadable or too old candidates", "why_tests_cant": "The out-of-range window needs two rounds with several invalid candidates.", "anchors": ["db.go:Get"]}
{"id": "C23", "title": "Expired messages are never returned", "statement": "A message whose expiry time has passed is never returned by Get, whether it is in memory or on disk.", "quantifier": "every window content, every clock value", "why_tests_cant": "Universal over histories and clock values.", "anchors": ["time_window.go:isExpired", "time_window.go:ilookup", "time_window.go:lookup"]}
{"id": "C24", "title": "Time-limited queries return no older messages", "statement": "With a last-duration query every returned message was created at or after the cutoff, and with no cutoff no message is excluded for its age.", "quantifier": "every id and cutoff", "why_tests_cant": "Signed/unsigned time arithmetic over the whole era.", "anchors": ["message/id.go:EvalPrefix", "db.go:Get"]}
{"id": "C25", "title": "Expired messages do not hide live ones", "statement": "For every window content, a query with limit n returns at least min(n, number of live messages) candidates.", "quantifier": "every content with any number of expired entries and time blocks", "why_tests_cant": "The slot accounting goes wrong only with at least three time blocks or expired newest entries.", "anchors": ["time_window.go:ilookup", "time_window.go:lookup"]}
{"id": "C26", "title": "Query limits are applied", "statement": "A query without a limit gets the default limit and no query exceeds the configured maximum.", "quantifier": "every topic option, every requested limit", "why_tests_cant": "Case analysis over all combinations of option and limit.", "anchors": ["query.go:parse", "query.go:WithLast", "options.go:WithMaxQueryLimit"]}
{"id": "C27", "title": "A time-to-live means what it says", "statement": "A message stored with a time-to-live of d seconds expires d seconds after it was stored.", "quantifier": "every duration and clock value", "why_tests_cant": "Unit conversion and overflow over all values.", "anchors": ["message/topic.go:TTL", "entry.go:WithTTL", "db_internal.go:setEntry"]}
{"id": "C28", "title": "Synced messages are readable byte for byte", "statement": "After any sequence of successful syncs into a fresh database, reading each synced sequence through the index returns exactly the record that was stored.", "quantifier": "every history of sync batches, every payload", "why_tests_cant": "Needs an invariant over the data file, the index file and the in-memory writer for all histories.", "anchors": ["block_writer.go:append", "block_writer.go:write", "block_reader.go:readEntry", "block_reader.go:readMessage", "db_sync.go:Sync"]}
{"id": "C29", "title": "A sequence number is stored at most once", "statement": "The index never holds two entries for one sequence; a second store of a sequence is rejected and leaves the first untouched.", "quantifier": "every history of index insertions", "why_tests_cant": "Invariant over histories.", "anchors": ["block_writer.go:append"]}
{"id": "C30", "title": "Records on disk never overlap", "statement": "The data file extents of different live messages are disjoint.", "quantifier": "every history of appends, frees and reuses", "why_tests_cant": "Invariant over histories.", "anchors": ["block_writer.go:append", "leasing.go:allocate", "leasing.go:freeBlock"]}
{"id": "C31", "title": "Free space is never handed out twice", "statement": "For every history of frees, allocations and maintenance of free space, no byte range is allocated while it is in use, allocations are large enough, and free space accounting matches the list.", "quantifier": "every history of free, allocate and defragment", "why_tests_cant": "Double allocation needs a specific merge during defragmentation.", "anchors": ["leasing.go:freeBlock", "leasing.go:allocate", "leasing.go:defrag", "leasing.go:search"]}
{"id": "C32", "title": "Every message of a topic stays reachable from the topic", "statement": "After any number of syncs to a topic, following the topic's window blocks reaches every synced message of the topic.", "quantifier": "every history of window appends of any sizes", "why_tests_cant": "Chains of linked blocks of unbounded length.", "anchors": ["time_window_writer.go:append", "time_window_writer.go:write", "time_window.go:lookup"]}
{"id": "C33", "title": "Reopen finds every topic and message", "statement": "After a clean close and reopen, each topic reaches the same messages as before.", "quantifier": "every history before the close", "why_tests_cant": "Needs more than 335 messages in a topic or special offsets.", "anchors": ["db_internal.go:loadTrie", "time_window_reader.go:blockIterator", "time_window_reader.go:readWindowBlock"]}
{"id": "C34", "title": "Count reports the number of stored messages", "statement": "Count equals the number of messages stored and not deleted.", "quantifier": "every history of puts, syncs and deletes", "why_tests_cant": "Counter drift accumulates over histories.", "anchors": ["db.go:Count", "db_internal.go:incount", "db_internal.go:decount", "db_internal.go:delete", "db_sync.go:abort"]}
{"id": "C35", "title": "Deleted messages stay deleted", "statement": "After a successful delete, no later Get returns the message.", "quantifier": "every history with a delete", "why_tests_cant": "Depends on whether the message was synced, cached or in memory.", "anchors": ["db.go:DeleteEntry", "db_internal.go:delete", "block_writer.go:del", "memdb/db.go:Delete"]}
{"id": "C36", "title": "An immutable database refuses deletes", "statement": "In an immutable database a delete returns an error and changes nothing.", "quantifier": "every state", "why_tests_cant": "Universal over states.", "anchors": ["db.go:DeleteEntry", "options.go:WithMutable"]}
{"id": "C37", "title": "A closed database refuses work", "statement": "After Close, Put, Get and a second Close return an error and change nothing.", "quantifier": "every state and history after close", "why_tests_cant": "Universal over states.", "anchors": ["db_internal.go:ok", "db_internal.go:setClosed", "db.go:Close", "db.go:Get", "db.go:PutEntry"]}
{"id": "C38", "title": "Sequence numbers are never reused", "statement": "All sequences handed out by NewID and Put over a database's lifetime, including clean restarts and crashes, are distinct and increasing.", "quantifier": "every interleaving, restart and crash", "why_tests_cant": "Crash points and interleavings are unbounded.", "anchors": ["db.go:NewID", "db_internal.go:nextSeq", "db_info.go:UnmarshalBinary", "recovery.go:startRecovery"]}
{"id": "C39", "title": "Read your writes in the in-memory store", "statement": "For every history of Put and Delete, Get of a key returns the value of its latest Put, or nothing if it was deleted later or never put.", "quantifier": "every history, block rotation schedule and cache state", "why_tests_cant": "Stale caches need specific interleavings of reads with re-puts and block rotation.", "anchors": ["memdb/db.go:Get", "memdb/db.go:Put", "memdb/db.go:Delete", "memdb/db_internal.go:seek", "memdb/block.go:get", "memdb/block.go:put"]}
{"id": "C40", "title": "Block records are addressed correctly", "statement": "Every record written to an in-memory block is read back with its key and bytes until it is deleted, whatever else is written.", "quantifier": "every history of block writes and deletes", "why_tests_cant": "Offsets of variable-length records over all histories.", "anchors": ["memdb/block.go:put", "memdb/block.go:get", "memdb/block.go:delete"]}
{"id": "C41", "title": "A crash leaves a log either whole or absent", "statement": "At every crash point while a log is written, recovery sees the complete log or no log.", "quantifier": "every crash point and every log content", "why_tests_cant": "Crash points cannot be enumerated by unit tests.", "anchors": ["wal/file.go:put", "wal/file.go:read", "wal/file.go:all", "wal/writer.go:writeLog"]}
{"id": "C42", "title": "Replaying the log restores the in-memory state", "statement": "Recovery after a crash gives the same key to value map as the operations that reached the log.", "quantifier": "every history of puts and deletes split into logs in any way", "why_tests_cant": "Order of puts and deletes across logs matters only in rare histories.", "anchors": ["memdb/recovery.go:startRecovery", "memdb/db_internal.go:tinyWrite", "wal/reader.go:Iterator"]}
{"id": "C43", "title": "Releasing a log removes only that log", "statement": "After the data of one time block is synced, only its log is removed and every other log remains.", "quantifier": "every set of logs", "why_tests_cant": "Universal over log sets.", "anchors": ["wal/wal.go:SignalLogApplied", "wal/file.go:del", "memdb/db_internal.go:releaseLog"]}
{"id": "C44", "title": "A failing batch leaves no trace", "statement": "If the function given to Batch returns an error, none of the batch's writes becomes visible and the call returns that error.", "quantifier": "every batch content and every failing function", "why_tests_cant": "Needs every prefix of a batch.", "anchors": ["batch.go:Abort", "db_internal.go:batch", "memdb/batch.go:Abort", "memdb/db.go:Batch"]}
{"id": "C45", "title": "The filter never denies a stored key", "statement": "For every history of additions, the filter (also after being saved and loaded) reports every added key as possibly present.", "quantifier": "every history and every choice of random keys", "why_tests_cant": "False negatives depend on bit positions of random keys.", "anchors": ["filter/bloom.go:Add", "filter/bloom.go:Test", "filter/bloom.go:Bytes", "filter/bloom.go:newFilterFromBytes"]}
{"id": "C46", "title": "Encrypted payloads decrypt to the original", "statement": "For every payload of at least four bytes, decrypting its encryption with the same key gives the payload; shorter payloads cannot be encrypted.", "quantifier": "every payload and key, for every authenticated cipher that satisfies open(seal(x)) = x", "why_tests_cant": "Universal over payloads; the short case is a crash.", "anchors": ["crypto/mac.go:Encrypt", "crypto/mac.go:Decrypt"]}
{"id": "C47", "title": "Topic hashing reads every byte and only reorders", "statement": "The salted hash equals the plain fold over a permutation of the topic bytes that depends only on the length and the salt, for every length.", "quantifier": "every byte string and salt", "why_tests_cant": "Loop unrolling and index arithmetic over all lengths.", "anchors": ["hash/hash.go:New", "hash/hash.go:WithSalt", "hash/hash.go:shuffleInPlace"]}
{"id": "C48", "title": "Frame lengths survive the wire", "statement": "For every frame length that fits the variable-length prefix the receiver decodes the length that was sent and consumes exactly the prefix.", "quantifier": "every length below 2^28 and any following bytes", "why_tests_cant": "Carry boundaries at every power of 128.", "anchors": ["server/utp/message.go:encodeLength", "server/utp/message.go:decodeLength"]}
{"id": "C49", "title": "A stream connection delivers the bytes that were written", "statement": "For every sequence of writes and every sequence of reads with non-empty buffers, the concatenation of reads is a prefix of the concatenation of writes and everything is eventually delivered.", "quantifier": "every write/read split", "why_tests_cant": "All ways of chunking both sides.", "anchors": ["server/common/conn.go:Read", "server/common/conn.go:Write"]}
{"id": "C50", "title": "Packet identifiers in flight are distinct", "statement": "Over any 2^32 - 1 consecutive allocations no identifier repeats and a resumed identifier is never handed out.", "quantifier": "every history of allocations, frees and resumes", "why_tests_cant": "Wrap-around and the resume path.", "anchors": ["server/internal/message/messageids.go:NextID", "server/internal/message/messageids.go:ResumeID"]}
{"id": "C51", "title": "Client identifiers cannot be altered by encoding", "statement": "For every client id, decoding its textual form returns the same id, contract and flags.", "quantifier": "every id", "why_tests_cant": "Universal over identifiers.", "anchors": ["server/internal/pkg/uid/clientid.go"]}
{"id": "C52", "title": "A topic key opens its own topic with its own rights", "statement": "A key generated for a topic and permissions validates that topic, grants exactly those permissions, and validates no topic of the same contract with another hash unless its own topic hashes like \"...\"; topics of more than 23 levels are refused.", "quantifier": "every topic and permission set", "why_tests_cant": "Bit path and hash packing over all topics.", "anchors": ["server/internal/message/security/key.go:GenerateKey", "server/internal/message/security/key.go:ValidateTopic", "server/internal/message/security/key.go:SetTarget", "server/internal/message/security/key.go:HasPermission"]}
{"id": "C53", "title": "Subscription counting is exact", "statement": "For every history of subscribe and unsubscribe, a topic is reported present exactly while its subscribes outnumber its effective unsubscribes; first and last are reported exactly at the transitions.", "quantifier": "every history", "why_tests_cant": "Histories are unbounded.", "anchors": ["server/internal/message/sub.go:Increment", "server/internal/message/sub.go:Decrement"]}
{"id": "C54", "title": "At most one leader is elected per term", "statement": "For every schedule of votes and elections in a cluster, two different nodes never both win the election for one term.", "quantifier": "every cluster size, message schedule and loss", "why_tests_cant": "Schedules are unbounded.", "anchors": ["server/internal/cluster_leader.go:electLeader", "server/internal/cluster_leader.go:run"]}
{"id": "C55", "title": "Key ownership is consistent across nodes", "statement": "For every set of nodes, a key is owned by a member, independent of the order nodes were added, and adding a node only moves keys to that node.", "quantifier": "every node set, order and key", "why_tests_cant": "Quantifies over all rings and keys.", "anchors": ["server/internal/pkg/hash/ringhash.go:Add", "server/internal/pkg/hash/ringhash.go:Get"]}
{"id": "C56", "title": "Protocol sniffing matches prefixes exactly", "statement": "For every set of protocol prefixes and every stream, the matcher accepts exactly the streams that start with (or equal) one of the prefixes.", "quantifier": "every set of strings and stream", "why_tests_cant": "Tree splitting over all string sets.", "anchors": ["server/internal/net/listener/patricia.go"]}
{"id": "C57", "title": "Stored packets of different connections never collide", "statement": "The storage key of a packet determines its connection and packet id, and listing or clearing one connection's packets touches no other connection's.", "quantifier": "every connection id and packet id", "why_tests_cant": "Bit packing over all values.", "anchors": ["server/internal/store/store.go:PersistOutbound", "server/internal/store/store.go:Keys", "server/internal/store/store.go:Reset", "server/internal/store/store.go:evalPrefix"]}
{"id": "C58", "title": "Batching neither loses nor reorders messages", "statement": "Every message given to a connection's batch manager is in exactly one pushed batch, in order, for every threshold and timing.", "quantifier": "every history of additions and timer ticks", "why_tests_cant": "Histories and thresholds are unbounded.", "anchors": ["server/internal/batch.go"]}
{"id": "C59", "title": "Decryption leaves its input usable", "statement": "Decrypting a stored message does not change the stored bytes, so the same bytes can be decrypted again with the same result.", "quantifier": "every cipher, key and message", "why_tests_cant": "a test that decrypts each message once, or a copy of it, passes", "anchors": ["crypto/mac.go:Decrypt", "server/internal/pkg/crypto/mac.go:Decrypt"]}
{"id": "C60", "title": "Publishing needs the write permission", "statement": "On a secured connection a message is accepted for publishing exactly when its key was generated for its topic with the write permission.", "quantifier": "every contract, topic and permission set", "why_tests_cant": "tests use keys with both permissions", "anchors": ["server/internal/hdl_conn.go:onSecureRequest", "server/internal/hdl_conn.go:onPublish", "server/internal/types:Access"]}
{"id": "C61", "title": "A connection gets the contract of its client id", "statement": "Whatever other clients connected before, a connection that presents a client id works in the contract that id names, or is refused.", "quantifier": "every client id and every history of connects", "why_tests_cant": "needs two clients whose texts share four characters, one in about 2^20 for random epochs but free to choose for an attacker", "anchors": ["server/internal/hdl_conn.go:onConnect", "server/internal/pkg/uid/clientid.go:CachedClientID"]}
{"id": "C62", "title": "No topic in a request stops the server", "statement": "For every topic text in a publish, subscribe, unsubscribe or relay request the server answers with a verdict.", "quantifier": "every byte string", "why_tests_cant": "the offending texts consist only of separators", "anchors": ["server/internal/message/security/key.go:ParseKey", "server/internal/hdl_conn.go:onPublish"]}
{"id": "C63", "title": "Packets are read as they were written", "statement": "For every sequence of packets written to a stream, the reader returns the same packets with the same type, flow control and body, in order.", "quantifier": "every sequence of packets and every header encoding that decodes what it encoded", "why_tests_cant": "framing errors show up only for some body lengths and packet mixes", "anchors": ["server/utp/message.go:pack", "server/utp/message.go:FromBinary", "server/utp/flow_control.go:ToBinary", "server/internal/net/message.go:Read"]}
{"id": "C64", "title": "Subscriptions follow subscribes and unsubscribes", "statement": "For every history of accepted subscribe and unsubscribe requests of a connection, a subscription for a topic is stored exactly while its subscribes outnumber its unsubscribes.", "quantifier": "every history of requests of one connection", "why_tests_cant": "tests subscribe to one topic once and unsubscribe once", "anchors": ["server/internal/conn.go:subscribe", "server/internal/conn.go:unsubscribe", "server/internal/message/sub.go:Stats"]}
{"id": "C65", "title": "Messages of a session survive reconnects", "statement": "A client that reconnects with its session key and does not ask for a clean session is notified of every message stored for its session, however often it reconnects.", "quantifier": "every session content and every number of reconnects", "why_tests_cant": "tests reconnect at most once", "anchors": ["server/internal/hdl_conn.go:handler", "server/internal/conn.go:resume", "server/internal/store/store.go:Session"]}
{"id": "C66", "title": "Clearing the packets of a connection leaves sessions alone", "statement": "Clearing the stored packets of one connection deletes no session record, of that or of any other client.", "quantifier": "every connection id and session key", "why_tests_cant": "a clash needs a session key equal to a packet key", "anchors": ["server/internal/store/store.go:Reset", "server/internal/store/store.go:Session"]}
{"id": "C67", "title": "One leader per term across restarts", "statement": "Even when nodes of the cluster restart, no two nodes win the election of the same term.", "quantifier": "every cluster size and every schedule with restarts", "why_tests_cant": "needs a restart at the moment between two elections of one term", "anchors": ["server/internal/cluster_leader.go:failoverInit", "server/internal/cluster_leader.go:run"]}
{"id": "C68", "title": "A Get returns what was put", "statement": "A Get of a topic without wildcards returns exactly the payloads of the unexpired messages put under that topic or under a wildcard topic covering it, newest first, whatever puts, syncs, Gets and log rotations came before.", "quantifier": "every history of puts, ids handed out, Gets, log rotations and syncs of one database; every contract, topic and payload", "why_tests_cant": "tests put a few messages under one topic and rarely sync between Gets", "anchors": ["db.go:PutEntry", "db.go:Get", "db_sync.go:Sync", "db_internal.go:readEntry", "memdb/db.go:Get"]}
{"id": "C69", "title": "Logged messages survive a crash", "statement": "After the process is killed and the database opened again, Open succeeds and a Get returns every message whose log had been written and that was not deleted.", "quantifier": "every history before the crash", "why_tests_cant": "tests close the database properly before opening it again", "anchors": ["db.go:Open", "recovery.go:startRecovery", "memdb/recovery.go:startRecovery", "db_internal.go:loadTrie"]}
{"id": "C70", "title": "A delete affects only its message", "statement": "After a successful delete, Gets return every other message as before.", "quantifier": "every history before the delete and every message deleted", "why_tests_cant": "tests look at the deleted message, and at most at one other", "anchors": ["db.go:DeleteEntry", "db_internal.go:delete", "block_writer.go:del", "leasing.go:allocate", "memdb/db.go:Delete"]}
{"id": "C71", "title": "No Put stops the program", "statement": "A Put of any topic, payload, id and expiry either stores the message or returns an error.", "quantifier": "every entry and every state of the database", "why_tests_cant": "tests put payloads of ordinary size", "anchors": ["db.go:PutEntry", "db_internal.go:setEntry", "crypto/mac.go:Encrypt"]}
{"id": "C72", "title": "A committed batch stores all of its messages", "statement": "When a batch of puts is committed without an error, a Get of a topic without wildcards returns every unexpired message the batch put under it, together with those put before, newest first.", "quantifier": "every history before the batch, every sequence of puts and writes inside it", "why_tests_cant": "tests commit small batches and count the messages, they do not fill the buffer or mix batches with other calls within a second", "anchors": ["batch.go:PutEntry", "batch.go:Write", "batch.go:writeInternal", "batch.go:Commit", "memdb/batch.go:Commit"]}
{"id": "C73", "title": "A batch can delete", "statement": "Delete on a batch of a mutable database, followed by a commit, removes the message as Delete on the database does, and stops nothing.", "quantifier": "every database opened mutable, every message id and topic", "why_tests_cant": "the tests of the batch do not delete", "anchors": ["batch.go:Delete", "batch.go:DeleteEntry", "db_internal.go:setEntry", "crypto/mac.go:Encrypt"]}
{"id": "C74", "title": "An allowed Put is accepted", "statement": "On an open database a Put of an entry whose sizes are accepted succeeds as long as the buffer of the current time block has room for the record.", "quantifier": "every history before the Put, every topic and payload of accepted size", "why_tests_cant": "tests put into databases that were just created, not into ones opened within the second of a crash", "anchors": ["db.go:PutEntry", "memdb/db.go:Put", "memdb/recovery.go:startRecovery", "memdb/tiny_log.go:newTinyLog"]}
{"id": "C75", "title": "Sizes that are not accepted are refused", "statement": "Put, Get, Delete and the calls of a batch answer an error about sizes exactly when the topic is empty or longer than 65536 bytes, or the payload of a Put is empty or longer than 2^30 bytes; the error names the first of these that applies, and nothing has changed.", "quantifier": "every database, entry and query", "why_tests_cant": "tests do not try payloads of a gigabyte, nor look at the whole state after an error", "anchors": ["db.go:PutEntry", "db.go:Get", "db.go:DeleteEntry", "batch.go:PutEntry", "batch.go:DeleteEntry"]}
{"id": "C76", "title": "The expirer removes expired messages, each once, and touches no other", "statement": "With background expiry on, a run of the expirer removes only messages that were put with a time of expiry that has passed; each is removed, and counted out, once; messages that have not expired stay readable with their payload, also after later puts and syncs.", "quantifier": "every history of puts, gets, syncs and runs of the expirer, at any times", "why_tests_cant": "the expirer runs once a minute; tests do not wait for it, and the damage shows only when freed space is used again", "anchors": ["db_sync.go:expireEntries", "expiry_window.go:getExpiredEntries", "expiry_window.go:addExpiry", "time_window.go:lookup", "leasing.go:free"]}
{"id": "C77", "title": "An expired message is removed", "statement": "With background expiry on, a message that has expired, and which a Get came across at least a minute ago, is removed by the next run of the expirer, if the run has room.", "quantifier": "every expiry time, every history of gets and runs of the expirer", "why_tests_cant": "whether a message is removed depends on a hash of its second of expiry", "anchors": ["expiry_window.go:addExpiry", "expiry_window.go:getExpiredEntries", "expiry_window.go:getWindows", "db_internal.go:nBlocks,maxExpDur"]}
{"id": "C78", "title": "Topics put at the same time can all be found", "statement": "After any number of goroutines have each put a message of a new topic and the puts have returned, every query finds the topics it would find had they been put one after the other.", "quantifier": "every interleaving of the puts, any number of topics and of bursts", "why_tests_cant": "the window is a few instructions wide, and every put returns without an error", "anchors": ["trie.go:add", "trie.go:lookup", "mutex.go:getMutex", "db.go:PutEntry"]}
{"id": "C79", "title": "Messages put at the same time are all found", "statement": "When several goroutines put messages at the same time, a Get made meanwhile returns every message whose put had already returned and nothing but messages that were put or are being put; once all puts have returned, a Get returns exactly the messages that were put and no two of them share a sequence number.", "quantifier": "every interleaving of any number of puts with each other, with Gets, writes of the log and ids drawn by clients, after any history of a fresh database", "why_tests_cant": "the outcome depends on the order of steps inside a Put, which no test controls", "anchors": ["db.go:PutEntry", "memdb/db.go:Put", "memdb/db_internal.go:addTimeFilter", "time_window.go:add", "db_sync.go:Sync"]}
{"id": "C80", "title": "A Sync stores what was logged or says that it did not", "statement": "When Sync returns without an error, every message whose log was complete is stored, Count has grown by exactly the number of these messages, and later Gets return each of them under its own topic only.", "quantifier": "every history of a database through restarts and a crash; every Sync in it, also one that meets an error half way", "why_tests_cant": "an error in the middle of a Sync needs a put of another goroutine at one moment, and its effect shows only in later Gets of other topics", "anchors": ["db_sync.go:Sync", "db_sync.go:startSync", "db_sync.go:abort", "db_sync.go:sync", "time_window_writer.go:append", "trie.go:getOffset", "trie.go:setOffset"]}
{"id": "C81", "title": "A directory has one open database at a time", "statement": "Open returns an error while another open database, of this program or of another, uses the directory, and leaves that database alone; it accepts a directory that no database uses, also after a crash or an Open that failed.", "quantifier": "every sequence of the system calls of any number of Opens, Closes and crashes", "why_tests_cant": "the order of system calls of several programs cannot be chosen in a test", "anchors": ["file_unix.go:newLockFile", "file_unix.go:lockFile", "file_unix.go:unlock", "file.go:createLockFile", "db.go:Open", "db_internal.go:close"]}
{"id": "C82", "title": "Close logs every accepted message", "statement": "Close returns, and then every message accepted before is in the log, once; when the Write of a batch returns, the messages of the batch are in the log.", "quantifier": "every schedule of puts, batches and the goroutines that rotate, queue and write the log", "why_tests_cant": "messages are lost only when the disk is slower than the puts for a while, at the moment of a Close", "anchors": ["memdb/tiny_log.go:writeLoop", "memdb/tiny_log.go:dispatch", "memdb/tiny_log.go:commitLoop", "memdb/tiny_log.go:writeWait", "memdb/db_internal.go:tinyWrite", "memdb/db_internal.go:tinyCommit", "memdb/db_internal.go:close", "memdb/batch.go:Write"]}
{"id": "C83", "title": "A published message reaches the subscribers of its topic, and only them", "statement": "When a client publishes messages it may publish, every connection subscribed to a topic that a message hits gets that message once per subscription, in the way the two delivery modes ask for: at once, in its next batch, or as a notice under whose id it can then fetch the message; connections that are not subscribed get nothing.", "quantifier": "every history of connections, packets and losses at one server; every publisher, packet and set of subscribers", "why_tests_cant": "which subscribers a message reaches depends on the whole history of subscribes, unsubscribes and closed connections", "anchors": ["server/internal/conn.go:publish", "server/internal/conn.go:SendMessage", "server/internal/conn.go:subscribe", "server/internal/conn.go:unsubscribe", "server/internal/conn.go:close", "server/internal/hdl_conn.go:onPublish", "server/internal/store/store.go:PersistOutbound"]}
{"id": "C84", "title": "No packet stops the server", "statement": "Whatever packets clients send, in any order and on any number of connections, the server neither panics nor waits forever.", "quantifier": "every sequence of packets, of accepted and of lost connections", "why_tests_cant": "a panic needs a particular order of packets; a hang needs a session that was resumed with a particular id", "anchors": ["server/internal/hdl_conn.go:handler", "server/internal/hdl_conn.go:onSpecialRequest", "server/internal/conn.go:notifyError", "server/internal/conn.go:resume", "server/internal/message/messageids.go:NextID", "server/internal/pkg/uid/clientid.go:Contract"]}
{"id": "C85", "title": "Messages stay within their contract", "statement": "A client receives only messages that were published by clients of its own contract.", "quantifier": "every history of connections and packets of clients of any contracts", "why_tests_cant": "the leak needs two clients of different contracts that were given their ids in the same second", "anchors": ["server/internal/conn.go:publish", "server/internal/hdl_conn.go:handler", "server/internal/store/store.go:Session"]}
{"id": "C86", "title": "Subscriptions and messages are kept apart", "statement": "A query for the subscriptions of a contract returns what its clients subscribed and nothing else, and a query for its messages returns what they published and nothing else.", "quantifier": "every sequence of subscribes, unsubscribes and publishes by clients of any contracts", "why_tests_cant": "two contracts out of 2^32 must be related in one way for the records to mix", "anchors": ["server/internal/store/store.go:SubscriptionStore", "server/internal/store/store.go:MessageStore", "server/internal/db/unitdb/adapter.go:Get", "server/internal/conn.go:publish"]}
{"id": "C87", "title": "A connection reaches its protocol with every byte", "statement": "The server tells the protocol of a new connection by its first bytes: one that begins with GET goes to the websocket handler and every other to the server's own protocol, however the network cuts the bytes into pieces; the handler then reads every byte of the client from the first one on, in the order sent.", "quantifier": "every connection: every cutting of its bytes into pieces, every place of an error; every list of matchers and every way in which they read; every sequence of read sizes afterwards", "why_tests_cant": "a lost or repeated byte needs a particular cutting of the first bytes, which a test on a local socket does not produce", "anchors": ["server/internal/net/listener/listener.go:serve", "server/internal/net/listener/listener.go:stream.Read", "server/internal/net/listener/listener.go:stream.reset", "server/internal/net/listener/listener.go:MatchWS", "server/internal/net/listener/listener.go:hasHTTP2Preface", "server/internal/service.go:listen"]}
{"id": "C88", "title": "Clients of a cluster are served as by one server", "statement": "When several servers form a cluster, a client may connect to any of them: what it publishes reaches every subscriber of its contract once, whichever server the subscriber is connected to, and no client gets the contract of another.", "quantifier": "every cluster of servers that know and reach each other; every assignment of contracts to servers; every sequence of connections, subscriptions, publishes and disconnections at its servers", "why_tests_cant": "the fault depends on which server owns a contract, which server each client uses and on connection numbers that coincide; a test would need several running servers", "anchors": ["server/internal/cluster.go:Master", "server/internal/cluster.go:Proxy", "server/internal/cluster.go:routeToContract", "server/internal/cluster.go:isRemoteContract", "server/internal/cluster.go:connGone", "server/internal/cluster.go:rpcWriteLoop", "server/internal/conn.go:subscribe", "server/internal/conn.go:unsubscribe", "server/internal/conn.go:publish", "server/internal/conn.go:newRpcConn"]}
{"id": "C89", "title": "Reported durations are those of the last events", "statement": "The statistics of durations that the database and the server report are computed from the last fifty durations recorded: the percentiles are durations that were recorded, at the rounded rank and in order between the shortest and the longest; the median splits them in halves; the averages are those of all, of the longest and of the shortest. The statistics asked of a sample and of a snapshot of it agree with this.", "quantifier": "every sequence of recorded durations and resets, every size of sample", "why_tests_cant": "a wrong rank or a sample overwritten in the wrong place shows only for particular numbers of events, and the durations of a test are not chosen by it", "anchors": ["metrics/sample.go:AddTime", "metrics/sample.go:Snapshot", "metrics/sample.go:p", "metrics/sample.go:long5p", "metrics/sample.go:short5p", "metrics/sample.go:avg", "metrics/timeseries.go:NewTimeSeries", "meter.go:Varz", "server/internal/pkg/metrics/sample.go:Snapshot"]}
{"id": "C90", "title": "Statistics are sent as whole lines", "statement": "The statistics the server sends by UDP arrive as packets of whole lines, in the order recorded and no longer than the limit unless one line is; each line is sent once or counted as lost, and recording a line never stops the server.", "quantifier": "every sequence of recorded lines, flushes, writes that work or fail, and the closing of the statistics; every limit and queue", "why_tests_cant": "a line cut in two needs a buffer that is full at that very place, and a lost packet or a line recorded while the server closes needs a race", "anchors": ["server/internal/pkg/stats/buffers.go:checkBuf", "server/internal/pkg/stats/buffers.go:flushBuf", "server/internal/pkg/stats/stats.go:Incr", "server/internal/pkg/stats/stats.go:PrecisionTiming", "server/internal/pkg/stats/stats.go:flushLoop", "server/internal/pkg/stats/stats.go:sendLoop", "server/internal/pkg/stats/stats.go:Unregister", "server/internal/pkg/stats/tags.go:formatTags"]}
{"id": "C91", "title": "A packet arrives with every field it was sent with", "statement": "Packets written to a stream by one side are read by the other in the same order, each with the value of every field: ids, delivery modes, topics, payloads, times to live, delays, credentials and options. A packet that cannot be written is refused when it is written.", "quantifier": "every sequence of connect, publish, relay, subscribe, unsubscribe, ping, disconnect and control packets with any values of their fields, and any bytes behind them", "why_tests_cant": "a field lost or cut shows only for particular values (a top bit set, an empty string, an element of a list), and a misread length only for particular sequences", "anchors": ["server/utp/message.go:pack", "server/utp/message.go:FromBinary", "server/utp/connect.go:ToBinary", "server/utp/publish.go:ToBinary", "server/utp/publish.go:FromBinary", "server/utp/subscribe.go:ToBinary", "server/utp/relay.go:ToBinary", "server/utp/flow_control.go:ToBinary", "server/internal/net/message.go:Read", "server/proto/unitdb.proto"]}
{"id": "C92", "title": "No bytes stop the reader of packets", "statement": "Whatever bytes a client sends, the server reads packets from them or gives up the connection; it does not stop.", "quantifier": "every sequence of bytes, also after packets that were read", "why_tests_cant": "a header that stops the server is one of very many and is never sent by a client of the project", "anchors": ["server/internal/net/message.go:Read", "server/utp/message.go:FromBinary", "server/utp/message.go:decodeLength", "server/internal/hdl_conn.go:readLoop"]}
{"id": "C93", "title": "A damaged packet is refused", "statement": "A packet that was cut short, that holds bytes or strings that cannot be decoded, or values that do not fit, is not handled as if it were another packet.", "quantifier": "every packet, every place where it is cut, any bytes added to it, all values of ids and delivery modes", "why_tests_cant": "clients of the project send no damaged packets, and there are many ways to damage one", "anchors": ["server/internal/net/message.go:Read", "server/utp/message.go:FromBinary", "server/utp/publish.go:FromBinary", "server/utp/subscribe.go:FromBinary", "server/utp/relay.go:FromBinary", "server/utp/connect.go:FromBinary"]}
{"id": "C94", "title": "A server serves its clients from bytes to bytes", "statement": "The packets a server hears from a connection are the packets its client wrote, in order, none twice and none from another connection. Everything the server sends to a connection can be written, and the client reads from what is written exactly the packets that were sent, with every field; so the bytes of a publish of one client become, at every reader it is meant for, the bytes of a packet with its topic, its payload and its id.", "quantifier": "every interleaving of any number of connections, any bytes of their clients, any packets with any fields, every order in which the two channels of a connection are written", "why_tests_cant": "the encoding, the handling and the delivery are tested apart, with a few topics of ASCII letters; an error shows only for particular texts at the end of the whole path", "anchors": ["server/internal/hdl_conn.go:readLoop", "server/internal/hdl_conn.go:handler", "server/internal/hdl_conn.go:writeLoop", "server/internal/conn.go:publish", "server/internal/conn.go:SendMessage", "server/internal/net/message.go:Read", "server/internal/net/message.go:Encode", "server/internal/message/security/key.go:ParseKey"]}
{"id": "C95", "title": "The nodes of a cluster come to agree on who serves a contract", "statement": "A leader counts as members of the cluster itself and exactly those nodes that did not fail its latest calls too often in a row, and a node that fails stops nobody else. Every node that has heard the leader's list twice takes the same member to serve a contract as the leader does, whoever led before and whichever nodes failed and came back.", "quantifier": "any number of nodes, every order of heartbeats, lost and delayed pings, elections, failures and restarts, every order in which maps are visited, every hash function", "why_tests_cant": "the disagreement needs a failed node, a ring rebuilt at the request of one leader and a later leader; tests start one server", "anchors": ["server/internal/cluster_leader.go:failoverInit", "server/internal/cluster_leader.go:sendPings", "server/internal/cluster_leader.go:run", "server/internal/cluster.go:rehash", "server/internal/cluster.go:call", "server/internal/pkg/hash/ringhash.go:Add", "server/internal/pkg/log/log.go:Fatal"]}
{"id": "C96", "title": "A query for the last hour returns every message of that hour", "statement": "After any history of puts, syncs and gets, a Get of topic?last=d returns exactly the live messages of that topic that were put, or whose id was drawn, not longer than d before the Get, whether they are in memory or in the files, newest first.", "quantifier": "all histories of puts, refused puts, drawn ids, syncs, rotations and gets of any length; every topic, duration and clock that is not set back behind a message before a sync; every order in which maps are visited", "why_tests_cant": "the lookup stops at the first block of 335 entries that looks older than the cutoff; the loss of a message needs several full blocks and a clock at the right second", "anchors": ["time_window.go:lookup", "time_window.go:cutoff", "time_window_writer.go:append", "message/id.go:EvalPrefix", "uid/uid.go:Time", "query.go:parse", "db.go:Get"]}
{"id": "C97", "title": "The stores of the server return the messages since a time and the subscriptions", "statement": "After any history in which the server stores subscriptions and messages for many contracts and looks for them, fetching the messages of a topic of a contract returns exactly the live messages published by that contract to the topics that cover it, with last only those not older than it, newest first; fetching the subscriptions returns exactly those of that contract to topics that cover it.", "quantifier": "all histories of subscribes, publishes with or without a ttl, fetches, syncs and rotations of any length; every contract, topic, duration and clock; every order in which maps are visited", "why_tests_cant": "subscriptions and messages share one database and differ only in a number derived from the contract; which of them a fetch finds depends on hashes, on files and on all earlier calls", "anchors": ["server/internal/store/store.go:Put", "server/internal/store/store.go:Get", "server/internal/db/unitdb/adapter.go:Get", "server/internal/db/unitdb/adapter.go:PutWithID", "server/internal/db/unitdb/adapter.go:Delete", "query.go:WithLast", "entry.go:WithTTL", "db.go:Get"]}
{"id": "C98", "title": "A server with its database does what the server with an ideal table does", "statement": "Whatever packets its clients send, and whenever its database writes its logs, rotates and syncs, a server that keeps subscriptions and messages in its database sends the same packets as one that keeps them in an ideal table; so a published message reaches exactly the subscribers it should, and nobody else.", "quantifier": "all sequences of connections, packets and losses of connections, of any number of clients and contracts, mixed in any way with the work of the database; every clock and every order in which maps are visited; every start of the database from an empty directory", "why_tests_cant": "what a publish finds depends on ids drawn, on hashes of topics, on which of the subscriptions were synced and in which order, and on every earlier packet of every client; the server and its database are tested apart", "anchors": ["server/internal/conn.go:publish", "server/internal/conn.go:subscribe", "server/internal/conn.go:unsubscribe", "server/internal/conn.go:close", "server/internal/hdl_conn.go:onPublish", "server/internal/hdl_conn.go:handler", "server/internal/store/store.go:Get", "server/internal/store/store.go:Put", "server/internal/store/store.go:Delete", "server/internal/db/unitdb/adapter.go:Get", "db.go:Get", "db.go:PutEntry"]}
{"id": "C99", "title": "Callers that ask for a metric by the same name share it, and no count is lost", "statement": "Any number of goroutines ask a registry for metrics by name and add to counters at the same time. All that asked for a counter under one name are given the same counter, counters of different names are different, and reading a counter gives the sum of everything that anyone added under its name.", "quantifier": "all interleavings, of any length, of the two locked steps of each request and of the atomic additions, of any number of goroutines, names and amounts", "why_tests_cant": "that two first requests for a name do not both make a counter depends on what happens between the two locks of one request, which a test cannot arrange; lost counts show no error", "anchors": ["server/internal/pkg/metrics/metrics.go:GetOrRegister", "server/internal/pkg/metrics/metrics.go:register", "server/internal/pkg/metrics/metrics.go:Unregister", "server/internal/pkg/metrics/counter.go:Inc", "server/internal/pkg/metrics/counter.go:Dec", "server/internal/pkg/metrics/timeseries.go:GetOrRegisterTimeSeries"]}
{"id": "C100", "title": "No two connections have the same id, also after a restart", "statement": "Every connection a server accepts is given an id under which its subscriptions are stored. No connection is given the id of another one, of the same process or of an earlier one on the same database; so what is stored for a client that is gone is never delivered to another client.", "quantifier": "all pairs of times at which processes start, and all numbers of connections of each", "why_tests_cant": "two processes share ids only for certain differences of their start times, counted in milliseconds; a test would have to restart the server at such a moment, or accept some ten thousand connections", "anchors": ["server/internal/pkg/uid/uid.go:Next", "server/internal/pkg/uid/connid.go:NewLID", "server/internal/conn.go:newConn", "server/internal/conn.go:publish", "server/internal/conn_cache.go:get"]}
{"id": "C101", "title": "From bytes to bytes, a server with its database serves its clients as one with an ideal table", "statement": "Clients write packets as bytes, the server reads them, keeps subscriptions and messages in its database, and writes packets as bytes. Whatever the clients send and whenever the database writes logs and syncs, each client that subscribed to a topic reads exactly the messages published to it, with topic, payload and delivery mode, and the publisher reads its acknowledgement.", "quantifier": "all bytes of any number of clients, all orders in which the readers of the connections take turns, and all work of the database in between; every clock and every order in which maps are visited", "why_tests_cant": "the parts are tested apart; that they fit together depends on every earlier packet of every client, on what the database has synced, and on how the bytes are cut into packets", "anchors": ["server/internal/hdl_conn.go:readLoop", "server/internal/hdl_conn.go:handler", "server/internal/hdl_conn.go:writeLoop", "server/internal/conn.go:publish", "server/internal/store/store.go:Get", "server/internal/net/message.go:Encode", "server/internal/net/message.go:Read", "db.go:Get", "db.go:PutEntry", "db_sync.go:Sync"]}
{"id": "C102", "title": "A query object can be used again", "statement": "A Get with a query object that was given to Get before returns the same as a Get with a new query with the same topic, contract and limit, also after the topic of the object was changed.", "quantifier": "all databases, all query objects, and all programs that put messages, set the topic of the object and give it to Get, in any order and at any times", "why_tests_cant": "tests make a new query for each Get; what a Get leaves in its query depends on what the earlier ones found, and on limits and times in topics", "anchors": ["db.go:Get", "query.go:parse", "query.go:NewQuery", "db_internal.go:lookup"]}
{"id": "C103", "title": "A sync that stops with an error does no harm to what was stored before", "statement": "When a Sync stops with an error, the messages of all earlier syncs, and of the time blocks this sync completed, read back byte for byte from then on, and the disk space taken for messages it did not store is free again.", "quantifier": "all histories of syncs, syncs that stop at any message of any time block, expiries and reopenings, with messages of any sizes, and all orders in which the space to be given back is visited", "why_tests_cant": "no test makes a Sync stop half way; harm shows only when the space given back is used again by a later sync", "anchors": ["block_writer.go:rollback", "block_writer.go:abort", "block_writer.go:append", "db_sync.go:abort", "db_sync.go:Sync", "leasing.go:freeBlock", "leasing.go:allocate"]}
{"id": "C104", "title": "Reading a message while a Sync runs returns that message", "statement": "A Get that has found where a message is stored on disk and reads it later, with any part of any number of Syncs and expiries of messages happening in between, returns the bytes of that message and no others.", "quantifier": "all histories of syncs, down to single appended messages and written time blocks, and of expiries, with messages of any sizes; all moments at which the two reads of a Get happen", "why_tests_cant": "the two reads of a Get are microseconds apart; which bytes lie there in between depends on the free list and on what the running Sync writes", "anchors": ["db.go:Get", "block_reader.go:readEntry", "block_reader.go:readMessage", "block_writer.go:append", "block_writer.go:write", "db_sync.go:Sync", "db_sync.go:expireEntries"]}
{"id": "C105", "title": "Keys and client ids are given out as asked and only to those entitled", "statement": "A client that asks the server for a client id gets one exactly when its own id is primary; the new id is of the same contract, and whoever connects with it gets no further ids. A client that asks for keys gets one key for each topic in order, each opening its topic in the contract of the client with exactly the rights whose letters were sent, or an error when a topic has more than 23 levels. A client gets only rights it has itself, and a key opens nothing in other contracts.", "quantifier": "all client ids, all states of the cache of clients, all lists of requested topics and letters, all contracts", "why_tests_cant": "tests ask for one key with one id; what a key opens in other contracts, and what a client without rights can ask for, needs all topics and contracts", "anchors": ["server/internal/hdl_conn.go:onSpecialRequest", "server/internal/hdl_conn.go:onClientIDRequest", "server/internal/hdl_conn.go:onKeyGen", "server/internal/types/types.go:Access", "server/internal/pkg/uid/clientid.go:NewSecondaryClientID", "server/internal/message/security/key.go:GenerateKey"]}
{"id": "C106", "title": "The path of a key ends at its shard and asking changes nothing", "statement": "The path asked for a key is what was in the buffer, then removed shards only, then the shard the key is on. Asking where a key was before the last removal names that shard and changes the place of no key.", "quantifier": "all numbers of shards up to 65535, all histories of removals and additions, all keys and buffers", "why_tests_cant": "the tests log paths without checking them; a question that changes later answers shows only when other keys are looked up afterwards", "anchors": ["hash/consistent.go:GetPath", "hash/consistent.go:FindPreviousBlock", "hash/consistent.go:FindBlock"]}
{"id": "C107", "title": "Log files are found again by their names", "statement": "In a directory of logs, unfinished logs and damaged logs, opening the write ahead log finds the numbers of exactly the logs, in the order of their last change; no two of these files share a name. Files of other programs in the directory change nothing.", "quantifier": "all directories, all 64 bit numbers, all names of files", "why_tests_cant": "tests open directories the database has written itself, with numbers of today", "anchors": ["wal/file.go:all", "wal/file.go:logPath", "wal/file.go:tmpPath", "wal/file.go:corruptPath", "wal/file.go:put"]}
{"id": "C108", "title": "The connection to another node of a cluster is kept up", "statement": "While a node is neither connected nor shut down exactly one attempt to connect to it is going on, and none otherwise. Calls to a node never end the server, a call that fails closes only the connection it was made on, and shutting the cluster down ends every connection.", "quantifier": "all interleavings of any number of calls, failures, attempts to connect and a shutdown, of any length", "why_tests_cant": "failures of calls that overlap with reconnecting depend on the scheduling of goroutines around single instructions", "anchors": ["server/internal/cluster.go:reconnect", "server/internal/cluster.go:callAsync", "server/internal/cluster.go:Start", "server/internal/cluster.go:shutdown"]}
{"id": "C109", "title": "The uptime shown is the time that has passed", "statement": "The uptime in the figures of a database, of an in-memory database and of a server, read as numbers with units, is the number of whole seconds since it was started; every number is less than one of the next larger unit, the first is not zero unless it is the only one, and units come in falling order.", "quantifier": "all durations that are not negative, from nothing to the largest there is", "why_tests_cant": "the texts with days and years are only shown after days and years", "anchors": ["meter.go:uptime", "memdb/meter.go:uptime", "server/internal/monitor.go:uptime"]}
{"id": "C110", "title": "Every connection to the shared port reaches one server or is closed", "statement": "A connection accepted on the port that the servers share is at any time in exactly one place: looked at, waiting, in the channel of a server, taken by a server or closed by the listener. A server takes only connections found to be for it, in the order they were put into its channel. When the port fails for good the listener stops by itself, without a server having to do anything, and then every connection it ever accepted was taken by one server or is closed; it never sends on a channel it has closed.", "quantifier": "any number of servers and connections, all interleavings of accepting, looking, sending, taking, errors and stopping, of any length", "why_tests_cant": "which goroutine sends, takes or closes first around the end of the listener is up to the scheduler", "anchors": ["server/internal/net/listener/listener.go:Serve", "server/internal/net/listener/listener.go:serve", "server/internal/net/listener/listener.go:Proto", "server/internal/net/listener/listener.go:Accept"]}
{"id": "C111", "title": "A connection that ends is taken down once and completely", "statement": "When a client says goodbye, its stream fails or a packet to it cannot be written, the server ends both goroutines of the connection, then deletes its subscriptions and closes its socket, exactly once however often the end is noticed, and whatever the client still sends. Other clients that publish to it at this moment are not affected.", "quantifier": "all interleavings of reading, answering, writing, noticing the end, closing and any number of publishers, of any length", "why_tests_cant": "the order of single instructions of up to four goroutines around the end of a connection decides", "anchors": ["server/internal/conn.go:close", "server/internal/conn.go:clientDisconnect", "server/internal/conn.go:internalConnLost", "server/internal/conn.go:publish", "server/internal/hdl_conn.go:readLoop", "server/internal/hdl_conn.go:writeLoop"]}
{"id": "C112", "title": "Operations of the in-memory store never wait for each other for ever", "statement": "Any number of goroutines may put, get, look up, iterate, delete, list keys, count and free at the same time, also through batches and while the log is written and rotated; every call returns.", "quantifier": "any number of goroutines, each with any sequence of operations on any blocks, and all schedules of their locks", "why_tests_cant": "a deadlock needs one goroutine to stop between two locks while another takes them the other way round", "anchors": ["memdb/db.go:Put", "memdb/db.go:Keys", "memdb/db.go:Size", "memdb/db.go:Delete", "memdb/db.go:Get", "memdb/db_internal.go:addTimeFilter", "memdb/db_internal.go:releaseLog", "memdb/db_internal.go:tinyWrite", "memdb/tiny_log.go:writeLoop", "memdb/batch.go:Put"]}
{"id": "C113", "title": "The log tells the truth about what it wrote and released, also while it is closed", "statement": "When the log reports that a log file was written, the file is in the directory with all entries that were appended, until it is reported as released, and then it is gone. Close waits for all writes that were begun, returns once, and after it the directory is not changed; every write that was begun gets an answer.", "quantifier": "all interleavings of any number of writers, releases and calls of Close, of any length", "why_tests_cant": "a write has to be begun between the two halves of a Close, or a release has to come after it", "anchors": ["wal/wal.go:Close", "wal/wal.go:SignalLogApplied", "wal/writer.go:NewWriter", "wal/writer.go:Append", "wal/writer.go:SignalInitWrite", "wal/writer.go:writeLog", "wal/file.go:put", "wal/file.go:del"]}
{"id": "C114", "title": "Operations of the database do not wait for each other for ever", "statement": "However many goroutines put, get, delete, write and commit batches, sync and close, and whatever the expirer and the writers of the log do at the same time, none of them waits for ever for a lock: as long as one is not finished, one of them can go on, and all are finished after finitely many steps.", "quantifier": "all numbers of goroutines, all lists of operations of each, and all interleavings of their single steps", "why_tests_cant": "a deadlock needs a rare order of steps of several goroutines; the race detector does not look for it", "anchors": ["db.go:Get", "db.go:PutEntry", "db.go:DeleteEntry", "db.go:Sync", "batch.go:Write", "batch.go:Commit", "db_internal.go:close", "db_sync.go:Sync", "db_sync.go:expireEntries", "time_window.go:add", "time_window.go:ilookup", "expiry_window.go:getExpiredEntries", "expiry_window.go:addExpiry", "trie.go:add"]}
{"id": "C115", "title": "Using the database from many goroutines does not end the process", "statement": "Put, Get, Delete, Sync, Close and the expirer may be called at the same time from any number of goroutines: no table of topics, of recent messages, of expiries or of free space is ever changed while another goroutine reads or changes it, which the Go runtime answers by ending the whole process.", "quantifier": "all numbers of goroutines, all lists of operations of each, all tables and all interleavings of single steps", "why_tests_cant": "the two accesses have to fall into the same few nanoseconds; the race detector sees only the orders that happened", "anchors": ["trie.go:add", "trie.go:lookup", "trie.go:getOffset", "trie.go:setOffset", "time_window.go:add", "time_window.go:release", "time_window.go:ilookup", "expiry_window.go:addExpiry", "expiry_window.go:getExpiredEntries", "leasing.go:freeBlock", "leasing.go:allocate", "leasing.go:defrag", "db_internal.go:close", "memdb/db.go:Get", "memdb/db.go:Put", "memdb/db.go:Delete", "memdb/db_internal.go:seek", "memdb/db_internal.go:releaseLog", "memdb/time_mark.go:release"]}
{"id": "C116", "title": "Clients of the server cannot end it by doing things at the same time", "statement": "Any number of clients connect, subscribe, unsubscribe, publish and disconnect at the same time, messages are batched, and packets are forwarded to other nodes: no table of connections, message ids, subscriptions, batches or forwardings is ever changed while another goroutine reads or changes it, which the Go runtime answers by ending the whole server.", "quantifier": "all numbers of goroutines and connections, all lists of operations of each, all tables and all interleavings of single steps", "why_tests_cant": "the two accesses have to fall into the same few nanoseconds; the race detector sees only the orders that happened", "anchors": ["server/internal/conn_cache.go:add", "server/internal/conn_cache.go:get", "server/internal/conn_cache.go:delete", "server/internal/message/messageids.go:NextID", "server/internal/message/sub.go:Increment", "server/internal/message/sub.go:Decrement", "server/internal/batch.go:add", "server/internal/batch.go:publishLoop", "server/internal/cluster.go:routeToContract", "server/internal/cluster.go:connGone", "server/internal/conn.go:publish", "server/internal/conn.go:subscribe"]}
