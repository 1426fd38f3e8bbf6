{
 "claims": [
  {
   "property": "C01",
   "status": "proved",
   "theorems": [
    "Verif.C01_header_roundtrip"
   ],
   "note": ""
  },
  {
   "property": "C02",
   "status": "partial",
   "theorems": [
    "Verif.C02_flag_read",
    "Verif.C02_violated",
    "Verif.C02_flag_partial"
   ],
   "note": "Refuted in full: the header reader takes the flag from the low byte of the version, so with format version 1 every database reopens as encrypted. The partial theorem says exactly when the flag survives."
  },
  {
   "property": "C03",
   "status": "proved",
   "theorems": [
    "Verif.C03_index_block_roundtrip"
   ],
   "note": ""
  },
  {
   "property": "C04",
   "status": "proved",
   "theorems": [
    "Verif.C04_window_block_roundtrip"
   ],
   "note": ""
  },
  {
   "property": "C05",
   "status": "proved",
   "theorems": [
    "Verif.C05_log_header_roundtrip",
    "Verif.C05_records_roundtrip"
   ],
   "note": ""
  },
  {
   "property": "C06",
   "status": "partial",
   "theorems": [
    "Verif.C06_entry_header_roundtrip",
    "Verif.C06_record_partial",
    "Verif.C06_record_file_partial",
    "Verif.C06_long_topic_violated"
   ],
   "note": "Proved for every id, topic and value whose sizes fit their fields, from memory and from the files. A topic of 13106 levels is lost: its size wraps to zero (C06_long_topic_violated)."
  },
  {
   "property": "C07",
   "status": "proved",
   "theorems": [
    "Verif.C07_id_fields",
    "Verif.C07_set_contract",
    "Verif.C07_ids_distinct",
    "Verif.C07_not_sorted_violated"
   ],
   "note": "The comment in message/id.go that identifiers sort by time is also checked: C07_not_sorted_violated refutes it."
  },
  {
   "property": "C08",
   "status": "proved",
   "theorems": [
    "Verif.C08_topic_roundtrip",
    "Verif.C08_too_deep"
   ],
   "note": ""
  },
  {
   "property": "C09",
   "status": "proved",
   "theorems": [
    "Verif.C09_key_text",
    "Verif.C09_id_text"
   ],
   "note": ""
  },
  {
   "property": "C10",
   "status": "proved",
   "theorems": [
    "Verif.C10_free_space_survives",
    "Verif.C10_first_block_lost"
   ],
   "note": "Blocks at offset 0 are excluded in the statement; C10_first_block_lost shows they are indeed lost."
  },
  {
   "property": "C11",
   "status": "partial",
   "theorems": [
    "Verif.C11_float_exact",
    "Verif.C11_violated",
    "Verif.C11_positions_partial"
   ],
   "note": "Refuted in full: the block offset is computed in 32 bits and overflows at block 2^19. The partial theorem covers every sequence number below that block."
  },
  {
   "property": "C12",
   "status": "proved",
   "theorems": [
    "Verif.C12_ranges_exact",
    "Verif.C12_unordered_refused"
   ],
   "note": ""
  },
  {
   "property": "C13",
   "status": "proved",
   "theorems": [
    "Verif.C13_shard_exists",
    "Verif.C13_large_table"
   ],
   "note": ""
  },
  {
   "property": "C14",
   "status": "proved",
   "theorems": [
    "Verif.C14_removal_moves_only_its_keys",
    "Verif.C14_last_shard_violated",
    "Verif.C14_spare_shards_violated"
   ],
   "note": "C14_last_shard_violated and C14_spare_shards_violated show that both side conditions are needed (removing the only shard has no effect; a hash created with spare shards can loop forever)."
  },
  {
   "property": "C15",
   "status": "partial",
   "theorems": [
    "Verif.C15_exact_topic_found_partial",
    "Verif.C15_hash_clash_violated"
   ],
   "note": "Refuted in full: two topics with the same 64-bit hash (a.b and b.a) leave the second unfindable. Proved for every history in which no other topic has the hash and no stored topic begins with a star."
  },
  {
   "property": "C16",
   "status": "partial",
   "theorems": [
    "Verif.C16_covers_exact_partial",
    "Verif.C16_leading_star_violated",
    "Verif.C16_parent_not_matched"
   ],
   "note": "Refuted for stored topics that begin with a star. Proved exactly (both directions, any history) otherwise, excluding 32-bit level hash collisions and more than 254 levels."
  },
  {
   "property": "C17",
   "status": "partial",
   "theorems": [
    "Verif.C17_reordered_levels_clash",
    "Verif.C17_violated",
    "Verif.C17_wildcard_preimage_violated",
    "Verif.C17_same_hash_partial"
   ],
   "note": "Refuted: the topic hash is an exclusive-or of level hashes, so reordered levels clash; a level that hashes to the wildcard constant is returned everywhere. The partial theorem bounds what can clash."
  },
  {
   "property": "C18",
   "status": "proved",
   "theorems": [
    "Verif.C18_contracts_isolated",
    "Verif.C18_put_sets_contract"
   ],
   "note": "For Get over any store contents and the contract check on the stored id; that a put stores its contract is C18_put_sets_contract."
  },
  {
   "property": "C19",
   "status": "partial",
   "theorems": [
    "Verif.C19_fresh_partial",
    "Verif.C19_first_topic",
    "Verif.C19_reuse_violated"
   ],
   "note": "Proved for the first put of an entry object. Every later put of the same object files under the first topic (C19_first_topic, C19_reuse_violated)."
  },
  {
   "property": "C20",
   "status": "proved",
   "theorems": [
    "Verif.C20_at_most_limit"
   ],
   "note": ""
  },
  {
   "property": "C21",
   "status": "partial",
   "theorems": [
    "Verif.C21_limit_partial",
    "Verif.C21_two_blocks_violated",
    "Verif.C21_topics_violated",
    "Verif.C21_newest_first_partial",
    "Verif.C21_repeats_violated",
    "Verif.C21_reused_query_violated"
   ],
   "note": "C21_limit_partial: through the API, for histories of puts, syncs and Gets, a Get with a limit on one topic (nothing of it expired, its unsynced messages in one time block, not the topic synced first, no cutoff) returns exactly the newest messages, newest first. At the level of the candidates, proved whenever the lookup yields no candidate twice. Refuted in general: C21_repeats_violated (an expired message among the newest makes the lookup add a block twice), C21_reused_query_violated (a reused Query keeps its candidates), C21_two_blocks_violated (unsynced messages in two time blocks are taken in map order) and C21_topics_violated (of several matching topics the one with the largest window offset is taken first)."
  },
  {
   "property": "C22",
   "status": "partial",
   "theorems": [
    "Verif.C22_ends",
    "Verif.C22_no_crash_partial",
    "Verif.C22_overrun_violated"
   ],
   "note": "Termination is proved for every input. A crash is refuted only outside the range limit < candidates < limit + invalid candidates; C22_overrun_violated is a crash inside it, reachable with three time blocks and a last-duration query."
  },
  {
   "property": "C23",
   "status": "partial",
   "theorems": [
    "Verif.C23_no_expired_partial",
    "Verif.C23_reused_query_violated"
   ],
   "note": "For a new query; a query used before keeps the candidates of its previous Get and returns them though they have expired since (C23_reused_query_violated)."
  },
  {
   "property": "C24",
   "status": "proved",
   "theorems": [
    "Verif.C24_get_not_older",
    "Verif.C24_cutoff_exact",
    "Verif.C24_last_duration",
    "Verif.C24_last_negative"
   ],
   "note": "C24_last_duration and C24_last_negative say which cutoff the option last in the text of a topic gives."
  },
  {
   "property": "C25",
   "status": "partial",
   "theorems": [
    "Verif.C25_nothing_hidden_partial",
    "Verif.C25_expired_hides_violated"
   ],
   "note": "Proved for window contents without expired entries, any number of time blocks in memory and any history of syncs, for every topic but the first one synced. Refuted with expired entries (C25_expired_hides_violated): an expired newest entry uses up a slot."
  },
  {
   "property": "C26",
   "status": "partial",
   "theorems": [
    "Verif.C26_default",
    "Verif.C26_max_partial",
    "Verif.C26_get_max_partial",
    "Verif.C26_max_violated",
    "Verif.C26_withLast_default_violated",
    "Verif.C26_last_count"
   ],
   "note": "The default is proved for queries that name no limit in the query or the topic. The maximum is proved for topics with the option last; refuted without it (C26_max_violated), and WithLast uses the built-in instead of the configured default (C26_withLast_default_violated). C26_last_count gives cutoff and limit exactly for a topic text with a positive number."
  },
  {
   "property": "C27",
   "status": "partial",
   "theorems": [
    "Verif.C27_ttl_option_partial",
    "Verif.C27_withTTL_partial",
    "Verif.C27_option_seconds_violated",
    "Verif.C27_option_past_violated",
    "Verif.C27_withTTL_seconds_violated",
    "Verif.C27_ttl_text_partial"
   ],
   "note": "Proved for time-to-live texts that are durations of whole seconds, up to the year 2106. Refuted for plain numbers of seconds in the topic option and in WithTTL. time.ParseDuration is a parameter."
  },
  {
   "property": "C28",
   "status": "partial",
   "theorems": [
    "Verif.C28_synced_readable_partial",
    "Verif.C28_sync_succeeds",
    "Verif.C28_absent_not_found",
    "Verif.C28_long_topic_violated"
   ],
   "note": "For every history of syncs, single expiries and reopenings. Bounds: 255*524287 sequences (C11), data file below 2^63 bytes, topics of at most 65526 bytes; C28_long_topic_violated shows the last bound is needed."
  },
  {
   "property": "C29",
   "status": "proved",
   "theorems": [
    "Verif.C29_restarts_partial",
    "Verif.C29_each_once",
    "Verif.C29_resync_changes_nothing"
   ],
   "note": "For the index files, for every history of syncs, single expiries and reopenings; C29_restarts_partial adds that the messages of a database keep increasing sequences through restarts. After a crash in the middle of a Sync the index still holds one entry, but the window of the topic lists it twice (C69_mid_sync_violated)."
  },
  {
   "property": "C30",
   "status": "partial",
   "theorems": [
    "Verif.C30_delete_corrupts_violated",
    "Verif.C30_no_overlap_partial",
    "Verif.C30_double_expiry_violated"
   ],
   "note": "Proved for histories in which an entry expires at most once and reopening finds nothing to merge. Refuted without the first restriction (C30_double_expiry_violated) and after deletes (C30_delete_corrupts_violated); the second is refuted in C31."
  },
  {
   "property": "C31",
   "status": "partial",
   "theorems": [
    "Verif.C31_free_space_partial",
    "Verif.C31_double_allocation_violated",
    "Verif.C31_violated"
   ],
   "note": "Refuted for defragmentation that merges neighbouring blocks (C31_violated, C31_double_allocation_violated: two allocations get the same range). Proved for every other history."
  },
  {
   "property": "C32",
   "status": "partial",
   "theorems": [
    "Verif.C32_all_reachable_partial",
    "Verif.C32_first_topic_violated",
    "Verif.C32_reached_is_suffix"
   ],
   "note": "Proved for every topic but the one synced first; C32_first_topic_violated refutes it for that topic. C32_reached_is_suffix holds for all topics. Window files up to 2 GiB."
  },
  {
   "property": "C33",
   "status": "partial",
   "theorems": [
    "Verif.C33_older_id_violated",
    "Verif.C33_reopen_partial",
    "Verif.C33_get_partial",
    "Verif.C33_reopen_first_335",
    "Verif.C33_reopen_same_partial",
    "Verif.C33_newest_lost_violated"
   ],
   "note": "Proved for whole databases through any number of clean restarts (C33_reopen_partial, C33_get_partial): histories of puts without ids, gets, syncs and log writes, topics with at most 335 messages, the database opened in a later second than its logs, and not for the topic synced first. Refuted above 335 (C33_newest_lost_violated; C33_reopen_first_335 says exactly what is found) and for an id of NewID used after a later message of a new topic (C33_older_id_violated)."
  },
  {
   "property": "C34",
   "status": "partial",
   "theorems": [
    "Verif.C34_count_partial",
    "Verif.C34_restarts_partial",
    "Verif.C34_unsynced_violated",
    "Verif.C34_delete_missing_violated",
    "Verif.C34_delete_unsynced_violated"
   ],
   "note": "Proved for histories of puts, syncs, clean restarts and crashes outside a Sync (C34_count_partial, C34_restarts_partial): the count is the number of messages less those not yet synced. Violated otherwise: unsynced messages are not counted, a delete of a missing or unsynced message decrements (concrete witnesses)."
  },
  {
   "property": "C35",
   "status": "partial",
   "theorems": [
    "Verif.C35_synced_violated"
   ],
   "note": "Violated for synced messages: the deleted index entry is never written."
  },
  {
   "property": "C36",
   "status": "proved",
   "theorems": [
    "Verif.C36_immutable",
    "Verif.C36_batch_immutable"
   ],
   "note": "for every history of calls on one opened database"
  },
  {
   "property": "C37",
   "status": "proved",
   "theorems": [
    "Verif.C37_closed",
    "Verif.C37_unchanged",
    "Verif.C37_delete_panics"
   ],
   "note": "Sync and DeleteEntry do not return an error after Close: a delete panics and a sync waits for ever; the theorem says what each call does"
  },
  {
   "property": "C38",
   "status": "partial",
   "theorems": [
    "Verif.C38_increasing_partial",
    "Verif.C38_restart",
    "Verif.C38_crash_violated",
    "Verif.C38_logged_violated",
    "Verif.C38_closed_violated"
   ],
   "note": "proved for every life without a crash in which nothing is handed out after Close; violated by crashes and by NewID after Close (concrete witnesses)"
  },
  {
   "property": "C39",
   "status": "partial",
   "theorems": [
    "Verif.C39_refines_partial",
    "Verif.C39_bloom_partial",
    "Verif.C39_reput_violated",
    "Verif.C39_cache_violated",
    "Verif.C39_violated",
    "Verif.C39_clock_violated",
    "Verif.C39_full_violated",
    "Verif.C39_freed_violated",
    "Verif.C39_get_terminates"
   ],
   "note": "Refuted in full: a key put again after a block rotation comes back after delete (C39_reput_violated) or is read stale (C39_cache_violated); also when the clock goes back, a buffer is full or a block was freed. Proved as a refinement of a map for histories that put only absent keys with a clock that does not go back, with any filter without false negatives and with the code's Bloom filter. Termination of Get holds in every state."
  },
  {
   "property": "C40",
   "status": "partial",
   "theorems": [
    "Verif.C40_read_back_partial",
    "Verif.C40_accepts",
    "Verif.C40_huge_violated"
   ],
   "note": "Proved for records below 4 GiB, any history and buffer size; C40_huge_violated shows larger ones wrap the length field."
  },
  {
   "property": "C41",
   "status": "partial",
   "theorems": [
    "Verif.C41_crash_atomic_partial",
    "Verif.C41_completed",
    "Verif.C41_unordered_writes_violated"
   ],
   "note": "For writes that reach the disk in order and atomic rename. C41_unordered_writes_violated shows the assumption is needed, since the code never calls fsync."
  },
  {
   "property": "C42",
   "status": "partial",
   "theorems": [
    "Verif.C42_replay_partial",
    "Verif.C42_puts_partial",
    "Verif.C42_reput_violated",
    "Verif.C42_tombstone_lost_violated",
    "Verif.C42_wrong_block_violated",
    "Verif.C42_short_payload_violated"
   ],
   "note": "Refuted in full by four witnesses: delete then put again is lost, tombstones vanish with the block that held them, a tombstone naming a recovered block is skipped, a short flagged payload panics. Proved: any logs in which no key is put in two logs and tombstones do not name a recovered block lacking the key replay to last puts minus deletes, for all map orders; and every put-only history recovers exactly what reached a log."
  },
  {
   "property": "C43",
   "status": "proved",
   "theorems": [
    "Verif.C43_release_exact",
    "Verif.C43_release_only_logs",
    "Verif.C43_reset_clears"
   ],
   "note": ""
  },
  {
   "property": "C44",
   "status": "partial",
   "theorems": [
    "Verif.C44_db_panics_violated",
    "Verif.C44_db_written_violated",
    "Verif.C44_db_abort_violated",
    "Verif.C44_db_unwritten_partial",
    "Verif.C44_panics_violated",
    "Verif.C44_visible_violated",
    "Verif.C44_abort_keeps_violated",
    "Verif.C44_abort_partial"
   ],
   "note": "Refuted for every batch: Abort asserts that the batch is not managed, so a failing function makes Batch panic and its writes stay visible; a caller-run batch that aborts after a write leaves entries in the time window whose Get fails. Proved: a function that fails before writing changes nothing but the last sequence; a caller-run batch of the in-memory store that aborts loses the blocks it had written."
  },
  {
   "property": "C45",
   "status": "partial",
   "theorems": [
    "Verif.C45_no_false_negative",
    "Verif.C45_reopen_violated",
    "Verif.C45_violated"
   ],
   "note": "Proved for the filter itself (any keys, any history, also after saving and loading). Refuted for the database: C45_reopen_violated, because each session starts an empty filter and only the previous file is consulted."
  },
  {
   "property": "C46",
   "status": "proved",
   "theorems": [
    "Verif.C46_decrypt_encrypt",
    "Verif.C46_short_payload"
   ],
   "note": "Assumes only that the AEAD opens what it sealed under the same nonce and additional data (Aead.Sound)."
  },
  {
   "property": "C47",
   "status": "proved",
   "theorems": [
    "Verif.C47_unrolled_is_fold",
    "Verif.C47_salted_is_permuted_fold",
    "Verif.C47_single_byte_change"
   ],
   "note": ""
  },
  {
   "property": "C48",
   "status": "proved",
   "theorems": [
    "Verif.C48_length_round_trip",
    "Verif.C48_limit"
   ],
   "note": ""
  },
  {
   "property": "C49",
   "status": "proved",
   "theorems": [
    "Verif.C49_prefix",
    "Verif.C49_all_delivered",
    "Verif.C49_empty_buffer_loses"
   ],
   "note": "delivery of all bytes needs reads with a non-empty buffer; a read into an empty buffer loses a message (C49_empty_buffer_loses)"
  },
  {
   "property": "C50",
   "status": "partial",
   "theorems": [
    "Verif.C50_distinct_partial",
    "Verif.C50_resumed_partial",
    "Verif.C50_resume_blocks_violated",
    "Verif.C50_wire_repeats_violated",
    "Verif.C50_wire_runs_exist"
   ],
   "note": "ids handed out are distinct; violated: NextID calls itself while holding its lock when it meets a resumed id, and the 16-bit wire id repeats"
  },
  {
   "property": "C51",
   "status": "proved",
   "theorems": [
    "Verif.C51_client_id_round_trip",
    "Verif.C51_client_id_fields"
   ],
   "note": ""
  },
  {
   "property": "C52",
   "status": "proved",
   "theorems": [
    "Verif.C52_key_opens_topic",
    "Verif.C52_key_opens_only",
    "Verif.C52_too_long",
    "Verif.C52_request"
   ],
   "note": ""
  },
  {
   "property": "C53",
   "status": "proved",
   "theorems": [
    "Verif.C53_present",
    "Verif.C53_first",
    "Verif.C53_last"
   ],
   "note": ""
  },
  {
   "property": "C54",
   "status": "proved",
   "theorems": [
    "Verif.C54_one_winner",
    "Verif.C54_agreement",
    "Verif.C54_no_wrong_leader"
   ],
   "note": "any cluster size, schedule and loss, without restarts (C67)"
  },
  {
   "property": "C55",
   "status": "proved",
   "theorems": [
    "Verif.C55_member",
    "Verif.C55_order_independent",
    "Verif.C55_minimal_move"
   ],
   "note": ""
  },
  {
   "property": "C56",
   "status": "partial",
   "theorems": [
    "Verif.C56_prefix_partial",
    "Verif.C56_exact_partial",
    "Verif.C56_empty_set_violated"
   ],
   "note": "For a non-empty set; the empty set accepts everything (C56_empty_set_violated)."
  },
  {
   "property": "C57",
   "status": "proved",
   "theorems": [
    "Verif.C57_key_injective",
    "Verif.C57_isolated",
    "Verif.C57_list"
   ],
   "note": ""
  },
  {
   "property": "C58",
   "status": "partial",
   "theorems": [
    "Verif.C58_once_partial",
    "Verif.C58_batch_size_partial",
    "Verif.C58_twice_violated",
    "Verif.C58_order_violated",
    "Verif.C58_close_loses_violated",
    "Verif.C58_delivery_partial",
    "Verif.C58_full_drops_violated"
   ],
   "note": "proved up to the queue for schedules in which the publish loop does not read the map while an add is blocked, and beyond it while the channel has room; violated: batch enqueued twice, order across time ids, messages lost at close and when the channel is full"
  },
  {
   "property": "C59",
   "status": "partial",
   "theorems": [
    "Verif.C59_decrypt_overwrites",
    "Verif.C59_decrypt_twice_violated",
    "Verif.C59_failed_decrypt_partial"
   ],
   "note": "Violated: Decrypt opens in place, so after a successful call the caller's buffer no longer holds the sealed message and a second Decrypt fails (C59_decrypt_twice_violated). Proved: exactly what the buffer holds afterwards, and that a call that fails leaves it alone (C59_failed_decrypt_partial)."
  },
  {
   "property": "C60",
   "status": "partial",
   "theorems": [
    "Verif.C60_read_key_publishes_violated",
    "Verif.C60_write_key_refused",
    "Verif.C60_publish_partial"
   ],
   "note": "Violated in both directions: a read-only key publishes (C60_read_key_publishes_violated), and a key with write but without read permission never does (C60_write_key_refused, for every contract, topic and permission set). C60_publish_partial: a granted publish still carries a key whose target matches the topic."
  },
  {
   "property": "C61",
   "status": "partial",
   "theorems": [
    "Verif.C61_contract_violated",
    "Verif.C61_contract_partial",
    "Verif.C61_cache_stays"
   ],
   "note": "Violated for every sound cipher: the cache is consulted with four characters of the text before the text is checked (C61_contract_violated). C61_contract_partial: with no cached entry for these characters the connection gets exactly the id its text encodes. C61_cache_stays: an entry once cached is never replaced."
  },
  {
   "property": "C62",
   "status": "partial",
   "theorems": [
    "Verif.C62_crash_iff",
    "Verif.C62_publish_crash_violated",
    "Verif.C62_no_crash_partial"
   ],
   "note": "Violated: a topic text that is empty or all slashes panics the handler (C62_publish_crash_violated); C62_crash_iff: exactly these texts do; C62_no_crash_partial: every other text gets a verdict."
  },
  {
   "property": "C63",
   "status": "partial",
   "theorems": [
    "Verif.C63_protobuf",
    "Verif.C63_packets_in_order_partial",
    "Verif.C63_ping_ack_violated"
   ],
   "note": "Proved for every sequence of packets but the acknowledgement of a ping, which is read as a ping (C63_ping_ack_violated); C63_protobuf shows that the headers in use meet the conditions on header codecs."
  },
  {
   "property": "C64",
   "status": "partial",
   "theorems": [
    "Verif.C64_shared_key_violated",
    "Verif.C64_keyless_violated",
    "Verif.C64_partial"
   ],
   "note": "violated: requests with the same key and different topics share a counter; a request without key is not counted"
  },
  {
   "property": "C65",
   "status": "partial",
   "theorems": [
    "Verif.C65_resume_partial",
    "Verif.C65_clean_session",
    "Verif.C65_bit4_violated",
    "Verif.C65_third_connect_violated"
   ],
   "note": "violated: ids with bit 4 set are not resumed, and the third connect of a session finds another session id; proved: what a connect with a clean session leaves (C65_clean_session)"
  },
  {
   "property": "C66",
   "status": "partial",
   "theorems": [
    "Verif.C66_reset_deletes_session_violated",
    "Verif.C66_partial"
   ],
   "note": "violated: the session record of a key that falls in the packet range is deleted"
  },
  {
   "property": "C67",
   "status": "partial",
   "theorems": [
    "Verif.C67_restart_violated"
   ],
   "note": "violated: a restarted node forgets its term and votes twice"
  },
  {
   "property": "C68",
   "status": "partial",
   "theorems": [
    "Verif.C68_after_batch_violated",
    "Verif.C68_first_topic_violated",
    "Verif.C68_put_get_partial",
    "Verif.C68_sync_succeeds",
    "Verif.C68_stale_violated",
    "Verif.C68_any_order_partial"
   ],
   "note": "C68_put_get_partial: histories with committed batches, without deletes and restarts, in which no Get precedes a Sync, topics that do not start with a wildcard and whose level hashes do not collide, not for the topic synced first, and if the messages asked for fit the limit. C68_any_order_partial: Gets and Syncs in any order (without batches, and with no Sync behind the second of a message), for messages that were not in memory when a Sync came after a Get had looked there, or for all if a buffer given back to the pool does not read as a record. Refuted outside: such a buffer is read after a Sync (C68_stale_violated), the topic synced first loses messages (C68_first_topic_violated); a put in the same second as a batch makes Gets fail (C68_after_batch_violated)."
  },
  {
   "property": "C69",
   "status": "partial",
   "theorems": [
    "Verif.C69_reused_violated",
    "Verif.C69_mid_sync_violated",
    "Verif.C69_before_sync_violated",
    "Verif.C69_deleted_first_violated",
    "Verif.C69_open_panics_violated",
    "Verif.C69_crash_partial"
   ],
   "note": "Proved (C69_crash_partial): after a history of puts, gets, syncs, log writes and restarts, and a crash outside a Sync, Open succeeds and Gets return the first k messages, k at least the number written to logs; conditions as for C33. Violated: nothing is recovered before the first sync, a deleted first message takes its topic with it, recovery can make Open panic, sequences handed out after the last header write are used again and a message is lost (C69_reused_violated), a crash in the middle of a Sync makes a Get return a message twice (C69_mid_sync_violated)."
  },
  {
   "property": "C70",
   "status": "partial",
   "theorems": [
    "Verif.C70_others_partial",
    "Verif.C70_unsynced_violated"
   ],
   "note": "Proved for messages of topics the Get does not ask for, as long as nothing is synced after the delete. Refuted within a topic (C70_unsynced_violated) and for later syncs (C30_delete_corrupts_violated)."
  },
  {
   "property": "C71",
   "status": "partial",
   "theorems": [
    "Verif.C71_put_panics_partial",
    "Verif.C71_short_violated",
    "Verif.C71_zero_violated",
    "Verif.C71_id_violated"
   ],
   "note": "Exactly when a fresh entry makes Put panic; violated for short encrypted values, zero sequences and short ids."
  },
  {
   "property": "C72",
   "status": "partial",
   "theorems": [
    "Verif.C72_commit_partial",
    "Verif.C72_full_violated"
   ],
   "note": "Proved for batches whose writes all succeed, followed by a rotation of the log, with the restrictions of C68. Refuted when the buffer fills up: the error of writeInternal is lost and the commit succeeds (C72_full_violated)."
  },
  {
   "property": "C73",
   "status": "partial",
   "theorems": [
    "Verif.C73_delete_panics_violated",
    "Verif.C73_delete_partial"
   ],
   "note": "Refuted: Delete on a batch panics on every mutable database, since the empty payload is too short to encrypt. Proved: DeleteEntry with a longer payload does what DeleteEntry of the database does."
  },
  {
   "property": "C74",
   "status": "partial",
   "theorems": [
    "Verif.C74_after_open_violated",
    "Verif.C74_put_accepted_partial"
   ],
   "note": "Proved for databases after any history of puts without ids, gets, syncs, restarts and crashes, entries not used before, topics of at most 254 levels, values that can be encrypted. Refuted right after an Open within the second of a recovered log (C74_after_open_violated)."
  },
  {
   "property": "C75",
   "status": "proved",
   "theorems": [
    "Verif.C75_put",
    "Verif.C75_get",
    "Verif.C75_delete",
    "Verif.C75_batch_put",
    "Verif.C75_batch_delete"
   ],
   "note": ""
  },
  {
   "property": "C76",
   "status": "partial",
   "theorems": [
    "Verif.C76_windows",
    "Verif.C76_filed",
    "Verif.C76_gets",
    "Verif.C76_twice_violated",
    "Verif.C76_live_violated"
   ],
   "note": "Proved: what the expirer takes is what Gets filed, never more often and never before its time (C76_windows); Gets file only expired messages that were put (C76_filed); a run changes the answer of no Get (C76_gets). Refuted: a message met by two Gets is counted out twice (C76_twice_violated), and is freed again after its space went to another message, which a later Sync then overwrites (C76_live_violated)."
  },
  {
   "property": "C77",
   "status": "partial",
   "theorems": [
    "Verif.C77_taken_partial",
    "Verif.C77_never_violated",
    "Verif.C77_second_violated"
   ],
   "note": "Proved for times of expiry that hash into the first of 100000 shards (C77_taken_partial). Refuted for all others: never removed (C77_never_violated, for every such time; C77_second_violated through the API)."
  },
  {
   "property": "C78",
   "status": "partial",
   "theorems": [
    "Verif.C78_found_partial",
    "Verif.C78_exact_partial",
    "Verif.C78_lost_violated"
   ],
   "note": "Proved: for every interleaving, if what two topics of one burst have in common from the contract on was already stored, queries find what they find after sequential puts (C78_found_partial, C78_exact_partial). Refuted otherwise: two first topics of a contract, added at the same time, hide one another for good (C78_lost_violated)."
  },
  {
   "property": "C79",
   "status": "partial",
   "theorems": [
    "Verif.C79_meanwhile_partial",
    "Verif.C79_returns_partial",
    "Verif.C79_afterwards_partial",
    "Verif.C79_lost_violated",
    "Verif.C79_unseen_violated"
   ],
   "note": "Proved for every interleaving of puts, Gets, log writes and drawn ids (C79_meanwhile_partial, C79_returns_partial, C79_afterwards_partial), with each addition to the trie taken as one step (its races are C78) and no rotation of the tiny log or Sync while a put is under way. Refuted with them: a Sync between the two halves of a put loses an acknowledged message (C79_lost_violated); a rotation between them makes an acknowledged message fail to be read until the next Sync (C79_unseen_violated)."
  },
  {
   "property": "C80",
   "status": "partial",
   "theorems": [
    "Verif.C80_stored_partial",
    "Verif.C80_skipped_violated",
    "Verif.C80_unreported_violated",
    "Verif.C80_mixed_violated"
   ],
   "note": "Proved for every database through restarts and a crash, one call at a time (C80_stored_partial; with puts whose id is drawn by the database, and the restrictions of C33). Refuted otherwise: a message put with an id drawn earlier than the last sync is skipped without an error (C80_skipped_violated); a Sync while a put is under way gives up half way and still returns no error, and Count drops below zero (C80_unreported_violated); after it, a Get of one topic returns the message of another and none is found under its own (C80_mixed_violated)."
  },
  {
   "property": "C81",
   "status": "partial",
   "theorems": [
    "Verif.C81_alone_partial",
    "Verif.C81_refused_partial",
    "Verif.C81_close_partial",
    "Verif.C81_crash_partial",
    "Verif.C81_alone_violated",
    "Verif.C81_close_violated",
    "Verif.C81_failed_violated"
   ],
   "note": "Proved for every sequence of system calls in which no Close removes the lock file between the two system calls of an Open (C81_alone, C81_refused, C81_close), and after a crash of all programs (C81_crash). Refuted otherwise: two databases open on one directory (C81_alone_violated, C81_close_violated); an Open that failed keeps the lock (C81_failed_violated). Only the Unix lock is modelled."
  },
  {
   "property": "C82",
   "status": "partial",
   "theorems": [
    "Verif.C82_logged_partial",
    "Verif.C82_ends",
    "Verif.C82_batch_partial",
    "Verif.C82_logged_violated",
    "Verif.C82_unreported_violated",
    "Verif.C82_batch_hangs_violated",
    "Verif.C82_batch_panics_violated"
   ],
   "note": "Close returns, for every schedule (C82_ends). The messages are in the log if the queue of logs never was full and no write failed (C82_logged_partial); a batch needs only the second (C82_batch_partial). Refuted otherwise: a full queue drops a log (C82_logged_violated) and makes the Write of a batch hang (C82_batch_hangs_violated); a failed write is only printed (C82_unreported_violated); a batch finishing during Close panics (C82_batch_panics_violated)."
  },
  {
   "property": "C83",
   "status": "partial",
   "theorems": [
    "Verif.C83_sent_partial",
    "Verif.C83_fetched_partial",
    "Verif.C83_only_readers_violated",
    "Verif.C83_same_id_violated",
    "Verif.C83_id_zero_violated",
    "Verif.C83_mode_violated",
    "Verif.C83_limit_violated",
    "Verif.C83_codec"
   ],
   "note": "Proved for every history in which clients behave as C84 asks: exactly what is sent and batched for a packet with a non-zero id whose messages the store takes (C83_sent_partial), and that a notified reader fetches the packet, also after other publishes that do not use its id (C83_fetched_partial). Refuted otherwise: the packet fetched also holds messages of topics the reader did not subscribe to (C83_only_readers_violated); two publishers using one id lose a message (C83_same_id_violated); id zero (C83_id_zero_violated), delivery modes from 3 (C83_mode_violated), subscriptions beyond the query limit (C83_limit_violated) get nothing."
  },
  {
   "property": "C84",
   "status": "partial",
   "theorems": [
    "Verif.C84_serves_partial",
    "Verif.C84_before_connect_violated",
    "Verif.C84_subscribe_violated",
    "Verif.C84_put_violated",
    "Verif.C84_resumed_violated"
   ],
   "note": "Proved for every history in which a client sends topics only after its CONNECT succeeded, no topic is made of slashes alone, CONNECT asks for a clean session and the message store does not panic (C84_serves_partial). Refuted otherwise: one packet before CONNECT stops the server (C84_before_connect_violated, C84_subscribe_violated); after a resumed session the first error hangs on a lock it holds (C84_resumed_violated); a payload the store panics on (see C71) stops the server (C84_put_violated)."
  },
  {
   "property": "C85",
   "status": "partial",
   "theorems": [
    "Verif.C85_sent_partial",
    "Verif.C85_session_violated"
   ],
   "note": "Proved for everything a publish sends or batches (C85_sent_partial). Refuted for what a client fetches: sessions are named by the second of a client id (C85_session_violated)."
  },
  {
   "property": "C86",
   "status": "partial",
   "theorems": [
    "Verif.C86_apart_partial",
    "Verif.C86_panic_violated",
    "Verif.C86_forged_violated",
    "Verif.C86_leak_violated"
   ],
   "note": "Proved for every sequence of calls whose contracts do not clash (C86_apart_partial). Refuted otherwise: each contract has a partner whose messages are its subscriptions; a short one stops the server (C86_panic_violated), a nine byte one subscribes any connection (C86_forged_violated), and the partner reads the subscriptions (C86_leak_violated)."
  },
  {
   "property": "C87",
   "status": "partial",
   "theorems": [
    "Verif.C87_handed_partial",
    "Verif.C87_closed_partial",
    "Verif.C87_words",
    "Verif.C87_preface",
    "Verif.C87_server_partial",
    "Verif.C87_error_violated"
   ],
   "note": "Proved for connections no read of which returns bytes together with an error, as a TCP connection behaves (C87_handed_partial, C87_closed_partial, C87_server_partial, C87_words, C87_preface). Refuted for others, which io.Reader allows: the error is returned with the first of the bytes read again, and a reader that stops there loses the rest (C87_error_violated)."
  },
  {
   "property": "C88",
   "status": "partial",
   "theorems": [
    "Verif.C88_home_partial",
    "Verif.C88_elsewhere_violated",
    "Verif.C88_kept_violated",
    "Verif.C88_takeover_violated",
    "Verif.C88_unreached_violated",
    "Verif.C88_twice_violated",
    "Verif.C88_insecure_violated"
   ],
   "note": "Proved when every client uses the server that owns its contract: each server then behaves as one on its own (C88_home_partial). Refuted otherwise. A publish reaches no server but the publisher's and the owner of the contract (C88_elsewhere_violated), while a first subscription is known only to the reader's server (C88_kept_violated), so that a reader elsewhere gets nothing (C88_unreached_violated). A packet with two messages is forwarded twice, and each message delivered twice at the owner (C88_twice_violated). What a client without checks publishes is checked and dropped at the owner (C88_insecure_violated). A connection of the owner that has the number of the publisher's connection takes over the publisher's client id and contract (C88_takeover_violated)."
  },
  {
   "property": "C89",
   "status": "partial",
   "theorems": [
    "Verif.C89_last_partial",
    "Verif.C89_place",
    "Verif.C89_empty",
    "Verif.C89_reported",
    "Verif.C89_order",
    "Verif.C89_percentile",
    "Verif.C89_median",
    "Verif.C89_average",
    "Verif.C89_range",
    "Verif.C89_live_violated",
    "Verif.C89_live_median_violated"
   ],
   "note": "Proved for snapshots, which is what Varz uses (C89_last_partial, C89_reported, C89_order, C89_percentile, C89_median, C89_average; C89_empty and C89_place say what panics). Refuted for the methods of the sample itself, which read the array unsorted and with places not used yet (C89_live_violated, C89_live_median_violated). Ranks are computed in integers, which agrees with float64 up to a size of 50; averages are for durations below 2^57 ns; harmonic mean and standard deviation are not modelled."
  },
  {
   "property": "C90",
   "status": "partial",
   "theorems": [
    "Verif.C90_packets_partial",
    "Verif.C90_nothing_lost_partial",
    "Verif.C90_closed_violated",
    "Verif.C90_uncounted_violated",
    "Verif.C90_miscounted_violated",
    "Verif.C90_tags",
    "Verif.C90_line"
   ],
   "note": "Proved for every history without a line after Unregister (C90_packets_partial, C90_nothing_lost_partial, C90_tags, C90_line). Refuted: a line after Unregister that fills the buffer panics on the closed queue, and the server closes its statistics before its store while connections still run (C90_closed_violated); a packet the socket refuses is neither sent again nor counted (C90_uncounted_violated); an empty packet may be counted as lost (C90_miscounted_violated)."
  },
  {
   "property": "C91",
   "status": "partial",
   "theorems": [
    "Verif.C91_fields_partial",
    "Verif.C91_refused",
    "Verif.C91_ascii",
    "Verif.C91_connack",
    "Verif.C91_disconnect_violated",
    "Verif.C91_ping_violated"
   ],
   "note": "Proved for all packets with all their fields (C91_fields_partial, C91_connack), but for the id of a disconnect, which is not written (C91_disconnect_violated), and the acknowledgement of a ping, which is read as a ping with its body left in the stream (C91_ping_violated). C91_refused and C91_ascii say which packets cannot be written. Packets are below 2^31 bytes."
  },
  {
   "property": "C92",
   "status": "partial",
   "theorems": [
    "Verif.C92_quiet_partial",
    "Verif.C92_bounded",
    "Verif.C92_negative_violated"
   ],
   "note": "Proved for bytes without four in a row that have their top bit set (C92_quiet_partial), with a bound on the packets handed on (C92_bounded). Refuted: a header with a negative length makes the reader panic, after any packets (C92_negative_violated). That there is memory for every length up to 2^31 - 1 is assumed."
  },
  {
   "property": "C93",
   "status": "partial",
   "theorems": [
    "Verif.C93_cut_partial",
    "Verif.C93_junk_violated",
    "Verif.C93_message_violated",
    "Verif.C93_string_violated",
    "Verif.C93_range_violated"
   ],
   "note": "Proved: a packet whose end is missing from the stream is never taken for one (C93_cut_partial). Refuted, because FromBinary does not look at the errors of the decoder: bytes that are no field (C93_junk_violated), a message cut short inside the body (C93_message_violated), a topic that is not UTF-8 (C93_string_violated), ids and delivery modes that do not fit (C93_range_violated)."
  },
  {
   "property": "C94",
   "status": "partial",
   "theorems": [
    "Verif.C94_written_partial",
    "Verif.C94_heard",
    "Verif.C94_as_packets",
    "Verif.C94_delivered_partial",
    "Verif.C94_end_to_end_partial",
    "Verif.C94_key_checks",
    "Verif.C94_cut_violated"
   ],
   "note": "Proved: C94_heard, C94_key_checks (keys are checked unless the CONNECT asks otherwise), C94_as_packets (the packet-level server of C83 to C86 is the server of bytes). Proved for published topics in which no slash is followed by a question mark: all that is sent can be written and is read as sent (C94_written_partial), and a publish reaches its readers as bytes (C94_delivered_partial, C94_end_to_end_partial; histories of C83). Refuted: for a topic text such as k/?\u00e9 the part that is sent on ends inside a character, the packet cannot be written and the reader loses its connection (C94_cut_violated); the acknowledgement of a ping is read as a ping. Packets of batch managers are not included."
  },
  {
   "property": "C95",
   "status": "partial",
   "theorems": [
    "Verif.C95_members",
    "Verif.C95_own_partial",
    "Verif.C95_agree_partial",
    "Verif.C95_one_leader_partial",
    "Verif.C95_broken_call_violated",
    "Verif.C95_limit_violated",
    "Verif.C95_takeover_violated"
   ],
   "note": "Proved if node_fail_after is positive: C95_members. Proved while nobody but one node leads: C95_one_leader_partial; for any pings whose signature fits their list: C95_agree_partial; rings and lists fit on nodes that never rebuilt their ring at a request: C95_own_partial. All assume that the signatures of two different rings that are compared differ (FNV-128). Refuted: a node that rebuilt its ring at a request and then leads sends the signature of the small ring with the list of all nodes, and a node that came back never agrees with it (C95_takeover_violated, with the hash functions of the code); a call that fails over an open connection ends the process of the caller (C95_broken_call_violated); without node_fail_after the leader drops all others (C95_limit_violated)."
  },
  {
   "property": "C96",
   "status": "partial",
   "theorems": [
    "Verif.C96_put_get_last_partial",
    "Verif.C96_any_order_partial"
   ],
   "note": "C96_put_get_last_partial and, with Gets and Syncs in any order, C96_any_order_partial are proved without batches, concurrent puts, deletes and restarts, if the messages asked for fit the limit, without hash collisions, for topics other than the one synced first (C28), and if no Sync runs with a clock behind the second of a message: a full block is dated by the sync, so after the clock was set back its messages look older than they are and the lookup stops behind it. Not for messages in memory when a Sync came after a Get had looked there, unless a buffer given back to the pool does not read as a record (C68_stale_violated)."
  },
  {
   "property": "C97",
   "status": "partial",
   "theorems": [
    "Verif.C97_messages_partial",
    "Verif.C97_subscriptions_partial",
    "Verif.C97_unsubscribe_violated",
    "Verif.C97_still_subscribed_violated"
   ],
   "note": "C97_messages_partial and C97_subscriptions_partial are proved for topics without wildcards and options in the query, without deletes, batches and restarts, without hash collisions and without clashing contracts (C86), if what is asked for fits the limit of 1000, for topics other than the one synced first (C28), and under the condition of C96 on clocks and on Gets before Syncs. Refuted with deletes: leaving one of two unsynced subscriptions makes the other impossible to fetch (C97_unsubscribe_violated), and a synced subscription that was left is still found (C97_still_subscribed_violated)."
  },
  {
   "property": "C98",
   "status": "partial",
   "theorems": [
    "Verif.C98_as_table_partial",
    "Verif.C98_delivered_partial",
    "Verif.C98_relay_partial",
    "Verif.C98_leaving_violated",
    "Verif.C98_unsubscribed_violated"
   ],
   "note": "C98_as_table_partial (same state and same packets), C98_delivered_partial (with C83) and C98_relay_partial (a client that asks for the stored messages of a topic gets exactly those) are proved for one server without a cluster whose calls to the database stay within what C97 is proved for: nothing is deleted, so no client with subscriptions leaves or unsubscribes; topics without wildcards and options in what is published; no hash collisions and no clashing contracts; subscriptions that do not expire and fit the limit; not the topic synced first. Refuted with deletes: once a subscriber leaves, a message no longer reaches the others (C98_leaving_violated), and a client that unsubscribed after a sync is still sent messages (C98_unsubscribed_violated)."
  },
  {
   "property": "C99",
   "status": "partial",
   "theorems": [
    "Verif.C99_same_partial",
    "Verif.C99_count_partial",
    "Verif.C99_apart_partial",
    "Verif.C99_panics_iff",
    "Verif.C99_series_violated",
    "Verif.C99_unregistered_violated"
   ],
   "note": "Proved for counters and gauges while nothing is unregistered (C99_same_partial, C99_count_partial, C99_apart_partial), and exactly which calls panic (C99_panics_iff). Refuted for time series and histograms, which the registry never keeps, whatever happened before (C99_series_violated), and after a name is unregistered (C99_unregistered_violated)."
  },
  {
   "property": "C100",
   "status": "partial",
   "theorems": [
    "Verif.C100_process_iff",
    "Verif.C100_processes_iff",
    "Verif.C100_start_iff",
    "Verif.C100_soon_violated",
    "Verif.C100_later_violated",
    "Verif.C100_restart_violated"
   ],
   "note": "C100_process_iff: the ids of one process are different up to 2^32 connections. C100_processes_iff and C100_start_iff say exactly for which two starts and how many connections ids are shared. Refuted across restarts: 4.295 s later the 32705th connection has the id of the first (C100_soon_violated), 2^26 ms later all ids are the same (C100_later_violated), and then a client is sent messages of another contract (C100_restart_violated)."
  },
  {
   "property": "C101",
   "status": "partial",
   "theorems": [
    "Verif.C101_as_table_partial",
    "Verif.C101_written_partial",
    "Verif.C101_end_to_end_partial"
   ],
   "note": "C101_as_table_partial (same packets read and sent as with an ideal table), C101_written_partial (all that is sent can be written and is read as sent) and C101_end_to_end_partial (a PUBLISH in the bytes of a client is read by exactly its subscribers) are proved for the histories of C98, in which nothing is deleted, and the topics of C94; packets of batch managers are not included. The refutations of C94 and C98 apply."
  },
  {
   "property": "C102",
   "status": "partial",
   "theorems": [
    "Verif.C102_waiting_partial",
    "Verif.C102_again_violated",
    "Verif.C102_topic_violated",
    "Verif.C102_cutoff_violated",
    "Verif.C102_limit_violated"
   ],
   "note": "C102_waiting_partial: as long as the Gets before found nothing and the topic is not changed, every Get returns what it returns for a new query. False otherwise: C102_again_violated (the same Get again returns every message twice), C102_topic_violated (after the topic was set to another one the messages of the first are returned too), C102_cutoff_violated and C102_limit_violated (the cutoff and the limit of the first Get stay in force for another topic, also when nothing was found)."
  },
  {
   "property": "C103",
   "status": "partial",
   "theorems": [
    "Verif.C103_kept_partial",
    "Verif.C103_again_partial",
    "Verif.C103_free_partial",
    "Verif.C103_freed_violated"
   ],
   "note": "C103_kept_partial, C103_again_partial and C103_free_partial: for all histories in which the time blocks a stopped sync had completed took nothing from the free list. Otherwise false: C103_freed_violated (the space of messages that are on disk is given back, and the next sync writes others over them). Errors of the files themselves are not modelled."
  },
  {
   "property": "C104",
   "status": "partial",
   "theorems": [
    "Verif.C104_reads_partial",
    "Verif.C104_expired_violated"
   ],
   "note": "C104_reads_partial: for every message that does not expire between the two reads. False otherwise: C104_expired_violated (the message expires after its index entry was read, the next sync uses its space, and the Get returns the payload of another message). The writes of one time block are one step."
  },
  {
   "property": "C105",
   "status": "partial",
   "theorems": [
    "Verif.C105_client_id",
    "Verif.C105_no_chain",
    "Verif.C105_keys",
    "Verif.C105_words",
    "Verif.C105_rights_violated",
    "Verif.C105_contract_violated"
   ],
   "note": "C105_client_id, C105_no_chain, C105_keys, C105_words hold for all ids and requests. The last sentence is false: C105_rights_violated (every client gets an owner key for every topic), C105_contract_violated (the key for \"...\" given out in one contract opens every topic in every other)."
  },
  {
   "property": "C106",
   "status": "partial",
   "theorems": [
    "Verif.C106_path",
    "Verif.C106_previous_violated",
    "Verif.C106_before_violated",
    "Verif.C106_none_removed_violated"
   ],
   "note": "C106_path holds for all histories. FindPreviousBlock does neither of what is stated: C106_previous_violated (it writes into the tables of the hash and moves other keys), C106_before_violated (it names another shard), C106_none_removed_violated (a panic when no shard was removed)."
  },
  {
   "property": "C107",
   "status": "partial",
   "theorems": [
    "Verif.C107_all",
    "Verif.C107_names_differ",
    "Verif.C107_short_violated",
    "Verif.C107_foreign_violated"
   ],
   "note": "C107_all, C107_names_differ hold for all directories of the database and all numbers. The last sentence is false: C107_short_violated (a file with a name of less than four bytes is a panic), C107_foreign_violated (\"notes.log\" counts as the log with the number zero)."
  },
  {
   "property": "C108",
   "status": "partial",
   "theorems": [
    "Verif.C108_one_partial",
    "Verif.C108_not_stopped",
    "Verif.C108_reconnects",
    "Verif.C108_call_partial",
    "Verif.C108_close_partial",
    "Verif.C108_crash_violated",
    "Verif.C108_healthy_violated",
    "Verif.C108_shutdown_violated"
   ],
   "note": "The first sentence holds in every interleaving: C108_one_partial, C108_not_stopped, C108_reconnects; C108_call_partial and C108_close_partial are what holds of the second. The rest is false: C108_crash_violated (a caller reads a nil endpoint), C108_healthy_violated (a late failure closes the new connection), C108_shutdown_violated (a connected node does not notice the shutdown). A failing `call`, which ends the process, is the subject of C95."
  },
  {
   "property": "C109",
   "status": "proved",
   "theorems": [
    "Verif.C109_uptime",
    "Verif.C109_parts"
   ],
   "note": "C109_uptime, C109_parts. The duration is taken from the monotonic clock (time.Since), so it is not negative."
  },
  {
   "property": "C110",
   "status": "proved",
   "theorems": [
    "Verif.C110_one_place",
    "Verif.C110_right_server",
    "Verif.C110_no_panic",
    "Verif.C110_stopped",
    "Verif.C110_stops",
    "Verif.C110_in_order",
    "Verif.C110_told"
   ],
   "note": "C110_one_place, C110_right_server, C110_in_order, C110_no_panic, C110_stopped, C110_stops, C110_told. The error handler is the default one, as in the server. A goroutine that looks at a connection ends within the read timeout (service.go:149); this is taken from package net. Which server a connection is for is C56 and C87."
  },
  {
   "property": "C111",
   "status": "partial",
   "theorems": [
    "Verif.C111_once",
    "Verif.C111_noticed",
    "Verif.C111_after_both",
    "Verif.C111_crash_partial",
    "Verif.C111_crash_violated",
    "Verif.C111_crash_waiting_violated",
    "Verif.C111_crash_batch_violated",
    "Verif.C111_stuck_violated",
    "Verif.C111_ends_partial"
   ],
   "note": "C111_once, C111_noticed and C111_after_both hold in every interleaving, and C111_crash_partial and C111_ends_partial say what else does. Two sentences are false: C111_crash_violated, C111_crash_waiting_violated and C111_crash_batch_violated (a publisher sends on a closed channel, which ends the server) and C111_stuck_violated (a reader waits for ever for a place in a channel nobody reads, so the connection stays). Raw bytes from other nodes of a cluster and the end of the whole service are left out."
  },
  {
   "property": "C112",
   "status": "partial",
   "theorems": [
    "Verif.C112_ends_partial",
    "Verif.C112_keys_violated",
    "Verif.C112_all_wait_violated"
   ],
   "note": "C112_ends_partial: without Keys and Size every schedule of any number of goroutines ends with all calls returned, since the locks are taken in one order. With Keys (or Size) it is false: C112_keys_violated (a Put that is the first of its filter in a block and a Keys wait for each other), after which everybody else waits too (C112_all_wait_violated)."
  },
  {
   "property": "C113",
   "status": "partial",
   "theorems": [
    "Verif.C113_written",
    "Verif.C113_entries",
    "Verif.C113_released_partial",
    "Verif.C113_waits",
    "Verif.C113_answered",
    "Verif.C113_closed",
    "Verif.C113_released_violated"
   ],
   "note": "C113_written, C113_entries, C113_waits, C113_answered and C113_closed hold in every interleaving. That a log reported as released is gone holds until Close has returned (C113_released_partial); after Close a release is reported and does nothing (C113_released_violated). Errors of the file system are left out, and so is signalling one writer twice."
  },
  {
   "property": "C114",
   "status": "partial",
   "theorems": [
    "Verif.C114_ends_partial",
    "Verif.C114_closed_violated"
   ],
   "note": "C114_ends_partial: with all operations but Close, for any number of goroutines and every schedule. Close keeps the lock of Sync, and a Sync or a round of the expirer after it waits for ever (C114_closed_violated). Only waiting for locks is modelled: the queues of the log and the channels of a batch are in C81 and C82."
  },
  {
   "property": "C115",
   "status": "partial",
   "theorems": [
    "Verif.C115_no_clash_partial",
    "Verif.C115_safe_maps",
    "Verif.C115_topics_violated",
    "Verif.C115_close_violated",
    "Verif.C115_gets_violated"
   ],
   "note": "C115_safe_maps: the nodes of the trie, the entries of the window, the windows of expiries, and in the in-memory store the blocks, their records, the filters and the time marks, whatever the goroutines do. C115_no_clash_partial: the summary of the trie when no topics are added, the cache of free blocks when there is no Close, the maps of the query manager when there is no Get. Otherwise false: two Gets (C115_gets_violated), two Puts of new topics (C115_topics_violated), a Delete during Close (C115_close_violated). Plain fields are left out."
  },
  {
   "property": "C116",
   "status": "partial",
   "theorems": [
    "Verif.C116_no_clash_partial",
    "Verif.C116_safe_maps",
    "Verif.C116_batches_violated",
    "Verif.C116_nodes_violated"
   ],
   "note": "C116_safe_maps: the connections, the message ids and the subscriptions, whatever the goroutines do. C116_no_clash_partial: the batches of a connection without a round of its publish loop, and its forwardings without forwarded publishes and the end of the connection. Otherwise false: the publish loop ranges over the batches without the lock (C116_batches_violated), and two publishes of one packet note the forwarding at the same time (C116_nodes_violated)."
  }
 ]
}