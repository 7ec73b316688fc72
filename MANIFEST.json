{
 "claims": [
  {
   "property": "C01",
   "status": "proved",
   "theorems": [
    "Verif.C01_defined_iff",
    "Verif.C01_roundtrip",
    "Verif.C01_order"
   ],
   "note": "Byte order, round trip and the exact error conditions of ts_hash keys."
  },
  {
   "property": "C02",
   "status": "proved",
   "theorems": [
    "Verif.C02_keys_injective",
    "Verif.C02_write_isolated",
    "Verif.C02_users_isolated",
    "Verif.C02_truncation_collision",
    "Verif.C02_user_key_eq_iff",
    "Verif.C02_url_castid_collision",
    "Verif.C02_link_type_padding_collision",
    "Verif.C02_link_type_injective",
    "Verif.C02_castid_target_injective"
   ],
   "note": "Every row kind's key bytes decode back to the row, so distinct well-formed rows never share a key. Collisions that the code does allow are proved as witnesses: fids equal modulo 2^32, a URL target spelled like a cast id, link types differing by trailing NULs."
  },
  {
   "property": "C03",
   "status": "proved",
   "theorems": [
    "Verif.C03_prefix_scan_exact",
    "Verif.C03_last_byte_suffices",
    "Verif.C03_long_keys_suffice",
    "Verif.C03_order",
    "Verif.C03_count_exact",
    "Verif.C03_all_255_empty",
    "Verif.C03_short_key",
    "Verif.C03_range_characterisation"
   ],
   "note": "Exact under the stated side condition on keys; the theorem C03_short_key shows the side condition is needed."
  },
  {
   "property": "C04",
   "status": "proved",
   "theorems": [
    "Verif.C04_pages_complete",
    "Verif.C04_unique",
    "Verif.C04_page_size",
    "Verif.C04_decode_error",
    "Verif.C04_foreign_token_leaks",
    "Verif.C04_guarded_token_confined"
   ],
   "note": "Complete for all prefixes, filters, directions and page sizes. C04_foreign_token_leaks records that the unguarded page function accepts a token of another prefix."
  },
  {
   "property": "C05",
   "status": "proved",
   "theorems": [
    "Verif.C05_staged_read_eq_committed",
    "Verif.C05_commit_overlay",
    "Verif.C05_abort",
    "Verif.C05_empty_commit",
    "Verif.C05_merge_commit",
    "Verif.C05_merge_assoc",
    "Verif.C05_reads_determine_db"
   ],
   "note": "Batch overlay, commit, abort and merge as finite map algebra."
  },
  {
   "property": "C06",
   "status": "proved",
   "theorems": [
    "Verif.C06_range_deleted_exactly"
   ],
   "note": "Termination, exact count and exact effect for all page sizes and both directions."
  },
  {
   "property": "C07",
   "status": "proved",
   "theorems": [
    "Verif.C07_merge_order",
    "Verif.C07_permuted",
    "Verif.C07_two_signers"
   ],
   "note": "Six stores, any valid messages whose hashes identify them, any order, repetition, block splits and dropped batches; the whole view is equal. C07_two_signers records that the same message bytes under two signers do depend on order (hashes then do not identify messages)."
  },
  {
   "property": "C08",
   "status": "proved",
   "theorems": [
    "Verif.C08_rejected_unchanged",
    "Verif.C08_outcomes",
    "Verif.C08_duplicate",
    "Verif.C08_exhausted_keeps_writes"
   ],
   "note": "Every row unchanged after a rejection, over all histories; C08_exhausted_keeps_writes records the one error (event ids used up) that keeps staged rows."
  },
  {
   "property": "C09",
   "status": "proved",
   "theorems": [
    "Verif.C09_one_winner",
    "Verif.C09_nothing_else"
   ],
   "note": "The stored message of an item is exactly the greatest valid submitted one."
  },
  {
   "property": "C10",
   "status": "proved",
   "theorems": [
    "Verif.C10_removed_stays_removed",
    "Verif.C10_remove_accepted"
   ],
   "note": "For every later sequence of cast merges and commits."
  },
  {
   "property": "C11",
   "status": "proved",
   "theorems": [
    "Verif.C11_rows_are_the_messages",
    "Verif.C11_committed_rows",
    "Verif.C11_lookups"
   ],
   "note": "All histories of merges, forced merges, revocations, prunes, commits and drops in which pruning and revocation start from committed rows: the rows are exactly those of the stored messages. C12_same_block_replacement shows the side condition is needed."
  },
  {
   "property": "C12",
   "status": "proved",
   "theorems": [
    "Verif.C12_oldest_first",
    "Verif.C12_prune_oldest",
    "Verif.C12_prune_fails_only",
    "Verif.C12_committed",
    "Verif.C12_same_block_replacement"
   ],
   "note": "Exact removal of the oldest when nothing pending touches the user's committed messages; C12_same_block_replacement is the counterexample inside one block."
  },
  {
   "property": "C13",
   "status": "proved",
   "theorems": [
    "Verif.C13_revoke_signer",
    "Verif.C13_committed",
    "Verif.C13_compaction_survives"
   ],
   "note": "Exact for the store's add and remove messages; C13_compaction_survives records that a link compaction by the removed key stays in force."
  },
  {
   "property": "C14",
   "status": "proved",
   "theorems": [
    "Verif.C14_compaction",
    "Verif.C14_accepted",
    "Verif.C14_stays_out",
    "Verif.C14_stays_in_force",
    "Verif.C14_same_instant",
    "Verif.C14_same_block"
   ],
   "note": "For every proper history of link-store operations and any pending block without other link writes for that user and type (Quiet): a compaction removes exactly the older unlisted messages and leaves everything else; superseded messages are refused while it is in force; two exceptions proved with concrete runs (C14_same_instant, C14_same_block)."
  },
  {
   "property": "C15",
   "status": "proved",
   "theorems": [
    "Verif.C15_one_owner",
    "Verif.C15_lookup",
    "Verif.C15_lookup_missing",
    "Verif.C15_lookups_agree",
    "Verif.C15_winner"
   ],
   "note": "For every proper history of the username-proof store with message hashes unique across users and explicit removals only of stored proofs: one owner per name, both lookups agree with it, and a newer proof wins."
  },
  {
   "property": "C16",
   "status": "proved",
   "theorems": [
    "Verif.C16_by_name",
    "Verif.C16_latest_unique",
    "Verif.C16_by_user",
    "Verif.C16_by_user_complete",
    "Verif.C16_reproof_hides",
    "Verif.C16_second_name_hides",
    "Verif.C16_release_order"
   ],
   "note": "By-name lookup is always the latest counting transfer; by-user lookup is sound and, while every user has at most one name and no proof is repeated, complete. Three limits proved with concrete runs: a re-proof of the same name, a second name, and release order hide the by-user entry."
  },
  {
   "property": "C17",
   "status": "proved",
   "theorems": [
    "Verif.C17_winner",
    "Verif.C17_winner_exists",
    "Verif.C17_order",
    "Verif.C17_candidates",
    "Verif.C17_owner"
   ],
   "note": "Selection is the maximum of (timestamp-hash, reversed fid), independent of order; and for every proper history of the verification store the candidates are exactly the stored verifications of that address, pending batch included."
  },
  {
   "property": "C18",
   "status": "proved",
   "theorems": [
    "Verif.C18_ordered",
    "Verif.C18_unique",
    "Verif.C18_decode",
    "Verif.C18_exhaustion",
    "Verif.C18_height_limit",
    "Verif.C18_replay_same"
   ],
   "note": "Order, uniqueness, decoding, exhaustion and replay for every height below 2^49 and every sequence; C18_height_limit records the behaviour at the limit."
  },
  {
   "property": "C19",
   "status": "proved",
   "theorems": [
    "Verif.C19_query_exact",
    "Verif.C19_log_sorted",
    "Verif.C19_lookup",
    "Verif.C19_prune_exact",
    "Verif.C19_prune_wraps"
   ],
   "note": "Range queries, lookup and pruning of the event log are exact; C19_prune_wraps records what a u64 wrap does."
  },
  {
   "property": "C20",
   "status": "proved",
   "theorems": [
    "Verif.C20_root_depends_only_on_set"
   ],
   "note": "All histories of bulk inserts, deletes and commits over prefix-free keys of at least six bytes, any group traversal order. Same root, and same hash and count at every path."
  },
  {
   "property": "C21",
   "status": "proved",
   "theorems": [
    "Verif.C21_insert",
    "Verif.C21_delete",
    "Verif.C21_reads"
   ],
   "note": "Enumeration by get_all_values is stated for tries of up to 1024 keys, where the code stops, and prefixes of up to six bytes. Per-key result flags are proved for single-key calls, which is how the engine uses it; for bulk calls the number of successes is proved."
  },
  {
   "property": "C22",
   "status": "proved",
   "theorems": [
    "Verif.C22_different_sets_different_roots"
   ],
   "note": "Any 20-byte hash function; either the roots differ or two different hashed values collide. Needs key lengths that are not multiples of ten bytes; C25 shows that the node's keys satisfy this."
  },
  {
   "property": "C23",
   "status": "proved",
   "theorems": [
    "Verif.C23_tokens_round_trip",
    "Verif.C23_pages_complete",
    "Verif.C23_pages_complete_reloads",
    "Verif.C23_long_prefix_false"
   ],
   "note": "Prefixes of up to six bytes, which are all the code uses. Also for partially loaded tries. C23_long_prefix_false shows the limit is needed. base64 is not modelled."
  },
  {
   "property": "C24",
   "status": "proved",
   "theorems": [
    "Verif.C24_reload_invisible",
    "Verif.C24_commit_reload",
    "Verif.C24_nibble8_false",
    "Verif.C24_emptied_false"
   ],
   "note": "The full claim is false: C24_nibble8_false and C24_emptied_false are witnesses. C24_reload_invisible and C24_commit_reload prove it for keys outside the virtual shards 128 to 143 when something is committed."
  },
  {
   "property": "C25",
   "status": "proved",
   "theorems": [
    "Verif.C25_decode_message",
    "Verif.C25_decode_onchain",
    "Verif.C25_decode_fname",
    "Verif.C25_key_length",
    "Verif.C25_distinct",
    "Verif.C25_prefix_free",
    "Verif.C25_keys_fit_trie",
    "Verif.C25_fid_prefix",
    "Verif.C25_message_entries",
    "Verif.C25_shifted"
   ],
   "note": "Decoding, injectivity, prefix-freeness and the fit with the trie theorems."
  },
  {
   "property": "C26",
   "status": "proved",
   "theorems": [
    "Verif.C26_total",
    "Verif.C26_version_monotone",
    "Verif.C26_features_stay",
    "Verif.C26_protocol_version_monotone",
    "Verif.C26_next_upgrade",
    "Verif.C26_no_next_upgrade",
    "Verif.C26_devnet_latest",
    "Verif.C26_signer_revoke_bug_windows",
    "Verif.C26_channel_features_together"
   ],
   "note": "The whole schedule of each network is a finite table; monotonicity is lifted from the table to all instants."
  },
  {
   "property": "C27",
   "status": "proved",
   "theorems": [
    "Verif.C27_one_home",
    "Verif.C27_by_fid",
    "Verif.C27_fid_mod",
    "Verif.C27_zero_shards",
    "Verif.C27_virtual_shard"
   ],
   "note": "sha256 is an arbitrary function."
  },
  {
   "property": "C28",
   "status": "proved",
   "theorems": [
    "Verif.C28_accepts_iff",
    "Verif.C28_there_and_back",
    "Verif.C28_back_and_there",
    "Verif.C28_monotone",
    "Verif.C28_unix_seconds",
    "Verif.C28_before_epoch"
   ],
   "note": "Complete u64/u32 ranges, error branches included."
  },
  {
   "property": "C29",
   "status": "proved",
   "theorems": [
    "Verif.C29_custody_nonces_increase",
    "Verif.C29_addition_not_replayed",
    "Verif.C29_self_revocation_nonces_increase",
    "Verif.C29_every_removal_is_authorised"
   ],
   "note": "Over all histories from an empty key table, including dropped batches and arbitrary on-chain changes between steps. Signature recovery is an arbitrary function."
  },
  {
   "property": "C30",
   "status": "proved",
   "theorems": [
    "Verif.C30_count_exact",
    "Verif.C30_listing_complete",
    "Verif.C30_cap_enforced"
   ],
   "note": "Count, cap and the paged listing over all histories."
  },
  {
   "property": "C31",
   "status": "proved",
   "theorems": [
    "Verif.C31_owner_iff_record",
    "Verif.C31_at_most_one_owner",
    "Verif.C31_record_matches",
    "Verif.C31_addition_checks_owner",
    "Verif.C31_removal_frees_key"
   ],
   "note": "Fids below 2^32 (the key width); C02 records what larger fids do."
  },
  {
   "property": "C32",
   "status": "proved",
   "theorems": [
    "Verif.C32_accepted_use_is_fresh",
    "Verif.C32_live_key_accepted",
    "Verif.C32_use_keeps_key_alive",
    "Verif.C32_removed_key_stays_unusable"
   ],
   "note": "Freshness on acceptance, no early expiry, uses extend life, removal is final until re-added."
  },
  {
   "property": "C33",
   "status": "proved",
   "theorems": [
    "Verif.C33_mask_is_membership",
    "Verif.C33_accepted_use_in_scope",
    "Verif.C33_scopes_of_last_addition",
    "Verif.C33_onchain_key_unrestricted",
    "Verif.C33_unknown_key_rejected"
   ],
   "note": "Bit mask equals list membership for every list of 32-bit scopes; over all histories."
  },
  {
   "property": "C34",
   "status": "proved",
   "theorems": [
    "Verif.C34_within_allowance",
    "Verif.C34_never_aborts",
    "Verif.C34_replacement_admitted",
    "Verif.C34_new_address_exact",
    "Verif.C34_foreign_transaction_not_counted"
   ],
   "note": "Bound holds when transactions carry their own user's messages, which replay does not check: C34_foreign_transaction_not_counted is the counterexample. Running out of event numbers is excluded."
  },
  {
   "property": "C35",
   "status": "proved",
   "theorems": [
    "Verif.C35_changes_need_authority",
    "Verif.C35_banned_until_unbanned",
    "Verif.C35_owner_never_banned",
    "Verif.C35_config_pin_and_moderation",
    "Verif.C35_open_only_by_config"
   ],
   "note": "For every history, an admitted message changes at most the role of the user it names, and only as RoleChangeAllowed permits; a banned user stays banned between two points of shard 0's history unless an owner or moderator unbans them. Resolution of the owner from the registry is an input of the step."
  },
  {
   "property": "C36",
   "status": "proved",
   "theorems": [
    "Verif.C36_counted_exactly",
    "Verif.C36_at_most_ten"
   ],
   "note": "Counter equals the number of users whose role is moderator, for every history; at most ten when every message is admitted by shard 0."
  },
  {
   "property": "C37",
   "status": "proved",
   "theorems": [
    "Verif.C37_last_writer_wins",
    "Verif.C37_accepted_takes_the_slot",
    "Verif.C37_counted_and_capped",
    "Verif.C37_never_vacated",
    "Verif.C37_committed_never_vacated",
    "Verif.C37_rejected_changes_nothing"
   ],
   "note": "Last merged wins, counter exact and capped, slots never vacated, rejected merges change nothing, for every history and cap. Hypothesis: author, time and hash identify a message."
  },
  {
   "property": "C38",
   "status": "proved",
   "theorems": [
    "Verif.C38_numbered_without_gaps",
    "Verif.C38_every_event_once",
    "Verif.C38_hash_commits_to_events"
   ],
   "note": "Over every run of committed shard-0 blocks from an empty block event store with fewer than 2^64 events. The events hash fixes the list of events unless the hash function collides, or the encoding repeats, on those very events."
  },
  {
   "property": "C39",
   "status": "proved",
   "theorems": [
    "Verif.C39_in_order_exactly_once",
    "Verif.C39_prefix_of_shard0",
    "Verif.C39_next_ones_applied",
    "Verif.C39_at_rest",
    "Verif.C39_forged_event_accepted",
    "Verif.C39_failed_event_not_retried",
    "Verif.C39_event_without_data_panics"
   ],
   "note": "Over every run of proposals, validations and commits of a data shard from an empty store. The stores behind the engine are parameters with stated laws (Ledger), met by a concrete shard. Negations of neighbouring claims: C39_forged_event_accepted, C39_failed_event_not_retried, C39_event_without_data_panics."
  },
  {
   "property": "C40",
   "status": "proved",
   "theorems": [
    "Verif.C40_allowance",
    "Verif.C40_order_independent",
    "Verif.C40_limit",
    "Verif.C40_limit_additive",
    "Verif.C40_limit_monotone",
    "Verif.C40_lent_beyond_owned_wraps",
    "Verif.C40_limit_wraps",
    "Verif.C40_pending_counted_twice",
    "Verif.C40_from_committed_rentals"
   ],
   "note": "Sum, order independence and limits proved with u32 wrap-around. Negations: lending more than owned wraps, limits wrap, a pending rent is counted twice."
  },
  {
   "property": "C41",
   "status": "proved",
   "theorems": [
    "Verif.C41_same_unless_expiry_between",
    "Verif.C41_allowance_depends_on_clock"
   ],
   "note": "The statement is false of the code; proved the negation with a witness, and that the allowance only differs when some rent expires between the two times."
  },
  {
   "property": "C42",
   "status": "proved",
   "theorems": [
    "Verif.C42_never_overlends",
    "Verif.C42_keeps_one_unit",
    "Verif.C42_only_large_holders_lend",
    "Verif.C42_conserved",
    "Verif.C42_two_transactions_overlend",
    "Verif.C42_after_expiry_unlimited",
    "Verif.C42_reducing_needs_room",
    "Verif.C42_ended_lend_can_be_replayed"
   ],
   "note": "Bounds for histories with one transaction per user and block, unexpired purchases and lends of at most 5000 units; conservation on the database. The code breaks the bound outside these hypotheses: C42_two_transactions_overlend, C42_after_expiry_unlimited; see also C42_reducing_needs_room and C42_ended_lend_can_be_replayed."
  },
  {
   "property": "C43",
   "status": "proved",
   "theorems": [
    "Verif.C43_runs_out",
    "Verif.C43_unique",
    "Verif.C43_at_least_each",
    "Verif.C43_split",
    "Verif.C43_extends",
    "Verif.C43_out_of_order_hidden",
    "Verif.C43_from_committed_purchases",
    "Verif.C43_order_independent"
   ],
   "note": "Proved for purchases in time order; a purchase out of order can be hidden from an as-of query."
  },
  {
   "property": "C44",
   "status": "proved",
   "theorems": [
    "Verif.C44_latest_wins",
    "Verif.C44_accepted_once",
    "Verif.C44_order_independent",
    "Verif.C44_same_block_order_matters"
   ],
   "note": "Over every run of merges, commits and dropped batches."
  },
  {
   "property": "C45",
   "status": "proved",
   "theorems": [
    "Verif.C45_active",
    "Verif.C45_record",
    "Verif.C45_removed_stays_removed",
    "Verif.C45_newer_add_reactivates",
    "Verif.C45_duplicate_refused",
    "Verif.C45_guard_is_dead",
    "Verif.C45_reset_restores_oldest",
    "Verif.C45_reset_ignores_batch",
    "Verif.C45_reset_order_matters"
   ],
   "note": "Over every run of merges and commits. Admin resets: witnesses show that the oldest committed add is restored and that order then matters."
  },
  {
   "property": "C46",
   "status": "proved",
   "theorems": [
    "Verif.C46_registered",
    "Verif.C46_follows_chain",
    "Verif.C46_never_goes_back",
    "Verif.C46_registrations_any_order",
    "Verif.C46_owner_list",
    "Verif.C46_reported_change",
    "Verif.C46_order_matters",
    "Verif.C46_early_transfer_lost"
   ],
   "note": "keccak is a parameter; the in-order theorem assumes that no two registered keys have the same hash. Negations: C46_order_matters, C46_early_transfer_lost."
  },
  {
   "property": "C47",
   "status": "proved",
   "theorems": [
    "Verif.C47_accepts_iff_roots_match",
    "Verif.C47_honest_proposal_accepted",
    "Verif.C47_memory_and_replay_agree",
    "Verif.C47_nodes_stay_equal",
    "Verif.C47_memory_only_for_its_chunk",
    "Verif.C47_wrong_roots_stop_the_node",
    "Verif.C47_memory_ignores_transactions",
    "Verif.C47_stale_memory_reused",
    "Verif.C47_set_order_changes_event_order"
   ],
   "note": "For every engine over abstract stores whose results do not depend on the node's clock and set order (SameView). Where they do, or where the cached transaction is stale, the claim fails: C47_memory_ignores_transactions, C47_stale_memory_reused, C47_set_order_changes_event_order."
  },
  {
   "property": "C48",
   "status": "proved",
   "theorems": [
    "Verif.C48_crash_before_writes",
    "Verif.C48_crash_after_writes",
    "Verif.C48_crash_between_writes_is_ahead",
    "Verif.C48_events_not_applied_twice",
    "Verif.C48_recovers_if_idempotent",
    "Verif.C48_shard0_stuck_after_crash",
    "Verif.C48_hub_events_lost",
    "Verif.C48_out_of_order_events_stop_the_node"
   ],
   "note": "The statement says what holds and what does not. Between the two writes recovery is proved under idempotence; negations: C48_shard0_stuck_after_crash, C48_hub_events_lost, C48_out_of_order_events_stop_the_node."
  },
  {
   "property": "C49",
   "status": "proved",
   "theorems": [
    "Verif.C49_verdict_is_next_block",
    "Verif.C49_touched_only_on_internal_error",
    "Verif.C49_bulk_of_one",
    "Verif.C49_no_storage_passes",
    "Verif.C49_bulk_blames_all"
   ],
   "note": "That nothing is written is structural: the modelled path has no commit. Negations for storage and bulk runs: C49_no_storage_passes, C49_bulk_blames_all. What a replay that breaks off inside a bulk run staged is not modelled."
  },
  {
   "property": "C50",
   "status": "proved",
   "theorems": [
    "Verif.C50_merged_is_signed",
    "Verif.C50_same_hash_same_content",
    "Verif.C50_stored_is_merged",
    "Verif.C50_verdict_ignores_data",
    "Verif.C50_unnormalised_merge_differs"
   ],
   "note": "Hashing and Ed25519 are parameters; protobuf is assumed to read back what it wrote. The unnormalised case is a negative theorem."
  },
  {
   "property": "C51",
   "status": "proved",
   "theorems": [
    "Verif.C51_accepted_iff",
    "Verif.C51_quorum",
    "Verif.C51_no_duplicates_or_outsiders",
    "Verif.C51_two_certificates_overlap",
    "Verif.C51_order_matters"
   ],
   "note": "Exact acceptance condition of certificates made from configured validator sets, quorum intersection, no duplicates or outsiders; and that the order of the signatures matters. Malachite's voting and the signature scheme are external and assumed."
  },
  {
   "property": "C52",
   "status": "proved",
   "theorems": [
    "Verif.C52_committed_with_certificate",
    "Verif.C52_any_chunk_is_committed",
    "Verif.C52_any_block_is_committed",
    "Verif.C52_any_events_are_submitted",
    "Verif.C52_submitted_events_match",
    "Verif.C52_read_nodes_diverge"
   ],
   "note": "What is committed carries a quorum certificate; the negation of the rest: the certificate is not bound to the block, with concrete diverging read nodes. Malachite's voting and the signature scheme are external and assumed."
  },
  {
   "property": "C53",
   "status": "proved",
   "theorems": [
    "Verif.C53_in_order_once",
    "Verif.C53_log_grows",
    "Verif.C53_complete",
    "Verif.C53_full_buffer_drops"
   ],
   "note": "For every schedule of deliveries and restarts: heights are consecutive, the log only grows, a complete delivery within the buffer commits everything; and a full buffer drops blocks."
  },
  {
   "property": "C54",
   "status": "proved",
   "theorems": [
    "Verif.C54_found_until_decided",
    "Verif.C54_nothing_at_or_below",
    "Verif.C54_hash_at_two_heights_lost"
   ],
   "note": "Exact content of the cache for all histories under the stated assumption, the bound without it, and the counterexample."
  },
  {
   "property": "C55",
   "status": "proved",
   "theorems": [
    "Verif.C55_last_effective_set",
    "Verif.C55_current_unique",
    "Verif.C55_proposer_is_validator",
    "Verif.C55_rounds_fair",
    "Verif.C55_heights_fair",
    "Verif.C55_first_set_hides_others",
    "Verif.C55_height_zero_unfair"
   ],
   "note": "For all configurations and heights; the fairness theorems are about one fixed set. Negations for a first set of another shard and for height 0."
  },
  {
   "property": "C56",
   "status": "proved",
   "theorems": [
    "Verif.C56_same_or_next",
    "Verif.C56_nothing_skipped",
    "Verif.C56_refers_to_stored_chunk",
    "Verif.C56_any_witnesses_accepted",
    "Verif.C56_missing_shard_stops_blocks"
   ],
   "note": "For all chains made by proposers that follow the code (the decoupled path of collect_confirmed_shard_witnesses); and that validators accept any witnesses, with the stop of block production that follows."
  },
  {
   "property": "C57",
   "status": "proved",
   "theorems": [
    "Verif.C57_pull_exact",
    "Verif.C57_proposable_iff",
    "Verif.C57_pull_works",
    "Verif.C57_system_first",
    "Verif.C57_refused_changes_nothing",
    "Verif.C57_accepted_waits",
    "Verif.C57_refused_for_a_reason",
    "Verif.C57_nothing_lost",
    "Verif.C57_same_place_same_origin",
    "Verif.C57_forged_copy_keeps_genuine_out",
    "Verif.C57_short_hash_stops_mempool",
    "Verif.C57_block_events_in_order",
    "Verif.C57_block_event_ten_before_nine",
    "Verif.C57_name_transfer_hides_block_event"
   ],
   "note": "Rate limiters are an answer given with each offer. Negative theorems: block event order, forged copies, short hashes, name transfer and block event with equal times."
  },
  {
   "property": "C58",
   "status": "proved",
   "theorems": [
    "Verif.C58_at_most_one",
    "Verif.C58_index_agrees",
    "Verif.C58_newest_waits",
    "Verif.C58_forged_future_announcement_blocks"
   ],
   "note": "At most one holds without assumptions; index and newest-wins assume that different messages have different (timestamp, hash)."
  },
  {
   "property": "C59",
   "status": "proved",
   "theorems": [
    "Verif.C59_by_height",
    "Verif.C59_range_query",
    "Verif.C59_range_pages",
    "Verif.C59_lowest",
    "Verif.C59_highest",
    "Verif.C59_prune_exact",
    "Verif.C59_prune_interrupted"
   ],
   "note": "Shard 0 blocks and data shard chunks are two instances of one model."
  },
  {
   "property": "C60",
   "status": "proved",
   "theorems": [
    "Verif.C60_accepted_casts_are_well_formed",
    "Verif.C60_well_formed_casts_are_accepted",
    "Verif.C60_subscription_and_versions_only_add"
   ],
   "note": ""
  },
  {
   "property": "C61",
   "status": "proved",
   "theorems": [
    "Verif.C61_by_mention",
    "Verif.C61_links_by_target",
    "Verif.C61_by_parent",
    "Verif.C61_reactions_by_target",
    "Verif.C61_reactions_to_casts",
    "Verif.C61_longer_url_breaks_listing",
    "Verif.C61_longer_url_injects",
    "Verif.C61_shorter_url_panics"
   ],
   "note": "Mentions, links and cast targets are exact in every state. URLs are exact unless the index bytes of another stored target begin with the URL; three theorems show the listing then fails, returns foreign items or panics."
  },
  {
   "property": "C62",
   "status": "proved",
   "theorems": [
    "Verif.C62_accepted_iff",
    "Verif.C62_printing_gives_back_the_text",
    "Verif.C62_printed_is_read_back",
    "Verif.C62_one_spelling",
    "Verif.C62_follows_iff",
    "Verif.C62_channels_are_named_once",
    "Verif.C62_nothing_follows_on_mainnet",
    "Verif.C62_every_channel_can_be_followed"
   ],
   "note": ""
  },
  {
   "property": "C63",
   "status": "proved",
   "theorems": [
    "Verif.C63_count",
    "Verif.C63_hash",
    "Verif.C63_whole",
    "Verif.C63_user_counts",
    "Verif.C63_pending_count",
    "Verif.C63_pending_delete"
   ],
   "note": "For prefixes of up to six bytes after a commit. While changes are pending deletions do not count (C63_pending_delete)."
  },
  {
   "property": "C64",
   "status": "proved",
   "theorems": [
    "Verif.C64_trie_holds_stored_messages",
    "Verif.C64_exhausted"
   ],
   "note": "For casts, reactions, links, verifications, user data and loans, over histories in which every call recorded its events; C64_exhausted shows what happens otherwise."
  },
  {
   "property": "C65",
   "status": "proved",
   "theorems": [
    "Verif.C65_replay_restores_a_dismissed_moderator",
    "Verif.C65_replay_protection_false",
    "Verif.C65_current_message_is_rejected"
   ],
   "note": "False as stated; the negation is proved with a concrete history (an old appointment resubmitted after the dismissal is accepted). What holds is proved: the message now in the slot is rejected."
  },
  {
   "property": "C66",
   "status": "proved",
   "theorems": [
    "Verif.C66_same_proposal_again",
    "Verif.C66_decided_removes_that_height",
    "Verif.C66_fresh_is_kept",
    "Verif.C66_restarted_proposer_does_not_commit"
   ],
   "note": "For all histories on the node's local database; and that the restarted proposer does not commit its stored proposal."
  },
  {
   "property": "C67",
   "status": "proved",
   "theorems": [
    "Verif.C67_blocks_were_validated",
    "Verif.C67_blocks_were_validated_in_place",
    "Verif.C67_data_shard_commits_invalid",
    "Verif.C67_engine_commits_rejected_transactions"
   ],
   "note": "Shard 0 for all histories, exact under orderly decisions; the negation for data shards, once for the proposer and once for the engine."
  },
  {
   "property": "C68",
   "status": "proved",
   "theorems": [
    "Verif.C68_every_message_once",
    "Verif.C68_one_transaction_per_user",
    "Verif.C68_block_event_ten_lost"
   ],
   "note": "The order of the hash map is universally quantified. Negative theorem runs mempool, grouping, proposal and commit together on the example engine."
  },
  {
   "property": "C69",
   "status": "proved",
   "theorems": [
    "Verif.C69_routes",
    "Verif.C69_offer_reaches_each_shard",
    "Verif.C69_capacity",
    "Verif.C69_full_shard_keeps_others_out",
    "Verif.C69_limit_exceeded_within_a_tick"
   ],
   "note": "Capacity bound plus two negative theorems about the limit."
  },
  {
   "property": "C70",
   "status": "proved",
   "theorems": [
    "Verif.C70_first_block_at_time",
    "Verif.C70_young_blocks_kept",
    "Verif.C70_nothing_pruned_before_sync",
    "Verif.C70_old_blocks_removed",
    "Verif.C70_young_events_kept",
    "Verif.C70_old_events_removed",
    "Verif.C70_event_pruning_blocked_by_block_pruning",
    "Verif.C70_events_outlive_retention"
   ],
   "note": "Two negative theorems: event pruning blocked once the indexed block is gone, and a concrete run."
  },
  {
   "property": "C71",
   "status": "proved",
   "theorems": [
    "Verif.C71_profile_accepted_iff",
    "Verif.C71_name_proof_accepted_iff",
    "Verif.C71_kinds_of_names_are_disjoint",
    "Verif.C71_entries_can_be_cleared",
    "Verif.C71_github_cannot_be_cleared",
    "Verif.C71_github_takes_other_digits"
   ],
   "note": "Unicode tables, Keccak and base58 are parameters. Negative theorems for the GitHub name."
  },
  {
   "property": "C72",
   "status": "proved",
   "theorems": [
    "Verif.C72_accepted_iff",
    "Verif.C72_accepted_envelope",
    "Verif.C72_size_bounded",
    "Verif.C72_acceptance_lasts",
    "Verif.C72_lends_at_the_epoch_are_refused"
   ],
   "note": "Cryptography and protobuf are parameters. Times from 600 s after the Farcaster epoch to 2^32."
  },
  {
   "property": "C73",
   "status": "proved",
   "theorems": [
    "Verif.C73_claim_accepted_iff",
    "Verif.C73_accepted_claims_are_signed",
    "Verif.C73_contract_claims_are_not_checked",
    "Verif.C73_chain_id_is_truncated",
    "Verif.C73_name_transfer_accepted_iff",
    "Verif.C73_name_transfer_users_are_not_signed",
    "Verif.C73_devnet_transfers_are_not_checked"
   ],
   "note": "Signature recovery is a parameter. Negative theorems for contract claims, chain ids and transfer users."
  },
  {
   "property": "C74",
   "status": "proved",
   "theorems": [
    "Verif.C74_accepted_iff",
    "Verif.C74_announced_type_is_not_checked",
    "Verif.C74_reactions_of_no_kind"
   ],
   "note": ""
  },
  {
   "property": "C75",
   "status": "proved",
   "theorems": [
    "Verif.C75_is_following",
    "Verif.C75_followers",
    "Verif.C75_follows",
    "Verif.C75_foreign_token"
   ],
   "note": ""
  },
  {
   "property": "C76",
   "status": "proved",
   "theorems": [
    "Verif.C76_followers",
    "Verif.C76_incomplete_node",
    "Verif.C76_bad_token",
    "Verif.C76_never_ends",
    "Verif.C76_bad_zip_token",
    "Verif.C76_reactions_by_target",
    "Verif.C76_same_number_of_pages",
    "Verif.C76_duplicates",
    "Verif.C76_reactions_one_shard",
    "Verif.C76_errors_hidden"
   ],
   "note": "Followers and follower counts over all shards are exact. For the older listings the theorems show what they do: repeat finished shards, never end, and hide errors."
  },
  {
   "property": "C77",
   "status": "proved",
   "theorems": [
    "Verif.C77_trie_holds_names",
    "Verif.C77_reproof_drops_entry"
   ],
   "note": "Transfers that prove a name anew for its holder are excluded from the first theorem; the second says what they do."
  },
  {
   "property": "C78",
   "status": "proved",
   "theorems": [
    "Verif.C78_replica_equals_source",
    "Verif.C78_import_ends"
   ],
   "note": "One store at a time; pages are imported one after another; no compact states of links."
  },
  {
   "property": "C79",
   "status": "proved",
   "theorems": [
    "Verif.C79_verified_import",
    "Verif.C79_duplicate_hides_missing_message",
    "Verif.C79_compact_state_deletes_earlier_page",
    "Verif.C79_unreplicated_key_is_not_served",
    "Verif.C79_root_hides_released_names"
   ],
   "note": "Messages of peers are assumed to carry their right hash, and items of other stores to yield keys of other stores."
  },
  {
   "property": "C80",
   "status": "proved",
   "theorems": [
    "Verif.C80_migrated",
    "Verif.C80_lookups",
    "Verif.C80_nothing_else_changes",
    "Verif.C80_version_stays",
    "Verif.C80_completes",
    "Verif.C80_page_without_registration_ends_the_iteration",
    "Verif.C80_unreadable_row_ends_the_task",
    "Verif.C80_incomplete_while_running"
   ],
   "note": "The first migration (names) is one opaque step here; it touches no row of the verification store."
  },
  {
   "property": "C81",
   "status": "proved",
   "theorems": [
    "Verif.C81_nothing_passed_over",
    "Verif.C81_only_logs",
    "Verif.C81_catches_up",
    "Verif.C81_gap_between_sync_and_stream",
    "Verif.C81_failed_log_is_not_retried",
    "Verif.C81_stop_block_starves_polling"
   ],
   "note": ""
  },
  {
   "property": "C82",
   "status": "proved",
   "theorems": [
    "Verif.C82_nothing_passed_over",
    "Verif.C82_only_entries",
    "Verif.C82_well_formed",
    "Verif.C82_ids_go_up",
    "Verif.C82_stored_never_goes_back",
    "Verif.C82_catches_up",
    "Verif.C82_default_start_skips",
    "Verif.C82_failed_first_request_rereads"
   ],
   "note": ""
  },
  {
   "property": "C83",
   "status": "proved",
   "theorems": [
    "Verif.C83_tables_apart",
    "Verif.C83_rows",
    "Verif.C83_rows_in_tables",
    "Verif.C83_lookups",
    "Verif.C83_calls_stay_home",
    "Verif.C83_as_alone",
    "Verif.C83_event_numbers_are_shared"
   ],
   "note": ""
  },
  {
   "property": "C84",
   "status": "proved",
   "theorems": [
    "Verif.C84_trie_holds_all_stores",
    "Verif.C84_root_fixes_stores",
    "Verif.C84_stores_fix_root"
   ],
   "note": ""
  },
  {
   "property": "C85",
   "status": "proved",
   "theorems": [
    "Verif.C85_usage_pending",
    "Verif.C85_usage_committed",
    "Verif.C85_counted_are_own",
    "Verif.C85_every_store_is_pruned",
    "Verif.C85_prune_to_limit",
    "Verif.C85_emptied_type_still_counted",
    "Verif.C85_received_loans_counted"
   ],
   "note": ""
  },
  {
   "property": "C86",
   "status": "proved",
   "theorems": [
    "Verif.C86_admitted_is_authorised",
    "Verif.C86_admitted_before_version_7",
    "Verif.C86_authorised_is_admitted",
    "Verif.C86_removed_key_is_refused",
    "Verif.C86_key_message_authorised",
    "Verif.C86_wall_clock_does_not_matter",
    "Verif.C86_block_may_alter_the_data",
    "Verif.C86_direct_key_add_skips_the_app"
   ],
   "note": ""
  },
  {
   "property": "C87",
   "status": "proved",
   "theorems": [
    "Verif.C87_username_owned",
    "Verif.C87_primary_verified",
    "Verif.C87_ens_checked",
    "Verif.C87_same_batch_username_stays",
    "Verif.C87_other_username_revoked",
    "Verif.C87_refused_transfer_revokes",
    "Verif.C87_reverification_revokes",
    "Verif.C87_revoked_verification_leaves_address",
    "Verif.C87_same_batch_address_stays",
    "Verif.C87_no_event_numbers"
   ],
   "note": ""
  },
  {
   "property": "C88",
   "status": "proved",
   "theorems": [
    "Verif.C88_stream",
    "Verif.C88_reading",
    "Verif.C88_genuine",
    "Verif.C88_timestamps",
    "Verif.C88_nothing_missed",
    "Verif.C88_nothing_twice",
    "Verif.C88_complete_if_quiet",
    "Verif.C88_page_timestamps",
    "Verif.C88_query_one",
    "Verif.C88_event_in_gap_lost",
    "Verif.C88_event_twice",
    "Verif.C88_slow_subscriber_not_told",
    "Verif.C88_timestamp_missing",
    "Verif.C88_first_id_ignored_live",
    "Verif.C88_query_repeats",
    "Verif.C88_query_own_token_refused"
   ],
   "note": ""
  },
  {
   "property": "C89",
   "status": "proved",
   "theorems": [
    "Verif.C89_root_stands_for_messages",
    "Verif.C89_same_root_same_messages",
    "Verif.C89_accepted_root_binds"
   ],
   "note": ""
  },
  {
   "property": "C90",
   "status": "proved",
   "theorems": [
    "Verif.C90_rows_were_offered",
    "Verif.C90_pending_rows_were_offered",
    "Verif.C90_held_was_offered",
    "Verif.C90_pending_was_offered"
   ],
   "note": ""
  },
  {
   "property": "C91",
   "status": "proved",
   "theorems": [
    "Verif.C91_node_worked",
    "Verif.C91_accepted",
    "Verif.C91_rejected",
    "Verif.C91_never_stuck",
    "Verif.C91_revoked",
    "Verif.C91_replayed_verification",
    "Verif.C91_order"
   ],
   "note": ""
  },
  {
   "property": "C92",
   "status": "proved",
   "theorems": [
    "Verif.C92_held_was_authorised",
    "Verif.C92_pending_was_authorised",
    "Verif.C92_strangers_hold_nothing"
   ],
   "note": ""
  },
  {
   "property": "C93",
   "status": "proved",
   "theorems": [
    "Verif.C93_rows_were_posted",
    "Verif.C93_block_events_were_posted",
    "Verif.C93_keys_were_granted",
    "Verif.C93_strangers_hold_nothing",
    "Verif.C93_simulation_checks_authority"
   ],
   "note": ""
  },
  {
   "property": "C94",
   "status": "proved",
   "theorems": [
    "Verif.C94_rounds_leave_no_trace",
    "Verif.C94_nodes_agree",
    "Verif.C94_same_verdict",
    "Verif.C94_honest_blocks_accepted",
    "Verif.C94_one_valid_block",
    "Verif.C94_proposals_screened",
    "Verif.Case94.C94_clock_matters",
    "Verif.Case94.C94_simulation_hides_refusals",
    "Verif.Case94.C94_storage_only_checked_by_proposers"
   ],
   "note": ""
  },
  {
   "property": "C95",
   "status": "proved",
   "theorems": [
    "Verif.C95_events_of_shard_zero",
    "Verif.C95_end_to_end",
    "Verif.C95_strangers_hold_nothing"
   ],
   "note": ""
  },
  {
   "property": "C96",
   "status": "proved",
   "theorems": [
    "Verif.C96_roles_need_authority",
    "Verif.C96_banned_until_pardoned",
    "Verif.C96_settings_need_authority",
    "Verif.C96_counted_and_capped",
    "Verif.C96_never_vacated"
   ],
   "note": ""
  },
  {
   "property": "C97",
   "status": "proved",
   "theorems": [
    "Verif.C97_same_channels",
    "Verif.Case97.C97_lost_without_numbers"
   ],
   "note": ""
  },
  {
   "property": "C98",
   "status": "proved",
   "theorems": [
    "Verif.Wire.C98_one_statement",
    "Verif.Wire.C98_certificate_means_precommits",
    "Verif.Wire.C98_conflict_convicts"
   ],
   "note": ""
  },
  {
   "property": "C99",
   "status": "proved",
   "theorems": [
    "Verif.Wire.C99_vote_arrives",
    "Verif.Wire.C99_proposal_arrives",
    "Verif.Wire.C99_incomplete_panics",
    "Verif.Wire.C99_encoding_is_irrelevant",
    "Verif.Wire.C99_panics_exactly",
    "Verif.Wire.C99_heard_was_said",
    "Verif.Wire.C99_two_bytes_stop_gossip",
    "Verif.Wire.C99_six_bytes_stop_connector"
   ],
   "note": ""
  },
  {
   "property": "C100",
   "status": "proved",
   "theorems": [
    "Verif.Wire.C100_response_arrives",
    "Verif.Wire.C100_request_arrives",
    "Verif.Wire.C100_status_arrives",
    "Verif.Wire.C100_certificate_kept",
    "Verif.Wire.C100_accepted_value_was_decided",
    "Verif.Wire.C100_panics_exactly",
    "Verif.Wire.C100_four_bytes_stop_gossip",
    "Verif.Wire.C100_unpaired_votes_dropped"
   ],
   "note": ""
  },
  {
   "property": "C101",
   "status": "proved",
   "theorems": [
    "Verif.Snap.C101_backup_is_database",
    "Verif.Snap.C101_read_only_is_empty",
    "Verif.Snap.C101_chunks",
    "Verif.Snap.C101_latest_downloads",
    "Verif.Snap.C101_no_mixture",
    "Verif.Snap.C101_restored",
    "Verif.Snap.C101_sorted_listing",
    "Verif.Snap.C101_chunk_names",
    "Verif.Snap.C101_cleared",
    "Verif.Snap.Case101.C101_listing_order_matters",
    "Verif.Snap.Case101.C101_clear_deletes_other_shards"
   ],
   "note": ""
  },
  {
   "property": "C102",
   "status": "proved",
   "theorems": [
    "Verif.Http.C102_shown_iff",
    "Verif.Http.C102_client_reads",
    "Verif.Http.C102_same_json_same_message",
    "Verif.Http.C102_accepted_in_full",
    "Verif.Http.C102_page",
    "Verif.Http.C102_page_fails_iff",
    "Verif.Http.C102_page_token",
    "Verif.Http.C102_missing_embed_is_empty_url",
    "Verif.Http.C102_unknown_units_are_legacy",
    "Verif.Http.C102_unknown_scopes_vanish",
    "Verif.Http.C102_old_proof_fails_pages"
   ],
   "note": ""
  },
  {
   "property": "C103",
   "status": "proved",
   "theorems": [
    "Verif.EvMig.C103_settled",
    "Verif.EvMig.C103_sends_what_is_missing",
    "Verif.EvMig.C103_nothing_twice",
    "Verif.EvMig.C103_comes_to_an_end",
    "Verif.EvMig.C103_once_in_a_pass"
   ],
   "note": ""
  },
  {
   "property": "C104",
   "status": "proved",
   "theorems": [
    "Verif.Auth.C104_submit_iff",
    "Verif.Auth.C104_mesh_iff",
    "Verif.Auth.C104_admin_iff",
    "Verif.Auth.C104_one_password",
    "Verif.Auth.C104_client_gets_in",
    "Verif.Auth.C104_wrong_password",
    "Verif.Auth.C104_colon_in_password_opens",
    "Verif.Auth.C104_retries_are_open",
    "Verif.Auth.C104_no_admin_without_users"
   ],
   "note": ""
  },
  {
   "property": "C105",
   "status": "proved",
   "theorems": [
    "Verif.Reconcile.C105_start_keeps_a_prefix",
    "Verif.Reconcile.C105_starts_skip_no_message",
    "Verif.Reconcile.C105_serves_the_same"
   ],
   "note": ""
  }
 ]
}