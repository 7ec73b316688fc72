# Formal model of snapchain: design

## Goal

A Lean 4 model of the deterministic core of snapchain (storage layout, stores, state trie,
on-chain event folds, shard-0 rules, replay, consensus glue, mempool bookkeeping) and theorems
for the properties listed in `properties.jsonl`.  `MANIFEST.json` maps properties to theorems.

## Layout

* `lean/Verif/Model/*.lean`: the model.  Each definition cites the file and lines it models.
* `lean/Verif/Lemmas/*.lean`: helper lemmas.
* `lean/Verif/Spec/*.lean`: small specifications that do not mention the model's helpers.
* `lean/Verif/Props/*.lean`: the property theorems and, next to each, `example`s that show the
  hypotheses are met by a concrete non-trivial case.
* `seeded/LOG.jsonl`: the log of deliberately wrong edits to the model and what they broke.

## Trusted base

* Lean 4.33.0's kernel and the three standard axioms `propext`, `Classical.choice`,
  `Quot.sound`.  Every property theorem depends on a subset of these three.  No axioms are added,
  no `sorry`, no `native_decide`, no `bv_decide`.  `decide +kernel` is used for concrete witnesses
  and whole finite tables; the kernel evaluates it.
* The reading of the Rust source.  The code is not run.
* Protobuf encoding and decoding: messages are modelled as values, and `decode (encode m) = m` is
  assumed, except in C98, C99 and C100, which model prost 0.13's encoding.  That model and the range of
  Malachite's `Round::from` are from knowledge of these crates, whose source is not in the sandbox.  JSON as text (serde_json); base64 and base58 are functions of which C102 assumes that they can be read back; elsewhere page tokens are their decoded values.
* RocksDB: an ordered map with bytewise key order and atomic batch writes that never fails.
* Hash functions (blake3, sha256, keccak): uninterpreted parameters.  Where a property needs
  collision freedom it is an explicit hypothesis of the theorem, or the theorem ends in "or two
  different inputs collide".
* Signature schemes (ed25519, EIP-712 recovery): uninterpreted predicates.
* Malachite (voting, rounds, locking, WAL): external, not modelled.  What the repository does with
  its decisions is.
* tar (a hypothesis of C101), gzip (a chunk is what it unpacks to), and S3: a map from keys to objects with atomic puts
  and deletes.
* The regex crates: only which strings a pattern matches, over ASCII classes.
* Async scheduling, networking and timeouts: only the resulting sequence of calls is modelled, as
  an arbitrary operation list.
* Arithmetic is that of a release build: unsigned operations wrap where the code does not check.

## What is modelled

| code | model |
|------|-------|
| storage/util.rs, storage/db/rocksdb.rs (iterators, pages, batches, range deletion) | Bytes, OMap, KV |
| key builders of all stores, storage/constants.rs | Keys |
| account/store.rs, the cast, reaction, link, verification, user data and lend stores | Store, Stores, StoreRun |
| account/username_proof_store.rs, user_data_store.rs (fnames), name_registry_events.rs | Names, Fnames |
| verification_store.rs: choice of the owner of an address | AddressOwner |
| account/event.rs, hub event ids and log | Event |
| trie_node.rs, merkle_trie.rs, trie/util.rs | Trie, TrieRead, TrieKey |
| engine.rs: update_trie with one message store | StoreTrie |
| engine.rs: update_trie with name transfers | NameTrie |
| onchain_event_store.rs, storage slots, tiers, limits | OnChain, Storage |
| storage_lend_store.rs and lending in block_engine.rs | Lending |
| key_*_store.rs, gasless_key_merge.rs, active_key.rs, validations/key.rs | Gasless |
| channel_store.rs and channel admission in block_engine.rs | Channel |
| verification admission in block_engine.rs | VerificationCap |
| block_event_store.rs, generate_block_events | BlockEvents |
| engine.rs control flow: propose, validate, replay, commit, simulate | Engine |
| core/types.rs, consensus/{proposer,validator,read_validator}.rs, block_receiver.rs, node_local_state.rs | Consensus |
| mempool.rs, mempool_poller.rs, routing.rs | Mempool, Routing |
| block.rs, shard.rs, pruning jobs | BlockStore |
| core/validations/*.rs, core/message.rs | Validate, Regex, Text |
| core/channel_uri.rs | ChannelUri |
| listings by index; listings over all shards in network/server.rs | Listing, FanOut |
| replication/replicator.rs, replication_stores.rs, bootstrap/replication/service.rs | Replication |
| migrations/mod.rs, m2_verification_by_address_index.rs, `FIDIterator` | Migrations |
| connectors/onchain_events/mod.rs (`Subscriber`) | Ingest |
| connectors/fname/mod.rs (`Fetcher`) | NameFeed |
| stores.rs (`Stores`): the stores over one database | Shard |
| engine.rs `update_trie` over all stores | ShardTrie |
| stores.rs usage and limits (`get_usage`, `message_type_to_store_type`); engine.rs `prune_messages` | Usage |
| engine.rs `validate_user_message` and the merge of key messages | Admission |
| engine.rs name transfer arm, `check_and_revoke_primary_address`, `handle_delete_side_effects` | Profile |
| server.rs `subscribe`, `get_events`; the writes and sends of engine.rs `commit_and_emit_events` | Subscribe |
| engine.rs `replay_snapchain_txn`, `handle_block_event`, `merge_message`, `prune_messages`, `handle_delete_side_effects` on the message stores and the trie; stores.rs `revoke_messages` | ShardEngine |
| engine.rs `merge_onchain_event`, `validate_user_message`, `merge_message` (key messages) inside the engine | AdmitEngine |
| block_engine.rs: `replay_snapchain_txn`, `validate_user_message_with_verification_counts`, proposal, validation, commit and simulation | ZeroEngine |
| engine.rs: the channel arms of `handle_block_event` and `merge_message` | ChannelReplica |
| prost's encoding of consensus messages; core/types.rs conversions and sign bytes; snapchain_codec.rs and gossip.rs for votes and proposals | Wire |
| snapchain_codec.rs for statuses, requests and responses; commit certificates; gossip.rs: routing of responses | WireSync |
| storage/db/backup.rs, multi_chunk_writer.rs, snapshot.rs, jobs/snapshot_upload.rs: backup, chunks, upload, clean-up, download | Snapshot |
| network/http_server.rs: messages, pages and page tokens in JSON | Http |
| jobs/migrate_onchain_events.rs, `get_all_onchain_events`, the stored page token; not two jobs at once, nor what the mempool does with what is sent | EventMigration |
| rpc_extensions.rs `authenticate_request`; users of server.rs and admin_server.rs and the checks in front of their calls | Auth |
| utils/block_event_fix.rs | Reconcile |
| version/version.rs, core/util.rs | Version, Time |

The engine is modelled as control flow over `EngineOps`, the merge steps being parameters with
stated laws (`Ledger`); the steps themselves are modelled store by store.  `Shard` puts the six
message stores in one database and batch, and `ShardEngine` is the engine with these stores and the
trie in it.  There the rest of the hub is arbitrary functions (`Elsewhere`) that do not write message
rows, event numbers count only events of the six stores, and channel owner hints are left out.  Username
proofs are part of the rest, and in `AdmitEngine` the rest is the on-chain and key tables and something
arbitrary; histories with link compactions are outside C84's and C89's hypotheses.

`ZeroEngine` is the engine of shard 0 with its stores, trie, on-chain and key tables and block events.  Its
`posts` is a record for the theorems that nothing reads.  Only events of message stores draw event
numbers there, and the numbers drawn by a failing validation are not modelled.

Not modelled: gossip apart from the consensus arms in `Wire`, mesh, HTTP apart from how messages and pages are written (`Http`), most of the gRPC surface, the RPC clients under the Ethereum and
name connectors, metrics, configuration parsing, the command line tools, rate limiters (an
answer given with each offer).

## Modelling conventions

* Bytes are `UInt8`, byte strings `List UInt8`.  Integers whose width matters are `Nat` with the
  explicit bound or modulus that the code applies; otherwise `Nat`.
* `&mut` arguments become returned values.  `Result` and `Option` stay data.  Panics are error
  values.
* A database is a list of rows with strictly ascending keys.  A transaction batch is a finite map
  from keys to `some v` (put) or `none` (delete).

## Plan per property

| id | model | proof |
|----|-------|-------|
| C01 | `make_ts_hash`, `unpack_ts_hash`, `bytes_compare` | round trip and order isomorphism by arithmetic on base 256 |
| C02 | all key builders as byte strings | injectivity by fixed-width decomposition; truncation collision as witness |
| C03 | `increment_vec_u8`, iterator bounds | `p <= k < succ p` iff `k` starts with `p`, by induction on the prefix |
| C04 | iterator + page function with filter | induction on the list of remaining rows |
| C05 | batch and commit | finite map algebra |
| C06 | `delete_page` loop | measure = rows left in range |
| C07, C09 | generic `Store` over an abstract store definition | invariant: stored state = function of the set of merged messages (max per item) |
| C08 | same | case analysis of merge |
| C10 | cast store instance | corollary of the max characterisation with the cast order |
| C11 | same, with prune and revoke | invariant by induction over operations |
| C12 | `prune_messages` over (db, txn) | induction on rows; negation by concrete witness for pending txn |
| C13 | `revoke_messages_by_signer` | induction on rows |
| C14 | compaction in link store | case analysis; order dependence witness |
| C15 | username proof store | invariant by induction |
| C16 | fname proof store | invariant by induction; negation witness |
| C17 | winner fold | order-independence of a max fold |
| C18, C19 | event id generator, event rows | arithmetic; range scan lemma |
| C20, C21, C22 | trie node functions on in-memory tree | canonical form: the tree is a function of the key set |
| C23 | DFS paging, token codec | induction on the tree; codec round trip |
| C24 | trie over database rows with unload/reload | negation witness; partial theorem for histories without compaction deletes |
| C25 | trie key builders | fixed-width decomposition |
| C26 | version tables | sorted table lemma, lifted from the whole table |
| C27 | routing with sha256 as a parameter | case analysis, modular arithmetic |
| C28 | time conversion | arithmetic |
| C29-C33 | gasless key stores as one state machine | invariants by induction over operations |
| C34 | admission rule and counters | invariant by induction |
| C35-C37 | authority table, slot merge | finite case analysis and invariants by induction |
| C38, C39 | seqnum allocation and application | induction over blocks |
| C40-C43 | storage slots with an explicit clock, lending, tiers | algebra of slots, induction |
| C44-C46 | on-chain event indexes | order-independence of max folds, witnesses for ties |
| C47-C49 | engine skeleton over an abstract deterministic replay | state machine over propose, validate, commit, crash |
| C50 | message validation with raw bytes | case analysis, witness |
| C51, C52 | certificate check | iterator-consumption semantics, counting; witness |
| C53, C54, C56 | read validator, proposal cache, witnesses | invariants by induction |
| C55 | validator set choice, round robin | arithmetic |
| C57, C58 | mempool | invariants by induction |
| C59 | block stores | range scan lemma |
| C60 | cast validation | equivalence with a declarative predicate |

| C61 | index scans of the cast, link and reaction stores | scan lemma and rows of the stored messages (C11); witnesses for URL targets |
| C62 | `parse` and `print` of channel URIs | round trip, then injectivity |
| C63 | `get_count`, `get_hash` | the tree of a prefix is canonical for the keys with the prefix |
| C64 | store and trie run together | invariant: trie keys = keys of the live messages and of others, by induction over operations |
| C65 | channel slots and admission | negation by witness; the part that holds by case analysis |
| C66, C67 | proposals on disk and in memory, engine commit | invariant by induction over decisions and restarts; witnesses |
| C68, C69 | poller grouping, routing of offers, capacity | permutation and counting lemmas |
| C70 | pruning jobs over block and event stores | range scan lemma, time index |
| C71-C74 | all validators | equivalence with declarative predicates, case by case |
| C75 | channel follow index | invariant: index rows = likes of channel URLs |
| C76 | fan-out over shards with cursors | induction over rounds; counterexamples for the older listings |
| C77 | name rows and trie run together | invariant: trie keys = entries of held names and of others, by induction over operations |
| C78 | server pages, client import, status rows, restarts | invariant: replica keys and rows are those of the source seen so far, by induction over steps; paging from C23 |
| C79 | the same client fed with arbitrary pages, final root test | invariant over steps: while the keys are the source's, so are the messages; the root fixes the keys as in C22, for reloaded tries |
| C80 | the migration task as a machine with one database access per step, interleaved with engine calls, chain events, failures and crashes | simulation: the run without the migration agrees off the index; the users still ahead of the iterator cover every missing index row |
| C81 | the reader as a machine with one request, log or write per step; the chain grows and the process stops at any point | invariant: every log below a cursor has been attempted; progress by a measure |
| C82 | the fetcher as a machine with one request, entry or write per step; the server changes at any point | invariant: every entry up to the position has been delivered, the page is a beginning of the rest; progress by a measure |
| C83 | all stores over one database and batch; tables by first byte and postfix | the single-store invariant depends on the store's tables only; calls write there and in the event log; equal live messages give equal rows |
| C84 | all stores and the trie side by side, each call's events fed to the trie | C83's invariant joined with the trie's: its keys are those of the live messages of all stores and of others; the root fixes the keys, the keys the messages, the messages the rows |
| C85 | usage as the sum of the trie's counts by user and type, limits from the storage slot, the engine's prune | C84's invariant: keys under a user and type are those of the live messages; C63's count of pending rows; C12's prune on the shard |
| C86 | the whole of validation over the on-chain tables and the gasless key tables, with a log of accepted items | an invariant tying the tables to the log, on top of C29-C33 and C44-C46; C72 for the envelope |
| C87 | the composed shard of C83 with the name registry of C15 and the side effects of transactions | invariants: shown usernames are owned, shown addresses are verified or among the verifications lost in this transaction |
| C88 | the event log of each shard, the channel, and a commit as separate steps of write, send and store; the subscriber's task as separate steps of page, subscribe and receive | invariant over all interleavings: what was received is the read part followed by a sublist of the part sent since, equal to it if never slow; concrete histories for what does not hold |
| C89 | the steps of the engine on the six message stores and the trie, function by function, as an instance of the engine of C47-C49, everything else arbitrary | every step keeps a record of store calls and events that reproduces stores and trie; induction over rounds and heights; C84 on the record |
| C90 | the engine of C89; what was offered is read off the blocks, what the rest of the hub keeps true is an arbitrary invariant | every store call stages only the message it is given, so every step keeps that all message rows were validated or replayed; induction over rounds and heights; for well-formedness, C84 on the record |
| C91 | the steps of the engine of C89 on one message, key or block event, and a whole transaction for the order | the effect of each store call on what all six stores hold, from the invariants of C83 and C84; the reports by cases over all calls; the sort is a stable sort |
| C92 | the engine of C89 whose rest is the on-chain and key tables of C86 | the tables of the rest are always those some history of offered events and messages makes, an invariant for C90; then C86 |
| C93 | the engine of shard 0 over its message stores, trie, on-chain and key tables and block events; a ghost record of the validated messages | an invariant of the rows, the record and the block events over every step of a transaction and every call; then the admission invariants of C86 |
| C94 | the engine of C93 | the clock is only compared with the ends of rentals and loans, which stay in a set on which the clocks agree; replay ignores the roots in transactions; the block height resets the event numbers. Witnesses by evaluation |
| C95 | the engines of C92 and C93 and the block events of C38 | a run of the engine is a run of C38's history (refinement); an invariant that every staged channel message is among the events of the block; then C92 and C93 composed |
| C96 | the engine of C93 and the channel stores of C35 to C37 | a run of the engine is a history of channel steps (refinement): loans and verifications write rows outside the channel tables, each channel message is an admission with the owner of that moment; then C35 to C37 on that history |
| C97 | the engine of shard 0 of C93 with its events, and the replay of an event into the channel stores | the channel messages among the events are the log of the channel history of shard 0 (C96, C38); what one node merged, a node with the same log merges too; induction over the steps of the data shard with the log of the replayed events as invariant |
| C98 | prost's encoding and decoding of the consensus messages, byte by byte | decoding what was encoded gives the fields back, by induction over the varint rounds and the fields; then case analysis on the fields, and C51 |
| C99 | the wire format of C98, the codec and the gossip arms | round trip lemmas message by message; whatever can be read fits its types, so that every byte string is heard as the plain encoding of its message; case analysis of the conversions; two literal messages as witnesses of the panics |
| C100 | the wire format of C98 with the messages of catching up and the codec | round trip lemmas message by message with repeated fields by induction; what is read fits its types; C98 for the certificate; case analysis for the panics |
| C101 | the backup loop, the chunk writer, the bucket as a map from keys to objects with the steps of an upload and of the clean-up, the download | induction over rows, buffers and histories with the invariant that the last described snapshot of each shard is complete; paths are injective because their parts have no slash |
| C102 | JSON values, the mapping of every body, the message, the page and the reading of a page token; base64, base58 and the writing of JSON are parameters or external | a separate client reads fields by name; case analysis over bodies with a round trip for each part; acceptance from C72 |
| C103 | turns of the job over any two event stores, with the stored token, what was sent and the ends reached; a turn may lose the token or stop after any number of events | invariant over turns: what lies behind the token is settled; the rows ahead shrink by a page each turn; store contents from C45 |
| C104 | splitting of text, the table of users, the check of a header and the checks in front of each call; base64 and UTF-8 are parameters | a separate specification by joining pieces; splitting is the inverse of joining; induction from the end over entries; decomposition of the header into words |
| C105 | the repair over the stores of C38 and the start that calls it; the types of events as prost reads them, unknown ones as heartbeats | decision by cases on the event read; the appended row continues the numbering (C38); induction over starts |

No property on the list is outside what an executable model can express; runtime behaviour that
the model does not carry is named in the notes of `MANIFEST.json`.

## Statements revised while proving

Some properties first written down are false of the code.  `properties.jsonl` then carries the
corrected statement, and the failure is a theorem of its own (next section).

* C24: reloading is invisible only if no key is another key shifted by one nibble 8 and something
  is committed.
* C41, C48, C49, C52, C54, C56, C65, C66, C67: the statement says what holds and what does not.
* C42: needs one transaction per user and block and unexpired purchases.
* C46: needs transfers after registrations.
* C55, C57, C58, C59: exact conditions added.
* C61, C76: exact only for targets whose index bytes no other target extends, and for shards with
  the same number of pages.
* C79: says what a right root implies, and under which conditions nothing is missing.
* C80: needs that the first event of each user is a registration.
* C81: a streamed chain needs a provider whose filters deliver old logs; a polled chain must not have a stop block to catch up.
* C82: needs a configured start.
* C85: counts are right while changes are pending only if no type lost its last message.
* C86: what a message says is what its signer signed only if `data` was decoded from the signed
  bytes, as the API and gossip do; a block is not checked for this.
* C87: needs that the batch sets no new value of the field about to be revoked, that transfers name
  the owner they take from, and that verifications go only by merges.
* C88: complete only if the shard is idle between reading and subscribing and the client is fast.
* C64, C77, C78, C84: need that event numbers do not run out within a block.

## Disagreements found between the code and what a user expects

Each item is a theorem about the model of the code as it is.

Stores
* Fids equal modulo 2^32 share all rows (`C02_truncation_collision`); a URL target spelled like a
  cast id and link types that differ by trailing NULs share rows (`C02_url_castid_collision`,
  `C02_link_type_padding_collision`).
* A page token of another prefix lists foreign rows (`C04_foreign_token_leaks`).
* When the event numbers of a block are used up, a merge fails after staging its rows; the message
  is then stored and not in the trie (`C08_exhausted_keeps_writes`, `C64_exhausted`).
* The same message signed by two signers makes the result depend on the order (`C07_two_signers`).
* Pruning in the block that replaces a message deletes the index row of the replacement, which is
  then stored and not found (`C12_same_block_replacement`).
* A link compaction survives the revocation of its signer (`C13_compaction_survives`); compaction
  depends on order within a second or block (`C14_same_instant`, `C14_same_block`).
* Fname lookups by user lose a name after a re-proof, a second name, or a release out of order
  (`C16_reproof_hides`, `C16_second_name_hides`, `C16_release_order`).
* Event pruning wraps for large heights (`C19_prune_wraps`).

Trie
* Compacted children leave rows behind, and the row prefix is doubled, so a delete can erase the
  row of another user's key (`C24_nibble8_false`, `C25_shifted`).
* An emptied trie cannot be reloaded (`C24_emptied_false`).
* Enumeration below a prefix longer than six bytes is wrong (`C23_long_prefix_false`).
* A later proof of a name for its holder removes the name's entry from the trie
  (`C77_reproof_drops_entry`).
* `get_hash` and `get_count` ignore the pending deletion of the last key below a prefix (`C63_pending_delete`); the
  usage that pruning goes by is then too high (`C85_emptied_type_still_counted`).
* A received loan counts as a loan in the borrower's usage (`C85_received_loans_counted`).

On-chain events, storage, lending
* Same-block registrations depend on order (`C44_same_block_order_matters`); the removal guard is
  dead code (`C45_guard_is_dead`); resets restore the oldest add (`C45_reset_restores_oldest`,
  `C45_reset_ignores_batch`, `C45_reset_order_matters`).
* A transfer before the registration is lost (`C46_early_transfer_lost`, `C46_order_matters`).
* Storage wraps and depends on the clock (`C40_lent_beyond_owned_wraps`, `C40_limit_wraps`,
  `C40_pending_counted_twice`, `C41_allowance_depends_on_clock`).
* Two transactions of a user in a block over-lend; after expiry lending is unlimited; an ended lend
  can be replayed (`C42_two_transactions_overlend`, `C42_after_expiry_unlimited`,
  `C42_ended_lend_can_be_replayed`).
* A purchase out of order is hidden (`C43_out_of_order_hidden`).

Shard 0, channels, block events
* Whether a block of shard 0 is valid depends on the wall clock of the node that replays it: after a
  rental has expired, a node that catches up refuses a block that was committed, and panics
  (`C94_clock_matters`, with `C94_same_verdict` for what does not depend on it).
* Simulation reports success for key messages and loans whose merge is refused
  (`C94_simulation_hides_refusals`).
* Only proposers look at whether a user has storage; a block with messages of users without storage is
  accepted and handed on (`C94_storage_only_checked_by_proposers`).
* The verification cap is not applied to messages of other users in a transaction
  (`C34_foreign_transaction_not_counted`).
* An old moderation message can be replayed (`C65_replay_restores_a_dismissed_moderator`).
* A forged block event is accepted, a failed one is not retried, one without data panics
  (`C39_forged_event_accepted`, `C39_failed_event_not_retried`, `C39_event_without_data_panics`).
* A data shard with no event number left in its block drops a channel message for good and differs from
  shard 0 afterwards; the code calls this the settled behaviour (`C97_lost_without_numbers`).

Snapshots
* Chunks are described in the order in which the file system lists them, and restored in that order
  (`C101_listing_order_matters`; with a listing by name it is right, `C101_sorted_listing`).
* The clean-up of shard 1 deletes the snapshots of shards 10 to 19 (`C101_clear_deletes_other_shards`).
* The backup of a closed or read-only database is empty and is uploaded (`C101_read_only_is_empty`).

Engine and consensus
* A response to a sync request whose certificate lacks its height, its value or the 32 bytes of a signer makes
  the gossip task panic, four bytes are enough; so does a signed vote that is not complete
  (`C100_panics_exactly`, `C100_four_bytes_stop_gossip`).  Votes without signatures are dropped without an
  error (`C100_unpaired_votes_dropped`).
* Consensus messages that are not complete make the receiving task panic instead of being refused, before any
  signature is checked: a vote with a voter of another length than 32 bytes or of an unknown type, a proposal
  without a value, and in gossip a full proposal without a height (`C99_incomplete_panics`,
  `C99_six_bytes_stop_connector`, `C99_two_bytes_stop_gossip`).
* The cached transaction is used without comparing transactions, and stale ones are reused
  (`C47_memory_ignores_transactions`, `C47_stale_memory_reused`); set order changes event order
  (`C47_set_order_changes_event_order`).
* A crash between the two writes of a commit leaves shard 0 stuck and loses hub events
  (`C48_shard0_stuck_after_crash`, `C48_hub_events_lost`).
* Dry runs pass without storage, and bulk dry runs blame every message
  (`C49_no_storage_passes`, `C49_bulk_blames_all`).
* The certificate is not bound to the block: any chunk with any valid certificate is committed
  (`C52_any_chunk_is_committed`, `C52_any_block_is_committed`, `C52_read_nodes_diverge`).
* A message in a block may carry a `data` that is not what its signed bytes say; validation reads
  both, each in part, and `data` is stored (`C86_block_may_alter_the_data`).
* A key addition in a data shard's block is merged as a replay, without the check of the app that
  asked for it (`C86_direct_key_add_skips_the_app`).
* A username set in the batch in which its name is taken away stays (`C87_same_batch_username_stays`),
  as does a primary address set in the batch in which its verification is removed
  (`C87_same_batch_address_stays`) or whose verification is pruned or revoked
  (`C87_revoked_verification_leaves_address`).
* Any transfer revokes the source's username, even of another name or when refused
  (`C87_other_username_revoked`, `C87_refused_transfer_revokes`); verifying an address again revokes
  it as primary (`C87_reverification_revokes`).
* Full buffers drop blocks (`C53_full_buffer_drops`); the proposal cache loses a hash seen at two
  heights (`C54_hash_at_two_heights_lost`).
* Any shard witnesses are accepted, and a missing shard stops block production
  (`C56_any_witnesses_accepted`, `C56_missing_shard_stops_blocks`).
* A restarted proposer cannot commit its own proposal (`C66_restarted_proposer_does_not_commit`);
  data shards commit what they rejected (`C67_data_shard_commits_invalid`).

Mempool
* Block event 10 is ordered before 9, names hide block events, forged copies and short hashes
  block or stop the pool (`C57_*`, `C58_forged_future_announcement_blocks`,
  `C68_block_event_ten_lost`, `C69_*`).

Replication
* An item refused as a duplicate hides a missing message from the root test
  (`C79_duplicate_hides_missing_message`).
* A compact state of links in a later page deletes links accepted after it
  (`C79_compact_state_deletes_earlier_page`).
* Released names are not in the trie, so a new node accepts transfers the others refuse
  (`C79_root_hides_released_names`).
* A key of a type that is not replicated makes its page unavailable
  (`C79_unreplicated_key_is_not_served`).

Migrations
* A page of a hundred events without a registration ends the iteration over users, and the
  old index is deleted all the same (`C80_page_without_registration_ends_the_iteration`).
* While the task runs, older verifications are not found by address
  (`C80_incomplete_while_running`).
* The job that offers on-chain events to shard 0 moves its place on once events are sent. An event that the mempool then drops is not
  sent again before the job has ended and is started anew (`C103_once_in_a_pass`).

Connectors

* Logs that appear during the historical sync are lost if the provider's filters deliver only new logs
  (`C81_gap_between_sync_and_stream`).
* A log that could not be processed once is not tried again (`C81_failed_log_is_not_retried`).
* A polled chain whose stop block is reached asks for an empty range for ever and reads no other contract
  (`C81_stop_block_starves_polling`).
* Without a configured start, the default, name transfers published while the node is down are never read
  (`C82_default_start_skips`); if its first request fails it reads the whole registry again
  (`C82_failed_first_request_rereads`).
* Both readers record their position when the events are in the channel to the mempool, in memory; a crash can lose
  events before they are in a block.

Validation
* Contract claims are not checked in consensus, chain ids are truncated, name transfers do not
  sign the user (`C73_*`); `data` is not compared with `data_bytes` (`C50_verdict_ignores_data`);
  the announced type is not compared with the body (`C74_announced_type_is_not_checked`); reactions
  of no kind are accepted (`C74_reactions_of_no_kind`); github names cannot be cleared and take
  other digits (`C71_*`).

Event stream
* An event committed between the end of reading and the subscription is lost; one written but not
  yet sent comes twice (`C88_event_in_gap_lost`, `C88_event_twice`).
* A slow subscriber loses events without being told (`C88_slow_subscriber_not_told`).
* An event read before its chunk is stored has timestamp 0 (`C88_timestamp_missing`); the first id
  asked for does not hold back live events (`C88_first_id_ignored_live`).
* Event queries over several shards repeat shards read to the end, and a node without all shards
  refuses its own tokens (`C88_query_repeats`, `C88_query_own_token_refused`).

Credentials

* An only entry with a colon in its password is dropped without an error, and with it the whole check: messages are taken from everyone
  (`C104_colon_in_password_opens`).
* Calls of the admin server that retry events and names, and on the devnet those that submit them, ask for no credentials
  (`C104_retries_are_open`).

Listings
* A longer URL breaks, injects into or panics a listing by URL
  (`C61_longer_url_breaks_listing`, `C61_longer_url_injects`, `C61_shorter_url_panics`), and the
  server hides the error (`C76_errors_hidden`).
* Listings over shards never end or repeat items (`C76_never_ends`, `C76_duplicates`).
* A message that cannot be written in JSON panics the whole HTTP page (`C102_page_fails_iff`); such a message was
  acceptable before version 5 (`C102_old_proof_fails_pages`).
* Unknown kinds of storage units are shown as legacy ones and unknown scopes not at all, which validation rules out
  (`C102_unknown_units_are_legacy`, `C102_unknown_scopes_vanish`, `C102_missing_embed_is_empty_url`).

Seen while reading and not modelled: `get_all_values` cuts off past 1024 values; bulk insert flags
are permuted when keys repeat; splitting at a key that ends at the node panics; a reaction type is
cut to a byte in queries; a failed `put_shard_chunk` is only logged; frame button indexes up to 5
are accepted.
