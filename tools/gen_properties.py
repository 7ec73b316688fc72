#!/usr/bin/env python3
"""Writes /verif/properties.jsonl.  The list lives here so ids stay stable."""
import json, os
P = []
def p(id, title, statement, quantifier, why, anchors):
    P.append(dict(id=id, title=title, statement=statement, quantifier=quantifier,
                  why_tests_cant=why, anchors=anchors))

S="src/storage/store/account/"
# ---- storage encoding, iteration, transactions
p("C01","Message order keys are faithful",
 "The 24-byte order key of a message (timestamp, hash) is defined exactly when the hash has 20 bytes, decodes back to the same timestamp and hash, and sorting keys bytewise is the same as sorting messages by timestamp and then by hash.",
 "every 32-bit timestamp and every hash byte string",
 "2^192 keys; ordering is a statement about all pairs",
 [S+"message.rs: make_ts_hash, unpack_ts_hash", "src/storage/util.rs: bytes_compare"])
p("C02","Rows of different users, sets and indexes never collide",
 "For fids below 2^32, two stored rows (message rows and their add/remove/target index rows) have the same database key only if they are the same kind of row for the same user and the same logical item; hence a write for one user can never overwrite or shadow another user's data.  For fids of 2^32 and above the keys do collide, because fids are truncated.",
 "every pair of row descriptions (kind, fid, set, timestamp, hash, target)",
 "collisions are a property of all pairs of keys, including adversarially chosen targets",
 [S+"message.rs: make_fid_key, make_user_key, make_message_primary_key, make_cast_id_key", S+"cast_store.rs", S+"link_store.rs", S+"reaction_store.rs", S+"verification_store.rs","src/storage/constants.rs"])
p("C03","Prefix scans return exactly the rows with the prefix",
 "Scanning from a prefix to its successor visits exactly the stored rows whose key starts with the prefix, in ascending bytewise order (descending when reversed), provided the prefix has at least one byte below 255 and no stored key is a proper prefix of the successor (which holds when the last prefix byte is below 255, or when every stored key is at least as long as the prefix); for an all-255 prefix the scan is empty.",
 "every database content and every prefix",
 "depends on every byte pattern of keys and carry behaviour of the successor function",
 ["src/storage/util.rs: increment_vec_u8","src/storage/db/rocksdb.rs: get_iterator_options, iterate_with_opts, for_each_iterator_by_prefix"])
p("C04","Pagination neither loses nor repeats messages",
 "Starting without a token and following next_page_token until it is absent returns every matching message under the prefix exactly once, in scan order, for either direction, for every page size of at least one and every filter, and the walk terminates.",
 "every database content, prefix, filter, direction, page size and number of pages",
 "page boundaries interact with filters and data in unboundedly many ways",
 [S+"message.rs: get_messages_page_by_prefix, require_page_token_in_prefix","src/storage/db/rocksdb.rs: get_iterator_options, for_each_iterator_by_prefix"])
p("C05","Uncommitted writes are read as if committed and vanish on abort",
 "A point read through a pending batch returns exactly what a read of the database would return after committing that batch; staging writes leaves the database untouched, so dropping the batch restores every read.  Merging one batch into another and committing equals committing them one after the other.",
 "every database, every sequence of staged puts and deletes, every key",
 "all interleavings of puts and deletes of the same key",
 ["src/storage/db/rocksdb.rs: RocksDbTransactionBatch, commit", S+"message.rs: get_from_db_or_txn"])
p("C06","Range deletion deletes the range and only the range",
 "Page-wise deletion of a key range terminates, removes every row in the range, and leaves every other row unchanged, for every page size of at least one.",
 "every database content, range and page size","loop over arbitrarily many pages",
 ["src/storage/db/rocksdb.rs: delete_page, delete_paginated","src/storage/store/shard.rs","src/storage/store/block.rs"])
# ---- CRDT stores
p("C07","Message merge order does not matter",
 "For a store with adds and removes (links, reactions, verifications, user data, casts), merging any collection of distinct messages one after the other, in any order and with any repetitions, ends in the same stored state.",
 "every finite sequence of messages and every permutation or repetition of it, starting from the empty store",
 "factorially many delivery orders",
 [S+"store.rs: get_merge_conflicts, message_compare, merge, merge_add, merge_remove, delete_many_transaction, put_add_transaction", S+"cast_store.rs: message_compare"])
p("C08","Rejected and repeated merges change nothing",
 "A merge that is rejected leaves every stored row unchanged; merging a message that is already stored is rejected as a duplicate.",
 "every reachable store state and every message","all states and all error paths",
 [S+"store.rs: merge, get_merge_conflicts"])
p("C09","One winner per logical item",
 "After any sequence of merges, at most one message (add or remove) is stored for each logical item, it is the greatest submitted message for that item under the conflict order, and it is what lookups return.",
 "every merge sequence and every logical item","all histories",
 [S+"store.rs: get_add, get_remove, get_merge_conflicts"])
p("C10","A removed cast stays removed",
 "Once a remove for a cast has been merged, no later merge (whatever timestamps are used) makes that cast readable again as long as the remove is neither pruned nor revoked; a remove is accepted over any add of that cast.",
 "every sequence of later cast merges","adversarial timestamps and unbounded histories",
 [S+"cast_store.rs: message_compare, make_add_key, make_remove_key"])
p("C11","Indexes and stored messages agree",
 "After any sequence of merges, prunes and revocations of stored messages performed one per commit, every index row points at a stored message with that item key, and every stored message is reachable through its index row.",
 "every operation sequence","all histories",
 [S+"store.rs: put_add_transaction, delete_add_transaction, put_remove_transaction, delete_remove_transaction, revoke, prune_message"])
p("C12","Pruning removes the oldest messages down to the limit",
 "When pruning starts from a committed store, exactly the count-minus-limit oldest messages are removed (none if within the limit) and the newest `limit` remain.  When a block has merged messages that are not committed yet, pruning reads the stale committed rows: the limit can remain exceeded and a surviving message can lose its index row.",
 "every store content, count and limit; every block mixing merges and pruning",
 "boundary behaviour over all sizes and block contents",
 [S+"store.rs: prune_messages, prune_message","src/storage/store/engine.rs: prune_messages"])
p("C13","Revoking a signer removes exactly that signer's messages",
 "When nothing pending touches the user's committed messages, revocation by signer removes every committed add or remove message of the user in that store signed by the key and no other message.  A link compaction signed by the key is not reached: it stays in force.",
 "every store content, every key","all contents",
 [S+"store.rs: revoke_messages_by_signer, revoke"])
p("C14","Link compaction keeps only the listed targets",
 "After a link compaction is accepted, among the user's links of its type dated at or before it only adds to listed targets remain; later merges cannot bring back an older unlisted link; a link dated exactly at the compaction time is deleted if it arrives before the compaction but accepted if it arrives after, so the final state depends on arrival order at that instant.",
 "every set of links, compaction and later merge sequence","all arrival orders and timestamps",
 [S+"store.rs: merge_compact_state, merge_add, merge_remove", S+"link_store.rs: is_compaction_conflict, compact_state_add_conflict"])
p("C15","One owner per proven name",
 "At any time each proven (ENS/basename) name is bound to at most one user's proof, the binding is to the winning proof among those submitted, and lookups by name and by user agree.",
 "every sequence of username proof merges by any users","all histories across users",
 [S+"username_proof_store.rs: get_merge_conflicts, build_secondary_indices, delete_secondary_indices"])
p("C16","Fname lookups by name and by user agree",
 "After any sequence of fname transfers, looking a name up returns its latest accepted transfer; looking up by user returns a name currently owned by that user.  The reverse (an owner is always found by user lookup) is false: re-proving a name for its current owner deletes the owner's by-user entry.",
 "every sequence of fname transfers","all histories",
 [S+"user_data_store.rs: merge_username_proof, username_proof_compare", S+"name_registry_events.rs: put_username_proof_transaction, delete_username_proof_transaction, get_fname_proof_by_fid"])
p("C17","The winner among verifications of one address is deterministic",
 "The user selected for an address verified by several users is the one with the greatest (timestamp, hash), ties broken by the smaller fid, independent of the order in which candidates are seen.",
 "every set of candidates and every order","all orders",
 [S+"verification_store.rs: select_verification_address_winner, get_verifications_by_address"])
# ---- events
p("C18","Event ids are unique and ordered",
 "Within one node, ids handed out at increasing heights are strictly increasing, decode to the height and sequence they were made from, an exhausted height yields an error instead of a colliding id, and the block-confirmed event has the smallest id of its height.",
 "every sequence of height changes and id requests","overflow boundaries at 2^14 and 2^50",
 [S+"event.rs: HubEventIdGenerator"])
p("C19","Event queries and pruning respect heights",
 "Reading events from an id returns exactly the stored events with id at least the start (and below the stop) in increasing id order; pruning events below a height deletes exactly the events whose height is below it.",
 "every stored event set, range and height","all contents",
 [S+"event.rs: get_events, prune_events_util"])
# ---- trie
p("C20","The state root depends only on the set of entries",
 "Starting from an empty trie, any two sequences of inserts and deletes of well-formed keys that leave the same set of keys leave the same root hash, and in fact the same tree.",
 "every pair of operation sequences","all histories",
 ["src/storage/trie/trie_node.rs: insert, delete, split_leaf_node, update_hash","src/storage/trie/merkle_trie.rs"])
p("C21","The trie is a set",
 "Insert reports true exactly when the key was absent, delete exactly when it was present, membership and the item count agree with the set of keys inserted and not deleted, and enumeration returns exactly those keys.",
 "every operation sequence","all histories",
 ["src/storage/trie/trie_node.rs: insert, delete, exists, items, get_all_values"])
p("C22","Different entry sets have different roots",
 "If the hash function has no collisions on the values involved, two tries holding different sets of keys have different root hashes.",
 "every pair of key sets","all pairs of sets",
 ["src/storage/trie/trie_node.rs: hash, update_hash"])
p("C23","Trie enumeration by pages is complete",
 "Paging through a subtree with the returned tokens yields every key under the prefix exactly once and in ascending order, for every page size of at least one; page tokens survive encoding and decoding.",
 "every trie, prefix and page size","all trees and cut points",
 ["src/storage/trie/merkle_trie.rs: get_paged_values_of_subtree","src/storage/trie/util.rs: encode_trie_page_token, decode_trie_page_token"])
p("C24","Unloading and reloading the trie is invisible",
 "Dropping cached nodes and loading them from the database again never changes membership or the root hash.  This is false of the code: compaction on delete erases the database row of an unrelated live node whose path starts with nibble 8.",
 "every operation sequence with reloads at any point","all schedules of eviction",
 ["src/storage/trie/trie_node.rs: delete, delete_to_txn, make_primary_key, get_or_load_child, unload_children","src/storage/trie/merkle_trie.rs: reload"])
p("C25","Trie keys identify messages",
 "Trie keys of different (user, kind, hash) entries differ, and decoding a trie key returns the fid, kind and hash it was made from.",
 "every fid below 2^32, message type, event type and hash","all pairs",
 ["src/storage/trie/merkle_trie.rs: TrieKey","src/storage/trie/util.rs: expand_nibbles, combine_nibbles"])
# ---- version / routing / time
p("C26","Protocol upgrades are monotone in time",
 "On each network the active version never decreases as time advances, each feature other than the signer-revoke bug stays enabled once enabled, the announced next upgrade time is the first time the version changes, and the devnet always runs the newest version.",
 "every pair of times and every network and feature","64-bit time domain",
 ["src/version/version.rs: version_for, is_enabled, next_version_timestamp_for"])
p("C27","Every message has exactly one home shard",
 "Routing sends a message to one shard between 0 and the shard count; user data always goes to a shard between 1 and the shard count that depends only on the fid; authority messages (storage lending, key management, channel control) always go to shard 0.",
 "every fid, shard count of at least one, message type and version","all fids",
 ["src/mempool/routing.rs: route_fid, route_message"])
p("C28","Farcaster time conversions round-trip",
 "Converting to farcaster time and back returns the original second; times before the epoch or beyond 32 bits are rejected.",
 "every 64-bit millisecond value","boundary arithmetic",
 ["src/core/util.rs: to_farcaster_time, from_farcaster_time, FarcasterTime"])
# ---- gasless keys
p("C29","Key authorisations cannot be replayed",
 "For each user the nonce consumed by accepted custody-signed key messages strictly increases, so no accepted key-add or custody key-remove is ever accepted again, whatever happens in between; the same holds for self-revocations per requesting app.",
 "every sequence of key messages for any users","unbounded adversarial histories",
 [S+"gasless_key_merge.rs: merge_key_add, merge_key_remove", S+"key_nonce_store.rs: check_and_set_nonce"])
p("C30","The number of gasless keys per user is counted exactly and capped",
 "After any sequence of key messages, the stored key count of a user equals the number of key records of that user and never exceeds 1000.",
 "every sequence of key messages","unbounded histories around the cap",
 [S+"gasless_key_merge.rs", S+"key_add_store.rs: increment_count, decrement_count"])
p("C31","A gasless key belongs to at most one user",
 "At any time a public key has at most one owner, the owner lookup by key and the record lookup by user agree, and a key active on-chain for a user cannot be added again as a gasless key of that user.",
 "every sequence of key messages","histories across users",
 [S+"gasless_key_merge.rs: merge_key_add", S+"key_add_store.rs"])
p("C32","Idle gasless keys expire and used ones do not",
 "A message signed with a gasless key is rejected if the last recorded use plus the time-to-live is before the block time; the recorded use never decreases through use and lags the newest accepted message by at most 300 seconds; after removal the key is never accepted.",
 "every sequence of uses, additions and removals","unbounded histories",
 [S+"key_last_used_at_store.rs: check_and_bump_last_used_at", S+"active_key.rs"])
p("C33","Gasless keys act only within their scopes",
 "A message is admitted with a gasless key only if its type is one of the types listed when the key was added; on-chain keys admit every type and take precedence.",
 "every scope list and message type","all scope lists, including out-of-range entries",
 [S+"active_key.rs: compute_scopes_mask, admits, get_active_key"])
# ---- shard 0 rules
p("C34","Verification storage is bounded on shard 0",
 "Starting within the limits, after any sequence of verification messages the number of live verifications of a user never exceeds the allowance and the number of stored rows never exceeds allowance plus tombstone allowance, and replacing an existing item is always admitted.",
 "every sequence of verification adds and removes and every allowance","unbounded adversarial histories",
 ["src/storage/store/block_engine.rs: verification_tombstone_cap, verification_row_cap, validate_user_message_with_verification_counts, apply_verification_count_delta"])
p("C35","Channel roles change only with authority",
 "For every sequence of membership messages: a banned user stays banned until the owner or a moderator unbans them; the owner is never banned by a message; moderators are appointed and dismissed only by the owner (or leave themselves); a plain user can only join an open channel or leave.",
 "every role, action, mode and message sequence","state machine over all histories",
 ["src/storage/store/block_engine.rs: channel_member_authority, validate_channel_message", S+"channel_store.rs: member_state_for_message"])
p("C36","At most ten moderators, counted exactly",
 "After any sequence of admitted membership messages the stored moderator count of a channel equals the number of members whose current state is moderator, and it never exceeds 10.",
 "every message sequence","unbounded histories",
 ["src/storage/store/block_engine.rs: CHANNEL_MODERATOR_CAP, validate_channel_message", S+"channel_store.rs: merge_slot, live_moderator_count"])
p("C37","Channel slots are capped, permanent and last-writer-wins",
 "The stored slot counter of a channel equals its number of occupied slots and never exceeds the cap; an occupied slot is never vacated; each slot holds the most recently merged message for it regardless of message timestamps; a rejected merge changes nothing.",
 "every merge sequence and cap","unbounded histories",
 [S+"channel_store.rs: merge_slot"])
p("C38","Block events are numbered without gaps",
 "The events emitted by shard 0 carry sequence numbers that start at the stored maximum plus one and increase by one across events and blocks; event hashes commit to the event list.",
 "every sequence of blocks","unbounded histories",
 ["src/storage/store/block_engine.rs: generate_block_events", S+"block_event_store.rs"])
p("C39","Data shards apply block events in order, exactly once",
 "Whatever order, grouping and repetition block events arrive in, the sequence numbers a shard applies are exactly the next ones after its stored maximum, consecutive and without repetition.",
 "every sequence of blocks containing block events in any order","all schedules",
 ["src/storage/store/engine.rs: replay_snapchain_txn, replay_proposal","src/mempool/block_receiver.rs"])
# ---- storage & onchain
p("C40","Storage allowance adds up",
 "The storage allowance of a user is the sum of the unexpired purchased units by type, minus lent, plus borrowed; combining slots is commutative and associative; the message limit is additive in units and monotone.",
 "every list of rent events and lends, every clock value","unbounded sums, expiry boundaries",
 [S+"onchain_event_store.rs: StorageSlot, get_storage_slot_for_fid","src/storage/store/stores.rs: Limits, StoreLimits"])
p("C41","Storage validity does not depend on when a block is replayed",
 "Replaying the same events gives the same allowance at any wall-clock time.  False of the code: activity is decided with the local clock, so the same block can allow different message counts when replayed later.",
 "every event list and every pair of replay times","needs two runs at different times",
 [S+"onchain_event_store.rs: StorageSlot::is_active, merge"])
p("C42","Nobody lends storage they do not have",
 "Through any sequence of admitted lending messages, the total lent by a user never exceeds the units it owns minus the reserved unit, and lending moves units without creating or destroying any.",
 "every sequence of lend messages","unbounded histories",
 ["src/storage/store/block_engine.rs: validate_user_message_with_verification_counts, on_merge_message", S+"storage_lend_store.rs"])
p("C43","Subscription time accumulates",
 "The expiry of a subscription is independent of how purchases are split, never earlier than any single purchase alone would give, and a purchase made while active extends it by exactly its duration.",
 "every list of purchases in time order","all purchase histories",
 [S+"onchain_event_store.rs: tier_subscription_exires_at, is_tier_subscription_active_at"])
p("C44","Latest on-chain registration wins",
 "After merging any set of registration events in any order, the custody record is that of the event with the highest block number when block numbers differ; events in the same block resolve to the one merged last, so there the result depends on order.",
 "every sequence of id-register events","all orders",
 [S+"onchain_event_store.rs: build_secondary_indices_for_id_register"])
p("C45","Removed on-chain signers stay removed",
 "After a signer is removed, an older add event merged late does not reactivate it; re-merging a known event is rejected and changes nothing; a newer add does reactivate it even though the code carries a guard meant to prevent that.",
 "every sequence of signer events","all orders",
 [S+"onchain_event_store.rs: build_secondary_indices_for_signer, get_active_signer"])
p("C46","Channel ownership follows the chain",
 "When channel events are merged in chain order, a channel belongs to whoever the last registration or transfer names until the time the last registration or renewal names; in any order, an event earlier on the chain than the record never changes it and a channel has an owner exactly when a registration was accepted; registrations alone may arrive in any order; the list of channels of an owner is exactly those whose record names it, and the reported change of owner is the recorded one.  Full order independence is false: a renewal merged first hides an earlier transfer.",
 "every sequence of channel events, commits and dropped batches","all orders and histories",
 [S+"onchain_event_store.rs: build_secondary_indices_for_channel_register, move_channel_owner_address_index, fold_channel_register_replica, get_channel_keys_by_owner_address"])
# ---- engine / crash
p("C47","Validators that replay a proposal reach the proposer's state",
 "Validating an honest proposal succeeds and yields exactly the proposer's root and writes; a chunk whose claimed roots differ from the replayed ones is rejected; committing through the cached result and through replay gives the same database.",
 "every state, proposal and transaction list","all states",
 ["src/storage/store/engine.rs: propose_state_change, replay_proposal, validate_state_change, commit_shard_chunk, is_cached_txn_valid"])
p("C48","A crash during commit leaves a recoverable state",
 "A crash before the state write leaves the previous block's state; after both writes the new one.  Between the two writes the state is ahead of the recorded height: the full statement (restart then re-commit yields the same state) is false in general, and holds when re-applying the block is idempotent.",
 "every crash point","needs a crash at each point",
 ["src/storage/store/engine.rs: commit_and_emit_events","src/storage/store/block_engine.rs: commit_block"])
p("C49","Dry runs do not change state",
 "Simulating a message leaves the stored state and the trie unchanged and reports exactly whether a block with that message alone at the same height and time accepts it, and with which error.  Two things it does not say: it does not look at storage, so a message the proposer will drop for lack of storage passes; and in a bulk dry run one refused message has all messages of its user reported as refused.",
 "every state and message","all states",
 ["src/storage/store/engine.rs: simulate_message, simulate_bulk_messages"])
p("C50","What is merged is what was signed",
 "For messages normalised at the API boundary, the content that is merged is the content whose hash was signed.  Without that normalisation the check covers the attached raw bytes while the merge uses the decoded field, so they can differ.",
 "every message","adversarial encodings",
 ["src/core/validations/message.rs: validate_message", S+"message.rs: message_bytes_decode, message_encode","src/network/server.rs","src/network/gossip.rs"])
# ---- consensus
p("C51","Accepted commit certificates carry a quorum of distinct validators",
 "If a certificate is accepted then strictly more than two thirds of the validator set, all distinct, signed that value at that height and round; duplicates and outsiders are rejected.  A genuine quorum listed in another order than the validator set is rejected.",
 "every validator set and signature list","adversarial signature lists",
 ["src/core/util.rs: verify_signatures","src/consensus/validator.rs: StoredValidatorSets"])
p("C52","Accepted blocks are the blocks that were signed",
 "Whatever arrives and in whatever order, everything a read node commits, and every block whose events a data shard takes, carries a certificate with valid signatures of a quorum.  That the quorum signed that very block is false of the code: the certificate's value and height are never compared with the block it is attached to, so any block passes with any valid certificate and two read nodes can commit different blocks.",
 "every block and certificate","needs a forged block",
 ["src/consensus/read_validator.rs: process_decided_value, verify_signatures","src/mempool/block_receiver.rs: validate_block_events"])
p("C53","Read nodes apply blocks in height order, once each",
 "Whatever the arrival order, duplication and loss of decided blocks, the heights committed by a read node are consecutive and increasing, buffered blocks stay within the limit, and a complete delivery within the buffer limit commits everything.",
 "every delivery schedule","all schedules",
 ["src/consensus/read_validator.rs: process_decided_value, process_buffered_blocks"])
p("C54","Proposal cache is bounded by height",
 "After any history of proposals and decisions in which a hash fixes the height, exactly the last proposal with a hash is found under it, until its height or a greater one is decided; right after a decision nothing of that height or below is found.  Without the assumption a proposal can be lost early: a hash that came before with a lower height takes it along.",
 "every sequence of adds and decides","all histories",
 ["src/consensus/proposer.rs: ProposedValues"])
p("C55","Validator set and proposer selection are deterministic and fair",
 "If the first configured set is for the shard and in effect, the validators in charge of a height are exactly the keys of the set for the shard with the greatest effective height not above it, each once; over any n consecutive rounds of one height, and any n consecutive heights, each of the n validators is selected exactly once.  Otherwise the first set is used although it is for another shard and hides others.",
 "every configuration, height and round","all heights",
 ["src/consensus/validator.rs: get_validator_set","src/core/types.rs: select_proposer"])
p("C56","Blocks reference shard chunks without gaps",
 "If proposers follow the code, each block references for every shard either the same stored chunk as the previous block or the next one, starting with the first, so no chunk is skipped.  Validators do not enforce it: any witnesses of the right number are accepted, and one accepted block without a witness for a shard stops block production.",
 "every sequence of blocks","all histories",
 ["src/consensus/proposer.rs: collect_confirmed_shard_witnesses"])
# ---- mempool / block stores
p("C57","The mempool hands out system messages first and loses nothing",
 "Pulling n messages returns, in queue order, the valid messages of the shortest first part of the queue that has n of them (or of the whole queue); everything behind stays; system messages come before user messages, earlier before later. An accepted message waits until it is pulled, found invalid by a pull, decided, or replaced by a newer live-at message of its user; a refused one changes nothing and was refused for a stated reason. Two messages share a place only if they have the same origin. False of the code and proved so: block events 9 and 10 of a block come out as 10, 9; a forged copy with the same timestamp and hash keeps the genuine message out; a user message whose hash is not 20 bytes stops the mempool.",
 "every mempool content and every history of offers, pulls and decided blocks","all contents and histories",
 ["src/mempool/mempool.rs: MempoolKey, pull_messages, insert_into_shard, message_is_valid, remove_committed_txns","src/network/gossip.rs: map_gossip_bytes_to_system_message"])
p("C58","At most one pending live-at update per user",
 "After any sequence of offers, pulls and decided blocks, each shard's mempool holds at most one live-at message per user and its side index names exactly that message; while messages are only offered, the one that waits is at least as new as every one that waited or was accepted. A forged announcement with a later time blocks the user's own (proved).",
 "every operation sequence","all histories",
 ["src/mempool/mempool.rs: live_at index, prepare_live_at_insert, insert_into_shard"])
p("C59","Block range queries and pruning",
 "A range query returns exactly the stored blocks with start <= height < stop in order, across any number of pages; the highest and lowest stored heights are reported correctly; pruning below a height removes exactly the lower blocks, and if it is interrupted only lower blocks are gone and the rest of the store is unchanged.",
 "every stored set of heights and range","all contents",
 ["src/storage/store/shard.rs","src/storage/store/block.rs","src/jobs/block_pruning.rs"])
p("C60","Accepted casts are well formed",
 "Every accepted cast obeys the text, embed and mention limits of its type and version, mentions are sorted and inside the text, and every cast obeying the published rules is accepted.",
 "every cast body, version and subscription state","all bodies",
 ["src/core/validations/cast.rs: validate_cast_add_body"])
p("C61","Listings by mention, parent and target are exact",
 "Casts by mentioned user, casts by parent, links by target and reactions by target list exactly the committed messages asked for, each once, oldest or newest first, whatever the page size. For URL parents and targets this holds unless the index bytes of another stored item begin with the URL; then the listing can fail, contain items of the other URL or crash.",
 "every history of the stores, target, page size and direction","all contents and all page sizes",
 [S+"cast_store.rs: get_casts_by_parent, get_casts_by_mention", S+"link_store.rs: get_links_by_target", S+"reaction_store.rs: get_reactions_by_target", S+"message.rs: get_many_messages"])
p("C62","Each channel has exactly one accepted spelling",
 "The channel URI parser accepts a text only in canonical form: two accepted texts naming the same chain, contract and token are equal, and printing a parsed channel gives back the text.",
 "every byte string","all texts",
 ["src/core/channel_uri.rs: parse"])
p("C63","Trie counts and hashes by prefix are those of the stored keys",
 "On committed state the count reported for a user or for a message type of a user is the number of stored entries of that user or type, and the hash depends only on those entries and is empty exactly when there are none. While changes are pending the count is right as long as an entry is left; when the last one has been removed, the committed count is still reported.",
 "every committed history and prefix","all key sets",
 ["src/storage/trie/merkle_trie.rs: get_hash, get_count"])
p("C64","The trie holds exactly the keys of the stored messages",
 "After any history of merges, forced merges, revocations, prunes, commits, dropped batches and events of others, the trie contains the key of a message exactly when the store holds the message, and any other key exactly when others put it there and did not take it away; provided event numbers did not run out within a block.  When they do, a message can be stored without being in the trie.",
 "every history of store calls and other events, for each of six kinds of messages","all histories",
 ["src/storage/trie/merkle_trie.rs: update_for_event","src/storage/store/engine.rs: update_trie",S+"store.rs: merge, revoke, prune_messages, revoke_messages_by_signer"])
p("C65","A superseded channel message cannot take effect again",
 "Once another message has taken its slot, resubmitting an earlier accepted channel message is rejected.",
 "every admitted history","all histories",
 [S+"channel_store.rs: merge_slot","src/storage/store/block_engine.rs: validate_channel_message"])
p("C66","A validator does not propose twice",
 "Asked again for the same shard, height and round a validator gives the same proposal, whatever happened in between, restarts included, until that height is decided; deciding a height removes exactly its proposals.  But a validator that restarts cannot commit its own proposal when it is decided: it is not in memory any more.",
 "every history of proposals, decisions, restarts and other local writes","crash points and all histories",
 ["src/consensus/validator.rs: propose_value, decide","src/storage/store/node_local_state.rs: put_proposal, get_proposal, delete_proposals"])
p("C67","A validator commits only what it validated",
 "On shard 0, whatever proposals arrive and whatever is decided, every committed block is the node's own or passed validation; if decisions come in order, it passed after exactly the blocks committed before it.  False on data shards: a proposal is kept before it is checked and under a hash nobody recomputes, so a rejected proposal with the same hash replaces the validated one and is committed.",
 "every history of proposals and decisions","needs an adversarial schedule",
 ["src/consensus/proposer.rs: ShardProposer::add_proposed_value, BlockProposer::add_proposed_value, decide","src/storage/store/engine.rs: validate_state_change, commit_shard_chunk"])
p("C68","A proposal carries exactly the pulled messages",
 "Whatever order the hash map yields, the transactions made from pulled messages contain every pulled message exactly once, one non-empty transaction per user, each user's messages in the order pulled. Not preserved, and proved so: the order of block events; of the events 9 and 10 of one block the shard handles only 9, although the proposal contains both.",
 "every list of pulled messages and every grouping order","all message lists and hash orders",
 ["src/storage/store/mempool_poller.rs: create_transactions_from_mempool","src/storage/store/engine.rs: sorted_system_messages, block event handling"])
p("C69","Where offered messages go and how many may wait",
 "An offered message is routed to existing shards, none twice; it affects exactly those queues and is reported accepted exactly if each of them accepted it. With a limit, one tick leaves at most max(before, limit-1 + 256 * shards per message) messages. Proved about the code: the per-shard capacity counts all shards together, so a full shard keeps messages for an empty one out, and it is checked once per tick, so it can be exceeded.",
 "every message, pool and inbox","all pools and inboxes",
 ["src/mempool/mempool.rs: route_mempool_message, insert, run"])
p("C70","Blocks and events are kept as long as configured",
 "A block or event younger than the configured retention is never pruned, and nothing is pruned before sync is complete; with block times in order, a completed pruning run removes everything older than the first block at or after the cutoff. But, proved about the code: pruning blocks leaves their rows in the time index, so when blocks are kept for a shorter time than events, looking up the event cutoff fails and old events are never pruned.",
 "every history of stored blocks, prunings and other writes, every retention and time","all histories and clocks",
 ["src/jobs/block_pruning.rs: pruning_cutoff, block_pruning_job","src/jobs/event_pruning.rs: event_pruning_job",S+"../stores.rs: prune_events_until, prune_shard_chunks_until".replace("account/../",""),"src/storage/store/shard.rs: get_next_height_by_timestamp, prune_until"])
p("C71","Profile entries and names are accepted exactly when well formed",
 "In a message that is otherwise in order a profile entry is accepted exactly when its value has the documented form for its kind, version and subscription, and a name proof exactly when its name is an ENS or base name of its kind. The three kinds of names never coincide. Every entry a user may set they may clear, except, proved about the code, the GitHub name; a GitHub name may also contain digits of any script.",
 "every value, kind, version, subscription state and time","all byte strings",
 ["src/core/validations/message.rs: validate_message, validate_user_data_add_body, validate_fname, validate_ens_name, validate_base_name, validate_user_location"])
p("C72","A message is accepted exactly when its envelope and content are in order",
 "Stateless validation accepts a message exactly when it carries decodable contents for this network, within the size limit of its kind, with the hash of those bytes and its signer's signature over it, not from the future, and a well formed body. Acceptance lasts as time passes, except for lends. Proved about the code: in the first ten minutes of Farcaster time the lend check wraps.",
 "every message, version, network, subscription state and block time","all messages and clocks",
 ["src/core/validations/message.rs: validate_message"])
p("C73","Claims to addresses and names are backed by a signature",
 "An accepted claim to an address, other than of the contract kind, has the right sizes and is signed with the key of that address for this user and network; a name transfer outside the development network is accepted exactly when the name server signed its name, time and owner. Proved about the code: contract claims are accepted with any signature, only 16 bits of the chain id count, and the users a name moves between are not signed.",
 "every claim, transfer, network and version","adversarial signatures",
 ["src/core/validations/verification.rs: validate_add_address, validate_fname_transfer"])
p("C74","Other messages are accepted exactly when well formed",
 "Reactions, links, link states, removals, frame actions, lends, key and channel messages that are otherwise in order are accepted exactly when they obey the documented limits of their kind and version. Proved about the code: the announced type is not compared with the content, and reactions of kind none are accepted.",
 "every body, version and time","all bodies",
 ["src/core/validations/message.rs: validate_message"])
p("C75","The channel follow index agrees with the likes",
 "A user follows a channel since t exactly if they have a committed like of a URL naming it, made at t when following was enabled. Asking whether a user follows, listing a channel's followers or a user's channels, and counting followers all give that answer, whatever the page size and direction.",
 "every history of the reaction store, channel, user, page size and direction","all histories",
 [S+"reaction_store.rs: followers_by_channel, follows_by_fid, follower_count, is_following"])
p("C76","Listings over all shards",
 "Following the page tokens of the channel follower read ends and lists every follower on any shard exactly once; the follower count is their number; a node without all shards and a token that does not name each shard once are refused. The older listings by parent, mention, cast and link target never return a last page, and reactions by target list a shard's messages once for each time its pages fit into the least common multiple of all shards' page counts, so exactly once only if all shards take the same number of pages. Errors of a shard appear as an empty list.",
 "every number of shards, history of each, page size and direction","all interleavings of shard page counts",
 ["src/network/server.rs: get_channel_followers, get_channel_follower_count, decode_shard_cursors, encode_shard_cursors, get_casts_by_parent, get_casts_by_mention, get_reactions_by_cast, get_reactions_by_target, get_links_by_target"])
p("C77","The trie holds exactly the entries of held names",
 "After any history of name transfers, releases, commits, dropped proposals and other events in which no transfer proves a name anew for its holder, the state trie contains the entry of a user and a name exactly when looking the name up returns a proof for that user; released names have no entry. Proved about the code: a later proof of a name for its holder takes the entry out although the name is still held.",
 "every history, name, user and hash function","all histories",
 [S+"user_data_store.rs: merge_username_proof","src/storage/trie/merkle_trie.rs: TrieKey::for_hub_event, update_for_event","src/storage/store/engine.rs: replay_snapchain_txn"])
p("C78","A node bootstrapped by replication holds what the source holds",
 "A node imports pages of the 256 virtual shards of a snapshot, in any order, with stops and restarts at any point. No page of an honest source is refused, the node never holds a row or trie entry the source does not hold, and once all virtual shards are finished its rows, its trie and its root hash are those of the snapshot. A bounded number of pages of a virtual shard finishes it.",
 "every store, history of the source, order of pages, stop point and hash function","all histories, schedules and crash points",
 ["src/bootstrap/replication/service.rs: process_vts_work_item, check_fid_roots, verify_shard_roots","src/network/replication/replicator.rs: messages_for_trie_prefix","src/network/replication/replication_stores.rs","src/storage/store/engine.rs: replay_replicator_message","src/storage/store/node_local_state.rs"])
p("C79","A right root after an import means the right data",
 "A node imports pages from peers that answer as they like, in any order, with stops and restarts. If at the end its root hash is that of a source, then, unless the hash function collides on values hashed for the two roots, the two tries hold the same keys and the node holds no message row the source does not hold. It holds all of them unless an item was refused as a duplicate under the key of a message of the source. What the root does not cover is shown: such duplicates, compact states of links that arrive after later links, released names, and key types that are never served.",
 "every store, history of the source, sequence of pages from any peers, stop point and 20-byte hash function","all adversarial pages, schedules and crash points",
 ["src/bootstrap/replication/service.rs: process_vts_work_item, check_fid_roots, verify_shard_roots","src/network/replication/replicator.rs: messages_for_trie_prefix","src/storage/store/engine.rs: replay_replicator_message","src/storage/trie/merkle_trie.rs"])
p("C80","Upgrading a database loses no address lookups",
 "A node starts the new version on a database written by the old one and migrates the index of verifications by address in the background while it keeps merging. However merges, commits, new registrations, failures of the task and crashes interleave with it, once the schema version is raised the database is exactly the one the new version would have written from the beginning, so the users found for an address are exactly those with a stored verification of it. At every moment before that nothing outside the index is changed and no wrong row is in it. A restarted node whose task is left alone finishes. A user whose events begin with a hundred that are no registration would break this.",
 "every history before and after the upgrade, every interleaving of engine calls, chain events, task steps, failures and crashes, every old database","all interleavings and crash points of a background task with the engine, over databases of any size",
 ["src/storage/store/migrations/mod.rs: run_pending_migrations","src/storage/store/migrations/m2_verification_by_address_index.rs","src/storage/store/account/onchain_event_store.rs: FIDIterator","src/storage/store/account/verification_store.rs"])
p("C81","No chain event of a watched contract is passed over",
 "A node reads the logs of the id, key, storage and tier contracts by historical sync and then by polling or a stream. However the chain grows, requests fail, streams end, the administrator asks for ranges again and the process stops, every log below the recorded block was handed to the mempool or its processing error was reported, and nothing else was handed over. A restarted node that is left alone reaches every log in scope. Shown about the code: a stream whose filters deliver only new logs loses those that appear during the historical sync, a log that failed once is not tried again, and a reached stop block on a polled chain makes polling ask for an empty range for ever.",
 "every chain, growth, configuration, failure, restart and administrator request","all interleavings of the chain with the reader and all crash points",
 ["src/connectors/onchain_events/mod.rs: Subscriber","src/storage/store/node_local_state.rs: set_latest_block_number, get_latest_block_number"])
p("C82","No name transfer of the registry is passed over",
 "With a configured start, every well-formed entry of the name registry up to the stored id was handed to the mempool with the entry's fields, whatever pages the server makes, whenever requests fail and wherever the process stops; nothing else is handed over. Whatever a server answers, ids only go up between two starts, stay below the configured end, and the stored id never goes back. A restarted node that is left alone hands over everything in at most three steps per entry; malformed entries do not stop it. Without a configured start, the default, entries published while the node is down are never read.",
 "every registry, division into pages, server behaviour, failure, restart and retry","all histories and crash points",
 ["src/connectors/fname/mod.rs: Fetcher, transfer_to_fname_transfer","src/storage/store/node_local_state.rs: set_latest_fname_transfer_id, get_latest_fname_transfer_id"])
p("C83","The message stores of a shard do not disturb one another",
 "Casts, reactions, links, verifications, user data and storage loans share one database, one write batch and one event log with each other and with the rest of the node. Whatever calls are interleaved: the tables of a store hold exactly the rows of its own stored messages, lookups by item find exactly those, a call changes nothing outside its store's tables and the event log, and every store ends up with exactly the rows it would have had alone. Only event numbers are shared: a busy store can use them up and make another store's prune fail.",
 "every interleaving of calls to the stores, commits, dropped batches, new blocks and writes of others","all histories",
 ["src/storage/store/stores.rs: Stores::new_with_opts", "src/storage/constants.rs: RootPrefix, UserPostfix", "src/storage/store/account/store.rs: merge, merge_force_override, prune_messages, revoke_messages_by_signer"])
p("C84","The state root of a shard stands for the contents of all its message stores",
 "Starting from empty, after any sequence of merges, revocations, prunes, commits, dropped batches and events of others, the state trie of a shard holds exactly the entries of the messages in its stores (casts, reactions, links, verifications, user data, storage loans) and the entries of others, and no update of it fails. Two shards with the same state root therefore hold the same messages in every store and the same rows in every table of the stores, however different their histories, unless the hash function collides. The other way round, the same messages and the same entries of others give the same root.",
 "every pair of histories of interleaved calls to all stores and events of others","all histories; equality of the roots is a statement about all pairs of them",
 ["src/storage/store/engine.rs: update_trie, replay_snapchain_txn", "src/storage/trie/merkle_trie.rs: update_for_event, root_hash", "src/storage/store/stores.rs: Stores"])
p("C85","A user's usage is the number of their messages, and pruning brings them to their limit",
 "After any history of a shard's stores, the usage the node reports for a user and a store is the number of messages in that store that the user wrote (for loans: wrote or received). This holds after every commit, and while changes are pending as long as these did not remove the user's last message of some type. After the merges of a transaction, if they replaced none of the user's committed messages, pruning removes exactly the oldest committed messages beyond the limit of the user's storage, so the user ends up with at most the limit unless the transaction alone brought more; and the state trie follows. When the last message of a type has been removed in the pending batch, it is still counted until the commit. A received loan counts as a loan in the borrower's usage.",
 "every history of interleaved calls to all stores and events of others, every user, store and storage slot","all histories; the counts come from the trie and the messages from the stores",
 ["src/storage/store/stores.rs: get_usage, get_usage_by_store_type, message_type_to_store_type, store_type_to_message_types", "src/storage/store/engine.rs: prune_messages, replay_snapchain_txn", "src/storage/trie/merkle_trie.rs: get_count"])
p("C86","Only a key of the user can post for them",
 "In every history of a data shard, a message that validation admits carries bytes signed by the key it names, its user is registered, its type is one the shard takes, and, unless it is itself a key message, that key is a signer of the user on chain (added and not removed since, administrator resets aside), or was added without a transaction by a message signed by the address that owned the user's id then, has not been removed since, is meant for this type of message, and was active within its time to live. From version 7 on this is judged with all changes of the batch so far, before by what was committed. Conversely a well-formed message from such a key is admitted, and one from a removed key refused. Verdicts do not depend on the node's clock once it is past version 7. Limits: a block may carry a message whose decoded content is not what its signed bytes say, and the decoded content is used; a key addition placed in a data shard's block is not checked against the app that asked for the key.",
 "every history of on-chain events, replayed and submitted messages, commits and discarded batches; every message, time, version from 0 to 21; every state of the stores read by profile checks","all histories of additions, removals and uses of keys, all interleavings of batches",
 ["src/storage/store/engine.rs: validate_user_message, merge_message, validate_username, verify_fid_owns_address", "src/storage/store/account/active_key.rs: get_active_key, ActiveKey::admits", "src/storage/store/account/key_last_used_at_store.rs: check_and_bump", "src/storage/store/account/gasless_key_merge.rs: merge_key_add, merge_key_remove", "src/storage/store/account/onchain_event_store.rs: get_active_signer, get_id_register_event_by_fid", "src/core/validations/message.rs: validate_message"])
p("C87","A profile shows only names and addresses of the user",
 "In every history of a data shard, a username a profile shows (other than an ENS or base name) is one the name registry has down for that user, and a primary Ethereum or Solana address it shows is one the user has verified for that chain; both hold of the committed state and, for addresses between transactions, of the pending one. An ENS or base name is taken as username only while its proof on record is for the user. When a name is transferred away or a verification removed, the field that relied on it goes too. Limits: this holds if the batch does not set the field anew before the name or verification goes, if the transfer names the owner it takes from, and if verifications go only by merges (not by pruning or revocation).",
 "every history of profile messages, verifications merged or replayed, name transfers, calls of the other stores, transaction ends, commits and discarded batches; every user, name and address; versions from 7 on","all interleavings of three kinds of input over batches and commits",
 ["src/storage/store/engine.rs: replay_snapchain_txn (fname transfer arm), handle_delete_side_effects, check_and_revoke_primary_address, validate_username, verify_fid_owns_address", "src/storage/store/account/user_data_store.rs: get_user_data_by_fid_and_type", "src/storage/store/account/store.rs: revoke", "src/core/validations/message.rs: validate_user_data_add_body"])
p("C88","A subscriber gets the shard's own events, in order, and all of them unless something happens between reading and following",
 "A client that subscribes to hub events (with event types, shards and optionally a first id) gets, from each shard, the events of those types that were in the shard's log from the first id on when the node finished reading it, in id order, followed by the events the shard sent since the node subscribed to the shard's channel, in order, with shard and block number filled in; nothing else, and nothing of other shards or types. If the shard is idle when its log has been read and until its channel is subscribed, and the client is never slower than the channel is long, this is every event from the first id on, exactly once. Timestamps are those of the event's block, or 0. Following the tokens of the event query for one shard gives the events of the id range, each once. Not guaranteed, and shown not to hold: events committed between reading and subscribing are lost, events committed but not yet sent come twice, slow clients lose events without being told, events read before their block is stored have timestamp 0, the first id does not hold back live events, and event queries over several shards repeat the events of shards already read to the end.",
 "all histories interleaving the commits of any number of shards (write, send, store the chunk, prune old chunks) with the reading, subscribing and receiving for a subscriber; all requests; all channel sizes","what a subscriber sees depends on how reading pages, committing and sending interleave; a test sees one schedule",
 ["src/network/server.rs: subscribe, get_events_from_store, rewrite_hub_event, get_events", "src/storage/store/engine.rs: commit_and_emit_events"])
p("C89","The state root in a chunk stands for the messages the shard holds after the chunk, through the engine",
 "After every chunk a node commits, its trie has exactly the state root the chunk carries, nothing is left uncommitted, and the trie has the entries of exactly the messages its stores hold (casts, links, reactions, verifications, user data, loans), besides those of on-chain events, names and keys. Two nodes whose last chunks carry the same root hold the same messages in every store, and a node that accepts a proposal would hold, after it, the messages of any node that commits a chunk with the proposal's root, unless the hash function collides. This holds whatever was proposed to the nodes in the rounds between, whether they replay the chunk or commit the work they had prepared, and whatever the other parts of the hub (validation, names, keys, channels, storage limits, on-chain events) answer, as long as no event of a store call is lost, calls are of the kind C11 covers (a prune does not meet a message replaced in the same chunk) and the trie is not empty at a commit.",
 "all histories of heights, rounds, proposals, validations and committed chunks with any transactions, from an empty shard; all behaviours of the rest of the hub; all clocks, orders of hash sets and schedules of engine versions","the root is what validators agree on; that equal roots mean equal stores depends on every path through the engine updating the stores and the trie together, for all transactions and rounds",
 ["src/storage/store/engine.rs: ShardEngine::{propose_state_change, validate_state_change, commit_shard_chunk, replay_proposal, replay_snapchain_txn, handle_block_event, merge_message, prune_messages, handle_delete_side_effects, update_trie}", "src/storage/store/stores.rs: revoke_messages", "src/storage/store/account/storage_lend_store.rs"])
p("C90","Every message a shard holds was offered to it and passed validation, or came in a block event",
 "Every message in any row of the database of a data shard's six message stores (casts, links with their compactions, reactions, verifications, user data, loans), after any history of rounds, proposals and committed chunks from an empty shard, was offered to the node before: either as a user message of a transaction, and then it passed validation at that transaction's timestamp, by the version in force and with the other parts of the hub in a state they can be in, or inside a block event of shard 0. The same holds for the work in progress of the proposal a node validated last. Nothing else enters a store: not by pruning, revoking, replaying, changing rounds, failing half-way or committing. In the histories that C84 covers, the message is also well formed for the store that holds it.",
 "all histories of heights, rounds, proposals, validations and committed chunks with any transactions, from an empty shard; all behaviours of the rest of the hub and everything it keeps true; all clocks, orders of hash sets and schedules of engine versions","the engine writes messages on five paths and abandons work between rounds; that no path lets in a message that was not validated has to hold for every transaction and every round",
 ["src/storage/store/engine.rs: ShardEngine::{propose_state_change, validate_state_change, commit_shard_chunk, replay_proposal, replay_snapchain_txn, handle_block_event, validate_user_message, merge_message, prune_messages}", "src/storage/store/stores.rs: revoke_messages"])
p("C91","What the messages of a transaction do to a shard, and in which order",
 "In every state a data shard's engine gets into (committed or inside a transaction): a user message that is accepted passed validation and beats every message held about its item; it takes their place, the hub event names exactly those, and nothing else changes in any store (the withdrawal of a loan does not stay itself). One that is not accepted is reported as failed, because validation refuses it, because a message about its item that beats it (or itself) is held, both without any change, or because the event numbers of the block ran out, and then it is written nevertheless. No such message stops the transaction. Removing a key on chain deletes exactly the committed casts, links, reactions, user data and verifications of the user that the key signed, and each is reported. A verification that shard 0 sends replaces what is held about its address, newer or older, once the feature is on, and does nothing before. The events of a transaction report each of its user messages once, after what its block events brought: verifications first, then username proofs, then usernames and primary addresses, other profile fields, and the rest, each by timestamp and then as they came.",
 "all engine states whose record of store calls is of the kind C84 covers, all transactions, messages, keys and block events; all behaviours of the rest of the hub; for the order: all states","what a message does depends on everything held before it and on the other messages of its transaction; tests fix a few combinations",
 ["src/storage/store/engine.rs: ShardEngine::{replay_snapchain_txn, handle_block_event, merge_message, validate_user_message, get_message_priority}", "src/storage/store/stores.rs: revoke_messages", "src/storage/store/account/store.rs: merge, merge_force_override, revoke_messages_by_signer"])
p("C92","Everything a data shard holds was posted with authority",
 "Whatever proposals and chunks a node has worked through, each message in any row of the six message stores of a data shard either was brought by an event of shard 0, or came as a user message at some time and (from protocol version 7 on) was authorised then: it names the hash of its bytes and is signed over it with the key it names; its user was registered by an on-chain event that the node was given; and by the on-chain events and key messages given to the node before, that key could sign messages of that type for that user at that time. The stored record says what the message said if its content was decoded from its bytes. Storage loans never come as user messages, and verifications do not from version 21 on. A user whose registration was never offered has no messages. The same holds of the state a proposal would leave.",
 "all sequences of rounds, proposals and committed chunks, honest or not, whose user ids fit 32 bits; all contents of the remaining tables; all behaviours of signature checks, hashes, name and channel handling","it connects validation at one moment with everything any node ever stored through any path of the engine; tests post messages and look at single answers",
 ["src/storage/store/engine.rs: ShardEngine::{validate_user_message, merge_message, merge_onchain_event, replay_snapchain_txn, commit_shard_chunk}", "src/storage/store/account/gasless_key_validation.rs", "src/core/validations/message.rs: validate_message"])
p("C93","Everything shard 0 holds and hands on was posted with authority",
 "Whatever proposals, validations, simulations and committed blocks the engine of shard 0 has worked through, honest or not, each message it stores was a user message of a committed block and was authorised at that block's time: it names the hash of its bytes and is signed over it with the key it names; its user was registered by an on-chain event of a committed block; and unless it is a key message, that key could sign messages of that type for that user then, by what had been accepted before (for channel messages, a key that is on chain). The same holds of each message in a block event handed to the data shards, and an on-chain event handed on is a channel registration of a committed block. The store keeps loans from version 11 and verifications and channel messages from version 21 only, and hands on these and, from version 16, key messages. Keys added without a transaction were granted by the owner of the user id at that time. A user without a registration has nothing there.",
 "all sequences of proposals, validations, commits and simulations with any clocks, transactions and blocks; all behaviours of signature checks, hashes, channel ownership and key events","it connects the checks made at one moment with everything ever stored or handed on, through every path of the engine and for blocks made by dishonest proposers; tests post single messages",
 ["src/storage/store/block_engine.rs: BlockEngine::{validate_user_message_with_verification_counts, replay_snapchain_txn, generate_block_events, propose_state_change, validate_state_change, commit_block, simulate_message}", "src/storage/store/account/gasless_key_validation.rs", "src/core/validations/message.rs: validate_message"])
p("C94","Nodes of shard 0 agree while no rental expires between their clocks",
 "Proposing, validating and simulating leave nothing on shard 0 but used event numbers. Nodes that commit the same blocks hold the same tables, whatever else they did in between. Nodes with the same tables give the same verdict on any block, and commit it to the same tables or both panic. A block that one node proposes is accepted by all nodes with the same tables, and they all commit it to the state with the root it names. At most one block with given height, time and transactions is valid, and an honest proposal has only user messages of users with storage and no empty transactions. Agreement holds as long as no rental in the tables or in the block expires between the clocks of the nodes. Otherwise it is false: a block with a loan that was accepted in time is refused by a node that replays it after the rental has expired, and committing it panics.",
 "all histories of calls, all blocks (honest or not) of versions below 9 or from 12 on, all pairs of clocks, all hashes and tables","agreement ranges over all histories, interleavings of rounds and clocks; the node that disagrees has to replay a block a year later",
 ["src/storage/store/block_engine.rs: BlockEngine::{propose_state_change, validate_state_change, commit_block, simulate_message, replay_proposal, get_storage_slot_for_fid}", "src/storage/store/account/onchain_event_store.rs: StorageSlot::{is_active, merge, sub}"])
p("C95","Shard 0 tells the data shards everything once, and only what was posted with authority",
 "After any history of calls, the block events of shard 0 are those of its committed blocks with data, in order, numbered 1, 2, 3 and so on; a node answers each number with that event and knows the greatest number. Each event names its block, time and place and carries the hash of its contents; the block's header has the hash of its events; heartbeats come at the set heights and no others. Every channel message shard 0 holds is in one of these events. If the block events offered to a data shard are block events of shard 0, every message on the data shard was posted with authority there or on shard 0, and a user registered on neither has nothing there.",
 "all histories of proposals, validations, commits and simulations on shard 0, all histories of a data shard fed with its events, all hashes, validators' behaviours and messages, as long as there are fewer than 2^64 events","the claim joins two engines and ranges over all histories of both",
 ["src/storage/store/block_engine.rs: BlockEngine::{generate_block_events, replay_proposal, commit_block}", "src/storage/store/engine.rs: ShardEngine::{handle_block_event, replay_snapchain_txn}", "src/storage/store/account/block_event_store.rs"])
p("C96","On shard 0, channels change only by those who may change them, whatever proposers do",
 "Take two states of a node of shard 0 with any calls in between (proposals, validations, commits, simulations). If the role of a user in a channel differs, then a message of a block committed in between gave the user the new role. That message was signed with a key that may sign for its author, and its author could do this by the tables of that moment: bans and pardons by the owner and moderators, appointments by the owner, the rest by users themselves as the channel allows. A ban lasts until such a message of the owner or of a moderator. A changed configuration was set by the owner, a changed pin or moderation of a cast by the owner or a moderator. The counters of moderators, members and moderated casts are exact and within their limits. What is set stays set.",
 "all histories of calls on the engine of shard 0, all blocks that proposers may make, all channels and users, all registries, as long as no two validated messages of a user have the same time and hash","the checks, the stores, the loans and verifications written to the same batch, dropped proposals and the commit must work together in every history",
 ["src/storage/store/block_engine.rs: BlockEngine::{validate_user_message, replay_snapchain_txn, replay_proposal, commit_block, simulate_message}", "src/storage/store/account/channel_store.rs"])
p("C97","A data shard that replays the events of shard 0 shows the same channels as shard 0",
 "Take any history of a node of shard 0, and the block events it answers. A data shard replays these events in order, in batches of any size; batches may be dropped and their events replayed again, and its other stores write in between. It refuses none of the channel messages. At every moment, each configuration, member, pin and moderated cast it holds is the last message for it among the events replayed so far. Once it has replayed all events, it shows the same configurations, members, roles, membership modes, pins, moderated casts and counters as shard 0. This needs an event number for each replayed event: a data shard that has no number left in its block refuses the message, goes on, and differs from shard 0 from then on.",
 "all histories of calls on the engine of shard 0 with fewer than 2^64 results, all blocks that proposers may make, all schedules of a data shard that follows the events with a number left for each, all channels and users, as long as no two validated messages of a user have the same time and hash","the same messages pass different checks on the two shards, in other batches, next to other rows, and the limits must fall the same way at every one of unboundedly many messages",
 ["src/storage/store/engine.rs: ShardEngine::{handle_block_event, replay_snapchain_txn, merge_message}", "src/storage/store/block_engine.rs: BlockEngine::{commit_block, generate_block_events}", "src/storage/store/account/channel_store.rs"])
p("C98","A validator's signature stands for one statement, and a certificate for precommits",
 "The bytes that validators sign determine what they say: two votes, proposals or full proposals with the same bytes to sign are the same, and no vote has the bytes of a proposal. So a signature made for one vote cannot serve for another type, height, round, value or voter, nor a proposal as a vote. If valid signatures exist only for what the holder of the key signed, then behind every accepted commit certificate stand distinct validators of the set in charge, more than two thirds of it, who precommitted to its value at its height and round. Two accepted certificates of one height and round with different values convict more than a third of the validators of precommitting twice.",
 "all votes, proposals and full proposals that the types of the code can hold, all certificates, validator sets and signature schemes, all sets of statements made by validators","injectivity of an encoding with omitted default fields and variable lengths ranges over all pairs of messages",
 ["src/core/types.rs: Vote::{to_proto, to_sign_bytes}, Proposal::{to_proto, to_sign_bytes}, Ed25519Provider", "proto/src/lib.rs: FullProposal::to_sign_bytes", "proto/definitions/blocks.proto", "src/core/util.rs: verify_signatures"])
p("C99","What validators say is what the others hear, and which messages stop a node",
 "A signed vote or proposal that a validator broadcasts arrives at every other node, through the gossip envelope, its decoding, the second encoding and the codec, as the same vote or proposal with the same signature. Of the consensus messages any peer may send, those without a height are dropped; of the others, exactly those that are not complete (a vote of an unknown type, a voter or proposer that does not have 32 bytes, a proposal without a value) make the receiving task panic instead of being refused. A full proposal without a height makes the gossip task panic. This holds for every byte string: what is heard depends on the message, not on how it was encoded, and a vote that is heard was in the bytes with its signature.",
 "all votes and proposals that the types of the code can hold, all signatures, all byte strings that a peer may send (shorter than four gigabytes)","the encoding leaves out default values and has variable lengths; tests send a few messages",
 ["src/consensus/malachite/snapchain_codec.rs: Codec<SignedConsensusMsg>", "src/network/gossip.rs: SnapchainGossip::{map_gossip_bytes_to_system_message, handle_gossip_event}", "src/core/types.rs: Vote::from_proto, Proposal::from_proto, Address::from_vec", "src/consensus/malachite/network_connector.rs"])
p("C100","What a peer serves to a node that catches up is what the node gets",
 "A response with a decided value and its certificate, or with a set of signed votes, is decoded by the node that asked as exactly that response, and goes to its shard; requests and announced heights arrive as sent. The certificate kept with a block is the one that was decided. Whatever bytes a peer answers with, if they are decoded as a value whose certificate is accepted, then distinct validators in charge, more than two thirds, precommitted to the value that the certificate names. The responses that make the gossip task of the asking node panic are exactly those with a certificate that lacks its height, its value or the 32 bytes of a signer, and those with a signed vote that is not complete.",
 "all responses, requests and statuses the types of the code can hold, all certificates, all byte strings a peer may answer with","the encoding leaves out default values and has variable lengths and repeated fields; tests decode a few messages, none of them malformed",
 ["src/consensus/malachite/snapchain_codec.rs: Codec<sync::Response>, Codec<sync::Request>, Codec<sync::Status>", "src/core/types.rs: CommitsExt::{to_commit_certificate, from_commit_certificate}", "src/network/gossip.rs: SnapchainGossip::map_sync_message_to_system_message", "proto/definitions/blocks.proto: Commits, SyncRequest, SyncResponse, StatusMessage"])
p("C101","A snapshot of a shard can be downloaded whatever happened to uploads, and restores the database",
 "The backup of an open database has its rows and no others; its archive is cut into chunks that make up the archive, none larger than the limit or the largest buffer. After any uploads, each ended at any step by an error or a crash, a download of a shard gets all chunks of the last upload that came as far as its description; a download while uploads go on gets the chunks of one upload or fails, never a mixture. If the directory of chunks was listed in order, what is restored is the database. A complete upload removes the chunks of earlier ones. It fails where the listing is in another order, which is not sorted, and for shards whose number begins with the digits of another one, whose snapshots are deleted; a database that is not open for writing is uploaded as empty.",
 "all databases, chunk limits, buffers and amounts the encoder takes, all histories of uploads and points at which each ends, all times at which a reader reads each object","tests upload and download once without a crash; where an upload ends and what a concurrent reader sees cannot be enumerated",
 ["src/storage/db/backup.rs: backup_db, create_tar_gzip", "src/storage/db/multi_chunk_writer.rs: MultiChunkWriter", "src/storage/db/snapshot.rs: upload_to_s3, clear_old_snapshots, download_snapshots", "src/jobs/snapshot_upload.rs: backup_and_upload"])
p("C102","Messages shown over HTTP say what is stored",
 "A message can be shown in JSON exactly when it has data with a body, every number in it that stands for a name is that of a known name, a link has a target and a proved name is text. A client that looks fields up by their names then reads back the whole message, other than the bytes that were signed, so two messages shown alike are alike. Every accepted message with a body and a known type is shown, as stored, in full; username proofs only if accepted from version 5 on. A page shows its messages in order and fails exactly if one of them cannot be shown. The token of a page, given back even with pluses turned into spaces, is the token. Before version 5 a proof of a name that is no text is accepted, and every page that has it fails.",
 "all messages of all kinds, all lists of messages and tokens, all encodings that can be read back, all protocol versions, times and subscription states under which a message was accepted","tests convert a few literal messages; the kinds of bodies with their optional fields and numbers cannot be enumerated",
 ["src/network/http_server.rs: map_proto_message_to_json_message, map_proto_message_data_to_json_message_data, map_proto_messages_response_to_json_paged_response, serdebase64opt", "src/core/validations/message.rs: validate_message", "src/storage/store/account/message.rs: message_encode, message_decode"])
p("C103","The migration of on-chain events leaves none out",
 "When the job that offers a data shard's on-chain events to shard 0 has come to its end, each event that the shard had all along was sent to the mempool, or shard 0 had one at its place when the job looked. This holds however often the job was stopped, started again or lost its stored place, and whatever else both databases gained meanwhile. Only events are sent that the shard has committed and shard 0 lacked at that moment, so nothing is sent once shard 0 has all of them. With a shard that does not change the job comes to its end within the pages its rows fill and one more. Up to its end, a job that is not stopped sends no event twice.",
 "all histories of both stores, all numbers of events, all crash points within a page, all losses of the stored place, all restarts","tests migrate a few events in one page; page borders, crashes and changes of both databases between pages cannot be enumerated",
 ["src/jobs/migrate_onchain_events.rs: migrate_onchain_events, migrate_shard_onchain_events_batch", "src/storage/store/account/onchain_event_store.rs: get_all_onchain_events, get_onchain_events, merge_onchain_event", "src/storage/store/node_local_state.rs: get_onchain_events_migration_page_token, set_onchain_events_migration_page_token"])
p("C104","Credentials let in exactly those who have them",
 "With users configured, a message is taken over RPC exactly from those whose authorization header names a configured user and the password of that user's last entry; the mesh view likewise with the users of the admin server. Snapshots are uploaded and events migrated on request only for such users, and for nobody if none is configured. A user has one password, and a wrong one does not let in. A client that sends the usual header with a configured user and password is let in. If no entry is well formed, message submission is open to everyone; a single entry whose password has a colon is such a case. Retries of events and names on the admin server need no credentials.",
 "all configuration texts, all authorization headers of any bytes, all users and passwords, all calls","tests try a few headers and passwords; who is let in depends on all texts of the configuration and of the header",
 ["src/network/rpc_extensions.rs: authenticate_request", "src/network/server.rs: MyHubService::new (parse_auth), submit_message, submit_bulk_messages", "src/network/admin_server.rs: MyAdminService::new, enabled, upload_snapshot, run_onchain_events_migration, retry_onchain_events, retry_fname_events", "src/main.rs: start_servers"])
p("C105","Repairing a missed heartbeat skips no message",
 "If a data shard has the first events of shard 0, then after a start of the node with any setting for the repair of a heartbeat it still has the first events of shard 0. At most one event is added: the one with the next number, if the setting names it and it is neither a message nor an on-chain event; and a heartbeat that is named and next is added. Over any number of starts nothing that is a message or an on-chain event is passed over. After a start the shard serves by number what shard 0 serves, up to its own last number, and nothing beyond.",
 "all histories of shard 0, all numbers of events the data shard has, all settings, any number of starts","an operator may set any number at any time; tests run one repair on one store",
 ["src/utils/block_event_fix.rs: reconcile_heartbeat_events", "src/node/snapchain_node.rs: SnapchainNode::create", "src/storage/store/account/block_event_store.rs: put_block_event, max_seqnum, get_block_event_by_seqnum"])
out=os.path.join(os.path.dirname(__file__),"..","properties.jsonl")
with open(out,"w") as f:
    for x in P: f.write(json.dumps(x)+"\n")
print(len(P))
