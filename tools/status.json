{
 "C01": {
  "note": "Byte order, round trip and the exact error conditions of ts_hash keys.",
  "status": "proved"
 },
 "C02": {
  "note": "Every row kind's key bytes decode back to the row, so distinct well-formed rows never share a key. Collisions that the code does allow are proved as witnesses: fids equal modulo 2^32, a URL target spelled like a cast id, link types differing by trailing NULs.",
  "status": "proved"
 },
 "C03": {
  "note": "Exact under the stated side condition on keys; the theorem C03_short_key shows the side condition is needed.",
  "status": "proved"
 },
 "C04": {
  "note": "Complete for all prefixes, filters, directions and page sizes. C04_foreign_token_leaks records that the unguarded page function accepts a token of another prefix.",
  "status": "proved"
 },
 "C05": {
  "note": "Batch overlay, commit, abort and merge as finite map algebra.",
  "status": "proved"
 },
 "C06": {
  "note": "Termination, exact count and exact effect for all page sizes and both directions.",
  "status": "proved"
 },
 "C07": {
  "note": "Six stores, any valid messages whose hashes identify them, any order, repetition, block splits and dropped batches; the whole view is equal. C07_two_signers records that the same message bytes under two signers do depend on order (hashes then do not identify messages).",
  "status": "proved"
 },
 "C08": {
  "note": "Every row unchanged after a rejection, over all histories; C08_exhausted_keeps_writes records the one error (event ids used up) that keeps staged rows.",
  "status": "proved"
 },
 "C09": {
  "note": "The stored message of an item is exactly the greatest valid submitted one.",
  "status": "proved"
 },
 "C10": {
  "note": "For every later sequence of cast merges and commits.",
  "status": "proved"
 },
 "C100": {
  "note": "",
  "status": "proved"
 },
 "C101": {
  "note": "",
  "status": "proved"
 },
 "C102": {
  "note": "",
  "status": "proved"
 },
 "C103": {
  "note": "",
  "status": "proved"
 },
 "C104": {
  "note": "",
  "status": "proved"
 },
 "C105": {
  "note": "",
  "status": "proved"
 },
 "C11": {
  "note": "All histories of merges, forced merges, revocations, prunes, commits and drops in which pruning and revocation start from committed rows: the rows are exactly those of the stored messages. C12_same_block_replacement shows the side condition is needed.",
  "status": "proved"
 },
 "C12": {
  "note": "Exact removal of the oldest when nothing pending touches the user's committed messages; C12_same_block_replacement is the counterexample inside one block.",
  "status": "proved"
 },
 "C13": {
  "note": "Exact for the store's add and remove messages; C13_compaction_survives records that a link compaction by the removed key stays in force.",
  "status": "proved"
 },
 "C14": {
  "note": "For every proper history of link-store operations and any pending block without other link writes for that user and type (Quiet): a compaction removes exactly the older unlisted messages and leaves everything else; superseded messages are refused while it is in force; two exceptions proved with concrete runs (C14_same_instant, C14_same_block).",
  "status": "proved"
 },
 "C15": {
  "note": "For every proper history of the username-proof store with message hashes unique across users and explicit removals only of stored proofs: one owner per name, both lookups agree with it, and a newer proof wins.",
  "status": "proved"
 },
 "C16": {
  "note": "By-name lookup is always the latest counting transfer; by-user lookup is sound and, while every user has at most one name and no proof is repeated, complete. Three limits proved with concrete runs: a re-proof of the same name, a second name, and release order hide the by-user entry.",
  "status": "proved"
 },
 "C17": {
  "note": "Selection is the maximum of (timestamp-hash, reversed fid), independent of order; and for every proper history of the verification store the candidates are exactly the stored verifications of that address, pending batch included.",
  "status": "proved"
 },
 "C18": {
  "note": "Order, uniqueness, decoding, exhaustion and replay for every height below 2^49 and every sequence; C18_height_limit records the behaviour at the limit.",
  "status": "proved"
 },
 "C19": {
  "note": "Range queries, lookup and pruning of the event log are exact; C19_prune_wraps records what a u64 wrap does.",
  "status": "proved"
 },
 "C20": {
  "note": "All histories of bulk inserts, deletes and commits over prefix-free keys of at least six bytes, any group traversal order. Same root, and same hash and count at every path.",
  "status": "proved"
 },
 "C21": {
  "note": "Enumeration by get_all_values is stated for tries of up to 1024 keys, where the code stops, and prefixes of up to six bytes. Per-key result flags are proved for single-key calls, which is how the engine uses it; for bulk calls the number of successes is proved.",
  "status": "proved"
 },
 "C22": {
  "note": "Any 20-byte hash function; either the roots differ or two different hashed values collide. Needs key lengths that are not multiples of ten bytes; C25 shows that the node's keys satisfy this.",
  "status": "proved"
 },
 "C23": {
  "note": "Prefixes of up to six bytes, which are all the code uses. Also for partially loaded tries. C23_long_prefix_false shows the limit is needed. base64 is not modelled.",
  "status": "proved"
 },
 "C24": {
  "note": "The full claim is false: C24_nibble8_false and C24_emptied_false are witnesses. C24_reload_invisible and C24_commit_reload prove it for keys outside the virtual shards 128 to 143 when something is committed.",
  "status": "proved"
 },
 "C25": {
  "note": "Decoding, injectivity, prefix-freeness and the fit with the trie theorems.",
  "status": "proved"
 },
 "C26": {
  "note": "The whole schedule of each network is a finite table; monotonicity is lifted from the table to all instants.",
  "status": "proved"
 },
 "C27": {
  "note": "sha256 is an arbitrary function.",
  "status": "proved"
 },
 "C28": {
  "note": "Complete u64/u32 ranges, error branches included.",
  "status": "proved"
 },
 "C29": {
  "note": "Over all histories from an empty key table, including dropped batches and arbitrary on-chain changes between steps. Signature recovery is an arbitrary function.",
  "status": "proved"
 },
 "C30": {
  "note": "Count, cap and the paged listing over all histories.",
  "status": "proved"
 },
 "C31": {
  "note": "Fids below 2^32 (the key width); C02 records what larger fids do.",
  "status": "proved"
 },
 "C32": {
  "note": "Freshness on acceptance, no early expiry, uses extend life, removal is final until re-added.",
  "status": "proved"
 },
 "C33": {
  "note": "Bit mask equals list membership for every list of 32-bit scopes; over all histories.",
  "status": "proved"
 },
 "C34": {
  "note": "Bound holds when transactions carry their own user's messages, which replay does not check: C34_foreign_transaction_not_counted is the counterexample. Running out of event numbers is excluded.",
  "status": "proved"
 },
 "C35": {
  "note": "For every history, an admitted message changes at most the role of the user it names, and only as RoleChangeAllowed permits; a banned user stays banned between two points of shard 0's history unless an owner or moderator unbans them. Resolution of the owner from the registry is an input of the step.",
  "status": "proved"
 },
 "C36": {
  "note": "Counter equals the number of users whose role is moderator, for every history; at most ten when every message is admitted by shard 0.",
  "status": "proved"
 },
 "C37": {
  "note": "Last merged wins, counter exact and capped, slots never vacated, rejected merges change nothing, for every history and cap. Hypothesis: author, time and hash identify a message.",
  "status": "proved"
 },
 "C38": {
  "note": "Over every run of committed shard-0 blocks from an empty block event store with fewer than 2^64 events. The events hash fixes the list of events unless the hash function collides, or the encoding repeats, on those very events.",
  "status": "proved"
 },
 "C39": {
  "note": "Over every run of proposals, validations and commits of a data shard from an empty store. The stores behind the engine are parameters with stated laws (Ledger), met by a concrete shard. Negations of neighbouring claims: C39_forged_event_accepted, C39_failed_event_not_retried, C39_event_without_data_panics.",
  "status": "proved"
 },
 "C40": {
  "note": "Sum, order independence and limits proved with u32 wrap-around. Negations: lending more than owned wraps, limits wrap, a pending rent is counted twice.",
  "status": "proved"
 },
 "C41": {
  "note": "The statement is false of the code; proved the negation with a witness, and that the allowance only differs when some rent expires between the two times.",
  "status": "proved"
 },
 "C42": {
  "note": "Bounds for histories with one transaction per user and block, unexpired purchases and lends of at most 5000 units; conservation on the database. The code breaks the bound outside these hypotheses: C42_two_transactions_overlend, C42_after_expiry_unlimited; see also C42_reducing_needs_room and C42_ended_lend_can_be_replayed.",
  "status": "proved"
 },
 "C43": {
  "note": "Proved for purchases in time order; a purchase out of order can be hidden from an as-of query.",
  "status": "proved"
 },
 "C44": {
  "note": "Over every run of merges, commits and dropped batches.",
  "status": "proved"
 },
 "C45": {
  "note": "Over every run of merges and commits. Admin resets: witnesses show that the oldest committed add is restored and that order then matters.",
  "status": "proved"
 },
 "C46": {
  "note": "keccak is a parameter; the in-order theorem assumes that no two registered keys have the same hash. Negations: C46_order_matters, C46_early_transfer_lost.",
  "status": "proved"
 },
 "C47": {
  "note": "For every engine over abstract stores whose results do not depend on the node's clock and set order (SameView). Where they do, or where the cached transaction is stale, the claim fails: C47_memory_ignores_transactions, C47_stale_memory_reused, C47_set_order_changes_event_order.",
  "status": "proved"
 },
 "C48": {
  "note": "The statement says what holds and what does not. Between the two writes recovery is proved under idempotence; negations: C48_shard0_stuck_after_crash, C48_hub_events_lost, C48_out_of_order_events_stop_the_node.",
  "status": "proved"
 },
 "C49": {
  "note": "That nothing is written is structural: the modelled path has no commit. Negations for storage and bulk runs: C49_no_storage_passes, C49_bulk_blames_all. What a replay that breaks off inside a bulk run staged is not modelled.",
  "status": "proved"
 },
 "C50": {
  "note": "Hashing and Ed25519 are parameters; protobuf is assumed to read back what it wrote. The unnormalised case is a negative theorem.",
  "status": "proved"
 },
 "C51": {
  "note": "Exact acceptance condition of certificates made from configured validator sets, quorum intersection, no duplicates or outsiders; and that the order of the signatures matters. Malachite's voting and the signature scheme are external and assumed.",
  "status": "proved"
 },
 "C52": {
  "note": "What is committed carries a quorum certificate; the negation of the rest: the certificate is not bound to the block, with concrete diverging read nodes. Malachite's voting and the signature scheme are external and assumed.",
  "status": "proved"
 },
 "C53": {
  "note": "For every schedule of deliveries and restarts: heights are consecutive, the log only grows, a complete delivery within the buffer commits everything; and a full buffer drops blocks.",
  "status": "proved"
 },
 "C54": {
  "note": "Exact content of the cache for all histories under the stated assumption, the bound without it, and the counterexample.",
  "status": "proved"
 },
 "C55": {
  "note": "For all configurations and heights; the fairness theorems are about one fixed set. Negations for a first set of another shard and for height 0.",
  "status": "proved"
 },
 "C56": {
  "note": "For all chains made by proposers that follow the code (the decoupled path of collect_confirmed_shard_witnesses); and that validators accept any witnesses, with the stop of block production that follows.",
  "status": "proved"
 },
 "C57": {
  "note": "Rate limiters are an answer given with each offer. Negative theorems: block event order, forged copies, short hashes, name transfer and block event with equal times.",
  "status": "proved"
 },
 "C58": {
  "note": "At most one holds without assumptions; index and newest-wins assume that different messages have different (timestamp, hash).",
  "status": "proved"
 },
 "C59": {
  "note": "Shard 0 blocks and data shard chunks are two instances of one model.",
  "status": "proved"
 },
 "C60": {
  "note": "",
  "status": "proved"
 },
 "C61": {
  "note": "Mentions, links and cast targets are exact in every state. URLs are exact unless the index bytes of another stored target begin with the URL; three theorems show the listing then fails, returns foreign items or panics.",
  "status": "proved"
 },
 "C62": {
  "note": "",
  "status": "proved"
 },
 "C63": {
  "note": "For prefixes of up to six bytes after a commit. While changes are pending deletions do not count (C63_pending_delete).",
  "status": "proved"
 },
 "C64": {
  "note": "For casts, reactions, links, verifications, user data and loans, over histories in which every call recorded its events; C64_exhausted shows what happens otherwise.",
  "status": "proved"
 },
 "C65": {
  "note": "False as stated; the negation is proved with a concrete history (an old appointment resubmitted after the dismissal is accepted). What holds is proved: the message now in the slot is rejected.",
  "status": "proved"
 },
 "C66": {
  "note": "For all histories on the node's local database; and that the restarted proposer does not commit its stored proposal.",
  "status": "proved"
 },
 "C67": {
  "note": "Shard 0 for all histories, exact under orderly decisions; the negation for data shards, once for the proposer and once for the engine.",
  "status": "proved"
 },
 "C68": {
  "note": "The order of the hash map is universally quantified. Negative theorem runs mempool, grouping, proposal and commit together on the example engine.",
  "status": "proved"
 },
 "C69": {
  "note": "Capacity bound plus two negative theorems about the limit.",
  "status": "proved"
 },
 "C70": {
  "note": "Two negative theorems: event pruning blocked once the indexed block is gone, and a concrete run.",
  "status": "proved"
 },
 "C71": {
  "note": "Unicode tables, Keccak and base58 are parameters. Negative theorems for the GitHub name.",
  "status": "proved"
 },
 "C72": {
  "note": "Cryptography and protobuf are parameters. Times from 600 s after the Farcaster epoch to 2^32.",
  "status": "proved"
 },
 "C73": {
  "note": "Signature recovery is a parameter. Negative theorems for contract claims, chain ids and transfer users.",
  "status": "proved"
 },
 "C74": {
  "note": "",
  "status": "proved"
 },
 "C75": {
  "note": "",
  "status": "proved"
 },
 "C76": {
  "note": "Followers and follower counts over all shards are exact. For the older listings the theorems show what they do: repeat finished shards, never end, and hide errors.",
  "status": "proved"
 },
 "C77": {
  "note": "Transfers that prove a name anew for its holder are excluded from the first theorem; the second says what they do.",
  "status": "proved"
 },
 "C78": {
  "note": "One store at a time; pages are imported one after another; no compact states of links.",
  "status": "proved"
 },
 "C79": {
  "note": "Messages of peers are assumed to carry their right hash, and items of other stores to yield keys of other stores.",
  "status": "proved"
 },
 "C80": {
  "note": "The first migration (names) is one opaque step here; it touches no row of the verification store.",
  "status": "proved"
 },
 "C81": {
  "note": "",
  "status": "proved"
 },
 "C82": {
  "note": "",
  "status": "proved"
 },
 "C83": {
  "note": "",
  "status": "proved"
 },
 "C84": {
  "note": "",
  "status": "proved"
 },
 "C85": {
  "note": "",
  "status": "proved"
 },
 "C86": {
  "note": "",
  "status": "proved"
 },
 "C87": {
  "note": "",
  "status": "proved"
 },
 "C88": {
  "note": "",
  "status": "proved"
 },
 "C89": {
  "note": "",
  "status": "proved"
 },
 "C90": {
  "note": "",
  "status": "proved"
 },
 "C91": {
  "note": "",
  "status": "proved"
 },
 "C92": {
  "note": "",
  "status": "proved"
 },
 "C93": {
  "note": "",
  "status": "proved"
 },
 "C94": {
  "note": "",
  "status": "proved"
 },
 "C95": {
  "note": "",
  "status": "proved"
 },
 "C96": {
  "note": "",
  "status": "proved"
 },
 "C97": {
  "note": "",
  "status": "proved"
 },
 "C98": {
  "note": "",
  "status": "proved"
 },
 "C99": {
  "note": "",
  "status": "proved"
 }
}