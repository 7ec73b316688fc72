import Verif.Model.KV
import Verif.Model.Version
import Verif.Model.BlockEvents
/-!
The parts of consensus this repository implements itself: validator sets, commit certificates, read nodes, the cache of
proposed values, proposers and the proposals kept on disk.  The Malachite engine (voting, rounds, locking) is an
external crate and not modelled.  `types`, `proposer`, `validator`, `read`, `util`, `receiver` and `local` in citations
are /repo/src/core/types.rs, /repo/src/consensus/proposer.rs, /repo/src/consensus/validator.rs,
/repo/src/consensus/read_validator.rs, /repo/src/core/util.rs, /repo/src/mempool/block_receiver.rs and
/repo/src/storage/store/node_local_state.rs.
-/
namespace Verif

/-- `Height`, /repo/proto/definitions/blocks.proto:21-24. -/
structure BlockHeight where
  shard : Nat
  block : Nat
  deriving DecidableEq, Repr

/-- The derived order of `Height`, /repo/proto/build.rs:7: shard first, then block number. -/
instance : StrictOrd BlockHeight where
  lt a b := a.shard < b.shard ∨ (a.shard = b.shard ∧ a.block < b.block)
  decLt _ _ := inferInstance
  irrefl a h := by omega
  trans h1 h2 := by omega
  tri a b := by
    obtain ⟨s, n⟩ := a; obtain ⟨t, m⟩ := b
    simp only [BlockHeight.mk.injEq]; omega

namespace BlockHeight

/-- `increment`, /repo/proto/src/lib.rs:52-61.  The `u64` wraps. -/
def next (h : BlockHeight) : BlockHeight := ⟨h.shard, (h.block + 1) % 2 ^ 64⟩

/-- `decrement`, /repo/proto/src/lib.rs:63-68. -/
def prev (h : BlockHeight) : Option BlockHeight := if h.block = 0 then none else some ⟨h.shard, h.block - 1⟩

end BlockHeight

/-- `ShardHash`, /repo/proto/definitions/blocks.proto:34-37. -/
structure ShardHash where
  shard : Nat
  hash : Bytes
  deriving DecidableEq, Repr

/-- The derived order of `ShardHash`, /repo/proto/build.rs:6. -/
instance : StrictOrd ShardHash where
  lt a b := a.shard < b.shard ∨ (a.shard = b.shard ∧ a.hash ≺ b.hash)
  decLt _ _ := inferInstance
  irrefl a h := by
    rcases h with h | h
    · omega
    · exact StrictOrd.irrefl _ h.2
  trans h1 h2 := by
    rcases h1 with h1 | ⟨e1, h1⟩ <;> rcases h2 with h2 | ⟨e2, h2⟩
    · exact .inl (by omega)
    · exact .inl (by omega)
    · exact .inl (by omega)
    · exact .inr ⟨by omega, StrictOrd.trans h1 h2⟩
  tri a b := by
    obtain ⟨s, n⟩ := a; obtain ⟨t, m⟩ := b
    simp only [ShardHash.mk.injEq]
    rcases Nat.lt_trichotomy s t with h | h | h
    · exact .inl (.inl h)
    · rcases StrictOrd.tri n m with g | g | g
      · exact .inl (.inr ⟨h, g⟩)
      · exact .inr (.inl ⟨h, g⟩)
      · exact .inr (.inr (.inr ⟨h.symm, g⟩))
    · exact .inr (.inr (.inl h))

/-! ### Validator sets -/

/-- `SnapchainValidator`, types 291-317.  The address is the public key; the other fields are equal for all members of
one set. -/
structure Validator where
  shard : Nat
  key : Bytes
  deriving DecidableEq, Repr

/-- Insertion into the sorted list: `push` and `sort`, types 338-340.  All members have the same shard, so the derived
order compares the keys. -/
def insertValidator (v : Validator) : List Validator → List Validator
  | [] => [v]
  | x :: l => if v.key ≺ x.key then v :: x :: l else x :: insertValidator v l

/-- `SnapchainValidatorSet::add`, types 332-346. -/
def addValidator (set : List Validator) (v : Validator) : List Validator :=
  if set.any (fun x => x.key == v.key) then set
  else
    match set with
    | [] => [v]
    | x :: _ => if x.shard = v.shard then insertValidator v set else set

/-- `ValidatorSetConfig`, /repo/src/consensus/consensus.rs: when it takes effect, the keys and the shards. -/
structure SetConfig where
  effectiveAt : Nat
  keys : List Bytes
  shards : List Nat
  deriving DecidableEq, Repr

/-- `StoredValidatorSet`, validator 46-50. -/
structure StoredSet where
  effectiveAt : Nat
  validators : List Validator
  shards : List Nat
  deriving DecidableEq, Repr

/-- `StoredValidatorSet::new`, validator 52-70.  Keys that do not parse panic and are left out of the model. -/
def StoredSet.ofConfig (shard : Nat) (c : SetConfig) : StoredSet :=
  ⟨c.effectiveAt, (c.keys.map (Validator.mk shard)).foldl addValidator [], c.shards⟩

/-- `StoredValidatorSets`, validator 23-26.  `first` is `sets[0]`; the configuration is never empty
(/repo/src/consensus/consensus.rs:101-118 asserts it). -/
structure StoredSets where
  shard : Nat
  first : StoredSet
  others : List StoredSet
  deriving DecidableEq, Repr

/-- One step of the loop, validator 35-42. -/
def betterSet (shard height : Nat) (best c : StoredSet) : StoredSet :=
  if c.shards.contains shard && decide (c.effectiveAt ≤ height) && decide (c.effectiveAt > best.effectiveAt) then c
  else best

/-- `get_validator_set`, validator 33-44. -/
def validatorSetAt (s : StoredSets) (height : Nat) : List Validator :=
  ((s.first :: s.others).foldl (betterSet s.shard height) s.first).validators

/-- `select_proposer`, types 518-538.  `none` is a failed assertion.  `usize` arithmetic wraps. -/
def selectProposer (set : List Validator) (height : BlockHeight) (round : Int) : Option Validator :=
  if set.isEmpty || decide (round < 0) then none
  else set[((height.block + 2 ^ 64 - 1 + round.toNat) % 2 ^ 64) % set.length]?

/-! ### Commit certificates -/

/-- `Commits`, /repo/proto/definitions/blocks.proto:54-59.  A missing height or value panics and is left out. -/
structure Commits where
  height : BlockHeight
  round : Int
  value : ShardHash
  sigs : List (Bytes × Bytes)
  deriving DecidableEq, Repr

/-- A precommit, types 360-396. -/
structure Vote where
  height : BlockHeight
  round : Int
  value : ShardHash
  voter : Bytes
  deriving DecidableEq, Repr

/-- What the external crates provide: `roundOf` is the round a certificate's number stands for (Malachite's
`Round::from`), `valid key vote sig` Ed25519 verification of the encoded vote. -/
structure Crypto where
  roundOf : Int → Int
  valid : Bytes → Vote → Bytes → Bool

/-- `Iterator::contains` on a partly consumed iterator (itertools): what is left after the first equal item. -/
def takeAfter (k : Bytes) : List Bytes → Option (List Bytes)
  | [] => none
  | x :: l => if x = k then some l else takeAfter k l

/-- The loop over the signatures, util 120-140.  `expected_pubkeys` is an iterator created before the loop, so every
`contains` goes on where the last one stopped. -/
def checkSignatures (ok : Bytes × Bytes → Bool) : List Bytes → List (Bytes × Bytes) → Bool
  | _, [] => true
  | keys, s :: l =>
    match takeAfter s.1 keys with
    | none => false
    | some rest => ok s && checkSignatures ok rest l

/-- Malachite's default quorum, external: more than two thirds. -/
def quorumMet (n total : Nat) : Bool := decide (3 * n > 2 * total)

/-- `verify_signatures`, util 102-142. -/
def verifySignatures (cr : Crypto) (sets : StoredSets) (c : Commits) : Bool :=
  let keys := (validatorSetAt sets c.height.block).map (·.key)
  quorumMet c.sigs.length keys.length &&
    checkSignatures (fun s => cr.valid s.1 ⟨c.height, cr.roundOf c.round, c.value, s.1⟩ s.2) keys c.sigs

/-! ### Read nodes -/

/-- A decided value: a block (`header = some (protocol version, timestamp, network)`) or a shard chunk (`none`), its
height, the certificate and everything else.  Missing parts panic and are left out. -/
structure Decided (B : Type) where
  header : Option (Nat × Nat × Network)
  height : BlockHeight
  commits : Commits
  body : B
  deriving DecidableEq, Repr

/-- A read node, read 22-31.  `log` is what it has committed, in order; the engine's state is a function of it. -/
structure ReadNode (B : Type) where
  last : BlockHeight
  buf : OMap BlockHeight (Decided B)
  log : List (Decided B)

/-- The fixed parts of a read node.  `engineOk log v` says whether committing `v` after `log` returns; if not it
panics.  This includes values of the wrong kind, read 51-73. -/
structure ReadEnv (B : Type) where
  cr : Crypto
  sets : StoredSets
  maxBuffered : Nat
  engineOk : List (Decided B) → Decided B → Bool

section
variable {B : Type}

/-- `validate_protocol_version`, read 121-150.  `FarcasterTime` counts from 2021-01-01. -/
def versionOk (v : Decided B) : Bool :=
  match v.header with
  | none => true
  | some (version, ts, net) =>
    match EngineVersion.versionFor (ts + 1609459200) net with
    | none => false
    | some ev => decide (version = ev.protocolVersion)

/-- `commit_decided_value`, read 49-79.  `none` is a panic. -/
def commitDecided (env : ReadEnv B) (n : ReadNode B) (v : Decided B) (h : BlockHeight) : Option (ReadNode B) :=
  if env.engineOk n.log v then some { n with last := h, log := n.log ++ [v] } else none

/-- `process_buffered_blocks`, read 81-95, on the rows of the buffer in order; returns the rows that stay. -/
def processBuffered (env : ReadEnv B) (n : ReadNode B) :
    List (BlockHeight × Decided B) → Option (ReadNode B × List (BlockHeight × Decided B))
  | [] => some (n, [])
  | (h, v) :: rest =>
    if h = n.last.next then
      match commitDecided env n v h with
      | none => none
      | some n => processBuffered env n rest
    else if n.last.next ≺ h then some (n, (h, v) :: rest)
    else processBuffered env n rest

/-- The map with the given rows. -/
def OMap.ofRows {K V : Type} [StrictOrd K] (rows : List (K × V)) : OMap K V :=
  rows.foldl (fun acc r => acc.put r.1 r.2) OMap.empty

/-- `process_decided_value`, read 152-194. -/
def processDecided (env : ReadEnv B) (n : ReadNode B) (v : Decided B) : Option (ReadNode B) :=
  if !verifySignatures env.cr env.sets v.commits then some n
  else if !versionOk v then some n
  else if n.last.next ≺ v.height then
    if n.buf.rows.length < env.maxBuffered then some { n with buf := n.buf.put v.height v } else some n
  else if v.height = n.last.next then
    match commitDecided env n v v.height with
    | none => none
    | some n =>
      match processBuffered env n n.buf.rows with
      | none => none
      | some (n, rows) => some { n with buf := OMap.ofRows rows }
  else some n

end

/-! ### Proposed values -/

/-- `FullProposal`, /repo/proto/definitions/blocks.proto: height, round, proposer and the value; `hash` is the value's
`hash` field (`shard_hash`, /repo/proto/src/lib.rs:147-163), `inner` the height in the value's header. -/
structure FullProposal (B : Type) where
  height : BlockHeight
  round : Int
  proposer : Bytes
  hash : Bytes
  inner : BlockHeight
  body : B
  deriving DecidableEq, Repr

/-- `FullProposal::shard_hash`, /repo/proto/src/lib.rs:147-163. -/
def FullProposal.shardHash {B : Type} (p : FullProposal B) : ShardHash := ⟨p.height.shard, p.hash⟩

/-- `ProposedValues`, proposer 62-65. -/
structure ProposedValues (B : Type) where
  byHeight : OMap BlockHeight (List ShardHash)
  values : OMap ShardHash (FullProposal B)

namespace ProposedValues
variable {B : Type}

/-- `new`, proposer 68-73. -/
def empty : ProposedValues B := ⟨OMap.empty, OMap.empty⟩

/-- `add_proposed_value`, proposer 75-87. -/
def add (pv : ProposedValues B) (p : FullProposal B) : ProposedValues B :=
  ⟨pv.byHeight.put p.height (match pv.byHeight.get p.height with
      | some hs => hs ++ [p.shardHash]
      | none => [p.shardHash]),
   pv.values.put p.shardHash p⟩

/-- `get_by_shard_hash`, proposer 89-91. -/
def get (pv : ProposedValues B) (k : ShardHash) : Option (FullProposal B) := pv.values.get k

/-- The heights to remove, proposer 94-101: up to the first greater one. -/
def dueHeights (h : BlockHeight) : List (BlockHeight × List ShardHash) → List BlockHeight
  | [] => []
  | (e, _) :: l => if h ≺ e then [] else e :: dueHeights h l

/-- One removal, proposer 103-109. -/
def dropHeight (pv : ProposedValues B) (h : BlockHeight) : ProposedValues B :=
  match pv.byHeight.get h with
  | none => pv
  | some hs => ⟨pv.byHeight.del h, hs.foldl OMap.del pv.values⟩

/-- `decide`, proposer 93-110. -/
def decide (pv : ProposedValues B) (h : BlockHeight) : ProposedValues B :=
  (dueHeights h pv.byHeight.rows).foldl dropHeight pv

end ProposedValues

/-! ### Proposers -/

/-- A proposer with its engine: `log` is what has been committed; the engine's state is a function of it. -/
structure ProposerState (B : Type) where
  pv : ProposedValues B
  confirmed : BlockHeight
  log : List (FullProposal B)

/-- The engine behind a proposer: `valid log p` is `validate_state_change` (for blocks with the checks of the header
before it), `ok log p` says whether committing returns. -/
structure ProposerEngine (B : Type) where
  valid : List (FullProposal B) → FullProposal B → Bool
  ok : List (FullProposal B) → FullProposal B → Bool

section
variable {B : Type}

/-- `ShardProposer::add_proposed_value`, proposer 206-259, for a shard chunk: it is stored before it is checked. -/
def shardAdd (e : ProposerEngine B) (s : ProposerState B) (p : FullProposal B) : Bool × ProposerState B :=
  let s' := { s with pv := s.pv.add p }
  if p.inner ≠ s.confirmed.next then (false, s') else (e.valid s.log p, s')

/-- `BlockProposer::add_proposed_value`, proposer 578-651, for a block: it is stored if it passes. -/
def blockAdd (e : ProposerEngine B) (s : ProposerState B) (p : FullProposal B) : Bool × ProposerState B :=
  if p.inner ≠ s.confirmed.next then (false, s)
  else if !e.valid s.log p then (false, s)
  else (true, { s with pv := s.pv.add p })

/-- The end of `propose_value`, proposer 200-203 and 572-575: the node's own proposal is stored. -/
def ownProposal (s : ProposerState B) (p : FullProposal B) : ProposerState B := { s with pv := s.pv.add p }

/-- `decide`, proposer 265-287 and 657-687, as the host calls it (/repo/src/consensus/malachite/host.rs:236-259): if the
decided value is not known the height is started again (`some` with nothing changed).  `none` is a panic of the engine.
The engine's confirmed height is that of the committed value's header. -/
def decideValue (e : ProposerEngine B) (s : ProposerState B) (height : BlockHeight) (value : ShardHash) :
    Option (ProposerState B) :=
  match s.pv.get value with
  | none => some s
  | some p =>
    if e.ok s.log p then some ⟨s.pv.decide height, p.inner, s.log ++ [p]⟩ else none

end

/-! ### Proposals kept on disk -/

/-- `make_height_prefix`, local 79-84. -/
def heightPrefix (shard height : Nat) : Bytes := 1 :: (be 4 shard ++ be 8 height)

/-- `make_proposal_key`, local 73-77.  Rounds are not negative here, so the `i64` bytes are those of the number. -/
def proposalKey (shard height round : Nat) : Bytes := heightPrefix shard height ++ be 8 round

/-- `delete_proposals`, local 95-112: the iterator works on a snapshot, so deleting on the way is deleting what it
visits. -/
def deleteProposals {V : Type} (db : Db V) (shard height : Nat) : Db V :=
  let p := heightPrefix shard height
  let b := iterBounds (some p) (some (incrementVec p)) {}
  (scanRows db b.1 b.2 false).foldl (fun d r => d.del r.1) db

/-- `ShardValidator::propose_value`, validator 293-325: a proposal kept for this height and round is returned again,
otherwise the proposer's new one is stored and returned.  The result says whether it is new. -/
def proposeOnce {V : Type} (db : Db V) (shard height round : Nat) (fresh : V) : Bool × V × Db V :=
  match db.get (proposalKey shard height round) with
  | some p => (false, p, db)
  | none => (true, fresh, db.put (proposalKey shard height round) fresh)

/-! ### Shard witnesses -/

/-- `ShardChunkWitness`, /repo/proto/definitions/blocks.proto. -/
structure Witness where
  height : BlockHeight
  hash : Bytes
  root : Bytes
  deriving DecidableEq, Repr

/-- The stored shards of a block proposer: shard id and chunk by block number, as witnesses
(`get_shard_witness_at_height`, proposer 372-387). -/
abbrev ShardStores := List (Nat × (Nat → Option Witness))

/-- `get_last_shard_witness`, /repo/src/storage/store/block_engine.rs:2329-2342: `blocks n` are the witnesses of the
stored block `n`. -/
def lastWitness (blocks : Nat → Option (List Witness)) (height shard : Nat) : Option Witness :=
  if height = 0 then none
  else
    match blocks (height - 1) with
    | none => none
    | some ws => ws.find? (fun w => w.height.shard == shard)

/-- One shard of `collect_confirmed_shard_witnesses`, proposer 401-434, the decoupled path.  `u64` arithmetic wraps. -/
def nextWitness (blocks : Nat → Option (List Witness)) (height shard : Nat) (chunks : Nat → Option Witness) :
    Option Witness :=
  let last := lastWitness blocks height shard
  let desired := if height = 1 then some 1 else last.map (fun w => (w.height.block + 1) % 2 ^ 64)
  match desired with
  | none => none
  | some n =>
    match chunks n with
    | some w => some w
    | none => last

/-- `collect_confirmed_shard_witnesses`, proposer 389-477, the decoupled path.  `stores` is in ascending order of the
shard id, as the `BTreeMap` of results is. -/
def collectWitnesses (blocks : Nat → Option (List Witness)) (height numShards : Nat) (stores : ShardStores) :
    List Witness :=
  let ws := stores.filterMap (fun s => nextWitness blocks height s.1 s.2)
  if ws.length = numShards then ws else []

/-- The checks of witnesses in `BlockProposer::add_proposed_value`, proposer 617-637: their number and their hash. -/
def witnessesAccepted (H : Bytes → Bytes) (enc : List Witness → Bytes) (numShards : Nat) (claimed : Bytes)
    (ws : List Witness) : Bool :=
  !claimed.isEmpty && decide (ws.length = numShards) && decide (H (enc ws) = claimed)

/-! ### Blocks received by data shards -/

/-- `validate_block_events`, receiver 70-101.  `claimed` is the events hash in the header. -/
def blockEventsAccepted (H : Bytes → Bytes) (enc : BData → Bytes) (cr : Crypto) (sets : StoredSets) (claimed : Bytes)
    (events : List BEvent) (c : Commits) : Bool :=
  if events.isEmpty then true
  else if events.any (fun e => match e.data with | none => true | some d => e.hash != H (enc d)) then false
  else if claimed ≠ eventsHash H events then false
  else verifySignatures cr sets c

end Verif
