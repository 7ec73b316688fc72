import Verif.Model.Consensus
/-!
The wire format of consensus messages: prost's encoding (an external crate, version 0.13) of the messages in
/repo/proto/definitions/blocks.proto and gossip.proto, the conversions in /repo/src/core/types.rs and the codec and gossip
code around them.  `types`, `codec` and `gossip` in citations are /repo/src/core/types.rs,
/repo/src/consensus/malachite/snapchain_codec.rs and /repo/src/network/gossip.rs.  All decoding errors are one error.
-/
namespace Verif
namespace Wire

/-! ### Fields -/

/-- `encode_varint`, prost: at most ten rounds. -/
def varintAux : Nat → Nat → Bytes
  | 0, _ => []
  | f + 1, n => if n < 128 then [UInt8.ofNat n] else UInt8.ofNat (n % 128 + 128) :: varintAux f (n / 128)

def varint (n : Nat) : Bytes := varintAux 10 n

/-- `decode_varint`, prost: at most ten bytes, the last of which is below 2. -/
def readVarintAux : Nat → Bytes → Option (Nat × Bytes)
  | 0, _ => none
  | _ + 1, [] => none
  | f + 1, b :: l =>
    if b.toNat < 128 then (if f = 0 && b.toNat ≥ 2 then none else some (b.toNat, l))
    else match readVarintAux f l with
      | none => none
      | some (v, r) => some (b.toNat % 128 + 128 * v, r)

def readVarint (b : Bytes) : Option (Nat × Bytes) := readVarintAux 10 b

/-- `decode_key`, prost: the tag and the wire type. -/
def readKey (b : Bytes) : Option ((Nat × Nat) × Bytes) :=
  match readVarint b with
  | none => none
  | some (k, r) => if k < 2 ^ 32 ∧ k % 8 ≤ 5 ∧ 1 ≤ k / 8 then some ((k / 8, k % 8), r) else none

/-- The value of a field: a number, a string of bytes, or something of another wire type, which no known field has. -/
inductive WVal where
  | num (n : Nat)
  | str (b : Bytes)
  | alien
  deriving DecidableEq, Repr

abbrev Field := Nat × WVal

/-- `decode_varint` of a length and that many bytes. -/
def readStr (b : Bytes) : Option (Bytes × Bytes) :=
  match readVarint b with
  | none => none
  | some (n, r) => if n ≤ r.length then some (r.take n, r.drop n) else none

/-- A value that is not a group. -/
def readPlain (w : Nat) (b : Bytes) : Option (WVal × Bytes) :=
  if w = 0 then (readVarint b).map fun x => (.num x.1, x.2)
  else if w = 1 then (if 8 ≤ b.length then some (.alien, b.drop 8) else none)
  else if w = 2 then (readStr b).map fun x => (.str x.1, x.2)
  else if w = 5 then (if 4 ≤ b.length then some (.alien, b.drop 4) else none)
  else none

/-- `skip_field` on a group, prost: up to the end of the group; `limit` is what is left of the recursion limit.  The first
argument bounds the number of fields and is never reached if it is the number of bytes. -/
def skipGroup : Nat → Nat → Nat → Bytes → Option Bytes
  | 0, _, _, _ => none
  | f + 1, limit, tag, b =>
    match readKey b with
    | none => none
    | some ((t, w), r) =>
      if w = 4 then (if t = tag then some r else none)
      else if limit = 0 then none
      else match (if w = 3 then skipGroup f (limit - 1) t r else (readPlain w r).map (·.2)) with
        | none => none
        | some r => skipGroup f limit tag r

/-- The value after a key. -/
def readValue (limit t w : Nat) (b : Bytes) : Option (WVal × Bytes) :=
  if w = 3 then (skipGroup b.length (limit - 1) t b).map fun r => (.alien, r) else readPlain w b

/-- The loop of `Message::merge` and `merge_loop`, prost: the fields of a message.  The first argument bounds their number
and is never reached if it is the number of bytes. -/
def readFields (limit : Nat) : Nat → Bytes → Option (List Field)
  | _, [] => some []
  | 0, _ :: _ => none
  | f + 1, b :: l =>
    match readKey (b :: l) with
    | none => none
    | some ((t, w), r) =>
      match readValue limit t w r with
      | none => none
      | some (v, r) => (readFields limit f r).map fun fs => (t, v) :: fs

/-- `merge_field` for each field in turn. -/
def mergeFields {S : Type} (step : S → Field → Option S) (s : S) : List Field → Option S
  | [] => some s
  | f :: fs => match step s f with
    | none => none
    | some s => mergeFields step s fs

/-- Read a message on top of `s`. -/
def readMsg {S : Type} (limit : Nat) (step : S → Field → Option S) (s : S) (b : Bytes) : Option S :=
  match readFields limit b.length b with
  | none => none
  | some fs => mergeFields step s fs

/-- Write a field. -/
def putField : Field → Bytes
  | (t, .num n) => varint (t * 8) ++ varint n
  | (t, .str b) => varint (t * 8 + 2) ++ varint b.length ++ b
  | (_, .alien) => []

/-- `encode_raw`, prost: the fields in the order of their tags. -/
def put (fs : List Field) : Bytes := fs.flatMap putField

/-- A number, left out if it is zero. -/
def numField (t n : Nat) : List Field := if n = 0 then [] else [(t, .num n)]

/-- `bytes`, left out if empty. -/
def strField (t : Nat) (b : Bytes) : List Field := if b = [] then [] else [(t, .str b)]

/-- An optional message. -/
def msgField (t : Nat) : Option (List Field) → List Field
  | none => []
  | some fs => [(t, .str (put fs))]

/-- An `i64` or a sign-extended `i32` as `u64`, and back. -/
def ofInt (i : Int) : Nat := (i % 2 ^ 64).toNat
def toI64 (n : Nat) : Int := if n < 2 ^ 63 then n else (n : Int) - 2 ^ 64
def toI32 (n : Nat) : Int := if n % 2 ^ 32 < 2 ^ 31 then (n % 2 ^ 32 : Nat) else ((n % 2 ^ 32 : Nat) : Int) - 2 ^ 32

/-! ### Messages -/

/-- `Height`, blocks.proto:21-24. -/
def heightFields (h : BlockHeight) : List Field := numField 1 h.shard ++ numField 2 h.block

def heightStep (h : BlockHeight) : Field → Option BlockHeight
  | (1, .num n) => some { h with shard := n % 2 ^ 32 }
  | (2, .num n) => some { h with block := n }
  | (1, _) | (2, _) => none
  | _ => some h

/-- `ShardHash`, blocks.proto:34-37. -/
def hashFields (h : ShardHash) : List Field := numField 1 h.shard ++ strField 2 h.hash

def hashStep (h : ShardHash) : Field → Option ShardHash
  | (1, .num n) => some { h with shard := n % 2 ^ 32 }
  | (2, .str b) => some { h with hash := b }
  | (1, _) | (2, _) => none
  | _ => some h

/-- `Vote`, blocks.proto:39-45. -/
structure PVote where
  ty : Int := 0
  height : Option BlockHeight := none
  round : Int := 0
  value : Option ShardHash := none
  voter : Bytes := []
  deriving DecidableEq, Repr

def voteFields (v : PVote) : List Field :=
  numField 1 (ofInt v.ty) ++ msgField 2 (v.height.map heightFields) ++ numField 3 (ofInt v.round) ++
    msgField 4 (v.value.map hashFields) ++ strField 5 v.voter

def voteStep (limit : Nat) (v : PVote) : Field → Option PVote
  | (1, .num n) => some { v with ty := toI32 n }
  | (2, .str b) => (readMsg limit heightStep (v.height.getD ⟨0, 0⟩) b).map fun h => { v with height := some h }
  | (3, .num n) => some { v with round := toI64 n }
  | (4, .str b) => (readMsg limit hashStep (v.value.getD ⟨0, []⟩) b).map fun h => { v with value := some h }
  | (5, .str b) => some { v with voter := b }
  | (1, _) | (2, _) | (3, _) | (4, _) | (5, _) => none
  | _ => some v

/-- `Proposal`, blocks.proto:61-69. -/
structure PProposal where
  height : Option BlockHeight := none
  round : Int := 0
  polRound : Int := 0
  proposer : Bytes := []
  value : Option ShardHash := none
  deriving DecidableEq, Repr

def proposalFields (v : PProposal) : List Field :=
  msgField 1 (v.height.map heightFields) ++ numField 2 (ofInt v.round) ++ numField 3 (ofInt v.polRound) ++
    strField 4 v.proposer ++ msgField 5 (v.value.map hashFields)

def proposalStep (limit : Nat) (v : PProposal) : Field → Option PProposal
  | (1, .str b) => (readMsg limit heightStep (v.height.getD ⟨0, 0⟩) b).map fun h => { v with height := some h }
  | (2, .num n) => some { v with round := toI64 n }
  | (3, .num n) => some { v with polRound := toI64 n }
  | (4, .str b) => some { v with proposer := b }
  | (5, .str b) => (readMsg limit hashStep (v.value.getD ⟨0, []⟩) b).map fun h => { v with value := some h }
  | (1, _) | (2, _) | (3, _) | (4, _) | (5, _) => none
  | _ => some v

/-- The `oneof` of `ConsensusMessage`. -/
inductive PBody where
  | vote (v : PVote)
  | proposal (p : PProposal)
  deriving DecidableEq, Repr

/-- `ConsensusMessage`, blocks.proto:95-101. -/
structure PConsensus where
  body : Option PBody := none
  signature : Bytes := []
  deriving DecidableEq, Repr

def consensusFields (m : PConsensus) : List Field :=
  (match m.body with
    | none => []
    | some (.vote v) => msgField 1 (some (voteFields v))
    | some (.proposal p) => msgField 2 (some (proposalFields p))) ++ strField 3 m.signature

/-- A repeated arm of a `oneof` is merged into the message there is, another arm replaces it. -/
def consensusStep (limit : Nat) (m : PConsensus) : Field → Option PConsensus
  | (1, .str b) =>
    let old := match m.body with
      | some (.vote v) => v
      | _ => {}
    (readMsg limit (voteStep (limit - 1)) old b).map fun v => { m with body := some (.vote v) }
  | (2, .str b) =>
    let old := match m.body with
      | some (.proposal p) => p
      | _ => {}
    (readMsg limit (proposalStep (limit - 1)) old b).map fun p => { m with body := some (.proposal p) }
  | (3, .str b) => some { m with signature := b }
  | (1, _) | (2, _) | (3, _) => none
  | _ => some m

/-- `ConsensusMessage::decode`: prost's recursion limit is 100. -/
def readConsensus (b : Bytes) : Option PConsensus := readMsg 100 (consensusStep 99) {} b

/-! ### Votes and proposals -/

/-- `Vote`, types 361-368.  The round is the number `as_i64` gives, -1 for none. -/
structure CVote where
  precommit : Bool
  height : BlockHeight
  round : Int
  value : Option ShardHash
  voter : Bytes
  deriving DecidableEq, Repr

/-- `Vote::to_proto`, types 401-417. -/
def CVote.proto (v : CVote) : PVote := ⟨if v.precommit then 1 else 0, some v.height, v.round, v.value, v.voter⟩

/-- `Vote::to_sign_bytes`, types 438-440. -/
def CVote.signBytes (v : CVote) : Bytes := put (voteFields v.proto)

/-- `Proposal`, types 443-450. -/
structure CProposal where
  height : BlockHeight
  round : Int
  value : ShardHash
  polRound : Int
  proposer : Bytes
  deriving DecidableEq, Repr

/-- `Proposal::to_proto`, types 453-461. -/
def CProposal.proto (p : CProposal) : PProposal := ⟨some p.height, p.round, p.polRound, p.proposer, some p.value⟩

/-- `Proposal::to_sign_bytes`, types 472-475. -/
def CProposal.signBytes (p : CProposal) : Bytes := put (proposalFields p.proto)

/-- `FullProposal`, blocks.proto:72-80: the proposed value is a block (tag 4) or a chunk (tag 5), in its encoding. -/
structure Part where
  height : Option BlockHeight
  round : Int
  proposer : Bytes
  value : Option (Bool × Bytes)
  deriving DecidableEq, Repr

/-- `FullProposal::to_sign_bytes`, /repo/proto/src/lib.rs:193-196. -/
def Part.signBytes (p : Part) : Bytes :=
  put (msgField 1 (p.height.map heightFields) ++ numField 2 (ofInt p.round) ++ strField 3 p.proposer ++
    (match p.value with
      | none => []
      | some (chunk, b) => [(if chunk then 5 else 4, .str b)]))

/-- What the network makes of some bytes. -/
inductive Heard where
  /-- An error that is logged. -/
  | refused
  /-- The actor panics. -/
  | panic
  | vote (v : CVote) (signature : Bytes)
  | proposal (p : CProposal) (signature : Bytes)
  deriving DecidableEq, Repr

/-- `Vote::from_proto`, types 419-436, with `Address::from_vec`, 74-78, nothing if it panics.  `roundOf` is Malachite's
`Round::from`, external. -/
def CVote.ofProto (roundOf : Int → Int) (p : PVote) : Option CVote :=
  if p.ty ≠ 0 ∧ p.ty ≠ 1 then none
  else match p.height with
    | none => none
    | some h => if p.voter.length ≠ 32 then none else some ⟨p.ty = 1, h, roundOf p.round, p.value, p.voter⟩

/-- `Proposal::from_proto`, types 463-471, nothing if it panics. -/
def CProposal.ofProto (roundOf : Int → Int) (p : PProposal) : Option CProposal :=
  match p.height, p.value with
  | some h, some v => if p.proposer.length ≠ 32 then none else some ⟨h, roundOf p.round, v, roundOf p.polRound, p.proposer⟩
  | _, _ => none

/-- `SnapchainCodec::decode` for consensus messages, codec 34-56, called by the network connector
(/repo/src/consensus/malachite/network_connector.rs:191-210). -/
def codecDecode (roundOf : Int → Int) (b : Bytes) : Heard :=
  match readConsensus b with
  | none => .refused
  | some m =>
    match m.body with
    | none => .refused
    | some (.vote v) => match CVote.ofProto roundOf v with
      | none => .panic
      | some v => .vote v m.signature
    | some (.proposal p) => match CProposal.ofProto roundOf p with
      | none => .panic
      | some p => .proposal p m.signature

/-- `FullProposal` as far as gossip looks at it: its height.  `okValue` says which encodings of blocks and chunks can be
read.  Simplification: a repeated block or chunk is read by itself. -/
structure PFull where
  height : Option BlockHeight := none
  deriving DecidableEq, Repr

def fullStep (okValue : Bytes → Bool) (limit : Nat) (v : PFull) : Field → Option PFull
  | (1, .str b) => (readMsg limit heightStep (v.height.getD ⟨0, 0⟩) b).map fun h => { v with height := some h }
  | (2, .num _) | (3, .str _) => some v
  | (4, .str b) | (5, .str b) => if okValue b then some v else none
  | (1, _) | (2, _) | (3, _) | (4, _) | (5, _) => none
  | _ => some v

/-- The `oneof` of `GossipMessage`, gossip.proto:11-20; the other arms are not looked into. -/
inductive PGossip where
  | consensus (m : PConsensus)
  | full (p : PFull)
  | other
  deriving DecidableEq, Repr

/-- `okOther` says which encodings of the other arms can be read, with the same simplification. -/
def gossipStep (okValue : Bytes → Bool) (okOther : Nat → Bytes → Bool) (g : Option PGossip) : Field → Option (Option PGossip)
  | (1, .str b) =>
    let old := match g with
      | some (.consensus m) => m
      | _ => {}
    (readMsg 99 (consensusStep 98) old b).map fun m => some (.consensus m)
  | (2, .str b) =>
    let old := match g with
      | some (.full p) => p
      | _ => {}
    (readMsg 99 (fullStep okValue 98) old b).map fun p => some (.full p)
  | (3, .str b) => if okOther 3 b then some (some .other) else none
  | (4, .str b) => if okOther 4 b then some (some .other) else none
  | (5, .str b) => if okOther 5 b then some (some .other) else none
  | (6, .str b) => if okOther 6 b then some (some .other) else none
  | (1, _) | (2, _) | (3, _) | (4, _) | (5, _) | (6, _) => none
  | _ => some g

/-- `ConsensusMessage::shard_id`, /repo/proto/src/lib.rs:200-216. -/
def shardId (m : PConsensus) : Option Nat :=
  match m.body with
  | some (.vote v) => v.height.map (·.shard)
  | some (.proposal p) => p.height.map (·.shard)
  | none => none

/-- What a gossip message does: nothing of interest here, a panic of the gossip task, or bytes for the consensus of a shard. -/
inductive Gossiped where
  | ignored
  | panic
  | part
  | consensus (shard : Nat) (b : Bytes)
  deriving DecidableEq, Repr

/-- `map_gossip_bytes_to_system_message`, gossip 1152-1213: a consensus message is encoded again.  The height of a full
proposal is unwrapped, 1177, before the check that it is there. -/
def gossipIn (okValue : Bytes → Bool) (okOther : Nat → Bytes → Bool) (b : Bytes) : Gossiped :=
  match readMsg 100 (gossipStep okValue okOther) none b with
  | none => .ignored
  | some none => .ignored
  | some (some .other) => .ignored
  | some (some (.full p)) => if p.height.isNone then .panic else .part
  | some (some (.consensus m)) =>
    match shardId m with
    | none => .ignored
    | some s => .consensus s (put (consensusFields m))

/-- `BroadcastSignedVote`, gossip 1342-1354. -/
def gossipVote (v : CVote) (signature : Bytes) : Bytes :=
  put (msgField 1 (some (consensusFields ⟨some (.vote v.proto), signature⟩)))

/-- `BroadcastSignedProposal`, gossip 1356-1371. -/
def gossipProposal (p : CProposal) (signature : Bytes) : Bytes :=
  put (msgField 1 (some (consensusFields ⟨some (.proposal p.proto), signature⟩)))

end Wire
end Verif
