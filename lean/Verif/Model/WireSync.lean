import Verif.Model.Wire
/-!
The wire format of catching up: status messages, requests and responses, /repo/proto/definitions/blocks.proto:49-59 and
221-261, with the codec (`codec` = /repo/src/consensus/malachite/snapchain_codec.rs) and the certificates (`types` =
/repo/src/core/types.rs).
-/
namespace Verif
namespace Wire

/-! ### Messages -/

/-- `CommitSignature`, blocks.proto:49-52. -/
structure PSig where
  signer : Bytes := []
  signature : Bytes := []
  deriving DecidableEq, Repr

def sigFields (s : PSig) : List Field := strField 1 s.signer ++ strField 2 s.signature

def sigStep (s : PSig) : Field → Option PSig
  | (1, .str b) => some { s with signer := b }
  | (2, .str b) => some { s with signature := b }
  | (1, _) | (2, _) => none
  | _ => some s

/-- `Commits`, blocks.proto:54-59. -/
structure PCommits where
  height : Option BlockHeight := none
  round : Int := 0
  value : Option ShardHash := none
  sigs : List PSig := []
  deriving DecidableEq, Repr

def commitsFields (c : PCommits) : List Field :=
  msgField 1 (c.height.map heightFields) ++ numField 2 (ofInt c.round) ++ msgField 3 (c.value.map hashFields) ++
    c.sigs.map fun s => (4, .str (put (sigFields s)))

def commitsStep (limit : Nat) (c : PCommits) : Field → Option PCommits
  | (1, .str b) => (readMsg limit heightStep (c.height.getD ⟨0, 0⟩) b).map fun h => { c with height := some h }
  | (2, .num n) => some { c with round := toI64 n }
  | (3, .str b) => (readMsg limit hashStep (c.value.getD ⟨0, []⟩) b).map fun h => { c with value := some h }
  | (4, .str b) => (readMsg limit sigStep {} b).map fun s => { c with sigs := c.sigs ++ [s] }
  | (1, _) | (2, _) | (3, _) | (4, _) => none
  | _ => some c

/-- `SyncValueResponse`, blocks.proto:243-247. -/
structure PValue where
  height : Option BlockHeight := none
  full : Bytes := []
  commits : Option PCommits := none
  deriving DecidableEq, Repr

def valueFields (v : PValue) : List Field :=
  msgField 1 (v.height.map heightFields) ++ strField 2 v.full ++ msgField 3 (v.commits.map commitsFields)

def valueStep (limit : Nat) (v : PValue) : Field → Option PValue
  | (1, .str b) => (readMsg limit heightStep (v.height.getD ⟨0, 0⟩) b).map fun h => { v with height := some h }
  | (2, .str b) => some { v with full := b }
  | (3, .str b) => (readMsg limit (commitsStep (limit - 1)) (v.commits.getD {}) b).map fun c => { v with commits := some c }
  | (1, _) | (2, _) | (3, _) => none
  | _ => some v

/-- `SyncVoteSetResponse`, blocks.proto:249-254. -/
structure PVotes where
  height : Option BlockHeight := none
  round : Int := 0
  votes : List PVote := []
  sigs : List Bytes := []
  deriving DecidableEq, Repr

def votesFields (v : PVotes) : List Field :=
  msgField 1 (v.height.map heightFields) ++ numField 2 (ofInt v.round) ++ (v.votes.map fun x => (3, .str (put (voteFields x)))) ++
    v.sigs.map fun s => (4, .str s)

def votesStep (limit : Nat) (v : PVotes) : Field → Option PVotes
  | (1, .str b) => (readMsg limit heightStep (v.height.getD ⟨0, 0⟩) b).map fun h => { v with height := some h }
  | (2, .num n) => some { v with round := toI64 n }
  | (3, .str b) => (readMsg limit (voteStep (limit - 1)) {} b).map fun x => { v with votes := v.votes ++ [x] }
  | (4, .str b) => some { v with sigs := v.sigs ++ [b] }
  | (1, _) | (2, _) | (3, _) | (4, _) => none
  | _ => some v

/-- `SyncResponse`, blocks.proto:256-261. -/
inductive PResponse where
  | value (v : PValue)
  | votes (v : PVotes)
  deriving DecidableEq, Repr

def responseFields : PResponse → List Field
  | .value v => msgField 1 (some (valueFields v))
  | .votes v => msgField 2 (some (votesFields v))

def responseStep (limit : Nat) (r : Option PResponse) : Field → Option (Option PResponse)
  | (1, .str b) =>
    let old := match r with
      | some (.value v) => v
      | _ => {}
    (readMsg limit (valueStep (limit - 1)) old b).map fun v => some (.value v)
  | (2, .str b) =>
    let old := match r with
      | some (.votes v) => v
      | _ => {}
    (readMsg limit (votesStep (limit - 1)) old b).map fun v => some (.votes v)
  | (1, _) | (2, _) => none
  | _ => some r

/-- `SyncResponse::decode`. -/
def readResponse (b : Bytes) : Option (Option PResponse) := readMsg 100 (responseStep 99) none b

/-! ### Certificates -/

/-- `Commits::from_commit_certificate`, types 733-757.  A certificate is a `Commits` of Model/Consensus. -/
def ofCertificate (c : Commits) : PCommits :=
  ⟨some c.height, c.round, some c.value, c.sigs.map fun s => ⟨s.1, s.2⟩⟩

/-- `Commits::to_commit_certificate`, types 709-731, with `Address::from_vec`, 74-78, nothing if it panics. -/
def toCertificate (roundOf : Int → Int) (c : PCommits) : Option Commits :=
  match c.height, c.value with
  | some h, some v =>
    if c.sigs.all (fun s => s.signer.length == 32) then some ⟨h, roundOf c.round, v, c.sigs.map fun s => (s.signer, s.signature)⟩
    else none
  | _, _ => none

/-! ### The codec -/

/-- Malachite's `sync::Response`: a decided value, if there is one, with its certificate, or a set of signed votes. -/
inductive Response where
  | value (height : BlockHeight) (decided : Option (Bytes × Commits))
  | votes (height : BlockHeight) (round : Int) (votes : List (CVote × Bytes))
  deriving DecidableEq, Repr

/-- `encode` for responses, codec 265-314; nothing is an error that is logged. -/
def encodeResponse : Response → Option Bytes
  | .value _ none => none
  | .value h (some (full, cert)) => some (put (responseFields (.value ⟨some h, full, some (ofCertificate cert)⟩)))
  | .votes h r vs => some (put (responseFields (.votes ⟨some h, r, vs.map (·.1.proto), vs.map (·.2)⟩)))

/-- What decoding comes to. -/
inductive Got (A : Type) where
  /-- An error that is logged. -/
  | refused
  | panic
  | got (a : A)
  deriving DecidableEq, Repr

/-- `into_iter().zip(..).map(..).collect()`, codec 246-254, nothing if a vote panics. -/
def zipVotes (roundOf : Int → Int) : List PVote → List Bytes → Option (List (CVote × Bytes))
  | v :: vs, s :: ss =>
    match CVote.ofProto roundOf v with
    | none => none
    | some v => (zipVotes roundOf vs ss).map fun l => (v, s) :: l
  | _, _ => some []

/-- `decode` for responses, codec 215-264: the certificate and the votes are converted before the height is looked at. -/
def decodeResponse (roundOf : Int → Int) (b : Bytes) : Got Response :=
  match readResponse b with
  | none => .refused
  | some none => .refused
  | some (some (.value v)) =>
    match v.commits with
    | none => .refused
    | some c =>
      match toCertificate roundOf c with
      | none => .panic
      | some cert =>
        match v.height with
        | none => .refused
        | some h => .got (.value h (some (v.full, cert)))
  | some (some (.votes v)) =>
    match zipVotes roundOf v.votes v.sigs with
    | none => .panic
    | some l =>
      match v.height with
      | none => .refused
      | some h => .got (.votes h (roundOf v.round) l)

/-- The shard a response is for: `map_sync_message_to_system_message`, /repo/src/network/gossip.rs:1285-1307.  The task that
panics here is the gossip task. -/
def routeResponse (roundOf : Int → Int) (b : Bytes) : Got Nat :=
  match decodeResponse roundOf b with
  | .refused => .refused
  | .panic => .panic
  | .got (.value h _) => .got h.shard
  | .got (.votes h _ _) => .got h.shard

/-! ### Requests and statuses -/

/-- `SyncRequest`, blocks.proto:227-241: the height, for vote sets also the round. -/
structure PRequest where
  height : Option BlockHeight := none
  round : Int := 0
  deriving DecidableEq, Repr

def requestStep (limit : Nat) (withRound : Bool) (v : PRequest) : Field → Option PRequest
  | (1, .str b) => (readMsg limit heightStep (v.height.getD ⟨0, 0⟩) b).map fun h => { v with height := some h }
  | (2, .num n) => if withRound then some { v with round := toI64 n } else some v
  | (1, _) => none
  | (2, _) => if withRound then none else some v
  | _ => some v

/-- The arm of the `oneof`: `true` for vote sets. -/
def requestArmStep (limit : Nat) (r : Option (Bool × PRequest)) : Field → Option (Option (Bool × PRequest))
  | (1, .str b) =>
    let old := match r with
      | some (false, v) => v
      | _ => {}
    (readMsg limit (requestStep (limit - 1) false) old b).map fun v => some (false, v)
  | (2, .str b) =>
    let old := match r with
      | some (true, v) => v
      | _ => {}
    (readMsg limit (requestStep (limit - 1) true) old b).map fun v => some (true, v)
  | (1, _) | (2, _) => none
  | _ => some r

/-- Malachite's `sync::Request`. -/
inductive Request where
  | value (height : BlockHeight)
  | votes (height : BlockHeight) (round : Int)
  deriving DecidableEq, Repr

/-- `encode` for requests, codec 189-211. -/
def encodeRequest : Request → Bytes
  | .value h => put (msgField 1 (some (msgField 1 (some (heightFields h)))))
  | .votes h r => put (msgField 2 (some (msgField 1 (some (heightFields h)) ++ numField 2 (ofInt r))))

/-- `decode` for requests, codec 159-187. -/
def decodeRequest (roundOf : Int → Int) (b : Bytes) : Got Request :=
  match readMsg 100 (requestArmStep 99) none b with
  | none => .refused
  | some none => .refused
  | some (some (vs, r)) =>
    match r.height with
    | none => .refused
    | some h => if vs then .got (.votes h (roundOf r.round)) else .got (.value h)

/-- Malachite's `sync::Status`; the peer as its bytes. -/
structure Status where
  peer : Bytes
  height : BlockHeight
  minHeight : BlockHeight
  deriving DecidableEq, Repr

/-- `StatusMessage`, blocks.proto:221-225. -/
structure PStatus where
  peer : Bytes := []
  height : Option BlockHeight := none
  minHeight : Option BlockHeight := none
  deriving DecidableEq, Repr

def statusFields (s : PStatus) : List Field :=
  strField 1 s.peer ++ msgField 2 (s.height.map heightFields) ++ msgField 3 (s.minHeight.map heightFields)

def statusStep (limit : Nat) (s : PStatus) : Field → Option PStatus
  | (1, .str b) => some { s with peer := b }
  | (2, .str b) => (readMsg limit heightStep (s.height.getD ⟨0, 0⟩) b).map fun h => { s with height := some h }
  | (3, .str b) => (readMsg limit heightStep (s.minHeight.getD ⟨0, 0⟩) b).map fun h => { s with minHeight := some h }
  | (1, _) | (2, _) | (3, _) => none
  | _ => some s

/-- `encode` for statuses, codec 147-154. -/
def encodeStatus (s : Status) : Bytes := put (statusFields ⟨s.peer, some s.height, some s.minHeight⟩)

/-- `decode` for statuses, codec 127-145.  `isPeer` is `PeerId::from_bytes`, external. -/
def decodeStatus (isPeer : Bytes → Bool) (b : Bytes) : Got Status :=
  match readMsg 100 (statusStep 99) {} b with
  | none => .refused
  | some s =>
    if ¬ isPeer s.peer then .refused
    else match s.height, s.minHeight with
      | some h, some m => .got ⟨s.peer, h, m⟩
      | _, _ => .refused

end Wire
end Verif
