import Verif.Model.OnChain
import Verif.Model.Validate
import Verif.Model.Names
import Verif.Model.Fnames
import Verif.Model.Time
/-!
Who may post on a data shard: `validate_user_message` of /repo/src/storage/store/engine.rs (below: engine), 2035-2340,
over the accepted on-chain events, the gasless key tables and the stores it reads, and the histories that fill them.

Simplifications: metrics are left out.  The message stores and the name registry are parameters of each step
(`ProfileView`), so that every state of theirs is covered.
-/
namespace Verif

/-- Signature checks of key messages, as in `KeyEnv`. -/
structure KeyCrypto where
  metadata : Nat → Bytes → Bytes → UInt32 → Option VerifiedRequest
  recoverAdd : KeyAddMsg → Option Bytes
  recoverRemove : KeyRemoveMsg → Option Bytes

/-- The custody address of a user, /repo/src/storage/store/account/gasless_key_merge.rs:149-156: the `to` of the
registration on record. -/
def custodyOf (db : Db OVal) (t : Txn OVal) (fid : Nat) : Option Bytes :=
  match idRegisterEvent db t fid with
  | .ok (some e) => match e.body with
    | .idRegister to _ => some to
    | _ => none
  | _ => none

/-- What the key merges read of the on-chain tables.  A failing read counts as "not a signer"; no reachable state has
one (C45). -/
def chainEnv (c : KeyCrypto) (db : Db OVal) (t : Txn OVal) : KeyEnv where
  metadata := c.metadata
  recoverAdd := c.recoverAdd
  recoverRemove := c.recoverRemove
  custody := custodyOf db t
  onchainSigner fid key := match activeSigner db t fid key with
    | .ok (some _) => true
    | _ => false

/-- The stores that validation reads besides the on-chain and key tables: verifications and username proofs (`sdb`,
`stxn`), the name registry (`fdb`, `ftxn`), the protocol version by the wall clock of the node (`wall`), and two fields
of message bodies that the store model leaves out: the fid inside a username proof and the protocol of a verification. -/
structure ProfileView where
  sdb : Db SVal
  stxn : Txn SVal
  fdb : Db FVal
  ftxn : Txn FVal
  wall : EngineVersion
  proofFid : Msg → Nat
  protocol : Msg → Int

/-- `MessageValidationError`, the part produced here. -/
inductive AErr where
  | noData | invalid (e : VErr) | missingFid | missingSigner | outOfScope | invalidType | missingFname
  | invalidEth | invalidSol | notVerified | store (e : HubErr)
  deriving DecidableEq, Repr

/-- `read_txn`, engine 2044-2057: the batch if dependent messages are enabled, or else an empty one. -/
def readTxn {α : Type} (v : EngineVersion) (t : Txn α) : Txn α :=
  if v.isEnabled .dependentMessagesInBulkSubmit then t else OMap.empty

/-- The fid of the proof for a name, `get_username_proof`, engine 2229-2267.  The version that decides whether the batch
is read for ENS names is the one of the wall clock. -/
def usernameProofFid (p : ProfileView) (v : EngineVersion) (name : Bytes) : Except HubErr (Option Nat) :=
  if dotEth.isSuffixOf name then
    match getUsernameProof p.sdb (readTxn p.wall (readTxn v p.stxn)) name with
    | .error e => .error e
    | .ok none => .ok none
    | .ok (some m) => .ok (some (p.proofFid m))
  else
    match getFname p.fdb (readTxn v p.ftxn) name with
    | .error e => .error e
    | .ok none => .ok none
    | .ok (some f) => .ok (some f.fid)

/-- `validate_username`, engine 2310-2340. -/
def checkUsername (p : ProfileView) (v : EngineVersion) (fid : Nat) (name : Bytes) : Except AErr Unit :=
  if name = [] then .ok ()
  else match usernameProofFid p v name with
    | .error e => .error (.store e)
    | .ok none => .error .missingFname
    | .ok (some f) => if f ≠ fid then .error .missingFname else .ok ()

/-- `verify_fid_owns_address`, engine 2976-3011. -/
def ownsAddress (p : ProfileView) (v : EngineVersion) (fid : Nat) (protocol : Int) (address : Bytes) : Except AErr Unit :=
  match verificationStore.getAdd p.sdb (readTxn v p.stxn) ⟨fid, .verificationAdd, 0, [], [], .verificationAdd address⟩ with
  | .error _ => .error (.store .internal)
  | .ok none => .error .notVerified
  | .ok (some m) => if p.protocol m = protocol then .ok () else .error .notVerified

/-- `Address::from_hex`: with or without `0x`. -/
def fromHexAddress (s : Bytes) : Option Bytes :=
  if s.take 2 = hexPrefix then parseAddress s else parseAddress (hexPrefix ++ s)

/-- `validate_ethereum_address_ownership`, engine 2269-2288. -/
def ownsEth (p : ProfileView) (v : EngineVersion) (fid : Nat) (s : Bytes) : Except AErr Unit :=
  if s = [] then .ok ()
  else match fromHexAddress s with
    | none => .error .invalidEth
    | some a => ownsAddress p v fid 0 a

/-- `validate_solana_address_ownership`, engine 2290-2308. -/
def ownsSol (env : VEnv) (p : ProfileView) (v : EngineVersion) (fid : Nat) (s : Bytes) : Except AErr Unit :=
  if s = [] then .ok ()
  else match env.solAddress s with
    | none => .error .invalidSol
    | some a => if a.length ≠ 32 then .error .invalidSol else ownsAddress p v fid 1 a

/-- The state-dependent checks of a body, engine 2175-2198.  Types 6, 11 and 12 are the username and the two primary
addresses. -/
def validateProfile (env : VEnv) (p : ProfileView) (v : EngineVersion) (fid : Nat) : Option WBody → Except AErr Unit
  | some (.userData ty s) =>
    if ty = 6 then checkUsername p v fid s
    else if ty = 11 then ownsEth p v fid s
    else if ty = 12 then ownsSol env p v fid s
    else .ok ()
  | _ => .ok ()

/-- A note about an accepted key message, with the on-chain events accepted by then, or about an accepted message
signed with a gasless key. -/
inductive KeyNote where
  | added (m : KeyAddMsg) (events : List OEvent)
  | removed (m : KeyRemoveMsg) (events : List OEvent)
  | used (fid : Nat) (key : Bytes) (ts : Nat)
  deriving DecidableEq, Repr

/-- A data shard's on-chain and key tables.  Both are parts of one database and one batch.  The notes of what was
accepted so far (`keyLog`) and at the last commit (`keySaved`) are bookkeeping for stating properties; no step reads
them. -/
structure AdmitNode where
  chain : ChainNode := {}
  keys : KeyState := ⟨OMap.empty, OMap.empty⟩
  keyLog : List KeyNote := []
  keySaved : List KeyNote := []

/-- `get_active_key`, /repo/src/storage/store/account/active_key.rs:111-142, on the real tables. -/
def activeKeyFor (cdb : Db OVal) (ct : Txn OVal) (kdb : Db GVal) (kt : Txn GVal) (fid : Nat) (signer : Bytes) :
    Except HubErr (Option ActiveKey) :=
  match activeSigner cdb ct fid signer with
  | .error e => .error e
  | .ok (some _) => .ok (some .onChain)
  | .ok none =>
    match getKeyRecord kdb kt fid signer with
    | .error e => .error e
    | .ok none => .ok none
    | .ok (some r) => .ok (some (.gasless (computeScopesMask r.message.scopes) r.message.ttl))

/-- `ActiveKey::Gasless` with a time-to-live, engine 2121-2135. -/
def ActiveKey.bumpTtl : ActiveKey → Option UInt32
  | .onChain => none
  | .gasless _ ttl => if ttl.toNat > 0 then some ttl else none

/-- Is this a key message?  engine 2099. -/
def MessageType.isKey (ty : MessageType) : Bool := ty == .keyAdd || ty == .keyRemove

/-- The signer check, engine 2097-2136: the time-to-live to enforce afterwards. -/
def checkSigner (n : AdmitNode) (v : EngineVersion) (d : WData) (signer : Bytes) : Except AErr (Option UInt32) :=
  if d.type.isKey then
    if v.isEnabled .gaslessSigners then .ok none else .error .invalidType
  else
    match activeKeyFor n.chain.db (readTxn v n.chain.pend) n.keys.db (readTxn v n.keys.txn) d.fid signer with
    | .error _ => .error .missingSigner
    | .ok none => .error .missingSigner
    | .ok (some k) => if k.admits d.type then .ok k.bumpTtl else .error .outOfScope

/-- Types that are not taken directly, engine 2138-2173. -/
def refusedType (v : EngineVersion) (ty : MessageType) : Bool :=
  match ty with
  | .lendStorage | .channelUpdate | .channelMember | .channelPin | .channelModerate => true
  | .verificationAdd | .verificationRemove => v.isEnabled .verificationsOnShardZero
  | _ => false

/-- Expiry and bump on the real batch, engine 2211-2222. -/
def bumpKey (n : AdmitNode) (now : Nat) (d : WData) (signer : Bytes) : Option UInt32 → Except AErr (Txn GVal)
  | none => .ok n.keys.txn
  | some ttl => match checkAndBump n.keys.db n.keys.txn d.fid signer ttl (UInt32.ofNat d.ts) now with
    | .error e => .error (.store e)
    | .ok t => .ok t

/-- The checks after `validate_message`, engine 2072-2222. -/
def admitChecks (env : VEnv) (p : ProfileView) (n : AdmitNode) (v : EngineVersion) (now : Nat) (d : WData)
    (signer : Bytes) : Except AErr (Txn GVal) :=
  match idRegisterEvent n.chain.db (readTxn v n.chain.pend) d.fid with
  | .error _ => .error .missingFid
  | .ok none => .error .missingFid
  | .ok (some _) =>
    match checkSigner n v d signer with
    | .error e => .error e
    | .ok ttl =>
      if refusedType v d.type then .error .invalidType
      else match validateProfile env p v d.fid d.body with
        | .error e => .error e
        | .ok () => bumpKey n now d signer ttl

/-- `validate_user_message`, engine 2035-2226: the batch of the key tables, bumped.  `TierType::Pro` is 1. -/
def validateUserMessage (env : VEnv) (net : Network) (p : ProfileView) (n : AdmitNode) (v : EngineVersion) (now : Nat)
    (m : WMsg) : Except AErr (Txn GVal) :=
  match m.data with
  | none => .error .noData
  | some d =>
    match tierActiveAt n.chain.db 1 d.fid now with
    | .error e => .error (.store e)
    | .ok pro =>
      match validateMessage env net pro now v m with
      | .error e => .error (.invalid e)
      | .ok () => admitChecks env p n v now d m.signer

/-- `merge_message` of a key message, engine 1795-1870: the version is that of the message's own time, and additions are
merged as replays. -/
def keyOpOf (c : KeyCrypto) (net : Network) (n : AdmitNode) (m : WMsg) : Option KeyOp :=
  match m.data with
  | none => none
  | some d =>
    match EngineVersion.versionFor (d.ts + farcasterEpoch / 1000) net with
    | none => none
    | some v =>
      if v.isEnabled .gaslessSigners then
        match d.type, d.body with
        | .keyAdd, some (.keyAdd b) =>
          some (.add (chainEnv c n.chain.db n.chain.pend) { b with fid := d.fid, timestamp := UInt32.ofNat d.ts } true)
        | .keyRemove, some (.keyRemove b) =>
          some (.remove (chainEnv c n.chain.db n.chain.pend)
            { b with fid := d.fid, timestamp := UInt32.ofNat d.ts, signer := m.signer })
        | _, _ => none
      else none

/-- Bookkeeping: the note of an accepted key message. -/
def noteOf (events : List OEvent) : KeyOp → List KeyNote
  | .add _ m _ => [.added m events]
  | .remove _ m => [.removed m events]
  | _ => []

/-- Merge a key message.  Simplification: `KeyOp.exec` repeats the body check that was made before, in `validate_message`
here or on shard 0.  That check reads the signed bytes, so the code would also merge a body that fails it, if a proposer
put a `data` in the block that is not what the signed bytes say; the model refuses such a key message. -/
def AdmitNode.mergeKey (c : KeyCrypto) (net : Network) (n : AdmitNode) (m : WMsg) : Bool × AdmitNode :=
  match keyOpOf c net n m with
  | none => (false, n)
  | some o =>
    let n' := { n with keys := (o.exec n.keys).2 }
    if (o.exec n.keys).1 then (true, { n' with keyLog := n.keyLog ++ noteOf n.chain.log o }) else (false, n')

/-- Bookkeeping: the note of an accepted message of a gasless key. -/
def useNote (n : AdmitNode) (v : EngineVersion) (d : WData) (signer : Bytes) : List KeyNote :=
  match checkSigner n v d signer with
  | .ok (some _) => [.used d.fid signer (UInt32.ofNat d.ts).toNat]
  | _ => []

/-- What happens to a data shard. -/
inductive AdmitOp where
  /-- an on-chain event is merged -/
  | chain (e : OEvent)
  /-- a key message is replayed from shard 0, `handle_block_event`, engine 732-979 -/
  | replay (m : WMsg)
  /-- a user message of a block of version `v` and time `now` -/
  | user (p : ProfileView) (v : EngineVersion) (now : Nat) (m : WMsg)
  | commit
  | drop

/-- One step: is the item accepted, and what then?  A message that is no key message goes on to the message stores,
which are not part of this state. -/
def AdmitNode.exec (env : VEnv) (c : KeyCrypto) (net : Network) (n : AdmitNode) : AdmitOp → Bool × AdmitNode
  | .chain e => (true, { n with chain := n.chain.step env.keccak (.merge e) })
  | .replay m => n.mergeKey c net m
  | .user p v now m =>
    match validateUserMessage env net p n v now m with
    | .error _ => (false, n)
    | .ok t =>
      let n' := { n with keys := { n.keys with txn := t } }
      match m.data with
      | none => (false, n')
      | some d =>
        if d.type.isKey then n'.mergeKey c net m
        else (true, { n' with keyLog := n.keyLog ++ useNote n v d m.signer })
  | .commit => (true, { n with
      chain := n.chain.step env.keccak .commit, keys := (KeyOp.exec n.keys .commit).2, keySaved := n.keyLog })
  | .drop => (true, { n with
      chain := n.chain.step env.keccak .drop, keys := (KeyOp.exec n.keys .abort).2, keyLog := n.keySaved })

/-- A history from the empty tables. -/
def AdmitNode.run (env : VEnv) (c : KeyCrypto) (net : Network) (ops : List AdmitOp) : AdmitNode :=
  ops.foldl (fun n o => (n.exec env c net o).2) {}

end Verif
