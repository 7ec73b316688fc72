import Verif.Model.Http
/-!
A client that reads a message off its JSON form, looking fields up by name, and which messages can be shown.
-/
namespace Verif
namespace Http

/-- How a client reads base64 and base58. -/
structure Client where
  un64 : Bytes → Option Bytes
  un58 : Bytes → Option Bytes

/-- What the server writes in base64 and base58, the client reads. -/
structure Client.Reads (c : Client) (e : HEnv) : Prop where
  b64 : ∀ b, c.un64 (e.base64 b) = some b
  b58 : ∀ b, c.un58 (e.base58 b) = some b

/-! ### Reading JSON -/

/-- The field of an object. -/
def J.get (k : String) : J → Option J
  | .obj l => l.lookup k
  | _ => none

def J.asNum : J → Option Nat
  | .num n => some n
  | _ => none

def J.asStr : J → Option Bytes
  | .str s => some s
  | _ => none

/-- A list, reading each element. -/
def J.asList (f : J → Option α) : J → Option (List α)
  | .arr l => l.mapM f
  | _ => none

/-- `0x` and hexadecimal digits. -/
def J.asHex : J → Option Bytes
  | .str s => if s.take 2 = [48, 120] then hexDecode (s.drop 2) else none
  | _ => none

def J.as64 (c : Client) : J → Option Bytes
  | .str s => c.un64 s
  | _ => none

/-- A name out of a list, which counts from `start`. -/
def J.asName (names : List String) (start : Int) : J → Option Int
  | .name s => (names.idxOf? s).map fun i => start + i
  | _ => none

/-- A field that has to be there. -/
def J.field (k : String) (f : J → Option α) (j : J) : Option α := (j.get k).bind f

/-- A field that may be left out or null. -/
def J.optional (k : String) (f : J → Option α) (j : J) : Option (Option α) :=
  match j.get k with
  | none | some .null => some none
  | some v => (f v).map some

/-! ### Names -/

/-- The types of messages, from 0 on and from 11 on. -/
def typeOf (j : J) : Option Int :=
  (j.asName ["MESSAGE_TYPE_NONE", "MESSAGE_TYPE_CAST_ADD", "MESSAGE_TYPE_CAST_REMOVE", "MESSAGE_TYPE_REACTION_ADD",
    "MESSAGE_TYPE_REACTION_REMOVE", "MESSAGE_TYPE_LINK_ADD", "MESSAGE_TYPE_LINK_REMOVE",
    "MESSAGE_TYPE_VERIFICATION_ADD_ETH_ADDRESS", "MESSAGE_TYPE_VERIFICATION_REMOVE"] 0).or
  (j.asName ["MESSAGE_TYPE_USER_DATA_ADD", "MESSAGE_TYPE_USERNAME_PROOF", "MESSAGE_TYPE_FRAME_ACTION",
    "MESSAGE_TYPE_LINK_COMPACT_STATE", "MESSAGE_TYPE_LEND_STORAGE", "MESSAGE_TYPE_KEY_ADD", "MESSAGE_TYPE_KEY_REMOVE",
    "MESSAGE_TYPE_CHANNEL_UPDATE", "MESSAGE_TYPE_CHANNEL_MEMBER", "MESSAGE_TYPE_CHANNEL_PIN", "MESSAGE_TYPE_CHANNEL_MODERATE"] 11)

/-- The kinds of profile entries, from 0 on and from 5 on. -/
def profileOf (j : J) : Option Int :=
  (j.asName ["USER_DATA_TYPE_NONE", "USER_DATA_TYPE_PFP", "USER_DATA_TYPE_DISPLAY", "USER_DATA_TYPE_BIO"] 0).or
  (j.asName ["USER_DATA_TYPE_URL", "USER_DATA_TYPE_USERNAME", "USER_DATA_TYPE_LOCATION", "USER_DATA_TYPE_TWITTER",
    "USER_DATA_TYPE_GITHUB", "USER_DATA_TYPE_BANNER", "USER_DATA_PRIMARY_ADDRESS_ETHEREUM", "USER_DATA_PRIMARY_ADDRESS_SOLANA",
    "USER_DATA_TYPE_PROFILE_TOKEN", "USER_DATA_TYPE_LIVE_AT"] 5)

def networkOf (j : J) : Option Int :=
  j.asName ["FARCASTER_NETWORK_NONE", "FARCASTER_NETWORK_MAINNET", "FARCASTER_NETWORK_TESTNET", "FARCASTER_NETWORK_DEVNET"] 0

def protocolOf (j : J) : Option Int := j.asName ["PROTOCOL_ETHEREUM", "PROTOCOL_SOLANA"] 0

def castingOf (j : J) : Option Int :=
  j.asName ["CASTING_MODE_NONE", "CASTING_MODE_EVERYONE", "CASTING_MODE_MEMBERS_ONLY", "CASTING_MODE_RECOMMENDED"] 0

def membershipOf (j : J) : Option Int :=
  j.asName ["MEMBERSHIP_MODE_NONE", "MEMBERSHIP_MODE_OPEN", "MEMBERSHIP_MODE_APPROVAL"] 0

def memberActionOf (j : J) : Option Int :=
  j.asName ["CHANNEL_MEMBER_ACTION_NONE", "CHANNEL_MEMBER_ACTION_ADD_MEMBER", "CHANNEL_MEMBER_ACTION_REMOVE_MEMBER",
    "CHANNEL_MEMBER_ACTION_ADD_MODERATOR", "CHANNEL_MEMBER_ACTION_REMOVE_MODERATOR", "CHANNEL_MEMBER_ACTION_BAN",
    "CHANNEL_MEMBER_ACTION_UNBAN"] 0

def moderateActionOf (j : J) : Option Int :=
  j.asName ["CHANNEL_MODERATE_ACTION_NONE", "CHANNEL_MODERATE_ACTION_HIDE", "CHANNEL_MODERATE_ACTION_UNHIDE"] 0

/-! ### Parts -/

def castIdOf (j : J) : Option WCastId := do
  let fid ← j.field "fid" J.asNum
  let hash ← j.field "hash" J.asHex
  some ⟨fid, hash⟩

/-- The field that refers to a cast, or else the one that holds a URL. -/
def targetOf (kCast kUrl : String) (j : J) : Option (Option WTarget) := do
  match ← j.optional kCast castIdOf with
  | some c => some (some (.castId c))
  | none => match ← j.optional kUrl J.asStr with
    | some u => some (some (.url u))
    | none => some none

def embedOf (j : J) : Option (Option WTarget) :=
  match j.get "castId" with
  | some v => (castIdOf v).map fun c => some (.castId c)
  | none => (j.field "url" J.asStr).map fun u => some (.url u)

/-- Bytes of a chain: hexadecimal for Ethereum and base58 for Solana. -/
def chainBytes (c : Client) (protocol : Int) (j : J) : Option Bytes :=
  if protocol = 0 then j.asHex else j.asStr.bind c.un58

/-! ### Bodies -/

def castAddOf (j : J) : Option WCast := do
  let old ← j.field "embedsDeprecated" (J.asList J.asStr)
  let mentions ← j.field "mentions" (J.asList J.asNum)
  let parent ← targetOf "parentCastId" "parentUrl" j
  let text ← j.field "text" J.asStr
  let embeds ← j.field "embeds" (J.asList embedOf)
  let positions ← j.field "mentionsPositions" (J.asList J.asNum)
  let ty ← j.field "type" (J.asName ["CAST", "LONG_CAST", "TEN_K_CAST"] 0)
  some { embedsDeprecated := old, mentions := mentions, parent := parent, text := text, positions := positions, embeds := embeds, ty := ty }

def verificationOf (c : Client) (j : J) : Option WVerification := do
  let p ← j.field "protocol" protocolOf
  let a ← j.field "address" (chainBytes c p)
  let s ← j.field "claimSignature" (J.as64 c)
  let h ← j.field "blockHash" (chainBytes c p)
  let t ← j.field "type" J.asNum
  let chain ← j.field "chainId" J.asNum
  some { address := a, claimSignature := s, blockHash := h, verificationType := t, chainId := chain, protocol := p }

def frameOf (c : Client) (j : J) : Option WFrame := do
  let url ← j.field "url" (J.as64 c)
  let button ← j.field "buttonIndex" J.asNum
  let cast ← j.optional "castId" castIdOf
  let input ← j.field "inputText" (J.as64 c)
  let state ← j.field "state" (J.as64 c)
  let tx ← j.field "transactionId" (J.as64 c)
  let a ← j.field "address" J.asHex
  some { url := url, button := button, castId := cast, input := input, state := state, txId := tx, address := a }

/-- A 32 bit number. -/
def J.asU32 (j : J) : Option UInt32 := j.asNum.map UInt32.ofNat

def keyAddOf (fid ts : Nat) (j : J) : Option (KeyAddMsg × Extra) := do
  let key ← j.field "key" J.asHex
  let kt ← j.field "keyType" J.asNum
  let sig ← j.field "custodySignature" J.asHex
  let deadline ← j.field "deadline" J.asU32
  let nonce ← j.field "nonce" J.asU32
  let metadata ← j.field "metadata" J.asHex
  let mt ← j.field "metadataType" J.asNum
  let tx ← j.field "registrationTxHash" J.asHex
  let scopes ← j.field "scopes" (J.asList typeOf)
  let ttl ← j.field "ttl" J.asU32
  some ({ fid := fid, timestamp := UInt32.ofNat ts, key := key, keyType := kt, scopes := scopes, ttl := ttl, nonce := nonce,
          deadline := deadline, metadataType := mt, metadata := metadata, custodySignature := sig }, { registrationTx := tx })

def keyRemoveOf (fid ts : Nat) (signer : Bytes) (j : J) : Option KeyRemoveMsg := do
  let key ← j.field "key" J.asHex
  let sig ← j.field "signature" J.asHex
  let st ← j.field "signatureType" J.asNum
  let deadline ← j.field "deadline" J.asU32
  let nonce ← j.field "nonce" J.asU32
  some { fid := fid, timestamp := UInt32.ofNat ts, signer := signer, key := key, signatureType := st, signature := sig, nonce := nonce,
         deadline := deadline }

def channelUpdateOf (j : J) : Option (WBody × Extra) := do
  let ch ← j.field "channelId" J.asHex
  let name ← j.optional "name" J.asStr
  let description ← j.optional "description" J.asStr
  let image ← j.optional "imageUrl" J.asStr
  let header ← j.optional "header" J.asStr
  let rules ← j.optional "rules" J.asStr
  let casting ← j.optional "castingMode" castingOf
  let membership ← j.optional "membershipMode" membershipOf
  some (.channelUpdate ch casting membership,
    { name := name, description := description, imageUrl := image, header := header, rules := rules })

/-- A body, by the name of its field. -/
def bodyOf (c : Client) (fid ts : Nat) (signer : Bytes) (k : String) (j : J) : Option (WBody × Extra) :=
  if k = "castAddBody" then (castAddOf j).map fun b => (.castAdd b, {})
  else if k = "castRemoveBody" then (j.field "targetHash" (J.as64 c)).map fun h => (.castRemove h, {})
  else if k = "reactionBody" then do
    let ty ← j.field "type" (J.asName ["REACTION_TYPE_NONE", "REACTION_TYPE_LIKE", "REACTION_TYPE_RECAST"] 0)
    let t ← targetOf "targetCastId" "targetUrl" j
    some (.reaction ty t, {})
  else if k = "verificationAddAddressBody" then (verificationOf c j).map fun b => (.verificationAdd b, {})
  else if k = "verificationRemoveBody" then do
    let p ← j.field "protocol" protocolOf
    let a ← j.field "address" (chainBytes c p)
    some (.verificationRemove a p, {})
  else if k = "userDataBody" then do
    let ty ← j.field "type" profileOf
    let v ← j.field "value" J.asStr
    some (.userData ty v, {})
  else if k = "linkBody" then do
    let ty ← j.field "type" J.asStr
    let shown ← j.optional "displayTimestamp" J.asNum
    let t ← j.field "targetFid" J.asNum
    some (.link ty (some t), { displayTimestamp := shown })
  else if k = "usernameProofBody" then do
    let t ← j.field "timestamp" J.asNum
    let n ← j.field "name" J.asStr
    let o ← j.field "owner" J.asHex
    let s ← j.field "signature" (J.as64 c)
    let f ← j.field "fid" J.asNum
    let ty ← j.field "type" (J.asName ["USERNAME_TYPE_NONE", "USERNAME_TYPE_FNAME", "USERNAME_TYPE_ENS_L1", "USERNAME_TYPE_BASENAME"] 0)
    some (.usernameProof ty n t o f, { proofSignature := s })
  else if k = "frameActionBody" then (frameOf c j).map fun b => (.frameAction b, {})
  else if k = "linkCompactStateBody" then do
    let ty ← j.field "type" J.asStr
    let ts ← j.field "targetFids" (J.asList J.asNum)
    some (.linkCompactState ty ts, {})
  else if k = "lendStorageBody" then do
    let f ← j.field "toFid" J.asNum
    let u ← j.field "numUnits" J.asNum
    let ty ← j.field "unitType" (J.asName ["UnitTypeLegacy", "UnitType2024", "UnitType2025"] 0)
    some (.lendStorage f u ty, {})
  else if k = "keyAddBody" then (keyAddOf fid ts j).map fun b => (.keyAdd b.1, b.2)
  else if k = "keyRemoveBody" then (keyRemoveOf fid ts signer j).map fun b => (.keyRemove b, {})
  else if k = "channelUpdateBody" then channelUpdateOf j
  else if k = "channelMemberBody" then do
    let ch ← j.field "channelId" J.asHex
    let f ← j.field "fid" J.asNum
    let a ← j.field "action" memberActionOf
    some (.channelMember ch f a, {})
  else if k = "channelPinBody" then do
    let ch ← j.field "channelId" J.asHex
    let h ← j.field "castHash" J.asHex
    some (.channelPin ch h, {})
  else if k = "channelModerateBody" then do
    let ch ← j.field "channelId" J.asHex
    let h ← j.field "castHash" J.asHex
    let a ← j.field "action" moderateActionOf
    some (.channelModerate ch h a, {})
  else none

/-- The data of a message: its body is the one field whose name is that of a body. -/
def dataOf (c : Client) (signer : Bytes) (j : J) : Option (WData × Extra) := do
  let ty ← j.field "type" typeOf
  let fid ← j.field "fid" J.asNum
  let ts ← j.field "timestamp" J.asNum
  let n ← j.field "network" networkOf
  let b ← match j with
    | .obj l => l.findSome? fun f => bodyOf c fid ts signer f.1 f.2
    | _ => none
  some ({ ty := ty, fid := fid, ts := ts, network := n, body := some b.1 }, b.2)

/-- A message, as a client reads it.  The bytes that were signed are not shown. -/
def messageOf (c : Client) (j : J) : Option (WMsg × Extra) := do
  let h ← j.field "hash" J.asHex
  let hs ← j.field "hashScheme" (J.asName ["HASH_SCHEME_NONE", "HASH_SCHEME_BLAKE3"] 0)
  let s ← j.field "signature" (J.as64 c)
  let ss ← j.field "signatureScheme" (J.asName ["SIGNATURE_SCHEME_NONE", "SIGNATURE_SCHEME_ED25519", "SIGNATURE_SCHEME_EIP712"] 0)
  let k ← j.field "signer" J.asHex
  let d ← j.field "data" (dataOf c k)
  some ({ data := some d.1, dataBytes := none, hash := h, hashScheme := hs, signature := s, signatureScheme := ss, signer := k }, d.2)

/-! ### Which messages can be shown, and shown in full -/

/-- The numbers in a body are those of known names, a link has a target, and a name is text. -/
def KnownBody (e : HEnv) : WBody → Prop
  | .castAdd b => 0 ≤ b.ty ∧ b.ty ≤ 2
  | .reaction ty _ => 0 ≤ ty ∧ ty ≤ 2
  | .verificationAdd b => 0 ≤ b.protocol ∧ b.protocol ≤ 1
  | .verificationRemove _ p => 0 ≤ p ∧ p ≤ 1
  | .userData ty _ => (0 ≤ ty ∧ ty ≤ 3) ∨ (5 ≤ ty ∧ ty ≤ 14)
  | .link _ t => t ≠ none
  | .usernameProof ty name _ _ _ => (0 ≤ ty ∧ ty ≤ 3) ∧ e.utf8 name = true
  | .channelUpdate _ c m => (∀ n, c = some n → 0 ≤ n ∧ n ≤ 3) ∧ (∀ n, m = some n → 0 ≤ n ∧ n ≤ 2)
  | .channelMember _ _ a => 0 ≤ a ∧ a ≤ 6
  | .channelModerate _ _ a => 0 ≤ a ∧ a ≤ 2
  | _ => True

/-- The number of a type of message. -/
def KnownType (ty : Int) : Prop := (0 ≤ ty ∧ ty ≤ 8) ∨ (11 ≤ ty ∧ ty ≤ 21)

/-- A message that can be shown. -/
def Showable (e : HEnv) (m : WMsg) : Prop :=
  (0 ≤ m.hashScheme ∧ m.hashScheme ≤ 1) ∧ (0 ≤ m.signatureScheme ∧ m.signatureScheme ≤ 2) ∧
  ∃ d b, m.data = some d ∧ d.body = some b ∧ KnownType d.ty ∧ (0 ≤ d.network ∧ d.network ≤ 3) ∧ KnownBody e b

/-- A body of which nothing is lost: no empty embeds, a known kind of storage units and known scopes. -/
def Whole : WBody → Prop
  | .castAdd b => none ∉ b.embeds
  | .lendStorage _ _ ty => 0 ≤ ty ∧ ty ≤ 2
  | .keyAdd k => ∀ s ∈ k.scopes, KnownType s
  | _ => True

/-- The copies of the user, the time and the signer that the model keeps in the bodies of key messages are those of the
message around them. -/
def Coherent (m : WMsg) (d : WData) : Prop :=
  match d.body with
  | some (.keyAdd k) => k.fid = d.fid ∧ k.timestamp = UInt32.ofNat d.ts
  | some (.keyRemove k) => k.fid = d.fid ∧ k.timestamp = UInt32.ofNat d.ts ∧ k.signer = m.signer
  | _ => True

/-- The fields of `Extra` that a body of this kind has. -/
def Extra.of (x : Extra) : WBody → Extra
  | .link _ _ => { displayTimestamp := x.displayTimestamp }
  | .usernameProof _ _ _ _ _ => { proofSignature := x.proofSignature }
  | .keyAdd _ => { registrationTx := x.registrationTx }
  | .channelUpdate _ _ _ => { name := x.name, description := x.description, imageUrl := x.imageUrl, header := x.header, rules := x.rules }
  | _ => {}

end Http
end Verif
