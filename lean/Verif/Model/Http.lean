import Verif.Model.Validate
/-!
Messages as the HTTP interface shows them.  `http` in citations is /repo/src/network/http_server.rs.  Base64 and base58 are
parameters; writing JSON as text (serde_json) is external.  Only that a conversion fails is modelled, not its error.
-/
namespace Verif
namespace Http

/-- A JSON value.  `name` is a string out of a fixed list. -/
inductive J where
  | null
  | num (n : Nat)
  | str (s : Bytes)
  | name (s : String)
  | arr (l : List J)
  | obj (l : List (String × J))

/-- Encodings, `str::from_utf8`, and reading base64. -/
structure HEnv where
  base64 : Bytes → Bytes
  unbase64 : Bytes → Option Bytes
  base58 : Bytes → Bytes
  utf8 : Bytes → Bool

/-- Fields of bodies that validation does not read: of links, username proofs, key additions and channel updates. -/
structure Extra where
  displayTimestamp : Option Nat := none
  proofSignature : Bytes := []
  registrationTx : Bytes := []
  name : Option Bytes := none
  description : Option Bytes := none
  imageUrl : Option Bytes := none
  header : Option Bytes := none
  rules : Option Bytes := none
  deriving DecidableEq, Repr

/-! ### Names of enumeration values: `as_str_name` of /repo/proto/definitions -/

/-- message.proto:69-93. -/
def messageTypes : List (Int × String) :=
  [(0, "MESSAGE_TYPE_NONE"), (1, "MESSAGE_TYPE_CAST_ADD"), (2, "MESSAGE_TYPE_CAST_REMOVE"), (3, "MESSAGE_TYPE_REACTION_ADD"),
   (4, "MESSAGE_TYPE_REACTION_REMOVE"), (5, "MESSAGE_TYPE_LINK_ADD"), (6, "MESSAGE_TYPE_LINK_REMOVE"),
   (7, "MESSAGE_TYPE_VERIFICATION_ADD_ETH_ADDRESS"), (8, "MESSAGE_TYPE_VERIFICATION_REMOVE"), (11, "MESSAGE_TYPE_USER_DATA_ADD"),
   (12, "MESSAGE_TYPE_USERNAME_PROOF"), (13, "MESSAGE_TYPE_FRAME_ACTION"), (14, "MESSAGE_TYPE_LINK_COMPACT_STATE"),
   (15, "MESSAGE_TYPE_LEND_STORAGE"), (16, "MESSAGE_TYPE_KEY_ADD"), (17, "MESSAGE_TYPE_KEY_REMOVE"),
   (18, "MESSAGE_TYPE_CHANNEL_UPDATE"), (19, "MESSAGE_TYPE_CHANNEL_MEMBER"), (20, "MESSAGE_TYPE_CHANNEL_PIN"),
   (21, "MESSAGE_TYPE_CHANNEL_MODERATE")]

/-- message.proto:96-101. -/
def networks : List (Int × String) :=
  [(0, "FARCASTER_NETWORK_NONE"), (1, "FARCASTER_NETWORK_MAINNET"), (2, "FARCASTER_NETWORK_TESTNET"), (3, "FARCASTER_NETWORK_DEVNET")]

/-- message.proto:56-59. -/
def hashSchemes : List (Int × String) := [(0, "HASH_SCHEME_NONE"), (1, "HASH_SCHEME_BLAKE3")]

/-- message.proto:62-66. -/
def signatureSchemes : List (Int × String) :=
  [(0, "SIGNATURE_SCHEME_NONE"), (1, "SIGNATURE_SCHEME_ED25519"), (2, "SIGNATURE_SCHEME_EIP712")]

/-- message.proto:135-139. -/
def castTypes : List (Int × String) := [(0, "CAST"), (1, "LONG_CAST"), (2, "TEN_K_CAST")]

/-- message.proto:177-181. -/
def reactionTypes : List (Int × String) := [(0, "REACTION_TYPE_NONE"), (1, "REACTION_TYPE_LIKE"), (2, "REACTION_TYPE_RECAST")]

/-- message.proto:184-187. -/
def protocols : List (Int × String) := [(0, "PROTOCOL_ETHEREUM"), (1, "PROTOCOL_SOLANA")]

/-- message.proto:110-125. -/
def userDataTypes : List (Int × String) :=
  [(0, "USER_DATA_TYPE_NONE"), (1, "USER_DATA_TYPE_PFP"), (2, "USER_DATA_TYPE_DISPLAY"), (3, "USER_DATA_TYPE_BIO"),
   (5, "USER_DATA_TYPE_URL"), (6, "USER_DATA_TYPE_USERNAME"), (7, "USER_DATA_TYPE_LOCATION"), (8, "USER_DATA_TYPE_TWITTER"),
   (9, "USER_DATA_TYPE_GITHUB"), (10, "USER_DATA_TYPE_BANNER"), (11, "USER_DATA_PRIMARY_ADDRESS_ETHEREUM"),
   (12, "USER_DATA_PRIMARY_ADDRESS_SOLANA"), (13, "USER_DATA_TYPE_PROFILE_TOKEN"), (14, "USER_DATA_TYPE_LIVE_AT")]

/-- username_proof.proto:3-8. -/
def proofTypes : List (Int × String) :=
  [(0, "USERNAME_TYPE_NONE"), (1, "USERNAME_TYPE_FNAME"), (2, "USERNAME_TYPE_ENS_L1"), (3, "USERNAME_TYPE_BASENAME")]

/-- http 901-906. -/
def unitName (ty : Int) : String :=
  if ty = 2 then "UnitType2025" else if ty = 1 then "UnitType2024" else "UnitTypeLegacy"

/-- http 2640-2655. -/
def castingModes : List (Int × String) :=
  [(0, "CASTING_MODE_NONE"), (1, "CASTING_MODE_EVERYONE"), (2, "CASTING_MODE_MEMBERS_ONLY"), (3, "CASTING_MODE_RECOMMENDED")]

/-- http 2657-2671. -/
def membershipModes : List (Int × String) :=
  [(0, "MEMBERSHIP_MODE_NONE"), (1, "MEMBERSHIP_MODE_OPEN"), (2, "MEMBERSHIP_MODE_APPROVAL")]

/-- http 2673-2699. -/
def memberActions : List (Int × String) :=
  [(0, "CHANNEL_MEMBER_ACTION_NONE"), (1, "CHANNEL_MEMBER_ACTION_ADD_MEMBER"), (2, "CHANNEL_MEMBER_ACTION_REMOVE_MEMBER"),
   (3, "CHANNEL_MEMBER_ACTION_ADD_MODERATOR"), (4, "CHANNEL_MEMBER_ACTION_REMOVE_MODERATOR"), (5, "CHANNEL_MEMBER_ACTION_BAN"),
   (6, "CHANNEL_MEMBER_ACTION_UNBAN")]

/-- http 2701-2721. -/
def moderateActions : List (Int × String) :=
  [(0, "CHANNEL_MODERATE_ACTION_NONE"), (1, "CHANNEL_MODERATE_ACTION_HIDE"), (2, "CHANNEL_MODERATE_ACTION_UNHIDE")]

/-- `try_from` and `as_str_name`. -/
def named (table : List (Int × String)) (n : Int) : Option J := (table.lookup n).map .name

/-! ### Parts -/

/-- `format!("0x{}", hex::encode(b))`, also `serdehex`, http 92-110. -/
def hex (b : Bytes) : J := .str (hexPrefix ++ hexEncode b)

/-- `serdebase64`, http 47-63. -/
def b64 (e : HEnv) (b : Bytes) : J := .str (e.base64 b)

/-- A field with `skip_serializing_if = "Option::is_none"`. -/
def skip (k : String) : Option J → List (String × J)
  | none => []
  | some j => [(k, j)]

/-- An optional field without it. -/
def orNull (o : Option J) : J := o.getD .null

/-- `CastId`, http 432-436. -/
def castId (c : WCastId) : J := .obj [("fid", .num c.fid), ("hash", hex c.hash)]

/-- The cast of a parent or target, http 2382-2391 and 2472-2481. -/
def targetCast : Option WTarget → Option J
  | some (.castId c) => some (castId c)
  | _ => none

/-- The URL of a parent or target, http 2392-2398 and 2482-2488. -/
def targetUrl : Option WTarget → Option J
  | some (.url u) => some (.str u)
  | _ => none

/-- An embed, http 2403-2416. -/
def embed : Option WTarget → J
  | some (.castId c) => .obj [("castId", castId c)]
  | some (.url u) => .obj [("url", .str u)]
  | none => .obj [("url", .str [])]

/-- An address or a block hash, http 2538-2552 and 2569-2573. -/
def address (e : HEnv) (protocol : Int) (b : Bytes) : J := if protocol = 0 then hex b else .str (e.base58 b)

/-! ### Bodies -/

/-- `map_proto_cast_add_body_to_json_cast_add_body`, http 2377-2428, with the fields of http 199-215. -/
def castAdd (b : WCast) : Option J := do
  let t ← named castTypes b.ty
  some (.obj [("embedsDeprecated", .arr (b.embedsDeprecated.map .str)), ("mentions", .arr (b.mentions.map .num)),
    ("parentCastId", orNull (targetCast b.parent)), ("parentUrl", orNull (targetUrl b.parent)), ("text", .str b.text),
    ("embeds", .arr (b.embeds.map embed)), ("mentionsPositions", .arr (b.positions.map .num)), ("type", t)])

/-- `map_proto_reaction_body_to_json_reaction_body`, http 2460-2490. -/
def reaction (ty : Int) (target : Option WTarget) : Option J := do
  let t ← named reactionTypes ty
  some (.obj (("type", t) :: skip "targetCastId" (targetCast target) ++ skip "targetUrl" (targetUrl target)))

/-- `map_proto_verification_add_body_to_json_verification_add_body`, http 2534-2563. -/
def verificationAdd (e : HEnv) (b : WVerification) : Option J := do
  let p ← named protocols b.protocol
  some (.obj [("address", address e b.protocol b.address), ("claimSignature", b64 e b.claimSignature),
    ("blockHash", address e b.protocol b.blockHash), ("type", .num b.verificationType), ("chainId", .num b.chainId), ("protocol", p)])

/-- `map_proto_verification_remove_body_to_json_verification_remove_body`, http 2565-2583. -/
def verificationRemove (e : HEnv) (a : Bytes) (protocol : Int) : Option J := do
  let p ← named protocols protocol
  some (.obj [("address", address e protocol a), ("protocol", p)])

/-- `map_proto_user_data_body_to_json_user_data_body`, http 2492-2506. -/
def userData (ty : Int) (value : Bytes) : Option J := do
  let t ← named userDataTypes ty
  some (.obj [("type", t), ("value", .str value)])

/-- `map_proto_link_body_to_json_link_body`, http 2430-2449. -/
def link (ty : Bytes) (target : Option Nat) (shown : Option Nat) : Option J := do
  let fid ← target
  some (.obj [("type", .str ty), ("displayTimestamp", orNull (shown.map .num)), ("targetFid", .num fid)])

/-- `map_proto_username_proof_body_to_json_username_proof_body`, http 2508-2532. -/
def usernameProof (e : HEnv) (ty : Int) (name : Bytes) (ts : Nat) (owner sig : Bytes) (fid : Nat) : Option J := do
  let t ← named proofTypes ty
  if e.utf8 name then
    some (.obj [("timestamp", .num ts), ("name", .str name), ("owner", hex owner), ("signature", b64 e sig), ("fid", .num fid), ("type", t)])
  else none

/-- `FrameActionBody`, http 2929-2940 and 281-298. -/
def frameAction (e : HEnv) (b : WFrame) : J :=
  .obj ([("url", b64 e b.url), ("buttonIndex", .num b.button)] ++ skip "castId" (b.castId.map castId) ++
    [("inputText", b64 e b.input), ("state", b64 e b.state), ("transactionId", b64 e b.txId), ("address", hex b.address)])

/-- `map_proto_lend_storage_body_to_json_lend_storage_body`, http 2585-2597. -/
def lendStorage (toFid units : Nat) (ty : Int) : J :=
  .obj [("toFid", .num toFid), ("numUnits", .num units), ("unitType", .name (unitName ty))]

/-- `map_proto_key_add_body_to_json_key_add_body`, http 2599-2626: unknown scopes are left out. -/
def keyAdd (b : KeyAddMsg) (tx : Bytes) : J :=
  .obj [("key", hex b.key), ("keyType", .num b.keyType), ("custodySignature", hex b.custodySignature),
    ("deadline", .num b.deadline.toNat), ("nonce", .num b.nonce.toNat), ("metadata", hex b.metadata),
    ("metadataType", .num b.metadataType), ("registrationTxHash", hex tx),
    ("scopes", .arr (b.scopes.filterMap (named messageTypes))), ("ttl", .num b.ttl.toNat)]

/-- `map_proto_key_remove_body_to_json_key_remove_body`, http 2628-2638. -/
def keyRemove (b : KeyRemoveMsg) : J :=
  .obj [("key", hex b.key), ("signature", hex b.signature), ("signatureType", .num b.signatureType),
    ("deadline", .num b.deadline.toNat), ("nonce", .num b.nonce.toNat)]

/-- `.map(…).transpose()?`. -/
def namedOpt (table : List (Int × String)) : Option Int → Option (Option J)
  | none => some none
  | some n => (named table n).map some

/-- `map_proto_channel_update_body_to_json_channel_update_body`, http 2723-2742. -/
def channelUpdate (channel : Bytes) (casting membership : Option Int) (x : Extra) : Option J := do
  let c ← namedOpt castingModes casting
  let m ← namedOpt membershipModes membership
  some (.obj (("channelId", hex channel) :: (skip "name" (x.name.map .str) ++ (skip "description" (x.description.map .str) ++
    (skip "imageUrl" (x.imageUrl.map .str) ++ (skip "header" (x.header.map .str) ++ (skip "rules" (x.rules.map .str) ++
    (skip "castingMode" c ++ skip "membershipMode" m))))))))

/-- `map_proto_channel_member_body_to_json_channel_member_body`, http 2744-2752. -/
def channelMember (channel : Bytes) (fid : Nat) (action : Int) : Option J := do
  let a ← named memberActions action
  some (.obj [("channelId", hex channel), ("fid", .num fid), ("action", a)])

/-- `map_proto_channel_pin_body_to_json_channel_pin_body`, http 2754-2761. -/
def channelPin (channel cast : Bytes) : J := .obj [("channelId", hex channel), ("castHash", hex cast)]

/-- `map_proto_channel_moderate_body_to_json_channel_moderate_body`, http 2763-2771. -/
def channelModerate (channel cast : Bytes) (action : Int) : Option J := do
  let a ← named moderateActions action
  some (.obj [("channelId", hex channel), ("castHash", hex cast), ("action", a)])

/-- The body's field of `MessageData`, http 2821-3401, with its name, http 126-180. -/
def body (e : HEnv) (x : Extra) : WBody → Option (String × J)
  | .castAdd b => (castAdd b).map ("castAddBody", ·)
  | .castRemove t => some ("castRemoveBody", .obj [("targetHash", b64 e t)])
  | .reaction ty t => (reaction ty t).map ("reactionBody", ·)
  | .verificationAdd b => (verificationAdd e b).map ("verificationAddAddressBody", ·)
  | .verificationRemove a p => (verificationRemove e a p).map ("verificationRemoveBody", ·)
  | .userData ty v => (userData ty v).map ("userDataBody", ·)
  | .link ty t => (link ty t x.displayTimestamp).map ("linkBody", ·)
  | .usernameProof ty n ts o f => (usernameProof e ty n ts o x.proofSignature f).map ("usernameProofBody", ·)
  | .frameAction b => some ("frameActionBody", frameAction e b)
  | .linkCompactState ty ts => some ("linkCompactStateBody", .obj [("type", .str ty), ("targetFids", .arr (ts.map .num))])
  | .lendStorage f u ty => some ("lendStorageBody", lendStorage f u ty)
  | .keyAdd b => some ("keyAddBody", keyAdd b x.registrationTx)
  | .keyRemove b => some ("keyRemoveBody", keyRemove b)
  | .channelUpdate c m n => (channelUpdate c m n x).map ("channelUpdateBody", ·)
  | .channelMember c f a => (channelMember c f a).map ("channelMemberBody", ·)
  | .channelPin c h => some ("channelPinBody", channelPin c h)
  | .channelModerate c h a => (channelModerate c h a).map ("channelModerateBody", ·)

/-- `map_proto_message_data_to_json_message_data`, http 2818-3409. -/
def data (e : HEnv) (d : WData) (x : Extra) : Option J := do
  let b ← d.body
  let f ← body e x b
  let t ← named messageTypes d.ty
  let n ← named networks d.network
  some (.obj [("type", t), ("fid", .num d.fid), ("timestamp", .num d.ts), ("network", n), f])

/-- `map_proto_message_to_json_message`, http 3411-3444. -/
def message (e : HEnv) (m : WMsg) (x : Extra) : Option J := do
  let d ← m.data
  let j ← data e d x
  let h ← named hashSchemes m.hashScheme
  let s ← named signatureSchemes m.signatureScheme
  some (.obj [("data", j), ("hash", hex m.hash), ("hashScheme", h), ("signature", b64 e m.signature), ("signatureScheme", s),
    ("signer", hex m.signer)])

/-! ### Pages -/

/-- The messages of a page, http 3450-3454; none is the panic of `unwrap`. -/
def messages (e : HEnv) : List (WMsg × Extra) → Option (List J)
  | [] => some []
  | m :: l =>
    match message e m.1 m.2 with
    | none => none
    | some j => (messages e l).map (j :: ·)

/-- `map_proto_messages_response_to_json_paged_response`, http 3446-3462. -/
def page (e : HEnv) (l : List (WMsg × Extra)) (token : Option Bytes) : Option J :=
  (messages e l).map fun js => .obj [("messages", .arr js), ("nextPageToken", .str (match token with
    | some t => e.base64 t
    | none => []))]

/-- `str::replace(" ", "+")`. -/
def spacesToPlus (s : Bytes) : Bytes := s.map fun c => if c = 32 then 43 else c

/-- `serdebase64opt::deserialize`, http 78-89, of a page token; the outer none is an error. -/
def readToken (e : HEnv) (s : Bytes) : Option (Option Bytes) :=
  if (spacesToPlus s).isEmpty then some none else (e.unbase64 (spacesToPlus s)).map some

end Http
end Verif
