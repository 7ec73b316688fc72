import Verif.Model.Regex
import Verif.Model.Version
import Verif.Model.Gasless
import Verif.Model.Text
/-!
Stateless validation of a message as it arrives: `message` in citations is /repo/src/core/validations/message.rs, `cast`,
`link`, `reaction`, `verification`, `mod` are the files beside it.  Strings are their UTF-8 bytes.  Protobuf, hashing and
signature primitives are the functions of `VEnv`.
-/
namespace Verif

/-- `ValidationError`, /repo/src/core/validations/error.rs, as far as it is used here. -/
inductive VErr where
  | missingData | invalidData | dataTooLong | invalidNetwork | invalidHashScheme | invalidHash
  | invalidSignatureScheme | missingSignature | invalidSignature | invalidSigner
  | tooFarInFuture | tooFarInPast | unsupportedFeature | invalidMessageType | proUserFeature
  | textTooLong | textTooLongForLong | textTooShortForLong | textTooShortForTenK | textTooLongForTenK | invalidCastType
  | embedsExceedsLimit | stringEmbedsExceedsLimit | stringEmbedsDeprecated | mentionsExceedsLimit | mentionsMismatch
  | embedsAndStringEmbeds | castIsEmpty | missingEmbed | fidIsMissing | hashIsMissing | urlTooShort | urlTooLong
  | positionsInvalid | positionsNotSorted | invalidLinkType | targetIsMissing | invalidReactionType
  | invalidUserDataType | valueTooLong | fnameIsMissing | nameTooLong | nameDoesntMatch | nameDoesntEndWith
  | unsupportedSubdomain | nameNotValid | invalidUsernameType | invalidLocation | latitudeOutOfRange | longitudeOutOfRange
  | addressMissing | invalidAddressLength | blockHashMissing | invalidBlockHashLength | invalidClaimSignature
  | invalidClaimSignatureLength | caip19TooLong | invalidButtonIndex | missingString | stringTooLong
  | invalidStorageUnitType | exceededMaxStorageUnits | invalidChannel | invalidKey | invalidUsername
  deriving DecidableEq, Repr

/-! ### Message contents as on the wire -/

/-- `CastId`, message.proto:162-165. -/
structure WCastId where
  fid : Nat
  hash : Bytes
  deriving DecidableEq, Repr

/-- A cast or a URL: the `oneof`s `parent` and `embed` and the reaction `target`, message.proto:127-132, 146-149 and
170-173. -/
inductive WTarget where
  | castId (c : WCastId)
  | url (u : Bytes)
  deriving DecidableEq, Repr

/-- `CastAddBody`, message.proto:143-154.  Enumerations are their wire numbers. -/
structure WCast where
  embedsDeprecated : List Bytes := []
  mentions : List Nat := []
  parent : Option WTarget := none
  text : Bytes := []
  positions : List Nat := []
  embeds : List (Option WTarget) := []
  ty : Int := 0
  deriving DecidableEq, Repr

/-- `VerificationAddAddressBody`, message.proto:190-197. -/
structure WVerification where
  address : Bytes
  claimSignature : Bytes
  blockHash : Bytes
  verificationType : Nat
  chainId : Nat
  protocol : Int
  deriving DecidableEq, Repr

/-- `FrameActionBody`, message.proto:221-229. -/
structure WFrame where
  url : Bytes
  button : Nat
  castId : Option WCastId
  input : Bytes
  state : Bytes
  txId : Bytes
  address : Bytes
  deriving DecidableEq, Repr

/-- The `body` of `MessageData`, message.proto:29-52, with the fields validation reads. -/
inductive WBody where
  | castAdd (b : WCast)
  | castRemove (target : Bytes)
  | reaction (ty : Int) (target : Option WTarget)
  | verificationAdd (b : WVerification)
  | verificationRemove (address : Bytes) (protocol : Int)
  | userData (ty : Int) (value : Bytes)
  | link (ty : Bytes) (target : Option Nat)
  | usernameProof (ty : Int) (name : Bytes) (ts : Nat) (owner : Bytes) (fid : Nat)
  | frameAction (b : WFrame)
  | linkCompactState (ty : Bytes) (targets : List Nat)
  | lendStorage (toFid units : Nat) (unitType : Int)
  | keyAdd (b : KeyAddMsg)
  | keyRemove (b : KeyRemoveMsg)
  | channelUpdate (channel : Bytes) (castingMode membershipMode : Option Int)
  | channelMember (channel : Bytes) (fid : Nat) (action : Int)
  | channelPin (channel cast : Bytes)
  | channelModerate (channel cast : Bytes) (action : Int)
  deriving DecidableEq, Repr

/-- `MessageData`, message.proto:24-53. -/
structure WData where
  ty : Int
  fid : Nat
  ts : Nat
  network : Int
  body : Option WBody
  deriving DecidableEq, Repr

/-- `Message`, message.proto:10-18. -/
structure WMsg where
  data : Option WData
  dataBytes : Option Bytes
  hash : Bytes
  hashScheme : Int
  signature : Bytes
  signatureScheme : Int
  signer : Bytes
  deriving DecidableEq, Repr

/-- What validation asks of libraries.
* `encode`, `decode`: prost on `MessageData`.
* `blake3`: the first 20 bytes of BLAKE3, /repo/src/storage/util.rs:7-11.
* `validKey`, `verify key message signature`: `VerifyingKey::try_from` and `verify_strict` of ed25519-dalek.
* `recoverClaim fid address network blockHash signature`: the address recovered from an EIP-712 verification claim,
  verification 220-261.  `network` is in the claim.
* `solClaim`: the text of a Solana claim, verification 334-381 and 417-425.
* `transferHashable name ts owner`, `recoverTransfer`: the EIP-712 hash of a name transfer exists; its signer,
  verification 110-169.
* `solAddress`: base58 decoding.
* `keccak`: keccak-256.
* `otherDigit`: characters outside ASCII in the Unicode class `Nd`, which `\d` also matches.
* `chars`: the characters of a string, none if it is not UTF-8. -/
structure VEnv where
  encode : WData → Bytes
  decode : Bytes → Option WData
  blake3 : Bytes → Bytes
  validKey : Bytes → Bool
  verify : Bytes → Bytes → Bytes → Bool
  recoverClaim : Nat → Bytes → Int → Bytes → Bytes → Option Bytes
  solClaim : Nat → Bytes → Int → Bytes → Bytes
  transferHashable : Bytes → Nat → Bytes → Bool
  recoverTransfer : Bytes → Nat → Bytes → Bytes → Option Bytes
  solAddress : Bytes → Option Bytes
  keccak : Bytes → Bytes
  otherDigit : Nat → Bool
  chars : Bytes → Option (List Nat)

/-! ### Parts -/

/-- The `?` operator between two checks: the second is made if the first succeeds. -/
def andThen (x k : Except VErr Unit) : Except VErr Unit :=
  match x with
  | .error e => .error e
  | .ok () => k

@[inherit_doc] infixr:30 " >>? " => andThen

/-- All checks of a list in order, stopping at the first error. -/
def validateAll (f : α → Except VErr Unit) : List α → Except VErr Unit
  | [] => .ok ()
  | a :: l => f a >>? validateAll f l

/-- `validate_fid`, mod 29-34. -/
def validateFid (fid : Nat) : Except VErr Unit := if fid = 0 then .error .fidIsMissing else .ok ()

/-- `validate_cast_id`, mod 36-44. -/
def validateCastId (c : WCastId) : Except VErr Unit :=
  validateFid c.fid >>? if c.hash.length ≠ 20 then .error .hashIsMissing else .ok ()

/-- `validate_url`, mod 46-58. -/
def validateUrl (u : Bytes) : Except VErr Unit :=
  if u.isEmpty then .error .urlTooShort else if u.length > 256 then .error .urlTooLong else .ok ()

/-- `validate_parent`, cast 130-135, and `validate_target`, reaction 17-22. -/
def validateTarget : WTarget → Except VErr Unit
  | .castId c => validateCastId c
  | .url u => validateUrl u

/-- `validate_embed`, cast 120-128. -/
def validateEmbed : Option WTarget → Except VErr Unit
  | none => .error .missingEmbed
  | some t => validateTarget t

/-- The text checks, cast 17-41.  The two errors for ten-thousand casts are the wrong way round in the code. -/
def validateText (ty : Int) (len : Nat) (pro : Bool) : Except VErr Unit :=
  if ty = 0 then
    if len > 320 then .error .textTooLong else .ok ()
  else if ty = 1 then
    if len > 1024 then .error .textTooLongForLong else if len ≤ 320 then .error .textTooShortForLong else .ok ()
  else if ty = 2 then
    if !pro then .error .proUserFeature
    else if len > 10000 then .error .textTooShortForTenK else if len ≤ 1024 then .error .textTooLongForTenK else .ok ()
  else .error .invalidCastType

/-- `num_embeds`, cast 45-50. -/
def maxEmbeds (pro : Bool) (version : EngineVersion) : Nat :=
  if pro || version.isEnabled .increaseEmbedLimitForAllUsers then 4 else 2

/-- The loop over the mentions, cast 90-103; `prev` is `none` in the first round. -/
def validateMentions (len : Nat) : Option Nat → List (Nat × Nat) → Except VErr Unit
  | _, [] => .ok ()
  | prev, (fid, pos) :: l =>
    validateFid fid >>?
      if pos > len then .error .positionsInvalid
      else if (match prev with | none => false | some p => decide (pos < p)) then .error .positionsNotSorted
      else validateMentions len (some pos) l

/-- `match &body.parent`, cast 105-108. -/
def validateParent : Option WTarget → Except VErr Unit
  | none => .ok ()
  | some t => validateTarget t

/-- `validate_cast_add_body`, cast 9-111. -/
def validateCastAdd (b : WCast) (allowDeprecated pro : Bool) (version : EngineVersion) : Except VErr Unit :=
  validateText b.ty b.text.length pro >>?
    if b.embeds.length > maxEmbeds pro version then .error .embedsExceedsLimit
    else if allowDeprecated && decide (b.embedsDeprecated.length > 2) then .error .stringEmbedsExceedsLimit
    else if !allowDeprecated && !b.embedsDeprecated.isEmpty then .error .stringEmbedsDeprecated
    else if b.mentions.length > 10 then .error .mentionsExceedsLimit
    else if b.mentions.length ≠ b.positions.length then .error .mentionsMismatch
    else if !b.embeds.isEmpty && !b.embedsDeprecated.isEmpty then .error .embedsAndStringEmbeds
    else if b.text.isEmpty && b.embeds.isEmpty && b.embedsDeprecated.isEmpty && b.mentions.isEmpty then
      .error .castIsEmpty
    else validateAll validateEmbed b.embeds >>? validateAll validateUrl b.embedsDeprecated >>?
      validateMentions b.text.length none (b.mentions.zip b.positions) >>? validateParent b.parent

/-- `validate_cast_remove_body`, cast 113-118. -/
def validateCastRemove (target : Bytes) : Except VErr Unit :=
  if target.length ≠ 20 then .error .hashIsMissing else .ok ()

/-- `validate_link_type`, link 5-10. -/
def validateLinkType (ty : Bytes) : Except VErr Unit :=
  if ty.isEmpty || decide (ty.length > 8) then .error .invalidLinkType else .ok ()

/-- `validate_link_body`, link 34-46. -/
def validateLink (ty : Bytes) (target : Option Nat) : Except VErr Unit :=
  validateLinkType ty >>? match target with
    | none => .error .targetIsMissing
    | some fid => validateFid fid

/-- `validate_link_compact_state_body`, link 12-26. -/
def validateCompact (ty : Bytes) (targets : List Nat) : Except VErr Unit :=
  validateLinkType ty >>? if targets.isEmpty then .error .targetIsMissing else validateAll validateFid targets

/-- `validate_reaction_body`, reaction 24-31.  `ReactionType::try_from` accepts 0, 1 and 2. -/
def validateReaction (ty : Int) (target : Option WTarget) : Except VErr Unit :=
  if ¬ (ty = 0 ∨ ty = 1 ∨ ty = 2) then .error .invalidReactionType
  else match target with
    | none => .error .targetIsMissing
    | some t => validateTarget t

/-- `validate_bytes_as_string`, message 45-57. -/
def validateBytesString (b : Bytes) (max : Nat) (required : Bool) : Except VErr Unit :=
  if required && b.isEmpty then .error .missingString
  else if b.length > max then .error .stringTooLong else .ok ()

/-- The checks of `validate_frame_action_body` in order, message 66-78. -/
def frameStrings (b : WFrame) : List (Bytes × Nat × Bool) :=
  [(b.url, 1024, true), (b.input, 256, false), (b.state, 4096, false), (b.txId, 256, false), (b.address, 64, false)]

/-- `validate_frame_action_body`, message 59-80. -/
def validateFrame (b : WFrame) : Except VErr Unit :=
  if b.button > 5 then .error .invalidButtonIndex
  else validateAll (fun x => validateBytesString x.1 x.2.1 x.2.2) (frameStrings b) >>? match b.castId with
      | none => .ok ()
      | some c => validateCastId c

/-! ### Names and profile values -/

/-- `str::ends_with`. -/
def endsWith (s suffix : Bytes) : Bool := decide (suffix.length ≤ s.length) && s.drop (s.length - suffix.length) == suffix

/-- `str::split` on one character, as a list of parts. -/
def splitOn (c : UInt8) : Bytes → List Bytes
  | [] => [[]]
  | x :: s => match splitOn c s with
    | [] => [[x]]
    | p :: ps => if x == c then [] :: p :: ps else (x :: p) :: ps

/-- `.eth`. -/
def dotEth : Bytes := [46, 101, 116, 104]

/-- `.base.eth`. -/
def dotBaseEth : Bytes := [46, 98, 97, 115, 101, 46, 101, 116, 104]

/-- `validate_fname`, message 401-422. -/
def validateFname (s : Bytes) : Except VErr Unit :=
  if s.isEmpty then .error .fnameIsMissing
  else if s.length > 16 then .error .nameTooLong
  else if !fnameRe.isMatch s then .error .nameDoesntMatch else .ok ()

/-- `validate_ens_name`, message 424-457. -/
def validateEnsName (s : Bytes) : Except VErr Unit :=
  if !endsWith s dotEth then .error .nameDoesntEndWith
  else
    let parts := splitOn 46 s
    if parts.length > 2 then .error .unsupportedSubdomain
    else if parts.length ≠ 2 || (parts.headD []).isEmpty then .error .nameNotValid
    else if s.length > 20 then .error .nameTooLong
    else if !fnameRe.isMatch (parts.headD []) then .error .nameDoesntMatch else .ok ()

/-- `validate_base_name`, message 459-488. -/
def validateBaseName (s : Bytes) : Except VErr Unit :=
  if !endsWith s dotBaseEth then .error .nameDoesntEndWith
  else
    let parts := splitOn 46 s
    if parts.length ≠ 3 || (parts.headD []).isEmpty then .error .invalidData
    else if s.length > 25 then .error .nameTooLong
    else if !fnameRe.isMatch (parts.headD []) then .error .nameDoesntMatch else .ok ()

/-- `validate_twitter_username`, message 490-506. -/
def validateTwitter (s : Bytes) : Except VErr Unit :=
  if s.length > 15 then .error .nameTooLong else if !twitterRe.isMatch s then .error .nameDoesntMatch else .ok ()

/-- `[a-zA-Z\d]` on a character. -/
def githubChar (otherDigit : Nat → Bool) (c : Nat) : Bool :=
  decide ((97 ≤ c ∧ c ≤ 122) ∨ (65 ≤ c ∧ c ≤ 90) ∨ (48 ≤ c ∧ c ≤ 57)) || otherDigit c

/-- `(?:[a-zA-Z\d]|-(?!-)){0,n}$`, message 27. -/
def githubTail (otherDigit : Nat → Bool) : Nat → List Nat → Bool
  | _, [] => true
  | 0, _ :: _ => false
  | n + 1, c :: s => (githubChar otherDigit c || (c == 45 && s.head? != some 45)) && githubTail otherDigit n s

/-- `GITHUB_USERNAME_REGEX`, `^[a-zA-Z\d](?:[a-zA-Z\d]|-(?!-)){0,38}$`: message 27. -/
def githubMatch (otherDigit : Nat → Bool) : List Nat → Bool
  | [] => false
  | c :: s => githubChar otherDigit c && githubTail otherDigit 38 s

/-- `validate_github_username`, message 508-524. -/
def validateGithub (env : VEnv) (s : Bytes) : Except VErr Unit :=
  if s.length > 38 then .error .nameTooLong
  else match env.chars s with
    | none => .error .invalidData
    | some cs => if !githubMatch env.otherDigit cs then .error .nameDoesntMatch else .ok ()

/-- `geo:`. -/
def geoPrefix : Bytes := [103, 101, 111, 58]

/-- The value in hundredths of a degree without its sign.  `parse::<f64>` of at most three digits, a point and two digits
is compared with 90 and 180, which are exact, so that the comparison is that of the decimal numbers. -/
def hundredths : Bytes → Nat → Nat
  | [], n => n
  | c :: s, n => if isDigit c then hundredths s (n * 10 + (c.toNat - 48)) else hundredths s n

/-- `GEO_RE.captures`, message 34-35 and 641-657: the two groups.  `,` occurs in neither. -/
def geoParts (s : Bytes) : Option (Bytes × Bytes) :=
  if s.take 4 ≠ geoPrefix then none
  else match splitOn 44 (s.drop 4) with
    | [lat, lon] => if (degreesRe 2).isMatch lat && (degreesRe 3).isMatch lon then some (lat, lon) else none
    | _ => none

/-- `validate_user_location`, message 636-662, with `validate_latitude` and `validate_longitude`, 526-550.  Digits of other
scripts are refused as in the code, but always with the first error. -/
def validateLocation (s : Bytes) : Except VErr Unit :=
  if s.isEmpty then .ok ()
  else match geoParts s with
    | none => .error .invalidLocation
    | some (lat, lon) =>
      if hundredths lat 0 > 9000 then .error .latitudeOutOfRange
      else if hundredths lon 0 > 18000 then .error .longitudeOutOfRange else .ok ()

/-- `validate_eth_address`, verification 172-182, and `validate_sol_address`, 196-206. -/
def validateAddress (a : Bytes) (len : Nat) : Except VErr Unit :=
  if a.isEmpty then .error .addressMissing else if a.length ≠ len then .error .invalidAddressLength else .ok ()

/-- `validate_eth_block_hash`, verification 184-194, and `validate_sol_block_hash`, 208-218. -/
def validateBlockHash (h : Bytes) : Except VErr Unit :=
  if h.isEmpty then .error .blockHashMissing else if h.length ≠ 32 then .error .invalidBlockHashLength else .ok ()

/-- `validate_user_data_primary_address_ethereum`, message 552-571. -/
def validatePrimaryEth (env : VEnv) (s : Bytes) : Except VErr Unit :=
  if s.isEmpty then .ok ()
  else if s.take 2 ≠ hexPrefix ∨ s.length ≠ 42 then .error .invalidAddressLength
  else match parseAddress s with
    | none => .error .invalidData
    | some a => validateAddress a 20 >>? if checksum env.keccak a ≠ s then .error .invalidData else .ok ()

/-- `validate_user_data_primary_address_solana`, message 573-586. -/
def validatePrimarySol (env : VEnv) (s : Bytes) : Except VErr Unit :=
  if s.isEmpty then .ok ()
  else match env.solAddress s with
    | none => .error .invalidData
    | some a => validateAddress a 32

/-- The part of an asset after its first colon, message 626-627. -/
def afterColon : Bytes → Option Bytes
  | [] => none
  | c :: s => if c == 58 then some s else afterColon s

/-- `asset_reference.len() > 128`, message 625-631. -/
def referenceTooLong (parts : List Bytes) : Bool :=
  match parts with
  | _ :: asset :: _ => match afterColon asset with
    | none => false
    | some r => decide (r.length > 128)
  | _ => false

/-- `validate_caip19_format`, message 588-634. -/
def validateCaip19 (s : Bytes) : Except VErr Unit :=
  if s.isEmpty then .ok ()
  else if s.length > 256 then .error .caip19TooLong
  else if !caip19Re.isMatch s then .error .invalidData
  else
    let parts := splitOn 47 s
    if parts.length < 2 || parts.length > 3 then .error .invalidData
    else if referenceTooLong parts then .error .invalidData else .ok ()

/-- A value of at most `max` bytes. -/
def validateLength (s : Bytes) (max : Nat) : Except VErr Unit := if s.length > max then .error .valueTooLong else .ok ()

/-- The username arm, message 708-719. -/
def validateUsername (s : Bytes) : Except VErr Unit :=
  if s.isEmpty then .ok ()
  else if endsWith s dotBaseEth then validateBaseName s
  else if endsWith s dotEth then validateEnsName s
  else validateFname s

/-- `UserDataType`, message.proto:110-125, by wire number. -/
inductive UdType where
  | none | pfp | display | bio | url | username | location | twitter | github | banner | primaryEth | primarySol
  | profileToken | liveAt
  deriving DecidableEq, Repr

/-- `UserDataType::try_from`. -/
def UdType.ofInt (n : Int) : Option UdType :=
  if n = 0 then some .none else if n = 1 then some .pfp else if n = 2 then some .display else if n = 3 then some .bio
  else if n = 5 then some .url else if n = 6 then some .username else if n = 7 then some .location
  else if n = 8 then some .twitter else if n = 9 then some .github else if n = 10 then some .banner
  else if n = 11 then some .primaryEth else if n = 12 then some .primarySol else if n = 13 then some .profileToken
  else if n = 14 then some .liveAt else Option.none

/-- A check that needs a protocol feature. -/
def withFeature (version : EngineVersion) (f : ProtocolFeature) (r : Except VErr Unit) : Except VErr Unit :=
  if version.isEnabled f then r else .error .unsupportedFeature

/-- `validate_user_data_add_body`, message 664-751. -/
def validateUserData (env : VEnv) (ty : Int) (s : Bytes) (pro : Bool) (version : EngineVersion) : Except VErr Unit :=
  match UdType.ofInt ty with
  | none => .error .invalidData
  | some .pfp => validateLength s 256
  | some .banner => if !pro then .error .proUserFeature else validateLength s 256
  | some .display => validateLength s 32
  | some .bio => validateLength s 256
  | some .url => validateLength s 256
  | some .liveAt => withFeature version .liveAt (validateLength s 256)
  | some .username => validateUsername s
  | some .location => validateLocation s
  | some .twitter => validateTwitter s
  | some .github => validateGithub env s
  | some .primaryEth => withFeature version .primaryAddresses (validatePrimaryEth env s)
  | some .primarySol => withFeature version .primaryAddresses (validatePrimarySol env s)
  | some .profileToken => withFeature version .userProfileToken (validateCaip19 s)
  | some .none => .error .invalidUserDataType

/-- The username proof arm, message 175-198: 2 is an ENS name, 3 a base name. -/
def validateProofName (env : VEnv) (ty : Int) (name : Bytes) (version : EngineVersion) : Except VErr Unit :=
  if ty = 2 then
    if version.isEnabled .ensValidation then
      match env.chars name with
      | none => .error .invalidData
      | some _ => validateEnsName name
    else .ok ()
  else if ty = 3 then
    if version.isEnabled .basenames then
      match env.chars name with
      | none => .error .invalidData
      | some _ => validateBaseName name
    else .error .unsupportedFeature
  else .error .invalidUsernameType

/-! ### Verifications and name transfers -/

/-- `validate_verification_eoa_signature`, verification 220-269.  The claim is built from parts of checked length, so that
making its hash does not fail. -/
def validateEoa (env : VEnv) (b : WVerification) (fid : Nat) (network : Int) : Except VErr Unit :=
  if b.claimSignature.length ≠ 65 then .error .invalidClaimSignature
  else match env.recoverClaim fid b.address network b.blockHash b.claimSignature with
    | none => .error .invalidClaimSignature
    | some a => if a ≠ b.address then .error .invalidClaimSignature else .ok ()

/-- `validate_add_eth_address`, verification 466-487, with `validate_verification_add_eth_address_signature`, 383-415.
The chain id is cut to 16 bits.  The claim is made again from lengths already checked. -/
def validateAddEth (env : VEnv) (b : WVerification) (fid : Nat) (network : Int) : Except VErr Unit :=
  validateAddress b.address 20 >>? validateBlockHash b.blockHash >>?
      if b.claimSignature.length > 2048 then .error .invalidClaimSignatureLength
      else if b.chainId % 65536 ∉ [0, 1, 5, 10, 420] then .error .invalidData
      else if b.verificationType = 0 then validateEoa env b fid network
      else if b.verificationType = 1 then .ok () else .error .invalidData

/-- `validate_add_sol_address`, verification 489-510, with `validate_verification_add_sol_address_signature`,
427-464. -/
def validateAddSol (env : VEnv) (b : WVerification) (fid : Nat) (network : Int) : Except VErr Unit :=
  validateAddress b.address 32 >>? validateBlockHash b.blockHash >>?
      if b.claimSignature.length ≠ 64 then .error .invalidClaimSignatureLength
      else if !env.validKey b.address then .error .invalidData
      else if !env.verify b.address (env.solClaim fid b.address network b.blockHash) b.claimSignature then
        .error .invalidSignature
      else .ok ()

/-- `validate_add_address`, verification 512-522. -/
def validateVerification (env : VEnv) (b : WVerification) (fid : Nat) (network : Int) : Except VErr Unit :=
  if b.protocol = 0 then validateAddEth env b fid network
  else if b.protocol = 1 then validateAddSol env b fid network else .error .invalidData

/-- `validate_remove_address`, verification 524-554. -/
def validateVerificationRemove (address : Bytes) (protocol : Int) : Except VErr Unit :=
  if protocol = 0 then validateAddress address 20
  else if protocol = 1 then validateAddress address 32 else .error .invalidData

/-- `FnameTransfer`, blocks.proto:200-204, with its `UserNameProof`, username_proof.proto:10-18. -/
structure WTransfer where
  fromFid : Nat
  name : Bytes
  ts : Nat
  owner : Bytes
  signature : Bytes
  fid : Nat
  ty : Int
  deriving DecidableEq, Repr

/-- `validate_fname_transfer`, verification 110-170; `signer` is the configured signer or the fixed one.  The absence of a
proof is handled by the caller (engine.rs:1317-1326). -/
def validateTransfer (env : VEnv) (signer : Bytes) (network : Network) (t : WTransfer) : Except VErr Unit :=
  match env.chars t.name with
  | none => .error .invalidUsername
  | some _ =>
    if !env.transferHashable t.name t.ts t.owner then .error .invalidHash
    else if network = .devnet then .ok ()
    else if t.signature.length ≠ 65 then .error .invalidSignature
    else match env.recoverTransfer t.name t.ts t.owner t.signature with
      | none => .error .invalidSignature
      | some a => if a ≠ signer then .error .invalidSignature else .ok ()

/-! ### Storage and channels -/

/-- `validate_lend_storage_body`, message 342-354. -/
def validateLend (units : Nat) (unitType : Int) : Except VErr Unit :=
  if ¬ (unitType = 0 ∨ unitType = 1 ∨ unitType = 2) then .error .invalidStorageUnitType
  else if units > 5000 then .error .exceededMaxStorageUnits else .ok ()

/-- `validate_channel_id`, message 276-281, before `rest`. -/
def withChannel (channel : Bytes) (rest : Bool) : Except VErr Unit :=
  if channel.length ≠ 32 then .error .invalidChannel else if rest then .ok () else .error .invalidChannel

/-- `validate_channel_update_body`, message 283-298: casting modes are 0 to 3, membership modes 0 to 2. -/
def validateChannelUpdate (channel : Bytes) (casting membership : Option Int) : Except VErr Unit :=
  withChannel channel ((match casting with | none => true | some m => decide (0 ≤ m ∧ m ≤ 3)) &&
    (match membership with | none => true | some m => decide (0 ≤ m ∧ m ≤ 2)))

/-- `validate_channel_member_body`, message 300-313: actions are 1 to 6. -/
def validateChannelMember (channel : Bytes) (fid : Nat) (action : Int) : Except VErr Unit :=
  withChannel channel (decide (fid ≠ 0 ∧ fid < 2 ^ 32) && decide (1 ≤ action ∧ action ≤ 6))

/-- `validate_channel_pin_body`, message 315-323. -/
def validateChannelPin (channel cast : Bytes) : Except VErr Unit :=
  withChannel channel (cast.isEmpty || cast.length == 20)

/-- `validate_channel_moderate_body`, message 325-340: actions are 1 and 2. -/
def validateChannelModerate (channel cast : Bytes) (action : Int) : Except VErr Unit :=
  withChannel channel (cast.length == 20 && decide (1 ≤ action ∧ action ≤ 2))

/-! ### The whole message -/

/-- `EMBEDS_V1_CUTOFF`, message 24. -/
def embedsCutoff : Nat := 73612800

/-- `block_timestamp.decr_by(60 * 10).to_u64() as u32`, message 229: the subtraction of `u64`s wraps in a release build. -/
def lendFloor (now : Nat) : Nat := (now + 2 ^ 64 - 600) % 2 ^ 64 % 2 ^ 32

/-- A channel body, message 240-265. -/
def channelGate (version : EngineVersion) (r : Except VErr Unit) : Except VErr Unit :=
  if version.isEnabled .channelMessages then r else .error .invalidMessageType

/-- A check of key bodies; which of its errors is returned is not modelled. -/
def keyBody (ok : Bool) : Except VErr Unit := if ok then .ok () else .error .invalidKey

/-- `match &message_data.body`, message 171-267. -/
def validateContent (env : VEnv) (pro : Bool) (now : Nat) (version : EngineVersion) (network : Int) (d : WData) :
    Except VErr Unit :=
  match d.body with
  | none => .ok ()
  | some b => match b with
    | .userData ty v => validateUserData env ty v pro version
    | .usernameProof ty name _ _ _ => validateProofName env ty name version
    | .verificationAdd v => validateVerification env v d.fid network
    | .linkCompactState ty ts => validateCompact ty ts
    | .castAdd c => validateCastAdd c (decide (d.ts < embedsCutoff)) pro version
    | .castRemove t => validateCastRemove t
    | .reaction ty t => validateReaction ty t
    | .link ty t => validateLink ty t
    | .verificationRemove a p => validateVerificationRemove a p
    | .frameAction f => validateFrame f
    | .lendStorage _ units ty => if d.ts < lendFloor now then .error .tooFarInPast else validateLend units ty
    | .keyAdd k => keyBody (validateKeyAddBody k)
    | .keyRemove k => keyBody (validateKeyRemoveBody k)
    | .channelUpdate c m n => channelGate version (validateChannelUpdate c m n)
    | .channelMember c f a => channelGate version (validateChannelMember c f a)
    | .channelPin c h => channelGate version (validateChannelPin c h)
    | .channelModerate c h a => channelGate version (validateChannelModerate c h a)

/-- The data that is validated and the bytes that are hashed, message 105-126. -/
def validatedData (env : VEnv) (m : WMsg) : Except VErr (WData × Bytes) :=
  match m.dataBytes with
  | some b =>
    if b.isEmpty then .error .missingData
    else match env.decode b with
      | none => .error .invalidData
      | some d => .ok (d, b)
  | none => match m.data with
    | none => .error .missingData
    | some d => .ok (d, env.encode d)

/-- `message_data.r#type()`: prost reads unknown numbers as the default. -/
def WData.type (d : WData) : MessageType := (MessageType.ofInt d.ty).getD .none

/-- `max_data_size`, message 128-143. -/
def maxDataSize (version : EngineVersion) (pro : Bool) (ty : MessageType) : Nat :=
  if version.isEnabled .messageLengthCheckFix then
    if ty = .linkCompactState then 65536
    else if pro && decide (ty = .castAdd) then 16384
    else if decide (ty = .usernameProof) && version.isEnabled .increaseUsernameProofSizeLimit then 16384
    else 2048
  else 2048

/-- `FarcasterNetwork` by wire number. -/
def Network.num : Network → Int
  | .none => 0 | .mainnet => 1 | .testnet => 2 | .devnet => 3

/-- The network checks, message 149-160. -/
def validateNetwork (current : Network) (n : Int) : Except VErr Unit :=
  if ¬ (n = 1 ∨ n = 2 ∨ n = 3) then .error .invalidNetwork
  else if current = .mainnet ∧ n ≠ 1 then .error .invalidNetwork else .ok ()

/-- `validate_message_hash`, message 381-399. -/
def validateHash (env : VEnv) (scheme : Int) (bytes hash : Bytes) : Except VErr Unit :=
  if scheme ≠ 1 then .error .invalidHashScheme
  else if bytes.isEmpty then .error .missingData
  else if env.blake3 bytes ≠ hash then .error .invalidHash else .ok ()

/-- `validate_signature`, message 356-379. -/
def validateSignature (env : VEnv) (scheme : Int) (hash sig signer : Bytes) : Except VErr Unit :=
  if scheme ≠ 1 then .error .invalidSignatureScheme
  else if sig.isEmpty then .error .missingSignature
  else if sig.length ≠ 64 then .error .invalidSignature
  else if !env.validKey signer then .error .invalidSigner
  else if !env.verify signer hash sig then .error .invalidSignature else .ok ()

/-- `validate_timestamp`, message 82-96. -/
def validateTimestamp (ts now : Nat) (version : EngineVersion) : Except VErr Unit :=
  if version.isEnabled .futureTimestampValidation && decide (now ≤ ts) && decide (ts - now > 600) then
    .error .tooFarInFuture
  else .ok ()

/-- The checks in the order of message 145-267. -/
def validateChecks (env : VEnv) (current : Network) (pro : Bool) (now : Nat) (version : EngineVersion) (m : WMsg)
    (d : WData) (bytes : Bytes) : Except VErr Unit :=
  if bytes.length > maxDataSize version pro d.type then .error .dataTooLong
  else validateNetwork current d.network >>? validateHash env m.hashScheme bytes m.hash >>?
    validateSignature env m.signatureScheme m.hash m.signature m.signer >>?
    validateTimestamp d.ts now version >>? validateContent env pro now version d.network d

/-- `validate_message`, message 98-270. -/
def validateMessage (env : VEnv) (current : Network) (pro : Bool) (now : Nat) (version : EngineVersion) (m : WMsg) :
    Except VErr Unit :=
  match validatedData env m with
  | .error e => .error e
  | .ok (d, bytes) => validateChecks env current pro now version m d bytes

/-- `message_bytes_decode`, /repo/src/storage/store/account/message.rs:334-342: called on messages that arrive by RPC
(/repo/src/network/server.rs:1477 and 1564) and by gossip (/repo/src/network/gossip.rs:1236). -/
def bytesDecode (env : VEnv) (m : WMsg) : WMsg :=
  match m.dataBytes with
  | some b => if b.isEmpty then m else { m with data := env.decode b }
  | none => m

/-- `message_encode` and `message_decode`, account/message.rs:321-352, one after the other, with protobuf as a faithful
transport: what is read back of a stored message. -/
def storedForm (env : VEnv) (m : WMsg) : WMsg :=
  match m.dataBytes with
  | some b => if b.isEmpty then m else bytesDecode env { m with data := none }
  | none => m

end Verif
