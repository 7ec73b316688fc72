import Verif.Model.Validate
/-!
What a well-formed message is, without reference to the validators.  Strings are bytes: 45 is `-`, 46 is `.`, 47 is `/`,
58 is `:`, 95 is `_`.
-/
namespace Verif

/-- A reference to a cast: a user and a hash of 20 bytes. -/
def GoodCastId (c : WCastId) : Prop := c.fid ≠ 0 ∧ c.hash.length = 20

/-- A URL: between 1 and 256 bytes of any kind. -/
def GoodUrl (u : Bytes) : Prop := 1 ≤ u.length ∧ u.length ≤ 256

/-- A cast or a URL. -/
def GoodTarget : WTarget → Prop
  | .castId c => GoodCastId c
  | .url u => GoodUrl u

/-- A well-formed cast with timestamp `ts`, of a user who is or is not a subscriber, under protocol version `v`. -/
structure GoodCast (b : WCast) (ts : Nat) (pro : Bool) (v : Nat) : Prop where
  /-- The three kinds of cast are told apart by the length of their text. -/
  text : (b.ty = 0 ∧ b.text.length ≤ 320) ∨
    (b.ty = 1 ∧ 320 < b.text.length ∧ b.text.length ≤ 1024) ∨
    (b.ty = 2 ∧ pro = true ∧ 1024 < b.text.length ∧ b.text.length ≤ 10000)
  /-- Two embeds, or four for subscribers and, from version 20 on, for everyone. -/
  embedCount : b.embeds.length ≤ 2 ∨ (b.embeds.length ≤ 4 ∧ (pro = true ∨ 20 ≤ v))
  embedsGood : ∀ e ∈ b.embeds, ∃ t, e = some t ∧ GoodTarget t
  /-- The old form of embeds: at most two URLs, only before the cut-off, and not beside the new form. -/
  oldEmbeds : b.embedsDeprecated ≠ [] →
    ts < 73612800 ∧ b.embedsDeprecated.length ≤ 2 ∧ b.embeds = [] ∧ ∀ u ∈ b.embedsDeprecated, GoodUrl u
  /-- At most ten mentions, of users, each with its position. -/
  mentionCount : b.mentions.length ≤ 10 ∧ b.positions.length = b.mentions.length
  mentionsGood : ∀ fid ∈ b.mentions, fid ≠ 0
  /-- Positions are in the text and in order. -/
  positions : (∀ p ∈ b.positions, p ≤ b.text.length) ∧ b.positions.Pairwise (· ≤ ·)
  /-- There is something in the cast. -/
  content : b.text ≠ [] ∨ b.embeds ≠ [] ∨ b.embedsDeprecated ≠ [] ∨ b.mentions ≠ []
  parent : ∀ t, b.parent = some t → GoodTarget t

/-! ### Names -/

/-- `a`-`z` or `0`-`9`. -/
def Alnum (c : UInt8) : Prop := (97 ≤ c.toNat ∧ c.toNat ≤ 122) ∨ (48 ≤ c.toNat ∧ c.toNat ≤ 57)

/-- `a`-`z`, `A`-`Z` or `0`-`9`. -/
def AnyAlnum (c : UInt8) : Prop := Alnum c ∨ (65 ≤ c.toNat ∧ c.toNat ≤ 90)

/-- A Farcaster name: 1 to 16 lower-case letters, digits and dashes, of which the first is no dash. -/
def IsName (s : Bytes) : Prop :=
  (∃ c rest, s = c :: rest ∧ Alnum c ∧ ∀ x ∈ rest, Alnum x ∨ x = 45) ∧ s.length ≤ 16

/-- `name.eth`. -/
def IsEnsName (s : Bytes) : Prop := ∃ p, IsName p ∧ s = p ++ [46, 101, 116, 104]

/-- `name.base.eth`. -/
def IsBaseName (s : Bytes) : Prop := ∃ p, IsName p ∧ s = p ++ [46, 98, 97, 115, 101, 46, 101, 116, 104]

/-! ### Profile values -/

/-- The number a string of decimal digits stands for. -/
def digitsValue (s : Bytes) : Nat := s.foldl (fun n c => n * 10 + (c.toNat - 48)) 0

/-- A coordinate with two decimals, of absolute value at most `limit`: an optional minus sign, 1 to `most` digits, a point
and two digits. -/
def IsDegrees (most limit : Nat) (s : Bytes) : Prop :=
  ∃ sign whole frac, s = sign ++ whole ++ [46] ++ frac ∧ (sign = [] ∨ sign = [45]) ∧
    1 ≤ whole.length ∧ whole.length ≤ most ∧ frac.length = 2 ∧
    (∀ c ∈ whole ++ frac, 48 ≤ c.toNat ∧ c.toNat ≤ 57) ∧ digitsValue (whole ++ frac) ≤ limit * 100

/-- `geo:latitude,longitude`. -/
def IsLocation (s : Bytes) : Prop :=
  ∃ lat lon, s = [103, 101, 111, 58] ++ lat ++ [44] ++ lon ∧ IsDegrees 2 90 lat ∧ IsDegrees 3 180 lon

/-- A Twitter name, or nothing. -/
def IsTwitterName (s : Bytes) : Prop := s.length ≤ 15 ∧ ∀ c ∈ s, Alnum c ∨ c = 95

/-- A GitHub name as characters: letters, digits of any script and single dashes, not starting with a dash. -/
def IsGithubName (otherDigit : Nat → Bool) (cs : List Nat) : Prop :=
  let letter c := (97 ≤ c ∧ c ≤ 122) ∨ (65 ≤ c ∧ c ≤ 90) ∨ (48 ≤ c ∧ c ≤ 57) ∨ otherDigit c = true
  (∃ c rest, cs = c :: rest ∧ letter c ∧ (∀ x ∈ rest, letter x ∨ x = 45) ∧
    (∀ a b, rest = a ++ 45 :: 45 :: b → False)) ∧ cs.length ≤ 39

/-- An asset, `chain:reference/namespace:reference` with an optional `/token`. -/
def IsAsset (s : Bytes) : Prop :=
  ∃ chain ref ns asset token, s = chain ++ [58] ++ ref ++ [47] ++ ns ++ [58] ++ asset ++ token ∧
    (chain ≠ [] ∧ ∀ c ∈ chain, Alnum c) ∧ (ref ≠ [] ∧ ∀ c ∈ ref, AnyAlnum c) ∧
    (3 ≤ ns.length ∧ ns.length ≤ 8 ∧ ∀ c ∈ ns, Alnum c ∨ c = 45) ∧
    (1 ≤ asset.length ∧ asset.length ≤ 128 ∧ ∀ c ∈ asset, AnyAlnum c ∨ c = 45 ∨ c = 46 ∨ c = 37) ∧
    (token = [] ∨ ∃ t, token = 47 :: t ∧ t ≠ [] ∧ ∀ c ∈ t, AnyAlnum c)

/-- A well-formed profile entry, by the wire number of its kind. -/
def GoodProfile (env : VEnv) (ty : Int) (s : Bytes) (pro : Bool) (v : Nat) : Prop :=
  (ty = 1 ∧ s.length ≤ 256) ∨                                         -- picture
  (ty = 2 ∧ s.length ≤ 32) ∨                                          -- display name
  (ty = 3 ∧ s.length ≤ 256) ∨                                         -- bio
  (ty = 5 ∧ s.length ≤ 256) ∨                                         -- URL
  (ty = 6 ∧ (s = [] ∨ IsName s ∨ IsEnsName s ∨ IsBaseName s)) ∨       -- username
  (ty = 7 ∧ (s = [] ∨ IsLocation s)) ∨                                -- location
  (ty = 8 ∧ IsTwitterName s) ∨                                        -- Twitter
  (ty = 9 ∧ s.length ≤ 38 ∧ ∃ cs, env.chars s = some cs ∧ IsGithubName env.otherDigit cs) ∨ -- GitHub
  (ty = 10 ∧ pro = true ∧ s.length ≤ 256) ∨                           -- banner
  (ty = 11 ∧ 5 ≤ v ∧ (s = [] ∨ ∃ a : Bytes, a.length = 20 ∧ s = checksum env.keccak a)) ∨ -- Ethereum address
  (ty = 12 ∧ 5 ≤ v ∧ (s = [] ∨ ∃ a : Bytes, env.solAddress s = some a ∧ a.length = 32)) ∨ -- Solana address
  (ty = 13 ∧ 10 ≤ v ∧ (s = [] ∨ s.length ≤ 256 ∧ IsAsset s)) ∨        -- profile token
  (ty = 14 ∧ 17 ≤ v ∧ s.length ≤ 256)                                 -- live at

/-- A well-formed username proof, by the wire number of the kind of name.  Before version 5 ENS names are not looked at
and base names are refused. -/
def GoodProof (env : VEnv) (ty : Int) (name : Bytes) (v : Nat) : Prop :=
  (ty = 2 ∧ (5 ≤ v → (env.chars name).isSome ∧ IsEnsName name)) ∨
  (ty = 3 ∧ 5 ≤ v ∧ (env.chars name).isSome ∧ IsBaseName name)

/-! ### Address verifications -/

/-- The owner of an Ethereum address, or of a Solana address, has signed that it belongs to the user. -/
def ClaimSigned (env : VEnv) (b : WVerification) (fid : Nat) (network : Int) : Prop :=
  (b.protocol = 0 ∧ b.claimSignature.length = 65 ∧
    env.recoverClaim fid b.address network b.blockHash b.claimSignature = some b.address) ∨
  (b.protocol = 1 ∧ b.claimSignature.length = 64 ∧ env.validKey b.address = true ∧
    env.verify b.address (env.solClaim fid b.address network b.blockHash) b.claimSignature = true)

/-- The sizes of a verification: an address of its chain and a block hash. -/
def ClaimSized (b : WVerification) : Prop :=
  ((b.protocol = 0 ∧ b.address.length = 20) ∨ (b.protocol = 1 ∧ b.address.length = 32)) ∧ b.blockHash.length = 32

/-- The chain id of an Ethereum claim, of which only the lowest 16 bits are looked at. -/
def ChainAllowed (b : WVerification) : Prop := b.chainId % 2 ^ 16 ∈ [0, 1, 5, 10, 420]

/-- A well-formed verification.  For contracts (kind 1) no signature is looked at. -/
def GoodVerification (env : VEnv) (b : WVerification) (fid : Nat) (network : Int) : Prop :=
  ClaimSized b ∧
  ((b.protocol = 1 ∧ ClaimSigned env b fid network) ∨
   (b.protocol = 0 ∧ ChainAllowed b ∧
    ((b.verificationType = 0 ∧ ClaimSigned env b fid network) ∨
     (b.verificationType = 1 ∧ b.claimSignature.length ≤ 2048))))

/-! ### Other contents -/

/-- The contents of a message other than casts, profile entries, name proofs and verifications.  `now` is the time of the
block and `ts` that of the message. -/
def GoodOther (v now ts : Nat) : WBody → Prop
  | .castRemove target => target.length = 20
  | .reaction ty target => (0 ≤ ty ∧ ty ≤ 2) ∧ ∃ t, target = some t ∧ GoodTarget t
  | .link ty target => (1 ≤ ty.length ∧ ty.length ≤ 8) ∧ ∃ fid, target = some fid ∧ fid ≠ 0
  | .linkCompactState ty targets => (1 ≤ ty.length ∧ ty.length ≤ 8) ∧ targets ≠ [] ∧ ∀ fid ∈ targets, fid ≠ 0
  | .verificationRemove address protocol =>
    (protocol = 0 ∧ address.length = 20) ∨ (protocol = 1 ∧ address.length = 32)
  | .frameAction f => f.button ≤ 5 ∧ (1 ≤ f.url.length ∧ f.url.length ≤ 1024) ∧ f.input.length ≤ 256 ∧
    f.state.length ≤ 4096 ∧ f.txId.length ≤ 256 ∧ f.address.length ≤ 64 ∧ ∀ c, f.castId = some c → GoodCastId c
  | .lendStorage _ units unitType => now ≤ ts + 600 ∧ (0 ≤ unitType ∧ unitType ≤ 2) ∧ units ≤ 5000
  | .keyAdd k => k.key.length = 32 ∧ k.keyType = 1 ∧ k.deadline ≠ 0 ∧
    (k.ttl ≠ 0 ∧ k.ttl.toNat ≤ 90 * 24 * 60 * 60) ∧ k.metadataType = 1 ∧ k.metadata ≠ [] ∧
    (1 ≤ k.scopes.length ∧ k.scopes.length ≤ 16) ∧
    ∀ s ∈ k.scopes, (1 ≤ s ∧ s ≤ 8) ∨ (11 ≤ s ∧ s ≤ 15)
  | .keyRemove k => k.key.length = 32 ∧ (k.signatureType = 1 ∨ k.signatureType = 2) ∧ k.deadline ≠ 0
  | .channelUpdate channel casting membership => 21 ≤ v ∧ channel.length = 32 ∧
    (∀ m, casting = some m → 0 ≤ m ∧ m ≤ 3) ∧ (∀ m, membership = some m → 0 ≤ m ∧ m ≤ 2)
  | .channelMember channel fid action => 21 ≤ v ∧ channel.length = 32 ∧ (1 ≤ fid ∧ fid < 2 ^ 32) ∧
    (1 ≤ action ∧ action ≤ 6)
  | .channelPin channel cast => 21 ≤ v ∧ channel.length = 32 ∧ (cast.length = 0 ∨ cast.length = 20)
  | .channelModerate channel cast action => 21 ≤ v ∧ channel.length = 32 ∧ cast.length = 20 ∧
    (action = 1 ∨ action = 2)
  | _ => True

/-! ### The envelope -/

/-- What a message says and the bytes that stand for it: `dataBytes` if present, or else the encoding of `data`. -/
def Contents (env : VEnv) (m : WMsg) (d : WData) (bytes : Bytes) : Prop :=
  (m.dataBytes = some bytes ∧ env.decode bytes = some d) ∨
  (m.dataBytes = none ∧ m.data = some d ∧ bytes = env.encode d)

/-- The hash is that of the bytes, and the signer signed the hash. -/
structure Sealed (env : VEnv) (m : WMsg) (bytes : Bytes) : Prop where
  nonempty : bytes ≠ []
  hashScheme : m.hashScheme = 1
  hash : m.hash = env.blake3 bytes
  signatureScheme : m.signatureScheme = 1
  signatureLength : m.signature.length = 64
  key : env.validKey m.signer = true
  signature : env.verify m.signer m.hash m.signature = true

/-- How many bytes a message may have, by the wire number of its type. -/
def sizeLimit (v : Nat) (pro : Bool) (ty : Int) : Nat :=
  if 5 ≤ v ∧ ty = 14 then 65536                    -- a compacted list of links
  else if 5 ≤ v ∧ ty = 1 ∧ pro = true then 16384   -- a cast of a subscriber
  else if 15 ≤ v ∧ ty = 12 then 16384              -- a name proof
  else 2048

/-- The message is for this network; a node of the main network takes only messages for it. -/
def ForNetwork (current : Network) (n : Int) : Prop :=
  (1 ≤ n ∧ n ≤ 3) ∧ (current = .mainnet → n = 1)

/-- Everything about a message except what kind of content it has: `d` is what it says, in `bytes`. -/
structure GoodEnvelope (env : VEnv) (current : Network) (pro : Bool) (now v : Nat) (m : WMsg) (d : WData)
    (bytes : Bytes) : Prop where
  contents : Contents env m d bytes
  size : bytes.length ≤ sizeLimit v pro d.ty
  network : ForNetwork current d.network
  sealed : Sealed env m bytes
  /-- From version 6 on a message is at most ten minutes ahead of the block. -/
  time : 6 ≤ v → d.ts ≤ now + 600

/-- Well-formed content of any kind; nothing is asked of a message without a body. -/
def GoodBody (env : VEnv) (pro : Bool) (now v : Nat) (d : WData) : Prop :=
  match d.body with
  | none => True
  | some (.castAdd b) => GoodCast b d.ts pro v
  | some (.userData ty s) => GoodProfile env ty s pro v
  | some (.usernameProof ty name _ _ _) => GoodProof env ty name v
  | some (.verificationAdd b) => GoodVerification env b d.fid d.network
  | some b => GoodOther v now d.ts b

end Verif
