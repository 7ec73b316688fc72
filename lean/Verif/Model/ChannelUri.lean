import Verif.Model.Text
import Verif.Model.Validate
import Verif.Model.Version
/-!
The names of channels, /repo/src/core/channel_uri.rs.  Texts are byte strings; all characters compared are ASCII, so that
cutting the UTF-8 bytes is cutting the characters.
-/
namespace Verif

/-- `ChannelUriError`, channel_uri.rs:63-79. -/
inductive UriErr where
  | uriTooLong | malformedAssetId | unsupportedChainNamespace | unsupportedAssetNamespace | invalidChainReference
  | invalidContractAddress | invalidTokenId
  deriving DecidableEq, Repr

/-- `ChannelRegistrar`, channel_uri.rs:83-87. -/
structure Registrar where
  chain : Nat
  address : Bytes
  deriving DecidableEq, Repr

/-- `ChannelAssetId`, channel_uri.rs:156-163. -/
structure AssetId where
  chain : Nat
  contract : Bytes
  channel : Bytes
  deriving DecidableEq, Repr

/-- `eip155:`, channel_uri.rs:48 with the colon of 188. -/
def eip155 : Bytes := [101, 105, 112, 49, 53, 53, 58]

/-- `erc721:`, channel_uri.rs:50 with the colon of 201. -/
def erc721 : Bytes := [101, 114, 99, 55, 50, 49, 58]

/-- `str::strip_prefix`. -/
def stripPrefix (p s : Bytes) : Option Bytes := if s.take p.length = p then some (s.drop p.length) else none

/-- The number written by decimal digits, `none` at any other character. -/
def readDigits : Bytes → Nat → Option Nat
  | [], n => some n
  | c :: s, n => if isDigit c then readDigits s (n * 10 + (c.toNat - 48)) else none

/-- A leading plus sign is dropped, as `str::parse` does for integers. -/
def dropPlus : Bytes → Bytes
  | [] => []
  | c :: s => if c == 43 then s else c :: s

/-- `str::parse::<u64>`: an optional plus sign, at least one digit, no overflow. -/
def parseU64 (s : Bytes) : Option Nat :=
  if (dropPlus s).isEmpty then none
  else match readDigits (dropPlus s) 0 with
    | none => none
    | some n => if n < 2 ^ 64 then some n else none

/-- `U256::from_str_radix(s, 10)` of the ruint crate: underscores are skipped, the empty text is zero. -/
def parseU256 (s : Bytes) : Option Nat :=
  match readDigits (s.filter (· != 95)) 0 with
  | none => none
  | some n => if n < 2 ^ 256 then some n else none

/-- `Address::parse_checksummed(s, None)` of alloy-primitives. -/
def parseChecksummed (keccak : Bytes → Bytes) (s : Bytes) : Option Bytes :=
  if s.take 2 ≠ hexPrefix then none
  else match parseAddress s with
    | none => none
    | some a => if checksum keccak a = s then some a else none

/-- The chain, channel_uri.rs:186-197. -/
def parseChain (s : Bytes) : Except UriErr Nat :=
  match stripPrefix eip155 s with
  | none => .error .unsupportedChainNamespace
  | some r => match parseU64 r with
    | none => .error .invalidChainReference
    | some n => if decimal n ≠ r then .error .invalidChainReference else .ok n

/-- The contract, channel_uri.rs:199-206. -/
def parseContract (keccak : Bytes → Bytes) (s : Bytes) : Except UriErr Bytes :=
  match stripPrefix erc721 s with
  | none => .error .unsupportedAssetNamespace
  | some r => match parseChecksummed keccak r with
    | none => .error .invalidContractAddress
    | some a => .ok a

/-- The token, channel_uri.rs:208-222. -/
def parseToken (s : Bytes) : Except UriErr Bytes :=
  if s.length > 78 then .error .invalidTokenId
  else match parseU256 s with
    | none => .error .invalidTokenId
    | some n => if decimal256 n ≠ s then .error .invalidTokenId else .ok (be 32 n)

/-- `ChannelAssetId::parse`, channel_uri.rs:168-224. -/
def AssetId.parse (keccak : Bytes → Bytes) (uri : Bytes) : Except UriErr AssetId :=
  if uri.length > 256 then .error .uriTooLong
  else match splitOn 47 uri with
    | [chain, asset, token] => match parseChain chain with
      | .error e => .error e
      | .ok n => match parseContract keccak asset with
        | .error e => .error e
        | .ok a => match parseToken token with
          | .error e => .error e
          | .ok c => .ok ⟨n, a, c⟩
    | _ => .error .malformedAssetId

/-- `ChannelAssetId::canonical_string`, channel_uri.rs:226-233. -/
def AssetId.canonical (keccak : Bytes → Bytes) (a : AssetId) : Bytes :=
  eip155 ++ decimal a.chain ++ 47 :: (erc721 ++ checksum keccak a.contract ++ 47 :: decimal256 (fromBe a.channel))

/-- `ChannelAssetId::for_channel`, channel_uri.rs:236-242. -/
def AssetId.forChannel (r : Registrar) (c : Bytes) : AssetId := ⟨r.chain, r.address, c⟩

/-- `ChannelAssetId::is_in`, channel_uri.rs:245-247. -/
def AssetId.isIn (a : AssetId) (r : Registrar) : Bool := a.chain == r.chain && a.contract == r.address

/-- `channel_id_for_follow_target`, channel_uri.rs:256-262. -/
def followTarget (keccak : Bytes → Bytes) (r : Registrar) (url : Bytes) : Option Bytes :=
  match AssetId.parse keccak url with
  | .error _ => none
  | .ok a => if a.isIn r then some a.channel else none

/-- `SEPOLIA_CHAIN_ID` and `SEPOLIA_CHANNEL_REGISTRAR`, channel_uri.rs:92 and 105. -/
def sepoliaRegistrar : Registrar :=
  ⟨11155111, [0x7d, 0xd8, 0x0c, 0x66, 0x1d, 0xed, 0x9b, 0xfc, 0x8d, 0x44, 0x40, 0x22, 0x4a, 0x0b, 0x39, 0xb3, 0x45, 0xa9,
    0x1b, 0xe4]⟩

/-- `channel_registrar_for_network`, channel_uri.rs:128-150. -/
def registrarOf : Network → Option Registrar
  | .mainnet => none
  | .none => none
  | _ => some sepoliaRegistrar

/-- The channel that a like of a URL follows on a network: `self.registrar.as_ref()?` and
`channel_id_for_follow_target(url, registrar)`, /repo/src/storage/store/account/reaction_store.rs:250-262, where the
registrar is that of the network, /repo/src/storage/store/stores.rs:301. -/
def channelOfUrl (keccak : Bytes → Bytes) (network : Network) (url : Bytes) : Option Bytes :=
  match registrarOf network with
  | none => none
  | some r => followTarget keccak r url

end Verif
