/-!
Engine versions and protocol features.  Models /repo/src/version/version.rs.
-/
namespace Verif

/-- `EngineVersion`, /repo/src/version/version.rs:8-32. -/
inductive EngineVersion where
  | v0 | v1 | v2 | v3 | v4 | v5 | v6 | v7 | v8 | v9 | v10 | v11 | v12 | v13 | v14 | v15 | v16 | v17 | v18 | v19 | v20 | v21
  deriving DecidableEq, Repr

/-- The discriminants of `EngineVersion`, which define its order: version.rs:8-32. -/
def EngineVersion.num : EngineVersion → Nat
  | .v0 => 0
  | .v1 => 1
  | .v2 => 2
  | .v3 => 3
  | .v4 => 4
  | .v5 => 5
  | .v6 => 6
  | .v7 => 7
  | .v8 => 8
  | .v9 => 9
  | .v10 => 10
  | .v11 => 11
  | .v12 => 12
  | .v13 => 13
  | .v14 => 14
  | .v15 => 15
  | .v16 => 16
  | .v17 => 17
  | .v18 => 18
  | .v19 => 19
  | .v20 => 20
  | .v21 => 21

/-- `ProtocolFeature`, version.rs:34-64. -/
inductive ProtocolFeature where
  | signerRevokeBug | farcasterPro | basenames | ensValidation | messageLengthCheckFix
  | primaryAddresses | usernameShardRoutingFix | futureTimestampValidation
  | dependentMessagesInBulkSubmit | decoupleShardZeroBlockProduction | writeDataToShardZero
  | readDataFromShardZero | userProfileToken | storageLending | eventIdBugFix
  | storageLendingLimitFix | stopRevokingExistingMessages | increaseUsernameProofSizeLimit
  | gaslessSigners | liveAt | storageExpiryExtension2026 | blockLinks | channelRegistrations
  | sortedBlockEngineEvents | channelOwnershipEvents | channelMessages | verificationsOnShardZero
  | channelFollows | increaseEmbedLimitForAllUsers
  deriving DecidableEq, Repr

/-- `FarcasterNetwork`, /repo/proto/definitions/message.proto:96-101. -/
inductive Network where
  | none | mainnet | testnet | devnet
  deriving DecidableEq, Repr

/-- `VersionSchedule`, version.rs:66-69. -/
structure VersionSchedule where
  activeAt : Nat
  version : EngineVersion
  deriving DecidableEq, Repr

/-- `ENGINE_VERSION_SCHEDULE_MAINNET`, version.rs:71-157. -/
def scheduleMainnet : List VersionSchedule :=
  [⟨0, .v0⟩,
   ⟨1747333800, .v1⟩,
   ⟨1747352400, .v2⟩,
   ⟨1747356000, .v3⟩,
   ⟨1747417200, .v4⟩,
   ⟨1750093200, .v5⟩,
   ⟨1752685200, .v6⟩,
   ⟨1756141200, .v7⟩,
   ⟨1756918800, .v8⟩,
   ⟨1757523600, .v9⟩,
   ⟨1758733200, .v10⟩,
   ⟨1759942800, .v11⟩,
   ⟨1759942800, .v12⟩,
   ⟨1759942800, .v13⟩,
   ⟨1761757200, .v14⟩,
   ⟨1765386000, .v15⟩,
   ⟨1778173200, .v16⟩,
   ⟨1780592400, .v17⟩,
   ⟨1782147600, .v18⟩,
   ⟨1785160800, .v19⟩,
   ⟨1786640400, .v20⟩]

/-- `ENGINE_VERSION_SCHEDULE_TESTNET`, version.rs:159-229. -/
def scheduleTestnet : List VersionSchedule :=
  [⟨0, .v0⟩,
   ⟨1748970000, .v5⟩,
   ⟨1752099060, .v6⟩,
   ⟨1755291600, .v7⟩,
   ⟨1755709200, .v8⟩,
   ⟨1756918800, .v9⟩,
   ⟨1757523600, .v10⟩,
   ⟨1758733200, .v11⟩,
   ⟨1758763200, .v12⟩,
   ⟨1758906000, .v13⟩,
   ⟨1761152400, .v14⟩,
   ⟨1764783794, .v15⟩,
   ⟨1777406400, .v16⟩,
   ⟨1779382800, .v17⟩,
   ⟨1781283600, .v18⟩,
   ⟨1784124000, .v19⟩,
   ⟨1786035600, .v20⟩]

/-- `ENGINE_VERSION_SCHEDULE_DEVNET`, version.rs:231-235. -/
def scheduleDevnet : List VersionSchedule := [⟨0, .v21⟩]

/-- The schedule choice in `version_for`, version.rs:239-243. -/
def scheduleOf : Network → List VersionSchedule
  | .mainnet => scheduleMainnet
  | .testnet => scheduleTestnet
  | _ => scheduleDevnet

namespace EngineVersion

/-- `version_for`, version.rs:238-255, as a function of the unix time in seconds.  `none` is the
panic branch. -/
def versionFor (unixSeconds : Nat) (network : Network) : Option EngineVersion :=
  ((scheduleOf network).filter (fun s => decide (s.activeAt ≤ unixSeconds))).getLast?.map (·.version)

/-- `self >= &EngineVersion::Vn`. -/
def atLeast (v w : EngineVersion) : Bool := decide (w.num ≤ v.num)

/-- `is_enabled`, version.rs:281-412. -/
def isEnabled (v : EngineVersion) : ProtocolFeature → Bool
  | .signerRevokeBug => v == .v1 || v == .v3
  | .farcasterPro | .basenames | .ensValidation | .messageLengthCheckFix
  | .usernameShardRoutingFix | .primaryAddresses => v.atLeast .v5
  | .futureTimestampValidation => v.atLeast .v6
  | .dependentMessagesInBulkSubmit => v.atLeast .v7
  | .decoupleShardZeroBlockProduction => v.atLeast .v8
  | .writeDataToShardZero => v.atLeast .v9
  | .readDataFromShardZero | .userProfileToken => v.atLeast .v10
  | .storageLending => v.atLeast .v11
  | .eventIdBugFix => v.atLeast .v12
  | .storageLendingLimitFix => v.atLeast .v13
  | .stopRevokingExistingMessages => v.atLeast .v14
  | .increaseUsernameProofSizeLimit => v.atLeast .v15
  | .gaslessSigners => v.atLeast .v16
  | .liveAt => v.atLeast .v17
  | .storageExpiryExtension2026 => v.atLeast .v18
  | .blockLinks => v.atLeast .v19
  | .increaseEmbedLimitForAllUsers => v.atLeast .v20
  | .channelRegistrations | .sortedBlockEngineEvents | .channelOwnershipEvents
  | .channelMessages | .verificationsOnShardZero => v.atLeast .v21
  | .channelFollows => v.atLeast .v21

/-- `LATEST_PROTOCOL_VERSION`, version.rs:6. -/
def latestProtocolVersion : Nat := 13

/-- `protocol_version`, version.rs:414-436. -/
def protocolVersion : EngineVersion → Nat
  | .v0 | .v1 | .v2 | .v3 | .v4 => 1
  | .v5 => 2
  | .v6 => 3
  | .v7 => 4
  | .v8 => 5
  | .v9 => 6
  | .v10 => 7
  | .v11 | .v12 | .v13 => 8
  | .v14 => 9
  | .v15 => 10
  | .v16 => 11
  | .v17 => 12
  | .v18 | .v19 | .v20 | .v21 => latestProtocolVersion

/-- `latest`, version.rs:438-442: the maximum of the enumeration. -/
def latest : EngineVersion := .v21

/-- `next_version_timestamp_for`, version.rs:444-458. -/
def nextVersionTimestampFor (unixSeconds : Nat) (network : Network) : Option Nat :=
  ((scheduleOf network).find? (fun s => decide (s.activeAt > unixSeconds))).map (·.activeAt)

end EngineVersion

end Verif
