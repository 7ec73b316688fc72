import Verif.Model.KV
/-!
Farcaster time.  Models /repo/src/core/util.rs:12-85.
-/
namespace Verif

/-- `FARCASTER_EPOCH` in milliseconds, /repo/src/core/types.rs:22. -/
def farcasterEpoch : Nat := 1609459200000

/-- Checked `u64` value: overflow is an error (the debug build panics there). -/
def u64? (n : Nat) : Except HubErr Nat := if n < 2 ^ 64 then .ok n else .error .overflow

/-- `to_farcaster_time`, /repo/src/core/util.rs:63-80. -/
def toFarcasterTime (ms : Nat) : Except HubErr Nat :=
  if ms < farcasterEpoch then .error .invalidParameter
  else
    let s := (ms - farcasterEpoch) / 1000
    if s > 2 ^ 32 - 1 then .error .invalidParameter else .ok s

/-- `from_farcaster_time`, /repo/src/core/util.rs:83-85. -/
def fromFarcasterTime (t : Nat) : Except HubErr Nat := u64? (t * 1000 + farcasterEpoch)

/-- `FarcasterTime::from_unix_seconds`, /repo/src/core/util.rs:30-33; the subtraction underflows for
times before the epoch. -/
def fromUnixSeconds (s : Nat) : Except HubErr Nat :=
  if s < farcasterEpoch / 1000 then .error .overflow else .ok (s - farcasterEpoch / 1000)

/-- `FarcasterTime::to_unix_seconds`, /repo/src/core/util.rs:35-37. -/
def toUnixSeconds (t : Nat) : Except HubErr Nat := u64? (t + farcasterEpoch / 1000)

end Verif
