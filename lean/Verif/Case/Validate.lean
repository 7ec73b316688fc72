import Verif.Model.Validate
/-! Concrete messages for the examples beside the theorems on validation. -/
namespace Verif

/-- Libraries in a small world: `d` is encoded as one byte, everything else as another, and signatures are 5 repeated. -/
def demoEnv (d : WData) : VEnv where
  encode x := if x = d then [7] else [8]
  decode b := if b = [7] then some d else none
  blake3 b := List.replicate 20 (b.headD 0)
  validKey k := k.length == 32
  verify _ _ s := s == List.replicate 64 5
  recoverClaim _ a _ _ s := if s = List.replicate 65 5 then some a else none
  solClaim _ _ _ _ := []
  transferHashable _ _ _ := true
  recoverTransfer _ _ _ s := if s = List.replicate 65 5 then some [1, 2, 3] else none
  solAddress _ := none
  keccak _ := List.replicate 32 0
  otherDigit c := decide (0x660 ≤ c ∧ c ≤ 0x669)
  chars b := some (b.map (·.toNat))

/-- A message that carries `d` both ways. -/
def demoMsg (d : WData) : WMsg :=
  { data := some d, dataBytes := some [7], hash := List.replicate 20 7, hashScheme := 1, signature := List.replicate 64 5,
    signatureScheme := 1, signer := List.replicate 32 9 }

/-- The content of a message of user 11, for the main network. -/
def demoData (ty : Int) (b : WBody) : WData := { ty := ty, fid := 11, ts := 1000, network := 1, body := some b }

/-- A cast with a mention, an embed and a parent. -/
def demoCast : WCast :=
  { mentions := [3, 4], positions := [0, 2], text := [104, 105], embeds := [some (.url [97])],
    parent := some (.castId ⟨5, List.replicate 20 1⟩) }

/-- A claim for an Ethereum address. -/
def demoClaim : WVerification :=
  { address := List.replicate 20 2, claimSignature := List.replicate 65 5, blockHash := List.replicate 32 3,
    verificationType := 0, chainId := 0, protocol := 0 }

/-- A name transfer. -/
def demoTransfer : WTransfer :=
  { fromFid := 0, name := [97, 98], ts := 5, owner := List.replicate 20 1, signature := List.replicate 65 5, fid := 11, ty := 1 }

end Verif
