import Verif.Lemmas.ValidateMsg
import Verif.Case.Validate
/-! C73: which claims to addresses and names are backed by a signature. -/
namespace Verif

/-- A claim to an address in a message that is otherwise in order is accepted exactly when it has the right sizes and,
except for contracts, is signed with the key of the address for this user and network. -/
theorem C73_claim_accepted_iff (env : VEnv) (current : Network) (pro : Bool) (now : Nat) (v : EngineVersion)
    (m : WMsg) (d : WData) (bytes : Bytes) (b : WVerification) (he : GoodEnvelope env current pro now v.num m d bytes)
    (hb : d.body = some (.verificationAdd b)) :
    validateMessage env current pro now v m = .ok () ↔ GoodVerification env b d.fid d.network := by
  rw [validateMessage_of_envelope he, validateContent, hb]
  exact validateVerification_ok

/-- An accepted claim to an address that is not one of the contract kind is signed with the key of that address, over the
user, the network and the block. -/
theorem C73_accepted_claims_are_signed (env : VEnv) (current : Network) (pro : Bool) (now : Nat) (v : EngineVersion)
    (m : WMsg) (d : WData) (bytes : Bytes) (b : WVerification) (hc : Contents env m d bytes)
    (hb : d.body = some (.verificationAdd b)) (hk : ¬ (b.protocol = 0 ∧ b.verificationType = 1))
    (h : validateMessage env current pro now v m = .ok ()) :
    ClaimSized b ∧ ClaimSigned env b d.fid d.network := by
  obtain ⟨d', b', he⟩ := validateMessage_envelope.1 h
  obtain ⟨rfl, rfl⟩ := hc.unique he.1.contents
  have := (C73_claim_accepted_iff env current pro now v m d bytes b he.1 hb).1 h
  refine ⟨this.1, ?_⟩
  rcases this.2 with ⟨-, h⟩ | ⟨hp, -, ⟨-, h⟩ | ⟨h1, -⟩⟩
  · exact h
  · exact h
  · exact absurd ⟨hp, h1⟩ hk

/-- Claims of the contract kind are accepted whatever their signature is: any user can claim any Ethereum address.  The
code leaves this check to the node a message is submitted to. -/
theorem C73_contract_claims_are_not_checked (env : VEnv) (current : Network) (pro : Bool) (now : Nat) (v : EngineVersion)
    (m : WMsg) (d : WData) (bytes : Bytes) (b : WVerification) (he : GoodEnvelope env current pro now v.num m d bytes)
    (hb : d.body = some (.verificationAdd b)) (hp : b.protocol = 0) (ht : b.verificationType = 1)
    (ha : b.address.length = 20) (hh : b.blockHash.length = 32) (hcid : b.chainId = 1)
    (hs : b.claimSignature.length ≤ 2048) : validateMessage env current pro now v m = .ok () := by
  rw [C73_claim_accepted_iff env current pro now v m d bytes b he hb]
  exact ⟨⟨.inl ⟨hp, ha⟩, hh⟩, .inr ⟨hp, by simp [ChainAllowed, hcid], .inr ⟨ht, hs⟩⟩⟩

/-- Only the lowest 16 bits of the chain id count. -/
theorem C73_chain_id_is_truncated (env : VEnv) (b : WVerification) (fid k : Nat) (n : Int) :
    validateVerification env { b with chainId := b.chainId + 65536 * k } fid n = validateVerification env b fid n := by
  have : (b.chainId + 65536 * k) % 65536 = b.chainId % 65536 := by omega
  unfold validateVerification validateAddEth validateAddSol validateEoa
  simp only [this]

/-- Outside the development network a name transfer is accepted exactly when the name server has signed the name, the time
and the owner. -/
theorem C73_name_transfer_accepted_iff (env : VEnv) (signer : Bytes) (network : Network) (t : WTransfer)
    (hn : network ≠ .devnet) : validateTransfer env signer network t = .ok () ↔
      (env.chars t.name).isSome ∧ env.transferHashable t.name t.ts t.owner = true ∧ t.signature.length = 65 ∧
        env.recoverTransfer t.name t.ts t.owner t.signature = some signer := by
  unfold validateTransfer
  cases env.chars t.name with
  | none => simp
  | some cs =>
    simp only [Option.isSome_some, true_and]
    rw [ite_err_ok, if_neg hn, ite_err_ok]
    cases env.recoverTransfer t.name t.ts t.owner t.signature <;> simp

/-- But the signature does not say to which user the name goes or from which user it is taken: with a valid transfer at
hand, both can be replaced at will. -/
theorem C73_name_transfer_users_are_not_signed (env : VEnv) (signer : Bytes) (network : Network) (t : WTransfer)
    (fid fromFid : Nat) (ty : Int) :
    validateTransfer env signer network { t with fid := fid, fromFid := fromFid, ty := ty } =
      validateTransfer env signer network t := rfl

/-- On the development network the signature is not looked at. -/
theorem C73_devnet_transfers_are_not_checked (env : VEnv) (signer sig : Bytes) (t : WTransfer) :
    validateTransfer env signer .devnet { t with signature := sig } = validateTransfer env signer .devnet t := by
  unfold validateTransfer
  cases env.chars t.name <;> simp

/-! A signed claim is accepted, the same claim with another signature is not, and as a contract claim it is. -/

example : validateMessage (demoEnv (demoData 7 (.verificationAdd demoClaim))) .mainnet false 1000 .v20
    (demoMsg (demoData 7 (.verificationAdd demoClaim))) = .ok () := rfl

example : validateMessage (demoEnv (demoData 7 (.verificationAdd { demoClaim with claimSignature := [] }))) .mainnet false
    1000 .v20 (demoMsg (demoData 7 (.verificationAdd { demoClaim with claimSignature := [] }))) =
    .error .invalidClaimSignature := rfl

example : validateMessage (demoEnv (demoData 7 (.verificationAdd
      { demoClaim with claimSignature := [], verificationType := 1, chainId := 1 }))) .mainnet false 1000 .v20
    (demoMsg (demoData 7 (.verificationAdd
      { demoClaim with claimSignature := [], verificationType := 1, chainId := 1 }))) = .ok () := rfl

example : validateTransfer (demoEnv (demoData 1 (.castRemove []))) [1, 2, 3] .mainnet demoTransfer = .ok () ∧
    validateTransfer (demoEnv (demoData 1 (.castRemove []))) [1, 2, 3] .mainnet { demoTransfer with fid := 99, fromFid := 11 } =
      .ok () ∧
    validateTransfer (demoEnv (demoData 1 (.castRemove []))) [1, 2, 3] .mainnet { demoTransfer with signature := [] } =
      .error .invalidSignature := ⟨rfl, rfl, rfl⟩

end Verif
