import Verif.Model.OnChain
/-!
Channel ownership in terms of the list of accepted on-chain events, in the order they were merged.
-/
namespace Verif.Spec

/-- Position on the chain: block, then transaction index, then log index. -/
def Earlier (a b : OEvent) : Prop :=
  a.block < b.block ∨ (a.block = b.block ∧ (a.tx < b.tx ∨ (a.tx = b.tx ∧ a.log < b.log)))

/-- A well-formed registration of a channel: its label is the hash of the channel key. -/
def RegistersChannel (keccak : Bytes → Bytes) (key owner : Bytes) (expiry : Nat) (e : OEvent) : Prop :=
  e.body = .channelRegister .register key (keccak key) owner expiry ∧ (keccak key).length = 32 ∧ owner.length = 20

/-- A well-formed renewal. -/
def RenewsChannel (keccak : Bytes → Bytes) (key : Bytes) (expiry : Nat) (e : OEvent) : Prop :=
  ∃ o, e.body = .channelRegister .renew key (keccak key) o expiry ∧ (keccak key).length = 32

/-- A well-formed transfer; it names the channel by label only. -/
def TransfersChannel (keccak : Bytes → Bytes) (key owner : Bytes) (e : OEvent) : Prop :=
  ∃ k x, e.body = .channelRegister .transfer k (keccak key) owner x ∧ (keccak key).length = 32 ∧ owner.length = 20

def IsChannelEvent (e : OEvent) : Prop := ∃ ty k l o x, e.body = .channelRegister ty k l o x

/-- Some registration of the channel. -/
def Registered (keccak : Bytes → Bytes) (key : Bytes) (e : OEvent) : Prop := ∃ o x, RegistersChannel keccak key o x e

/-- The event makes `owner` the owner of the channel. -/
def GivesTo (keccak : Bytes → Bytes) (key owner : Bytes) (e : OEvent) : Prop :=
  (∃ x, RegistersChannel keccak key owner x e) ∨ TransfersChannel keccak key owner e

/-- The event sets the expiry of the channel. -/
def SetsExpiry (keccak : Bytes → Bytes) (key : Bytes) (expiry : Nat) (e : OEvent) : Prop :=
  (∃ o, RegistersChannel keccak key o expiry e) ∨ RenewsChannel keccak key expiry e

/-- The last event of a list with `sel v` for some `v` has this `v`. -/
def LastSays {α : Type} (sel : α → OEvent → Prop) (log : List OEvent) (v : α) : Prop :=
  ∃ pre e post, log = pre ++ e :: post ∧ sel v e ∧ ∀ x ∈ post, ∀ w, ¬ sel w x

/-- Channel events were merged in the order of the chain. -/
def InChainOrder (log : List OEvent) : Prop :=
  log.Pairwise (fun a b => IsChannelEvent a → IsChannelEvent b → ¬ Earlier b a)

/-- No two registered channel keys have the same hash. -/
def NoLabelCollision (keccak : Bytes → Bytes) (log : List OEvent) : Prop :=
  ∀ a ∈ log, ∀ b ∈ log, ∀ k k', Registered keccak k a → Registered keccak k' b → keccak k = keccak k' → k = k'

end Verif.Spec
