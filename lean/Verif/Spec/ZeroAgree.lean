import Verif.Spec.Zero
/-!
When nodes of shard 0 are in the same state, and when their clocks make no difference.
-/
namespace Verif
namespace ZeroCfg
variable {F : Type} (c : ZeroCfg)

/-- Two nodes hold the same tables, tree and open batches; only the numbers of the next events may differ. -/
def SameTables (d d' : ZWork) : Prop := ∃ g, d' = { d with st := { d.st with store := { d.st.store with pend := ⟨d.st.store.pend.txn, g⟩ } } }

/-- The rental is running by both clocks or by neither.  `v` is the protocol version. -/
def SameSide (v : EngineVersion) (clock clock' : Nat) (e : OEvent) : Prop :=
  ∀ s, Slot.fromEvent (decide (c.net = .mainnet)) (v.isEnabled .storageExpiryExtension2026) e = .ok s →
    s.isActive (UInt32.ofNat clock) = s.isActive (UInt32.ofNat clock')

/-- Between the two clocks no rental expires that is in the tables or among the transactions, and the year 2106 (where lent
storage ends) does not begin. -/
structure SameTime (d : ZWork) (v : EngineVersion) (txns : List (ETxn F)) (clock clock' : Nat) : Prop where
  stored : ∀ fid rents, onchainEvents d.admit.chain.db 4 fid = .ok rents → ∀ e ∈ rents, c.SameSide v clock clock' e
  brought : ∀ t ∈ txns, ∀ s ∈ t.sys, ∀ e, s.onchain = some e → c.SameSide v clock clock' e
  loans : (UInt32.ofNat clock < 4294967295) ↔ (UInt32.ofNat clock' < 4294967295)

/-- Event numbers start afresh with each block of this version, or it has no data on shard 0. -/
def Renumbered (v : EngineVersion) : Prop := v.num < 9 ∨ 12 ≤ v.num

/-- The blocks committed in a history, with the clocks. -/
def commits : List (ZCall F) → List (Nat × ZBlock F)
  | [] => []
  | .commit clock b :: l => (clock, b) :: commits l
  | _ :: l => commits l

/-- The blocks of a history that write data on shard 0 (from version 9 on). -/
def dataBlocks (calls : List (ZCall F)) : List (ZBlock F) :=
  ((commits calls).map (·.2)).filter (fun b => (c.ver b.ts).isEnabled .writeDataToShardZero)

/-- A bound on what a block can have told: each system message one event, each user message two, and a heartbeat. -/
def _root_.Verif.ETxn.size (t : ETxn F) : Nat := t.sys.length + 2 * t.user.length
def _root_.Verif.ZBlock.size (b : ZBlock F) : Nat := (b.txns.map ETxn.size).sum + 1

/-- From state `d`, the blocks can be committed by two clocks with no rental expiring in between. -/
def InStep : ZWork → List (Nat × Nat × ZBlock F) → Prop
  | _, [] => True
  | d, (k, k', b) :: l => Renumbered (c.ver b.ts) ∧ c.SameTime d (c.ver b.ts) b.txns k k' ∧
      ∀ d1, c.commit k d b = some d1 → InStep d1 l

end ZeroCfg
end Verif
