import Verif.Model.Consensus
/-!
What the consensus properties talk about.
-/
namespace Verif.Spec

/-- The keys of the validators in charge of a height. -/
def inCharge (sets : StoredSets) (height : Nat) : List Bytes := (validatorSetAt sets height).map (·.key)

/-- The certificate carries a valid signature of `k` on a precommit for its value at its height and round. -/
def SignedBy (cr : Crypto) (c : Commits) (k : Bytes) : Prop :=
  ∃ sig, (k, sig) ∈ c.sigs ∧ cr.valid k ⟨c.height, cr.roundOf c.round, c.value, k⟩ sig = true

/-- The node's validator sets, made from its configuration. -/
def configured (shard : Nat) (first : SetConfig) (others : List SetConfig) : StoredSets :=
  ⟨shard, StoredSet.ofConfig shard first, others.map (StoredSet.ofConfig shard)⟩

end Verif.Spec

namespace Verif.Spec

/-- What happens to a read node: a decided value arrives, or the node restarts and loses what it had buffered
(`initialize_height` takes the height from the engine). -/
inductive ReadStep (B : Type) where
  | deliver (v : Decided B)
  | restart

/-- One step. -/
def readStep {B : Type} (env : ReadEnv B) (n : ReadNode B) : ReadStep B → Option (ReadNode B)
  | .deliver v => processDecided env n v
  | .restart => some { n with buf := OMap.empty }

/-- A schedule; `none` if the node panics on the way. -/
def readRun {B : Type} (env : ReadEnv B) : ReadNode B → List (ReadStep B) → Option (ReadNode B)
  | n, [] => some n
  | n, s :: l => (readStep env n s).bind (fun n => readRun env n l)

/-- A read node that starts at height `h`. -/
def startAt {B : Type} (h : BlockHeight) : ReadNode B := ⟨h, OMap.empty, []⟩

/-- Would be taken: certificate and protocol version pass. -/
def Passes {B : Type} (env : ReadEnv B) (v : Decided B) : Prop :=
  verifySignatures env.cr env.sets v.commits = true ∧ versionOk v = true

/-- The `k` heights after `h`. -/
def heightsAfter (h : BlockHeight) (k : Nat) : List BlockHeight := (List.range k).map (fun i => ⟨h.shard, h.block + 1 + i⟩)

end Verif.Spec

namespace Verif.Spec

/-- What happens to the proposals a node keeps: one is added or a height is decided. -/
inductive CacheOp (B : Type) where
  | add (p : FullProposal B)
  | decide (h : BlockHeight)

/-- One step. -/
def cacheStep {B : Type} (pv : ProposedValues B) : CacheOp B → ProposedValues B
  | .add p => pv.add p
  | .decide h => pv.decide h

/-- A history, from a node that has just started. -/
def cacheRun {B : Type} (ops : List (CacheOp B)) : ProposedValues B := ops.foldl cacheStep ProposedValues.empty

/-- What should be found under a hash after a history, given newest step first: the last proposal with this hash, until
its height or a greater one is decided. -/
def wanted {B : Type} (k : ShardHash) : List (CacheOp B) → Option (FullProposal B)
  | [] => none
  | .add p :: older => if p.shardHash = k then some p else wanted k older
  | .decide h :: older => (wanted k older).filter (fun p => decide (h ≺ p.height))

/-- Proposals with the same hash have the same height: the value contains its height and the hash is that of the
value. -/
def HashFixesHeight {B : Type} (ops : List (CacheOp B)) : Prop :=
  ∀ p q, CacheOp.add p ∈ ops → CacheOp.add q ∈ ops → p.shardHash = q.shardHash → p.height = q.height

end Verif.Spec

namespace Verif.Spec

/-- The set is for this shard and has taken effect. -/
def Applies (shard height : Nat) (c : SetConfig) : Prop := shard ∈ c.shards ∧ c.effectiveAt ≤ height

/-- `c` is the set of `sets` that took effect last among those that apply, and of several the first one listed. -/
def Current (shard height : Nat) (sets : List SetConfig) (c : SetConfig) : Prop :=
  ∃ before after, sets = before ++ c :: after ∧ Applies shard height c ∧
    (∀ d ∈ before, Applies shard height d → d.effectiveAt < c.effectiveAt) ∧
    (∀ d ∈ after, Applies shard height d → d.effectiveAt ≤ c.effectiveAt)

end Verif.Spec

namespace Verif.Spec

/-- A chain of blocks `1 … N` whose proposers follow the code.  `stores n` is what the proposer of block `n` has of
every shard; chunks are stored under the height in their header.  Other validators accept only blocks with a witness for
every shard, so what was collected is not empty. -/
structure HonestChain (shards : List Nat) (stores : Nat → ShardStores) (blocks : Nat → Option (List Witness))
    (N : Nat) : Prop where
  some_shard : shards ≠ []
  once : shards.Nodup
  all : ∀ n, (stores n).map (·.1) = shards
  keyed : ∀ n s chunks, (s, chunks) ∈ stores n → ∀ m w, chunks m = some w → w.height = ⟨s, m⟩
  genesis : blocks 0 = none
  collected : ∀ n, 1 ≤ n → n ≤ N → blocks n = some (collectWitnesses blocks n shards.length (stores n))
  accepted : ∀ n, 1 ≤ n → n ≤ N → collectWitnesses blocks n shards.length (stores n) ≠ []

/-- The block refers to this chunk. -/
def RefersTo (blocks : Nat → Option (List Witness)) (n : Nat) (w : Witness) : Prop := ∃ ws, blocks n = some ws ∧ w ∈ ws

end Verif.Spec

namespace Verif.Spec

/-- What happens to the node's local database: it is asked for a proposal (`fresh` is what it would propose now), a
height is decided, or some other row of the node's own state is written or removed.  A restart changes nothing. -/
inductive LocalStep (V : Type) where
  | propose (shard height round : Nat) (fresh : V)
  | decided (shard height : Nat)
  | note (key : Bytes) (v : Option V)
  | restart

/-- The database after a step. -/
def localStep {V : Type} (db : Db V) : LocalStep V → Db V
  | .propose s h r fresh => (proposeOnce db s h r fresh).2.2
  | .decided s h => deleteProposals db s h
  | .note k (some v) => db.put k v
  | .note k none => db.del k
  | .restart => db

/-- The database after a history. -/
def localRun {V : Type} (db : Db V) (steps : List (LocalStep V)) : Db V := steps.foldl localStep db

/-- Numbers fit their types; other rows have the prefixes 17 and 21
(/repo/src/storage/store/node_local_state.rs:63-71, 155-198, 258-265). -/
def LocalStep.Fits {V : Type} : LocalStep V → Prop
  | .propose s h r _ => s < 2 ^ 32 ∧ h < 2 ^ 64 ∧ r < 2 ^ 63
  | .decided s h => s < 2 ^ 32 ∧ h < 2 ^ 64
  | .note k _ => k.head? = some 17 ∨ k.head? = some 21
  | .restart => True

end Verif.Spec

namespace Verif.Spec

/-- What happens to a validator: a proposal of another node arrives, it makes its own, or consensus decides. -/
inductive ValidatorStep (B : Type) where
  | receive (p : FullProposal B)
  | own (p : FullProposal B)
  | decided (height : BlockHeight) (value : ShardHash)

/-- One step of a validator with the given way of taking in proposals (`blockAdd` on shard 0, `shardAdd` elsewhere). -/
def validatorStep {B : Type} (add : ProposerEngine B → ProposerState B → FullProposal B → Bool × ProposerState B)
    (e : ProposerEngine B) (s : ProposerState B) : ValidatorStep B → Option (ProposerState B)
  | .receive p => some (add e s p).2
  | .own p => some (ownProposal s p)
  | .decided h v => decideValue e s h v

/-- A history; `none` if the node panics. -/
def validatorRun {B : Type} (add : ProposerEngine B → ProposerState B → FullProposal B → Bool × ProposerState B)
    (e : ProposerEngine B) : ProposerState B → List (ValidatorStep B) → Option (ProposerState B)
  | s, [] => some s
  | s, st :: l => (validatorStep add e s st).bind (fun s => validatorRun add e s l)

/-- Proposals name the height of the block they carry, the node proposes for the next height, and consensus decides
heights in order. -/
def Orderly {B : Type} (s : ProposerState B) : ValidatorStep B → Prop
  | .receive p => p.height = p.inner
  | .own p => p.height = p.inner ∧ p.inner = s.confirmed.next
  | .decided h _ => h = s.confirmed.next

/-- Every step of a history is orderly when it is taken. -/
def OrderlyRun {B : Type} (add : ProposerEngine B → ProposerState B → FullProposal B → Bool × ProposerState B)
    (e : ProposerEngine B) : ProposerState B → List (ValidatorStep B) → Prop
  | _, [] => True
  | s, st :: l => Orderly s st ∧ (match validatorStep add e s st with | none => True | some s' => OrderlyRun add e s' l)

instance {B : Type} (s : ProposerState B) (st : ValidatorStep B) : Decidable (Orderly s st) := by
  cases st <;> simp only [Orderly] <;> infer_instance

instance decOrderlyRun {B : Type} (add : ProposerEngine B → ProposerState B → FullProposal B → Bool × ProposerState B)
    (e : ProposerEngine B) : (s : ProposerState B) → (l : List (ValidatorStep B)) → Decidable (OrderlyRun add e s l)
  | _, [] => isTrue trivial
  | s, st :: l =>
    have : Decidable (match validatorStep add e s st with | none => True | some s' => OrderlyRun add e s' l) :=
      match validatorStep add e s st with
      | none => isTrue trivial
      | some s' => decOrderlyRun add e s' l
    inferInstanceAs (Decidable (Orderly s st ∧ _))

/-- A validator that has just started. -/
def startedAt {B : Type} (h : BlockHeight) : ProposerState B := ⟨ProposedValues.empty, h, []⟩

end Verif.Spec
