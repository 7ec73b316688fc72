import Verif.Model.BlockStore
/-!
What the block stores are meant to do.  A store is a partial map from height to block; what happens to it is a list of
writes and prunes, in order.
-/
namespace Verif

/-- The height of a block, if its header has one. -/
def SBlock.number? (b : SBlock) : Option Nat := (b.head.bind (·.height)).map (·.2)

/-- The shard of a block, if its header has one. -/
def SBlock.shard? (b : SBlock) : Option Nat := (b.head.bind (·.height)).map (·.1)

/-- The time of a block with a height. -/
def SBlock.time? (b : SBlock) : Option Nat := b.head.bind (fun h => h.height.map (fun _ => h.ts))

/-- What happens to the database: a block is stored, blocks below a height are pruned, another store writes or deletes a
row of its own. -/
inductive BOp where
  | put (b : SBlock)
  | prune (stop : Nat) (pageSize : Option Nat)
  | other (key : Bytes) (value : Option BRow)

/-- The effect on the map from heights to blocks. -/
def blocksAfter (stored : Nat → Option SBlock) : BOp → Nat → Option SBlock
  | .put b, n => if b.number? = some n then some b else stored n
  | .prune stop _, n => if n < stop then none else stored n
  | .other _ _, n => stored n

/-- The blocks stored after a history, by height. -/
def storedBlocks (ops : List BOp) : Nat → Option SBlock := ops.foldl blocksAfter (fun _ => none)

/-- One step of the program.  A prune is a completed run of its page loop, whatever number of pages it takes; a put
that is refused changes nothing. -/
def BlockStep (kind : BlockKind) (db : Db BRow) (op : BOp) (db' : Db BRow) : Prop :=
  match op with
  | .put b => db' = (match putBlock kind db b with | .ok d => d | .error _ => db)
  | .prune stop n => ∃ fuel count, pruneUntil kind fuel db stop { pageSize := n } = some (.ok (db', count))
  | .other k none => db' = OMap.del db k
  | .other k (some v) => db' = OMap.put db k v

/-- The databases reached from an empty one. -/
inductive BlockHistory (kind : BlockKind) : List BOp → Db BRow → Prop
  | start : BlockHistory kind [] OMap.empty
  | step {ops db op db'} : BlockHistory kind ops db → BlockStep kind db op db' → BlockHistory kind (ops ++ [op]) db'

/-- Heights and times are 64-bit numbers, shards 32-bit numbers, other stores keep to their own prefixes. -/
def OpFits (kind : BlockKind) : BOp → Prop
  | .put b => ∀ h, b.head = some h → h.ts < 2 ^ 64 ∧ ∀ s n, h.height = some (s, n) → s < 2 ^ 32 ∧ n < 2 ^ 64
  | .prune stop _ => stop < 2 ^ 64
  | .other k _ => k.head? ≠ some kind.pre ∧ k.head? ≠ some 18

/-- A height in a half-open range, open above if there is no stop. -/
def InRange (start : Nat) (stop : Option Nat) (n : Nat) : Prop := start ≤ n ∧ ∀ s, stop = some s → n < s

/-- `l` lists the stored blocks of the range, each once, by ascending height. -/
def ListsRange (stored : Nat → Option SBlock) (start : Nat) (stop : Option Nat) (l : List SBlock) : Prop :=
  (∀ b, b ∈ l ↔ ∃ n, InRange start stop n ∧ stored n = some b) ∧
  l.Pairwise (fun a b => ∃ m n, a.number? = some m ∧ b.number? = some n ∧ m < n)

/-- The blocks a history stores, in order, including those pruned later. -/
def putBlocks (ops : List BOp) : List SBlock :=
  ops.filterMap (fun | .put b => if b.number?.isSome then some b else none | _ => none)

/-- Blocks are stored in order of height, heights and times do not go down, and a height stored again has the same
time; all belong to the store's shard. -/
def StoredInOrder (kind : BlockKind) (shard : Nat) (bs : List SBlock) : Prop :=
  bs.Pairwise (fun a b => ∃ m n s t, a.number? = some m ∧ b.number? = some n ∧ a.time? = some s ∧ b.time? = some t ∧
    m ≤ n ∧ s ≤ t ∧ (m = n → s = t)) ∧
  ∀ b ∈ bs, ∀ s, b.shard? = some s → kind.indexShard s = shard

/-- `n` is the lowest height ever stored whose block is at or after time `t`. -/
def FirstAt (bs : List SBlock) (t n : Nat) : Prop :=
  (∃ b ∈ bs, b.number? = some n ∧ ∃ s, b.time? = some s ∧ t ≤ s) ∧
  ∀ b ∈ bs, ∀ m s, b.number? = some m → b.time? = some s → t ≤ s → n ≤ m

/-- The first `k` pages of a prune: what is left in the database if the node stops there. -/
def prunePages (kind : BlockKind) (stop : Nat) (n : Option Nat) : Nat → Db BRow → Except HubErr (Db BRow)
  | 0, db => .ok db
  | k + 1, db => match deletePage db (some (blockKey kind 0)) (some (blockKey kind stop)) { pageSize := n } with
    | .error e => .error e
    | .ok (db', _) => prunePages kind stop n k db'

end Verif
