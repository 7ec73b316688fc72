import Verif.Model.ShardTrie
import Verif.Spec.Shard
/-! What the trie of a shard should hold: the entries of the messages in all stores, and the entries of others. -/
namespace Verif

/-- The keys of others, as seen now and as committed. -/
def shardOthersStep (sha256 : Bytes → Bytes) (o : KeySets) : ShardTrieOp → KeySets
  | .other e => { o with current := removeKeys (addKeys o.current (trieKeysForEvent sha256 e).1) (trieKeysForEvent sha256 e).2 }
  | .step (.call _ .commit) => { o with committed := o.current }
  | .step (.call _ .drop) => { o with current := o.committed }
  | _ => o

/-- What one step may be: a step C83 covers whose calls record their events, or an event whose keys are keys of entries
in `E` that no message of any store has, or the recorded removal of a message the store holds.  Others hold something in
the trie when it is reloaded. -/
def StoreState.ShardStepOK (channelOf : Bytes → Option Bytes) (ctx : Nat → MergeCtx) (U : Msg → Prop)
    (sha256 : Bytes → Bytes) (E : TrieEntry → Prop) (st : StoreState) (o : KeySets) : ShardTrieOp → Prop
  | .other e => ∀ k ∈ (trieKeysForEvent sha256 e).1 ++ (trieKeysForEvent sha256 e).2,
      ∃ x, E x ∧ k = x.key sha256 ∧ ∀ (kind : StoreKind) m, kind.Valid m → x ∉ m.entries
  | .step (.call _ .commit) => o.current ≠ []
  | .step (.call _ .drop) => o.committed ≠ []
  | .step (.call kind c) => kind.Proper channelOf U st c ∧ st.Recorded (kind.store channelOf) ctx c
  | .step c => st.ShardProper channelOf U c
  | .remove kind prune m => st.Has (kind.store channelOf) m ∧
      ((kind.store channelOf).removeOne prune m st.pend).1 ≠ .error .invalidParameter

/-- The stores' part of a step. -/
def StoreState.shardFollow (channelOf : Bytes → Option Bytes) (ctx : Nat → MergeCtx) (st : StoreState) : ShardTrieOp → StoreState
  | .other _ => st
  | .step c => st.shardExec channelOf ctx c
  | .remove kind prune m => st.after ((kind.store channelOf).removeOne prune m st.pend)

/-- A history of such steps. -/
def StoreState.ShardStepsOK (channelOf : Bytes → Option Bytes) (ctx : Nat → MergeCtx) (U : Msg → Prop)
    (sha256 : Bytes → Bytes) (E : TrieEntry → Prop) : StoreState → KeySets → List ShardTrieOp → Prop
  | _, _, [] => True
  | st, o, x :: xs => st.ShardStepOK channelOf ctx U sha256 E o x ∧
      (st.shardFollow channelOf ctx x).ShardStepsOK channelOf ctx U sha256 E (shardOthersStep sha256 o x) xs

/-- What is assumed of a shard: channel ids name channels, message hashes identify messages, the trie's iteration order
is some order, the trie can keep the entries apart, and `E` has the entries of the messages. -/
structure ShardSetting (channelOf : Bytes → Option Bytes) (U : Msg → Prop) (ord : List UInt8 → List UInt8)
    (sha256 : Bytes → Bytes) (E : TrieEntry → Prop) : Prop where
  naming : ChannelNaming channelOf
  hashes : HashesAlone U
  order : ∀ l, (ord l).Perm l
  fit : EntriesFit sha256 E
  entries : ∀ (kind : StoreKind) m, kind.Valid m → U m → ∀ x ∈ m.entries, E x

end Verif
