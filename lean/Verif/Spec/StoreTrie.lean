import Verif.Model.StoreTrie
import Verif.Spec.Store
import Verif.Spec.Trie
import Verif.Spec.TrieKey
/-! What the trie should hold: one entry per stored message (two for a storage loan), and the entries of others. -/
namespace Verif

/-- The entries of a message: under its author and, for a storage loan, also under the borrower. -/
def Msg.entries (m : Msg) : List TrieEntry :=
  (m.fid :: match m.body with | .lend toFid _ _ => [toFid] | _ => []).map (fun f => .message f m.ty.num m.hash)

/-- Every call recorded its events: event numbers were not used up (a block has 16383 of them). -/
def StoreState.Recorded (D : StoreDef) (ctx : Nat → MergeCtx) (st : StoreState) : StoreOp → Prop
  | .revokeSigner fid signer => ∀ es, st.returned D ctx (.revokeSigner fid signer) = .ok es →
      es.length = ((storedMessages D st.db fid).filter (fun m => m.signer = signer)).length
  | o => st.returned D ctx o ≠ .error .invalidParameter

/-- The keys of others, as seen now and as committed. -/
def othersStep (sha256 : Bytes → Bytes) (o : KeySets) : StoreTrieOp → KeySets
  | .other e => { o with current := removeKeys (addKeys o.current (trieKeysForEvent sha256 e).1) (trieKeysForEvent sha256 e).2 }
  | .call .commit => { o with committed := o.current }
  | .call .drop => { o with current := o.committed }
  | .call _ => o

/-- What one step may be: a store call C11 covers that records its events, or an event whose keys are keys of entries
in `E` that no message of the store has.  Others hold something in the trie when it is reloaded. -/
def StoreKind.StepOK (kind : StoreKind) (channelOf : Bytes → Option Bytes) (ctx : Nat → MergeCtx) (U : Msg → Prop)
    (sha256 : Bytes → Bytes) (E : TrieEntry → Prop) (st : StoreState) (o : KeySets) : StoreTrieOp → Prop
  | .other e => ∀ k ∈ (trieKeysForEvent sha256 e).1 ++ (trieKeysForEvent sha256 e).2,
      ∃ x, E x ∧ k = x.key sha256 ∧ ∀ m, kind.Valid m → x ∉ m.entries
  | .call .commit => o.current ≠ []
  | .call .drop => o.committed ≠ []
  | .call c => kind.Proper channelOf U st c ∧ st.Recorded (kind.store channelOf) ctx c

/-- The store's own part of a step. -/
def StoreState.follow (D : StoreDef) (ctx : Nat → MergeCtx) (st : StoreState) : StoreTrieOp → StoreState
  | .other _ => st
  | .call c => st.exec D ctx c

/-- A history of such steps. -/
def StoreKind.StepsOK (kind : StoreKind) (channelOf : Bytes → Option Bytes) (ctx : Nat → MergeCtx) (U : Msg → Prop)
    (sha256 : Bytes → Bytes) (E : TrieEntry → Prop) : StoreState → KeySets → List StoreTrieOp → Prop
  | _, _, [] => True
  | st, o, x :: xs => kind.StepOK channelOf ctx U sha256 E st o x ∧
      kind.StepsOK channelOf ctx U sha256 E (st.follow (kind.store channelOf) ctx x) (othersStep sha256 o x) xs

/-- Entries the trie can keep apart: valid, and none a shifted copy of another (C24, C25). -/
structure EntriesFit (sha256 : Bytes → Bytes) (E : TrieEntry → Prop) : Prop where
  valid : ∀ x, E x → x.Valid
  noShift : ∀ x y, E x → E y → ¬ Shifted (x.key sha256) (y.key sha256)

/-- Message hashes identify messages: they are digests of the message data. -/
def HashesAlone (U : Msg → Prop) : Prop := ∀ a b, U a → U b → a.hash = b.hash → a = b

end Verif
