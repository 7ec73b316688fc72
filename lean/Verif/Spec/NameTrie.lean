import Verif.Model.NameTrie
import Verif.Spec.Fnames
import Verif.Spec.StoreTrie
/-! What the trie should hold: one entry per name somebody holds, and the entries of others. -/
namespace Verif

/-- User `fid` holds `name`: the lookup of the name returns a proof for that user.  A released name is held by
nobody: its proof is for user 0. -/
def FState.HeldBy (st : FState) (name : Bytes) (fid : Nat) : Prop :=
  fid ≠ 0 ∧ ∃ q, getFname st.db st.txn name = .ok (some q) ∧ q.fid = fid

/-- The transfer is a later proof of the name for the user who already holds it. -/
def FState.Reproof (st : FState) (p : FProof) : Prop :=
  p.fid ≠ 0 ∧ ∃ q, getFname st.db st.txn p.name = .ok (some q) ∧ q.fid = p.fid ∧ p.later q

/-- The names' own part of a step. -/
def FState.follow (st : FState) : NameTrieOp → FState
  | .other _ => st
  | .call c => st.exec c

/-- The keys of others, as seen now and as committed. -/
def othersOfNames (sha256 : Bytes → Bytes) (o : KeySets) : NameTrieOp → KeySets
  | .other e => { o with current := removeKeys (addKeys o.current (trieKeysForEvent sha256 e).1) (trieKeysForEvent sha256 e).2 }
  | .call .commit => { o with committed := o.current }
  | .call .drop => { o with current := o.committed }
  | .call _ => o

/-- What one step may be.  Transfers are among `U`, record their event (event numbers are not used up), and do not
prove a name anew for its holder.  Events of others have keys of entries in `E` that are not names; others hold
something in the trie when it is reloaded. -/
def NameStepOK (U : FProof → Prop) (sha256 : Bytes → Bytes) (E : TrieEntry → Prop) (st : FState) (o : KeySets) : NameTrieOp → Prop
  | .other e => ∀ k ∈ (trieKeysForEvent sha256 e).1 ++ (trieKeysForEvent sha256 e).2,
      ∃ x, E x ∧ k = x.key sha256 ∧ ∀ f n, x ≠ .fname f n
  | .call .commit => o.current ≠ []
  | .call .drop => o.committed ≠ []
  | .call (.merge p) => U p ∧ (mergeFname st p).1 ≠ .error .invalidParameter ∧ ¬ st.Reproof p
  | .call (.block _) => True

/-- A history of such steps. -/
def NameStepsOK (U : FProof → Prop) (sha256 : Bytes → Bytes) (E : TrieEntry → Prop) : FState → KeySets → List NameTrieOp → Prop
  | _, _, [] => True
  | st, o, x :: xs => NameStepOK U sha256 E st o x ∧ NameStepsOK U sha256 E (st.follow x) (othersOfNames sha256 o x) xs

end Verif
