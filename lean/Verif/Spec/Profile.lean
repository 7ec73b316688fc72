import Verif.Model.Profile
import Verif.Spec.Shard
import Verif.Spec.Fnames
/-! Specification vocabulary for usernames and primary addresses. -/
namespace Verif
namespace ProfileNode

/-- A user shows a value in a field of the profile (6 username, 11 and 12 primary addresses), as a reader of the database
and the batch sees it. -/
def Shows (n : ProfileNode) (fid ty : Nat) (value : Bytes) : Prop :=
  ∃ m, n.store.Has userDataStore m ∧ m.fid = fid ∧ m.body = .userData ty value

/-- A user has an address verified for a protocol (0 Ethereum, 1 Solana). -/
def Verified (e : ProfileEnv) (n : ProfileNode) (fid : Nat) (protocol : Int) (address : Bytes) : Prop :=
  ∃ x, n.store.Has verificationStore x ∧ x.fid = fid ∧ x.body = .verificationAdd address ∧ e.protocol x = protocol

/-- The registry has a name down as a user's. -/
def OwnsName (n : ProfileNode) (fid : Nat) (name : Bytes) : Prop :=
  ∃ q, getFname n.names.db n.names.txn name = .ok (some q) ∧ q.fid = fid

/-- The node after its last commit: the pending batch forgotten. -/
def committed (n : ProfileNode) : ProfileNode :=
  { store := { n.store with pend := { n.store.pend with txn := OMap.empty } }, names := { n.names with txn := OMap.empty } }

/-- The pending batch sets nothing new in a field of a user. -/
def NothingNew (n : ProfileNode) (fid ty : Nat) : Prop :=
  ∀ m value, n.store.Has userDataStore m → m.fid = fid → m.body = .userData ty value → n.committed.store.Has userDataStore m

/-- The field of the profile a verification backs. -/
def fieldOf (protocol : Int) : Nat := if protocol = 0 then 11 else 12

end ProfileNode

/-- Not a call with a step of its own. -/
def ShardOp.Apart : ShardOp → Prop
  | .call _ .commit | .call _ .drop | .call _ (.block _) => False
  | .call .userData (.merge _) | .call .userData (.force _) => False
  | .call .verifications (.merge _) | .call .verifications (.force _) => False
  | _ => True

/-- A condition on each step of a history, in the state it meets. -/
def Along (e : ProfileEnv) (P : ProfileNode → ProfileOp → Prop) : ProfileNode → List ProfileOp → Prop
  | _, [] => True
  | n, o :: ops => P n o ∧ Along e P (n.exec e o) ops

/-- The steps covered.  Messages are valid and from `U`; user data is checked at version 7 or later; the side effects run
at version 5 or later; when a name is taken from a user the batch sets no username of theirs, and when a transaction ends
the batch sets no primary address of a user who lost a verification in it. -/
def ProfileNode.Orderly (e : ProfileEnv) (U : Msg → Prop) (n : ProfileNode) : ProfileOp → Prop
  | .set _ v m => StoreKind.userData.Valid m ∧ U m ∧ 7 ≤ v.num
  | .verification force m => StoreKind.verifications.Proper e.channelOf U n.store (ProfileNode.verificationOp force m)
  | .transfer p source => p.fid < 2 ^ 32 ∧ source < 2 ^ 32 ∧ n.NothingNew source 6
  | .finish v => 5 ≤ v.num ∧ ∀ m ∈ n.deleted, n.NothingNew m.fid (ProfileNode.fieldOf (e.protocol m))
  | .other o => o.Apart ∧ n.store.ShardProper e.channelOf U o
  | .commit | .drop | .block _ => True

/-- A transfer that takes effect says whom it takes the name from. -/
def ProfileNode.NamesSource (n : ProfileNode) : ProfileOp → Prop
  | .transfer p source => ∀ q, getFname n.names.db n.names.txn p.name = .ok (some q) → p.later q → q.fid ≠ p.fid →
      q.fid ≠ 0 → source = q.fid
  | _ => True

/-- No verification disappears except by a merge that reports it, the work at the end of a transaction is done in full,
and blocks are committed between transactions. -/
def ProfileNode.Reported (e : ProfileEnv) (n : ProfileNode) : ProfileOp → Prop
  | .verification force m => (∃ es, n.store.returned verificationStore e.ctx (ProfileNode.verificationOp force m) = .ok es) ∨
      ∀ x, n.store.Has verificationStore x → (n.exec e (.verification force m)).store.Has verificationStore x
  | .finish v => (n.atEnd e v).1 = .ok ()
  | .other o => ∀ x, n.store.Has verificationStore x → (n.exec e (.other o)).store.Has verificationStore x
  | .commit => n.deleted = []
  | _ => True

end Verif
