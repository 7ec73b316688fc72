import Verif.Model.StoreRun
import Verif.Spec.Scan
/-!
Specification vocabulary for the message stores: which store a message belongs to, which messages are
well formed, which item a message is about and which of two messages about one item wins.  Nothing here
mentions keys of selector or index rows, batches or comparison functions of the code.
-/
namespace Verif

/-- The message stores with the common conflict rules. -/
inductive StoreKind where
  | casts | reactions | links | verifications | userData | lends
  deriving DecidableEq, Repr

/-- The store of a kind; `channelOf` tells which URLs name channels (only reactions use it). -/
def StoreKind.store (channelOf : Bytes → Option Bytes) : StoreKind → StoreDef
  | .casts => castStore
  | .reactions => reactionStore channelOf
  | .links => linkStore
  | .verifications => verificationStore
  | .userData => userDataStore
  | .lends => lendStore

/-- The item a message is about: together with the author it decides which messages compete.  A cast is
named by its hash, a reaction by type and target, a link by type (zero padded to 8 bytes) and target, a
verification by address, user data by its type and a storage lend by the recipient. -/
def Msg.item (m : Msg) : Option (Nat × Bytes) :=
  match m.body with
  | .castAdd _ _ => some (0, m.hash)
  | .castRemove t => some (0, t)
  | .reaction ty (some t) => some (ty, t.key)
  | .link ty (some t) => some (t, padLinkType ty)
  | .verificationAdd a => some (0, a)
  | .verificationRemove a => some (0, a)
  | .userData ty _ => some (ty, [])
  | .lend to _ _ => some (to, [])
  | _ => none

/-- Two messages compete: same author, same item. -/
def Msg.Rivals (a b : Msg) : Prop := a.fid = b.fid ∧ a.item = b.item

/-- A message that removes. -/
def Msg.isRemoval (m : Msg) : Prop :=
  m.ty = .castRemove ∨ m.ty = .reactionRemove ∨ m.ty = .linkRemove ∨ m.ty = .verificationRemove

/-- `a` is newer than `b`: later timestamp, then greater hash. -/
def Msg.newer (a b : Msg) : Prop := b.ts < a.ts ∨ (b.ts = a.ts ∧ Bytes.blt b.hash a.hash = true)

/-- Which of two messages about one item wins.  For casts a removal beats every add.  Elsewhere the
later timestamp wins, at equal timestamps a removal beats an add.  Remaining ties go by hash. -/
def StoreKind.beats (kind : StoreKind) (a b : Msg) : Prop :=
  match kind with
  | .casts => (a.isRemoval ∧ ¬ b.isRemoval) ∨ ((a.isRemoval ↔ b.isRemoval) ∧ a.newer b)
  | _ => b.ts < a.ts ∨ (b.ts = a.ts ∧ ((a.isRemoval ∧ ¬ b.isRemoval) ∨
      ((a.isRemoval ↔ b.isRemoval) ∧ Bytes.blt b.hash a.hash = true)))

/-- Well-formed targets: fids have 32 bits. -/
def Target.WF : Target → Prop
  | .url _ => True
  | .castId fid _ => fid < 2 ^ 32

/-- A message of the kind that passed validation (/repo/src/core/validations/message.rs:98-270), as far
as the stores care: 32-bit positive fid, 32-bit time, 20-byte hash, a body fitting the type. -/
def StoreKind.Valid (kind : StoreKind) (m : Msg) : Prop :=
  0 < m.fid ∧ m.fid < 2 ^ 32 ∧ m.ts < 2 ^ 32 ∧ m.hash.length = 20 ∧
  match kind with
  | .casts => (m.ty = .castAdd ∧ ∃ p ms, m.body = .castAdd p ms ∧ (∀ x ∈ ms, x < 2 ^ 32)) ∨
      (m.ty = .castRemove ∧ ∃ t, m.body = .castRemove t ∧ t.length = 20)
  | .reactions => (m.ty = .reactionAdd ∨ m.ty = .reactionRemove) ∧
      ∃ ty t, m.body = .reaction ty (some t) ∧ 0 < ty ∧ ty < 256
  | .links => (m.ty = .linkAdd ∨ m.ty = .linkRemove) ∧
      ∃ ty t, m.body = .link ty (some t) ∧ ty ≠ [] ∧ ty.length ≤ 8 ∧ t < 2 ^ 32
  | .verifications => (m.ty = .verificationAdd ∧ ∃ a, m.body = .verificationAdd a ∧ a ≠ []) ∨
      (m.ty = .verificationRemove ∧ ∃ a, m.body = .verificationRemove a ∧ a ≠ [])
  | .userData => m.ty = .userDataAdd ∧ ∃ ty v, m.body = .userData ty v ∧ 0 < ty ∧ ty < 256
  | .lends => m.ty = .lendStorage ∧ ∃ to u ty, m.body = .lend to u ty ∧ to < 2 ^ 32

/-- Message hashes identify messages: no two different messages of one user share timestamp and hash.
Hashes are 20-byte Blake3 digests of the message data, so a violation is a hash collision or one data
signed by two keys. -/
def HashesIdentify (U : Msg → Prop) : Prop :=
  ∀ a b, U a → U b → a.fid = b.fid → a.ts = b.ts → a.hash = b.hash → a = b

/-- The committed messages of a user in a store, oldest first: its message rows in key order (timestamp,
then hash). -/
def storedMessages (D : StoreDef) (db : Db SVal) (fid : Nat) : List Msg :=
  (rowsStartingWith db (makeMessagePrimaryKey fid D.set none)).filterMap (fun r => r.2.decodeMsg)

/-- The sort key of a message: timestamp, then hash. -/
def Msg.tsHash (m : Msg) : Bytes := be 4 m.ts ++ m.hash

/-- A message is stored: a reader of the database and the batch finds its message row. -/
def StoreState.Has (st : StoreState) (D : StoreDef) (m : Msg) : Prop :=
  st.view (makeMessagePrimaryKey m.fid D.set (some m.tsHash)) = some (.msg m)

/-- The rows a stored message is entitled to: its message row, the row that finds it by item and, for
adds, the rows that find it by parent, mention, target, address or recipient.  `follows` says whether
following channels was enabled at the message's time. -/
def StoreKind.rows (channelOf : Bytes → Option Bytes) (follows : Bool) (kind : StoreKind) (m : Msg) :
    List (RowKey × SVal) :=
  (.message m.fid (kind.store channelOf).set m.tsHash, .msg m) ::
  match kind, m.ty, m.body with
  | .casts, .castAdd, .castAdd parent mentions =>
    (.castAdd m.fid m.hash, .raw m.tsHash) ::
      ((match parent with
        | some p => [(.castByParent p.key m.tsHash m.fid, .raw [1])]
        | none => []) ++
        mentions.map (fun x => (.castByMention x m.tsHash m.fid, .raw [1])))
  | .casts, _, .castRemove t => [(.castRemove m.fid t, .raw m.tsHash)]
  | .reactions, .reactionAdd, .reaction ty (some t) =>
    (.reactionAdd m.fid (UInt8.ofNat ty) t.key, .raw m.tsHash) ::
      (.reactionByTarget t.key m.tsHash m.fid, .raw [UInt8.ofNat ty]) ::
      (match t with
        | .url u => if ty = 1 ∧ follows then (match channelOf u with
            | some c => [(.followByFid m.fid c, .raw (be 4 m.ts)), (.followByChannel c m.fid, .raw (be 4 m.ts))]
            | none => []) else []
        | _ => [])
  | .reactions, _, .reaction ty (some t) => [(.reactionRemove m.fid (UInt8.ofNat ty) t.key, .raw m.tsHash)]
  | .links, .linkAdd, .link ty (some t) =>
    [(.linkAdd m.fid (padLinkType ty) t, .raw m.tsHash), (.linkByTarget t m.tsHash m.fid, .raw ty)]
  | .links, _, .link ty (some t) => [(.linkRemove m.fid (padLinkType ty) t, .raw m.tsHash)]
  | .verifications, .verificationAdd, .verificationAdd a =>
    [(.verificationAdd m.fid a, .raw m.tsHash), (.verificationByAddress a m.fid, .raw m.tsHash)]
  | .verifications, _, .verificationRemove a => [(.verificationRemove m.fid a, .raw m.tsHash)]
  | .userData, _, .userData ty _ => [(.userData m.fid (UInt8.ofNat ty), .raw m.tsHash)]
  | .lends, _, .lend to _ _ =>
    [(.lend m.fid to, .raw m.tsHash), (.lendByRecipient to m.fid, .raw [1])]
  | _, _, _ => []

/-- Nothing pending touches the committed messages of a user: they are all still visible. -/
def StoreState.Settled (st : StoreState) (D : StoreDef) (fid : Nat) : Prop :=
  ∀ m ∈ storedMessages D st.db fid, st.Has D m

/-- Nothing pending touches the `n` oldest of them. -/
def StoreState.Oldest (st : StoreState) (D : StoreDef) (fid n : Nat) : Prop :=
  ∀ m ∈ (storedMessages D st.db fid).take n, st.Has D m

/-- Nothing pending touches those a key signed. -/
def StoreState.OfSigner (st : StoreState) (D : StoreDef) (fid : Nat) (signer : Bytes) : Prop :=
  ∀ m ∈ storedMessages D st.db fid, m.signer = signer → st.Has D m

/-- The calls whose effect C11 covers, in a given state: merges of valid messages from `U`; forced merges
of such a message unless another stored one has its hash; revocations of the live add of an item; and
pruning and revocation by signer when nothing pending touches the committed messages that are to go. -/
def StoreKind.Proper (kind : StoreKind) (channelOf : Bytes → Option Bytes) (U : Msg → Prop) (st : StoreState) :
    StoreOp → Prop
  | .merge m => kind.Valid m ∧ U m
  | .force m => kind.Valid m ∧ U m ∧
      ∀ x, st.Has (kind.store channelOf) x → x.fid = m.fid → x.hash = m.hash → x = m
  | .revokeAdd item => kind.Valid item ∧ U item
  | .prune fid count limit => fid < 2 ^ 32 ∧ st.Oldest (kind.store channelOf) fid (count - limit)
  | .revokeSigner fid signer => fid < 2 ^ 32 ∧ st.OfSigner (kind.store channelOf) fid signer
  | .commit | .drop | .block _ => True

/-- A history of such calls. -/
def StoreKind.ProperRun (kind : StoreKind) (channelOf : Bytes → Option Bytes) (ctx : Nat → MergeCtx)
    (U : Msg → Prop) : StoreState → List StoreOp → Prop
  | _, [] => True
  | st, o :: ops => kind.Proper channelOf U st o ∧
      kind.ProperRun channelOf ctx U (st.exec (kind.store channelOf) ctx o) ops

/-- What the channel naming must satisfy: channel ids have 32 bytes and name one URL each. -/
def ChannelNaming (channelOf : Bytes → Option Bytes) : Prop :=
  (∀ u c, channelOf u = some c → c.length = 32) ∧
  (∀ u u' c, channelOf u = some c → channelOf u' = some c → u = u')

end Verif
