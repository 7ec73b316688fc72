import Verif.Model.Usage
import Verif.Model.Profile
import Verif.Model.Engine
/-!
The steps of a data shard's engine on its message stores and its trie: what `EngineOps` of `Model/Engine` leaves open,
filled in.  Line numbers without a file are those of /repo/src/storage/store/engine.rs.

The message stores and the trie are the ones of `Model/ShardTrie`.  What the engine does with everything else (on-chain
events, the name registry, username proofs, keys, channels, storage limits, validation) is the parameter `Elsewhere`:
arbitrary functions on a state `R`, which may read the message stores but not write them.  Event numbers of events that
are not events of the six message stores are left out, and so are the channel owner hints, which have no trie keys.
-/
namespace Verif

/-- Everything the engine has besides the message stores and the trie. -/
structure Elsewhere (R F : Type) where
  /-- a fresh batch at a height, and the commit of the batch, for the tables that are not message stores -/
  fresh : R → Nat → R
  commit : R → R
  /-- `merge_onchain_event`, 1289-1295: user, type, transaction hash and log index of an event that was merged. -/
  onchain : R → OEvent → R × Option (Nat × Nat × Bytes × Nat)
  /-- `validate_fname_transfer` and `merge_username_proof`, 1316-1356: for a valid transfer the event, if it was merged,
  and the user the name is taken from. -/
  fname : R → F → R × Option (Option TrieEvent × Nat)
  /-- `validate_user_message`, 2035-2340; it renews the use of keys that lapse when unused. -/
  validate : EngineVersion → Nat → StoreState → R → Msg → R × Option HubErr
  /-- `merge_message` for username proofs, keys and channel messages, 1829-1897; the flag is `channel_messages_enabled`. -/
  merge : Bool → R → Msg → R × Except HubErr (List TrieEvent)
  /-- `fold_channel_register_replica`, 881-961: no trie keys; `false` if it fails. -/
  replica : R → OEvent → R × Bool
  /-- `get_storage_slot_for_fid` as `get_usage` calls it, /repo/src/storage/store/stores.rs:434-456; `none` is an error. -/
  slot : Nat → EngineVersion → StoreState → R → Nat → MessageType → Option Slot
  /-- `prune_messages` of the username proof store, 1978-1988: user, count and limit. -/
  pruneNames : R → Nat → Nat → Nat → R × List TrieEvent
  /-- `get_storage_slot_for_fid(..).is_active()`, 325-343. -/
  active : Nat → EngineVersion → StoreState → R → ETxn F → Option Bool

/-- What is fixed for a shard. -/
structure ShardCfg (R F : Type) where
  env : ProfileEnv
  H : Bytes → Bytes
  ord : List UInt8 → List UInt8
  sha256 : Bytes → Bytes
  /-- `EngineVersion::version_for` on the network of the node. -/
  ver : Nat → EngineVersion
  rest : Elsewhere R F

/-- The hub events of a shard. -/
inductive ShardHub where
  | store (e : StoreEvent)
  | other (e : TrieEvent)
  | failed (m : Msg)

/-- The state of a shard, committed or being worked on.  `done` is a record of what was done to the stores and the trie,
for the theorems; nothing reads it.  It is `none` from the moment the engine loses events of store calls. -/
structure ShardWork (R : Type) where
  st : StoreTrie := {}
  rest : R
  done : Option (List ShardTrieOp) := some []

/-- Calls to the stores whose events have not reached the trie yet. -/
structure Acted where
  st : StoreState
  events : List StoreEvent := []
  ops : List ShardTrieOp := []

namespace ShardCfg
variable {R F : Type} (c : ShardCfg R F)

/-- The store's part of a call. -/
def storeAct (st : StoreState) : ShardTrieOp → Except HubErr (List StoreEvent) × StoreState
  | .step (.call kind o) => (st.returned (kind.store c.env.channelOf) c.env.ctx o, st.exec (kind.store c.env.channelOf) c.env.ctx o)
  | .remove kind prune m =>
    (((kind.store c.env.channelOf).removeOne prune m st.pend).1, st.after ((kind.store c.env.channelOf).removeOne prune m st.pend))
  | _ => (.ok [], st)

/-- One more call. -/
def act (a : Acted) (o : ShardTrieOp) : Acted × Option HubErr :=
  match c.storeAct a.st o with
  | (.ok es, st) => (⟨st, a.events ++ es, a.ops ++ [o]⟩, none)
  | (.error err, st) => (⟨st, a.events, a.ops ++ [o]⟩, some err)

/-- Calls one after another, up to the first error (`?`). -/
def acts : List ShardTrieOp → Acted → Acted × Option HubErr
  | [], a => (a, none)
  | o :: os, a =>
    match c.act a o with
    | (a, none) => acts os a
    | (a, some err) => (a, some err)

/-- Calls have been made; after an error their events are lost, otherwise the trie gets them (`update_trie`, 2017-2033). -/
def settle (w : ShardWork R) (a : Acted) (err : Option HubErr) : Except HubErr (ShardWork R × List ShardHub) :=
  match err with
  | some _ =>
    .ok ({ w with st := { w.st with store := a.st }, done := if a.events.isEmpty then w.done.map (· ++ a.ops) else none }, [])
  | none =>
    match w.st.trie.updateForEvents c.H c.ord c.sha256 (a.events.map StoreEvent.hub) with
    | .error _ => .error .invalidInternalState
    | .ok t => .ok ({ w with st := ⟨a.st, t⟩, done := w.done.map (· ++ a.ops) }, a.events.map .store)

/-- An event of something else reaches the trie. -/
def other (w : ShardWork R) (e : TrieEvent) : Except HubErr (ShardWork R × List ShardHub) :=
  match w.st.trie.updateForEvent c.H c.ord c.sha256 e with
  | .error _ => .error .invalidInternalState
  | .ok t => .ok ({ w with st := { w.st with trie := t }, done := w.done.map (· ++ [.other e]) }, [.other e])

/-- Several. -/
def others : List TrieEvent → ShardWork R → List ShardHub → Except HubErr (ShardWork R × List ShardHub)
  | [], w, hs => .ok (w, hs)
  | e :: es, w, hs =>
    match c.other w e with
    | .error err => .error err
    | .ok (w, hs') => others es w (hs ++ hs')

/-- The on-chain arm, 1289-1314. -/
def doOnchain (w : ShardWork R) (e : OEvent) : Except HubErr (ShardWork R × Option ShardHub) :=
  match c.rest.onchain w.rest e with
  | (r, none) => .ok ({ w with rest := r }, none)
  | (r, some x) =>
    match c.other { w with rest := r } (.onchain (some x)) with
    | .error err => .error err
    | .ok (w, _) => .ok (w, some (.other (.onchain (some x))))

/-- `should_revoke_signer`, 3047-3056, and 1299-1307. -/
def doRevokes (v : EngineVersion) (e : OEvent) : Option Bytes :=
  match e.body with
  | .signer key _ ty =>
    if v.isEnabled .signerRevokeBug || v.isEnabled .stopRevokingExistingMessages then none
    else if ty = .remove then some key
    else none
  | _ => none

/-- Revoking the username of the user a name is taken from, 1357-1385. -/
def revokeName (w : ShardWork R) (source : Nat) : Except HubErr (ShardWork R × List ShardHub) :=
  if source > 0 then
    match userDataOf w.st.store.db source 6 with
    | some u =>
      let a := c.act ⟨w.st.store, [], []⟩ (.remove .userData false u)
      c.settle w a.1 a.2
    | none => .ok (w, [])
  else .ok (w, [])

/-- The fname arm, 1316-1398. -/
def doFname (w : ShardWork R) (f : F) : Except HubErr (ShardWork R × List ShardHub) :=
  match c.rest.fname w.rest f with
  | (r, none) => .ok ({ w with rest := r }, [])
  | (r, some (e, source)) =>
    match c.others e.toList { w with rest := r } [] with
    | .error err => .error err
    | .ok (w, hs) =>
      match c.revokeName w source with
      | .error err => .error err
      | .ok (w, hs') => .ok (w, hs ++ hs')

/-- The store of a message, `merge_message`, 1806-1840. -/
def mergeTarget : MessageType → Option StoreKind
  | .castAdd | .castRemove => some .casts
  | .linkAdd | .linkRemove | .linkCompactState => some .links
  | .reactionAdd | .reactionRemove => some .reactions
  | .userDataAdd => some .userData
  | .verificationAdd | .verificationRemove => some .verifications
  | .lendStorage => some .lends
  | _ => none

/-- A loan of no units, /repo/src/storage/store/account/storage_lend_store.rs:371-384. -/
def withdraws (m : Msg) : Bool :=
  match m.body with
  | .lend _ units _ => units == 0
  | _ => false

/-- `merge_message`, 1787-1911, and the update of the trie with its events.  A withdrawn loan is pruned at once; a
failure of that is logged (storage_lend_store.rs:379-381). -/
def mergeMessage (w : ShardWork R) (channels : Bool) (m : Msg) :
    Except HubErr (ShardWork R × Except HubErr (List ShardHub)) :=
  match mergeTarget m.ty with
  | some kind =>
    match c.act ⟨w.st.store, [], []⟩ (.step (.call kind (.merge m))) with
    | (a, some err) =>
      match c.settle w a (some err) with
      | .error e => .error e
      | .ok (w, _) => .ok (w, .error err)
    | (a, none) =>
      let a := if m.ty = .lendStorage ∧ withdraws m = true then (c.act a (.remove .lends true m)).1 else a
      match c.settle w a none with
      | .error e => .error e
      | .ok (w, hs) => .ok (w, .ok hs)
  | none =>
    match c.rest.merge channels w.rest m with
    | (r, .error err) => .ok ({ w with rest := r }, .error err)
    | (r, .ok es) =>
      match c.others es { w with rest := r } [] with
      | .error e => .error e
      | .ok (w, hs) => .ok (w, .ok hs)

/-- A user message, 1566-1621. -/
def doUser (v : EngineVersion) (ts : Nat) (w : ShardWork R) (m : Msg) :
    Except HubErr (ShardWork R × List ShardHub × Option HubErr) :=
  match c.rest.validate v ts w.st.store w.rest m with
  | (r, some err) => .ok ({ w with rest := r }, [.failed m], some err)
  | (r, none) =>
    match c.mergeMessage { w with rest := r } (v.isEnabled .channelMessages) m with
    | .error err => .error err
    | .ok (w, .error err) => .ok (w, [.failed m], some err)
    | .ok (w, .ok hs) => .ok (w, hs, none)

/-- A channel message. -/
def isChannelType : MessageType → Bool
  | .channelUpdate | .channelMember | .channelPin | .channelModerate => true
  | _ => false

/-- The feature a replayed message needs, 767-795. -/
def replayGate : MessageType → Option ProtocolFeature
  | .lendStorage => some .storageLending
  | .keyAdd | .keyRemove => some .gaslessSigners
  | .verificationAdd | .verificationRemove => some .verificationsOnShardZero
  | .channelUpdate | .channelMember | .channelPin | .channelModerate => some .channelMessages
  | _ => none

/-- Verifications are replayed with `merge_force_override`, 779-782 and 1913-1938. -/
def replaysForced (t : MessageType) : Bool := t == .verificationAdd || t == .verificationRemove

/-- The message arm of `handle_block_event`, 746-845, and `replayed_verification_prune_type`, 724-730. -/
def replayMessage (w : ShardWork R) (ts : Nat) (m : Msg) :
    Except HubErr (ShardWork R × Option (List ShardHub × Option MessageType)) :=
  if (replayGate m.ty).any (fun f => !(c.ver ts).isEnabled f) then .ok (w, none)
  else if replaysForced m.ty then
    let a := c.act ⟨w.st.store, [], []⟩ (.step (.call .verifications (.force m)))
    match c.settle w a.1 a.2 with
    | .error e => .error e
    | .ok (w, hs) => .ok (w, if a.2.isSome then none else some (hs, some m.ty))
  else
    match c.mergeMessage w (isChannelType m.ty) m with
    | .error e => .error e
    | .ok (w, .error _) => .ok (w, none)
    | .ok (w, .ok hs) => .ok (w, some (hs, none))

/-- `handle_block_event`, 732-979. -/
def doBlockEvent (w : ShardWork R) (b : BEvent) :
    Except HubErr (ShardWork R × Option (List ShardHub × Option MessageType)) :=
  match b.data with
  | none => .ok (w, none)
  | some d =>
    match d.body with
    | some (.message (some m)) => c.replayMessage w d.ts m
    | some (.onchain (some e)) =>
      if !(c.ver d.ts).isEnabled .channelOwnershipEvents then .ok (w, none)
      else if e.ty ≠ 6 then .ok (w, some ([], none))
      else
        match c.rest.replica w.rest e with
        | (r, true) => .ok ({ w with rest := r }, some ([], none))
        | (r, false) => .ok ({ w with rest := r }, none)
    | some .heartbeat => .ok (w, some ([], none))
    | _ => .ok (w, none)

/-- The stores a lost signer's messages are deleted from, `Stores::revoke_messages`,
/repo/src/storage/store/stores.rs:612-675: loans and channel messages stay, and so do username proofs. -/
def sweptStores : List StoreKind := [.casts, .links, .reactions, .userData, .verifications]

/-- `revoke_messages` and the update of the trie, 1504-1527. -/
def doRevoke (w : ShardWork R) (fid : Nat) (key : Bytes) : Except HubErr (ShardWork R × List ShardHub) :=
  let a := c.acts (sweptStores.map (fun kind => .step (.call kind (.revokeSigner fid key)))) ⟨w.st.store, [], []⟩
  c.settle w a.1 a.2

/-- `get_message_priority`, 1532-1552. -/
def msgPriority (m : Msg) : Nat :=
  match m.ty with
  | .verificationAdd => 1
  | .usernameProof => 2
  | .userDataAdd =>
    match m.body with
    | .userData ty _ => if ty = 6 ∨ ty = 11 ∨ ty = 12 then 3 else 4
    | _ => 4
  | _ => 5

/-- `prune_messages`, 1940-2015, and the update of the trie, 1624-1646. -/
def doPrune (clock : Nat) (v : EngineVersion) (w : ShardWork R) (fid : Nat) (ty : MessageType) :
    Except HubErr (ShardWork R × List ShardHub) :=
  match c.rest.slot clock v w.st.store w.rest fid ty with
  | none => .ok (w, [])
  | some slot =>
    let u := getUsage c.sha256 w.st.trie slot fid ty
    match pruneTarget ty with
    | some kind =>
      let a := c.act ⟨w.st.store, [], []⟩ (.step (.call kind (.prune fid u.1.toNat u.2.toNat)))
      c.settle w a.1 a.2
    | none =>
      if ty = .usernameProof ∧ v.isEnabled .ensValidation = true then
        let r := c.rest.pruneNames w.rest fid u.1.toNat u.2.toNat
        c.others r.2 { w with rest := r.1 } []
      else .ok (w, [])

/-- The messages the events of a transaction report as deleted by merges, 1765-1768. -/
def deletedIn (hs : List ShardHub) : List Msg :=
  hs.flatMap (fun h => match h with | .store e => e.deleted | _ => [])

/-- `check_and_revoke_primary_address` for each deleted verification, 1707-1745 and 1765-1783: what is to be revoked,
and the error that stops the loop.  The committed database is read, which the loop does not change. -/
def primaries (st : StoreState) : List Msg → List Msg × Option HubErr
  | [] => ([], none)
  | m :: ms =>
    match m.body with
    | .verificationAdd address =>
      match ProfileNode.primaryField c.env m address with
      | none => ([], some .validation)
      | some (ty, text) =>
        match userDataOf st.db m.fid ty with
        | none => primaries st ms
        | some u =>
          if u.body = .userData ty text then (u :: (primaries st ms).1, (primaries st ms).2) else primaries st ms
    | _ => primaries st ms

/-- `handle_delete_side_effects`, 1749-1785, and the update of the trie, 1648-1662. -/
def doSideEffects (v : EngineVersion) (w : ShardWork R) (hs : List ShardHub) : Except HubErr (ShardWork R × List ShardHub) :=
  if v.isEnabled .primaryAddresses then
    let us := c.primaries w.st.store (deletedIn hs)
    let a := c.acts (us.1.map (fun u => .remove .userData false u)) ⟨w.st.store, [], []⟩
    c.settle w a.1 (a.2.or us.2)
  else .ok (w, [])

/-- `set_current_height`, 403-408: a fresh batch on the committed state. -/
def begin (d : ShardWork R) (h : Nat) : ShardWork R :=
  { d with
    st := { d.st with store := d.st.store.exec castStore c.env.ctx (.block h) }
    rest := c.rest.fresh d.rest h
    done := d.done.map (· ++ [.step (.call .casts (.block h))]) }

/-- `db.commit` and `trie.reload`, 2463-2468; an error is the panic of `unwrap`. -/
def finish (w : ShardWork R) : Option (ShardWork R) :=
  match w.st.trie.commit.reload with
  | .error _ => none
  | .ok t => some {
      st := ⟨w.st.store.exec castStore c.env.ctx .commit, t⟩
      rest := c.rest.commit w.rest
      done := w.done.map (· ++ [.step (.call .casts .commit)]) }

/-- The engine of a data shard. -/
def ops : EngineOps (ShardWork R) (ShardWork R) ShardHub F where
  start := c.begin
  onchain := fun _ _ w e => c.doOnchain w e
  revokes := doRevokes
  fname := fun _ w f => c.doFname w f
  blockEvent := fun _ _ w b => c.doBlockEvent w b
  revoke := fun _ w fid k => c.doRevoke w fid k
  priority := msgPriority
  user := fun v ts _ w m => c.doUser v ts w m
  prune := fun clock v _ w fid ty => c.doPrune clock v w fid ty
  sideEffects := fun v _ w hs => c.doSideEffects v w hs
  accountRoot := fun _ w fid => .ok (w.st.trie.getHash c.H (trieKeyFid c.sha256 fid))
  root := fun w => match w.st.trie.rootHash c.H with
    | .ok r => .ok r
    | .error _ => .error .invalidInternalState
  active := fun clock v d t => c.rest.active clock v d.st.store d.rest t
  confirm := fun _ w _ _ _ => c.finish w
  write := fun _ w => w

/-- A node that has seen nothing. -/
def fresh (r : R) : EngineState (ShardWork R) (ShardWork R) ShardHub F :=
  { d := { rest := r }, ev := OMap.empty, chunks := OMap.empty, pending := none }

end ShardCfg
end Verif
