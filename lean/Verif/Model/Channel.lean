import Verif.Model.StoreRun
/-!
Channel state on shard 0: the four slot stores of /repo/src/storage/store/account/channel_store.rs and
the admission rules of /repo/src/storage/store/block_engine.rs.

Simplifications: of a `ChannelUpdateBody` only the channel and the two modes are kept.  The owner of a
channel is looked up in the registry and the verifications (block_engine.rs:776-803); here it is an
argument of the admission check, so the results hold whatever the lookup returns.
-/
namespace Verif

/-- `ChannelMemberAction`, /repo/proto/definitions/message.proto:302-310. -/
inductive MemberAction where
  | none | addMember | removeMember | addModerator | removeModerator | ban | unban
  deriving DecidableEq, Repr

/-- `ChannelMemberAction::try_from(i32)`. -/
def MemberAction.ofNum : Int → Option MemberAction
  | 0 => some .none | 1 => some .addMember | 2 => some .removeMember | 3 => some .addModerator
  | 4 => some .removeModerator | 5 => some .ban | 6 => some .unban | _ => Option.none

/-- `ChannelModerateAction`, message.proto:312-316. -/
inductive ModerateAction where
  | none | hide | unhide
  deriving DecidableEq, Repr

/-- `ChannelModerateAction::try_from(i32)`. -/
def ModerateAction.ofNum : Int → Option ModerateAction
  | 0 => some .none | 1 => some .hide | 2 => some .unhide | _ => Option.none

/-- `CastingMode`, message.proto:270-275. -/
inductive CastingMode where
  | none | everyone | membersOnly | recommended
  deriving DecidableEq, Repr

/-- `CastingMode::try_from(i32)`. -/
def CastingMode.ofNum : Int → Option CastingMode
  | 0 => some .none | 1 => some .everyone | 2 => some .membersOnly | 3 => some .recommended
  | _ => Option.none

/-- `MembershipMode`, message.proto:296-300. -/
inductive MembershipMode where
  | none | open_ | approval
  deriving DecidableEq, Repr

/-- `MembershipMode::try_from(i32)`. -/
def MembershipMode.ofNum : Int → Option MembershipMode
  | 0 => some .none | 1 => some .open_ | 2 => some .approval | _ => Option.none

/-- `ChannelMemberState`, channel_store.rs:57-63. -/
inductive MemberState where
  | member | moderator | removed | banned
  deriving DecidableEq, Repr

/-- The casting half of `fold_channel_modes`, channel_store.rs:369-375. -/
def foldCasting : Option Int → Except HubErr CastingMode
  | none => .ok .membersOnly
  | some n => match CastingMode.ofNum n with
    | none => .error .validation
    | some .none => .ok .membersOnly
    | some m => .ok m

/-- The membership half of `fold_channel_modes`, channel_store.rs:376-382. -/
def foldMembership : Option Int → Except HubErr MembershipMode
  | none => .ok .approval
  | some n => match MembershipMode.ofNum n with
    | none => .error .validation
    | some .none => .ok .approval
    | some m => .ok m

/-- `member_state_for_message`, channel_store.rs:386-405, on an action number. -/
def memberStateOf (action : Int) : Except HubErr MemberState :=
  match MemberAction.ofNum action with
  | none => .error .validation
  | some .addMember => .ok .member
  | some .removeModerator => .ok .member
  | some .addModerator => .ok .moderator
  | some .removeMember => .ok .removed
  | some .unban => .ok .removed
  | some .ban => .ok .banned
  | some .none => .error .validation

/-- `member_state_for_message`, channel_store.rs:386-405. -/
def memberStateForMessage (m : Msg) : Except HubErr MemberState :=
  match m.body with
  | .channelMember _ _ a => memberStateOf a
  | _ => .error .validation

/-- `CHANNEL_ID_LENGTH` and `CHANNEL_MODERATE_CAST_HASH_LENGTH`, channel_store.rs:34-35. -/
def channelIdLength : Nat := 32
def castHashLength : Nat := 20

/-- The slot caps, channel_store.rs:22-23; other values come from a test-only option
(channel_store.rs:870-873). -/
structure SlotCaps where
  member : Nat := 8192
  moderate : Nat := 16384
  deriving DecidableEq, Repr

/-- The four stores, channel_store.rs:141-165. -/
inductive ChanKind where
  | update | member | pin | moderate
  deriving DecidableEq, Repr

namespace ChanKind

/-- `add_message_type`, channel_store.rs:579-581. -/
def msgType : ChanKind → MessageType
  | update => .channelUpdate | member => .channelMember | pin => .channelPin
  | moderate => .channelModerate

/-- `postfix`, /repo/src/storage/constants.rs:88-91. -/
def set : ChanKind → UInt8
  | update => 9 | member => 10 | pin => 11 | moderate => 12

/-- the index postfix, /repo/src/storage/constants.rs:161-164. -/
def adds : ChanKind → UInt8
  | update => 108 | member => 109 | pin => 110 | moderate => 111

/-- The slot index number, channel_store.rs:39-44. -/
def slotIndex : ChanKind → UInt8
  | update => 1 | member => 2 | pin => 3 | moderate => 4

/-- The body half of `is_channel_message`, channel_store.rs:180-190. -/
def bodyMatches : ChanKind → Body → Bool
  | update, .channelUpdate .. => true
  | member, .channelMember .. => true
  | pin, .channelPin .. => true
  | moderate, .channelModerate .. => true
  | _, _ => false

/-- `is_channel_message`, channel_store.rs:170-191. -/
def isMsg (K : ChanKind) (m : Msg) : Bool := decide (m.ty = K.msgType) && K.bodyMatches m.body

/-- `update_slot_suffix`, `member_slot_suffix`, `pin_slot_suffix`, `moderate_slot_suffix`,
channel_store.rs:208-244. -/
def slotSuffix : ChanKind → Msg → Except HubErr Bytes
  | update, ⟨_, _, _, _, _, .channelUpdate c _ _⟩ => .ok c
  | member, ⟨_, _, _, _, _, .channelMember c f _⟩ =>
    if f < 2 ^ 32 then .ok (c ++ be 4 f) else .error .invalidParameter
  | pin, ⟨_, _, _, _, _, .channelPin c _⟩ => .ok c
  | moderate, ⟨_, _, _, _, _, .channelModerate c h _⟩ => .ok (c ++ h)
  | _, _ => .error .validation

/-- `ChannelSlotStoreDef::channel_id`, channel_store.rs:661-663, 691-696, 764-766, 803-808. -/
def channelId : ChanKind → Msg → Except HubErr Bytes
  | update, ⟨_, _, _, _, _, .channelUpdate c _ _⟩ => .ok c
  | member, ⟨_, _, _, _, _, .channelMember c _ _⟩ => .ok c
  | pin, ⟨_, _, _, _, _, .channelPin c _⟩ => .ok c
  | moderate, ⟨_, _, _, _, _, .channelModerate c _ _⟩ => .ok c
  | _, _ => .error .validation

/-- `slot_key`, channel_store.rs:679-686, 698-709, 793-800, 810-820, built by `channel_index_key`,
channel_store.rs:246-253.  The slot suffix already starts with the channel id. -/
def slotKey (K : ChanKind) (m : Msg) : Except HubErr Bytes :=
  match K.slotSuffix m with
  | .ok s => .ok (24 :: K.slotIndex :: s)
  | .error e => .error e

/-- `validate_slot_message`, channel_store.rs:672-678, 715-717, 768-787, 826-844. -/
def validateSlot : ChanKind → Msg → Except HubErr Unit
  | update, ⟨_, _, _, _, _, .channelUpdate _ a b⟩ =>
    match foldCasting a with
    | .error e => .error e
    | .ok _ => match foldMembership b with
      | .error e => .error e
      | .ok _ => .ok ()
  | member, ⟨_, _, _, _, _, .channelMember _ _ a⟩ =>
    match memberStateOf a with
    | .error e => .error e
    | .ok _ => .ok ()
  | pin, ⟨_, _, _, _, _, .channelPin _ h⟩ =>
    if h.isEmpty || h.length = castHashLength then .ok () else .error .validation
  | moderate, ⟨_, _, _, _, _, .channelModerate _ h a⟩ =>
    match ModerateAction.ofNum a with
    | none => .error .validation
    | some .none => .error .validation
    | some _ => if h.length = castHashLength then .ok () else .error .validation
  | _, _ => .error .validation

/-- `slot_cap`, channel_store.rs:668-670, 711-713, 789-791, 822-824 and 900-911. -/
def slotCap (caps : SlotCaps) : ChanKind → Option Nat
  | update => none | member => some caps.member | pin => none | moderate => some caps.moderate

/-- `slot_count_key`, channel_store.rs:719-725 and 846-852. -/
def countKey : ChanKind → Bytes → Option Bytes
  | member, c => some (24 :: 5 :: c)
  | moderate, c => some (24 :: 6 :: c)
  | _, _ => none

/-- `is_live_moderator`, channel_store.rs:727-731; `None` (not the member store) counts as false. -/
def isLiveModerator : ChanKind → Msg → Except HubErr Bool
  | member, m => match memberStateForMessage m with
    | .ok s => .ok (s = .moderator)
    | .error e => .error e
  | _, _ => .ok false

/-- `build_gated_secondary_indices` of the member store, channel_store.rs:733-751, with
`make_member_by_fid_key`, channel_store.rs:755-763: the rows it stages. -/
def gatedRows (K : ChanKind) (write : Bool) (m : Msg) : Except HubErr (List (Bytes × SVal)) :=
  match K, write, m.body with
  | .member, true, .channelMember c f _ =>
    if f < 2 ^ 32 then .ok [(24 :: 8 :: (be 4 f ++ c), .raw [])] else .error .invalidParameter
  | .member, true, _ => .error .validation
  | _, _, _ => .ok []

/-- The `StoreDef` of a channel store, `impl_channel_store_def!`, channel_store.rs:564-626. -/
def store (K : ChanKind) : StoreDef where
  set := K.set
  addType := K.msgType
  removeType := .none
  compactType := .none
  addKey := fun m =>
    match K.slotSuffix m with
    | .ok s => .ok (makeUserKey m.fid ++ K.adds :: s)
    | .error e => .error e
  removeKey := fun _ => .error .invalidParameter
  compare := defaultCompare K.msgType .none

end ChanKind

/-- The key of the live moderator counter, channel_store.rs:486. -/
def moderatorCountKey (channel : Bytes) : Bytes := 24 :: 7 :: channel

/-- `read_counter`, channel_store.rs:259-273. -/
def readCounter (db : Db SVal) (t : Txn SVal) (k : Bytes) : Except HubErr Nat :=
  match getFromDbOrTxn db t k with
  | none => .ok 0
  | some (.raw b) => if b.length = 4 then .ok (fromBe b) else .error .invalidInternalState
  | some _ => .error .invalidInternalState

/-- `encode_slot_pointer`, channel_store.rs:275-285. -/
def encodeSlotPointer (m : Msg) (tsHash : Bytes) : Except HubErr Bytes :=
  if m.fid < 2 ^ 32 then .ok (be 4 m.fid ++ tsHash) else .error .invalidParameter

/-- `message_for_slot_pointer`, channel_store.rs:305-334. -/
def messageForSlotPointer (K : ChanKind) (db : Db SVal) (t : Txn SVal) (pointer : Bytes) :
    Except HubErr Msg :=
  if pointer.length ≠ 28 then .error .invalidInternalState
  else match getFromDbOrTxn db t
      (makeMessagePrimaryKey (fromBe (pointer.take 4)) K.set (some (pointer.drop 4))) with
    | none => .error .invalidInternalState
    | some v => match v.decodeMsg with
      | some m => .ok m
      | none => .error .decode

/-- `load_slot_message` and `read_slot`, channel_store.rs:287-296 and 546-553. -/
def loadSlot (K : ChanKind) (db : Db SVal) (t : Txn SVal) (key : Bytes) : Except HubErr (Option Msg) :=
  match getFromDbOrTxn db t key with
  | none => .ok none
  | some v => match messageForSlotPointer K db t (StoreDef.rawOf v) with
    | .ok m => .ok (some m)
    | .error e => .error e

/-- The slot counter update of `merge_slot`, channel_store.rs:458-476. -/
def nextSlotCount (K : ChanKind) (caps : SlotCaps) (db : Db SVal) (t : Txn SVal) (channel : Bytes)
    (incumbent : Option Msg) : Except HubErr (Option (Bytes × Nat)) :=
  match incumbent, K.slotCap caps, K.countKey channel with
  | none, some cap, some key =>
    match readCounter db t key with
    | .error e => .error e
    | .ok count =>
      if count ≥ cap then .error .validation
      else if count + 1 ≥ 2 ^ 32 then .error .invalidInternalState
      else .ok (some (key, count + 1))
  | _, _, _ => .ok none

/-- `old_is_moderator`, channel_store.rs:478-483. -/
def wasModerator (K : ChanKind) : Option Msg → Except HubErr Bool
  | none => .ok false
  | some m => K.isLiveModerator m

/-- The moderator counter update of `merge_slot`, channel_store.rs:485-504, once both flags are known. -/
def moderatorCountStep (db : Db SVal) (t : Txn SVal) (channel : Bytes) (old new : Bool) :
    Except HubErr (Option (Bytes × Nat)) :=
  if old ≠ new then
    match readCounter db t (moderatorCountKey channel) with
    | .error e => .error e
    | .ok count =>
      if new then
        if count + 1 ≥ 2 ^ 32 then .error .invalidInternalState
        else .ok (some (moderatorCountKey channel, count + 1))
      else
        if count = 0 then .error .invalidInternalState
        else .ok (some (moderatorCountKey channel, count - 1))
  else .ok none

/-- The moderator counter update of `merge_slot`, channel_store.rs:478-504. -/
def nextModeratorCount (K : ChanKind) (db : Db SVal) (t : Txn SVal) (channel : Bytes)
    (incumbent : Option Msg) (m : Msg) : Except HubErr (Option (Bytes × Nat)) :=
  match wasModerator K incumbent with
  | .error e => .error e
  | .ok old => match K.isLiveModerator m with
    | .error e => .error e
    | .ok new => moderatorCountStep db t channel old new

/-- What `merge_slot` has worked out before it stages anything. -/
structure SlotPlan where
  slotKey : Bytes
  tsHash : Bytes
  incumbent : Option Msg
  slotCount : Option (Bytes × Nat)
  moderatorCount : Option (Bytes × Nat)
  deriving DecidableEq, Repr

/-- The duplicate check, channel_store.rs:452-457. -/
def isIncumbent (m : Msg) : Option Msg → Bool
  | some c => c.hash = m.hash && c.fid = m.fid
  | none => false

/-- The reading half of `merge_slot`, channel_store.rs:441-504. -/
def planSlot (K : ChanKind) (caps : SlotCaps) (db : Db SVal) (t : Txn SVal) (m : Msg) :
    Except HubErr SlotPlan :=
  if !K.isMsg m then .error .validation
  else match K.channelId m with
  | .error e => .error e
  | .ok channel =>
    if channel.length ≠ channelIdLength then .error .validation
    else match K.validateSlot m with
    | .error e => .error e
    | .ok () => match makeTsHash m.ts m.hash with
      | .error e => .error e
      | .ok tsHash => match K.slotKey m with
        | .error e => .error e
        | .ok key => match loadSlot K db t key with
          | .error e => .error e
          | .ok incumbent =>
            if isIncumbent m incumbent then .error .duplicate
            else match nextSlotCount K caps db t channel incumbent with
              | .error e => .error e
              | .ok sc => match nextModeratorCount K db t channel incumbent m with
                | .error e => .error e
                | .ok mc => .ok ⟨key, tsHash, incumbent, sc, mc⟩

/-- Staging the slot counter, channel_store.rs:512-514. -/
def putSlotCount : Option (Bytes × Nat) → SM Unit
  | some (k, n) => SM.put k (.raw (be 4 n))
  | none => pure ()

/-- Staging the moderator counter, channel_store.rs:515-521. -/
def putModeratorCount : Option (Bytes × Nat) → SM Unit
  | some (k, n) => if n = 0 then SM.del k else SM.put k (.raw (be 4 n))
  | none => pure ()

/-- The writing half of `merge_slot`, channel_store.rs:506-533, on the separate batch. -/
def stageSlot (K : ChanKind) (write : Bool) (m : Msg) (p : SlotPlan) : SM StoreEvent := do
  K.store.deleteMany p.incumbent.toList
  let pointer ← SM.lift (encodeSlotPointer m p.tsHash)
  SM.put p.slotKey (.raw pointer)
  putSlotCount p.slotCount
  putModeratorCount p.moderatorCount
  let e ← K.store.mergeAddWithConflicts {} p.tsHash m p.incumbent.toList
  let rows ← SM.lift (K.gatedRows write m)
  SM.forEach (fun r => SM.put r.1 r.2) rows
  return e

/-- Run on a separate batch and merge it into the caller's only on success,
channel_store.rs:506-508 and 534-535.  The event ids drawn are not given back. -/
def SM.nested {α : Type} (x : SM α) : SM α := fun s =>
  match x ⟨OMap.empty, s.gen⟩ with
  | (.ok a, s') => (.ok a, ⟨s.txn.merge s'.txn, s'.gen⟩)
  | (.error e, s') => (.error e, ⟨s.txn, s'.gen⟩)

/-- `merge_slot`, channel_store.rs:422-536.  `write` is the `DerivedIndexGate`. -/
def mergeSlot (K : ChanKind) (caps : SlotCaps) (db : Db SVal) (write : Bool) (m : Msg) :
    SM StoreEvent := fun s =>
  match planSlot K caps db s.txn m with
  | .error e => (.error e, s)
  | .ok p => SM.nested (stageSlot K write m p) s

/-- `ChannelMemberStore::member_state`, channel_store.rs:990-1000. -/
def memberState (db : Db SVal) (t : Txn SVal) (channel : Bytes) (fid : Nat) :
    Except HubErr (Option MemberState) :=
  if fid < 2 ^ 32 then
    match loadSlot .member db t (24 :: 2 :: (channel ++ be 4 fid)) with
    | .error e => .error e
    | .ok none => .ok none
    | .ok (some m) => match memberStateForMessage m with
      | .ok s => .ok (some s)
      | .error e => .error e
  else .error .invalidParameter

/-- `ChannelUpdateStore::get_channel_update`, channel_store.rs:943-965: the membership mode; a channel
without an update has the mode of block_engine.rs:871. -/
def membershipMode (db : Db SVal) (t : Txn SVal) (channel : Bytes) : Except HubErr MembershipMode :=
  match loadSlot .update db t (24 :: 1 :: channel) with
  | .error e => .error e
  | .ok none => .ok .approval
  | .ok (some m) => match m.body with
    | .channelUpdate _ a b => match foldCasting a with
      | .error e => .error e
      | .ok _ => foldMembership b
    | _ => .error .validation

/-- `slot_count`, channel_store.rs:1123-1133 and 1222-1232. -/
def slotCount (K : ChanKind) (db : Db SVal) (t : Txn SVal) (channel : Bytes) : Except HubErr Nat :=
  match K.countKey channel with
  | some k => readCounter db t k
  | none => .ok 0

/-- `live_moderator_count`, channel_store.rs:1135-1145. -/
def liveModeratorCount (db : Db SVal) (t : Txn SVal) (channel : Bytes) : Except HubErr Nat :=
  readCounter db t (moderatorCountKey channel)

/-! ### Admission on shard 0 -/

/-- `ChannelAuthorRole`, block_engine.rs:108-114. -/
inductive AuthorRole where
  | owner | moderator | member | other
  deriving DecidableEq, Repr

/-- `ChannelAuthorityDecision`, block_engine.rs:116-123. -/
inductive Decision where
  | allowed | unauthorized | invalidTargetState | banned | ownerUnbannable
  deriving DecidableEq, Repr

/-- The `match` of `channel_member_authority`, block_engine.rs:200-270. -/
def authorityTable (action : MemberAction) (role : AuthorRole) (target : Option MemberState)
    (isSelf : Bool) (mode : MembershipMode) : Decision :=
  let owner : Bool := role = .owner
  let moderator : Bool := role = .moderator
  match action with
  | .addMember =>
    if !(target = none || target = some .removed) then .invalidTargetState
    else if owner || moderator || (isSelf && mode = .open_) then .allowed else .unauthorized
  | .removeMember =>
    match target with
    | some .member => if owner || moderator || isSelf then .allowed else .invalidTargetState
    | some .moderator => if isSelf then .allowed else .invalidTargetState
    | _ => .invalidTargetState
  | .addModerator =>
    if !(target = none || target = some .removed || target = some .member) then .invalidTargetState
    else if owner then .allowed else .unauthorized
  | .removeModerator =>
    if target ≠ some .moderator then .invalidTargetState
    else if owner then .allowed else .unauthorized
  | .ban =>
    if target = some .moderator then (if owner then .allowed else .unauthorized)
    else if !(target = none || target = some .removed || target = some .member) then .invalidTargetState
    else if owner || moderator then .allowed else .unauthorized
  | .unban =>
    if target ≠ some .banned then .invalidTargetState
    else if owner || moderator then .allowed else .unauthorized
  | .none => .invalidTargetState

/-- `channel_member_authority`, block_engine.rs:167-271. -/
def memberAuthority (action : MemberAction) (role : AuthorRole) (target : Option MemberState)
    (isSelf : Bool) (mode : MembershipMode) (targetIsOwner : Bool) : Decision :=
  if action = .none then .invalidTargetState
  else if action = .ban && targetIsOwner then .ownerUnbannable
  else if target = some .banned && action ≠ .unban then .banned
  else authorityTable action role target isSelf mode

/-- `CHANNEL_MODERATOR_CAP`, block_engine.rs:104. -/
def moderatorCap : Nat := 10

/-- `channel_author_role`, block_engine.rs:710-733. -/
def channelAuthorRole (db : Db SVal) (t : Txn SVal) (channel : Bytes) (author : Nat)
    (owner : Option Nat) : Except HubErr AuthorRole :=
  if owner = some author then .ok .owner
  else match memberState db t channel author with
    | .error e => .error e
    | .ok (some .moderator) => .ok .moderator
    | .ok (some .member) => .ok .member
    | .ok _ => .ok .other

/-- The type and body agreement, block_engine.rs:747-762. -/
def channelDispatch (m : Msg) : Option ChanKind :=
  match m.ty, m.body with
  | .channelUpdate, .channelUpdate .. => some .update
  | .channelMember, .channelMember .. => some .member
  | .channelPin, .channelPin .. => some .pin
  | .channelModerate, .channelModerate .. => some .moderate
  | _, _ => none

/-- The checks on a moderation body, block_engine.rs:770-784. -/
def checkModerate : Body → Bool
  | .channelModerate _ h a => decide (h.length = castHashLength) && match ModerateAction.ofNum a with
    | some .hide => true
    | some .unhide => true
    | _ => false
  | _ => true

/-- The self-leave exception while the owner is unknown, block_engine.rs:823-833. -/
def isSelfLeave (m : Msg) : Bool :=
  match m.body with
  | .channelMember _ f a => decide (MemberAction.ofNum a = some .removeMember) && decide (f = m.fid)
  | _ => false

/-- The member arm of `validate_channel_message`, block_engine.rs:860-913. -/
def validateMember (db : Db SVal) (t : Txn SVal) (m : Msg) (channel : Bytes) (fid : Nat) (action : Int)
    (owner : Option Nat) (role : AuthorRole) : Except HubErr Unit :=
  match MemberAction.ofNum action with
  | none => .error .validation
  | some act => match memberState db t channel fid with
    | .error e => .error e
    | .ok target => match membershipMode db t channel with
      | .error e => .error e
      | .ok mode =>
        if memberAuthority act role target (m.fid = fid) mode (owner = some fid) ≠ .allowed then
          .error .validation
        else if act = .addModerator then
          match liveModeratorCount db t channel with
          | .error e => .error e
          | .ok n => if n ≥ moderatorCap then .error .validation else .ok ()
        else .ok ()

/-- The final `match` of `validate_channel_message`, block_engine.rs:845-913. -/
def validateBody (db : Db SVal) (t : Txn SVal) (m : Msg) (owner : Option Nat) (role : AuthorRole) :
    Except HubErr Unit :=
  match m.body with
  | .channelUpdate .. => if role = .owner then .ok () else .error .validation
  | .channelPin .. => if role = .owner || role = .moderator then .ok () else .error .validation
  | .channelModerate .. => if role = .owner || role = .moderator then .ok () else .error .validation
  | .channelMember c f a => validateMember db t m c f a owner role
  | _ => .error .validation

/-- `validate_channel_message`, block_engine.rs:735-916.  `owner c` is what the registry and the
verifications say of channel `c`: `none` an unknown channel, `some none` an owner address that no user
has verified. -/
def validateChannel (db : Db SVal) (t : Txn SVal) (owner : Bytes → Option (Option Nat)) (m : Msg) :
    Except HubErr ChanKind :=
  match channelDispatch m with
  | none => .error .validation
  | some K => match K.channelId m with
    | .error e => .error e
    | .ok c =>
      if c.length ≠ channelIdLength then .error .validation
      else if !checkModerate m.body then .error .validation
      else match owner c with
        | none => .error .validation
        | some o =>
          if o.isNone && !isSelfLeave m then .error .validation
          else match channelAuthorRole db t c m.fid o with
            | .error e => .error e
            | .ok role => match validateBody db t m o role with
              | .error e => .error e
              | .ok () => .ok K

/-- Admission and merge of one channel message: `validate_user_message_with_verification_counts`
(block_engine.rs:1010-1034) then `merge_channel_message` (block_engine.rs:1205-1240). -/
def submitChannel (caps : SlotCaps) (db : Db SVal) (owner : Bytes → Option (Option Nat)) (m : Msg) :
    SM StoreEvent := fun s =>
  match validateChannel db s.txn owner m with
  | .error e => (.error e, s)
  | .ok K => mergeSlot K caps db true m s

end Verif
