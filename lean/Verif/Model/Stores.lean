import Verif.Model.Store
/-!
The concrete message stores: casts, reactions, links, verifications, user data and storage lends.
-/
namespace Verif

/-- `TRUE_VALUE`, /repo/src/storage/store/account/message.rs:26. -/
def trueValue : SVal := .raw [1]

/-- The trailing fid of an index key, appended only if positive. -/
def fidSuffix (fid : Nat) : Bytes := if fid > 0 then makeFidKey fid else []

/-! ### Casts, /repo/src/storage/store/account/cast_store.rs -/

/-- The cast a message is about, cast_store.rs:163-172. -/
def castItem (m : Msg) : Except HubErr Bytes :=
  match m.body with
  | .castAdd _ _ => .ok m.hash
  | .castRemove t => .ok t
  | _ => .error .validation

/-- `make_cast_adds_key` (316-326) and `make_cast_removes_key` (349-359). -/
def castKey (post : UInt8) (fid : Nat) (hash : Bytes) : Bytes :=
  makeUserKey fid ++ post :: (if hash.length = 20 then hash else [])

/-- `make_cast_by_parent_key`, cast_store.rs:255-274. -/
def castByParentKey (parent : Target) (fid : Nat) (tsHash : Bytes) : Bytes :=
  4 :: (parent.key ++ (tsHash ++ fidSuffix fid))

/-- `make_cast_by_mention_key`, cast_store.rs:330-345. -/
def castByMentionKey (mention fid : Nat) (tsHash : Bytes) : Bytes :=
  5 :: (makeFidKey mention ++ (tsHash ++ fidSuffix fid))

/-- The keys of `by_parent_secondary_index_key` (225-252) and `by_mention_secondary_index_key`
(284-312), errors ignored as in `build_secondary_indices` (125-140). -/
def castIndexKeys (tsHash : Bytes) (m : Msg) : List Bytes :=
  match m.body with
  | .castAdd parent mentions =>
    (match parent with | some p => [castByParentKey p m.fid tsHash] | none => []) ++
      mentions.map (fun x => castByMentionKey x m.fid tsHash)
  | _ => []

/-- `CastStoreDef::message_compare`, cast_store.rs:99-123: a remove wins over an add. -/
def castCompare (aT : MessageType) (a : Bytes) (bT : MessageType) (b : Bytes) : Int :=
  if aT = .castRemove ∧ bT = .castAdd then 1
  else if aT = .castAdd ∧ bT = .castRemove then -1
  else
    let c := bytesCompare (a.take 4) (b.take 4)
    if c ≠ 0 then c else bytesCompare ((a.drop 4).take 20) ((b.drop 4).take 20)

/-- `CastStoreDef`, cast_store.rs:52-220; postfix 1 (constants.rs:76). -/
def castStore : StoreDef where
  set := 1
  addType := .castAdd
  removeType := .castRemove
  compactType := .none
  addKey m := do let h ← castItem m; return castKey 87 m.fid h
  removeKey m := do let h ← castItem m; return castKey 88 m.fid h
  indexRows th m := .ok ((castIndexKeys th m).map (fun k => (k, trueValue)))
  indexKeys th m := .ok (castIndexKeys th m)
  compare := castCompare

/-! ### Reactions, /repo/src/storage/store/account/reaction_store.rs -/

/-- `make_reaction_adds_key` (415-439) and `make_reaction_removes_key` (441-465). -/
def reactionKey (post : UInt8) (fid ty : Nat) (target : Option Target) : Except HubErr Bytes :=
  if target.isSome ∧ ty = 0 then .error .validation
  else .ok (makeUserKey fid ++ post :: ((if ty > 0 then [UInt8.ofNat ty] else []) ++
    (match target with | some t => t.key | none => [])))

/-- The body of a reaction, reaction_store.rs:161-170. -/
def reactionParts (m : Msg) : Except HubErr (Nat × Option Target) :=
  match m.body with
  | .reaction ty t => .ok (ty, t)
  | _ => .error .validation

/-- `secondary_index_key`, reaction_store.rs:362-387, with `make_reactions_by_target_key` (389-406). -/
def reactionIndex (tsHash : Bytes) (m : Msg) : Except HubErr (Bytes × UInt8) :=
  match m.body with
  | .reaction ty (some t) => .ok (7 :: (t.key ++ (tsHash ++ fidSuffix m.fid)), UInt8.ofNat ty)
  | _ => .error .validation

/-- `follow_channel_id`, reaction_store.rs:240-258; `channelOf` is `channel_id_for_follow_target` for the
network's registrar. -/
def followChannelId (channelOf : Bytes → Option Bytes) (m : Msg) : Option Bytes :=
  match m.body with
  | .reaction ty (some (.url u)) => if ty = 1 then channelOf u else none
  | _ => none

/-- `make_follow_by_fid_key` (267-287) and `make_follow_by_channel_key` (290-303). -/
def followByFidKey (fid : Nat) (c : Bytes) : Bytes := 25 :: 1 :: (makeFidKey fid ++ c)
def followByChannelKey (c : Bytes) (fid : Nat) : Bytes := 25 :: 2 :: (c ++ makeFidKey fid)

/-- `ReactionStoreDef`, reaction_store.rs:68-230; postfix 3 (constants.rs:80). -/
def reactionStore (channelOf : Bytes → Option Bytes) : StoreDef where
  set := 3
  addType := .reactionAdd
  removeType := .reactionRemove
  compactType := .none
  addKey m := do let p ← reactionParts m; reactionKey 91 m.fid p.1 p.2
  removeKey m := do let p ← reactionParts m; reactionKey 92 m.fid p.1 p.2
  indexRows th m := do let r ← reactionIndex th m; return [(r.1, .raw [r.2])]
  indexKeys th m := do let r ← reactionIndex th m; return [r.1]
  followRows m := match followChannelId channelOf m with
    | some c => [(followByFidKey m.fid c, .raw (be 4 m.ts)), (followByChannelKey c m.fid, .raw (be 4 m.ts))]
    | none => []
  followKeys m := match followChannelId channelOf m with
    | some c => [followByFidKey m.fid c, followByChannelKey c m.fid]
    | none => []
  compare := defaultCompare .reactionAdd .reactionRemove

/-! ### Links, /repo/src/storage/store/account/link_store.rs -/

/-- `link_add_key` (247-281) and `link_remove_key` (290-325). -/
def linkKey (post : UInt8) (m : Msg) : Except HubErr Bytes :=
  match m.body with
  | .link ty target =>
    if target.isSome ∧ ty = [] then .error .validation
    else if ty.length > 8 then .error .validation
    else .ok (makeUserKey m.fid ++ post :: (padLinkType ty ++
      (match target with | some t => makeFidKey t | none => [])))
  | _ => .error .invalidParameter

/-- `secondary_index_key` (408-437) with `links_by_target_key` (366-406). -/
def linkIndex (tsHash : Bytes) (m : Msg) : Except HubErr (Bytes × Bytes) :=
  match m.body with
  | .link ty (some t) =>
    if m.fid = 0 then .error .validation
    else .ok (6 :: (makeFidKey t ++ (tsHash ++ makeFidKey m.fid)), ty)
  | _ => .error .invalidParameter

/-- `make_compact_state_add_key` (551-571) with `link_compact_state_add_key` (225-238). -/
def linkCompactKey (m : Msg) : Except HubErr Bytes :=
  match m.body with
  | .link ty _ | .linkCompact ty _ => .ok (makeUserKey m.fid ++ 100 :: padLinkType ty)
  | _ => .error .invalidParameter

/-- `is_compaction_conflict`, link_store.rs:619-654. -/
def linkCompactionConflict (ctx : MergeCtx) (cand compact : Msg) : Bool :=
  match cand.body, compact.body with
  | .link ty target, .linkCompact cty targets =>
    if ctx.typedCompaction && ty ≠ cty then false
    else if cand.ty = .linkRemove then true
    else if cand.ty = .linkAdd then
      match target with
      | some t => !targets.contains t
      | none => false
    else false
  | _, _ => false

/-- `compact_state_add_conflict`, link_store.rs:656-679. -/
def linkCompactAddConflict (m compact : Msg) : Bool :=
  match m.body, compact.body with
  | .link _ (some t), .linkCompact _ targets => m.ts < compact.ts && !targets.contains t
  | _, _ => false

/-- `LinkStore` as a `StoreDef`, link_store.rs:461-680; postfix 2 (constants.rs:78). -/
def linkStore : StoreDef where
  set := 2
  addType := .linkAdd
  removeType := .linkRemove
  compactType := .linkCompactState
  addKey := linkKey 89
  removeKey := linkKey 90
  compactKey := linkCompactKey
  indexRows th m := do let r ← linkIndex th m; return [(r.1, .raw r.2)]
  indexKeys th m := do let r ← linkIndex th m; return [r.1]
  compare := defaultCompare .linkAdd .linkRemove
  compactionConflict := linkCompactionConflict
  compactAddConflict := linkCompactAddConflict

/-! ### Verifications, /repo/src/storage/store/account/verification_store.rs -/

/-- The address of a verification message, verification_store.rs:155-165. -/
def verificationAddress (m : Msg) : Except HubErr Bytes :=
  match m.body with
  | .verificationAdd a | .verificationRemove a => .ok a
  | _ => .error .validation

/-- The by-address row of `build_secondary_indices`, verification_store.rs:93-151. -/
def verificationIndexKey (m : Msg) : Except HubErr Bytes :=
  match m.body with
  | .verificationAdd a => if a = [] then .error .invalidParameter else .ok (14 :: (a ++ makeFidKey m.fid))
  | _ => .error .invalidParameter

/-- `VerificationStoreDef`, verification_store.rs:30-212; postfix 4 (constants.rs:82). -/
def verificationStore : StoreDef where
  set := 4
  addType := .verificationAdd
  removeType := .verificationRemove
  compactType := .none
  addKey m := do let a ← verificationAddress m; return makeUserKey m.fid ++ 93 :: a
  removeKey m := do let a ← verificationAddress m; return makeUserKey m.fid ++ 94 :: a
  indexRows th m := do let k ← verificationIndexKey m; return [(k, .raw th)]
  indexKeys _ m := do let k ← verificationIndexKey m; return [k]
  compare := defaultCompare .verificationAdd .verificationRemove

/-! ### User data, /repo/src/storage/store/account/user_data_store.rs -/

/-- `UserDataStoreDef`, user_data_store.rs:31-150; postfix 6 (constants.rs:86). -/
def userDataStore : StoreDef where
  set := 6
  addType := .userDataAdd
  removeType := .none
  compactType := .none
  addKey m := match m.body with
    | .userData ty _ => .ok (makeUserKey m.fid ++ 97 :: (if ty > 0 then [UInt8.ofNat ty] else []))
    | _ => .error .invalidParameter
  removeKey _ := .error .invalidParameter
  compare := defaultCompare .userDataAdd .none

/-! ### Storage lends, /repo/src/storage/store/account/storage_lend_store.rs -/

/-- `StorageLendStoreDef`, storage_lend_store.rs:20-195; postfix 8 (constants.rs:90). -/
def lendStore : StoreDef where
  set := 8
  addType := .lendStorage
  removeType := .none
  compactType := .none
  addKey m := match m.body with
    | .lend to _ _ => .ok (makeUserKey m.fid ++ 101 :: makeFidKey to)
    | _ => .error .invalidParameter
  removeKey _ := .error .invalidParameter
  indexRows _ m := match m.body with
    | .lend to _ _ => .ok [(22 :: (makeFidKey to ++ makeFidKey m.fid), trueValue)]
    | _ => .ok []
  indexKeys _ m := match m.body with
    | .lend to _ _ => .ok [22 :: (makeFidKey to ++ makeFidKey m.fid)]
    | _ => .ok []
  compare := defaultCompare .lendStorage .none

/-- A lend of zero units is pruned at once, storage_lend_store.rs:376-388. -/
def lendPruneZero (m : Msg) (e : StoreEvent) : SM (List StoreEvent) := fun s =>
  match m.body with
  | .lend _ 0 _ =>
    match lendStore.pruneMessage m s with
    | (.ok (some e'), s') => (.ok [e, e'], s')
    | (_, s') => (.ok [e], s')
  | _ => (.ok [e], s)

/-- `StorageLendStore::merge`, storage_lend_store.rs:363-389. -/
def lendMerge (db : Db SVal) (ctx : MergeCtx) (m : Msg) : SM (List StoreEvent) := do
  let e ← lendStore.merge db ctx m
  lendPruneZero m e

end Verif
