import Verif.Model.Stores
/-!
Listings through index rows: casts by parent and by mention, links and reactions by target, and the
channel follow index.  Each scans the rows of an index prefix and looks the messages up by the keys it
cuts out of the index keys.
-/
namespace Verif

/-- The callback of the four listings: cut fid and ts_hash out of the index key at fixed offsets and
remember the message's key; a key too short to cut makes the slice panic (`read_fid_key` and
`read_ts_hash`, /repo/src/storage/store/account/message.rs:134-146).  `keep` is the test on the value.
/repo/src/storage/store/account/reaction_store.rs:749-769, cast_store.rs:462-478 and 508-524,
link_store.rs:159-177. -/
def indexStep (plen : Nat) (set : UInt8) (keep : SVal → Bool) (lim : Nat) (s : List Bytes × Bytes)
    (k : Bytes) (v : SVal) : Except HubErr ((List Bytes × Bytes) × Bool) :=
  if keep v then
    match readFidKey k (plen + 24), readTsHash k plen with
    | some fid, some th =>
      let keys := s.1 ++ [makeMessagePrimaryKey fid set (some th)]
      if keys.length ≥ lim then .ok ((keys, k), true) else .ok ((keys, s.2), false)
    | _, _ => .error .panic
  else .ok (s, false)

/-- `get_many_messages`, /repo/src/storage/store/account/message.rs:251-271. -/
def getMany (db : Db SVal) : List Bytes → Except HubErr (List Msg)
  | [] => .ok []
  | k :: ks =>
    match db.get k with
    | none => .error .notFound
    | some v =>
      match v.decodeMsg with
      | none => .error .decode
      | some m =>
        match getMany db ks with
        | .error e => .error e
        | .ok ms => .ok (m :: ms)

/-- The common body of the four listings. -/
def indexPage (db : Db SVal) (p : Bytes) (set : UInt8) (keep : SVal → Bool) (po : PageOptions) :
    Except HubErr (MessagesPage Msg) :=
  match forEachByPrefix db (some p) (some (incrementVec p)) po
      (indexStep p.length set keep (po.pageSize.getD pageSizeMax)) ([], []) with
  | .error e => .error e
  | .ok ((keys, lastKey), _) =>
    match getMany db keys with
    | .error e => .error e
    | .ok ms => .ok { messages := ms, nextPageToken := if lastKey.isEmpty then none else some lastKey }

/-- `CastStore::get_casts_by_parent`, /repo/src/storage/store/account/cast_store.rs:448-492. -/
def getCastsByParent (db : Db SVal) (parent : Target) (po : PageOptions) : Except HubErr (MessagesPage Msg) :=
  indexPage db (4 :: parent.key) castStore.set (fun _ => true) po

/-- `CastStore::get_casts_by_mention`, /repo/src/storage/store/account/cast_store.rs:494-538. -/
def getCastsByMention (db : Db SVal) (mention : Nat) (po : PageOptions) : Except HubErr (MessagesPage Msg) :=
  indexPage db (5 :: makeFidKey mention) castStore.set (fun _ => true) po

/-- `LinkStore::get_links_by_target`, /repo/src/storage/store/account/link_store.rs:144-191; an empty type
asks for all types. -/
def getLinksByTarget (db : Db SVal) (target : Nat) (type : Bytes) (po : PageOptions) :
    Except HubErr (MessagesPage Msg) :=
  indexPage db (6 :: makeFidKey target) linkStore.set (fun v => type.isEmpty || v = .raw type) po

/-- `ReactionStore::get_reactions_by_target`, /repo/src/storage/store/account/reaction_store.rs:734-783;
type 0 asks for all types, other types are cut to a byte. -/
def getReactionsByTarget (db : Db SVal) (target : Target) (type : Nat) (po : PageOptions) :
    Except HubErr (MessagesPage Msg) :=
  indexPage db (7 :: target.key) (reactionStore (fun _ => none)).set
    (fun v => type = 0 || v = .raw [UInt8.ofNat type]) po

/-! ### The follow index -/

/-- `ChannelFollowEntry`, /repo/src/storage/store/account/reaction_store.rs:41-56. -/
structure FollowEntry where
  fid : Nat
  channel : Bytes
  followedAt : Nat
  deriving DecidableEq, Repr

/-- The 4-byte value of a follow row, /repo/src/storage/store/account/reaction_store.rs:571-573. -/
def followedAtOf : SVal → Except HubErr Nat
  | .raw b => if b.length = 4 then .ok (fromBe b) else .error .invalidInternalState
  | _ => .error .invalidInternalState

/-- The callback of `follow_page`, /repo/src/storage/store/account/reaction_store.rs:565-580.  The state
is the entries and the last key seen. -/
def followStep (plen : Nat) (entry : Bytes → Nat → Except HubErr FollowEntry) (lim : Nat)
    (s : List FollowEntry × Option Bytes) (k : Bytes) (v : SVal) :
    Except HubErr ((List FollowEntry × Option Bytes) × Bool) :=
  if k.length ≠ plen + (38 - plen) then .error .invalidInternalState
  else match followedAtOf v with
    | .error e => .error e
    | .ok t => match entry (k.drop plen) t with
      | .error e => .error e
      | .ok x => .ok ((s.1 ++ [x], some k), decide ((s.1 ++ [x]).length ≥ lim))

/-- `follow_page`, /repo/src/storage/store/account/reaction_store.rs:546-586. -/
def followPage (db : Db SVal) (p : Bytes) (entry : Bytes → Nat → Except HubErr FollowEntry)
    (po : PageOptions) : Except HubErr (MessagesPage FollowEntry) :=
  match requirePageTokenInPrefix p po with
  | .error e => .error e
  | .ok _ =>
    match forEachByPrefix db (some p) (some (incrementVec p)) po
        (followStep p.length entry (po.pageSize.getD pageSizeMax)) ([], none) with
    | .error e => .error e
    | .ok ((entries, lastKey), allDone) =>
      .ok { messages := entries, nextPageToken := if allDone then none else lastKey }

/-- The entry closure of `followers_by_channel`, /repo/src/storage/store/account/reaction_store.rs:515-521. -/
def followerEntry (channel suffix : Bytes) (t : Nat) : Except HubErr FollowEntry :=
  match readFidKey suffix 0 with
  | some fid => .ok ⟨fid, channel, t⟩
  | none => .error .panic

/-- The entry closure of `follows_by_fid`, /repo/src/storage/store/account/reaction_store.rs:531-543. -/
def followEntry (fid : Nat) (suffix : Bytes) (t : Nat) : Except HubErr FollowEntry :=
  if suffix.length = 32 then .ok ⟨fid, suffix, t⟩ else .error .invalidInternalState

/-- `followers_by_channel`, /repo/src/storage/store/account/reaction_store.rs:508-522. -/
def followersByChannel (db : Db SVal) (channel : Bytes) (po : PageOptions) :
    Except HubErr (MessagesPage FollowEntry) :=
  followPage db (25 :: 2 :: channel) (followerEntry channel) po

/-- `follows_by_fid`, /repo/src/storage/store/account/reaction_store.rs:524-544. -/
def followsByFid (db : Db SVal) (fid : Nat) (po : PageOptions) : Except HubErr (MessagesPage FollowEntry) :=
  followPage db (25 :: 1 :: makeFidKey fid) (followEntry fid) po

/-- `follower_count`, /repo/src/storage/store/account/reaction_store.rs:601-618. -/
def followerCount (db : Db SVal) (channel : Bytes) : Except HubErr Nat :=
  let p := 25 :: 2 :: channel
  match forEachByPrefix db (some p) (some (incrementVec p)) {} (fun (c : Nat) _ _ => .ok (c + 1, false)) 0 with
  | .error e => .error e
  | .ok (c, _) => .ok c

/-- `is_following`, /repo/src/storage/store/account/reaction_store.rs:622-639. -/
def isFollowing (db : Db SVal) (fid : Nat) (channel : Bytes) : Except HubErr (Option Nat) :=
  match db.get (followByFidKey fid channel) with
  | none => .ok none
  | some v => match followedAtOf v with
    | .error e => .error e
    | .ok t => .ok (some t)

end Verif
