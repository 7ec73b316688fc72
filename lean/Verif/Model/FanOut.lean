import Verif.Model.Listing
/-!
Listings that combine all shards of a node.  Models the follower reads and the listings by parent, mention
and target of /repo/src/network/server.rs.  A `Status` is represented by the nearest `HubErr`:
`invalid_argument` by `invalidParameter`, `failed_precondition` by `invalidInternalState`.

Page tokens are JSON (serde_json): the model's tokens are the decoded values, and `none` stands for bytes
that do not decode.  An empty token counts as absent for the follower reads (`filter`, server.rs:266) and
does not decode elsewhere.
-/
namespace Verif

/-- `ShardScan`, /repo/src/network/server.rs:234-239. -/
inductive ShardScan where
  | fresh
  | resume (token : Bytes)
  | exhausted
  deriving DecidableEq, Repr

/-- `ShardCursor`, /repo/src/network/server.rs:250-255. -/
structure ShardCursor where
  shard : Nat
  scan : ShardScan
  deriving DecidableEq, Repr

/-- The page token of a request: absent, undecodable or decoded. -/
inductive TokenIn (α : Type) where
  | absent
  | bad
  | given (t : α)

/-- `HashMap::insert` for a key not present; the loop of `decode_shard_cursors`
(/repo/src/network/server.rs:280-288) stops at the first repeated shard. -/
def insertCursors : List ShardCursor → List (Nat × ShardScan) → Except HubErr (List (Nat × ShardScan))
  | [], acc => .ok acc
  | c :: cs, acc =>
    if acc.any (fun p => p.1 = c.shard) then .error .invalidParameter
    else insertCursors cs (acc ++ [(c.shard, c.scan)])

/-- `decode_shard_cursors`, /repo/src/network/server.rs:262-295. -/
def decodeShardCursors (token : TokenIn (List ShardCursor)) (shards : List Nat) :
    Except HubErr (List (Nat × ShardScan)) :=
  match token with
  | .absent => .ok (shards.map (fun s => (s, .fresh)))
  | .bad => .error .invalidParameter
  | .given cs =>
    match insertCursors cs [] with
    | .error e => .error e
    | .ok scans =>
      if scans.length ≠ shards.length || shards.any (fun s => !scans.any (fun p => p.1 = s))
      then .error .invalidParameter
      else .ok scans

/-- `encode_shard_cursors`, /repo/src/network/server.rs:301-311. -/
def encodeShardCursors (cs : List ShardCursor) : Option (List ShardCursor) :=
  if cs.all (fun c => c.scan = .exhausted) then none else some cs

/-- `channel_page_options`, /repo/src/network/server.rs:171-190; store tokens come from cursors and an
empty one counts as absent. -/
def channelPageOptions (pageSize : Option Nat) (token : Option Bytes) (reverse : Bool) : PageOptions :=
  { pageSize := some (min (pageSize.getD pageSizeMax) pageSizeMax)
    pageToken := token.filter (fun t => !t.isEmpty)
    reverse := reverse }

/-- `all_shard_stores`, /repo/src/network/server.rs:1056-1072: the shards 1..=n, all of them. -/
def allShardStores {S : Type} (hosted : Nat → Option S) (n : Nat) : Except HubErr (List (Nat × S)) :=
  (List.range' 1 n).foldr (fun s acc =>
    match hosted s, acc with
    | some st, .ok rest => .ok ((s, st) :: rest)
    | none, _ => .error .invalidInternalState
    | some _, .error e => .error e) (.ok [])

/-- The store token a scan stands for, /repo/src/network/server.rs:3313-3315. -/
def ShardScan.token : ShardScan → Option Bytes
  | .resume t => some t
  | _ => none

/-- The scan after a page, /repo/src/network/server.rs:3348-3351. -/
def ShardScan.after : Option Bytes → ShardScan
  | some t => .resume t
  | none => .exhausted

/-- What the follower loop does for the shards in turn, /repo/src/network/server.rs:3310-3353.  `page` reads
one shard; scans are removed from the map as they are used, so a shard is looked up once. -/
def fanOutLoop {S M : Type} (page : S → Option Bytes → Except HubErr (MessagesPage M)) :
    List (Nat × S) → List (Nat × ShardScan) → Except HubErr (List M × List ShardCursor)
  | [], _ => .ok ([], [])
  | (s, st) :: rest, scans =>
    match scans.find? (fun p => p.1 = s) with
    | none => .error .internal
    | some (_, .exhausted) =>
      match fanOutLoop page rest scans with
      | .error e => .error e
      | .ok (ms, cs) => .ok (ms, ⟨s, .exhausted⟩ :: cs)
    | some (_, scan) =>
      match page st scan.token with
      | .error e => .error e
      | .ok pg =>
        match fanOutLoop page rest scans with
        | .error e => .error e
        | .ok (ms, cs) =>
          .ok (pg.messages ++ ms, ⟨s, .after pg.nextPageToken⟩ :: cs)

/-- One page over the given shards, /repo/src/network/server.rs:3308-3358. -/
def fanOutPage {S M : Type} (page : S → Option Bytes → Except HubErr (MessagesPage M)) (shards : List (Nat × S))
    (token : TokenIn (List ShardCursor)) : Except HubErr (List M × Option (List ShardCursor)) :=
  match decodeShardCursors token (shards.map Prod.fst) with
  | .error e => .error e
  | .ok scans =>
    match fanOutLoop page shards scans with
    | .error e => .error e
    | .ok (ms, cs) => .ok (ms, encodeShardCursors cs)

/-- `get_channel_followers`, /repo/src/network/server.rs:3298-3359.  An answer is the followers and the
next token, if any. -/
def getChannelFollowers (hosted : Nat → Option (Db SVal)) (n : Nat) (channel : Bytes) (pageSize : Option Nat)
    (token : TokenIn (List ShardCursor)) (reverse : Bool) :
    Except HubErr (List FollowEntry × Option (List ShardCursor)) :=
  if channel.length ≠ 32 then .error .invalidParameter
  else if pageSize = some 0 then .error .invalidParameter
  else match allShardStores hosted n with
    | .error e => .error e
    | .ok shards =>
      fanOutPage (fun db t => followersByChannel db channel (channelPageOptions pageSize t reverse)) shards token

/-- The sum of `get_channel_follower_count`, /repo/src/network/server.rs:3368-3372. -/
def sumCounts (channel : Bytes) : List (Nat × Db SVal) → Except HubErr Nat
  | [] => .ok 0
  | (_, db) :: rest =>
    match followerCount db channel with
    | .error e => .error e
    | .ok c => match sumCounts channel rest with
      | .error e => .error e
      | .ok k => .ok (c + k)

/-- `get_channel_follower_count`, /repo/src/network/server.rs:3361-3375. -/
def getChannelFollowerCount (hosted : Nat → Option (Db SVal)) (n : Nat) (channel : Bytes) : Except HubErr Nat :=
  if channel.length ≠ 32 then .error .invalidParameter
  else match allShardStores hosted n with
    | .error e => .error e
    | .ok shards => sumCounts channel shards

/-! ### The listings by parent, mention and target -/

/-- One shard's page: an error counts as an empty last page (`unwrap_or`), a panic ends the request. -/
def pageOrEmpty {M : Type} (r : Except HubErr (MessagesPage M)) : Except HubErr (MessagesPage M) :=
  match r with
  | .error .panic => .error .panic
  | .error _ => .ok ⟨[], none⟩
  | .ok p => .ok p

/-- The pages of all shards, each from its own token. -/
def zipPages {S M : Type} (page : S → Option Bytes → Except HubErr (MessagesPage M)) :
    List (S × Option Bytes) → Except HubErr (List (MessagesPage M))
  | [] => .ok []
  | (s, t) :: rest =>
    match pageOrEmpty (page s t) with
    | .error e => .error e
    | .ok p => match zipPages page rest with
      | .error e => .error e
      | .ok ps => .ok (p :: ps)

/-- The common body of `get_casts_by_parent` (/repo/src/network/server.rs:2380-2438), `get_casts_by_mention`
(2440-2499), `get_reactions_by_cast` (2501-2577), `get_links_by_target` (3555-3631) and, with
`stopsAtEnd`, of `get_reactions_by_target` (2579-2660).  `shards` are the hosted stores in the order in
which the hash map yields them for this request. -/
def zipListing {S M : Type} (stopsAtEnd : Bool) (page : S → Option Bytes → Except HubErr (MessagesPage M))
    (shards : List S) (token : TokenIn (List (Option Bytes))) : Except HubErr (List M × Option (List (Option Bytes))) :=
  let tokens : Except HubErr (List (Option Bytes)) := match token with
    | .absent => .ok (shards.map (fun _ => none))
    | .bad => .error .invalidParameter
    | .given ts => .ok ts
  match tokens with
  | .error e => .error e
  | .ok ts =>
    if ts.length ≠ shards.length then .error .invalidParameter
    else match zipPages page (shards.zip ts) with
      | .error e => .error e
      | .ok ps =>
        let next := ps.map (fun p => p.nextPageToken)
        .ok (ps.flatMap (fun p => p.messages),
          if stopsAtEnd && !next.any Option.isSome then none else some next)

/-- `get_casts_by_parent` of the server, /repo/src/network/server.rs:2380-2438. -/
def serverCastsByParent (shards : List (Db SVal)) (parent : Target) (pageSize : Option Nat) (reverse : Bool)
    (token : TokenIn (List (Option Bytes))) : Except HubErr (List Msg × Option (List (Option Bytes))) :=
  zipListing false (fun db t => getCastsByParent db parent { pageSize := pageSize, pageToken := t, reverse := reverse })
    shards token

/-- `get_casts_by_mention` of the server, /repo/src/network/server.rs:2440-2499. -/
def serverCastsByMention (shards : List (Db SVal)) (fid : Nat) (pageSize : Option Nat) (reverse : Bool)
    (token : TokenIn (List (Option Bytes))) : Except HubErr (List Msg × Option (List (Option Bytes))) :=
  zipListing false (fun db t => getCastsByMention db fid { pageSize := pageSize, pageToken := t, reverse := reverse })
    shards token

/-- `get_links_by_target` of the server, /repo/src/network/server.rs:3555-3631; the link type is required. -/
def serverLinksByTarget (shards : List (Db SVal)) (fid : Nat) (type : Bytes) (pageSize : Option Nat) (reverse : Bool)
    (token : TokenIn (List (Option Bytes))) : Except HubErr (List Msg × Option (List (Option Bytes))) :=
  zipListing false (fun db t => getLinksByTarget db fid type { pageSize := pageSize, pageToken := t, reverse := reverse })
    shards token

/-- `get_reactions_by_cast` of the server, /repo/src/network/server.rs:2501-2577; type and cast are required. -/
def serverReactionsByCast (shards : List (Db SVal)) (fid : Nat) (hash : Bytes) (type : Nat) (pageSize : Option Nat)
    (reverse : Bool) (token : TokenIn (List (Option Bytes))) :
    Except HubErr (List Msg × Option (List (Option Bytes))) :=
  zipListing false
    (fun db t => getReactionsByTarget db (.castId fid hash) type
      { pageSize := pageSize, pageToken := t, reverse := reverse })
    shards token

/-- `get_reactions_by_target` of the server, /repo/src/network/server.rs:2579-2660; type 0 if none is
given. -/
def serverReactionsByTarget (shards : List (Db SVal)) (target : Target) (type : Nat) (pageSize : Option Nat)
    (reverse : Bool) (token : TokenIn (List (Option Bytes))) :
    Except HubErr (List Msg × Option (List (Option Bytes))) :=
  zipListing true
    (fun db t => getReactionsByTarget db target type { pageSize := pageSize, pageToken := t, reverse := reverse })
    shards token

end Verif
