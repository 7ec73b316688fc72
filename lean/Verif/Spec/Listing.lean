import Verif.Model.Listing
import Verif.Spec.Store
/-!
Specification vocabulary for listings: what it means for a message to be committed, in which order a
listing goes, and when a paged listing gives exactly a set of messages.
-/
namespace Verif

/-- A message is committed: its own row is in the database. -/
def Committed (D : StoreDef) (db : Db SVal) (m : Msg) : Prop :=
  db.get (makeMessagePrimaryKey m.fid D.set (some m.tsHash)) = some (.msg m)

/-- Listing order: by timestamp, then by hash, then by author. -/
def Msg.ListedBefore (a b : Msg) : Prop :=
  a.ts < b.ts ∨ (a.ts = b.ts ∧ (Bytes.blt a.hash b.hash = true ∨ (a.hash = b.hash ∧ a.fid < b.fid)))

/-- Whatever the page size, following next-page tokens from the start succeeds and yields exactly the
messages satisfying `P`, each once, oldest first or newest first as asked. -/
def ListsExactly (page : PageOptions → Except HubErr (MessagesPage Msg)) (P : Msg → Prop) : Prop :=
  ∃ ms : List Msg, ms.Pairwise Msg.ListedBefore ∧ (∀ m, m ∈ ms ↔ P m) ∧
    ∀ (n : Option Nat) (rev : Bool),
      FollowTokens (fun t => page { pageSize := n, pageToken := t, reverse := rev }) none (inDirection rev ms)

/-- The cast a message makes has this parent. -/
def Msg.HasParent (m : Msg) (parent : Target) : Prop :=
  m.ty = .castAdd ∧ ∃ ms, m.body = .castAdd (some parent) ms

/-- The cast a message makes mentions this user. -/
def Msg.Mentions (m : Msg) (fid : Nat) : Prop :=
  m.ty = .castAdd ∧ ∃ p ms, m.body = .castAdd p ms ∧ fid ∈ ms

/-- The message links to this user with a link of this type. -/
def Msg.LinksTo (m : Msg) (type : Bytes) (target : Nat) : Prop :=
  m.ty = .linkAdd ∧ m.body = .link type (some target)

/-- The message reacts to this target with a reaction of this type. -/
def Msg.ReactsTo (m : Msg) (type : Nat) (target : Target) : Prop :=
  m.ty = .reactionAdd ∧ m.body = .reaction type (some target)

/-- A target as requests carry it: cast ids have 32-bit fids and 20-byte hashes, URLs are UTF-8 text, in
which the byte 255 never occurs. -/
def Target.Proper : Target → Prop
  | .url u => 255 ∉ u
  | .castId fid hash => fid < 2 ^ 32 ∧ hash.length = 20

/-- The bytes under which an index finds a message by a target. -/
def indexTail (t : Target) (m : Msg) : Bytes := t.key ++ (m.tsHash ++ be 4 m.fid)

/-- User `fid` follows `channel` since `since`: a committed like of a URL naming the channel, made at a time
when following channels was enabled. -/
def FollowsSince (channelOf : Bytes → Option Bytes) (ctx : Nat → MergeCtx) (db : Db SVal) (fid : Nat)
    (channel : Bytes) (since : Nat) : Prop :=
  ∃ m u, Committed (reactionStore channelOf) db m ∧ m.fid = fid ∧ m.ts = since ∧ m.ReactsTo 1 (.url u) ∧
    channelOf u = some channel ∧ (ctx m.ts).follows = true

end Verif
