import Verif.Lemmas.ListingKinds
import Verif.Case.Store
/-!
C61: listings by parent, mention and target.  `db` is the committed database after any history of a store
(C11 tells which histories); `ListsExactly` says that paging through it in either direction with any page
size gives exactly the given messages, in order, each once.

For users (mentions and link targets) the listings are right.  For casts and URLs they are right as long as
no stored item has another target whose index bytes start with the bytes of the one asked for: the index
key is the bare target followed by timestamp, hash and fid, and the listing cuts the rows at fixed offsets.
Among casts this never happens.  Among URLs it happens as soon as one URL continues another, and then the
listing of the shorter one fails or contains foreign items.
-/
namespace Verif

/-- Casts by mention: exactly the committed casts that mention the user. -/
theorem C61_by_mention (channelOf : Bytes → Option Bytes) (hch : ChannelNaming channelOf)
    (ctx : Nat → MergeCtx) (U : Msg → Prop) (hU : HashesIdentify U) (ops : List StoreOp)
    (hr : StoreKind.casts.ProperRun channelOf ctx U {} ops) (fid : Nat) (hf : fid < 2 ^ 32) :
    let db := (({} : StoreState).run castStore ctx ops).db
    ListsExactly (getCastsByMention db fid) (fun m => Committed castStore db m ∧ m.Mentions fid) :=
  list_mentions (kind_committed hch hU ops hr) fid hf

/-- Links by target: exactly the committed links to the user, of the given type or of any type if none is
given. -/
theorem C61_links_by_target (channelOf : Bytes → Option Bytes) (hch : ChannelNaming channelOf)
    (ctx : Nat → MergeCtx) (U : Msg → Prop) (hU : HashesIdentify U) (ops : List StoreOp)
    (hr : StoreKind.links.ProperRun channelOf ctx U {} ops) (fid : Nat) (hf : fid < 2 ^ 32) (ty : Bytes) :
    let db := (({} : StoreState).run linkStore ctx ops).db
    ListsExactly (getLinksByTarget db fid ty)
      (fun m => Committed linkStore db m ∧ ∃ ty', m.LinksTo ty' fid ∧ (ty = [] ∨ ty' = ty)) :=
  list_links (kind_committed hch hU ops hr) fid hf ty

/-- Casts by parent: exactly the committed casts with that parent, unless one with another parent has index
bytes that start with the parent's. -/
theorem C61_by_parent (channelOf : Bytes → Option Bytes) (hch : ChannelNaming channelOf)
    (ctx : Nat → MergeCtx) (U : Msg → Prop) (hU : HashesIdentify U) (ops : List StoreOp)
    (hr : StoreKind.casts.ProperRun channelOf ctx U {} ops) (parent : Target) (hp : parent.Proper) :
    let db := (({} : StoreState).run castStore ctx ops).db
    (∀ m p, Committed castStore db m → m.HasParent p → parent.key <+: indexTail p m → p = parent) →
    ListsExactly (getCastsByParent db parent) (fun m => Committed castStore db m ∧ m.HasParent parent) :=
  fun hfree => list_parent (kind_committed hch hU ops hr) parent hp hfree

/-- Reactions by target: exactly the committed reactions to that target, of the given type or of any type
if it is 0, unless one to another target has index bytes that start with the target's. -/
theorem C61_reactions_by_target (channelOf : Bytes → Option Bytes) (hch : ChannelNaming channelOf)
    (ctx : Nat → MergeCtx) (U : Msg → Prop) (hU : HashesIdentify U) (ops : List StoreOp)
    (hr : StoreKind.reactions.ProperRun channelOf ctx U {} ops) (target : Target) (ht : target.Proper)
    (ty : Nat) (hty : ty < 256) :
    let D := reactionStore channelOf
    let db := (({} : StoreState).run D ctx ops).db
    (∀ m ty' t, Committed D db m → m.ReactsTo ty' t → (ty = 0 ∨ ty' = ty) → target.key <+: indexTail t m →
      t = target) →
    ListsExactly (getReactionsByTarget db target ty)
      (fun m => Committed D db m ∧ ∃ ty', m.ReactsTo ty' target ∧ (ty = 0 ∨ ty' = ty)) :=
  fun hfree => list_reactions (kind_committed hch hU ops hr) target ht ty hty hfree

/-- Cast ids never get in each other's way: if all stored reactions are to casts, the reactions to a cast
are listed exactly. -/
theorem C61_reactions_to_casts (channelOf : Bytes → Option Bytes) (hch : ChannelNaming channelOf)
    (ctx : Nat → MergeCtx) (U : Msg → Prop) (hU : HashesIdentify U) (ops : List StoreOp)
    (hr : StoreKind.reactions.ProperRun channelOf ctx U {} ops) (fid : Nat) (hash : Bytes) (hf : fid < 2 ^ 32)
    (hh : hash.length = 20) (ty : Nat) (hty : ty < 256) :
    let D := reactionStore channelOf
    let db := (({} : StoreState).run D ctx ops).db
    (∀ m ty' t, Committed D db m → m.ReactsTo ty' t → ∃ f h, t = .castId f h ∧ f < 2 ^ 32 ∧ h.length = 20) →
    ListsExactly (getReactionsByTarget db (.castId fid hash) ty)
      (fun m => Committed D db m ∧ ∃ ty', m.ReactsTo ty' (.castId fid hash) ∧ (ty = 0 ∨ ty' = ty)) := by
  intro D db hall
  refine C61_reactions_by_target channelOf hch ctx U hU ops hr (.castId fid hash) ⟨hf, hh⟩ ty hty ?_
  intro m ty' t hc hx _ hp
  obtain ⟨f, h, rfl, hf', hh'⟩ := hall m ty' t hc hx
  have := prefix_fixed (by simp [Target.key, makeCastIdKey, makeFidKey, hh, hh']) hp
  simp only [Target.key, makeCastIdKey] at this
  obtain ⟨e1, e2⟩ := List.append_inj this (by simp [makeFidKey])
  rw [be_inj (w := 4) (by omega) (by omega) e1, e2]

/-! ### URLs that continue one another -/

namespace Case

/-- Three likes: of "a", of "ab", and of "a" followed by the index bytes of the first like of "z". -/
def likeA : Msg := ⟨7, .reactionAdd, 100, h20 65, [1], .reaction 1 (some (.url [97]))⟩
def likeAB : Msg := ⟨8, .reactionAdd, 101, h20 66, [1], .reaction 1 (some (.url [97, 98]))⟩
def likeZ : Msg := ⟨9, .reactionAdd, 102, h20 67, [1], .reaction 1 (some (.url [122]))⟩
def likeForged : Msg :=
  ⟨8, .reactionAdd, 103, h20 68, [1], .reaction 1 (some (.url (97 :: (be 4 102 ++ h20 67 ++ be 4 9))))⟩

/-- The database after merging and committing some messages. -/
def reactionsDb (ms : List Msg) : Db SVal :=
  (({} : StoreState).run (reactionStore noChannels) allOn (ms.map .merge ++ [.commit])).db

end Case

/-- One like of "ab" by anyone is enough to make every listing of the likes of "a" fail. -/
theorem C61_longer_url_breaks_listing :
    getReactionsByTarget (Case.reactionsDb [Case.likeA]) (.url [97]) 1 {} = .ok ⟨[Case.likeA], none⟩ ∧
    getReactionsByTarget (Case.reactionsDb [Case.likeA, Case.likeAB]) (.url [97]) 1 {} = .error .notFound := by
  decide +kernel

/-- Worse, a like of a suitable longer URL puts a like of something else into the listing. -/
theorem C61_longer_url_injects :
    getReactionsByTarget (Case.reactionsDb [Case.likeA, Case.likeZ, Case.likeForged]) (.url [97]) 1 {} =
      .ok ⟨[Case.likeA, Case.likeZ], none⟩ := by
  decide +kernel

/-- Asking for a URL that continues a stored one into its timestamp makes the node panic. -/
theorem C61_shorter_url_panics :
    getReactionsByTarget (Case.reactionsDb [Case.likeA]) (.url [97, 0]) 1 {} = .error .panic := by
  decide +kernel

/-- A history with two casts, one mentioning users 9 and 12 under parent "h". -/
example : StoreKind.casts.ProperRun Case.noChannels Case.allOn (· ∈ Case.casts) {}
    [.merge Case.castA, .merge Case.castB, .commit] :=
  ⟨⟨Case.casts_valid _ (by decide), by decide⟩, ⟨Case.casts_valid _ (by decide), by decide⟩, trivial, trivial⟩

/-- No stored cast in it gets in the way of the parent "h". -/
example :
    let db := (({} : StoreState).run castStore Case.allOn [.merge Case.castA, .merge Case.castB, .commit]).db
    ∀ m p, Committed castStore db m → m.HasParent p → (Target.url [104]).key <+: indexTail p m → p = .url [104] := by
  intro db m p hc hp _
  have h := kind_committed (kind := .casts) (ctx := Case.allOn) Case.noChannels_naming Case.casts_hashes
    [.merge Case.castA, .merge Case.castB, .commit]
    ⟨⟨Case.casts_valid _ (by decide), by decide⟩, ⟨Case.casts_valid _ (by decide), by decide⟩, trivial, trivial⟩
  have hm : m ∈ Case.casts := (h.valid hc).2
  simp only [Case.casts, List.mem_cons, List.not_mem_nil, or_false] at hm
  obtain ⟨_, ms, hb⟩ := hp
  rcases hm with rfl | rfl | rfl
  · simp only [Case.castA, Body.castAdd.injEq, Option.some.injEq] at hb; exact hb.1.symm
  · simp [Case.castARemove] at hb
  · simp [Case.castB] at hb

/-- In it the listings are not empty. -/
example :
    let db := (({} : StoreState).run castStore Case.allOn [.merge Case.castA, .merge Case.castB, .commit]).db
    getCastsByMention db 12 {} = .ok ⟨[Case.castA], none⟩ ∧ getCastsByMention db 7 {} = .ok ⟨[], none⟩ ∧
    getCastsByParent db (.url [104]) { pageSize := some 1 } =
      .ok ⟨[Case.castA], some (4 :: 104 :: (Case.castA.tsHash ++ be 4 7))⟩ := by
  decide +kernel

/-- Links by target and type. -/
example :
    let db := (({} : StoreState).run linkStore Case.allOn [.merge Case.follow8, .merge Case.follow9, .commit]).db
    getLinksByTarget db 8 [102] {} = .ok ⟨[Case.follow8], none⟩ ∧ getLinksByTarget db 8 [] {} = .ok ⟨[Case.follow8], none⟩ ∧
    getLinksByTarget db 8 [103] {} = .ok ⟨[], none⟩ := by
  decide +kernel

end Verif
