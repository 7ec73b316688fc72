import Verif.Lemmas.FollowIndex
import Verif.Lemmas.ChannelUri
import Verif.Case.Store
/-!
C75: the channel follow index.  `FollowsSince` (Spec/Listing.lean) says in terms of the committed likes who
follows which channel since when; the four reads agree with it in every committed state of the reaction
store.
-/
namespace Verif

/-- Asking whether a user follows a channel always gives the answer the likes give. -/
theorem C75_is_following (channelOf : Bytes → Option Bytes) (hch : ChannelNaming channelOf)
    (ctx : Nat → MergeCtx) (U : Msg → Prop) (hU : HashesIdentify U) (ops : List StoreOp)
    (hr : StoreKind.reactions.ProperRun channelOf ctx U {} ops) (fid : Nat) (hf : fid < 2 ^ 32) (channel : Bytes) :
    let db := (({} : StoreState).run (reactionStore channelOf) ctx ops).db
    (∀ t, isFollowing db fid channel = .ok (some t) ↔ FollowsSince channelOf ctx db fid channel t) ∧
    (isFollowing db fid channel = .ok none ↔ ∀ t, ¬ FollowsSince channelOf ctx db fid channel t) := by
  intro db
  have h : CommittedRows .reactions channelOf ctx U db := kind_committed hch hU ops hr
  refine ⟨isFollowing_iff h hch hf, ?_⟩
  obtain ⟨o, ho⟩ := isFollowing_total h hch (fid := fid) (c := channel)
  constructor
  · intro hn t ht
    have := (isFollowing_iff h hch hf t).2 ht
    rw [hn] at this
    cases this
  · intro hn
    cases o with
    | none => exact ho
    | some t => exact absurd ((isFollowing_iff h hch hf t).1 ho) (hn t)

/-- The followers of a channel: whatever the page size and direction, following the tokens lists every
follower once, by fid, with the time since they follow, and the count is the length of that list. -/
theorem C75_followers (channelOf : Bytes → Option Bytes) (hch : ChannelNaming channelOf)
    (ctx : Nat → MergeCtx) (U : Msg → Prop) (hU : HashesIdentify U) (ops : List StoreOp)
    (hr : StoreKind.reactions.ProperRun channelOf ctx U {} ops) (channel : Bytes) (hc : channel.length = 32) :
    let db := (({} : StoreState).run (reactionStore channelOf) ctx ops).db
    ∃ es : List FollowEntry, es.Pairwise (fun a b => a.fid < b.fid) ∧
      (∀ e, e ∈ es ↔ e.channel = channel ∧ FollowsSince channelOf ctx db e.fid channel e.followedAt) ∧
      followerCount db channel = .ok es.length ∧
      ∀ n rev, FollowTokens (fun t => followersByChannel db channel { pageSize := n, pageToken := t, reverse := rev })
        none (inDirection rev es) :=
  list_followers (kind_committed hch hU ops hr) hch hc

/-- The channels a user follows: likewise, ordered by channel id. -/
theorem C75_follows (channelOf : Bytes → Option Bytes) (hch : ChannelNaming channelOf)
    (ctx : Nat → MergeCtx) (U : Msg → Prop) (hU : HashesIdentify U) (ops : List StoreOp)
    (hr : StoreKind.reactions.ProperRun channelOf ctx U {} ops) (fid : Nat) (hf : fid < 2 ^ 32) :
    let db := (({} : StoreState).run (reactionStore channelOf) ctx ops).db
    ∃ es : List FollowEntry, es.Pairwise (fun a b => Bytes.blt a.channel b.channel = true) ∧
      (∀ e, e ∈ es ↔ e.fid = fid ∧ FollowsSince channelOf ctx db fid e.channel e.followedAt) ∧
      ∀ n rev, FollowTokens (fun t => followsByFid db fid { pageSize := n, pageToken := t, reverse := rev })
        none (inDirection rev es) :=
  list_follows (kind_committed hch hU ops hr) hch hf

/-- A page token of one channel is refused for another. -/
theorem C75_foreign_token (db : Db SVal) (channel token : Bytes) (n : Option Nat) (rev : Bool)
    (ht : ¬ (25 :: 2 :: channel) <+: token) :
    followersByChannel db channel { pageSize := n, pageToken := some token, reverse := rev } =
      .error .invalidParameter := by
  unfold followersByChannel followPage requirePageTokenInPrefix
  simp only [List.isPrefixOf_iff_prefix, ht, if_false]

namespace Case

/-- A naming in which the URL "c" is a channel. -/
def oneChannel : Bytes → Option Bytes := fun u => if u = [99] then some (List.replicate 32 5) else none
theorem oneChannel_naming : ChannelNaming oneChannel := by
  constructor
  · intro u c h; unfold oneChannel at h; split at h
    · cases h; rfl
    · cases h
  · intro u u' c h h'
    unfold oneChannel at h h'
    split at h <;> split at h' <;> simp_all

def likeC : Msg := ⟨7, .reactionAdd, 100, h20 1, [1], .reaction 1 (some (.url [99]))⟩
def recastC : Msg := ⟨8, .reactionAdd, 101, h20 2, [1], .reaction 2 (some (.url [99]))⟩
def likeOfC : Msg := ⟨9, .reactionAdd, 102, h20 3, [1], .reaction 1 (some (.url [99]))⟩
def unlikeC : Msg := ⟨7, .reactionRemove, 103, h20 4, [1], .reaction 1 (some (.url [99]))⟩
def likes : List Msg := [likeC, recastC, likeOfC, unlikeC]

theorem likes_valid : ∀ m ∈ likes, StoreKind.reactions.Valid m := by
  intro m hm
  simp only [likes, List.mem_cons, List.not_mem_nil, or_false] at hm
  rcases hm with rfl | rfl | rfl | rfl
  · exact ⟨by decide, by decide, by decide, by decide, .inl rfl, _, _, rfl, by decide, by decide⟩
  · exact ⟨by decide, by decide, by decide, by decide, .inl rfl, _, _, rfl, by decide, by decide⟩
  · exact ⟨by decide, by decide, by decide, by decide, .inl rfl, _, _, rfl, by decide, by decide⟩
  · exact ⟨by decide, by decide, by decide, by decide, .inr rfl, _, _, rfl, by decide, by decide⟩

theorem likes_hashes : HashesIdentify (· ∈ likes) := by
  have h : ∀ a ∈ likes, ∀ b ∈ likes, a.fid = b.fid → a.ts = b.ts → a.hash = b.hash → a = b := by decide
  exact fun a b ha hb => h a ha b hb

end Case

/-- A history with two followers, a recast, which is no follow, and later an unfollow. -/
example : StoreKind.reactions.ProperRun Case.oneChannel Case.allOn (· ∈ Case.likes) {}
    [.merge Case.likeC, .merge Case.recastC, .merge Case.likeOfC, .commit, .merge Case.unlikeC, .commit] := by
  have v := Case.likes_valid
  exact ⟨⟨v _ (by decide), by decide⟩, ⟨v _ (by decide), by decide⟩, ⟨v _ (by decide), by decide⟩, trivial,
    ⟨v _ (by decide), by decide⟩, trivial, trivial⟩

/-- The reads before and after the unfollow. -/
example :
    let run := fun ops => (({} : StoreState).run (reactionStore Case.oneChannel) Case.allOn ops).db
    let before := run [.merge Case.likeC, .merge Case.recastC, .merge Case.likeOfC, .commit]
    let after := run [.merge Case.likeC, .merge Case.recastC, .merge Case.likeOfC, .commit, .merge Case.unlikeC, .commit]
    let c := List.replicate 32 5
    followerCount before c = .ok 2 ∧ isFollowing before 7 c = .ok (some 100) ∧ isFollowing before 8 c = .ok none ∧
    followersByChannel before c {} = .ok ⟨[⟨7, c, 100⟩, ⟨9, c, 102⟩], none⟩ ∧
    followerCount after c = .ok 1 ∧ isFollowing after 7 c = .ok none ∧
    followsByFid after 9 {} = .ok ⟨[⟨9, c, 102⟩], none⟩ := by
  decide +kernel

end Verif
