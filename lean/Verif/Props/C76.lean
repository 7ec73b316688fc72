import Verif.Lemmas.FanOut
import Verif.Lemmas.ZipListing
import Verif.Lemmas.FollowIndex
import Verif.Model.Routing
import Verif.Props.C61
import Verif.Props.C75
/-!
C76: listings over all shards.  The follower reads enumerate all shards exactly.  The older listings keep
one optional token per shard and take a finished shard for a fresh one: their result is exact only if all
shards take the same number of pages, and four of the five never tell a client to stop.
-/
namespace Verif

/-- The followers of a channel over all shards: following the tokens ends, and lists every follower on any
shard once; the count is the number of followers. -/
theorem C76_followers (sha256 : Bytes → Bytes) (channelOf : Bytes → Option Bytes) (hch : ChannelNaming channelOf)
    (ctx : Nat → MergeCtx) (n : Nat) (U : Nat → Msg → Prop) (hU : ∀ s, HashesIdentify (U s))
    (hroute : ∀ s m, U s m → routeFid sha256 m.fid n = some s) (hist : Nat → List StoreOp)
    (hr : ∀ s, 1 ≤ s → s ≤ n → StoreKind.reactions.ProperRun channelOf ctx (U s) {} (hist s))
    (hosted : Nat → Option (Db SVal)) (channel : Bytes) (hc : channel.length = 32) :
    let db := fun s => (({} : StoreState).run (reactionStore channelOf) ctx (hist s)).db
    (∀ s, 1 ≤ s → s ≤ n → hosted s = some (db s)) →
    ∃ es : List FollowEntry, (es.map FollowEntry.fid).Nodup ∧
      (∀ e, e ∈ es ↔ e.channel = channel ∧
        ∃ s, 1 ≤ s ∧ s ≤ n ∧ FollowsSince channelOf ctx (db s) e.fid channel e.followedAt) ∧
      getChannelFollowerCount hosted n channel = .ok es.length ∧
      ∀ pageSize rev, pageSize ≠ some 0 →
        ∃ ms, FollowsTo (fun t => getChannelFollowers hosted n channel pageSize t rev) .absent ms ∧ ms.Perm es := by
  intro db hh
  have hrow : ∀ s, 1 ≤ s ∧ s ≤ n → CommittedRows .reactions channelOf ctx (U s) (db s) :=
    fun s hs => kind_committed hch (hU s) (hist s) (hr s hs.1 hs.2)
  have H : ∀ s, ∃ es : List FollowEntry, (1 ≤ s ∧ s ≤ n) → es.Pairwise (fun a b => a.fid < b.fid) ∧
      (∀ e, e ∈ es ↔ e.channel = channel ∧ FollowsSince channelOf ctx (db s) e.fid channel e.followedAt) ∧
      followerCount (db s) channel = .ok es.length ∧
      ∀ n rev, FollowTokens (fun t => followersByChannel (db s) channel { pageSize := n, pageToken := t, reverse := rev })
        none (inDirection rev es) := by
    intro s
    by_cases hs : 1 ≤ s ∧ s ≤ n
    · obtain ⟨es, h⟩ := list_followers (hrow s hs) hch hc
      exact ⟨es, fun _ => h⟩
    · exact ⟨[], fun h => absurd h hs⟩
  obtain ⟨es, hes⟩ := Classical.skolem.1 H
  have hmem : ∀ s ∈ List.range' 1 n, 1 ≤ s ∧ s ≤ n := by
    intro s hs
    rw [List.mem_range'_1] at hs
    exact ⟨hs.1, by omega⟩
  have hfid : ∀ s ∈ List.range' 1 n, ∀ e ∈ es s, routeFid sha256 e.fid n = some s := by
    intro s hs e he
    obtain ⟨_, m, u, hcm, hf, _⟩ := ((hes s (hmem s hs)).2.1 e).1 he
    rw [← hf]
    exact hroute s m ((hrow s (hmem s hs)).valid hcm).2
  have hstores := allShardStores_ok hosted n db hh
  refine ⟨(List.range' 1 n).flatMap es, ?_, ?_, ?_, ?_⟩
  · have : ∀ l : List Nat, l.Nodup → (∀ s ∈ l, s ∈ List.range' 1 n) → ((l.flatMap es).map FollowEntry.fid).Nodup := by
      intro l
      induction l with
      | nil => intro _ _; simp
      | cons s l ih =>
        intro hn hs
        simp only [List.flatMap_cons, List.map_append, List.nodup_append]
        refine ⟨?_, ih (List.nodup_cons.1 hn).2 (fun s h => hs s (by simp [h])), ?_⟩
        · have := (hes s (hmem s (hs s (by simp)))).1
          rw [List.Nodup, List.pairwise_map]
          exact this.imp (fun h => by omega)
        · intro a ha b hb e
          obtain ⟨x, hx, rfl⟩ := List.mem_map.1 ha
          obtain ⟨y, hy, rfl⟩ := List.mem_map.1 hb
          obtain ⟨s', hs', hy⟩ := List.mem_flatMap.1 hy
          have h1 := hfid s (hs s (by simp)) x hx
          have h2 := hfid s' (hs s' (by simp [hs'])) y hy
          rw [e, h2] at h1
          injection h1 with h1
          exact (List.nodup_cons.1 hn).1 (h1 ▸ hs')
    exact this _ List.nodup_range' (fun _ h => h)
  · intro e
    simp only [List.mem_flatMap]
    constructor
    · rintro ⟨s, hs, he⟩
      have h := ((hes s (hmem s hs)).2.1 e).1 he
      exact ⟨h.1, s, (hmem s hs).1, (hmem s hs).2, h.2⟩
    · rintro ⟨h1, s, h2, h3, h4⟩
      exact ⟨s, by rw [List.mem_range'_1]; omega, ((hes s ⟨h2, h3⟩).2.1 e).2 ⟨h1, h4⟩⟩
  · unfold getChannelFollowerCount
    rw [if_neg (by simp [hc]), hstores]
    simp only
    have : ∀ l : List Nat, (∀ s ∈ l, s ∈ List.range' 1 n) →
        sumCounts channel (l.map (fun s => (s, db s))) = .ok (l.flatMap es).length := by
      intro l
      induction l with
      | nil => intro _; rfl
      | cons s l ih =>
        intro hs
        rw [List.map_cons, sumCounts, (hes s (hmem s (hs s (by simp)))).2.2.1]
        simp only
        rw [ih (fun s h => hs s (by simp [h]))]
        simp
    exact this _ (fun _ h => h)
  · intro ps rev hps
    let page := fun (d : Db SVal) t => followersByChannel d channel (channelPageOptions ps t rev)
    have hpages : ∀ x ∈ (List.range' 1 n).map (fun s => (s, db s)),
        FollowTokens (page x.2) none (inDirection rev (es x.1)) := by
      intro x hx
      obtain ⟨s, hs, rfl⟩ := List.mem_map.1 hx
      refine FollowTokens.nonempty (page := fun t => followersByChannel (db s) channel
        { pageSize := some (min (ps.getD pageSizeMax) pageSizeMax), pageToken := t, reverse := rev }) ?_ ?_ (by simp)
        ((hes s (hmem s hs)).2.2.2 _ rev)
      · intro t ht
        simp only [page, channelPageOptions]
        cases t with
        | none => rfl
        | some t => cases t with
          | nil => exact absurd rfl ht
          | cons a t => rfl
      · intro p
        simp [followersByChannel, followPage, requirePageTokenInPrefix]
    obtain ⟨ms, hf, hp⟩ := fan_start (page := page) _ (fun x => inDirection rev (es x.1))
      (by simpa [Function.comp_def] using List.nodup_range') hpages
    have heq : (fun t => getChannelFollowers hosted n channel ps t rev) =
        fanOutPage page ((List.range' 1 n).map (fun s => (s, db s))) := by
      funext t
      unfold getChannelFollowers
      rw [if_neg (by simp [hc]), if_neg hps, hstores]
    refine ⟨ms, heq ▸ hf, hp.trans ?_⟩
    rw [List.flatMap_map]
    generalize List.range' 1 n = l
    induction l with
    | nil => simp
    | cons s l ih =>
      simp only [List.flatMap_cons]
      refine List.Perm.append ?_ ih
      unfold inDirection
      split
      · exact List.reverse_perm _
      · exact List.Perm.refl _

/-- A node without all the shards refuses rather than under-report. -/
theorem C76_incomplete_node (hosted : Nat → Option (Db SVal)) (n s : Nat) (h1 : 1 ≤ s) (h2 : s ≤ n)
    (h : hosted s = none) (channel : Bytes) (pageSize : Option Nat) (token : TokenIn (List ShardCursor)) (rev : Bool) :
    (∀ r, getChannelFollowers hosted n channel pageSize token rev ≠ .ok r) ∧
    (∀ r, getChannelFollowerCount hosted n channel ≠ .ok r) := by
  unfold getChannelFollowers getChannelFollowerCount
  rw [allShardStores_missing hosted n s h1 h2 h]
  constructor <;> intro r <;> (repeat' split) <;> simp_all

/-- A token that does not name each shard of the node exactly once is refused. -/
theorem C76_bad_token (hosted : Nat → Option (Db SVal)) (n : Nat) (channel : Bytes) (pageSize : Option Nat)
    (cs : List ShardCursor) (rev : Bool) (h : ¬ (cs.map ShardCursor.shard).Perm (List.range' 1 n)) :
    ∀ r, getChannelFollowers hosted n channel pageSize (.given cs) rev ≠ .ok r := by
  intro r
  by_cases hh : ∀ s, 1 ≤ s → s ≤ n → ∃ db, hosted s = some db
  · have H : ∀ s, ∃ db, 1 ≤ s → s ≤ n → hosted s = some db := by
      intro s
      by_cases hs : 1 ≤ s ∧ s ≤ n
      · obtain ⟨db, e⟩ := hh s hs.1 hs.2
        exact ⟨db, fun _ _ => e⟩
      · exact ⟨({} : StoreState).db, fun a b => absurd ⟨a, b⟩ hs⟩
    obtain ⟨db, hdb⟩ := Classical.skolem.1 H
    unfold getChannelFollowers fanOutPage
    rw [allShardStores_ok hosted n db hdb]
    have hs : (((List.range' 1 n).map (fun s => (s, db s))).map Prod.fst) = List.range' 1 n := by simp [Function.comp_def]
    rcases decode_given cs (List.range' 1 n) List.nodup_range' with ⟨h', _⟩ | ⟨_, h'⟩
    · exact absurd h' h
    · simp only [hs, h']
      (repeat' split) <;> simp
  · obtain ⟨s, hs⟩ := Classical.not_forall.1 hh
    have h1 : 1 ≤ s := Classical.byContradiction fun c => hs (fun a => absurd a c)
    have h2 : s ≤ n := Classical.byContradiction fun c => hs (fun _ a => absurd a c)
    refine (C76_incomplete_node hosted n s h1 h2 ?_ channel pageSize _ rev).1 r
    cases e : hosted s with
    | none => rfl
    | some db => exact absurd (fun _ _ => ⟨db, e⟩) hs

/-! ### The older listings -/

/-- Casts by parent, casts by mention and links by target never end: no request is ever answered
without a next token, so a client that follows the tokens goes on forever. -/
theorem C76_never_ends (dbs : List (Db SVal)) (pageSize : Option Nat) (rev : Bool) (t : TokenIn (List (Option Bytes)))
    (ms : List Msg) :
    (∀ parent, ¬ FollowsTo (serverCastsByParent dbs parent pageSize rev) t ms) ∧
    (∀ fid, ¬ FollowsTo (serverCastsByMention dbs fid pageSize rev) t ms) ∧
    (∀ fid type, ¬ FollowsTo (serverLinksByTarget dbs fid type pageSize rev) t ms) ∧
    (∀ fid hash type, ¬ FollowsTo (serverReactionsByCast dbs fid hash type pageSize rev) t ms) := by
  have main : ∀ (page : Db SVal → Option Bytes → Except HubErr (MessagesPage Msg)) t ms,
      ¬ FollowsTo (zipListing false page dbs) t ms := by
    intro page t ms h
    induction h with
    | last e =>
      unfold zipListing at e
      simp only [Bool.false_and] at e
      (repeat' split at e) <;> simp_all
    | next _ _ ih => exact ih
  exact ⟨fun _ => main _ t ms, fun _ => main _ t ms, fun _ _ => main _ t ms, fun _ _ _ => main _ t ms⟩

/-- A token that does not decode, or that does not have one entry per shard, is refused by the older listings. -/
theorem C76_bad_zip_token (dbs : List (Db SVal)) (pageSize : Option Nat) (rev : Bool) (t : TokenIn (List (Option Bytes)))
    (ht : t = .bad ∨ ∃ ts, t = .given ts ∧ ts.length ≠ dbs.length) :
    (∀ parent, serverCastsByParent dbs parent pageSize rev t = .error .invalidParameter) ∧
    (∀ fid, serverCastsByMention dbs fid pageSize rev t = .error .invalidParameter) ∧
    (∀ fid type, serverLinksByTarget dbs fid type pageSize rev t = .error .invalidParameter) ∧
    (∀ fid hash type, serverReactionsByCast dbs fid hash type pageSize rev t = .error .invalidParameter) ∧
    (∀ target type, serverReactionsByTarget dbs target type pageSize rev t = .error .invalidParameter) := by
  have main : ∀ b (page : Db SVal → Option Bytes → Except HubErr (MessagesPage Msg)),
      zipListing b page dbs t = .error .invalidParameter := by
    intro b page
    rcases ht with rfl | ⟨ts, rfl, h⟩
    · rfl
    · simp only [zipListing, if_pos h]
  exact ⟨fun _ => main _ _, fun _ => main _ _, fun _ _ => main _ _, fun _ _ _ => main _ _, fun _ _ => main _ _⟩

/-- Two shards and a token with one entry. -/
example : ([none] : List (Option Bytes)).length ≠ ([OMap.empty, OMap.empty] : List (Db SVal)).length := by decide

/-- Reactions by target: if shard `db` lists its messages `L db` in `k db` pages, then the combined listing
takes the least common multiple `N` of these numbers of pages and lists the messages of each shard
`N / k db` times. -/
theorem C76_reactions_by_target (dbs : List (Db SVal)) (hne : dbs ≠ []) (target : Target) (ty : Nat)
    (pageSize : Option Nat) (rev : Bool) (k : Db SVal → Nat) (L : Db SVal → List Msg)
    (h : ∀ db ∈ dbs, PagesTo
      (fun t => getReactionsByTarget db target ty { pageSize := pageSize, pageToken := t, reverse := rev }) none (k db) (L db))
    (N : Nat) (hN : 1 ≤ N) (hdvd : ∀ db ∈ dbs, k db ∣ N) (hmin : ∀ n, 1 ≤ n → (∀ db ∈ dbs, k db ∣ n) → N ≤ n) :
    ∃ ms, FollowsTo (serverReactionsByTarget dbs target ty pageSize rev) .absent ms ∧
      ms.Perm (dbs.flatMap (fun db => (List.replicate (N / k db) (L db)).flatten)) :=
  zip_start N dbs k L hne h hN hdvd hmin

/-- If all shards take the same number of pages, every message is listed once per shard that has it. -/
theorem C76_same_number_of_pages (dbs : List (Db SVal)) (hne : dbs ≠ []) (target : Target) (ty : Nat)
    (pageSize : Option Nat) (rev : Bool) (k : Nat) (L : Db SVal → List Msg)
    (h : ∀ db ∈ dbs, PagesTo
      (fun t => getReactionsByTarget db target ty { pageSize := pageSize, pageToken := t, reverse := rev }) none k (L db)) :
    ∃ ms, FollowsTo (serverReactionsByTarget dbs target ty pageSize rev) .absent ms ∧ ms.Perm (dbs.flatMap L) := by
  obtain ⟨d, hd⟩ : ∃ d, d ∈ dbs := by cases dbs with | nil => exact absurd rfl hne | cons d _ => exact ⟨d, by simp⟩
  have hk := (h d hd).pos
  obtain ⟨ms, h1, h2⟩ := C76_reactions_by_target dbs hne target ty pageSize rev (fun _ => k) L h k hk
    (fun _ _ => Nat.dvd_refl k) (fun n hn hdvd => Nat.le_of_dvd hn (hdvd d hd))
  refine ⟨ms, h1, ?_⟩
  simpa [Nat.div_self hk] using h2

/-- If two shards take different numbers of pages, every message of the shard with fewer is listed at
least twice. -/
theorem C76_duplicates (dbs : List (Db SVal)) (target : Target) (ty : Nat) (pageSize : Option Nat) (rev : Bool)
    (k : Db SVal → Nat) (L : Db SVal → List Msg)
    (h : ∀ db ∈ dbs, PagesTo
      (fun t => getReactionsByTarget db target ty { pageSize := pageSize, pageToken := t, reverse := rev }) none (k db) (L db))
    (a b : Db SVal) (ha : a ∈ dbs) (hb : b ∈ dbs) (hab : k a < k b) (m : Msg) (hm : m ∈ L a) :
    ∃ ms, FollowsTo (serverReactionsByTarget dbs target ty pageSize rev) .absent ms ∧ 2 ≤ ms.count m := by
  have hex : ∃ N, 1 ≤ N ∧ (∀ db ∈ dbs, k db ∣ N) := by
    clear ha hb
    have hpos : ∀ db ∈ dbs, 1 ≤ k db := fun db hd => (h db hd).pos
    clear h
    induction dbs with
    | nil => exact ⟨1, by omega, by simp⟩
    | cons d ds ih =>
      obtain ⟨N, h1, h2⟩ := ih (fun x hx => hpos x (by simp [hx]))
      refine ⟨k d * N, Nat.mul_pos (hpos d (by simp)) h1, ?_⟩
      intro x hx
      rcases List.mem_cons.1 hx with rfl | hx
      · exact Nat.dvd_mul_right _ _
      · exact Nat.dvd_trans (h2 x hx) (Nat.dvd_mul_left _ _)
  have hleast : ∃ N, 1 ≤ N ∧ (∀ db ∈ dbs, k db ∣ N) ∧ ∀ n, 1 ≤ n → (∀ db ∈ dbs, k db ∣ n) → N ≤ n := by
    obtain ⟨N, hN⟩ := hex
    induction N using Nat.strongRecOn with
    | _ N ih =>
      by_cases hs : ∃ n, n < N ∧ 1 ≤ n ∧ ∀ db ∈ dbs, k db ∣ n
      · obtain ⟨n, h1, h2⟩ := hs
        exact ih n h1 h2
      · exact ⟨N, hN.1, hN.2, fun n h1 h2 => Nat.le_of_not_lt fun hlt => hs ⟨n, hlt, h1, h2⟩⟩
  obtain ⟨N, hN, hdvd, hmin⟩ := hleast
  obtain ⟨ms, h1, h2⟩ := C76_reactions_by_target dbs (List.ne_nil_of_mem ha) target ty pageSize rev k L h N hN hdvd hmin
  refine ⟨ms, h1, ?_⟩
  have hka := (h a ha).pos
  have hNa : 2 ≤ N / k a := by
    obtain ⟨q, hq⟩ := hdvd a ha
    have hle := Nat.le_of_dvd hN (hdvd b hb)
    rw [hq, Nat.mul_div_cancel_left _ hka]
    match q with
    | 0 => omega
    | 1 => omega
    | q + 2 => omega
  rw [h2.count_eq]
  have hsub : (List.replicate (N / k a) (L a)).flatten.Sublist
      (dbs.flatMap (fun db => (List.replicate (N / k db) (L db)).flatten)) := by
    obtain ⟨l1, l2, rfl⟩ := List.append_of_mem ha
    simp only [List.flatMap_append, List.flatMap_cons]
    exact (List.sublist_append_left _ _).trans (List.sublist_append_right _ _)
  refine Nat.le_trans ?_ (hsub.count_le m)
  obtain ⟨q, hq⟩ : ∃ q, N / k a = q + 2 := ⟨N / k a - 2, by omega⟩
  rw [hq]
  simp only [List.replicate_succ, List.flatten_cons, List.count_append]
  have := List.one_le_count_iff.2 hm
  omega

/-- With one shard the reactions to a target are listed exactly, under the condition of C61. -/
theorem C76_reactions_one_shard (channelOf : Bytes → Option Bytes) (hch : ChannelNaming channelOf)
    (ctx : Nat → MergeCtx) (U : Msg → Prop) (hU : HashesIdentify U) (ops : List StoreOp)
    (hr : StoreKind.reactions.ProperRun channelOf ctx U {} ops) (target : Target) (ht : target.Proper)
    (ty : Nat) (hty : ty < 256) (pageSize : Option Nat) (rev : Bool) :
    let D := reactionStore channelOf
    let db := (({} : StoreState).run D ctx ops).db
    (∀ m ty' t, Committed D db m → m.ReactsTo ty' t → (ty = 0 ∨ ty' = ty) → target.key <+: indexTail t m →
      t = target) →
    ∃ ms, FollowsTo (serverReactionsByTarget [db] target ty pageSize rev) .absent ms ∧ ms.Nodup ∧
      ∀ m, m ∈ ms ↔ Committed D db m ∧ ∃ ty', m.ReactsTo ty' target ∧ (ty = 0 ∨ ty' = ty) := by
  intro D db hfree
  obtain ⟨L, hs, hm, hf⟩ := C61_reactions_by_target channelOf hch ctx U hU ops hr target ht ty hty hfree
  obtain ⟨k, hk⟩ := (hf pageSize rev).pages
  obtain ⟨ms, h1, h2⟩ := C76_same_number_of_pages [db] (by simp) target ty pageSize rev k
    (fun _ => inDirection rev L) (by simpa using hk)
  have hp : ms.Perm L := by
    refine h2.trans ?_
    simp only [List.flatMap_cons, List.flatMap_nil, List.append_nil]
    unfold inDirection
    split
    · exact List.reverse_perm _
    · exact List.Perm.refl _
  refine ⟨ms, h1, ?_, fun m => (hp.mem_iff).trans (hm m)⟩
  rw [hp.nodup_iff]
  refine hs.imp ?_
  rintro a b hab rfl
  rcases hab with h | ⟨_, h | ⟨_, h⟩⟩
  · omega
  · rw [Bytes.blt_irrefl] at h; cases h
  · omega

instance : DecidableEq (Except HubErr (List Msg × Option (List (Option Bytes)))) :=
  fun a b => instDecidableEqExcept_verif a b

/-- An error of one shard is not reported: after one like of "ab" the reactions to "a" are answered as
a complete, empty list. -/
theorem C76_errors_hidden :
    serverReactionsByTarget [Case.reactionsDb [Case.likeA]] (.url [97]) 1 none false .absent = .ok ([Case.likeA], none) ∧
    serverReactionsByTarget [Case.reactionsDb [Case.likeA, Case.likeAB]] (.url [97]) 1 none false .absent =
      .ok ([], none) := by
  decide +kernel

namespace Case

def likeA2 : Msg := ⟨8, .reactionAdd, 104, h20 69, [1], .reaction 1 (some (.url [97]))⟩
def likeA3 : Msg := ⟨10, .reactionAdd, 105, h20 70, [1], .reaction 1 (some (.url [97]))⟩

end Case

/-- Two shards with one like and two likes of "a", read with page size 2: the like on the first shard comes
with both pages. -/
example :
    let dbs := [Case.reactionsDb [Case.likeA], Case.reactionsDb [Case.likeA2, Case.likeA3]]
    let token := [none, some (7 :: 97 :: (Case.likeA3.tsHash ++ be 4 10))]
    serverReactionsByTarget dbs (.url [97]) 1 (some 2) false .absent =
      .ok ([Case.likeA, Case.likeA2, Case.likeA3], some token) ∧
    serverReactionsByTarget dbs (.url [97]) 1 (some 2) false (.given token) = .ok ([Case.likeA], none) := by
  decide +kernel

/-- These shards meet the hypotheses of `C76_duplicates`: one page and two pages. -/
example :
    let page := fun db t => getReactionsByTarget db (.url [97]) 1 { pageSize := some 2, pageToken := t, reverse := false }
    PagesTo (page (Case.reactionsDb [Case.likeA])) none 1 [Case.likeA] ∧
    PagesTo (page (Case.reactionsDb [Case.likeA2, Case.likeA3])) none 2 [Case.likeA2, Case.likeA3] := by
  refine ⟨.last (by decide +kernel), ?_⟩
  exact .next (ms := [Case.likeA2, Case.likeA3]) (rest := []) (t' := 7 :: 97 :: (Case.likeA3.tsHash ++ be 4 10))
    (by decide +kernel) (.last (by decide +kernel))

namespace Case

/-- Two shards with a follower of channel "c" each, and a routing that sends 7 to shard 1 and 9 to shard 2. -/
def shard1 : Db SVal := (({} : StoreState).run (reactionStore oneChannel) allOn [.merge likeC, .commit]).db
def shard2 : Db SVal := (({} : StoreState).run (reactionStore oneChannel) allOn [.merge likeOfC, .commit]).db
def twoShards : Nat → Option (Db SVal) := fun s => if s = 1 then some shard1 else if s = 2 then some shard2 else none
/-- Any function will do for the hash here. -/
def hashByLast : Bytes → Bytes := fun b => [0, 0, 0, (if b = be 4 9 then 1 else 0)]

end Case

instance : DecidableEq (Except HubErr (List FollowEntry × Option (List ShardCursor))) :=
  fun a b => instDecidableEqExcept_verif a b

/-- The followers of "c", one per page and shard. -/
example :
    let c := List.replicate 32 5
    routeFid Case.hashByLast 7 2 = some 1 ∧ routeFid Case.hashByLast 9 2 = some 2 ∧
    getChannelFollowerCount Case.twoShards 2 c = .ok 2 ∧
    getChannelFollowers Case.twoShards 2 c none .absent false = .ok ([⟨7, c, 100⟩, ⟨9, c, 102⟩], none) ∧
    getChannelFollowers Case.twoShards 2 c (some 1) .absent false =
      .ok ([⟨7, c, 100⟩, ⟨9, c, 102⟩],
        some [⟨1, .resume (followByChannelKey c 7)⟩, ⟨2, .resume (followByChannelKey c 9)⟩]) ∧
    getChannelFollowers Case.twoShards 2 c (some 1)
      (.given [⟨1, .exhausted⟩, ⟨2, .resume (followByChannelKey c 8)⟩]) false =
      .ok ([⟨9, c, 102⟩], some [⟨1, .exhausted⟩, ⟨2, .resume (followByChannelKey c 9)⟩]) ∧
    getChannelFollowers Case.twoShards 2 c (some 1) (.given [⟨1, .exhausted⟩, ⟨1, .fresh⟩]) false =
      .error .invalidParameter := by
  decide +kernel

/-- The histories of these two shards are as `C76_followers` asks. -/
example :
    let U := fun s m => m ∈ Case.likes ∧ routeFid Case.hashByLast m.fid 2 = some s
    let hist := fun s => if s = 1 then [StoreOp.merge Case.likeC, .commit] else [.merge Case.likeOfC, .commit]
    (∀ s, HashesIdentify (U s)) ∧
    ∀ s, 1 ≤ s → s ≤ 2 → StoreKind.reactions.ProperRun Case.oneChannel Case.allOn (U s) {} (hist s) ∧
      Case.twoShards s = some (({} : StoreState).run (reactionStore Case.oneChannel) Case.allOn (hist s)).db := by
  refine ⟨fun s a b ha hb => Case.likes_hashes a b ha.1 hb.1, fun s h1 h2 => ?_⟩
  have v := Case.likes_valid
  obtain rfl | rfl : s = 1 ∨ s = 2 := by omega
  · exact ⟨⟨⟨v _ (by decide), by decide, by decide⟩, trivial, trivial⟩, rfl⟩
  · exact ⟨⟨⟨v _ (by decide), by decide, by decide⟩, trivial, trivial⟩, rfl⟩

end Verif
