import Verif.Lemmas.Shard
import Verif.Case.Store
/-!
C83: the message stores of a shard do not disturb one another.  Casts, reactions, links, verifications, user data and
storage loans live in one database and share one write batch and one event log; other parts of the node write to the
same batch.  A history starts empty and has calls to the stores in any order, commits, dropped batches and writes of
others outside the stores' tables.
-/
namespace Verif
open StoreDef

/-- No key is in the tables of two stores, nor in a store's tables and the event log. -/
theorem C83_tables_apart (a b : StoreKind) (hab : a ≠ b) (k : Bytes) (h : a.Owns k) :
    ¬ b.Owns k ∧ ∀ id, k ≠ (RowKey.hubEvent id).bytes :=
  ⟨fun h' => hab (owns_unique h h'), fun id e => owns_not_event h id e⟩

/-- In the tables of a store are the rows of its stored messages and nothing else, whatever the others did. -/
theorem C83_rows (channelOf : Bytes → Option Bytes) (hch : ChannelNaming channelOf) (ctx : Nat → MergeCtx) (U : Msg → Prop)
    (hU : HashesIdentify U) (ops : List ShardOp) (hr : ({} : StoreState).ShardProperRun channelOf ctx U ops)
    (kind : StoreKind) (k : Bytes) (hk : kind.Owns k) (v : SVal) :
    let st := ({} : StoreState).shardRun channelOf ctx ops
    st.view k = some v ↔ ∃ m, kind.Valid m ∧ U m ∧ st.Has (kind.store channelOf) m ∧
      ∃ r, (r, v) ∈ kind.rows channelOf (ctx m.ts).follows m ∧ k = r.bytes := by
  intro st
  obtain ⟨L0, L, h⟩ := shard_run hch hU ops (shard_init (channelOf := channelOf) (ctx := ctx) (U := U)) hr
  exact near_rows kind hch hU (h kind) hk v

/-- The rows of a message are in its store's tables, so the theorem above misses none. -/
theorem C83_rows_in_tables (channelOf : Bytes → Option Bytes) (kind : StoreKind) (follows : Bool) (m : Msg) (hm : kind.Valid m)
    (r : RowKey) (v : SVal) (h : (r, v) ∈ kind.rows channelOf follows m) : kind.Owns r.bytes :=
  rows_owned channelOf kind follows m hm r v h

/-- Lookups by item see the store's own messages. -/
theorem C83_lookups (channelOf : Bytes → Option Bytes) (hch : ChannelNaming channelOf) (ctx : Nat → MergeCtx) (U : Msg → Prop)
    (hU : HashesIdentify U) (ops : List ShardOp) (hr : ({} : StoreState).ShardProperRun channelOf ctx U ops)
    (kind : StoreKind) (item : Msg) (hi : kind.Valid item) (hu : U item) :
    let D := kind.store channelOf
    let st := ({} : StoreState).shardRun channelOf ctx ops
    (∀ a b, st.Has D a → st.Has D b → a.Rivals b → a = b) ∧
    (∀ x, D.getAdd st.db st.pend.txn item = .ok (some x) ↔ st.Has D x ∧ x.Rivals item ∧ ¬ x.isRemoval) ∧
    (∃ o, D.getAdd st.db st.pend.txn item = .ok o) ∧
    (D.removeSupported = true →
      (∀ x, D.getRemove st.db st.pend.txn item = .ok (some x) ↔ st.Has D x ∧ x.Rivals item ∧ x.isRemoval) ∧
      ∃ o, D.getRemove st.db st.pend.txn item = .ok o) := by
  intro D st
  obtain ⟨L0, L, h⟩ := shard_run hch hU ops (shard_init (channelOf := channelOf) (ctx := ctx) (U := U)) hr
  exact pair_lookups kind hch hU (h kind).toPairInv item hi hu

/-- A call to one store changes nothing outside its tables and the event log. -/
theorem C83_calls_stay_home (channelOf : Bytes → Option Bytes) (hch : ChannelNaming channelOf) (ctx : Nat → MergeCtx) (U : Msg → Prop)
    (hU : HashesIdentify U) (ops : List ShardOp) (kind : StoreKind) (o : StoreOp) (hd : o ≠ .drop)
    (hr : ({} : StoreState).ShardProperRun channelOf ctx U (ops ++ [.call kind o])) (k : Bytes) (hk : ¬ kind.Owns k)
    (he : ∀ id, k ≠ (RowKey.hubEvent id).bytes) :
    (({} : StoreState).shardRun channelOf ctx (ops ++ [.call kind o])).view k =
      (({} : StoreState).shardRun channelOf ctx ops).view k := by
  obtain ⟨h1, h2⟩ := shardProperRun_append ops hr
  obtain ⟨L0, L, h⟩ := shard_run hch hU ops (shard_init (channelOf := channelOf) (ctx := ctx) (U := U)) h1
  rw [shardRun_append]
  rcases isCall_or o with hc | rfl | rfl | ⟨n, rfl⟩
  · obtain ⟨L1, s', e, _, hf, _⟩ := kind_call kind hch hU (kind_compactIn kind hU) (h kind) hc h2.1
    simp only [StoreState.shardRun, List.foldl_cons, List.foldl_nil, StoreState.shardExec] at *
    rw [e]
    exact frame_owns hf hk he
  · exact view_commit (D := kind.store channelOf) (ctx := ctx) _ k
  · exact absurd rfl hd
  · rfl

/-- A store in a shard ends up with exactly what it would hold had it been alone: its own calls, with everyone's commits,
dropped batches and new blocks, run on a database of its own, give the same rows in its tables, pending and committed.
(As long as no prune runs out of event numbers in either run.)  The run alone is one the theorems about single stores
cover. -/
theorem C83_as_alone (channelOf : Bytes → Option Bytes) (hch : ChannelNaming channelOf) (ctx : Nat → MergeCtx) (U : Msg → Prop)
    (hU : HashesIdentify U) (ops : List ShardOp) (hr : ({} : StoreState).ShardProperRun channelOf ctx U ops)
    (hp : ({} : StoreState).ShardPrunesSucceed channelOf ctx ops) (kind : StoreKind) :
    let D := kind.store channelOf
    let own := ops.filterMap (ShardOp.toward kind)
    let shared := ({} : StoreState).shardRun channelOf ctx ops
    let alone := ({} : StoreState).run D ctx own
    ({} : StoreState).PrunesSucceed D ctx own →
    kind.ProperRun channelOf ctx U {} own ∧
    (∀ k, kind.Owns k → shared.view k = alone.view k ∧ shared.db.get k = alone.db.get k) ∧
    (∀ m, shared.Has D m ↔ alone.Has D m) ∧
    (∀ fid, storedMessages D shared.db fid = storedMessages D alone.db fid) := by
  intro D own shared alone hp'
  obtain ⟨h1, L0, L, h2, h3⟩ := alone_run kind hch hU ops (shard_init (channelOf := channelOf) (ctx := ctx) (U := U))
    (kind_init kind).toIn hr hp hp'
  exact ⟨h1, fun k hk => near_view (h2 kind) h3 hk, near_has (h2 kind) h3, near_stored (h2 kind) h3⟩

/-- Casts, links and another part of the node at work in one batch. -/
def case83 : List ShardOp :=
  [.call .casts (.merge Case.castB), .call .links (.merge Case.follow8), .put [12, 1] (.raw [5]), .call .links (.merge Case.follow9),
    .call .casts .commit, .call .links (.merge Case.unfollow8), .call .casts (.merge Case.castARemove), .del [12, 1],
    .call .links .drop, .call .links (.prune 7 2 1), .call .casts (.revokeSigner 7 [2]), .call .links .commit]

def msgs83 : List Msg := [Case.castB, Case.castARemove] ++ Case.links

theorem msgs83_hashes : HashesIdentify (· ∈ msgs83) := by
  have h : ∀ a ∈ msgs83, ∀ b ∈ msgs83, a.fid = b.fid → a.ts = b.ts → a.hash = b.hash → a = b := by decide
  exact fun a b ha hb => h a ha b hb

example : ({} : StoreState).ShardProperRun Case.noChannels Case.allOn (· ∈ msgs83) case83 ∧
    ({} : StoreState).ShardPrunesSucceed Case.noChannels Case.allOn case83 := by
  have v := Case.links_valid
  have w := Case.casts_valid
  refine ⟨⟨⟨w _ (by decide), by decide⟩, ⟨v _ (by decide), by decide⟩, ?_, ⟨v _ (by decide), by decide⟩, trivial,
    ⟨v _ (by decide), by decide⟩, ⟨w _ (by decide), by decide⟩, ?_, trivial, ⟨by decide, ?_⟩, ⟨by decide, ?_⟩, trivial, trivial⟩, ?_⟩
  · intro kind; cases kind <;> decide
  · intro kind; cases kind <;> decide
  · simp only [StoreState.Oldest, StoreState.OfSigner, StoreState.Has]; decide +kernel
  · simp only [StoreState.Oldest, StoreState.OfSigner, StoreState.Has]; decide +kernel
  · refine ⟨?_, ?_, ?_, ?_, ?_, ?_, ?_, ?_, ?_, ?_, ?_, ?_, trivial⟩
    case refine_10 =>
      intro kind f c m e
      cases e
      exact ⟨[.prune Case.follow8], by decide +kernel⟩
    all_goals (intro kind f c m e; cases e)

/-- What it leaves: the follow of user 9 and nothing else, as each store alone would have it. -/
example :
    let st := ({} : StoreState).shardRun Case.noChannels Case.allOn case83
    storedMessages linkStore st.db 7 = [Case.follow9] ∧ storedMessages castStore st.db 7 = [] := by decide +kernel

/-- What the stores do share are event numbers: after a cast has taken the last one of a block, a prune of links that
would have succeeded fails. -/
theorem C83_event_numbers_are_shared :
    let st := ({} : StoreState).shardRun Case.noChannels Case.allOn
      [.call .links (.merge Case.follow8), .call .links (.merge Case.follow9), .call .links .commit, .call .links (.block 5)]
    let low : StoreState := { st with pend := { st.pend with gen := ⟨5, 16383⟩ } }
    low.returned linkStore Case.allOn (.prune 7 2 1) = .ok [.prune Case.follow8] ∧
    (low.shardExec Case.noChannels Case.allOn (.call .casts (.merge Case.castB))).returned linkStore Case.allOn (.prune 7 2 1) =
      .error .invalidParameter := by decide +kernel

end Verif
