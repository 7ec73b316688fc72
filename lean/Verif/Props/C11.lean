import Verif.Lemmas.StoreRowsOf
import Verif.Case.Store
/-!
C11: indexes and stored messages agree.  The histories covered (`StoreKind.ProperRun`) contain merges,
forced merges, revocations of single messages, prunes and revocations by signer, commits and dropped
batches; the latter two may not touch messages the pending batch has already replaced (see C12 for what
happens then).
-/
namespace Verif
open StoreDef

/-- The whole database apart from the event log is exactly the rows of the stored messages: nothing
dangles and nothing is missing. -/
theorem C11_rows_are_the_messages (kind : StoreKind) (channelOf : Bytes → Option Bytes) (hch : ChannelNaming channelOf)
    (ctx : Nat → MergeCtx) (U : Msg → Prop) (hU : HashesIdentify U) (ops : List StoreOp)
    (hr : kind.ProperRun channelOf ctx U {} ops) (k : Bytes) (hk : ∀ id, k ≠ eventKey id) (v : SVal) :
    let st := ({} : StoreState).run (kind.store channelOf) ctx ops
    st.view k = some v ↔ ∃ m, kind.Valid m ∧ U m ∧ st.Has (kind.store channelOf) m ∧
      ∃ r, (r, v) ∈ kind.rows channelOf (ctx m.ts).follows m ∧ k = r.bytes := by
  intro st
  obtain ⟨L0, L, h⟩ := kind_run kind hch hU ops (kind_init kind) hr
  exact kind_view kind hch hU h k hk v

/-- The same holds for the committed part alone: whatever has been committed is consistent by itself. -/
theorem C11_committed_rows (kind : StoreKind) (channelOf : Bytes → Option Bytes) (hch : ChannelNaming channelOf)
    (ctx : Nat → MergeCtx) (U : Msg → Prop) (hU : HashesIdentify U) (ops : List StoreOp)
    (hr : kind.ProperRun channelOf ctx U {} ops) (k : Bytes) (hk : ∀ id, k ≠ eventKey id) (v : SVal) :
    let db := (({} : StoreState).run (kind.store channelOf) ctx ops).db
    db.get k = some v ↔ ∃ m, kind.Valid m ∧ U m ∧
      db.get (makeMessagePrimaryKey m.fid (kind.store channelOf).set (some m.tsHash)) = some (.msg m) ∧
      ∃ r, (r, v) ∈ kind.rows channelOf (ctx m.ts).follows m ∧ k = r.bytes := by
  intro db
  obtain ⟨L0, L, h⟩ := kind_run kind hch hU ops (kind_init kind) hr
  have h' : KindInv kind channelOf ctx U L0 L0 ⟨db, ⟨OMap.empty, {}⟩⟩ := ⟨⟨h.committed, h.committed⟩, h.blank0, h.blank0⟩
  have := kind_view kind hch hU h' k hk v
  simpa only [StoreState.Has, StoreState.view, getFromDbOrTxn, OMap.get_empty] using this

/-- At most one stored message per item, and lookups by item find exactly it. -/
theorem C11_lookups (kind : StoreKind) (channelOf : Bytes → Option Bytes) (hch : ChannelNaming channelOf)
    (ctx : Nat → MergeCtx) (U : Msg → Prop) (hU : HashesIdentify U) (ops : List StoreOp)
    (hr : kind.ProperRun channelOf ctx U {} ops) (item : Msg) (hi : kind.Valid item) (hu : U item) :
    let D := kind.store channelOf
    let st := ({} : StoreState).run D ctx ops
    (∀ a b, st.Has D a → st.Has D b → a.Rivals b → a = b) ∧
    (∀ x, D.getAdd st.db st.pend.txn item = .ok (some x) ↔ st.Has D x ∧ x.Rivals item ∧ ¬ x.isRemoval) ∧
    (∃ o, D.getAdd st.db st.pend.txn item = .ok o) ∧
    (D.removeSupported = true →
      (∀ x, D.getRemove st.db st.pend.txn item = .ok (some x) ↔ st.Has D x ∧ x.Rivals item ∧ x.isRemoval) ∧
      ∃ o, D.getRemove st.db st.pend.txn item = .ok o) := by
  intro D st
  have H : D.Lawful (okIn kind U) := kind_lawful kind hch hU
  obtain ⟨L0, L, h⟩ := kind_run kind hch hU ops (kind_init kind) hr
  have hio : okIn kind U item := ⟨hi, hu⟩
  have h0 : item.fid ≠ 0 := by have := hi.1; omega
  have hiff := h.has_iff H
  have riv : ∀ x ∈ L, (D.ak x = D.ak item ↔ x.Rivals item) := fun x hx => kind_rivals kind (h.holds.valid x hx) hio
  have rem : ∀ x ∈ L, (D.isAdd x = true ↔ ¬ x.isRemoval) := fun x hx => kind_isAdd kind (h.holds.valid x hx)
  refine ⟨?_, ?_, ?_, ?_⟩
  · intro a b ha hb hab
    have ha := (hiff a).1 ha
    have hb := (hiff b).1 hb
    exact h.holds.unique ha hb ((kind_rivals kind (h.holds.valid a ha) (h.holds.valid b hb)).2 hab)
  · intro x
    rw [hiff]
    rcases getAdd_eq (t := st.pend.txn) H h.holds hio h0 with ⟨y, hy, e, ha, hg⟩ | ⟨hn, hg⟩
    · rw [hg]
      simp only [Except.ok.injEq, Option.some.injEq]
      constructor
      · intro e'; subst e'; exact ⟨hy, (riv y hy).1 e, (rem y hy).1 ha⟩
      · rintro ⟨hx, hxr, _⟩; exact h.holds.unique hy hx (e.trans ((riv x hx).2 hxr).symm)
    · rw [hg]
      simp only [Except.ok.injEq, reduceCtorEq, false_iff]
      rintro ⟨hx, hxr, hxa⟩
      have := hn x hx ((riv x hx).2 hxr)
      rw [(rem x hx).2 hxa] at this; cases this
  · rcases getAdd_eq (t := st.pend.txn) H h.holds hio h0 with ⟨y, _, _, _, hg⟩ | ⟨_, hg⟩ <;> exact ⟨_, hg⟩
  · intro hs
    constructor
    · intro x
      rw [hiff]
      rcases getRemove_eq (t := st.pend.txn) H h.holds hio h0 hs with ⟨y, hy, e, ha, hg⟩ | ⟨hn, hg⟩
      · rw [hg]
        simp only [Except.ok.injEq, Option.some.injEq]
        constructor
        · intro e'; subst e'
          refine ⟨hy, (riv y hy).1 e, ?_⟩
          by_cases hr : y.isRemoval
          · exact hr
          · rw [(rem y hy).2 hr] at ha; cases ha
        · rintro ⟨hx, hxr, _⟩; exact h.holds.unique hy hx (e.trans ((riv x hx).2 hxr).symm)
      · rw [hg]
        simp only [Except.ok.injEq, reduceCtorEq, false_iff]
        rintro ⟨hx, hxr, hxa⟩
        exact (rem x hx).1 (hn x hx ((riv x hx).2 hxr)) hxa
    · rcases getRemove_eq (t := st.pend.txn) H h.holds hio h0 hs with ⟨y, _, _, _, hg⟩ | ⟨_, hg⟩ <;> exact ⟨_, hg⟩

/-- A history that merges, replaces, prunes and revokes. -/
example : StoreKind.links.ProperRun Case.noChannels Case.allOn (· ∈ Case.links) {}
    [.merge Case.follow8, .merge Case.follow9, .commit, .merge Case.refollow8, .commit, .prune 7 2 1,
      .revokeAdd Case.follow8, .commit, .revokeSigner 7 [2]] := by
  have v := Case.links_valid
  refine ⟨⟨v _ (by decide), by decide⟩, ⟨v _ (by decide), by decide⟩, trivial, ⟨v _ (by decide), by decide⟩, trivial,
    ⟨by decide, ?_⟩, ⟨v _ (by decide), by decide⟩, trivial, ⟨by decide, ?_⟩, trivial⟩ <;>
  · simp only [StoreState.Oldest, StoreState.OfSigner, StoreState.Has]; decide +kernel

end Verif
