import Verif.Lemmas.StoreKinds
import Verif.Case.Store
/-!
C07: message merge order does not matter.  Two histories that merge the same messages, in any order,
with any repetitions, and committing and changing blocks at any point, end with the same rows.  (Event
rows are left out: they record the history itself.)
-/
namespace Verif

theorem C07_merge_order (kind : StoreKind) (channelOf : Bytes → Option Bytes) (hch : ChannelNaming channelOf)
    (ctx : Nat → MergeCtx) (ops ops' : List StoreOp) (ho : MergesOnly ops) (ho' : MergesOnly ops')
    (hsame : ∀ m, m ∈ StoreOp.merged ops ↔ m ∈ StoreOp.merged ops')
    (hvalid : ∀ m ∈ StoreOp.merged ops, kind.Valid m) (hU : HashesIdentify (· ∈ StoreOp.merged ops))
    (k : Bytes) (hk : ∀ id, k ≠ eventKey id) :
    (({} : StoreState).run (kind.store channelOf) ctx ops).view k =
      (({} : StoreState).run (kind.store channelOf) ctx ops').view k :=
  StoreDef.order_independent (kind_lawful kind hch hU) (kind_compactOut kind hU) ops ops' ho ho'
    (fun m hm => ⟨hvalid m hm, hm⟩) hsame k hk

/-- In particular for the committed databases: permuted batches of messages, each committed at the end. -/
theorem C07_permuted (kind : StoreKind) (channelOf : Bytes → Option Bytes) (hch : ChannelNaming channelOf)
    (ctx : Nat → MergeCtx) (ms ms' : List Msg) (hp : ms.Perm ms') (hvalid : ∀ m ∈ ms, kind.Valid m)
    (hU : HashesIdentify (· ∈ ms)) (k : Bytes) (hk : ∀ id, k ≠ eventKey id) :
    (({} : StoreState).run (kind.store channelOf) ctx (ms.map .merge ++ [.commit])).db.get k =
      (({} : StoreState).run (kind.store channelOf) ctx (ms'.map .merge ++ [.commit])).db.get k := by
  have hm : ∀ l : List Msg, StoreOp.merged (l.map .merge ++ [.commit]) = l := by
    intro l
    induction l with
    | nil => rfl
    | cons a l ih => simpa [StoreOp.merged] using ih
  have ho : ∀ l : List Msg, MergesOnly (l.map .merge ++ [.commit]) := by
    intro l o h
    rcases List.mem_append.1 h with h | h
    · obtain ⟨m, _, rfl⟩ := List.mem_map.1 h; exact .inl ⟨m, rfl⟩
    · exact .inr (.inl (List.mem_singleton.1 h))
  have hv : ∀ l : List Msg, (({} : StoreState).run (kind.store channelOf) ctx (l.map .merge ++ [.commit])).db.get k =
      (({} : StoreState).run (kind.store channelOf) ctx (l.map .merge ++ [.commit])).view k := by
    intro l
    rw [StoreDef.run_append]
    simp [StoreState.run, StoreState.exec, StoreState.view, getFromDbOrTxn]
  rw [hv, hv]
  refine C07_merge_order kind channelOf hch ctx _ _ (ho ms) (ho ms') ?_ ?_ ?_ k hk
  · intro m; rw [hm, hm]; exact hp.mem_iff
  · rw [hm]; exact hvalid
  · rw [hm]; exact hU

/-- Three casts, one of them removing another, merged in two orders with a repetition. -/
example : MergesOnly [.merge Case.castA, .commit, .merge Case.castARemove, .merge Case.castB] ∧
    (∀ m ∈ Case.casts, StoreKind.casts.Valid m) ∧ HashesIdentify (· ∈ Case.casts) ∧
    ChannelNaming Case.noChannels :=
  ⟨by simp [MergesOnly], Case.casts_valid, Case.casts_hashes, Case.noChannels_naming⟩

/-- The hash hypothesis is needed: the same data signed by two keys is two messages with one hash, and the
first one merged stays. -/
theorem C07_two_signers : ∃ a b : Msg, StoreKind.links.Valid a ∧ StoreKind.links.Valid b ∧
    a = { b with signer := a.signer } ∧
    (({} : StoreState).run linkStore Case.allOn [.merge a, .merge b]).Has linkStore a ∧
    (({} : StoreState).run linkStore Case.allOn [.merge b, .merge a]).Has linkStore b ∧ a ≠ b := by
  refine ⟨Case.follow8, { Case.follow8 with signer := [9] }, Case.links_valid _ (by decide), ?_, rfl, ?_, ?_, by decide⟩
  · exact ⟨by decide, by decide, by decide, by decide, .inl rfl, _, _, rfl, by decide, by decide, by decide⟩
  · unfold StoreState.Has; decide +kernel
  · unfold StoreState.Has; decide +kernel

end Verif
