import Verif.Lemmas.StoreRowsOf
import Verif.Case.Store
/-!
C13: revoking a signer removes exactly that signer's messages.
-/
namespace Verif
open StoreDef

/-- When nothing pending touches the committed messages the key signed, revoking by signer never fails; afterwards
the user's committed messages signed by that key are gone and every other message is still there.  Each
reported event is the revocation of one of them. -/
theorem C13_revoke_signer (kind : StoreKind) (channelOf : Bytes → Option Bytes) (hch : ChannelNaming channelOf)
    (ctx : Nat → MergeCtx) (U : Msg → Prop) (hU : HashesIdentify U) (ops : List StoreOp)
    (hr : kind.ProperRun channelOf ctx U {} ops) (fid : Nat) (signer : Bytes) (hf : fid < 2 ^ 32)
    (hs : (({} : StoreState).run (kind.store channelOf) ctx ops).OfSigner (kind.store channelOf) fid signer) :
    let D := kind.store channelOf
    let st := ({} : StoreState).run D ctx ops
    (∀ m, (st.exec D ctx (.revokeSigner fid signer)).Has D m ↔
      st.Has D m ∧ ¬ (m ∈ storedMessages D st.db fid ∧ m.signer = signer)) ∧
    ∃ es, (D.revokeBySigner st.db fid signer st.pend).1 = .ok es ∧
      ∀ e ∈ es, ∃ m ∈ storedMessages D st.db fid, m.signer = signer ∧ e = .revoke m := by
  intro D st
  have H : D.Lawful (okIn kind U) := kind_lawful kind hch hU
  obtain ⟨L0, L, h⟩ := kind_run kind hch hU ops (kind_init kind) hr
  obtain ⟨es, s', hres, hh, hfr, hes⟩ := revokeSigner_spec (signer := signer) H (kind_set kind).1 h.toPairInv hf hs
  have h' := safe_pend h hh hfr
  have hex : st.exec D ctx (.revokeSigner fid signer) = { st with pend := s' } := by
    simp only [StoreState.exec, StoreState.after]
    exact congrArg (fun r : Except HubErr (List StoreEvent) × SSt => { st with pend := r.2 }) hres
  refine ⟨?_, es, congrArg Prod.fst hres, hes⟩
  intro m
  rw [hex, h'.has_iff H m, List.mem_filter, h.has_iff H m, decide_eq_true_iff]

/-- From a committed store: after revoking and committing, the user's messages are those not signed by the
key, and other users keep all their messages. -/
theorem C13_committed (kind : StoreKind) (channelOf : Bytes → Option Bytes) (hch : ChannelNaming channelOf)
    (ctx : Nat → MergeCtx) (U : Msg → Prop) (hU : HashesIdentify U) (ops : List StoreOp)
    (hr : kind.ProperRun channelOf ctx U {} (ops ++ [.commit])) (fid : Nat) (signer : Bytes) (hf : fid < 2 ^ 32) :
    let D := kind.store channelOf
    let st := ({} : StoreState).run D ctx (ops ++ [.commit])
    let st' := (st.exec D ctx (.revokeSigner fid signer)).exec D ctx .commit
    (∀ m, m ∈ storedMessages D st'.db fid ↔ m ∈ storedMessages D st.db fid ∧ m.signer ≠ signer) ∧
      ∀ fid' < 2 ^ 32, fid' ≠ fid → ∀ m, m ∈ storedMessages D st'.db fid' ↔ m ∈ storedMessages D st.db fid' := by
  intro D st st'
  have H : D.Lawful (okIn kind U) := kind_lawful kind hch hU
  obtain ⟨L0, L, h⟩ := kind_run kind hch hU (ops ++ [.commit]) (kind_init kind) hr
  have hempty : st.pend.txn = OMap.empty := by simp only [st]; rw [run_append]; rfl
  have hview : ∀ k, st.view k = st.db.get k := by
    intro k; simp [StoreState.view, getFromDbOrTxn, hempty]
  have hcom : D.Holds (okIn kind U) ctx L (viewOf st.db OMap.empty) :=
    h.holds.congr (fun k _ => by rw [hview]; simp [viewOf, getFromDbOrTxn])
  have hset : st.OfSigner D fid signer := fun m hm _ => (h.has_iff H m).2 ((mem_stored H hcom hf m).1 hm).1
  obtain ⟨hhas, _⟩ := C13_revoke_signer kind channelOf hch ctx U hU _ hr fid signer hf hset
  obtain ⟨L2', L2, h2⟩ := kind_step (o := .revokeSigner fid signer) kind hch hU h ⟨hf, hset⟩
  obtain ⟨L3', L3, h3⟩ := kind_step (o := .commit) kind hch hU h2 trivial
  have hview' : ∀ k, st'.view k = st'.db.get k := by
    intro k; simp [st', StoreState.exec, StoreState.view, getFromDbOrTxn]
  have hcom' : D.Holds (okIn kind U) ctx L3 (viewOf st'.db OMap.empty) :=
    h3.holds.congr (fun k _ => by rw [hview']; simp [viewOf, getFromDbOrTxn])
  have hL3 : ∀ m, m ∈ L3 ↔ m ∈ L ∧ ¬ (m ∈ storedMessages D st.db fid ∧ m.signer = signer) := by
    intro m
    rw [← h3.has_iff H m, ← h.has_iff H m]
    have : st'.Has D m ↔ (st.exec D ctx (.revokeSigner fid signer)).Has D m := by
      unfold StoreState.Has
      rw [view_commit]
    exact this.trans (hhas m)
  constructor
  · intro m
    rw [mem_stored H hcom' hf m, hL3, mem_stored H hcom hf m]
    constructor
    · rintro ⟨⟨a, b⟩, c⟩; exact ⟨⟨a, c⟩, fun e => b ⟨⟨a, c⟩, e⟩⟩
    · rintro ⟨⟨a, c⟩, e⟩; exact ⟨⟨a, fun h => e h.2⟩, c⟩
  · intro f' hf' hne m
    rw [mem_stored H hcom' hf' m, hL3, mem_stored H hcom hf' m, mem_stored H hcom hf m]
    constructor
    · rintro ⟨⟨a, _⟩, c⟩; exact ⟨a, c⟩
    · rintro ⟨a, c⟩; exact ⟨⟨a, fun h => hne (c ▸ h.1.2)⟩, c⟩

/-- Two links by different keys; one key is revoked. -/
example :
    let st := ({} : StoreState).run linkStore Case.allOn [.merge Case.follow8, .merge Case.follow9, .commit]
    StoreKind.links.ProperRun Case.noChannels Case.allOn (· ∈ Case.links) {}
      ([.merge Case.follow8, .merge Case.follow9] ++ [.commit]) ∧
    (linkStore.revokeBySigner st.db 7 [2] st.pend).1 = .ok [.revoke Case.follow9] := by
  have v := Case.links_valid
  exact ⟨⟨⟨v _ (by decide), by decide⟩, ⟨v _ (by decide), by decide⟩, trivial, trivial⟩, by decide +kernel⟩

/-- A link compaction signed by the key is not reached by the revocation: it stays in force. -/
theorem C13_compaction_survives :
    let c : Msg := ⟨7, .linkCompactState, 200, Case.h20 9, [2], .linkCompact [102] [9]⟩
    let st := ({} : StoreState).run linkStore Case.allOn [.merge c, .commit, .revokeSigner 7 [2], .commit]
    st.view (RowKey.linkCompact 7 (padLinkType [102])).bytes = some (.msg c) ∧
      (linkStore.merge st.db {} Case.follow8 st.pend).1 = .error .conflict := by
  constructor <;> decide +kernel

end Verif
