import Verif.Lemmas.ZeroAgree
import Verif.Props.C93
/-!
C94: nodes of shard 0 that commit the same blocks hold the same state, and honest blocks are accepted, as long as no rental
expires between their clocks.  The clock does matter otherwise.
-/
namespace Verif
open ZeroCfg

section
variable {F : Type} {c : ZeroCfg}

/-- **C94**: proposing, validating and simulating leave nothing behind but used event numbers. -/
theorem C94_rounds_leave_no_trace (d d1 : ZWork) (x : ZCall F) (hn : ∀ k b, x ≠ .commit k b) (hx : c.step d x = some d1) :
    SameTables d d1 :=
  step_same hx hn

/-- **C94**: two nodes that commit the same blocks hold the same tables afterwards, whatever they proposed, validated and
simulated in between, if no rental expires between the moments at which they commit a block. -/
theorem C94_nodes_agree (calls calls' : List (ZCall F)) (bs : List (Nat × Nat × ZBlock F))
    (h : commits calls = bs.map (fun x => (x.1, x.2.2))) (h' : commits calls' = bs.map (fun x => (x.2.1, x.2.2)))
    (hs : c.InStep {} bs) (d d' : ZWork) (hr : c.run calls {} = some d) (hr' : c.run calls' {} = some d') : SameTables d d' :=
  run_same calls calls' bs {} {} d d' (SameTables.refl _) h (by rw [h']) hs hr hr'

/-- **C94**: nodes with the same tables give the same verdict on a block, honest or not, and commit it to the same tables or
both panic. -/
theorem C94_same_verdict (d d' : ZWork) (h : SameTables d d') (b : ZBlock F) (hv : Renumbered (c.ver b.ts)) (k k' : Nat)
    (ht : c.SameTime d (c.ver b.ts) b.txns k k') :
    (c.validate k d b).map (·.1) = (c.validate k' d' b).map (·.1) ∧
    ((c.commit k d b = none ∧ c.commit k' d' b = none) ∨
      ∃ d1 d1', c.commit k d b = some d1 ∧ c.commit k' d' b = some d1' ∧ SameTables d1 d1') :=
  ⟨(validate_same h hv ht).symm, commit_same h hv ht⟩

/-- **C94**: a block that one node proposes is accepted by every node with the same tables, and every such node commits it
to the same state, with the root the block names.  `finish` is the write of the batch; it fails only if the tree cannot be
read back. -/
theorem C94_honest_blocks_accepted (d d' : ZWork) (h : SameTables d d') (k n ts : Nat) (txns : List (ETxn F)) (b : ZBlock F)
    (d1 : ZWork) (hv : Renumbered (c.ver ts)) (hw : 9 ≤ (c.ver ts).num) (hp : c.propose k n ts d txns = some (b, d1)) (k' : Nat)
    (ht : c.SameTime d (c.ver ts) b.txns k k') :
    (c.validate k' d' b).map (·.1) = some true ∧ b.height = n ∧ b.ts = ts ∧
    ∃ w, c.root w = .ok b.root ∧ c.commit k d b = c.finish w ∧ c.commit k' d' b = c.finish w := by
  have hw' : (c.ver ts).isEnabled .writeDataToShardZero = true := by
    revert hw; cases c.ver ts <;> decide
  unfold ZeroCfg.propose at hp
  rw [if_pos hw'] at hp
  split at hp
  · cases hp
  · rename_i b' w hx
    cases hp
    obtain ⟨h1, h2, rfl, rfl⟩ := prepare_replayed hx
    have e : c.replayProposal k' d' b = .ok w := by
      rw [← h1, replayProposal_congr ht.clocks.1 ht.clocks.2]
      unfold ZeroCfg.replayProposal
      rw [begin_same h (renumbered_fix hv hw')]
    refine ⟨?_, rfl, rfl, w, h2, ?_, ?_⟩
    · unfold ZeroCfg.validate
      rw [if_pos hw', e]
      rfl
    · unfold ZeroCfg.commit
      rw [if_pos hw', h1]
    · unfold ZeroCfg.commit
      rw [if_pos hw', e]

/-- **C94**: at most one block with given height, time and transactions is accepted by a node: it names the roots of users
and state and the hash of block events that a replay gives. -/
theorem C94_one_valid_block (d : ZWork) (k : Nat) (b b' : ZBlock F) (hw : 9 ≤ (c.ver b.ts).num)
    (ok : (c.validate k d b).map (·.1) = some true) (ok' : (c.validate k d b').map (·.1) = some true)
    (hh : b.height = b'.height) (ht : b.ts = b'.ts) (htx : b.txns.map unrooted = b'.txns.map unrooted) :
    b.txns = b'.txns ∧ b.eventsHash = b'.eventsHash ∧ b.root = b'.root := by
  have hw' : (c.ver b.ts).isEnabled .writeDataToShardZero = true := by
    revert hw; cases c.ver b.ts <;> decide
  have get : ∀ x : ZBlock F, (c.ver x.ts).isEnabled .writeDataToShardZero = true →
      (c.validate k d x).map (·.1) = some true → ∃ w, c.replayProposal k d x = .ok w := by
    intro x hx h
    unfold ZeroCfg.validate at h
    rw [if_pos hx] at h
    split at h
    · rename_i w hw; exact ⟨w, hw⟩
    · cases h
    · cases h
  obtain ⟨w, hw1⟩ := get b hw' ok
  obtain ⟨w', hw2⟩ := get b' (ht ▸ hw') ok'
  obtain ⟨h1, h2, h3, _⟩ := replayProposal_unique hw1 hw2 hh ht htx
  exact ⟨h1, h2, h3⟩

/-- **C94**: the transactions of a proposal are among those offered, without empty ones; only users with running storage
keep their user messages. -/
theorem C94_proposals_screened (d d1 : ZWork) (k n ts : Nat) (txns : List (ETxn F)) (b : ZBlock F)
    (hp : c.propose k n ts d txns = some (b, d1)) : ∀ t ∈ b.txns, ∃ t0 ∈ txns, t.fid = t0.fid ∧ t.sys = t0.sys ∧
      (t.user = [] ∨ t.user = t0.user ∧ ∃ s, c.txnSlot k (c.ver ts) d t0 true = some s ∧ s.isActive (UInt32.ofNat k) = true) ∧
      (t.sys ≠ [] ∨ t.user ≠ []) := by
  unfold ZeroCfg.propose at hp
  split at hp
  · split at hp
    · cases hp
    · rename_i hx
      cases hp
      exact prepare_screened hx
  · cases hp
    simp

end

namespace Case94
open Case93 AdmissionCase

/-- Nothing is stored at first, and the first block brings a rental that runs until 2027: the next 100 seconds make no
difference. -/
theorem first_sameTime (txns : List (ETxn Unit)) (h : txns.all (fun t => t.sys.all (fun s => s.onchain.all
    (fun e => e = idReg ∨ e = appReg ∨ e = signerAdd ∨ e = rent))) = true) :
    cfg.SameTime ({} : ZWork) (cfg.ver 1000) txns clock (clock + 100) := by
  have hs : ∀ e, e = idReg ∨ e = appReg ∨ e = signerAdd ∨ e = rent → cfg.SameSide (cfg.ver 1000) clock (clock + 100) e := by
    rintro e (rfl | rfl | rfl | rfl) s hs
    · exact absurd hs (by simp [Slot.fromEvent, idReg])
    · exact absurd hs (by simp [Slot.fromEvent, appReg])
    · exact absurd hs (by simp [Slot.fromEvent, signerAdd])
    · have : Slot.fromEvent (decide (cfg.net = .mainnet)) ((cfg.ver 1000).isEnabled .storageExpiryExtension2026) rent =
          .ok ⟨0, 0, 3, 1823072000⟩ := by decide +kernel
      rw [this] at hs
      cases hs
      decide
  refine ⟨?_, ?_, by decide⟩
  · intro fid rents hr e he
    have : onchainEvents (OMap.empty : Db OVal) 4 fid = .ok [] := by rfl
    have hr : onchainEvents (OMap.empty : Db OVal) 4 fid = .ok rents := hr
    rw [this] at hr
    cases hr
    simp at he
  · intro t ht s hs' e he
    simp only [List.all_eq_true, Option.all_eq_true, decide_eq_true_eq] at h
    exact hs e (h t ht s hs' e he)

def firstBlock : Option (ZBlock Unit × ZWork) := cfg.propose clock 1 1000 {} [txn1, txn0]

theorem first_plain : firstBlock.map (fun x => x.1.txns.all (fun t => t.sys.all (fun s => s.onchain.all
    (fun e => e = idReg ∨ e = appReg ∨ e = signerAdd ∨ e = rent)))) = some true := by decide +kernel

/-- The first block of C93's example is accepted on a node whose clock is 100 seconds ahead. -/
example : ∃ b d1, firstBlock = some (b, d1) ∧ (cfg.validate (clock + 100) ({} : ZWork) b).map (·.1) = some true := by
  have h := first_plain
  simp only [Option.map_eq_some_iff] at h
  obtain ⟨⟨b, d1⟩, hx, hp⟩ := h
  exact ⟨b, d1, hx, (C94_honest_blocks_accepted _ _ (SameTables.refl _) _ _ _ _ _ _ (.inr (by decide)) (by decide) hx (clock + 100)
    (first_sameTime _ hp)).1⟩

/-- One node proposes and commits; another simulates a message before and commits 100 seconds later. -/
example : ∃ b d1 d2, cfg.run [.propose clock 1 1000 [txn1, txn0], .commit clock b] {} = some d1 ∧
    cfg.run [.simulate clock keyAdd, .commit (clock + 100) b] {} = some d2 ∧ SameTables d1 d2 := by
  have h : (firstBlock.map fun x => (x.1.txns.all (fun t => t.sys.all (fun s => s.onchain.all
      (fun e => e = idReg ∨ e = appReg ∨ e = signerAdd ∨ e = rent))), x.1.ts,
      (cfg.run [.propose clock 1 1000 [txn1, txn0], .commit clock x.1] {}).isSome,
      (cfg.run [.simulate clock keyAdd, .commit (clock + 100) x.1] {}).isSome)) = some (true, 1000, true, true) := by decide +kernel
  simp only [Option.map_eq_some_iff, Prod.mk.injEq, Option.isSome_iff_exists] at h
  obtain ⟨⟨b, _⟩, hx, hp, hts, ⟨d1, h1⟩, ⟨d2, h2⟩⟩ := h
  refine ⟨b, d1, d2, h1, h2, C94_nodes_agree _ _ [(clock, clock + 100, b)] rfl rfl ⟨.inr (show 12 ≤ EngineVersion.v21.num by decide), ?_, fun _ _ => trivial⟩ d1 d2 h1 h2⟩
  have : (cfg.ver b.ts) = cfg.ver 1000 := rfl
  rw [this]
  exact first_sameTime _ hp

/-- When the rental of the first block has expired by the wall clock. -/
def late : Nat := 1823072001

/-- The clock matters: the second block of C93's example, with a loan, is accepted and committed by a node in time; a node
that comes to it after the rental has expired (say, catching up) refuses it, and panics when it is to commit it. -/
theorem C94_clock_matters : ((next {} 1 [txn1, txn0]).bind fun a => (cfg.propose clock 2 1000 a.2 [txn2]).map fun p =>
    ((cfg.validate clock a.2 p.1).map (·.1), (cfg.commit clock a.2 p.1).isSome,
     (cfg.validate late a.2 p.1).map (·.1), (cfg.commit late a.2 p.1).isSome)) =
    some (some true, true, some false, false) := by decide +kernel

/-- Simulation reports success for a key message that a block would pass over: its key was added before. -/
theorem C94_simulation_hides_refusals : (chain.bind fun x => (cfg.simulate clock x.2 keyAdd).bind fun r =>
    (cfg.propose clock 3 1000 x.2 [(⟨11, [], [keyAdd], []⟩ : ETxn Unit)]).map fun p => (r.1.toBool, p.1.events.length)) =
    some (true, 0) := by decide +kernel

/-- A block as a proposer without the storage check would make it. -/
def unscreened (d : ZWork) (h : Nat) (txns : List (ETxn Unit)) : Option (ZBlock Unit) :=
  match cfg.replays clock (cfg.ver 1000) 1000 false txns (cfg.begin d (cfg.ver 1000) h) with
  | .error _ => none
  | .ok (rs, w, es) => match cfg.events h 1000 w es with
    | .error _ => none
    | .ok (w, bs) => match cfg.root w with
      | .error _ => none
      | .ok r => some ⟨h, 1000, r, (txns.zip rs).map (fun p => { p.1 with root := p.2 }), eventsHash cfg.HB bs, bs⟩

def poor : ETxn Unit := ⟨11, [sys idReg, sys signerAdd], [], []⟩
def post : ETxn Unit := ⟨11, [], [update], []⟩

/-- The storage of users is only looked at by proposers: the update of a user without storage is left out of an honest
proposal, but a block with it is accepted, committed and handed on. -/
theorem C94_storage_only_checked_by_proposers : ((next {} 1 [poor, txn0]).bind fun a => (unscreened a.2 2 [post]).bind fun b =>
    (cfg.propose clock 2 1000 a.2 [post]).map fun p => (p.1.txns.length, (cfg.validate clock a.2 b).map (·.1),
      (cfg.commit clock a.2 b).map (fun d => (d.st.store.view updateKey, d.bev.rows.length)))) =
    some (0, some true, some (some (.msg update), 1)) := by decide +kernel

end Case94
end Verif
