import Verif.Props.C53
/-!
C52: what a certificate says about the block it comes with.
-/
namespace Verif
open Spec
section
variable {B : Type} {env : ReadEnv B}

/-- Everything a read node commits came with a certificate that distinct validators, more than two thirds of those in
charge, signed: on the value the certificate names. -/
theorem C52_committed_with_certificate {shard : Nat} {first : SetConfig} {others : List SetConfig} {h0 : BlockHeight}
    {steps : List (ReadStep B)} {n : ReadNode B} (hs : env.sets = configured shard first others)
    (hb : h0.block + steps.length + 2 < 2 ^ 64) (hr : readRun env (startAt h0) steps = some n) :
    ∀ v ∈ n.log, ∃ signers : List Bytes, signers.Nodup ∧
      (∀ k ∈ signers, k ∈ inCharge env.sets v.commits.height.block ∧ SignedBy env.cr v.commits k) ∧
      2 * (inCharge env.sets v.commits.height.block).length < 3 * signers.length := by
  intro v hv
  have h := ((C53_in_order_once hb hr).2.2.1 v hv).2.1
  rw [hs] at h ⊢
  exact C51_quorum h

/-- But the certificate need not be about that block.  Take any accepted certificate, for whatever height, shard and
value: any shard chunk whatsoever with the next height, sent with it, is committed if the engine can apply it. -/
theorem C52_any_chunk_is_committed {n : ReadNode B} {c : Commits} {body : B}
    (hc : verifySignatures env.cr env.sets c = true)
    (hok : ∀ log, env.engineOk log ⟨none, n.last.next, c, body⟩ = true) (hbuf : n.buf = OMap.empty) :
    ∃ n', processDecided env n ⟨none, n.last.next, c, body⟩ = some n' ∧ n'.log = n.log ++ [⟨none, n.last.next, c, body⟩] := by
  unfold processDecided
  simp only [hc, versionOk, Bool.not_true, Bool.false_eq_true, if_false]
  rw [if_neg (StrictOrd.irrefl _)]
  simp only [commitDecided, hok, if_true, hbuf, OMap.empty, processBuffered]
  exact ⟨_, rfl, rfl⟩

/-- The same goes for blocks with the right protocol version for their time. -/
theorem C52_any_block_is_committed {n : ReadNode B} {c : Commits} {body : B} {ts : Nat} {net : Network} {ev : EngineVersion}
    (hc : verifySignatures env.cr env.sets c = true) (hv : EngineVersion.versionFor (ts + 1609459200) net = some ev)
    (hok : ∀ log, env.engineOk log ⟨some (ev.protocolVersion, ts, net), n.last.next, c, body⟩ = true)
    (hbuf : n.buf = OMap.empty) :
    ∃ n', processDecided env n ⟨some (ev.protocolVersion, ts, net), n.last.next, c, body⟩ = some n' ∧
      n'.log = n.log ++ [⟨some (ev.protocolVersion, ts, net), n.last.next, c, body⟩] := by
  unfold processDecided
  simp only [hc, versionOk, hv, decide_true, Bool.not_true, Bool.false_eq_true, if_false]
  rw [if_neg (StrictOrd.irrefl _)]
  simp only [commitDecided, hok, if_true, hbuf, OMap.empty, processBuffered]
  exact ⟨_, rfl, rfl⟩

/-- A data shard submits block events received with any accepted certificate: the events hash is checked against the
header and the header against nothing. -/
theorem C52_any_events_are_submitted {H : Bytes → Bytes} {enc : BData → Bytes} {cr : Crypto} {sets : StoredSets}
    {c : Commits} (hc : verifySignatures cr sets c = true) (ds : List BData) :
    blockEventsAccepted H enc cr sets (eventsHash H (ds.map (buildBlockEvent H enc))) (ds.map (buildBlockEvent H enc)) c =
      true := by
  unfold blockEventsAccepted
  split
  · rfl
  · rw [if_neg (by simp [buildBlockEvent]), if_neg (by simp), hc]

/-- What the check of block events does rule out: events that do not match their own hashes or the events hash of the
header they come with, and events with a certificate that no quorum signed. -/
theorem C52_submitted_events_match {H : Bytes → Bytes} {enc : BData → Bytes} {cr : Crypto} {sets : StoredSets}
    {c : Commits} {claimed : Bytes} {es : List BEvent} (hne : es ≠ [])
    (h : blockEventsAccepted H enc cr sets claimed es c = true) :
    (∀ e ∈ es, ∃ d, e.data = some d ∧ e.hash = H (enc d)) ∧ claimed = eventsHash H es ∧ verifySignatures cr sets c = true := by
  unfold blockEventsAccepted at h
  rw [if_neg (by simpa using hne)] at h
  split at h
  · exact absurd h (by simp)
  · rename_i ha
    split at h
    · exact absurd h (by simp)
    · rename_i hcl
      refine ⟨?_, by simpa using hcl, h⟩
      intro e he
      simp only [List.any_eq_true, not_exists, not_and] at ha
      have := ha e he
      cases hd : e.data with
      | none => rw [hd] at this; simp at this
      | some d => rw [hd] at this; exact ⟨d, rfl, by simpa using this⟩

end

namespace C52Case
open C53Case

/-- One certificate, of height 5 and value 9, carries three different chunks of other heights. -/
example : (readRun env (startAt ⟨1, 0⟩) [.deliver (value 1 7), .deliver (value 2 8), .deliver (value 3 9)]).map
    (fun n => n.log.map (fun v => (v.height.block, v.body, v.commits.height.block))) =
    some [(1, 7, 5), (2, 8, 5), (3, 9, 5)] := by decide +kernel

end C52Case

/-- So two read nodes with the same validator sets can commit different chunks of one height, although all validators
signed only one value. -/
theorem C52_read_nodes_diverge :
    ∃ (v w : Decided Nat), v.commits = w.commits ∧ v.height = w.height ∧ v.body ≠ w.body ∧
      (readRun C53Case.env (startAt ⟨1, 0⟩) [.deliver v]).map (fun n => n.log.map (·.body)) = some [v.body] ∧
      (readRun C53Case.env (startAt ⟨1, 0⟩) [.deliver w]).map (fun n => n.log.map (·.body)) = some [w.body] :=
  ⟨C53Case.value 1 7, C53Case.value 1 8, rfl, rfl, by decide, by decide +kernel, by decide +kernel⟩

end Verif
