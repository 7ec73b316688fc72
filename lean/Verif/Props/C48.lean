import Verif.Lemmas.Crash
import Verif.Case.Engine
import Verif.Props.C38
/-!
C48: a crash during a commit.

Full statement: whatever the crash point, the node that restarts and commits the chunk again ends with the disk of a
node that did not crash.  It is true before and after the two writes, true between them if applying the chunk to its
own result changes nothing, and false otherwise (the last three theorems).
-/
namespace Verif
open Spec
section
variable {D W E F : Type} {ops : EngineOps D W E F} {H : Bytes → Bytes} {ver : Nat → EngineVersion}

/-- A crash before the first write loses nothing: the restarted node has the disk of before, and committing the chunk
again, by replaying it, gives the disk the commit without the crash gives (or both panic). -/
theorem C48_crash_before_writes {env₁ env₂ env₃ : NodeEnv} {st s : EngineState D W E F} {c : EChunk F}
    (h12 : SameView ops env₁ env₂) (h23 : SameView ops env₂ env₃)
    (hval : (validateChange ops H ver env₁ st c.height ⟨c.ts, c.root, c.txns⟩).1 = true)
    (hcr : restarted ops H ver env₂ (validateChange ops H ver env₁ st c.height ⟨c.ts, c.root, c.txns⟩).2 c .beforeWrites =
      some s) :
    disk s = disk st ∧
    (commit ops H ver env₃ s c).map disk =
      (commit ops H ver env₂ (validateChange ops H ver env₁ st c.height ⟨c.ts, c.root, c.txns⟩).2 c).map disk := by
  simp only [restarted, Option.some.injEq] at hcr
  have hk := (replayProposal_iff (ops := ops) env₁ (ver c.ts) st c.height c.ts c.txns c.root)
  have hs : s = startRound st := by
    rw [← hcr]
    unfold validateChange startRound
    split <;> rfl
  subst hs
  refine ⟨rfl, ?_⟩
  unfold validateChange at hval
  split at hval
  · exact absurd hval (by simp)
  · rename_i x hx
    obtain ⟨o, h1, h2, h3, w1, w2, w3, w4⟩ := hk.1 x hx
    have h1' : outcome ops env₃ (ver c.ts) (startRound st) c.height c.ts c.txns = .ok o :=
      (outcome_view ⟨h12.1.trans h23.1, h12.2.1.trans h23.2.1, h12.2.2.trans h23.2.2⟩ (ver c.ts) (st := st)
        (st' := startRound st) ⟨rfl, rfl⟩ c.height c.ts c.txns).symm.trans h1
    obtain ⟨y, hy, y1, y2, y3, y4⟩ :=
      (replayProposal_iff (ops := ops) env₃ (ver c.ts) (startRound st) c.height c.ts c.txns c.root).2 o h1' h2 h3
    have e1 : (validateChange ops H ver env₁ st c.height ⟨c.ts, c.root, c.txns⟩).2 =
        { st with pending := some ⟨c.root, x.events, x.w, x.ev, x.seq, txnEventsHash H c.txns⟩ } := by
      unfold validateChange
      rw [hx]
    rw [e1]
    have s1 : commitSource ops H ver env₂
        { st with pending := some ⟨c.root, x.events, x.w, x.ev, x.seq, txnEventsHash H c.txns⟩ } c =
        some (o.events, o.seq, o.w, o.ev) := by
      simp [commitSource, cachedValid, w1, w2, w3, w4]
    have s2 : commitSource ops H ver env₃ (startRound st) c = some (o.events, o.seq, o.w, o.ev) := by
      unfold commitSource
      simp only [startRound] at hy ⊢
      simp only [hy, y1, y2, y3, y4]
    unfold commit commitFirst
    rw [s1, s2]
    simp only [commitState, startRound]
    cases ops.confirm st.d o.w c o.events o.seq <;> rfl

/-- A crash after both writes loses nothing. -/
theorem C48_crash_after_writes {env : NodeEnv} {st : EngineState D W E F} {c : EChunk F} :
    (restarted ops H ver env st c .afterWrites).map disk = (commit ops H ver env st c).map disk := by
  simp only [restarted]
  cases commit ops H ver env st c <;> rfl

/-- Between the writes the state is that of the new height and the chunk archive that of the old one: the node is one
chunk ahead of what it says. -/
theorem C48_crash_between_writes_is_ahead {env : NodeEnv} {st s t : EngineState D W E F} {c : EChunk F}
    (hs : restarted ops H ver env st c .betweenWrites = some s) (ht : commit ops H ver env st c = some t) :
    s.d = t.d ∧ s.ev = t.ev ∧ s.chunks = st.chunks ∧ t.chunks.get (chunkKey c.height) = some c := by
  simp only [restarted, commit] at hs ht
  cases h : commitFirst ops H ver env st c with
  | none => rw [h] at hs; exact absurd hs (by simp)
  | some x =>
    rw [h] at hs ht
    simp only [Option.map_some, Option.some.injEq] at hs ht
    subst hs; subst ht
    refine ⟨rfl, rfl, ?_, ?_⟩
    · unfold commitFirst at h
      split at h
      · exact absurd h (by simp)
      · unfold commitState at h
        split at h
        · exact absurd h (by simp)
        · simp only [Option.some.injEq] at h; subst h; rfl
    · simp [commitChunk]

/-- Committing the chunk again after a crash between the writes applies no block event a second time, if the chunk
lists its events in the order of their numbers. -/
theorem C48_events_not_applied_twice (L : Ledger ops) {env env' env'' : NodeEnv} {st st1 s t : EngineState D W E F}
    {c : EChunk F} (h0 : HoldsEvents st.ev (L.log st.d))
    (hv : (ver c.ts).isEnabled .readDataFromShardZero = true)
    (hsep : ∀ x ∈ c.txns, ∀ m ∈ x.sys, m.block ≠ none → m.onchain = none)
    (hasc : Ascending (eventsIn c.txns)) (hfit : (L.log st.d).length + 2 * (eventsIn c.txns).length < 2 ^ 64)
    (hst : st1 = startRound st ∨ st1 = (validateChange ops H ver env (startRound st) c.height ⟨c.ts, c.root, c.txns⟩).2)
    (hs : restarted ops H ver env' st1 c .betweenWrites = some s) (ht : commit ops H ver env'' s c = some t) :
    L.log t.d = L.log s.d ∧ t.ev = s.ev := by
  have hd : st1.d = st.d ∧ st1.ev = st.ev ∧ ∀ p, st1.pending = some p →
      L.wlog p.w = continuing (L.log st.d).length (eventsIn c.txns) ∧
      RInv L (fun _ => True) (L.log st.d).length p.w p.ev p.seq := by
    rcases hst with h1 | h1
    · subst h1; exact ⟨rfl, rfl, by simp [startRound]⟩
    · unfold validateChange at h1
      split at h1
      · simp only at h1; subst h1; exact ⟨rfl, rfl, by simp [startRound]⟩
      · rename_i x hx
        simp only at h1; subst h1
        refine ⟨rfl, rfl, ?_⟩
        intro p hp
        simp only [Option.some.injEq] at hp
        subst hp
        have h0' : HoldsEvents (startRound st).ev (L.log st.d) := h0
        exact ⟨replayProposal_exact h0' hv hsep (by omega) hx, replayProposal_inv h0' (by simp) hx⟩
  have h1 : HoldsEvents st1.ev (L.log st.d) := by rw [hd.2.1]; exact h0
  simp only [restarted, Option.map_eq_some_iff] at hs
  obtain ⟨s0, hs, rfl⟩ := hs
  unfold commitFirst at hs
  split at hs
  · exact absurd hs (by simp)
  · rename_i es seq w ev hsrc
    have hw : L.wlog w = continuing (L.log st.d).length (eventsIn c.txns) ∧
        RInv L (fun _ => True) (L.log st.d).length w ev seq := by
      unfold commitSource at hsrc
      split at hsrc
      · rename_i p hp
        split at hsrc
        · simp only [Option.some.injEq, Prod.mk.injEq] at hsrc
          obtain ⟨_, rfl, rfl, rfl⟩ := hsrc
          exact hd.2.2 p hp
        · split at hsrc
          · exact absurd hsrc (by simp)
          · rename_i x hx
            simp only [Option.some.injEq, Prod.mk.injEq] at hsrc
            obtain ⟨_, rfl, rfl, rfl⟩ := hsrc
            exact ⟨replayProposal_exact h1 hv hsep (by omega) hx, replayProposal_inv h1 (by simp) hx⟩
      · split at hsrc
        · exact absurd hsrc (by simp)
        · rename_i x hx
          simp only [Option.some.injEq, Prod.mk.injEq] at hsrc
          obtain ⟨_, rfl, rfl, rfl⟩ := hsrc
          exact ⟨replayProposal_exact h1 hv hsep (by omega) hx, replayProposal_inv h1 (by simp) hx⟩
    unfold commitState at hs
    split at hs
    · exact absurd hs (by simp)
    · rename_i w1 hw1
      simp only [Option.some.injEq] at hs; subst hs
      have hlog : L.log (ops.write st1.d w1) = L.log st.d ++ continuing (L.log st.d).length (eventsIn c.txns) := by
        rw [L.write, L.confirm _ _ _ _ _ _ hw1, hw.1, hd.1]
      have hle := continuing_length (L.log st.d).length (eventsIn c.txns)
      have h2 : HoldsEvents (st1.ev.commit ev) (L.log (ops.write st1.d w1)) := by
        rw [hlog, ← hw.1]
        exact rinv_commit h1 hw.2 (by rw [hw.1]; omega)
      obtain ⟨es', seq', w', ev', hsrc', hl', hev', _⟩ := commit_spec (L := L) ht
      have hw' : L.wlog w' = [] ∧ ev' = OMap.empty := by
        unfold commitSource at hsrc'
        simp only at hsrc'
        split at hsrc'
        · exact absurd hsrc' (by simp)
        · rename_i x hx
          simp only [Option.some.injEq, Prod.mk.injEq] at hsrc'
          obtain ⟨_, rfl, rfl, rfl⟩ := hsrc'
          have hlen : (L.log (ops.write st1.d w1)).length =
              (L.log st.d).length + (continuing (L.log st.d).length (eventsIn c.txns)).length := by
            rw [hlog]; simp
          have a1 := replayProposal_exact (L := L) h2 hv hsep (by rw [hlen]; omega) hx
          rw [hlen, continuing_again _ _ hasc] at a1
          have a2 := (replayProposal_inv (L := L) (G := fun _ => True) h2 (by simp) hx).staged
          rw [a1] at a2
          simp only [stageBlockEvents, Except.ok.injEq] at a2
          exact ⟨a1, a2.symm⟩
      refine ⟨?_, ?_⟩
      · rw [hl', hw'.1]; simp
      · rw [hev', hw'.2]; exact commit_empty_txn _

/-- The full statement holds between the writes too, if the chunk lists its events in order and applying it to its own
result gives the same roots and leaves the stored state as it is. -/
theorem C48_recovers_if_idempotent (L : Ledger ops) {env env' env'' : NodeEnv} {st st1 s t : EngineState D W E F}
    {c : EChunk F} (h0 : HoldsEvents st.ev (L.log st.d))
    (hv : (ver c.ts).isEnabled .readDataFromShardZero = true)
    (hsep : ∀ x ∈ c.txns, ∀ m ∈ x.sys, m.block ≠ none → m.onchain = none)
    (hasc : Ascending (eventsIn c.txns)) (hfit : (L.log st.d).length + 2 * (eventsIn c.txns).length < 2 ^ 64)
    (hst : st1 = startRound st ∨ st1 = (validateChange ops H ver env (startRound st) c.height ⟨c.ts, c.root, c.txns⟩).2)
    (hs : restarted ops H ver env' st1 c .betweenWrites = some s) (ht : commit ops H ver env' st1 c = some t)
    (hidem : ∃ o w, outcome ops env'' (ver c.ts) s c.height c.ts c.txns = .ok o ∧ o.accounts = c.txns.map (·.root) ∧
      o.root = c.root ∧ ops.confirm s.d o.w c o.events o.seq = some w ∧ ops.write s.d w = s.d) :
    (commit ops H ver env'' s c).map disk = some (disk t) := by
  obtain ⟨o, w, o1, o2, o3, o4, o5⟩ := hidem
  obtain ⟨x, hx, x1, x2, x3, x4⟩ :=
    (replayProposal_iff (ops := ops) env'' (ver c.ts) s c.height c.ts c.txns c.root).2 o o1 o2 o3
  have hp : s.pending = none := by
    simp only [restarted, Option.map_eq_some_iff] at hs
    obtain ⟨_, _, rfl⟩ := hs
    rfl
  have hsrc : commitSource ops H ver env'' s c = some (o.events, o.seq, o.w, o.ev) := by
    unfold commitSource
    rw [hp]
    simp only [hx, x1, x2, x3, x4]
  have hcom : commit ops H ver env'' s c =
      some (commitChunk { s with d := ops.write s.d w, ev := s.ev.commit o.ev } c) := by
    unfold commit commitFirst
    rw [hsrc]
    simp [commitState, o4]
  have hev := (C48_events_not_applied_twice L h0 hv hsep hasc hfit hst hs hcom).2
  obtain ⟨a1, a2, a3, _⟩ := C48_crash_between_writes_is_ahead hs ht
  have a4 : t.chunks = st1.chunks.put (chunkKey c.height) c := by
    simp only [commit, Option.map_eq_some_iff] at ht
    obtain ⟨y, hy, rfl⟩ := ht
    have : y.chunks = st1.chunks := by
      unfold commitFirst at hy
      split at hy
      · exact absurd hy (by simp)
      · unfold commitState at hy
        split at hy
        · exact absurd hy (by simp)
        · simp only [Option.some.injEq] at hy; subst hy; rfl
    simp [commitChunk, this]
  rw [hcom]
  simp only [commitChunk] at hev
  simp only [Option.map_some, disk, commitChunk, Option.some.injEq, Prod.mk.injEq]
  exact ⟨by rw [o5, a1], by rw [hev, a2], by rw [a3, a4]⟩

end

/-- Shard 0 does not recover.  A block that issues any block event, committed again after a crash between its two
writes, issues events with other numbers, whatever its transactions then do; unless two different lists of event
hashes have the same hash, the events hash differs from the header's and the node panics, at every restart. -/
theorem C48_shard0_stuck_after_crash {H : Bytes → Bytes} {enc : BData → Bytes} {db db' : Db BEvent} {old es : List BEvent}
    {ctx : BlockCtx} {hubs hubs' : List ZHub} {claimed : Bytes} (h : HoldsEvents db old)
    (hc : commitBlockEvents H enc db ctx hubs claimed = some (db', es)) (hne : es ≠ [])
    (hfit : old.length + es.length < 2 ^ 64)
    (hcoll : ∀ fs, fs = generateBlockEvents H enc ctx (old.length + es.length) hubs' → eventsHash H fs = eventsHash H es →
      fs.map (fun e => e.data.map (·.seqnum)) = es.map (fun e => e.data.map (·.seqnum))) :
    commitBlockEvents H enc db' ctx hubs' claimed = none := by
  obtain ⟨h1, h2, h3⟩ := commit_holds h hc hfit
  unfold commitBlockEvents
  rw [h1.maxSeqnum]
  simp only [List.length_append]
  split
  · rfl
  · split
    · rfl
    · rename_i hh
      exfalso
      simp only [ne_eq, Decidable.not_not] at hh
      have hk := hcoll _ rfl (by rw [hh, h2])
      obtain ⟨b1, _, g1⟩ := generate_eq (H := H) (enc := enc) ctx h.1 hubs
      obtain ⟨b2, _, g2⟩ := generate_eq (H := H) (enc := enc) ctx (m := old.length + es.length) (by omega) hubs'
      rw [← h3] at g1
      rw [g2] at hk
      have hl : b2.length = es.length := by simpa using congrArg List.length hk
      cases b1 with
      | nil => simp at g1; exact hne g1
      | cons a b1 =>
        cases b2 with
        | nil => simp at hl; exact hne (List.length_eq_zero_iff.1 hl.symm)
        | cons a' b2 =>
          rw [g1] at hk
          simp only [List.mapIdx_cons, List.map_cons, buildBlockEvent, Option.map_some, List.cons.injEq,
            Option.some.injEq, Nat.add_zero] at hk
          have hlen : es.length = b1.length + 1 := by rw [g1]; simp
          have := hk.1
          rw [hlen] at hfit
          simp only [List.length_cons, List.length_mapIdx] at this
          omega

namespace C48Case
open EngineCase

/-- A chunk with an event and a message reaches the end of its commit. -/
example : (restarted ops hash0 ver env fresh (chunk 1 [event 1] [msg 40] [1, 40]) .afterWrites).isSome = true := by
  decide +kernel

def st1 : EngineState Db0 Work Hub Unit := ⟨⟨[event 1], [key 1], []⟩, OMap.empty.put (blockEventKey 1) (event 1), OMap.empty, none⟩
def idle : EChunk Unit := ⟨2, 102, [1], [], [2]⟩

/-- A chunk without transactions commits twice to the same disk. -/
example : (restarted ops hash0 ver env st1 idle .betweenWrites).map (·.d) =
    (commit ops hash0 ver env st1 idle).map (·.d) ∧
  ((restarted ops hash0 ver env st1 idle .betweenWrites).bind (fun s => commit ops hash0 ver env s idle)).map (·.d) =
    some ⟨[event 1], [key 1], [(2, [.confirmed 2])]⟩ := by decide +kernel

/-- A shard-0 block with events, committed again. -/
example : ((commitBlockEvents C38Case.hash0 C38Case.enc0 OMap.empty C38Case.b1.ctx C38Case.b1.hubs C38Case.b1.claimed).map
    (fun r => (r.2.length, (commitBlockEvents C38Case.hash0 C38Case.enc0 r.1 C38Case.b1.ctx C38Case.b1.hubs
      C38Case.b1.claimed).isNone, (commitBlockEvents C38Case.hash0 C38Case.enc0 r.1 C38Case.b1.ctx []
      C38Case.b1.claimed).isNone))) = some (2, true, true) := by decide +kernel

end C48Case

/-- After a crash between the writes the chunk is committed again, its messages are now duplicates, and the failures
are stored under the event ids of the merges: the hub events of the height are lost. -/
theorem C48_hub_events_lost :
    let c := EngineCase.chunk 1 [] [EngineCase.msg 40] [40]
    let crashed := restarted EngineCase.ops EngineCase.hash0 EngineCase.ver EngineCase.env EngineCase.fresh c .betweenWrites
    (commit EngineCase.ops EngineCase.hash0 EngineCase.ver EngineCase.env EngineCase.fresh c).map (·.d.hubs) =
      some [(1, [.confirmed 1, .merged (EngineCase.msg 40)])] ∧
    (crashed.bind (fun s => commit EngineCase.ops EngineCase.hash0 EngineCase.ver EngineCase.env s c)).map (·.d.hubs) =
      some [(1, [.confirmed 1, .failed (EngineCase.msg 40)])] := by
  decide +kernel

/-- If a chunk lists block events out of order, committing it again applies events the first commit passed over; its
root is then another one and the node panics at every restart. -/
theorem C48_out_of_order_events_stop_the_node :
    let c := EngineCase.chunk 1 [EngineCase.event 2, EngineCase.event 1] [] [1]
    let crashed := restarted EngineCase.ops EngineCase.hash0 EngineCase.ver EngineCase.env EngineCase.fresh c .betweenWrites
    (commit EngineCase.ops EngineCase.hash0 EngineCase.ver EngineCase.env EngineCase.fresh c).isSome = true ∧
    crashed.map (·.d.told) = some [EngineCase.event 1] ∧
    (crashed.bind (fun s => commit EngineCase.ops EngineCase.hash0 EngineCase.ver EngineCase.env s c)).isNone = true := by
  decide +kernel

end Verif
