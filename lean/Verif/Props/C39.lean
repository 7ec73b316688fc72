import Verif.Lemmas.Engine
import Verif.Case.Engine
/-!
C39: data shards apply block events in order, exactly once.

The theorems hold for all ways of merging single items (`EngineOps`) and all ways of recording which block events
reach the stores (`Ledger`).
-/
namespace Verif
open Spec
section
variable {D W E F : Type} {ops : EngineOps D W E F} {H : Bytes → Bytes} {ver : Nat → EngineVersion}

/-- Whatever is proposed to a node and decided, in whatever order, grouping and repetition: the block events that
reached its stores carry the numbers 1, 2, 3, ... in this order, each once; the node answers for each number with the
event it applied and for no other number, and reports their count as the greatest number. -/
theorem C39_in_order_exactly_once (L : Ledger ops) {st st' : EngineState D W E F} {blocks : List (NodeBlock F)}
    (h0 : Fresh L st) (hrun : nodeRun ops H ver blocks st = some st') (hfit : (L.log st'.d).length < 2 ^ 64) :
    (L.log st'.d).map BEvent.number = (List.range' 1 (L.log st'.d).length).map some ∧
    (∀ n, n < 2 ^ 64 → blockEventBySeqnum some st'.ev n = .ok (if n = 0 then none else (L.log st'.d)[n - 1]?)) ∧
    maxSeqnum some st'.ev = .ok (L.log st'.d).length := by
  have hi : ShardNodeInv L (fun _ => True) { st with pending := none } :=
    ⟨by simp only [h0.1, h0.2.1]; exact holds_empty, by simp, by simp⟩
  have h := (nodeRun_inv blocks st st' hi (by simp) hrun hfit).holds
  simp only at h
  refine ⟨?_, ?_, h.maxSeqnum⟩
  · apply List.ext_getElem?
    intro i
    simp only [List.getElem?_map]
    cases he : (L.log st'.d)[i]? with
    | none =>
      rw [List.getElem?_eq_none_iff] at he
      rw [List.getElem?_eq_none_iff.2 (by simpa using he)]
      rfl
    | some e =>
      obtain ⟨d, hd, hs⟩ := h.2.1 i e he
      have hlt := getElem?_lt he
      rw [List.getElem?_range' (by omega)]
      simp only [Option.map_some, BEvent.number, hd, hs, Option.some.injEq]
      omega
  · intro n hn
    unfold blockEventBySeqnum
    rw [h.get hn]
    split
    · rename_i hx; rw [hx]
    · rename_i v hx; rw [hx]

/-- If every event that reaches the node is the one shard 0 issued under its number, the node has applied exactly the
first so many of them: a prefix of shard 0's events, without omission. -/
theorem C39_prefix_of_shard0 (L : Ledger ops) {st st' : EngineState D W E F} {blocks : List (NodeBlock F)}
    {issued : List BEvent} (h0 : Fresh L st) (hrun : nodeRun ops H ver blocks st = some st')
    (hgen : ∀ b ∈ blocks, ∀ e ∈ b.offered, ∃ n, BEvent.number e = some n ∧ 0 < n ∧ issued[n - 1]? = some e)
    (hfit : (L.log st'.d).length < 2 ^ 64) :
    L.log st'.d = issued.take (L.log st'.d).length := by
  have hi : ShardNodeInv L (fun e => ∃ n, BEvent.number e = some n ∧ 0 < n ∧ issued[n - 1]? = some e)
      { st with pending := none } :=
    ⟨by simp only [h0.1, h0.2.1]; exact holds_empty, by simp [h0.1], by simp⟩
  have h := nodeRun_inv blocks st st' hi hgen hrun hfit
  apply List.ext_getElem?
  intro i
  rw [List.getElem?_take]
  split
  · rename_i hlt
    cases he : (L.log st'.d)[i]? with
    | none => rw [List.getElem?_eq_none_iff] at he; omega
    | some e =>
      obtain ⟨d, hd, hs⟩ := h.holds.2.1 i e he
      obtain ⟨n, hn, _, hg⟩ := h.good e (List.mem_of_getElem? he)
      simp only [BEvent.number, hd, Option.map_some, Option.some.injEq] at hn
      rw [← hn, hs, Nat.add_sub_cancel] at hg
      exact hg.symm
  · rename_i hge
    rw [List.getElem?_eq_none_iff]; omega

/-- What a node holds of shard 0 after any history. -/
def AtRest (L : Ledger ops) (st : EngineState D W E F) : Prop := HoldsEvents st.ev (L.log st.d)

/-- Nothing that can be applied is left out: committing a chunk, by replaying it or after having validated it, applies
exactly those of its events that continue the sequence.  (`st` is the node after any history, `nodeRun_inv`.) -/
theorem C39_next_ones_applied (L : Ledger ops) {st st1 st' : EngineState D W E F} {c : EChunk F} {env env' : NodeEnv}
    (h0 : AtRest L st) (hv : (ver c.ts).isEnabled .readDataFromShardZero = true)
    (hsep : ∀ t ∈ c.txns, ∀ m ∈ t.sys, m.block ≠ none → m.onchain = none)
    (hfit : (L.log st.d).length + (eventsIn c.txns).length < 2 ^ 64)
    (hst : st1 = startRound st ∨ st1 = (validateChange ops H ver env (startRound st) c.height ⟨c.ts, c.root, c.txns⟩).2)
    (h : commit ops H ver env' st1 c = some st') :
    L.log st'.d = L.log st.d ++ continuing (L.log st.d).length (eventsIn c.txns) := by
  have hd : st1.d = st.d ∧ st1.ev = st.ev ∧ ∀ p, st1.pending = some p →
      L.wlog p.w = continuing (L.log st.d).length (eventsIn c.txns) := by
    rcases hst with h1 | h1
    · subst h1; exact ⟨rfl, rfl, by simp [startRound]⟩
    · unfold validateChange at h1
      split at h1
      · simp only at h1; subst h1; exact ⟨rfl, rfl, by simp [startRound]⟩
      · rename_i s hs
        simp only at h1; subst h1
        refine ⟨rfl, rfl, ?_⟩
        intro p hp
        simp only [Option.some.injEq] at hp
        subst hp
        have h0' : HoldsEvents (startRound st).ev (L.log st.d) := h0
        exact replayProposal_exact h0' hv hsep hfit hs
  obtain ⟨es, seq, w, ev, hsrc, hl, _, _⟩ := commit_spec (L := L) h
  rw [hl, hd.1]
  congr 1
  have h1 : HoldsEvents st1.ev (L.log st.d) := by rw [hd.2.1]; exact h0
  unfold commitSource at hsrc
  split at hsrc
  · rename_i p hp
    split at hsrc
    · simp only [Option.some.injEq, Prod.mk.injEq] at hsrc
      obtain ⟨_, _, rfl, _⟩ := hsrc
      exact hd.2.2 p hp
    · split at hsrc
      · exact absurd hsrc (by simp)
      · rename_i s hs
        simp only [Option.some.injEq, Prod.mk.injEq] at hsrc
        obtain ⟨_, _, rfl, _⟩ := hsrc
        exact replayProposal_exact h1 hv hsep hfit hs
  · split at hsrc
    · exact absurd hsrc (by simp)
    · rename_i s hs
      simp only [Option.some.injEq, Prod.mk.injEq] at hsrc
      obtain ⟨_, _, rfl, _⟩ := hsrc
      exact replayProposal_exact h1 hv hsep hfit hs

/-- The hypothesis of `C39_next_ones_applied` holds after every history. -/
theorem C39_at_rest (L : Ledger ops) {st st' : EngineState D W E F} {blocks : List (NodeBlock F)}
    (h0 : Fresh L st) (hrun : nodeRun ops H ver blocks st = some st') (hfit : (L.log st'.d).length < 2 ^ 64) :
    AtRest L st' :=
  (nodeRun_inv (G := fun _ => True) blocks st st'
    ⟨by simp only [h0.1, h0.2.1]; exact holds_empty, by simp, by simp⟩ (by simp) hrun hfit).holds

end

namespace C39Case
open EngineCase

/-- Events 2, 1, 1, 3, 2 arrive in one chunk, 2, 4, 3 in the next after a rejected and a different proposal: applied
are 1, 2, then 3. -/
def history : List (NodeBlock Unit) :=
  [⟨[], env, chunk 1 [event 2, event 1, event 1, event 3, event 2] [] [1, 2]⟩,
   ⟨[.validate env 2 ⟨102, [9], [txn [event 3] [] [9]]⟩, .propose env 2 102 [txn [event 3] [msg 50] []],
     .newRound, .validate env 2 ⟨102, [1, 2, 3], [txn [event 3, event 4] [] [1, 2, 3]]⟩],
    env, chunk 2 [event 2, event 4, event 3] [] [1, 2, 3]⟩]

example : Fresh ledger fresh := ⟨rfl, rfl, rfl⟩

example : (nodeRun ops hash0 ver history fresh).map (fun st => st.d.told.map BEvent.number) =
    some [some 1, some 2, some 3] := by decide +kernel

/-- Everything offered there was issued by a shard 0 with four events. -/
example : ∀ b ∈ history, ∀ e ∈ b.offered,
    ∃ n, BEvent.number e = some n ∧ 0 < n ∧ [event 1, event 2, event 3, event 4][n - 1]? = some e := by
  have h : ∀ b ∈ history, ∀ e ∈ b.offered, ∃ n ∈ [1, 2, 3, 4], e = event n := by
    intro b hb e he
    simp only [history, List.mem_cons, List.not_mem_nil, or_false] at hb
    rcases hb with rfl | rfl <;>
      simp [NodeBlock.offered, eventsIn, chunk, txn, told] at he <;>
      rcases he with he | he | he | he | he | he <;> simp_all
  intro b hb e he
  obtain ⟨n, hn, rfl⟩ := h b hb e he
  simp only [List.mem_cons, List.not_mem_nil, or_false] at hn
  rcases hn with rfl | rfl | rfl | rfl <;> exact ⟨_, rfl, by decide, rfl⟩

end C39Case

/-- A shard does not check who issued an event: one with the next number and any hash is applied, and the event shard 0
issued under that number is then passed over for good. -/
theorem C39_forged_event_accepted :
    ∃ forged genuine : BEvent, forged ≠ genuine ∧ BEvent.number forged = BEvent.number genuine ∧
      (nodeRun EngineCase.ops EngineCase.hash0 EngineCase.ver
        [⟨[], EngineCase.env, EngineCase.chunk 1 [forged] [] [66]⟩,
         ⟨[], EngineCase.env, EngineCase.chunk 2 [genuine] [] [66]⟩] EngineCase.fresh).map (·.d.told) = some [forged] :=
  ⟨⟨[], some ⟨1, 1, 1, 0, 0, some (.message (some (EngineCase.key 66)))⟩⟩, EngineCase.event 1,
    by decide, rfl, by decide +kernel⟩

/-- An event whose handling fails still uses up its number: offered again, it is passed over. -/
theorem C39_failed_event_not_retried :
    let e1 := EngineCase.event 1
    let e2 : BEvent := ⟨[], some ⟨2, 1, 1, 0, 0, some (.message (some (EngineCase.key 1)))⟩⟩
    (EngineCase.handle ⟨1, [], [e1], [EngineCase.key 1], []⟩ e2).2 = none ∧
    (nodeRun EngineCase.ops EngineCase.hash0 EngineCase.ver
      [⟨[], EngineCase.env, EngineCase.chunk 1 [e1, e2] [] [1]⟩, ⟨[], EngineCase.env, EngineCase.chunk 2 [e2] [] [1]⟩]
      EngineCase.fresh).map (fun st => (st.d.told, st.d.msgs)) = some ([e1, e2], [EngineCase.key 1]) := by
  decide +kernel

/-- An event without content makes every node that replays the chunk panic. -/
theorem C39_event_without_data_panics {D W E F : Type} (ops : EngineOps D W E F) (env : NodeEnv) (v : EngineVersion)
    (hv : v.isEnabled .readDataFromShardZero = true) (ts : Nat) (d : D) (w : W) (ev : Txn BEvent) (seq : Nat) (h : Bytes)
    (fid : Nat) (root : Bytes) :
    replayTxn ops env v ts d w ev seq ⟨fid, [⟨none, none, some ⟨h, none⟩⟩], [], root⟩ = .error .panic := by
  have e : sysSort [(⟨none, none, some ⟨h, none⟩⟩ : SysMsg F)] = [⟨none, none, some ⟨h, none⟩⟩] := by
    rfl
  simp [replayTxn, e, foldE, sysStep, sysSkipped, sysOnchain, sysFname, sysBlock, hv]

end Verif
