import Verif.Lemmas.Replay
import Verif.Case.Engine
/-!
C47: validators that replay a proposal reach the proposer's state.

`outcome` (Spec/Replay.lean) is what applying the transactions comes to, with every root computed and none taken
from the proposal.
-/
namespace Verif
open Spec
section
variable {D W E F : Type} {ops : EngineOps D W E F} {H : Bytes → Bytes} {ver : Nat → EngineVersion}

/-- A validator accepts a proposal exactly when applying its transactions to the validator's own stored state gives
every account root and the shard root the proposal claims.  A rejected proposal changes nothing. -/
theorem C47_accepts_iff_roots_match (env : NodeEnv) (st : EngineState D W E F) (height : Nat) (p : Proposal F) :
    ((validateChange ops H ver env st height p).1 = true ↔
      ∃ o, outcome ops env (ver p.ts) st height p.ts p.txns = .ok o ∧ o.accounts = p.txns.map (·.root) ∧ o.root = p.root) ∧
    ((validateChange ops H ver env st height p).1 = false → (validateChange ops H ver env st height p).2 = st) := by
  have hk := replayProposal_iff (ops := ops) env (ver p.ts) st height p.ts p.txns p.root
  unfold validateChange
  cases hr : replayProposal ops env (ver p.ts) st height p.ts p.txns p.root with
  | error e =>
    refine ⟨?_, fun _ => rfl⟩
    simp only [Bool.false_eq_true, false_iff]
    rintro ⟨o, h1, h2, h3⟩
    obtain ⟨s, hs, _⟩ := hk.2 o h1 h2 h3
    rw [hr] at hs
    exact absurd hs (by simp)
  | ok s =>
    refine ⟨?_, fun h => absurd h (by simp)⟩
    simp only [true_iff]
    obtain ⟨o, h1, h2, h3, _⟩ := hk.1 s hr
    exact ⟨o, h1, h2, h3⟩

/-- A proposal made by the code is accepted by every node with the same stored state, and what that node is about to
write and announce is exactly what the proposer is. -/
theorem C47_honest_proposal_accepted {env env' : NodeEnv} {a a' b : EngineState D W E F} {height ts : Nat}
    {txns : List (ETxn F)} {p : Proposal F} (hp : propose ops H ver env a height ts txns = some (p, a'))
    (hs : SameStored a b) (hv : SameView ops env env') :
    (validateChange ops H ver env' b height p).1 = true ∧
    (validateChange ops H ver env' b height p).2.pending = a'.pending ∧ a'.pending ≠ none ∧
    SameStored a' b ∧ SameStored (validateChange ops H ver env' b height p).2 b := by
  unfold propose at hp
  simp only at hp
  split at hp
  · exact absurd hp (by simp)
  · rename_i n hn
    split at hp
    · exact absurd hp (by simp)
    · rename_i s hfold
      split at hp
      · exact absurd hp (by simp)
      · rename_i root hroot
        simp only [Option.some.injEq, Prod.mk.injEq] at hp
        obtain ⟨hp1, hp2⟩ := hp
        obtain ⟨more, o, m1, m2, m3, m4, _⟩ := propose_fold (ops := ops) _ _ s
          ⟨[], [], [], ops.start a.d height, OMap.empty, n⟩ ⟨rfl, rfl, rfl, rfl⟩ hfold
        simp only [List.nil_append] at m1 m3
        have ho : outcome ops env (ver p.ts) a height p.ts p.txns = .ok { o with root := root } := by
          rw [← hp1]
          unfold outcome
          simp only [hn, m1, m2, ← m4.1, hroot]
        rw [outcome_view hv (ver p.ts) hs] at ho
        have hk := (replayProposal_iff (ops := ops) env' (ver p.ts) b height p.ts p.txns p.root).2 _ ho
          (by rw [← hp1]; simp only [m1, m3]) (by rw [← hp1])
        obtain ⟨s', hs', hw⟩ := hk
        have e : validateChange ops H ver env' b height p =
            (true, { b with pending := some ⟨p.root, s'.events, s'.w, s'.ev, s'.seq, txnEventsHash H p.txns⟩ }) := by
          simp [validateChange, hs']
        rw [e]
        refine ⟨rfl, ?_, ?_, ?_, rfl, rfl⟩
        · rw [← hp2, ← hp1]
          obtain ⟨w1, w2, w3, w4⟩ := hw
          obtain ⟨v1, v2, v3, v4⟩ := m4
          simp only at w1 w2 w3 w4
          simp only [w1, w2, w3, w4, v1, v2, v3, v4]
        · rw [← hp2]; simp
        · rw [← hp2]; exact hs

/-- What two nodes have on disk. -/
def SameDisk (a b : EngineState D W E F) : Prop := a.d = b.d ∧ a.ev = b.ev ∧ a.chunks = b.chunks

/-- Committing a validated chunk from memory and committing it by replaying leave the same database: whichever path a
node takes, it ends in the same state, or both paths panic. -/
theorem C47_memory_and_replay_agree {env env' : NodeEnv} {st : EngineState D W E F} {c : EChunk F}
    (hv : SameView ops env env')
    (hval : (validateChange ops H ver env st c.height ⟨c.ts, c.root, c.txns⟩).1 = true) :
    (commit ops H ver env' (validateChange ops H ver env st c.height ⟨c.ts, c.root, c.txns⟩).2 c).map
        (fun s => (s.d, s.ev, s.chunks)) =
    (commit ops H ver env' (startRound st) c).map (fun s => (s.d, s.ev, s.chunks)) := by
  have hk := (C47_accepts_iff_roots_match (ops := ops) (H := H) (ver := ver) env st c.height ⟨c.ts, c.root, c.txns⟩).1.1 hval
  obtain ⟨o, h1, h2, h3⟩ := hk
  obtain ⟨s, hs, hw⟩ := (replayProposal_iff (ops := ops) env (ver c.ts) st c.height c.ts c.txns c.root).2 o h1 h2 h3
  have h1' : outcome ops env' (ver c.ts) (startRound st) c.height c.ts c.txns = .ok o :=
    (outcome_view hv (ver c.ts) (st := st) (st' := startRound st) ⟨rfl, rfl⟩ c.height c.ts c.txns).symm.trans h1
  obtain ⟨s', hs', hw'⟩ :=
    (replayProposal_iff (ops := ops) env' (ver c.ts) (startRound st) c.height c.ts c.txns c.root).2 o h1' h2 h3
  have e1 : (validateChange ops H ver env st c.height ⟨c.ts, c.root, c.txns⟩).2 =
      { st with pending := some ⟨c.root, s.events, s.w, s.ev, s.seq, txnEventsHash H c.txns⟩ } := by
    simp [validateChange, hs]
  rw [e1]
  obtain ⟨a1, a2, a3, a4⟩ := hw
  obtain ⟨b1, b2, b3, b4⟩ := hw'
  have s1 : commitSource ops H ver env'
      { st with pending := some ⟨c.root, s.events, s.w, s.ev, s.seq, txnEventsHash H c.txns⟩ } c =
      some (o.events, o.seq, o.w, o.ev) := by
    simp [commitSource, cachedValid, a1, a2, a3, a4]
  have s2 : commitSource ops H ver env' (startRound st) c = some (o.events, o.seq, o.w, o.ev) := by
    unfold commitSource
    simp only [startRound] at hs' ⊢
    simp only [hs', b1, b2, b3, b4]
  unfold commit commitFirst
  rw [s1, s2]
  simp only [commitState, startRound]
  cases ops.confirm st.d o.w c o.events o.seq <;> rfl

/-- Two nodes with the same database that commit the same chunk, one from memory after validating it and the other by
replaying it, have the same database afterwards. -/
theorem C47_nodes_stay_equal {env₁ env₂ env₃ : NodeEnv} {a b a' b' : EngineState D W E F} {c : EChunk F}
    (hd : SameDisk a b) (h12 : SameView ops env₁ env₂) (h23 : SameView ops env₂ env₃)
    (hval : (validateChange ops H ver env₁ a c.height ⟨c.ts, c.root, c.txns⟩).1 = true)
    (ha : commit ops H ver env₂ (validateChange ops H ver env₁ a c.height ⟨c.ts, c.root, c.txns⟩).2 c = some a')
    (hb : commit ops H ver env₃ (startRound b) c = some b') : SameDisk a' b' := by
  have h := C47_memory_and_replay_agree (H := H) (ver := ver) h12 hval
  rw [ha] at h
  have e : startRound b = startRound { a with pending := b.pending } := by
    cases a; cases b
    obtain ⟨h1, h2, h3⟩ := hd
    simp only at h1 h2 h3
    subst h1; subst h2; subst h3
    rfl
  have hsrc : commitSource ops H ver env₃ (startRound b) c = commitSource ops H ver env₂ (startRound a) c := by
    have hk := (C47_accepts_iff_roots_match (ops := ops) (H := H) (ver := ver) env₁ a c.height ⟨c.ts, c.root, c.txns⟩).1.1 hval
    obtain ⟨o, h1, h2, h3⟩ := hk
    have src : ∀ (env : NodeEnv) (s : EngineState D W E F), SameView ops env₁ env → SameStored a s → s.pending = none →
        commitSource ops H ver env s c = some (o.events, o.seq, o.w, o.ev) := by
      intro env s hve hst hpn
      have h1' : outcome ops env (ver c.ts) s c.height c.ts c.txns = .ok o :=
        (outcome_view hve (ver c.ts) hst c.height c.ts c.txns).symm.trans h1
      obtain ⟨x, hx, x1, x2, x3, x4⟩ := (replayProposal_iff (ops := ops) env (ver c.ts) s c.height c.ts c.txns c.root).2 o h1' h2 h3
      unfold commitSource
      rw [hpn]
      simp only [hx, x1, x2, x3, x4]
    rw [src env₃ (startRound b) ⟨h12.1.trans h23.1, h12.2.1.trans h23.2.1, h12.2.2.trans h23.2.2⟩ ⟨hd.1, hd.2.1⟩ rfl,
      src env₂ (startRound a) h12 ⟨rfl, rfl⟩ rfl]
  have hcommit : commit ops H ver env₃ (startRound b) c = commit ops H ver env₂ (startRound a) c := by
    unfold commit commitFirst
    rw [hsrc, e]
    rfl
  rw [← hcommit, hb] at h
  simp only [Option.map_some, Option.some.injEq, Prod.mk.injEq] at h
  exact ⟨h.1, h.2.1, h.2.2⟩

/-- A result kept in memory is used only for a chunk with the same root and the same block events; for any other chunk
the node replays, as if it had kept nothing. -/
theorem C47_memory_only_for_its_chunk {env : NodeEnv} {st : EngineState D W E F} {c : EChunk F} {p : Cached W E}
    (hp : st.pending = some p) (hd : p.root ≠ c.root ∨ p.eventsHash ≠ txnEventsHash H c.txns) :
    (commit ops H ver env st c).map (fun s => (s.d, s.ev, s.chunks)) =
    (commit ops H ver env (startRound st) c).map (fun s => (s.d, s.ev, s.chunks)) := by
  have hc : cachedValid H p c.root c.txns = false := by
    unfold cachedValid
    rcases hd with h | h
    · simp [h]
    · simp only [Bool.and_eq_false_iff, decide_eq_false_iff_not]
      exact .inr (fun e => h e.symm)
  have hrep : replayProposal ops env (ver c.ts) (startRound st) c.height c.ts c.txns c.root =
      replayProposal ops env (ver c.ts) st c.height c.ts c.txns c.root := rfl
  unfold commit commitFirst commitSource
  rw [hp]
  simp only [hc, Bool.false_eq_true, if_false, hrep]
  have : (startRound st).pending = none := rfl
  rw [this]
  simp only
  cases replayProposal ops env (ver c.ts) st c.height c.ts c.txns c.root with
  | error e => rfl
  | ok s =>
    simp only [commitState]
    have : (startRound st).d = st.d := rfl
    rw [this]
    cases ops.confirm st.d s.w c s.events s.seq <;> rfl

/-- A chunk whose claimed roots are not the ones its transactions give is not committed by a node that has to replay
it: the node stops. -/
theorem C47_wrong_roots_stop_the_node {env : NodeEnv} {st : EngineState D W E F} {c : EChunk F} (hp : st.pending = none)
    (hbad : ∀ o, outcome ops env (ver c.ts) st c.height c.ts c.txns = .ok o →
      o.accounts ≠ c.txns.map (·.root) ∨ o.root ≠ c.root) :
    commit ops H ver env st c = none := by
  have hr : ∀ s, replayProposal ops env (ver c.ts) st c.height c.ts c.txns c.root ≠ .ok s := by
    intro s hs
    obtain ⟨o, h1, h2, h3, _⟩ := (replayProposal_iff (ops := ops) env (ver c.ts) st c.height c.ts c.txns c.root).1 s hs
    rcases hbad o h1 with h | h
    · exact h h2
    · exact h h3
  unfold commit commitFirst commitSource
  rw [hp]
  simp only
  cases h : replayProposal ops env (ver c.ts) st c.height c.ts c.txns c.root with
  | error e => rfl
  | ok s => exact absurd h (hr s)

end

namespace C47Case
open EngineCase

/-- A node that has committed one chunk. -/
def st1 : Option (EngineState Db0 Work Hub Unit) := commit ops hash0 ver env fresh (chunk 1 [event 1] [msg 40] [1, 40])

example : st1.map (·.d.msgs) = some [key 1, msg 40] := by decide +kernel

/-- A proposal with a block event, a new message and a repeated one; validators agree. -/
example : (st1.bind (fun s => propose ops hash0 ver env s 2 102 [txn [event 2] [msg 41, msg 40] []])).map
    (fun r => (r.1.root, r.1.txns.map (·.root), r.2.pending.map (·.events))) =
    some ([1, 40, 2, 41], [[1, 40, 2, 41]], some [.told 2, .merged (msg 41), .failed (msg 40)]) := by decide +kernel

example : st1.map (fun s => (validateChange ops hash0 ver env s 2
    ⟨102, [1, 40, 2, 41], [txn [event 2] [msg 41, msg 40] [1, 40, 2, 41]]⟩).1) = some true := by decide +kernel

/-- One wrong byte in an account root, or in the shard root, and it is rejected. -/
example : st1.map (fun s => ((validateChange ops hash0 ver env s 2
    ⟨102, [1, 40, 2, 41], [txn [event 2] [msg 41, msg 40] [1, 40, 2, 42]]⟩).1, (validateChange ops hash0 ver env s 2
    ⟨102, [1, 40, 2, 42], [txn [event 2] [msg 41, msg 40] [1, 40, 2, 41]]⟩).1)) = some (false, false) := by decide +kernel

/-- A node that must replay a chunk with a wrong root stops. -/
example : commit ops hash0 ver env fresh (chunk 1 [event 1] [msg 40] [1, 41]) = none := by
  apply C47_wrong_roots_stop_the_node rfl
  intro o ho
  have h : (match outcome ops env (ver 101) fresh 1 101 [txn [event 1] [msg 40] [1, 41]] with
    | .ok o => decide (o.root = [1, 40])
    | .error _ => true) = true := by decide +kernel
  have ho' : outcome ops env (ver 101) fresh 1 101 [txn [event 1] [msg 40] [1, 41]] = .ok o := ho
  rw [ho'] at h
  right
  rw [of_decide_eq_true h]
  decide

/-- A node keeps the result of an empty proposal and commits a chunk with a message: the roots differ, so it replays. -/
example :
    let v := (validateChange ops hash0 ver env (⟨⟨[], [msg 40], []⟩, OMap.empty, OMap.empty, none⟩ :
      EngineState Db0 Work Hub Unit) 2 ⟨102, [40], []⟩).2
    v.pending.map (·.root) = some [40] ∧
    (commit ops hash0 ver env v (chunk 2 [] [msg 41] [40, 41])).map (·.d.msgs) = some [msg 40, msg 41] := by
  decide +kernel

end C47Case

/-- The result in memory is taken for a chunk with the same root and the same block events, whatever its transactions:
a node that validated an empty proposal commits that result for a chunk with a message that fails, and its stored hub
events differ from those of a node that replays the chunk. -/
theorem C47_memory_ignores_transactions :
    ∃ (p : Proposal Unit) (c : EChunk Unit) (st : EngineState EngineCase.Db0 EngineCase.Work EngineCase.Hub Unit),
      let validated := validateChange EngineCase.ops EngineCase.hash0 EngineCase.ver EngineCase.env st c.height p
      validated.1 = true ∧ p.txns.flatMap (·.user) ≠ c.txns.flatMap (·.user) ∧
      (commit EngineCase.ops EngineCase.hash0 EngineCase.ver EngineCase.env validated.2 c).map (·.d.hubs) ≠
        (commit EngineCase.ops EngineCase.hash0 EngineCase.ver EngineCase.env (startRound st) c).map (·.d.hubs) ∧
      (commit EngineCase.ops EngineCase.hash0 EngineCase.ver EngineCase.env (startRound st) c).isSome = true := by
  refine ⟨⟨102, [40], []⟩, EngineCase.chunk 2 [] [EngineCase.msg 40] [40],
    ⟨⟨[], [EngineCase.msg 40], []⟩, OMap.empty, OMap.empty, none⟩, ?_⟩
  decide +kernel

/-- A commit does not clear the result in memory.  If the next chunk is committed without a new round and has the same
root and no block events, the previous chunk's result is written again: the hub events of the previous height are
overwritten and the next height has none. -/
theorem C47_stale_memory_reused :
    let c1 := EngineCase.chunk 1 [] [EngineCase.msg 40] [40]
    let c2 := EngineCase.chunk 2 [] [EngineCase.msg 40] [40]
    let v := (validateChange EngineCase.ops EngineCase.hash0 EngineCase.ver EngineCase.env EngineCase.fresh 1
      ⟨c1.ts, c1.root, c1.txns⟩).2
    let s1 := commit EngineCase.ops EngineCase.hash0 EngineCase.ver EngineCase.env v c1
    (s1.bind (fun s => commit EngineCase.ops EngineCase.hash0 EngineCase.ver EngineCase.env s c2)).map
        (fun s => (s.d.hubs, s.d.msgs)) =
      some ([(1, [.confirmed 2, .merged (EngineCase.msg 40)])], [EngineCase.msg 40, EngineCase.msg 40]) ∧
    (s1.bind (fun s => commit EngineCase.ops EngineCase.hash0 EngineCase.ver EngineCase.env (startRound s) c2)).map
        (fun s => (s.d.hubs, s.d.msgs)) =
      some ([(1, [.confirmed 1, .merged (EngineCase.msg 40)]), (2, [.confirmed 2, .failed (EngineCase.msg 40)])],
        [EngineCase.msg 40]) := by
  decide +kernel

namespace C47Case
open EngineCase

def report (w : Work) (t : MessageType) : Work × List Hub :=
  let e := Hub.told (if t = .castAdd then 1 else 3)
  ({ w with hubs := w.hubs ++ [e] }, [e])

/-- The small shard with pruning that reports one hub event per type. -/
def prunes : EngineOps Db0 Work Hub Unit := { ops with prune := fun _ _ _ w _ t => Except.ok (report w t) }

def like (h : UInt8) : Msg := { fid := 7, ty := .reactionAdd, ts := 6, hash := [h], body := .other }

end C47Case

/-- The types to prune are kept in a hash set.  Two nodes that walk it in different orders agree on every root, but
store the hub events of the chunk in different orders, and so under different event ids. -/
theorem C47_set_order_changes_event_order :
    let c := EngineCase.chunk 1 [] [EngineCase.msg 40, C47Case.like 41] [40, 41]
    let a := commit C47Case.prunes EngineCase.hash0 EngineCase.ver EngineCase.env EngineCase.fresh c
    let b := commit C47Case.prunes EngineCase.hash0 EngineCase.ver { EngineCase.env with typeOrder := List.reverse }
      EngineCase.fresh c
    a.isSome = true ∧ b.isSome = true ∧ a.map (·.d.msgs) = b.map (·.d.msgs) ∧ a.map (·.d.hubs) ≠ b.map (·.d.hubs) := by
  decide +kernel

end Verif
