import Verif.Lemmas.Engine
import Verif.Case.Engine
/-!
C49: dry runs.

A dry run reads the stored state and returns a verdict; the model's `simulate` has no way to write, as the code has no
commit on this path.  What can be affected is the trie in memory, which the first theorem covers.
-/
namespace Verif
open Spec
section
variable {D W E F : Type} {ops : EngineOps D W E F} {H : Bytes → Bytes} {ver : Nat → EngineVersion}

/-- What a message alone in a transaction goes through. -/
theorem replay_single {env : NodeEnv} {v : EngineVersion} {ts : Nat} {d : D} {w : W} {ev : Txn BEvent} {seq : Nat}
    {m : Msg} {root : Bytes} {r : TxnResult W E} (hsig : env.signerOrder [] = [])
    (h : replayTxn ops env v ts d w ev seq ⟨m.fid, [], [m], root⟩ = .ok r) :
    ∃ w' es oerr more, ops.user v ts d w m = .ok (w', es, oerr) ∧ r.errs = oerr.toList ∧ r.events = es ++ more := by
  unfold replayTxn at h
  simp only [sysSort, stableSort, foldE, hsig, userSort, stableInsert, userStep] at h
  cases hu : ops.user v ts d w m with
  | error e => rw [hu] at h; exact absurd h (by simp)
  | ok x =>
    obtain ⟨w', es, oerr⟩ := x
    refine ⟨w', es, oerr, ?_⟩
    rw [hu] at h
    have key : ∀ s : RLoop W E, s.events = es → s.errs = oerr.toList →
        ((match foldE (pruneStep ops env v d m.fid) s (env.typeOrder s.types) with
        | .error e => Except.error e
        | .ok s =>
          match ops.sideEffects v d s.w s.events with
          | .error e => Except.error e
          | .ok (w, es) =>
            match ops.accountRoot d w m.fid with
            | .error e => Except.error e
            | .ok root => (Except.ok ⟨w, s.ev, s.seq, root, s.events ++ es, s.errs⟩ : Except HubErr (TxnResult W E))) : Except HubErr (TxnResult W E)) = .ok r →
        ∃ more, r.errs = oerr.toList ∧ r.events = es ++ more := by
      intro s hs1 hs2 hk
      split at hk
      · exact absurd hk (by simp)
      · rename_i s' hs'
        have hi := foldE_inv (fun x : RLoop W E => (∃ more, x.events = es ++ more) ∧ x.errs = oerr.toList) _ _
          ⟨⟨[], by simp [hs1]⟩, hs2⟩ (by
            intro x t x' _ hx hp
            unfold pruneStep at hp
            split at hp
            · exact absurd hp (by simp)
            · simp only [Except.ok.injEq] at hp; subst hp
              obtain ⟨⟨more, hm⟩, he⟩ := hx
              exact ⟨⟨_, by simp only [hm]; exact List.append_assoc _ _ _⟩, he⟩) _ hs'
        obtain ⟨⟨more, hm⟩, he⟩ := hi
        split at hk
        · exact absurd hk (by simp)
        · split at hk
          · exact absurd hk (by simp)
          · simp only [Except.ok.injEq] at hk; subst hk
            exact ⟨_, he, by simp only [hm]; exact List.append_assoc _ _ _⟩
    cases oerr with
    | none =>
      obtain ⟨more, h1, h2⟩ := key _ (by simp) (by simp) h
      exact ⟨more, rfl, h1, h2⟩
    | some e =>
      obtain ⟨more, h1, h2⟩ := key _ (by simp) (by simp) h
      exact ⟨more, rfl, h1, h2⟩

/-- The verdict of a dry run is what a proposal of that message alone, at the same height and time and on the same
state, does with the message: accepted if the dry run says so, refused with that very error otherwise; and the hub
events of the proposal begin with those of that decision.  The trie in memory is back to the stored one. -/
theorem C49_verdict_is_next_block {env : NodeEnv} {st st' : EngineState D W E F} {height ts : Nat} {m : Msg} {p : Proposal F}
    (hsig : env.signerOrder [] = [])
    (hact : ops.active env.clock (ver ts) st.d ⟨m.fid, [], [m], []⟩ = some true)
    (hp : propose ops H ver env st height ts [⟨m.fid, [], [m], []⟩] = some (p, st')) :
    (simulate ops ver env st height ts m).2 = .reloaded ∧
    ∃ w es oerr more c, ops.user (ver ts) ts st.d (ops.start st.d height) m = .ok (w, es, oerr) ∧
      (simulate ops ver env st height ts m).1 = (match oerr with | none => .ok () | some e => .error e) ∧
      p.txns.map (·.user) = [[m]] ∧ st'.pending = some c ∧ c.events = es ++ more := by
  unfold propose at hp
  have hf : [(⟨m.fid, [], [m], []⟩ : ETxn F)].filterMap (proposeFilter ops env (ver ts) st.d) = [⟨m.fid, [], [m], []⟩] := by
    simp [proposeFilter, hact]
  simp only [hf] at hp
  split at hp
  · exact absurd hp (by simp)
  · rename_i n hn
    simp only [foldE] at hp
    split at hp
    · exact absurd hp (by simp)
    · rename_i s hs
      unfold proposeStep at hs
      simp only at hs
      cases hr : replayTxn ops env (ver ts) ts st.d (ops.start st.d height) OMap.empty n ⟨m.fid, [], [m], []⟩ with
      | error e => rw [hr] at hs; simp at hs
      | ok r =>
        rw [hr] at hs
        simp only [List.nil_append, Except.ok.injEq] at hs
        subst hs
        obtain ⟨w', es, oerr, more, h1, h2, h3⟩ := replay_single hsig hr
        split at hp
        · exact absurd hp (by simp)
        · simp only [Option.some.injEq, Prod.mk.injEq] at hp
          obtain ⟨hp1, hp2⟩ := hp
          have hsim : simulate ops ver env st height ts m =
              ((match oerr with | none => .ok () | some e => .error e), .reloaded) := by
            unfold simulate
            simp only [hn, hr, h2]
            cases oerr <;> rfl
          rw [hsim]
          refine ⟨rfl, w', es, oerr, more, _, h1, (by cases oerr <;> rfl), by rw [← hp1]; rfl, by rw [← hp2], h3⟩

/-- A dry run leaves the trie in memory touched exactly when the replay itself breaks off, which it reports as an
internal error. -/
theorem C49_touched_only_on_internal_error {env : NodeEnv} {st : EngineState D W E F} {height ts : Nat} {m : Msg}
    (h : (simulate ops ver env st height ts m).2 = .touched) :
    (simulate ops ver env st height ts m).1 = .error .invalidInternalState := by
  unfold simulate at h ⊢
  simp only at h ⊢
  split at h
  · rename_i hr; simp only [hr]
  · split at h <;> exact absurd h (by simp)

/-- A bulk dry run of one message gives the verdict of the single dry run. -/
theorem C49_bulk_of_one {env : NodeEnv} {st : EngineState D W E F} {height ts : Nat} {m : Msg} :
    simulateBulk ops ver env st height ts [m.fid] [m] = [(simulate ops ver env st height ts m).1] := by
  unfold simulateBulk simulate
  simp only [simulateGroups, simulateGroup, List.map_cons, List.map_nil, List.filter_cons, beq_self_eq_true, if_true,
    List.filter_nil, List.lookup, Option.getD_some]
  congr 1
  split
  · rfl
  · split <;> simp_all

end

namespace C49Case
open EngineCase

def st1 : EngineState Db0 Work Hub Unit := ⟨⟨[], [msg 40], []⟩, OMap.empty, OMap.empty, none⟩

/-- A new message passes, a repeated one is a duplicate; proposals agree. -/
example : (simulate ops ver env st1 1 101 (msg 41)).1 = .ok () ∧
    (simulate ops ver env st1 1 101 (msg 40)).1 = .error .duplicate ∧
    (propose ops hash0 ver env st1 1 101 [txn [] [msg 41] []]).map (fun r => r.2.pending.map (·.events)) =
      some (some [.merged (msg 41)]) ∧
    (propose ops hash0 ver env st1 1 101 [txn [] [msg 40] []]).map (fun r => r.2.pending.map (·.events)) =
      some (some [.failed (msg 40)]) := by decide +kernel

/-- The small shard with users who have no storage. -/
def noStorage : EngineOps Db0 Work Hub Unit := { ops with active := fun _ _ _ _ => some false }

end C49Case

/-- A dry run does not look at storage: a message of a user without storage passes, and the proposer drops it without
a trace. -/
theorem C49_no_storage_passes :
    (simulate C49Case.noStorage EngineCase.ver EngineCase.env C49Case.st1 1 101 (EngineCase.msg 41)).1 = .ok () ∧
    (propose C49Case.noStorage EngineCase.hash0 EngineCase.ver EngineCase.env C49Case.st1 1 101
      [EngineCase.txn [] [EngineCase.msg 41] []]).map (fun r => (r.1.txns.length, r.2.pending.map (·.events))) =
      some (0, some []) := by
  decide +kernel

/-- In a bulk dry run one refused message has all messages of its user reported as refused, with its error, although
the others are accepted by the block. -/
theorem C49_bulk_blames_all :
    simulateBulk EngineCase.ops EngineCase.ver EngineCase.env C49Case.st1 1 101 [7]
      [EngineCase.msg 41, EngineCase.msg 40] = [.error .duplicate, .error .duplicate] ∧
    (propose EngineCase.ops EngineCase.hash0 EngineCase.ver EngineCase.env C49Case.st1 1 101
      [EngineCase.txn [] [EngineCase.msg 41, EngineCase.msg 40] []]).map (fun r => r.2.pending.map (·.events)) =
      some (some [.merged (EngineCase.msg 41), .failed (EngineCase.msg 40)]) := by
  decide +kernel

end Verif
