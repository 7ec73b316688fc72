import Verif.Spec.Replay
import Verif.Lemmas.Engine
/-! Replaying and applying. -/
namespace Verif
open Spec
section
variable {D W E F : Type} {ops : EngineOps D W E F} {H : Bytes → Bytes} {ver : Nat → EngineVersion}

theorem replayTxn_root (env : NodeEnv) (v : EngineVersion) (ts : Nat) (d : D) (w : W) (ev : Txn BEvent) (seq : Nat)
    (t : ETxn F) (r : Bytes) :
    replayTxn ops env v ts d w ev seq { t with root := r } = replayTxn ops env v ts d w ev seq t := rfl

theorem replayTxn_view {a b : NodeEnv} (h : SameView ops a b) (v : EngineVersion) (ts : Nat) (d : D) (w : W)
    (ev : Txn BEvent) (seq : Nat) (t : ETxn F) :
    replayTxn ops a v ts d w ev seq t = replayTxn ops b v ts d w ev seq t := by
  have hp : ∀ d fid, pruneStep ops a v d fid = pruneStep ops b v d fid := by
    intro d fid
    funext s t
    unfold pruneStep
    rw [h.1]
  unfold replayTxn
  simp only [h.2.1, h.2.2, hp]

theorem applyAll_view {a b : NodeEnv} (h : SameView ops a b) (v : EngineVersion) (ts : Nat) (d : D) :
    ∀ (l : List (ETxn F)) (o : Outcome W E), applyAll ops a v ts d l o = applyAll ops b v ts d l o
  | [], o => rfl
  | t :: l, o => by
    simp only [applyAll, replayTxn_view h]
    split
    · rfl
    · exact applyAll_view h v ts d l _

theorem outcome_view {a b : NodeEnv} (h : SameView ops a b) (v : EngineVersion) {st st' : EngineState D W E F}
    (hs : SameStored st st') (height ts : Nat) (txns : List (ETxn F)) :
    outcome ops a v st height ts txns = outcome ops b v st' height ts txns := by
  unfold outcome
  rw [hs.1, hs.2]
  simp only [applyAll_view h]

/-- The fields a replay and an application share. -/
def SameWork (s : PLoop W E F) (o : Outcome W E) : Prop :=
  s.w = o.w ∧ s.ev = o.ev ∧ s.seq = o.seq ∧ s.events = o.events

theorem applyAll_accounts {env : NodeEnv} {v : EngineVersion} {ts : Nat} {d : D} :
    ∀ (l : List (ETxn F)) (o o' : Outcome W E), applyAll ops env v ts d l o = .ok o' →
    ∃ more, o'.accounts = o.accounts ++ more ∧ more.length = l.length
  | [], o, o', h => by
    simp only [applyAll, Except.ok.injEq] at h; subst h; exact ⟨[], by simp, rfl⟩
  | t :: l, o, o', h => by
    simp only [applyAll] at h
    split at h
    · exact absurd h (by simp)
    · rename_i r hr
      obtain ⟨more, h1, h2⟩ := applyAll_accounts l _ _ h
      exact ⟨r.root :: more, by rw [h1]; simp, by simp [h2]⟩

/-- A replay succeeds exactly when applying does and gives the claimed account roots. -/
theorem replay_iff {env : NodeEnv} {v : EngineVersion} {ts : Nat} {d : D} :
    ∀ (l : List (ETxn F)) (s : PLoop W E F) (o : Outcome W E), SameWork s o →
    (∀ s', foldE (replayStep ops env v ts d) s l = .ok s' →
      ∃ o', applyAll ops env v ts d l o = .ok o' ∧ o'.accounts = o.accounts ++ l.map (·.root) ∧ SameWork s' o') ∧
    (∀ o', applyAll ops env v ts d l o = .ok o' → o'.accounts = o.accounts ++ l.map (·.root) →
      ∃ s', foldE (replayStep ops env v ts d) s l = .ok s' ∧ SameWork s' o')
  | [], s, o, h => by
    constructor
    · intro s' hs
      simp only [foldE, Except.ok.injEq] at hs; subst hs
      exact ⟨o, rfl, by simp, h⟩
    · intro o' ho _
      simp only [applyAll, Except.ok.injEq] at ho; subst ho
      exact ⟨s, rfl, h⟩
  | t :: l, s, o, h => by
    obtain ⟨h1, h2, h3, h4⟩ := h
    constructor
    · intro s' hs
      simp only [foldE] at hs
      split at hs
      · exact absurd hs (by simp)
      · rename_i s1 hs1
        unfold replayStep at hs1
        split at hs1
        · exact absurd hs1 (by simp)
        · rename_i r hr
          split at hs1
          · exact absurd hs1 (by simp)
          · rename_i hroot
            simp only [ne_eq, Decidable.not_not] at hroot
            simp only [Except.ok.injEq] at hs1; subst hs1
            simp only [applyAll, replayTxn_root, ← h1, ← h2, ← h3, hr]
            obtain ⟨o', k1, k2, k3⟩ := (replay_iff l _ ⟨o.accounts ++ [r.root], [], o.events ++ r.events, r.w, r.ev, r.seq⟩
              ⟨rfl, rfl, rfl, by rw [h4]⟩).1 s' hs
            exact ⟨o', k1, by rw [k2, hroot]; simp, k3⟩
    · intro o' ho hacc
      simp only [applyAll, replayTxn_root, ← h1, ← h2, ← h3] at ho
      split at ho
      · exact absurd ho (by simp)
      · rename_i r hr
        obtain ⟨more, m1, m2⟩ := applyAll_accounts l _ _ ho
        have hh : r.root = t.root ∧ more = l.map (·.root) := by
          rw [m1] at hacc
          simpa using hacc
        have e : replayStep ops env v ts d s t =
            .ok ⟨r.w, r.ev, r.seq, s.events ++ r.events, s.errs ++ r.errs, s.txns ++ [t]⟩ := by
          simp [replayStep, hr, hh.1]
        simp only [foldE, e]
        refine (replay_iff l _ _ ⟨rfl, rfl, rfl, by rw [h4]⟩).2 o' ho ?_
        rw [m1, hh.2]

/-- `replay_proposal` accepts exactly the transactions and roots that applying yields. -/
theorem replayProposal_iff (env : NodeEnv) (v : EngineVersion) (st : EngineState D W E F) (height ts : Nat)
    (txns : List (ETxn F)) (root : Bytes) :
    (∀ s, replayProposal ops env v st height ts txns root = .ok s →
      ∃ o, outcome ops env v st height ts txns = .ok o ∧ o.accounts = txns.map (·.root) ∧ o.root = root ∧ SameWork s o) ∧
    (∀ o, outcome ops env v st height ts txns = .ok o → o.accounts = txns.map (·.root) → o.root = root →
      ∃ s, replayProposal ops env v st height ts txns root = .ok s ∧ SameWork s o) := by
  unfold replayProposal outcome
  cases hm : maxSeqnum some st.ev with
  | error e => simp
  | ok n =>
    simp only
    have key := replay_iff (ops := ops) (env := env) (v := v) (ts := ts) (d := st.d) txns
      ⟨ops.start st.d height, OMap.empty, n, [], [], []⟩ ⟨[], [], [], ops.start st.d height, OMap.empty, n⟩
      ⟨rfl, rfl, rfl, rfl⟩
    constructor
    · intro s hs
      split at hs
      · exact absurd hs (by simp)
      · rename_i s1 hs1
        obtain ⟨o, k1, k2, k3⟩ := key.1 _ hs1
        rw [k1]
        simp only
        split at hs
        · exact absurd hs (by simp)
        · rename_i r hr
          split at hs
          · exact absurd hs (by simp)
          · rename_i hroot
            simp only [ne_eq, Decidable.not_not] at hroot
            simp only [Except.ok.injEq] at hs; subst hs
            rw [k3.1] at hr
            rw [hr]
            exact ⟨_, rfl, by simpa using k2, hroot, k3⟩
    · intro o ho hacc hroot
      split at ho
      · exact absurd ho (by simp)
      · rename_i o1 ho1
        split at ho
        · exact absurd ho (by simp)
        · rename_i r hr
          simp only [Except.ok.injEq] at ho; subst ho
          obtain ⟨s, k1, k2⟩ := key.2 o1 ho1 (by simpa using hacc)
          rw [k1]
          simp only [k2.1, hr]
          simp only at hroot
          rw [if_neg (by simp [hroot])]
          exact ⟨s, rfl, k2⟩

/-- The proposer's loop is an application that writes the roots down. -/
theorem propose_fold {env : NodeEnv} {v : EngineVersion} {ts : Nat} {d : D} :
    ∀ (l : List (ETxn F)) (s s' : PLoop W E F) (o : Outcome W E), SameWork s o →
    foldE (proposeStep ops env v ts d) s l = .ok s' →
    ∃ more o', s'.txns = s.txns ++ more ∧ applyAll ops env v ts d more o = .ok o' ∧
      o'.accounts = o.accounts ++ more.map (·.root) ∧ SameWork s' o' ∧
      more.map (fun t => { t with root := [] }) = l.map (fun t => { t with root := [] })
  | [], s, s', o, h, hs => by
    simp only [foldE, Except.ok.injEq] at hs; subst hs
    exact ⟨[], o, by simp, rfl, by simp, h, rfl⟩
  | t :: l, s, s', o, h, hs => by
    obtain ⟨h1, h2, h3, h4⟩ := h
    simp only [foldE] at hs
    split at hs
    · exact absurd hs (by simp)
    · rename_i s1 hs1
      unfold proposeStep at hs1
      split at hs1
      · exact absurd hs1 (by simp)
      · rename_i r hr
        simp only [Except.ok.injEq] at hs1; subst hs1
        obtain ⟨more, o', m1, m2, m3, m4, m5⟩ := propose_fold l _ s'
          ⟨o.accounts ++ [r.root], [], o.events ++ r.events, r.w, r.ev, r.seq⟩ ⟨rfl, rfl, rfl, by rw [h4]⟩ hs
        refine ⟨{ t with root := r.root } :: more, o', by rw [m1]; simp, ?_, ?_, m4, ?_⟩
        · simp only [applyAll]
          have : replayTxn ops env v ts d o.w o.ev o.seq { fid := t.fid, sys := t.sys, user := t.user, root := [] } = .ok r := by
            rw [← h1, ← h2, ← h3]; exact hr
          rw [this]
          exact m2
        · rw [m3]; simp
        · simp [m5]

end
end Verif
