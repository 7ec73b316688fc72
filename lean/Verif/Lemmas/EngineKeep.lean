import Verif.Lemmas.Engine
/-! What every step of the engine keeps, every proposal, validation and commit keeps. -/
namespace Verif
open Spec
section
variable {D W E F : Type} {ops : EngineOps D W E F} {H : Bytes → Bytes} {ver : Nat → EngineVersion}

/-- `P` holds of work on a state with `Q`, and `Q` of the states written, if the user messages satisfy `A` and the block
events `B`, and the on-chain events `C`. -/
structure Keeps (ops : EngineOps D W E F) (A : EngineVersion → Nat → Msg → Prop) (B : BEvent → Prop) (C : OEvent → Prop) (Q : D → Prop) (P : W → Prop) :
    Prop where
  start : ∀ d h, Q d → P (ops.start d h)
  onchain : ∀ v d w e w' r, C e → P w → ops.onchain v d w e = .ok (w', r) → P w'
  fname : ∀ d w f w' r, P w → ops.fname d w f = .ok (w', r) → P w'
  blockEvent : ∀ v d w b w' r, B b → P w → ops.blockEvent v d w b = .ok (w', r) → P w'
  revoke : ∀ d w n k w' r, P w → ops.revoke d w n k = .ok (w', r) → P w'
  user : ∀ v ts d w m w' r, A v ts m → P w → ops.user v ts d w m = .ok (w', r) → P w'
  prune : ∀ c v d w n t w' r, P w → ops.prune c v d w n t = .ok (w', r) → P w'
  sideEffects : ∀ v d w es w' r, P w → ops.sideEffects v d w es = .ok (w', r) → P w'
  write : ∀ d w c es n w', P w → ops.confirm d w c es n = some w' → Q (ops.write d w')

/-- A transaction whose messages satisfy `A` and whose block events satisfy `B` and on-chain events `C`. -/
def ETxn.Fine (A : EngineVersion → Nat → Msg → Prop) (B : BEvent → Prop) (C : OEvent → Prop) (v : EngineVersion) (ts : Nat) (t : ETxn F) : Prop :=
  (∀ m ∈ t.user, A v ts m) ∧ ∀ s ∈ t.sys, (∀ b, s.block = some b → B b) ∧ ∀ e, s.onchain = some e → C e

/-- Everything in the rounds and the chunk of a height is fine. -/
def Spec.NodeBlock.Fine (ver : Nat → EngineVersion) (A : EngineVersion → Nat → Msg → Prop) (B : BEvent → Prop) (C : OEvent → Prop) (b : NodeBlock F) : Prop :=
  ∀ x ∈ b.offers, x.2.Fine A B C (ver x.1) x.1

variable {A : EngineVersion → Nat → Msg → Prop} {B : BEvent → Prop} {C : OEvent → Prop} {Q : D → Prop} {P : W → Prop}

theorem keep_sysStep (K : Keeps ops A B C Q P) {v : EngineVersion} {d : D} {s s' : RLoop W E} {m : SysMsg F}
    (h : sysStep ops v d s m = .ok s') (hb : (∀ b, m.block = some b → B b) ∧ ∀ e, m.onchain = some e → C e) (hp : P s.w) : P s'.w := by
  unfold sysStep at h
  split at h
  · simp only [Except.ok.injEq] at h; subst h; exact hp
  · split at h
    · exact absurd h (by simp)
    · rename_i s1 h1
      have p1 : P s1.w := by
        unfold sysOnchain at h1
        split at h1
        · simp only [Except.ok.injEq] at h1; subst h1; exact hp
        · split at h1
          · exact absurd h1 (by simp)
          · rename_i ho; simp only [Except.ok.injEq] at h1; subst h1; exact K.onchain _ _ _ _ _ _ (hb.2 _ (by assumption)) hp ho
          · rename_i ho; simp only [Except.ok.injEq] at h1; subst h1; exact K.onchain _ _ _ _ _ _ (hb.2 _ (by assumption)) hp ho
      split at h
      · exact absurd h (by simp)
      · rename_i s2 h2
        have p2 : P s2.w := by
          unfold sysFname at h2
          split at h2
          · simp only [Except.ok.injEq] at h2; subst h2; exact p1
          · split at h2
            · exact absurd h2 (by simp)
            · rename_i ho; simp only [Except.ok.injEq] at h2; subst h2; exact K.fname _ _ _ _ _ p1 ho
        unfold sysBlock at h
        split at h
        · simp only [Except.ok.injEq] at h; subst h; exact p2
        · split at h
          · simp only [Except.ok.injEq] at h; subst h; exact p2
          · split at h
            · exact absurd h (by simp)
            · split at h
              · simp only at h
                split at h
                · exact absurd h (by simp)
                · rename_i ho; simp only [Except.ok.injEq] at h; subst h; exact K.blockEvent _ _ _ _ _ _ (hb.1 _ (by assumption)) p2 ho
                · rename_i ho; simp only [Except.ok.injEq] at h; subst h; exact K.blockEvent _ _ _ _ _ _ (hb.1 _ (by assumption)) p2 ho
              · simp only [Except.ok.injEq] at h; subst h; exact p2

theorem keep_replayTxn (K : Keeps ops A B C Q P) {env : NodeEnv} {v : EngineVersion} {ts : Nat} {d : D} {w : W} {ev : Txn BEvent} {seq : Nat}
    {t : ETxn F} {r : TxnResult W E} (h : replayTxn ops env v ts d w ev seq t = .ok r) (ht : t.Fine A B C v ts) (hp : P w) : P r.w := by
  unfold replayTxn at h
  split at h
  · exact absurd h (by simp)
  · rename_i s hs
    have i0 := foldE_inv (fun x : RLoop W E => P x.w) _ _ hp (fun x k x' hm hx hk => keep_sysStep K hk (ht.2 k (mem_stableSort.1 hm)) hx) _ hs
    split at h
    · exact absurd h (by simp)
    · rename_i s1 h1
      have i1 := foldE_inv (fun x : RLoop W E => P x.w) _ _ i0 (by
          intro x k x' _ hx hk
          unfold revokeStep at hk
          split at hk
          · exact absurd hk (by simp)
          · rename_i ho
            simp only [Except.ok.injEq] at hk; subst hk
            exact K.revoke _ _ _ _ _ _ hx ho) _ h1
      split at h
      · exact absurd h (by simp)
      · rename_i s2 h2
        have i2 := foldE_inv (fun x : RLoop W E => P x.w) _ _ i1 (by
            intro x k x' hm hx hk
            unfold userStep at hk
            split at hk
            · exact absurd hk (by simp)
            all_goals
              rename_i ho
              simp only [Except.ok.injEq] at hk; subst hk
              exact K.user _ _ _ _ _ _ _ (ht.1 k (mem_stableSort.1 hm)) hx ho) _ h2
        split at h
        · exact absurd h (by simp)
        · rename_i s3 h3
          have i3 := foldE_inv (fun x : RLoop W E => P x.w) _ _ i2 (by
              intro x k x' _ hx hk
              unfold pruneStep at hk
              split at hk
              · exact absurd hk (by simp)
              · rename_i ho
                simp only [Except.ok.injEq] at hk; subst hk
                exact K.prune _ _ _ _ _ _ _ _ hx ho) _ h3
          split at h
          · exact absurd h (by simp)
          · rename_i ho
            split at h
            · exact absurd h (by simp)
            · simp only [Except.ok.injEq] at h; subst h
              exact K.sideEffects _ _ _ _ _ _ i3 ho

theorem keep_replayProposal (K : Keeps ops A B C Q P) {env : NodeEnv} {v : EngineVersion} {st : EngineState D W E F} {height ts : Nat}
    {txns : List (ETxn F)} {root : Bytes} {s : PLoop W E F} (hq : Q st.d) (hf : ∀ t ∈ txns, t.Fine A B C v ts)
    (h : replayProposal ops env v st height ts txns root = .ok s) : P s.w ∧ ops.root s.w = .ok root := by
  unfold replayProposal at h
  split at h
  · exact absurd h (by simp)
  · split at h
    · exact absurd h (by simp)
    · rename_i s1 hs
      split at h
      · exact absurd h (by simp)
      · rename_i r hr
        split at h
        · exact absurd h (by simp)
        · rename_i hne
          simp only [Except.ok.injEq] at h; subst h
          refine ⟨?_, by rw [hr, Decidable.not_not.1 hne]⟩
          refine foldE_inv (fun x : PLoop W E F => P x.w) _ _ (K.start _ _ hq) ?_ _ hs
          intro x t x' ht hx hk
          unfold replayStep at hk
          split at hk
          · exact absurd hk (by simp)
          · rename_i r hr
            split at hk
            · exact absurd hk (by simp)
            · simp only [Except.ok.injEq] at hk; subst hk
              exact keep_replayTxn K hr (hf t ht) hx

theorem proposeFilter_fine {env : NodeEnv} {v : EngineVersion} {d : D} {ts : Nat} {txns : List (ETxn F)}
    (hf : ∀ x ∈ txns.map (fun t => (ts, t)), x.2.Fine A B C (ver x.1) x.1) {t : ETxn F}
    (ht : t ∈ txns.filterMap (proposeFilter ops env v d)) : t.Fine A B C (ver ts) ts := by
  obtain ⟨u, hu, e⟩ := List.mem_filterMap.1 ht
  have hu := hf (ts, u) (List.mem_map.2 ⟨u, hu, rfl⟩)
  unfold proposeFilter at e
  split at e
  · exact absurd e (by simp)
  · rename_i a _
    cases a
    · simp only [Bool.false_eq_true, if_false] at e
      split at e
      · exact absurd e (by simp)
      · simp only [Option.some.injEq] at e
        subst e
        exact ⟨by simp, hu.2⟩
    · simp only [if_true] at e
      split at e
      · exact absurd e (by simp)
      · simp only [Option.some.injEq] at e
        subst e
        exact hu

theorem fine_txn (v : EngineVersion) (ts : Nat) (t : ETxn F) : t.Fine (fun _ _ _ => True) (fun _ => True) (fun _ => True) v ts :=
  ⟨fun _ _ => trivial, fun _ _ => ⟨fun _ _ => trivial, fun _ _ => trivial⟩⟩

theorem fine_true (b : NodeBlock F) : b.Fine ver (fun _ _ _ => True) (fun _ => True) (fun _ => True) :=
  fun _ _ => fine_txn _ _ _

theorem Spec.NodeBlock.Fine.steps {b : NodeBlock F} (h : b.Fine ver A B C) : ∀ x ∈ b.steps.flatMap RoundStep.offers, x.2.Fine A B C (ver x.1) x.1 :=
  fun x hx => h x (List.mem_append_left _ hx)

theorem Spec.NodeBlock.Fine.chunk {b : NodeBlock F} (h : b.Fine ver A B C) : ∀ t ∈ b.chunk.txns, t.Fine A B C (ver b.chunk.ts) b.chunk.ts :=
  fun t ht => h (b.chunk.ts, t) (List.mem_append_right _ (List.mem_map.2 ⟨t, ht, rfl⟩))

/-- What is true of a node at any time. -/
structure KeptNode (ops : EngineOps D W E F) (Q : D → Prop) (P : W → Prop) (st : EngineState D W E F) : Prop where
  state : Q st.d
  pending : ∀ c, st.pending = some c → P c.w ∧ ops.root c.w = .ok c.root

theorem keep_roundStep (K : Keeps ops A B C Q P) {st st' : EngineState D W E F} {s : RoundStep F} (hi : KeptNode ops Q P st)
    (hf : ∀ x ∈ s.offers, x.2.Fine A B C (ver x.1) x.1)
    (h : roundStep ops H ver st s = some st') : KeptNode ops Q P st' := by
  cases s with
  | newRound =>
    simp only [roundStep, startRound, Option.some.injEq] at h; subst h
    exact ⟨hi.state, by simp⟩
  | propose env ht ts txns =>
    simp only [roundStep, Option.map_eq_some_iff] at h
    obtain ⟨⟨p, st2⟩, h, rfl⟩ := h
    unfold propose at h
    simp only at h
    split at h
    · exact absurd h (by simp)
    · split at h
      · exact absurd h (by simp)
      · rename_i s1 hs
        split at h
        · exact absurd h (by simp)
        · rename_i r hr
          simp only [Option.some.injEq, Prod.mk.injEq] at h
          obtain ⟨_, h⟩ := h; subst h
          refine ⟨hi.state, ?_⟩
          intro c hc
          simp only [Option.some.injEq] at hc; subst hc
          refine ⟨?_, hr⟩
          refine foldE_inv (fun x : PLoop W E F => P x.w) _ _ (K.start _ _ hi.state) ?_ _ hs
          intro x t x' ht hx hk
          unfold proposeStep at hk
          split at hk
          · exact absurd hk (by simp)
          · rename_i r hr
            simp only [Except.ok.injEq] at hk; subst hk
            exact keep_replayTxn K hr (proposeFilter_fine hf ht) hx
  | validate env ht p =>
    simp only [roundStep, Option.some.injEq] at h
    unfold validateChange at h
    split at h
    · subst h; exact hi
    · rename_i s1 hs
      subst h
      refine ⟨hi.state, ?_⟩
      intro c hc
      simp only [Option.some.injEq] at hc; subst hc
      exact keep_replayProposal K hi.state (fun t ht => hf (p.ts, t) (List.mem_map.2 ⟨t, ht, rfl⟩)) hs

theorem keep_roundSteps (K : Keeps ops A B C Q P) : ∀ (l : List (RoundStep F)) (st st' : EngineState D W E F), KeptNode ops Q P st →
    (∀ x ∈ l.flatMap RoundStep.offers, x.2.Fine A B C (ver x.1) x.1) → roundSteps ops H ver l st = some st' → KeptNode ops Q P st'
  | [], st, st', hi, _, h => by simp only [roundSteps, Option.some.injEq] at h; subst h; exact hi
  | s :: l, st, st', hi, hf, h => by
    simp only [roundSteps] at h
    split at h
    · exact absurd h (by simp)
    · rename_i st1 h1
      exact keep_roundSteps K l st1 st' (keep_roundStep K hi (fun x hx => hf x (List.mem_flatMap.2 ⟨s, List.mem_cons_self, hx⟩)) h1)
        (fun x hx => by
          obtain ⟨a, b, c⟩ := List.mem_flatMap.1 hx
          exact hf x (List.mem_flatMap.2 ⟨a, List.mem_cons_of_mem _ b, c⟩)) h

/-- A commit writes work whose root is the root of the chunk. -/
theorem keep_commit (K : Keeps ops A B C Q P) {env : NodeEnv} {st st' : EngineState D W E F} {c : EChunk F} (hi : KeptNode ops Q P st)
    (hf : ∀ t ∈ c.txns, t.Fine A B C (ver c.ts) c.ts)
    (h : commit ops H ver env st c = some st') :
    ∃ w es seq w', P w ∧ ops.root w = .ok c.root ∧ ops.confirm st.d w c es seq = some w' ∧ st'.d = ops.write st.d w' := by
  simp only [commit, Option.map_eq_some_iff] at h
  obtain ⟨st1, h, rfl⟩ := h
  unfold commitFirst at h
  split at h
  · exact absurd h (by simp)
  · rename_i es seq w ev hs
    unfold commitState at h
    split at h
    · exact absurd h (by simp)
    · rename_i w1 hw
      simp only [Option.some.injEq] at h; subst h
      have hw2 : P w ∧ ops.root w = .ok c.root := by
        unfold commitSource at hs
        split at hs
        · rename_i p hp
          split at hs
          · rename_i hv
            simp only [Option.some.injEq, Prod.mk.injEq] at hs
            obtain ⟨_, _, hs, _⟩ := hs
            subst hs
            obtain ⟨a, b⟩ := hi.pending p hp
            unfold cachedValid at hv
            rw [Bool.and_eq_true, decide_eq_true_eq] at hv
            exact ⟨a, by rw [b, hv.1]⟩
          · split at hs
            · exact absurd hs (by simp)
            · rename_i s1 h1
              simp only [Option.some.injEq, Prod.mk.injEq] at hs
              obtain ⟨_, _, hs, _⟩ := hs
              subst hs
              exact keep_replayProposal K hi.state hf h1
        · split at hs
          · exact absurd hs (by simp)
          · rename_i s1 h1
            simp only [Option.some.injEq, Prod.mk.injEq] at hs
            obtain ⟨_, _, hs, _⟩ := hs
            subst hs
            exact keep_replayProposal K hi.state hf h1
      exact ⟨w, es, seq, w1, hw2.1, hw2.2, hw, rfl⟩

theorem keep_nodeRun (K : Keeps ops A B C Q P) : ∀ (bs : List (NodeBlock F)) (st st' : EngineState D W E F), Q st.d →
    (∀ b ∈ bs, b.Fine ver A B C) → nodeRun ops H ver bs st = some st' → Q st'.d
  | [], st, st', hq, _, h => by simp only [nodeRun, Option.some.injEq] at h; subst h; exact hq
  | b :: bs, st, st', hq, hf, h => by
    simp only [nodeRun] at h
    split at h
    · exact absurd h (by simp)
    · rename_i st1 h1
      split at h
      · exact absurd h (by simp)
      · rename_i st2 h2
        have k0 : KeptNode ops Q P (startRound st) := ⟨hq, by simp [startRound]⟩
        have k1 := keep_roundSteps K _ _ _ k0 (hf b List.mem_cons_self).steps h1
        obtain ⟨w, es, seq, w', hw, _, hc, hd⟩ := keep_commit K k1 (hf b List.mem_cons_self).chunk h2
        exact keep_nodeRun K bs st2 st' (by rw [hd]; exact K.write _ _ _ _ _ _ hw hc) (fun b hb => hf b (List.mem_cons_of_mem _ hb)) h

theorem nodeRun_append (bs bs' : List (NodeBlock F)) (st st' : EngineState D W E F) :
    nodeRun ops H ver (bs ++ bs') st = some st' ↔ ∃ st1, nodeRun ops H ver bs st = some st1 ∧ nodeRun ops H ver bs' st1 = some st' := by
  induction bs generalizing st with
  | nil => simp [nodeRun]
  | cons b bs ih =>
    simp only [List.cons_append, nodeRun]
    split
    · simp
    · split
      · simp
      · exact ih _

/-- The state after a chunk was written from work with the chunk's root. -/
theorem keep_last (K : Keeps ops A B C Q P) {bs : List (NodeBlock F)} {b : NodeBlock F} {st st' : EngineState D W E F} (hq : Q st.d)
    (hf : ∀ x ∈ bs ++ [b], x.Fine ver A B C) (h : nodeRun ops H ver (bs ++ [b]) st = some st') :
    ∃ d w es seq w', Q d ∧ P w ∧ ops.root w = .ok b.chunk.root ∧ ops.confirm d w b.chunk es seq = some w' ∧ st'.d = ops.write d w' := by
  obtain ⟨st1, h1, h2⟩ := (nodeRun_append ..).1 h
  have q1 := keep_nodeRun K bs st st1 hq (fun x hx => hf x (List.mem_append_left _ hx)) h1
  simp only [nodeRun] at h2
  split at h2
  · exact absurd h2 (by simp)
  · rename_i st2 h3
    split at h2
    · exact absurd h2 (by simp)
    · rename_i st3 h4
      simp only [Option.some.injEq] at h2; subst h2
      have k0 : KeptNode ops Q P (startRound st1) := ⟨q1, by simp [startRound]⟩
      have hb := hf b (List.mem_append_right _ List.mem_cons_self)
      have k1 := keep_roundSteps K _ _ _ k0 hb.steps h3
      obtain ⟨w, es, seq, w', hw, hr, hc, hd⟩ := keep_commit K k1 hb.chunk h4
      exact ⟨st2.d, w, es, seq, w', k1.state, hw, hr, hc, hd⟩

end
end Verif
