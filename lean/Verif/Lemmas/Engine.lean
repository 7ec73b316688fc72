import Verif.Spec.Engine
import Verif.Lemmas.BlockEvents
/-! What a replay does to the block events. -/
namespace Verif
open Spec
section
variable {D W E F : Type} {ops : EngineOps D W E F} {H : Bytes → Bytes} {ver : Nat → EngineVersion}

theorem foldE_inv {α σ : Type} {f : σ → α → Except HubErr σ} (P : σ → Prop) :
    ∀ (l : List α) (s : σ), P s → (∀ s a s', a ∈ l → P s → f s a = .ok s' → P s') → ∀ s', foldE f s l = .ok s' → P s'
  | [], s, hs, _, s', h => by
    simp only [foldE, Except.ok.injEq] at h
    exact h ▸ hs
  | a :: l, s, hs, hstep, s', h => by
    simp only [foldE] at h
    cases hf : f s a with
    | error e => rw [hf] at h; exact absurd h (by simp)
    | ok s1 =>
      rw [hf] at h
      exact foldE_inv P l s1 (hstep s a s1 (by simp) hs hf) (fun s a s' ha => hstep s a s' (by simp [ha])) s' h

theorem stage_snoc : ∀ (es : List BEvent) (t : Txn BEvent) (e : BEvent) (d : BData), e.data = some d →
    stageBlockEvents t (es ++ [e]) =
      match stageBlockEvents t es with
      | .error x => .error x
      | .ok t => .ok (t.stagePut (blockEventKey d.seqnum) e)
  | [], t, e, d, h => by simp [stageBlockEvents, putBlockEvent, h]
  | a :: es, t, e, d, h => by
    simp only [List.cons_append, stageBlockEvents]
    cases putBlockEvent id a t with
    | error x => rfl
    | ok t => exact stage_snoc es t e d h

/-- The record, the staged rows and the counter agree; every recorded event satisfies `G`. -/
structure RInv (L : Ledger ops) (G : BEvent → Prop) (n : Nat) (w : W) (ev : Txn BEvent) (seq : Nat) : Prop where
  count : seq = (n + (L.wlog w).length) % 2 ^ 64
  numbered : ∀ i e, (L.wlog w)[i]? = some e → ∃ d, e.data = some d ∧ d.seqnum = (n + i + 1) % 2 ^ 64
  staged : stageBlockEvents OMap.empty (L.wlog w) = .ok ev
  good : ∀ e ∈ L.wlog w, G e

variable {L : Ledger ops} {G : BEvent → Prop} {n : Nat}

theorem RInv.same {w w' : W} {ev : Txn BEvent} {seq : Nat} (h : RInv L G n w ev seq) (hw : L.wlog w' = L.wlog w) :
    RInv L G n w' ev seq := ⟨hw ▸ h.count, hw ▸ h.numbered, hw ▸ h.staged, hw ▸ h.good⟩

theorem sysOnchain_same {v : EngineVersion} {d : D} {s s' : RLoop W E} {m : SysMsg F}
    (h : sysOnchain ops v d s m = .ok s') : L.wlog s'.w = L.wlog s.w ∧ s'.ev = s.ev ∧ s'.seq = s.seq := by
  unfold sysOnchain at h
  split at h
  · simp only [Except.ok.injEq] at h; subst h; exact ⟨rfl, rfl, rfl⟩
  · split at h
    · exact absurd h (by simp)
    all_goals
      rename_i ho
      simp only [Except.ok.injEq] at h; subst h
      exact ⟨L.onchain _ _ _ _ _ _ ho, rfl, rfl⟩

theorem sysFname_same {d : D} {s s' : RLoop W E} {m : SysMsg F}
    (h : sysFname ops d s m = .ok s') : L.wlog s'.w = L.wlog s.w ∧ s'.ev = s.ev ∧ s'.seq = s.seq := by
  unfold sysFname at h
  split at h
  · simp only [Except.ok.injEq] at h; subst h; exact ⟨rfl, rfl, rfl⟩
  · split at h
    · exact absurd h (by simp)
    · rename_i ho
      simp only [Except.ok.injEq] at h; subst h
      exact ⟨L.fname _ _ _ _ _ ho, rfl, rfl⟩

/-- A block event is either passed over, or recorded, staged and counted. -/
theorem sysBlock_cases {v : EngineVersion} {d : D} {s s' : RLoop W E} {m : SysMsg F}
    (h : sysBlock ops v d s m = .ok s') :
    (L.wlog s'.w = L.wlog s.w ∧ s'.ev = s.ev ∧ s'.seq = s.seq ∧
      ∀ b, m.block = some b → v.isEnabled .readDataFromShardZero = true → ∀ x, b.data = some x → x.seqnum ≠ (s.seq + 1) % 2 ^ 64) ∨
    (∃ b x, m.block = some b ∧ v.isEnabled .readDataFromShardZero = true ∧ b.data = some x ∧
      x.seqnum = (s.seq + 1) % 2 ^ 64 ∧ L.wlog s'.w = L.wlog s.w ++ [b] ∧
      s'.ev = s.ev.stagePut (blockEventKey x.seqnum) b ∧ s'.seq = (s.seq + 1) % 2 ^ 64) := by
  unfold sysBlock at h
  split at h
  · rename_i hb
    simp only [Except.ok.injEq] at h; subst h
    exact .inl ⟨rfl, rfl, rfl, fun b hb' => by rw [hb] at hb'; exact absurd hb' (by simp)⟩
  · rename_i b hb
    split at h
    · rename_i hv
      simp only [Except.ok.injEq] at h; subst h
      refine .inl ⟨rfl, rfl, rfl, fun _ _ hv' => ?_⟩
      rw [hv'] at hv
      exact absurd hv (by decide)
    · rename_i hv
      simp only [Bool.not_eq_true, Bool.not_eq_false'] at hv
      split at h
      · exact absurd h (by simp)
      · rename_i x hx
        split at h
        · rename_i hseq
          simp only at h
          split at h
          · exact absurd h (by simp)
          all_goals
            rename_i ho
            simp only [Except.ok.injEq] at h; subst h
            exact .inr ⟨b, x, hb, hv, hx, hseq, L.blockEvent _ _ _ _ _ _ ho, rfl, rfl⟩
        · rename_i hseq
          simp only [Except.ok.injEq] at h; subst h
          refine .inl ⟨rfl, rfl, rfl, fun b' hb' _ x' hx' => ?_⟩
          rw [hb] at hb'
          simp only [Option.some.injEq] at hb'
          subst hb'
          rw [hx] at hx'
          simp only [Option.some.injEq] at hx'
          subst hx'
          exact hseq

theorem RInv.push {w w' : W} {ev : Txn BEvent} {seq : Nat} {b : BEvent} {x : BData} (h : RInv L G n w ev seq)
    (hx : b.data = some x) (hseq : x.seqnum = (seq + 1) % 2 ^ 64) (hw : L.wlog w' = L.wlog w ++ [b]) (hG : G b) :
    RInv L G n w' (ev.stagePut (blockEventKey x.seqnum) b) ((seq + 1) % 2 ^ 64) := by
  constructor
  · rw [hw, h.count]
    simp only [List.length_append, List.length_singleton]
    omega
  · intro i e he
    rw [hw, List.getElem?_append] at he
    split at he
    · exact h.numbered i e he
    · rename_i hi
      have hi0 : i - (L.wlog w).length = 0 := by
        have := getElem?_lt he
        simpa using this
      rw [hi0] at he
      simp only [List.getElem?_cons_zero, Option.some.injEq] at he
      subst he
      refine ⟨x, hx, ?_⟩
      rw [hseq, h.count]
      omega
  · rw [hw, stage_snoc _ _ _ _ hx, h.staged]
  · intro e he
    rw [hw] at he
    rcases List.mem_append.1 he with he | he
    · exact h.good e he
    · simp only [List.mem_singleton] at he
      exact he ▸ hG

theorem sysStep_inv {v : EngineVersion} {d : D} {s s' : RLoop W E} {m : SysMsg F}
    (h : sysStep ops v d s m = .ok s') (hG : ∀ b, m.block = some b → G b) (hi : RInv L G n s.w s.ev s.seq) :
    RInv L G n s'.w s'.ev s'.seq := by
  unfold sysStep at h
  split at h
  · simp only [Except.ok.injEq] at h; subst h; exact hi
  · split at h
    · exact absurd h (by simp)
    · rename_i s1 h1
      obtain ⟨a1, a2, a3⟩ := sysOnchain_same (L := L) h1
      split at h
      · exact absurd h (by simp)
      · rename_i s2 h2
        obtain ⟨b1, b2, b3⟩ := sysFname_same (L := L) h2
        have hi2 : RInv L G n s2.w s2.ev s2.seq := by
          rw [b2, a2, b3, a3]
          exact hi.same (b1.trans a1)
        rcases sysBlock_cases (L := L) h with ⟨c1, c2, c3, _⟩ | ⟨b, x, hb, _, hx, hseq, hw, hev, hsq⟩
        · rw [c2, c3]; exact hi2.same c1
        · rw [hev, hsq]
          exact hi2.push hx hseq hw (hG b hb)

theorem replayTxn_phases {env : NodeEnv} {v : EngineVersion} {ts : Nat} {d : D} {w : W} {ev : Txn BEvent} {seq : Nat}
    {t : ETxn F} {r : TxnResult W E} (h : replayTxn ops env v ts d w ev seq t = .ok r) :
    ∃ s, foldE (sysStep ops v d) ⟨w, ev, seq, [], [], [], []⟩ (sysSort t.sys) = .ok s ∧
      L.wlog r.w = L.wlog s.w ∧ r.ev = s.ev ∧ r.seq = s.seq := by
  unfold replayTxn at h
  split at h
  · exact absurd h (by simp)
  · rename_i s hs
    refine ⟨s, hs, ?_⟩
    split at h
    · exact absurd h (by simp)
    · rename_i s1 h1
      have i1 := foldE_inv (fun x : RLoop W E => L.wlog x.w = L.wlog s.w ∧ x.ev = s.ev ∧ x.seq = s.seq) _ _
        ⟨rfl, rfl, rfl⟩ (by
          intro x k x' _ hx hk
          unfold revokeStep at hk
          split at hk
          · exact absurd hk (by simp)
          · rename_i ho
            simp only [Except.ok.injEq] at hk; subst hk
            exact ⟨(L.revoke _ _ _ _ _ _ ho).trans hx.1, hx.2⟩) _ h1
      split at h
      · exact absurd h (by simp)
      · rename_i s2 h2
        have i2 := foldE_inv (fun x : RLoop W E => L.wlog x.w = L.wlog s.w ∧ x.ev = s.ev ∧ x.seq = s.seq) _ _
          i1 (by
            intro x k x' _ hx hk
            unfold userStep at hk
            split at hk
            · exact absurd hk (by simp)
            all_goals
              rename_i ho
              simp only [Except.ok.injEq] at hk; subst hk
              exact ⟨(L.user _ _ _ _ _ _ _ ho).trans hx.1, hx.2⟩) _ h2
        split at h
        · exact absurd h (by simp)
        · rename_i s3 h3
          have i3 := foldE_inv (fun x : RLoop W E => L.wlog x.w = L.wlog s.w ∧ x.ev = s.ev ∧ x.seq = s.seq) _ _
            i2 (by
              intro x k x' _ hx hk
              unfold pruneStep at hk
              split at hk
              · exact absurd hk (by simp)
              · rename_i ho
                simp only [Except.ok.injEq] at hk; subst hk
                exact ⟨(L.prune _ _ _ _ _ _ _ _ ho).trans hx.1, hx.2⟩) _ h3
          split at h
          · exact absurd h (by simp)
          · rename_i ho
            split at h
            · exact absurd h (by simp)
            · simp only [Except.ok.injEq] at h; subst h
              exact ⟨(L.sideEffects _ _ _ _ _ _ ho).trans i3.1, i3.2⟩

theorem mem_stableInsert {α : Type} {le : α → α → Bool} {a x : α} : ∀ {l : List α},
    x ∈ stableInsert le a l ↔ x = a ∨ x ∈ l
  | [] => by simp [stableInsert]
  | b :: l => by
    simp only [stableInsert]
    split
    · simp
    · simp only [List.mem_cons, mem_stableInsert (l := l)]
      grind

theorem mem_stableSort {α : Type} {le : α → α → Bool} {x : α} : ∀ {l : List α}, x ∈ stableSort le l ↔ x ∈ l
  | [] => by simp [stableSort]
  | a :: l => by simp [stableSort, mem_stableInsert, mem_stableSort (l := l)]

/-- Elements that are not smaller than one another keep their order. -/
theorem stableSort_filterMap {α β : Type} {le : α → α → Bool} {f : α → Option β} : ∀ {l : List α},
    (∀ a ∈ l, ∀ b ∈ l, f a ≠ none → f b ≠ none → le a b = true) → (stableSort le l).filterMap f = l.filterMap f
  | [], _ => rfl
  | a :: l, h => by
    have ih := stableSort_filterMap (le := le) (f := f) (l := l) (fun x hx y hy => h x (by simp [hx]) y (by simp [hy]))
    have ins : ∀ k : List α, (∀ b ∈ k, f a ≠ none → f b ≠ none → le a b = true) →
        (stableInsert le a k).filterMap f = (a :: k).filterMap f := by
      intro k
      induction k with
      | nil => intro _; rfl
      | cons b k ihk =>
        intro hk
        simp only [stableInsert]
        split
        · rfl
        · rename_i hle
          have hb := hk b (by simp)
          have ih' := ihk (fun x hx => hk x (by simp [hx]))
          cases hfb : f b with
          | none =>
            rw [List.filterMap_cons_none hfb, ih']
            simp only [List.filterMap_cons, hfb]
          | some y =>
            cases hfa : f a with
            | none =>
              rw [List.filterMap_cons_some hfb, ih', List.filterMap_cons_none hfa, List.filterMap_cons_none hfa,
                List.filterMap_cons_some hfb]
            | some z => exact absurd (hb (by simp [hfa]) (by simp [hfb])) hle
    simp only [stableSort]
    rw [ins _ (fun b hb => h a (by simp) b (by simp [mem_stableSort.1 hb])), List.filterMap_cons, ih, List.filterMap_cons]

theorem mem_sysSort {l : List (SysMsg F)} {m : SysMsg F} : m ∈ sysSort l ↔ m ∈ l := mem_stableSort

theorem mem_eventsIn {txns : List (ETxn F)} {t : ETxn F} {m : SysMsg F} {b : BEvent} (ht : t ∈ txns) (hm : m ∈ t.sys)
    (hb : m.block = some b) : b ∈ eventsIn txns := by
  unfold eventsIn
  exact List.mem_filterMap.2 ⟨m, List.mem_flatMap.2 ⟨t, ht, hm⟩, hb⟩

theorem replayTxn_inv {env : NodeEnv} {v : EngineVersion} {ts : Nat} {d : D} {w : W} {ev : Txn BEvent} {seq : Nat}
    {t : ETxn F} {r : TxnResult W E} (h : replayTxn ops env v ts d w ev seq t = .ok r)
    (hG : ∀ m ∈ t.sys, ∀ b, m.block = some b → G b) (hi : RInv L G n w ev seq) : RInv L G n r.w r.ev r.seq := by
  obtain ⟨s, hs, h1, h2, h3⟩ := replayTxn_phases (L := L) h
  rw [h2, h3]
  refine RInv.same ?_ h1
  exact foldE_inv (fun x : RLoop W E => RInv L G n x.w x.ev x.seq) _ _ hi
    (fun x m x' hm hx hk => sysStep_inv hk (hG m (mem_sysSort.1 hm)) hx) _ hs

theorem rinv_start (d : D) (h : Nat) (hn : n < 2 ^ 64) : RInv L G n (ops.start d h) OMap.empty n := by
  constructor
  · rw [L.start]; simp; omega
  · rw [L.start]; simp
  · rw [L.start]; rfl
  · rw [L.start]; simp

theorem replayProposal_inv {env : NodeEnv} {v : EngineVersion} {st : EngineState D W E F} {height ts : Nat}
    {txns : List (ETxn F)} {root : Bytes} {s : PLoop W E F} {old : List BEvent} (hold : HoldsEvents st.ev old)
    (hG : ∀ e ∈ eventsIn txns, G e) (h : replayProposal ops env v st height ts txns root = .ok s) :
    RInv L G old.length s.w s.ev s.seq := by
  unfold replayProposal at h
  rw [hold.maxSeqnum] at h
  simp only at h
  split at h
  · exact absurd h (by simp)
  · rename_i s1 hs
    split at h
    · exact absurd h (by simp)
    · split at h
      · exact absurd h (by simp)
      · simp only [Except.ok.injEq] at h; subst h
        refine foldE_inv (fun x : PLoop W E F => RInv L G old.length x.w x.ev x.seq) _ _
          (rinv_start st.d height hold.1) ?_ _ hs
        intro x t x' ht hx hk
        unfold replayStep at hk
        split at hk
        · exact absurd hk (by simp)
        · rename_i r hr
          split at hk
          · exact absurd hk (by simp)
          · simp only [Except.ok.injEq] at hk; subst hk
            exact replayTxn_inv hr (fun m hm b hb => hG b (mem_eventsIn ht hm hb)) hx

theorem filter_sys {env : NodeEnv} {v : EngineVersion} {d : D} {t t' : ETxn F}
    (h : proposeFilter ops env v d t = some t') : t'.sys = t.sys := by
  unfold proposeFilter at h
  split at h
  · exact absurd h (by simp)
  · rename_i a _
    cases a <;>
    · simp only [if_true, Bool.false_eq_true, if_false] at h
      split at h
      · exact absurd h (by simp)
      · simp only [Option.some.injEq] at h
        subst h
        rfl

theorem propose_inv {env : NodeEnv} {st st' : EngineState D W E F} {height ts : Nat}
    {txns : List (ETxn F)} {p : Proposal F} {old : List BEvent} (hold : HoldsEvents st.ev old)
    (hG : ∀ e ∈ eventsIn txns, G e) (h : propose ops H ver env st height ts txns = some (p, st')) :
    st'.d = st.d ∧ st'.ev = st.ev ∧ ∃ c, st'.pending = some c ∧ RInv L G old.length c.w c.ev c.seq := by
  unfold propose at h
  rw [hold.maxSeqnum] at h
  simp only at h
  split at h
  · exact absurd h (by simp)
  · rename_i s1 hs
    split at h
    · exact absurd h (by simp)
    · simp only [Option.some.injEq, Prod.mk.injEq] at h
      obtain ⟨_, h⟩ := h
      subst h
      refine ⟨rfl, rfl, _, rfl, ?_⟩
      refine foldE_inv (fun x : PLoop W E F => RInv L G old.length x.w x.ev x.seq) _ _
        (rinv_start st.d height hold.1) ?_ _ hs
      intro x t x' ht hx hk
      unfold proposeStep at hk
      split at hk
      · exact absurd hk (by simp)
      · rename_i r hr
        simp only [Except.ok.injEq] at hk; subst hk
        obtain ⟨t0, ht0, hf⟩ := List.mem_filterMap.1 ht
        refine replayTxn_inv hr (fun m hm b hb => hG b (mem_eventsIn ht0 ?_ hb)) hx
        rw [← filter_sys hf]; exact hm

/-- What is true of a node at any time. -/
structure ShardNodeInv (L : Ledger ops) (G : BEvent → Prop) (st : EngineState D W E F) : Prop where
  holds : HoldsEvents st.ev (L.log st.d)
  good : ∀ e ∈ L.log st.d, G e
  pending : ∀ c, st.pending = some c → RInv L G (L.log st.d).length c.w c.ev c.seq

theorem roundStep_inv {st st' : EngineState D W E F} {s : RoundStep F} (hi : ShardNodeInv L G st)
    (hG : ∀ e ∈ (match s with
      | .newRound => []
      | .propose _ _ _ txns => eventsIn txns
      | .validate _ _ p => eventsIn p.txns), G e)
    (h : roundStep ops H ver st s = some st') : ShardNodeInv L G st' ∧ st'.d = st.d := by
  cases s with
  | newRound =>
    simp only [roundStep, startRound, Option.some.injEq] at h; subst h
    exact ⟨⟨hi.holds, hi.good, by simp⟩, rfl⟩
  | propose env ht ts txns =>
    simp only [roundStep, Option.map_eq_some_iff] at h
    obtain ⟨⟨p, st1⟩, h, rfl⟩ := h
    obtain ⟨h1, h2, c, hc, hr⟩ := propose_inv (L := L) (G := G) hi.holds hG h
    refine ⟨⟨?_, ?_, ?_⟩, h1⟩
    · simp only [h1, h2]; exact hi.holds
    · simp only [h1]; exact hi.good
    · intro c' hc'
      simp only [hc, Option.some.injEq] at hc'
      subst hc'
      simp only [h1]; exact hr
  | validate env ht p =>
    simp only [roundStep, Option.some.injEq] at h
    unfold validateChange at h
    split at h
    · simp only at h; subst h; exact ⟨hi, rfl⟩
    · rename_i s hs
      simp only at h; subst h
      refine ⟨⟨hi.holds, hi.good, ?_⟩, rfl⟩
      intro c hc
      simp only [Option.some.injEq] at hc
      subst hc
      exact replayProposal_inv hi.holds hG hs

theorem roundSteps_inv : ∀ (l : List (RoundStep F)) (st st' : EngineState D W E F), ShardNodeInv L G st →
    (∀ e ∈ l.flatMap (fun
      | .newRound => []
      | .propose _ _ _ txns => eventsIn txns
      | .validate _ _ p => eventsIn p.txns), G e) →
    roundSteps ops H ver l st = some st' → ShardNodeInv L G st' ∧ st'.d = st.d
  | [], st, st', hi, _, h => by
    simp only [roundSteps, Option.some.injEq] at h; subst h; exact ⟨hi, rfl⟩
  | s :: l, st, st', hi, hG, h => by
    simp only [roundSteps] at h
    split at h
    · exact absurd h (by simp)
    · rename_i st1 h1
      simp only [List.flatMap_cons, List.mem_append] at hG
      have i1 := roundStep_inv hi (fun e he => hG e (.inl he)) h1
      have i2 := roundSteps_inv l st1 st' i1.1 (fun e he => hG e (.inr he)) h
      exact ⟨i2.1, i2.2.trans i1.2⟩

theorem commitSource_inv {env : NodeEnv} {st : EngineState D W E F} {c : EChunk F}
    (hi : ShardNodeInv L G st) (hG : ∀ e ∈ eventsIn c.txns, G e) {es : List E} {seq : Nat} {w : W} {ev : Txn BEvent}
    (h : commitSource ops H ver env st c = some (es, seq, w, ev)) : RInv L G (L.log st.d).length w ev seq := by
  unfold commitSource at h
  split at h
  · rename_i p hp
    split at h
    · simp only [Option.some.injEq, Prod.mk.injEq] at h
      obtain ⟨_, rfl, rfl, rfl⟩ := h
      exact hi.pending p hp
    · split at h
      · exact absurd h (by simp)
      · rename_i s hs
        simp only [Option.some.injEq, Prod.mk.injEq] at h
        obtain ⟨_, rfl, rfl, rfl⟩ := h
        exact replayProposal_inv hi.holds hG hs
  · split at h
    · exact absurd h (by simp)
    · rename_i s hs
      simp only [Option.some.injEq, Prod.mk.injEq] at h
      obtain ⟨_, rfl, rfl, rfl⟩ := h
      exact replayProposal_inv hi.holds hG hs

/-- A commit appends the record of what it writes. -/
theorem commit_spec {env : NodeEnv} {st st' : EngineState D W E F} {c : EChunk F}
    (h : commit ops H ver env st c = some st') :
    ∃ es seq w ev, commitSource ops H ver env st c = some (es, seq, w, ev) ∧
      L.log st'.d = L.log st.d ++ L.wlog w ∧ st'.ev = st.ev.commit ev ∧ st'.pending = st.pending := by
  simp only [commit, Option.map_eq_some_iff] at h
  obtain ⟨st1, h, rfl⟩ := h
  unfold commitFirst at h
  split at h
  · exact absurd h (by simp)
  · rename_i es seq w ev hs
    unfold commitState at h
    split at h
    · exact absurd h (by simp)
    · rename_i w1 hw
      simp only [Option.some.injEq] at h; subst h
      refine ⟨es, seq, w, ev, hs, ?_, rfl, rfl⟩
      simp only [commitChunk, L.write, L.confirm _ _ _ _ _ _ hw]

theorem rinv_commit {db : Db BEvent} {old : List BEvent} {w : W} {ev : Txn BEvent} {seq : Nat}
    (hold : HoldsEvents db old) (hr : RInv L G old.length w ev seq) (hfit : old.length + (L.wlog w).length < 2 ^ 64) :
    HoldsEvents (db.commit ev) (old ++ L.wlog w) := by
  refine holds_append hold ?_ hfit hr.staged
  intro i e he
  obtain ⟨d, h1, h2⟩ := hr.numbered i e he
  have := getElem?_lt he
  exact ⟨d, h1, by rw [h2]; exact Nat.mod_eq_of_lt (by omega)⟩

theorem nodeRun_prefix : ∀ (bs : List (NodeBlock F)) (st st' : EngineState D W E F),
    nodeRun ops H ver bs st = some st' → (∀ b ∈ bs, ∀ st st', roundSteps ops H ver b.steps st = some st' → st'.d = st.d) →
    ∃ more, L.log st'.d = L.log st.d ++ more
  | [], st, st', h, _ => by
    simp only [nodeRun, Option.some.injEq] at h; subst h; exact ⟨[], by simp⟩
  | b :: bs, st, st', h, hd => by
    simp only [nodeRun] at h
    split at h
    · exact absurd h (by simp)
    · rename_i st1 h1
      split at h
      · exact absurd h (by simp)
      · rename_i st2 h2
        obtain ⟨_, _, w, _, _, hl, _, _⟩ := commit_spec (L := L) h2
        obtain ⟨more, hm⟩ := nodeRun_prefix bs st2 st' h (fun b hb => hd b (by simp [hb]))
        refine ⟨L.wlog w ++ more, ?_⟩
        rw [hm, hl, hd b (by simp) _ _ h1, List.append_assoc]
        rfl

theorem roundSteps_d : ∀ (l : List (RoundStep F)) (st st' : EngineState D W E F),
    roundSteps ops H ver l st = some st' → st'.d = st.d
  | [], st, st', h => by simp only [roundSteps, Option.some.injEq] at h; subst h; rfl
  | s :: l, st, st', h => by
    simp only [roundSteps] at h
    split at h
    · exact absurd h (by simp)
    · rename_i st1 h1
      rw [roundSteps_d l st1 st' h]
      cases s with
      | newRound => simp only [roundStep, startRound, Option.some.injEq] at h1; subst h1; rfl
      | propose env ht ts txns =>
        simp only [roundStep, Option.map_eq_some_iff] at h1
        obtain ⟨⟨p, st2⟩, h1, rfl⟩ := h1
        unfold propose at h1
        simp only at h1
        split at h1
        · exact absurd h1 (by simp)
        · split at h1
          · exact absurd h1 (by simp)
          · split at h1
            · exact absurd h1 (by simp)
            · simp only [Option.some.injEq, Prod.mk.injEq] at h1
              obtain ⟨_, h1⟩ := h1; subst h1; rfl
      | validate env ht p =>
        simp only [roundStep, Option.some.injEq] at h1
        unfold validateChange at h1
        split at h1 <;> (simp only at h1; subst h1; rfl)

/-- Any history keeps the record and the stored rows together. -/
theorem nodeRun_inv : ∀ (bs : List (NodeBlock F)) (st st' : EngineState D W E F), ShardNodeInv L G { st with pending := none } →
    (∀ b ∈ bs, ∀ e ∈ b.offered, G e) → nodeRun ops H ver bs st = some st' → (L.log st'.d).length < 2 ^ 64 →
    ShardNodeInv L G { st' with pending := none }
  | [], st, st', hi, _, h, _ => by
    simp only [nodeRun, Option.some.injEq] at h; subst h; exact hi
  | b :: bs, st, st', hi, hG, h, hfit => by
    simp only [nodeRun] at h
    split at h
    · exact absurd h (by simp)
    · rename_i st1 h1
      split at h
      · exact absurd h (by simp)
      · rename_i st2 h2
        have hGb := hG b (by simp)
        simp only [NodeBlock.offered, List.mem_append] at hGb
        obtain ⟨i1, hd⟩ := roundSteps_inv b.steps (startRound st) st1 hi (fun e he => hGb e (.inl he)) h1
        obtain ⟨es, seq, w, ev, hsrc, hl, hev, hp⟩ := commit_spec (L := L) h2
        have hr := commitSource_inv i1 (fun e he => hGb e (.inr he)) hsrc
        obtain ⟨more, hm⟩ := nodeRun_prefix (L := L) bs st2 st' h (fun b _ st st' h => roundSteps_d _ _ _ h)
        rw [hm, hl] at hfit
        simp only [List.length_append] at hfit
        have i2 : ShardNodeInv L G { st2 with pending := none } := by
          refine ⟨?_, ?_, by simp⟩
          · simp only [hl, hev]
            exact rinv_commit i1.holds hr (by omega)
          · simp only [hl]
            intro e he
            rcases List.mem_append.1 he with he | he
            · exact i1.good e he
            · exact hr.good e he
        exact nodeRun_inv bs st2 st' i2 (fun b hb => hG b (by simp [hb])) h (by rw [hm, hl]; simp only [List.length_append]; omega)

/-- Sorting leaves messages without an on-chain event in their order. -/
theorem sysSort_blocks {l : List (SysMsg F)} (h : ∀ m ∈ l, m.block ≠ none → m.onchain = none) :
    (sysSort l).filterMap (·.block) = l.filterMap (·.block) := by
  refine stableSort_filterMap ?_
  intro a ha b hb h1 h2
  simp [sysLe, h a ha h1, h b hb h2]

theorem continuing_append (n : Nat) (a b : List BEvent) :
    continuing n (a ++ b) = continuing n a ++ continuing (n + (continuing n a).length) b := by
  induction a generalizing n with
  | nil => simp [continuing]
  | cons e a ih =>
    simp only [List.cons_append, continuing]
    split
    · rw [ih]
      simp only [List.cons_append, List.length_cons]
      congr 3
      omega
    · exact ih n

theorem continuing_length (n : Nat) (a : List BEvent) : (continuing n a).length ≤ a.length := by
  induction a generalizing n with
  | nil => simp [continuing]
  | cons e a ih =>
    simp only [continuing]
    split
    · have := ih (n + 1)
      simp only [List.length_cons]; omega
    · have := ih n
      simp only [List.length_cons]; omega

theorem sysFold_exact {v : EngineVersion} {d : D} (hv : v.isEnabled .readDataFromShardZero = true) :
    ∀ (l : List (SysMsg F)) (s s' : RLoop W E), (∀ m ∈ l, m.block ≠ none → m.onchain = none) →
    s.seq + (l.filterMap (·.block)).length < 2 ^ 64 → foldE (sysStep ops v d) s l = .ok s' →
    L.wlog s'.w = L.wlog s.w ++ continuing s.seq (l.filterMap (·.block)) ∧
    s'.seq = s.seq + (continuing s.seq (l.filterMap (·.block))).length
  | [], s, s', _, _, h => by
    simp only [foldE, Except.ok.injEq] at h; subst h
    simp [continuing]
  | m :: l, s, s', hm, hfit, h => by
    simp only [foldE] at h
    split at h
    · exact absurd h (by simp)
    · rename_i s1 h1
      have hm' : ∀ m ∈ l, m.block ≠ none → m.onchain = none := fun x hx => hm x (by simp [hx])
      have key : L.wlog s1.w = L.wlog s.w ++ continuing s.seq (m.block.toList) ∧
          s1.seq = s.seq + (continuing s.seq (m.block.toList)).length := by
        unfold sysStep at h1
        split at h1
        · rename_i hsk
          simp only [Except.ok.injEq] at h1; subst h1
          cases hb : m.block with
          | none => simp [continuing]
          | some b =>
            have := hm m (by simp) (by simp [hb])
            simp [sysSkipped, this] at hsk
        · split at h1
          · exact absurd h1 (by simp)
          · rename_i s2 h2
            obtain ⟨a1, a2, a3⟩ := sysOnchain_same (L := L) h2
            split at h1
            · exact absurd h1 (by simp)
            · rename_i s3 h3
              obtain ⟨b1, b2, b3⟩ := sysFname_same (L := L) h3
              have hseq : s3.seq = s.seq := b3.trans a3
              rcases sysBlock_cases (L := L) h1 with ⟨c1, c2, c3, c4⟩ | ⟨b, x, hb, _, hx, hsq, hw, _, hs1⟩
              · have hnil : continuing s.seq m.block.toList = [] := by
                  cases hb : m.block with
                  | none => rfl
                  | some b =>
                    simp only [List.filterMap_cons, hb, List.length_cons] at hfit
                    have hne : BEvent.number b ≠ some (s.seq + 1) := by
                      unfold BEvent.number
                      intro hn
                      cases hx : b.data with
                      | none => rw [hx] at hn; exact absurd hn (by simp)
                      | some x =>
                        have := c4 b hb hv x hx
                        rw [hseq, Nat.mod_eq_of_lt (by omega)] at this
                        rw [hx] at hn
                        simp only [Option.map_some, Option.some.injEq] at hn
                        exact this hn
                    simp [continuing, hne]
                rw [hnil]
                simp only [List.append_nil, List.length_nil, Nat.add_zero]
                exact ⟨c1.trans (b1.trans a1), c3.trans hseq⟩
              · simp only [List.filterMap_cons, hb, List.length_cons] at hfit
                rw [hseq, Nat.mod_eq_of_lt (by omega)] at hsq hs1
                have : continuing s.seq m.block.toList = [b] := by
                  rw [hb]
                  simp [continuing, BEvent.number, hx, hsq]
                rw [this, hw, b1, a1, hs1]
                simp
      have hcons : (m :: l).filterMap (·.block) = m.block.toList ++ l.filterMap (·.block) := by
        cases hb : m.block <;> simp [List.filterMap_cons, hb]
      rw [hcons] at hfit ⊢
      have hle := continuing_length s.seq m.block.toList
      simp only [List.length_append] at hfit
      obtain ⟨k1, k2⟩ := sysFold_exact hv l s1 s' hm' (by rw [key.2]; omega) h
      rw [continuing_append, k1, k2, key.1, key.2]
      simp only [List.append_assoc, List.length_append]
      exact ⟨trivial, by omega⟩

/-- System messages that carry a block event carry no on-chain event. -/
def Separate (txns : List (ETxn F)) : Prop := ∀ t ∈ txns, ∀ m ∈ t.sys, m.block ≠ none → m.onchain = none

theorem replayTxn_exact {env : NodeEnv} {v : EngineVersion} {ts : Nat} {d : D} {w : W} {ev : Txn BEvent} {seq : Nat}
    {t : ETxn F} {r : TxnResult W E} (hv : v.isEnabled .readDataFromShardZero = true)
    (hs : ∀ m ∈ t.sys, m.block ≠ none → m.onchain = none) (hfit : seq + (t.sys.filterMap (·.block)).length < 2 ^ 64)
    (h : replayTxn ops env v ts d w ev seq t = .ok r) :
    L.wlog r.w = L.wlog w ++ continuing seq (t.sys.filterMap (·.block)) ∧
    r.seq = seq + (continuing seq (t.sys.filterMap (·.block))).length := by
  obtain ⟨s, h1, h2, h3, h4⟩ := replayTxn_phases (L := L) h
  have := sysFold_exact (L := L) hv (sysSort t.sys) _ s (fun m hm => hs m (mem_sysSort.1 hm))
    (by rw [sysSort_blocks hs]; exact hfit) h1
  rw [sysSort_blocks hs] at this
  rw [h2, h4]
  exact this

theorem eventsIn_cons (t : ETxn F) (txns : List (ETxn F)) :
    eventsIn (t :: txns) = t.sys.filterMap (·.block) ++ eventsIn txns := by
  simp [eventsIn, List.filterMap_append]

theorem replayFold_exact {env : NodeEnv} {v : EngineVersion} {ts : Nat} {d : D}
    (hv : v.isEnabled .readDataFromShardZero = true) :
    ∀ (txns : List (ETxn F)) (s s' : PLoop W E F), Separate txns → s.seq + (eventsIn txns).length < 2 ^ 64 →
    foldE (replayStep ops env v ts d) s txns = .ok s' →
    L.wlog s'.w = L.wlog s.w ++ continuing s.seq (eventsIn txns)
  | [], s, s', _, _, h => by
    simp only [foldE, Except.ok.injEq] at h; subst h
    simp [eventsIn, continuing]
  | t :: txns, s, s', hs, hfit, h => by
    simp only [foldE] at h
    split at h
    · exact absurd h (by simp)
    · rename_i s1 h1
      unfold replayStep at h1
      split at h1
      · exact absurd h1 (by simp)
      · rename_i r hr
        split at h1
        · exact absurd h1 (by simp)
        · simp only [Except.ok.injEq] at h1; subst h1
          rw [eventsIn_cons] at hfit ⊢
          simp only [List.length_append] at hfit
          obtain ⟨k1, k2⟩ := replayTxn_exact (L := L) hv (hs t (by simp)) (by omega) hr
          have hle := continuing_length s.seq (t.sys.filterMap (·.block))
          have := replayFold_exact hv txns _ s' (fun t ht => hs t (by simp [ht])) (by simp only [k2]; omega) h
          rw [this, continuing_append]
          simp only [k1, k2, List.append_assoc]

theorem replayProposal_exact {env : NodeEnv} {v : EngineVersion} {st : EngineState D W E F} {height ts : Nat}
    {txns : List (ETxn F)} {root : Bytes} {s : PLoop W E F} {old : List BEvent} (hold : HoldsEvents st.ev old)
    (hv : v.isEnabled .readDataFromShardZero = true) (hs : Separate txns)
    (hfit : old.length + (eventsIn txns).length < 2 ^ 64)
    (h : replayProposal ops env v st height ts txns root = .ok s) :
    L.wlog s.w = continuing old.length (eventsIn txns) := by
  unfold replayProposal at h
  rw [hold.maxSeqnum] at h
  simp only at h
  split at h
  · exact absurd h (by simp)
  · rename_i s1 hs1
    split at h
    · exact absurd h (by simp)
    · split at h
      · exact absurd h (by simp)
      · simp only [Except.ok.injEq] at h; subst h
        rw [replayFold_exact (L := L) hv txns _ _ hs hfit hs1, L.start]
        simp

end
end Verif
