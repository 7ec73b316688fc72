import Verif.Lemmas.StoreCompact
import Verif.Case.Store
/-!
C14: link compaction keeps only the listed targets.
-/
namespace Verif
open StoreDef

/-- An accepted compaction, with nothing pending for its user, removes exactly the links it supersedes:
of that user, of its type (of every type before the feature `BlockLinks`), dated no later than it, being
unlinks or links to users it does not list.  Everything else stays and the compaction is in force. -/
theorem C14_compaction (ctx : Nat → MergeCtx) (U : Msg → Prop) (hU : HashesIdentify U) (ops : List StoreOp)
    (hr : LinkProperRun ctx U {} ops) (c : Msg) (hc : c.IsCompaction) (ev : StoreEvent) :
    let st := ({} : StoreState).run linkStore ctx ops
    st.Quiet linkStore c.fid → (linkStore.merge st.db (ctx c.ts) c st.pend).1 = .ok ev →
      (∀ m, (st.exec linkStore ctx (.merge c)).Has linkStore m ↔
        st.Has linkStore m ∧ ¬ c.Supersedes (ctx c.ts).typedCompaction m) ∧
      (st.exec linkStore ctx (.merge c)).InForce c ∧
      ∃ deleted, ev = .merge c deleted ∧
        ∀ m, m ∈ deleted ↔ (st.Has linkStore m ∧ c.Supersedes (ctx c.ts).typedCompaction m) ∨
          (m.fid = c.fid ∧ padLinkType m.linkType = padLinkType c.linkType ∧ st.InForce m) := by
  intro st hq hev
  have H := linkStore_lawful hU
  obtain ⟨L0, L, h⟩ := comp_run hU ops comp_init hr
  have hm := fun x => mem_superseded hU h hc hq (g := ctx c.ts) x
  rcases compact_spec hU h hc hq with ⟨_, _, _, _, hres⟩ | ⟨_, old, s', hold, hres, hh, hk, hf⟩
  · have hev' : (linkStore.merge st.db (ctx c.ts) c st.pend).1 = _ := congrArg Prod.fst hres
    rw [hev'] at hev; cases hev
  · rcases hres with hres | hres
    · have hev' : (linkStore.merge st.db (ctx c.ts) c st.pend).1 = _ := congrArg Prod.fst hres
      rw [hev'] at hev
      have hex : st.exec linkStore ctx (.merge c) = { st with pend := s' } := by
        simp only [StoreState.exec, StoreState.after]
        exact congrArg (fun r : Except HubErr StoreEvent × SSt => { st with pend := r.2 }) hres
      have hp : PairInv linkStore (okIn .links U) ctx L0 _ { st with pend := s' } := ⟨h.old.holds, hh⟩
      rw [hex]
      refine ⟨?_, ⟨hc, hk⟩, _, (Except.ok.inj hev).symm, ?_⟩
      · intro m
        rw [hp.has_iff H m, mem_filter_notMem, hm, h.pair.has_iff H m]
        exact ⟨fun ⟨a, b⟩ => ⟨a, fun s => b ⟨a, s⟩⟩, fun ⟨a, b⟩ => ⟨a, fun s => b s.2⟩⟩
      · intro m
        rw [List.mem_append, hm, h.pair.has_iff H m, or_comm]
        refine or_congr Iff.rfl ⟨?_, ?_⟩
        · intro hmo
          have hv := (hold m).1 hmo
          have hout := ckey_out hU hc
          obtain ⟨c', hc', hk', e⟩ := h.now.only _ hout.1 hout.2 _ hv
          cases e
          have hw : ∀ x : Msg, x.IsCompaction → (RowKey.linkCompact x.fid (padLinkType x.linkType)).WF := by
            intro x hx; simp [RowKey.WF, RowKey.fids, hx.2.1]
          have := RowKey.bytes_inj (hw c hc) (hw m hc') hk'
          simp only [RowKey.linkCompact.injEq] at this
          exact ⟨this.1.symm, this.2.symm, hc', by rw [← this.1, ← this.2]; exact hv⟩
        · rintro ⟨h1, h2, hcm, hv⟩
          rw [h1, h2] at hv
          exact (hold m).2 hv
    · have hev' : (linkStore.merge st.db (ctx c.ts) c st.pend).1 = _ := congrArg Prod.fst hres
      rw [hev'] at hev; cases hev

/-- A compaction is accepted unless the one in force is as new, or the block has run out of event
numbers. -/
theorem C14_accepted (ctx : Nat → MergeCtx) (U : Msg → Prop) (hU : HashesIdentify U) (ops : List StoreOp)
    (hr : LinkProperRun ctx U {} ops) (c : Msg) (hc : c.IsCompaction) :
    let st := ({} : StoreState).run linkStore ctx ops
    st.Quiet linkStore c.fid →
      ((∃ c0, st.InForce c0 ∧ c0.fid = c.fid ∧ padLinkType c0.linkType = padLinkType c.linkType ∧ c.ts ≤ c0.ts) →
        (linkStore.merge st.db (ctx c.ts) c st.pend).1 = .error .conflict ∧ st.exec linkStore ctx (.merge c) = st) ∧
      ((¬ ∃ c0, st.InForce c0 ∧ c0.fid = c.fid ∧ padLinkType c0.linkType = padLinkType c.linkType ∧ c.ts ≤ c0.ts) →
        (∃ ev, (linkStore.merge st.db (ctx c.ts) c st.pend).1 = .ok ev) ∨
          (linkStore.merge st.db (ctx c.ts) c st.pend).1 = .error .invalidParameter) := by
  intro st hq
  obtain ⟨L0, L, h⟩ := comp_run hU ops comp_init hr
  have hw : ∀ x : Msg, x.IsCompaction → (RowKey.linkCompact x.fid (padLinkType x.linkType)).WF := by
    intro x hx; simp [RowKey.WF, RowKey.fids, hx.2.1]
  rcases compact_spec hU h hc hq with ⟨c0, hc0, hv, hle, hres⟩ | ⟨hnew, old, s', _, hres, _⟩
  · have hk : ckey c = ckey c0 := by
      have hout := ckey_out hU hc
      obtain ⟨c', hc', hk', e⟩ := h.now.only _ hout.1 hout.2 _ hv
      cases e; exact hk'
    have := RowKey.bytes_inj (hw c hc) (hw c0 hc0) hk
    simp only [RowKey.linkCompact.injEq] at this
    refine ⟨fun _ => ⟨congrArg Prod.fst hres, ?_⟩, fun hn => absurd ⟨c0, ⟨hc0, ?_⟩, this.1.symm, this.2.symm, hle⟩ hn⟩
    · simp only [StoreState.exec, StoreState.after]
      exact congrArg (fun r : Except HubErr StoreEvent × SSt => { st with pend := r.2 }) hres
    · rw [← this.1, ← this.2]; exact hv
  · refine ⟨?_, fun _ => ?_⟩
    · rintro ⟨c0, ⟨hc0, hv⟩, h1, h2, hle⟩
      rw [h1, h2] at hv
      have := hnew c0 hv
      omega
    · rcases hres with hres | hres
      · exact .inl ⟨_, congrArg Prod.fst hres⟩
      · exact .inr (congrArg Prod.fst hres)

/-- At every moment of every history: no stored link of the type of a compaction in force, by its user
and dated before it, is an unlink or a link to a user it does not list.  So no later merge can bring an
older unlisted link back. -/
theorem C14_stays_out (ctx : Nat → MergeCtx) (U : Msg → Prop) (hU : HashesIdentify U) (ops : List StoreOp)
    (hr : LinkProperRun ctx U {} ops) (c m : Msg) :
    let st := ({} : StoreState).run linkStore ctx ops
    st.InForce c → st.Has linkStore m → m.fid = c.fid → m.linkType = c.linkType → m.ts < c.ts → ¬ c.Unlisted m := by
  intro st hc hm hf ht hlt
  obtain ⟨L0, L, h⟩ := comp_run hU ops comp_init hr
  exact h.now.enforced c hc.1 hc.2 m ((h.pair.has_iff (linkStore_lawful hU) m).1 hm) hf ht hlt

/-- A compaction stays in force, or a newer one of its user and type replaces it, through every history
that drops no batch: pruning and revoking signers do not remove it. -/
theorem C14_stays_in_force (ctx : Nat → MergeCtx) (U : Msg → Prop) (hU : HashesIdentify U) (ops later : List StoreOp)
    (hr : LinkProperRun ctx U {} (ops ++ later)) (hd : .drop ∉ later) (c : Msg) :
    (({} : StoreState).run linkStore ctx ops).InForce c →
      ∃ c', (({} : StoreState).run linkStore ctx (ops ++ later)).InForce c' ∧ c'.fid = c.fid ∧
        padLinkType c'.linkType = padLinkType c.linkType ∧ c.ts ≤ c'.ts := by
  have split : ∀ (a b : List StoreOp) (st : StoreState), LinkProperRun ctx U st (a ++ b) →
      LinkProperRun ctx U st a ∧ LinkProperRun ctx U (st.run linkStore ctx a) b := by
    intro a
    induction a with
    | nil => intro b st h; exact ⟨trivial, h⟩
    | cons o a ih => intro b st h; exact ⟨⟨h.1, (ih b _ h.2).1⟩, (ih b _ h.2).2⟩
  obtain ⟨h1, h2⟩ := split ops later {} hr
  obtain ⟨L0, L, h⟩ := comp_run hU ops comp_init h1
  rw [run_append]
  have H := linkStore_lawful hU
  have hw : ∀ x : Msg, x.IsCompaction → (RowKey.linkCompact x.fid (padLinkType x.linkType)).WF := by
    intro x hx; simp [RowKey.WF, RowKey.fids, hx.2.1]
  have main : ∀ (later : List StoreOp) (st : StoreState) (L0 L : List Msg), CompInv U ctx L0 L st →
      LinkProperRun ctx U st later → .drop ∉ later → ∀ c, st.InForce c →
      ∃ c', (st.run linkStore ctx later).InForce c' ∧ c'.fid = c.fid ∧
        padLinkType c'.linkType = padLinkType c.linkType ∧ c.ts ≤ c'.ts := by
    intro later
    induction later with
    | nil => intro st L0 L _ _ _ c hc; exact ⟨c, hc, rfl, rfl, Nat.le_refl _⟩
    | cons o later ih =>
      intro st L0 L h hr hd c hc
      obtain ⟨L0', L', h'⟩ := comp_step hU h hr.1
      have key : ∃ c', (st.exec linkStore ctx o).InForce c' ∧ c'.fid = c.fid ∧
          padLinkType c'.linkType = padLinkType c.linkType ∧ c.ts ≤ c'.ts := by
        have hout := ckey_out hU hc.1
        have byFrame : ∀ s' : SSt, Frame linkStore (okIn .links U) st.view (viewOf st.db s'.txn) →
            ({ st with pend := s' } : StoreState).InForce c :=
          fun s' hf => ⟨hc.1, (hf _ hout.1 hout.2).trans hc.2⟩
        have stay : (st.exec linkStore ctx o).InForce c → ∃ c', (st.exec linkStore ctx o).InForce c' ∧ c'.fid = c.fid ∧
          padLinkType c'.linkType = padLinkType c.linkType ∧ c.ts ≤ c'.ts :=
          fun hs => ⟨c, hs, rfl, rfl, Nat.le_refl _⟩
        have ho := hr.1
        cases o with
        | merge m =>
          rcases ho with ⟨hv, hu⟩ | ⟨hm, hq⟩
          · apply stay
            have hm : okIn .links U m := ⟨hv, hu⟩
            rcases link_compact_check (ctx := ctx) hU (s := st.pend) h.now.only hm with hfree | ⟨c, _, _, _, _, hr⟩
            · rcases merge_spec H h.now.holds hm hfree with ⟨e, hl, _, hr⟩ | ⟨old, s', hl, hr, hh, hf⟩
              · have : st.exec linkStore ctx (.merge m) = st := by
                  simp only [StoreState.exec, StoreState.after, hr]
                rw [this]; exact hc
              · have : st.exec linkStore ctx (.merge m) = { st with pend := s' } := by
                  simp only [StoreState.exec, StoreState.after]
                  rcases hr with hr | hr <;> rw [hr]
                rw [this]; exact byFrame s' hf
            · have : st.exec linkStore ctx (.merge m) = st := by
                simp only [StoreState.exec, StoreState.after, hr]
              rw [this]; exact hc
          · rcases compact_spec hU h hm hq with ⟨c0, _, _, _, hr⟩ | ⟨hold, old, s', _, hr, hh, hk, hf⟩
            · apply stay
              have : st.exec linkStore ctx (.merge m) = st := by
                simp only [StoreState.exec, StoreState.after, hr]
              rw [this]; exact hc
            · have : st.exec linkStore ctx (.merge m) = { st with pend := s' } := by
                simp only [StoreState.exec, StoreState.after]
                rcases hr with hr | hr <;> rw [hr]
              rw [this]
              by_cases hkc : ckey c = ckey m
              · have e := RowKey.bytes_inj (hw c hc.1) (hw m hm) hkc
                simp only [RowKey.linkCompact.injEq] at e
                refine ⟨m, ⟨hm, hk⟩, e.1.symm, e.2.symm, ?_⟩
                exact Nat.le_of_lt (hold c (by rw [← hkc]; exact hc.2))
              · exact ⟨c, ⟨hc.1, (hf _ hout.1 hout.2 hkc).trans hc.2⟩, rfl, rfl, Nat.le_refl _⟩
        | force m =>
          apply stay
          have hr : linkStore.mergeForce st.db (ctx m.ts) m st.pend = (.error .invalidParameter, st.pend) := rfl
          have : st.exec linkStore ctx (.force m) = st := by
            simp only [StoreState.exec, StoreState.after, hr]
          rw [this]; exact hc
        | revokeAdd item =>
          apply stay
          have hm : okIn .links U item := ho
          have h0 : item.fid ≠ 0 := by have := hm.1.1; omega
          rcases getAdd_eq (t := st.pend.txn) H h.now.holds hm h0 with ⟨x, hx, _, _, hg⟩ | ⟨_, hg⟩
          · obtain ⟨s', hr, hh, hf⟩ := revoke_spec H h.now.holds hx
            have : st.exec linkStore ctx (.revokeAdd item) = { st with pend := s' } := by
              simp only [StoreState.exec, StoreState.after, hg]
              rcases hr with hr | hr <;> rw [hr]
            rw [this]; exact byFrame s' hf
          · have : st.exec linkStore ctx (.revokeAdd item) = st := by
              simp only [StoreState.exec, hg]
            rw [this]; exact hc
        | prune fid cur max =>
          apply stay
          obtain ⟨n, s', _, hh, hf, hr⟩ := prune_spec (cur := cur) (max := max) H (by decide) h.pair ho.1 ho.2
          have : st.exec linkStore ctx (.prune fid cur max) = { st with pend := s' } := by
            simp only [StoreState.exec, StoreState.after]
            rcases hr with ⟨hr, _⟩ | hr <;> rw [hr]
          rw [this]; exact byFrame s' hf
        | revokeSigner fid signer =>
          apply stay
          obtain ⟨es, s', hr, hh, hf, _⟩ := revokeSigner_spec (signer := signer) H (by decide) h.pair ho.1 ho.2
          have : st.exec linkStore ctx (.revokeSigner fid signer) = { st with pend := s' } := by
            simp only [StoreState.exec, StoreState.after, hr]
          rw [this]; exact byFrame s' hf
        | commit =>
          apply stay
          exact ⟨hc.1, (view_commit (D := linkStore) (ctx := ctx) st _).trans hc.2⟩
        | drop => exact absurd List.mem_cons_self hd
        | block n => exact stay hc
      obtain ⟨c1, hc1, e1, e2, e3⟩ := key
      obtain ⟨c2, hc2, f1, f2, f3⟩ := ih _ L0' L' h' hr.2 (fun hm => hd (List.mem_cons_of_mem _ hm)) c1 hc1
      exact ⟨c2, hc2, f1.trans e1, f2.trans e2, by omega⟩
  exact main later _ L0 L h h2 hd c

namespace Case
/-- User 7 compacts follows to user 9 at time 120. -/
def keep9 : Msg := ⟨7, .linkCompactState, 120, h20 9, [2], .linkCompact [102] [9]⟩
theorem keep9_ok : keep9.IsCompaction :=
  ⟨by decide, by decide, by decide, by decide, rfl, _, _, rfl, by decide, by decide⟩
end Case

/-- Two committed follows and a compaction that lists one of them: the hypotheses hold, the other is
removed and cannot return, a newer one can. -/
example :
    let ops : List StoreOp := [.merge Case.follow8, .merge Case.follow9, .commit]
    let st := ({} : StoreState).run linkStore Case.allOn ops
    let st' := st.exec linkStore Case.allOn (.merge Case.keep9)
    LinkProperRun Case.allOn (· ∈ Case.links) {} ops ∧ HashesIdentify (· ∈ Case.links) ∧
    (linkStore.merge st.db {} Case.keep9 st.pend).1 = .ok (.merge Case.keep9 [Case.follow8]) ∧
    (linkStore.merge st'.db {} Case.follow8 st'.pend).1 = .error .conflict ∧
    (linkStore.merge st'.db {} Case.refollow8 st'.pend).1 = .ok (.merge Case.refollow8 []) := by
  have v := Case.links_valid
  refine ⟨⟨.inl ⟨v _ (by decide), by decide⟩, .inl ⟨v _ (by decide), by decide⟩, trivial, trivial⟩, Case.links_hashes, ?_, ?_, ?_⟩
    <;> decide +kernel

/-- In that state nothing is pending. -/
example : (({} : StoreState).run linkStore Case.allOn [.merge Case.follow8, .merge Case.follow9, .commit]).Quiet
    linkStore Case.keep9.fid := by
  have v := Case.links_valid
  have hr : LinkProperRun Case.allOn (· ∈ Case.links) {} [.merge Case.follow8, .merge Case.follow9, .commit] :=
    ⟨.inl ⟨v _ (by decide), by decide⟩, .inl ⟨v _ (by decide), by decide⟩, trivial, trivial⟩
  obtain ⟨L0, L, h⟩ := comp_run Case.links_hashes _ comp_init hr
  have H := linkStore_lawful Case.links_hashes
  have hv : (({} : StoreState).run linkStore Case.allOn [.merge Case.follow8, .merge Case.follow9, .commit]).view =
      viewOf (({} : StoreState).run linkStore Case.allOn [.merge Case.follow8, .merge Case.follow9, .commit]).db OMap.empty := rfl
  have hnow := h.now.holds
  rw [hv] at hnow
  intro m hm
  have h7 : m.fid = 7 := hm
  rw [h.pair.has_iff H m, mem_stored H hnow (by decide) m]
  simp [h7, Case.keep9]

/-- A link dated exactly like the compaction: deleted when it arrives first, accepted when it arrives
after.  The final state depends on the order. -/
theorem C14_same_instant :
    let f : Msg := ⟨7, .linkAdd, 120, Case.h20 1, [1], .link [102] (some 8)⟩
    let a := ({} : StoreState).run linkStore Case.allOn [.merge f, .commit, .merge Case.keep9, .commit]
    let b := ({} : StoreState).run linkStore Case.allOn [.merge Case.keep9, .commit, .merge f, .commit]
    ¬ a.Has linkStore f ∧ b.Has linkStore f := by
  unfold StoreState.Has
  constructor <;> decide +kernel

/-- A link merged earlier in the same block is not seen by the compaction: it survives although it is
older and not listed.  (`Quiet` is needed in `C14_compaction`.) -/
theorem C14_same_block :
    let st := ({} : StoreState).run linkStore Case.allOn [.merge Case.follow8, .merge Case.keep9, .commit]
    st.Has linkStore Case.follow8 ∧ st.InForce Case.keep9 ∧ Case.keep9.Unlisted Case.follow8 ∧
      Case.follow8.ts < Case.keep9.ts := by
  unfold StoreState.Has
  refine ⟨by decide +kernel, ⟨Case.keep9_ok, by decide +kernel⟩, .inr ⟨8, rfl, by decide⟩, by decide⟩

end Verif
