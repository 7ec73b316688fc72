import Verif.Lemmas.StoreSafe
import Verif.Case.Store
/-!
C10: a removed cast stays removed.
-/
namespace Verif
open StoreDef

/-- Calls that neither prune nor revoke removes, and do not throw the batch away. -/
def keepsRemoves : StoreOp → Prop
  | .merge _ | .revokeAdd _ | .commit | .block _ => True
  | _ => False

section
variable {channelOf : Bytes → Option Bytes} {ctx : Nat → MergeCtx} {U : Msg → Prop}

/-- Some remove of the cast is live. -/
def Removed (L : List Msg) (c : Msg) : Prop := ∃ r ∈ L, castStore.ak r = castStore.ak c ∧ castStore.isAdd r = false

theorem removed_step (hU : HashesIdentify U) {L0 L : List Msg} {st : StoreState}
    (h : KindInv .casts channelOf ctx U L0 L st) {c : Msg} (hr : Removed L c) {o : StoreOp} (hk : keepsRemoves o)
    (ho : StoreKind.casts.Proper channelOf U st o) :
    ∃ L0' L', KindInv .casts channelOf ctx U L0' L' (st.exec castStore ctx o) ∧ Removed L' c := by
  have H : castStore.Lawful (okIn .casts U) := castStore_lawful hU
  obtain ⟨r, hrL, hre, hra⟩ := hr
  have hro := h.holds.valid r hrL
  cases o with
  | merge m =>
    have hm : okIn .casts U m := ho
    have hc : castStore.CompactOut (okIn .casts U) := kind_compactOut (channelOf := channelOf) .casts hU
    rcases merge_spec H h.holds hm (CompactFree.of_blank hc h.blank hm) with
      ⟨e, hl, _, hr'⟩ | ⟨old, s', hl, hr', hh, hf⟩
    · have : st.exec castStore ctx (.merge m) = st := by
        simp only [StoreState.exec, StoreState.after]; erw [hr']
      rw [this]; exact ⟨L0, L, h, r, hrL, hre, hra⟩
    · have : st.exec castStore ctx (.merge m) = { st with pend := s' } := by
        simp only [StoreState.exec, StoreState.after]
        rcases hr' with hr' | hr' <;> erw [hr']
      rw [this]
      refine ⟨L0, _, safe_pend h hh hf, ?_⟩
      by_cases e : castStore.ak r = castStore.ak m
      · -- the remove was beaten, so the new message is a remove too
        refine ⟨m, List.mem_cons_self, e.symm.trans hre, ?_⟩
        have hwin : castStore.cmp m r > 0 := by
          unfold liveMerge at hl
          split at hl
          · rename_i hn
            exact absurd (List.find?_eq_none.1 hn r hrL) (by simp [e])
          · rename_i x hx
            have hxL : x ∈ L := List.mem_of_find?_eq_some hx
            have hxe : castStore.ak x = castStore.ak m := by simpa using List.find?_some hx
            have hxr : x = r := h.holds.unique hxL hrL (hxe.trans e.symm)
            subst hxr
            split at hl
            · cases hl
            · split at hl
              · cases hl
              · exact (H.cmpAnti hro hm).1 (by omega)
        have hb := (kind_beats (channelOf := channelOf) .casts hm hro).1 hwin
        have hrr : r.isRemoval := by
          have := (kind_isAdd (channelOf := channelOf) .casts hro)
          by_cases hx : r.isRemoval
          · exact hx
          · have := this.2 hx
            have : castStore.isAdd r = true := this
            rw [hra] at this; cases this
        have hmr : m.isRemoval := by
          rcases hb with ⟨_, h2⟩ | ⟨h2, _⟩
          · exact absurd hrr h2
          · exact h2.2 hrr
        cases ha : castStore.isAdd m
        · rfl
        · exact absurd hmr ((kind_isAdd (channelOf := channelOf) .casts hm).1 ha)
      · exact ⟨r, List.mem_cons_of_mem _ (List.mem_filter.2 ⟨hrL, by simpa using e⟩), hre, hra⟩
  | revokeAdd item =>
    have hm : okIn .casts U item := ho
    have h0 : item.fid ≠ 0 := by have := hm.1.1; omega
    rcases getAdd_eq (t := st.pend.txn) H h.holds hm h0 with ⟨x, hx, _, hxa, hg⟩ | ⟨_, hg⟩
    · obtain ⟨s', hr', hh, hf⟩ := revoke_spec H h.holds hx
      have : st.exec castStore ctx (.revokeAdd item) = { st with pend := s' } := by
        simp only [StoreState.exec, StoreState.after, hg]
        rcases hr' with hr' | hr' <;> rw [hr']
      rw [this]
      refine ⟨L0, _, safe_pend h hh hf, r, List.mem_filter.2 ⟨hrL, ?_⟩, hre, hra⟩
      simp only [ne_eq, decide_not, Bool.not_eq_eq_eq_not, Bool.not_true, decide_eq_false_iff_not]
      intro e; rw [e, hxa] at hra; cases hra
    · have : st.exec castStore ctx (.revokeAdd item) = st := by simp only [StoreState.exec, hg]
      rw [this]; exact ⟨L0, L, h, r, hrL, hre, hra⟩
  | commit =>
    refine ⟨L, L, ⟨⟨?_, ?_⟩, ?_, ?_⟩, r, hrL, hre, hra⟩
    · exact h.holds.congr (fun k _ => view_commit (D := castStore) (ctx := ctx) st k)
    · exact h.holds.congr (fun k _ => view_commit st k)
    · intro k hk he
      exact (view_commit (D := castStore) (ctx := ctx) st k).trans (h.blank k hk he)
    · intro k hk he
      exact (view_commit (D := castStore) (ctx := ctx) st k).trans (h.blank k hk he)
  | block n => exact ⟨L0, L, ⟨⟨h.committed, h.holds⟩, h.blank0, h.blank⟩, r, hrL, hre, hra⟩
  | force m => cases hk
  | prune f c m => cases hk
  | revokeSigner f g => cases hk
  | drop => cases hk

theorem removed_run (hU : HashesIdentify U) (ops : List StoreOp) {c : Msg} :
    ∀ {L0 L : List Msg} {st : StoreState}, KindInv .casts channelOf ctx U L0 L st → Removed L c →
    (∀ o ∈ ops, keepsRemoves o) → StoreKind.casts.ProperRun channelOf ctx U st ops →
    ∃ L0' L', KindInv .casts channelOf ctx U L0' L' (st.run castStore ctx ops) ∧ Removed L' c := by
  induction ops with
  | nil => intro L0 L st h hr _ _; exact ⟨L0, L, h, hr⟩
  | cons o ops ih =>
    intro L0 L st h hr hk ho
    obtain ⟨L0', L', h', hr'⟩ := removed_step hU h hr (hk o List.mem_cons_self) ho.1
    exact ih h' hr' (fun o ho => hk o (List.mem_cons_of_mem _ ho)) ho.2
end

/-- Once a remove is stored, the cast it names cannot be read again, whatever casts and removes are merged
afterwards and whatever their timestamps are; a remove of it stays readable. -/
theorem C10_removed_stays_removed (ctx : Nat → MergeCtx) (U : Msg → Prop) (hU : HashesIdentify U)
    (channelOf : Bytes → Option Bytes) (hch : ChannelNaming channelOf)
    (before after : List StoreOp) (hb : StoreKind.casts.ProperRun channelOf ctx U {} before)
    (r : Msg) (t : Bytes) (hbody : r.body = .castRemove t)
    (hr : (({} : StoreState).run castStore ctx before).Has castStore r)
    (hk : ∀ o ∈ after, keepsRemoves o)
    (ha : StoreKind.casts.ProperRun channelOf ctx U (({} : StoreState).run castStore ctx before) after)
    (cast : Msg) (hc : StoreKind.casts.Valid cast) (hu : U cast) (hsame : cast.fid = r.fid)
    (hitem : cast.item = some (0, t)) :
    let st := (({} : StoreState).run castStore ctx before).run castStore ctx after
    castStore.getAdd st.db st.pend.txn cast = .ok none ∧
      (∃ r', r'.Rivals r ∧ r'.isRemoval ∧ castStore.getRemove st.db st.pend.txn cast = .ok (some r')) ∧
      (∀ x, st.Has castStore x → x.fid = r.fid → x.item = some (0, t) → x.isRemoval) := by
  intro st
  have H : castStore.Lawful (okIn .casts U) := castStore_lawful hU
  obtain ⟨L0, L, h⟩ := kind_run (channelOf := channelOf) .casts hch hU before (kind_init .casts) hb
  have hrL : r ∈ L := (h.has_iff H r).1 hr
  have hro := h.holds.valid r hrL
  have hrr : r.isRemoval := by
    rcases hro.1.2.2.2.2 with ⟨_, p, ms, e, _⟩ | ⟨e, _⟩
    · rw [hbody] at e; cases e
    · exact .inl e
  have hra : castStore.isAdd r = false := by
    cases hx : castStore.isAdd r
    · rfl
    · exact absurd hrr ((kind_isAdd (channelOf := channelOf) .casts hro).1 hx)
  have hri : r.item = some (0, t) := by simp [Msg.item, hbody]
  have hco : okIn .casts U cast := ⟨hc, hu⟩
  have hrc : castStore.ak r = castStore.ak cast :=
    (kind_rivals (channelOf := channelOf) .casts hro hco).2 ⟨hsame.symm, hri.trans hitem.symm⟩
  obtain ⟨L0', L', h', r', hr'L, hr'e, hr'a⟩ := removed_run (c := cast) hU after h ⟨r, hrL, hrc, hra⟩ hk ha
  have h0 : cast.fid ≠ 0 := by have := hc.1; omega
  have hr'o := h'.holds.valid r' hr'L
  have hiso : ∀ x, okIn .casts U x → castStore.isAdd x = false → x.isRemoval := by
    intro x hx hxa
    by_cases hxr : x.isRemoval
    · exact hxr
    · have : castStore.isAdd x = true := (kind_isAdd (channelOf := channelOf) .casts hx).2 hxr
      rw [hxa] at this; cases this
  refine ⟨?_, ?_, ?_⟩
  · rcases getAdd_eq (t := st.pend.txn) H h'.holds hco h0 with ⟨x, hx, e, e', _⟩ | ⟨_, hg⟩
    · rw [← h'.holds.unique hr'L hx (hr'e.trans e.symm), hr'a] at e'; cases e'
    · exact hg
  · refine ⟨r', (kind_rivals (channelOf := channelOf) .casts hr'o hro).1 (hr'e.trans hrc.symm), hiso r' hr'o hr'a, ?_⟩
    rcases getRemove_eq (t := st.pend.txn) H h'.holds hco h0 rfl with ⟨x, hx, e, _, hg⟩ | ⟨hn, _⟩
    · rw [h'.holds.unique hr'L hx (hr'e.trans e.symm)]; exact hg
    · rw [hn r' hr'L hr'e] at hr'a; cases hr'a
  · intro x hx hxf hxi
    have hxL : x ∈ L' := (h'.has_iff H x).1 hx
    have hxo := h'.holds.valid x hxL
    have : castStore.ak x = castStore.ak cast :=
      (kind_rivals (channelOf := channelOf) .casts hxo hco).2 ⟨hxf.trans hsame.symm, hxi.trans hitem.symm⟩
    rw [h'.holds.unique hxL hr'L (this.trans hr'e.symm)]
    exact hiso r' hr'o hr'a

/-- A remove is accepted over any stored add of that cast, even one with a later timestamp: the merge
reports the add as deleted (or the block has run out of event numbers), and the cast is gone. -/
theorem C10_remove_accepted (ctx : Nat → MergeCtx) (U : Msg → Prop) (hU : HashesIdentify U)
    (channelOf : Bytes → Option Bytes) (hch : ChannelNaming channelOf)
    (ops : List StoreOp) (hops : StoreKind.casts.ProperRun channelOf ctx U {} ops)
    (r a : Msg) (hrv : StoreKind.casts.Valid r) (hru : U r) (hrr : r.isRemoval) :
    let st := ({} : StoreState).run castStore ctx ops
    st.Has castStore a → ¬ a.isRemoval → a.Rivals r →
      ((castStore.merge st.db (ctx r.ts) r st.pend).1 = .ok (.merge r [a]) ∨
        (castStore.merge st.db (ctx r.ts) r st.pend).1 = .error .invalidParameter) ∧
      (st.exec castStore ctx (.merge r)).Has castStore r ∧ ¬ (st.exec castStore ctx (.merge r)).Has castStore a := by
  intro st hst har hriv
  have H : castStore.Lawful (okIn .casts U) := castStore_lawful hU
  obtain ⟨L0, L, h⟩ := kind_run (channelOf := channelOf) .casts hch hU ops (kind_init .casts) hops
  have haL : a ∈ L := (h.has_iff H a).1 hst
  have hao := h.holds.valid a haL
  have hro : okIn .casts U r := ⟨hrv, hru⟩
  have hc : castStore.CompactOut (okIn .casts U) := kind_compactOut (channelOf := channelOf) .casts hU
  have hae : castStore.ak a = castStore.ak r := (kind_rivals (channelOf := channelOf) .casts hao hro).2 hriv
  have hwin : castStore.cmp r a > 0 := (kind_beats (channelOf := channelOf) .casts hro hao).2 (.inl ⟨hrr, har⟩)
  have hlt : castStore.cmp a r < 0 := (H.cmpAnti hao hro).2 hwin
  have hl : castStore.liveMerge L r = (.ok [a], r :: L.filter (fun x => castStore.ak x ≠ castStore.ak r)) := by
    unfold liveMerge
    cases hf : L.find? (fun x => castStore.ak x = castStore.ak r) with
    | none => exact absurd (List.find?_eq_none.1 hf a haL) (by simp [hae])
    | some x =>
      have hxL : x ∈ L := List.mem_of_find?_eq_some hf
      have hxe : castStore.ak x = castStore.ak r := by simpa using List.find?_some hf
      rw [h.holds.unique hxL haL (hxe.trans hae.symm)]
      simp only
      rw [if_neg (by omega), if_neg (by omega)]
  rcases merge_spec H h.holds hro (CompactFree.of_blank hc h.blank hro) with ⟨e, he, _⟩ | ⟨old, s', he, hr', hh, hf⟩
  · rw [hl] at he; cases he
  · rw [hl] at he
    cases he
    have : st.exec castStore ctx (.merge r) = { st with pend := s' } := by
      simp only [StoreState.exec, StoreState.after]
      rcases hr' with hr' | hr' <;> erw [hr']
    rw [this]
    have h' := safe_pend h hh hf
    refine ⟨?_, ?_, ?_⟩
    · rcases hr' with hr' | hr'
      · exact .inl (congrArg Prod.fst hr')
      · exact .inr (congrArg Prod.fst hr')
    · exact (h'.has_iff H r).2 List.mem_cons_self
    · intro hx
      rcases List.mem_cons.1 ((h'.has_iff H a).1 hx) with e | e
      · exact har (e ▸ hrr)
      · exact absurd hae (by simpa using (List.mem_filter.1 e).2)

/-- A remove dated before the cast it names is merged, committed, and the cast arrives again. -/
example :
    let st := ({} : StoreState).run castStore Case.allOn [.merge Case.castA, .commit, .merge Case.castARemove, .commit]
    StoreKind.casts.ProperRun Case.noChannels Case.allOn (· ∈ Case.casts) {}
      [.merge Case.castA, .commit, .merge Case.castARemove, .commit] ∧
    st.Has castStore Case.castARemove ∧ Case.castARemove.ts < Case.castA.ts ∧
    StoreKind.casts.ProperRun Case.noChannels Case.allOn (· ∈ Case.casts) st [.merge Case.castA, .merge Case.castB] ∧
    Case.castA.item = some (0, Case.h20 1) := by
  have v := Case.casts_valid
  refine ⟨⟨⟨v _ (by decide), by decide⟩, trivial, ⟨v _ (by decide), by decide⟩, trivial, trivial⟩, ?_, by decide,
    ⟨⟨v _ (by decide), by decide⟩, ⟨v _ (by decide), by decide⟩, trivial⟩, rfl⟩
  unfold StoreState.Has; decide +kernel

end Verif
