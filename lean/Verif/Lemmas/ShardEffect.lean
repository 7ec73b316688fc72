import Verif.Lemmas.ShardEngine
import Verif.Lemmas.StoreReject
/-! What one engine step does to the messages a shard holds. -/
namespace Verif
open StoreDef

section
variable {U : Msg → Prop} {channelOf : Bytes → Option Bytes} {ctx : Nat → MergeCtx}

/-- A history of a shard leads to states with the invariant of its stores. -/
theorem history_inv {ord : List UInt8 → List UInt8} {sha256 H : Bytes → Bytes} {E : TrieEntry → Prop}
    (S : ShardSetting channelOf U ord sha256 E) (hH : ∀ x, H x ≠ []) {ops : List ShardTrieOp}
    (hok : ({} : StoreState).ShardStepsOK channelOf ctx U sha256 E {} ops) {s : StoreTrie}
    (hs : StoreTrie.shardRun H ord sha256 channelOf ctx ops {} = .ok s) : ∃ L0 L, ShardInv channelOf ctx U L0 L s.store := by
  obtain ⟨hch, hU, hord, hE, hmE⟩ := S
  obtain ⟨L0, L, ks, t, h1, h2, _⟩ := shardMirror_run hH hord hch hU hE hmE ops
    (shardMirror_init (H := H) (channelOf := channelOf) (ctx := ctx) (U := U) (sha256 := sha256) (E := E)) hok
  rw [h1] at hs; cases hs
  exact ⟨L0, L, h2.store⟩

/-- A call changes its own store and no other. -/
theorem shardInv_pend {L0 L : StoreKind → List Msg} {st : StoreState} (h : ShardInv channelOf ctx U L0 L st) (kind : StoreKind) {L1 : List Msg} {s' : SSt}
    (hh : (kind.store channelOf).Holds (okIn kind U) ctx L1 (viewOf st.db s'.txn))
    (hf : Frame (kind.store channelOf) (okIn kind U) st.view (viewOf st.db s'.txn)) :
    ShardInv channelOf ctx U L0 (fun j => if j = kind then L1 else L j) { st with pend := s' } := by
  intro j
  by_cases e : j = kind
  · subst e
    simp only [if_true]
    exact safeIn_pend (h j) hh hf
  · simp only [e, if_false]
    refine (h j).elsewhere (fun k hk => frame_owns hf ?_ (owns_not_event hk))
    exact fun hk' => e (owns_unique hk hk')

theorem shardInv_has (hch : ChannelNaming channelOf) (hU : HashesIdentify U) {L0 L : StoreKind → List Msg} {st : StoreState}
    (h : ShardInv channelOf ctx U L0 L st) (j : StoreKind) (x : Msg) : st.Has (j.store channelOf) x ↔ x ∈ L j :=
  (h j).has_iff (kind_lawful j hch hU) x

/-- A merge of a message: refused because of a message about the same item that stays, or done. -/
theorem merge_effect (hch : ChannelNaming channelOf) (hU : HashesIdentify U) {L0 L : StoreKind → List Msg} {st : StoreState}
    (h : ShardInv channelOf ctx U L0 L st) {kind : StoreKind} {m : Msg} (hv : kind.Valid m) (hu : U m) :
    (∃ e x, (e = .conflict ∧ kind.beats x m ∨ e = .duplicate ∧ x = m) ∧ st.Has (kind.store channelOf) x ∧ x.Rivals m ∧
      st.returned (kind.store channelOf) ctx (.merge m) = .error e ∧ st.exec (kind.store channelOf) ctx (.merge m) = st) ∨
    ((∀ x, st.Has (kind.store channelOf) x → x.Rivals m → kind.beats m x) ∧
      ((∃ old, st.returned (kind.store channelOf) ctx (.merge m) = .ok [.merge m old] ∧
          ∀ x, x ∈ old ↔ st.Has (kind.store channelOf) x ∧ x.Rivals m) ∨
        st.returned (kind.store channelOf) ctx (.merge m) = .error .invalidParameter) ∧
      ∃ L', ShardInv channelOf ctx U L0 L' (st.exec (kind.store channelOf) ctx (.merge m)) ∧
        ∀ j x, x ∈ L' j ↔ (j = kind ∧ x = m) ∨ (x ∈ L j ∧ ¬ (j = kind ∧ x.Rivals m))) := by
  have H := kind_lawful (channelOf := channelOf) kind hch hU
  have hm : okIn kind U m := ⟨hv, hu⟩
  have hk := h kind
  have riv : ∀ x ∈ L kind, ((kind.store channelOf).ak x = (kind.store channelOf).ak m ↔ x.Rivals m) :=
    fun x hx => kind_rivals kind (hk.holds.valid x hx) hm
  rcases merge_spec H hk.holds hm (CompactFree.of_blankIn (kind_compactIn kind hU) hk.blank hm) with
    ⟨e, hl, he, hr⟩ | ⟨old, s', hl, hr, hh, hf⟩
  · left
    unfold liveMerge at hl
    split at hl
    · cases hl
    · rename_i x hx
      have hxL := List.mem_of_find?_eq_some hx
      have hxe : (kind.store channelOf).ak x = (kind.store channelOf).ak m := by simpa using List.find?_some hx
      have hxm := hk.holds.valid x hxL
      have hex : st.exec (kind.store channelOf) ctx (.merge m) = st := by simp only [StoreState.exec, StoreState.after, hr]
      have hret : st.returned (kind.store channelOf) ctx (.merge m) = .error e := by simp only [StoreState.returned, hr]
      refine ⟨e, x, ?_, (shardInv_has hch hU h kind x).2 hxL, (riv x hxL).1 hxe, hret, hex⟩
      split at hl
      · rename_i hc
        simp only [Prod.mk.injEq, Except.error.injEq, and_true] at hl
        exact .inl ⟨hl.symm, (kind_beats kind hxm hm).1 hc⟩
      · split at hl
        · rename_i hc
          simp only [Prod.mk.injEq, Except.error.injEq, and_true] at hl
          exact .inr ⟨hl.symm, H.cmpEq hxm hm hxe hc⟩
        · cases hl
  · right
    have hold : (∀ x ∈ L kind, (kind.store channelOf).ak x = (kind.store channelOf).ak m → kind.beats m x) ∧
        ∀ x, x ∈ old ↔ x ∈ L kind ∧ (kind.store channelOf).ak x = (kind.store channelOf).ak m := by
      unfold liveMerge at hl
      split at hl
      · rename_i hn
        have hn : ∀ x ∈ L kind, (kind.store channelOf).ak x ≠ (kind.store channelOf).ak m := by simpa using List.find?_eq_none.1 hn
        simp only [Prod.mk.injEq, Except.ok.injEq] at hl
        refine ⟨fun x hx e => absurd e (hn x hx), fun x => ?_⟩
        rw [← hl.1]
        simp only [List.not_mem_nil, false_iff, not_and]
        exact fun hx => hn x hx
      · rename_i x hx
        have hxL := List.mem_of_find?_eq_some hx
        have hxe : (kind.store channelOf).ak x = (kind.store channelOf).ak m := by simpa using List.find?_some hx
        have hxm := hk.holds.valid x hxL
        split at hl
        · cases hl
        · rename_i h1
          split at hl
          · cases hl
          · rename_i h2
            simp only [Prod.mk.injEq, Except.ok.injEq] at hl
            have hu : ∀ y ∈ L kind, (kind.store channelOf).ak y = (kind.store channelOf).ak m → y = x :=
              fun y hy e => hk.holds.unique hy hxL (e.trans hxe.symm)
            refine ⟨fun y hy e => ?_, fun y => ?_⟩
            · rw [hu y hy e]
              refine (kind_beats (channelOf := channelOf) kind hm hxm).1 ?_
              have := H.cmpAnti hm hxm
              have := H.cmpAnti hxm hm
              omega
            · rw [← hl.1, List.mem_singleton]
              exact ⟨fun e => e ▸ ⟨hxL, hxe⟩, fun e => hu y e.1 e.2⟩
    have hex : st.exec (kind.store channelOf) ctx (.merge m) = { st with pend := s' } := by
      simp only [StoreState.exec, StoreState.after]
      rcases hr with hr | hr <;> rw [hr]
    refine ⟨fun x hx hxr => ?_, ?_, ?_⟩
    · have hx := (shardInv_has hch hU h kind x).1 hx
      exact hold.1 x hx ((riv x hx).2 hxr)
    · rcases hr with hr | hr
      · refine .inl ⟨old, by simp only [StoreState.returned, hr], fun x => ?_⟩
        rw [hold.2, shardInv_has hch hU h kind x]
        exact and_congr_right (fun hx => riv x hx)
      · exact .inr (by simp only [StoreState.returned, hr])
    · rw [hex]
      refine ⟨_, shardInv_pend h kind hh hf, ?_⟩
      intro j x
      by_cases e : j = kind
      · subst e
        simp only [if_true, true_and, List.mem_cons, List.mem_filter, decide_eq_true_eq, ne_eq]
        exact or_congr Iff.rfl (and_congr_right (fun hx => not_congr (riv x hx)))
      · simp [e]

/-- A forced merge of a message replaces what is about the same item, whatever it is. -/
theorem force_effect (hch : ChannelNaming channelOf) (hU : HashesIdentify U) {L0 L : StoreKind → List Msg} {st : StoreState}
    (h : ShardInv channelOf ctx U L0 L st) {m : Msg} (hv : StoreKind.verifications.Valid m) (hu : U m)
    (hx : ∀ x, st.Has verificationStore x → x.fid = m.fid → x.hash = m.hash → x = m) :
    ((∃ old, st.returned verificationStore ctx (.force m) = .ok [.merge m old] ∧
        ∀ x, x ∈ old ↔ st.Has verificationStore x ∧ x.Rivals m ∧ x ≠ m) ∨
      st.returned verificationStore ctx (.force m) = .error .invalidParameter) ∧
    ∃ L', ShardInv channelOf ctx U L0 L' (st.exec verificationStore ctx (.force m)) ∧
      ∀ j x, x ∈ L' j ↔ (j = .verifications ∧ x = m) ∨ (x ∈ L j ∧ ¬ (j = .verifications ∧ x.Rivals m)) := by
  have H : verificationStore.Lawful (okIn .verifications U) := kind_lawful (channelOf := channelOf) .verifications hch hU
  have hm : okIn .verifications U m := ⟨hv, hu⟩
  have hk : NearInv channelOf ctx U .verifications (L0 .verifications) (L .verifications) st := h .verifications
  have riv : ∀ x ∈ L .verifications, (verificationStore.ak x = verificationStore.ak m ↔ x.Rivals m) :=
    fun x hx => kind_rivals (channelOf := channelOf) .verifications (hk.holds.valid x hx) hm
  have has : ∀ x, st.Has verificationStore x ↔ x ∈ L .verifications := shardInv_has hch hU h .verifications
  rcases force_spec (ctx := ctx) H hk.holds hm (fun x hxL => hx x ((has x).2 hxL)) with ⟨hcs, _⟩ | ⟨old, s', hr, ho, hh, hf⟩
  · exact absurd hcs (by decide)
  · have hex : st.exec verificationStore ctx (.force m) = { st with pend := s' } := by
      simp only [StoreState.exec, StoreState.after]
      rcases hr with hr | hr <;> rw [hr]
    refine ⟨?_, ?_⟩
    · rcases hr with hr | hr
      · refine .inl ⟨old, ?_, fun x => ?_⟩
        · simp only [StoreState.returned, hr]
        · rw [ho, has]
          constructor
          · rintro ⟨a, b, c⟩; exact ⟨a, (riv x a).1 b, c⟩
          · rintro ⟨a, b, c⟩; exact ⟨a, (riv x a).2 b, c⟩
      · refine .inr ?_
        simp only [StoreState.returned, hr]
    · rw [hex]
      refine ⟨_, shardInv_pend h .verifications hh hf, ?_⟩
      intro j x
      by_cases e : j = .verifications
      · subst e
        simp only [if_true, true_and, List.mem_cons, List.mem_filter, decide_eq_true_eq, ne_eq]
        exact or_congr Iff.rfl (and_congr_right (fun hx => not_congr (riv x hx)))
      · simp [e]

/-- Revoking by signer in one store. -/
theorem revokeSigner_effect (hch : ChannelNaming channelOf) (hU : HashesIdentify U) {L0 L : StoreKind → List Msg} {st : StoreState}
    (h : ShardInv channelOf ctx U L0 L st) (kind : StoreKind) {fid : Nat} {signer : Bytes} (hf : fid < 2 ^ 32)
    (hs : st.OfSigner (kind.store channelOf) fid signer) :
    (∃ es, st.returned (kind.store channelOf) ctx (.revokeSigner fid signer) = .ok es ∧
        ∀ e ∈ es, ∃ m ∈ storedMessages (kind.store channelOf) st.db fid, m.signer = signer ∧ e = .revoke m) ∧
      (st.exec (kind.store channelOf) ctx (.revokeSigner fid signer)).db = st.db ∧
      ∃ L', ShardInv channelOf ctx U L0 L' (st.exec (kind.store channelOf) ctx (.revokeSigner fid signer)) ∧
        ∀ j x, x ∈ L' j ↔ x ∈ L j ∧ ¬ (j = kind ∧ x ∈ storedMessages (kind.store channelOf) st.db fid ∧ x.signer = signer) := by
  have H := kind_lawful (channelOf := channelOf) kind hch hU
  obtain ⟨es, s', hr, hh, hfr, he⟩ := revokeSigner_spec (signer := signer) H (kind_set (channelOf := channelOf) kind).1 (h kind).toPairInv hf hs
  have hex : st.exec (kind.store channelOf) ctx (.revokeSigner fid signer) = { st with pend := s' } := by
    simp only [StoreState.exec, StoreState.after, hr]
  refine ⟨⟨es, by simp only [StoreState.returned, hr], he⟩, by rw [hex], ?_⟩
  rw [hex]
  refine ⟨_, shardInv_pend h kind hh hfr, ?_⟩
  intro j x
  by_cases e : j = kind
  · subst e
    simp only [if_true, true_and, List.mem_filter, decide_eq_true_eq]
  · simp [e]

end
end Verif
