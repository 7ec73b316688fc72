import Verif.Lemmas.StoreRowsOf
import Verif.Spec.Shard
/-! A store among others in one database. -/
namespace Verif
namespace StoreDef
variable {D : StoreDef} {ok : Msg → Prop} {ctx : Nat → MergeCtx} {N : Bytes → Prop}

/-- Among the keys in `N`, only the store's own rows and events are present. -/
def BlankIn (D : StoreDef) (ok : Msg → Prop) (N : Bytes → Prop) (V : View) : Prop :=
  ∀ k, ¬ D.Space ok k → (∀ id, k ≠ eventKey id) → N k → V k = none

def CompactOutIn (D : StoreDef) (ok : Msg → Prop) (N : Bytes → Prop) : Prop :=
  D.compactSupported = true → ∀ m, ok m → ∃ k, D.compactKey m = .ok k ∧ ¬ D.Space ok k ∧ (∀ id, k ≠ eventKey id) ∧ N k

theorem CompactFree.of_blankIn (hc : CompactOutIn D ok N) {V : View} (hb : BlankIn D ok N V) {m : Msg} (hm : ok m) :
    CompactFree D m V := by
  intro hs
  obtain ⟨k, h1, h2, h3, h4⟩ := hc hs m hm
  exact ⟨k, h1, .inl (hb k h2 h3 h4)⟩

theorem BlankIn.frame {V V' : View} (h : BlankIn D ok N V) (hf : Frame D ok V V') : BlankIn D ok N V' :=
  fun k hk he hn => (hf k hk he).trans (h k hk he hn)

/-- The invariant of a store among others. -/
structure SafeIn (D : StoreDef) (ok : Msg → Prop) (ctx : Nat → MergeCtx) (N : Bytes → Prop) (L0 L : List Msg) (st : StoreState) : Prop
    extends PairInv D ok ctx L0 L st where
  blank0 : BlankIn D ok N (viewOf st.db OMap.empty)
  blank : BlankIn D ok N st.view

theorem SafeInv.toIn {L0 L : List Msg} {st : StoreState} (h : SafeInv D ok ctx L0 L st) : SafeIn D ok ctx N L0 L st :=
  ⟨h.toPairInv, fun k a b _ => h.blank0 k a b, fun k a b _ => h.blank k a b⟩

theorem safeIn_pend {L0 L : List Msg} {st : StoreState} (h : SafeIn D ok ctx N L0 L st) {L' : List Msg} {s' : SSt}
    (hh : D.Holds ok ctx L' (viewOf st.db s'.txn)) (hf : Frame D ok st.view (viewOf st.db s'.txn)) :
    SafeIn D ok ctx N L0 L' { st with pend := s' } :=
  ⟨⟨h.committed, hh⟩, h.blank0, h.blank.frame hf⟩

theorem safeIn_commit {L0 L : List Msg} {st : StoreState} (h : SafeIn D ok ctx N L0 L st) (D' : StoreDef) (ctx' : Nat → MergeCtx) :
    SafeIn D ok ctx N L L (st.exec D' ctx' .commit) :=
  ⟨⟨h.holds.congr (fun k _ => view_commit (D := D') (ctx := ctx') st k), h.holds.congr (fun k _ => view_commit (D := D') (ctx := ctx') st k)⟩,
    fun k a b c => (view_commit (D := D') (ctx := ctx') st k).trans (h.blank k a b c),
    fun k a b c => (view_commit (D := D') (ctx := ctx') st k).trans (h.blank k a b c)⟩

theorem safeIn_drop {L0 L : List Msg} {st : StoreState} (h : SafeIn D ok ctx N L0 L st) (D' : StoreDef) (ctx' : Nat → MergeCtx) :
    SafeIn D ok ctx N L0 L0 (st.exec D' ctx' .drop) :=
  ⟨⟨h.committed, h.committed⟩, h.blank0, h.blank0⟩

theorem safeIn_block {L0 L : List Msg} {st : StoreState} (h : SafeIn D ok ctx N L0 L st) (D' : StoreDef) (ctx' : Nat → MergeCtx) (n : Nat) :
    SafeIn D ok ctx N L0 L (st.exec D' ctx' (.block n)) :=
  ⟨⟨h.committed, h.holds⟩, h.blank0, h.blank⟩

/-- What a call makes of the live messages. -/
def effect (D : StoreDef) (db : Db SVal) (L : List Msg) : StoreOp → List Msg
  | .merge m => (D.liveMerge L m).2
  | .force m => if D.compactSupported then L else m :: L.filter (fun x => D.ak x ≠ D.ak m)
  | .revokeAdd item => match L.find? (fun x => D.ak x = D.ak item ∧ D.isAdd x = true) with
    | some x => L.filter (fun y => y ≠ x)
    | none => L
  | .prune fid cur max =>
      L.filter (fun x => x ∉ (storedMessages D db fid).take (min (storedMessages D db fid).length (cur - max)))
  | .revokeSigner fid signer => L.filter (fun x => ¬ (x ∈ storedMessages D db fid ∧ x.signer = signer))
  | _ => L
end StoreDef

open StoreDef
variable {U : Msg → Prop} {channelOf : Bytes → Option Bytes} {ctx : Nat → MergeCtx} {N : Bytes → Prop}

/-- A call that concerns one store only. -/
def StoreOp.isCall : StoreOp → Bool
  | .commit | .drop | .block _ => false
  | _ => true

/-- One call, among other stores. -/
theorem kind_call (kind : StoreKind) (hch : ChannelNaming channelOf) (hU : HashesIdentify U)
    (hco : CompactOutIn (kind.store channelOf) (okIn kind U) N) {L0 L : List Msg} {st : StoreState}
    (h : SafeIn (kind.store channelOf) (okIn kind U) ctx N L0 L st) {o : StoreOp} (hc : o.isCall = true)
    (ho : kind.Proper channelOf U st o) :
    ∃ L' s', st.exec (kind.store channelOf) ctx o = { st with pend := s' } ∧
      (kind.store channelOf).Holds (okIn kind U) ctx L' (viewOf st.db s'.txn) ∧
      Frame (kind.store channelOf) (okIn kind U) st.view (viewOf st.db s'.txn) ∧
      ((∀ f c m, o = .prune f c m → ∃ es, st.returned (kind.store channelOf) ctx o = .ok es) →
        L' = (kind.store channelOf).effect st.db L o) := by
  have H := kind_lawful (channelOf := channelOf) kind hch hU
  have hset := (kind_set (channelOf := channelOf) kind).1
  have stay : ∀ {o}, st.exec (kind.store channelOf) ctx o = st → L = (kind.store channelOf).effect st.db L o →
      ∃ L' s', st.exec (kind.store channelOf) ctx o = { st with pend := s' } ∧
      (kind.store channelOf).Holds (okIn kind U) ctx L' (viewOf st.db s'.txn) ∧
      Frame (kind.store channelOf) (okIn kind U) st.view (viewOf st.db s'.txn) ∧
      ((∀ f c m, o = .prune f c m → ∃ es, st.returned (kind.store channelOf) ctx o = .ok es) →
        L' = (kind.store channelOf).effect st.db L o) := by
    intro o e e'
    exact ⟨L, st.pend, e, h.holds, Frame.refl _, fun _ => e'⟩
  cases o with
  | merge m =>
    have hm : okIn kind U m := ho
    rcases merge_spec H h.holds hm (CompactFree.of_blankIn hco h.blank hm) with
      ⟨e, hl, _, hr⟩ | ⟨old, s', hl, hr, hh, hf⟩
    · refine stay ?_ ?_
      · simp only [StoreState.exec, StoreState.after, hr]
      · simp only [effect, hl]
    · refine ⟨_, s', ?_, hh, hf, fun _ => ?_⟩
      · simp only [StoreState.exec, StoreState.after]
        rcases hr with hr | hr <;> rw [hr]
      · simp only [effect, hl]
  | force m =>
    obtain ⟨hv, hu, hx⟩ := ho
    have hm : okIn kind U m := ⟨hv, hu⟩
    rcases force_spec (ctx := ctx) H h.holds hm (fun x hxL => hx x ((h.has_iff H x).2 hxL)) with
      ⟨hcs, hr⟩ | ⟨old, s', hr, _, hh, hf⟩
    · refine stay ?_ ?_
      · simp only [StoreState.exec, StoreState.after, hr]
      · simp only [effect, hcs, if_true]
    · by_cases hcs : (kind.store channelOf).compactSupported = true
      · refine stay ?_ ?_
        · have hr : (kind.store channelOf).mergeForce st.db (ctx m.ts) m st.pend = (.error .invalidParameter, st.pend) := by
            unfold mergeForce; rw [if_pos hcs]; rfl
          simp only [StoreState.exec, StoreState.after, hr]
        · simp only [effect, hcs, if_true]
      · refine ⟨_, s', ?_, hh, hf, fun _ => ?_⟩
        · simp only [StoreState.exec, StoreState.after]
          rcases hr with hr | hr <;> rw [hr]
        · simp only [effect, hcs, if_false, Bool.false_eq_true]
  | revokeAdd item =>
    have hm : okIn kind U item := ho
    have h0 : item.fid ≠ 0 := by have := hm.1.1; omega
    rcases getAdd_eq (t := st.pend.txn) H h.holds hm h0 with ⟨x, hx, hxa, hxadd, hg⟩ | ⟨hn, hg⟩
    · obtain ⟨s', hr, hh, hf⟩ := revoke_spec H h.holds hx
      refine ⟨_, s', ?_, hh, hf, fun _ => ?_⟩
      · simp only [StoreState.exec, StoreState.after, hg]
        rcases hr with hr | hr <;> rw [hr]
      · simp only [effect]
        rcases hfind : L.find? (fun x => decide ((kind.store channelOf).ak x = (kind.store channelOf).ak item ∧ (kind.store channelOf).isAdd x = true)) with _ | y
        · have := List.find?_eq_none.1 hfind x hx
          simp [hxa, hxadd] at this
        · have hy := List.mem_of_find?_eq_some hfind
          have hy' := List.find?_some hfind
          simp only [decide_eq_true_eq] at hy'
          rw [h.holds.unique hx hy (hxa.trans hy'.1.symm)]
    · refine stay ?_ ?_
      · simp only [StoreState.exec, hg]
      · simp only [effect]
        rw [List.find?_eq_none.2]
        intro x hx hd
        simp only [decide_eq_true_eq] at hd
        rw [hn x hx hd.1] at hd
        cases hd.2
  | prune fid cur max =>
    obtain ⟨n, s', _, hh, hf, hr⟩ := prune_spec (cur := cur) (max := max) H hset h.toPairInv ho.1 ho.2
    refine ⟨_, s', ?_, hh, hf, fun hs => ?_⟩
    · simp only [StoreState.exec, StoreState.after]
      rcases hr with ⟨hr, _⟩ | hr <;> rw [hr]
    · rcases hr with ⟨hr, hn⟩ | hr
      · simp only [effect, hn]
      · obtain ⟨es, hes⟩ := hs fid cur max rfl
        simp only [StoreState.returned, hr] at hes
        cases hes
  | revokeSigner fid signer =>
    obtain ⟨es, s', hr, hh, hf, _⟩ := revokeSigner_spec (signer := signer) H hset h.toPairInv ho.1 ho.2
    refine ⟨_, s', ?_, hh, hf, fun _ => rfl⟩
    simp only [StoreState.exec, StoreState.after, hr]
  | commit => simp [StoreOp.isCall] at hc
  | drop => simp [StoreOp.isCall] at hc
  | block n => simp [StoreOp.isCall] at hc

/-- Lookups by item in a store whose rows are right. -/
theorem pair_lookups (kind : StoreKind) (hch : ChannelNaming channelOf) (hU : HashesIdentify U) {L0 L : List Msg} {st : StoreState}
    (h : PairInv (kind.store channelOf) (okIn kind U) ctx L0 L st) (item : Msg) (hi : kind.Valid item) (hu : U item) :
    let D := kind.store channelOf
    (∀ a b, st.Has D a → st.Has D b → a.Rivals b → a = b) ∧
    (∀ x, D.getAdd st.db st.pend.txn item = .ok (some x) ↔ st.Has D x ∧ x.Rivals item ∧ ¬ x.isRemoval) ∧
    (∃ o, D.getAdd st.db st.pend.txn item = .ok o) ∧
    (D.removeSupported = true →
      (∀ x, D.getRemove st.db st.pend.txn item = .ok (some x) ↔ st.Has D x ∧ x.Rivals item ∧ x.isRemoval) ∧
      ∃ o, D.getRemove st.db st.pend.txn item = .ok o) := by
  intro D
  have H : D.Lawful (okIn kind U) := kind_lawful kind hch hU
  have hio : okIn kind U item := ⟨hi, hu⟩
  have h0 : item.fid ≠ 0 := by have := hi.1; omega
  have hiff := h.has_iff H
  have riv : ∀ x ∈ L, (D.ak x = D.ak item ↔ x.Rivals item) := fun x hx => kind_rivals kind (h.holds.valid x hx) hio
  have rem : ∀ x ∈ L, (D.isAdd x = true ↔ ¬ x.isRemoval) := fun x hx => kind_isAdd kind (h.holds.valid x hx)
  refine ⟨?_, ?_, ?_, ?_⟩
  · intro a b ha hb hab
    have ha := (hiff a).1 ha
    have hb := (hiff b).1 hb
    exact h.holds.unique ha hb ((kind_rivals kind (h.holds.valid a ha) (h.holds.valid b hb)).2 hab)
  · intro x
    rw [hiff]
    rcases getAdd_eq (t := st.pend.txn) H h.holds hio h0 with ⟨y, hy, e, ha, hg⟩ | ⟨hn, hg⟩
    · rw [hg]
      simp only [Except.ok.injEq, Option.some.injEq]
      constructor
      · intro e'; subst e'; exact ⟨hy, (riv y hy).1 e, (rem y hy).1 ha⟩
      · rintro ⟨hx, hxr, _⟩; exact h.holds.unique hy hx (e.trans ((riv x hx).2 hxr).symm)
    · rw [hg]
      simp only [Except.ok.injEq, reduceCtorEq, false_iff]
      rintro ⟨hx, hxr, hxa⟩
      have := hn x hx ((riv x hx).2 hxr)
      rw [(rem x hx).2 hxa] at this; cases this
  · rcases getAdd_eq (t := st.pend.txn) H h.holds hio h0 with ⟨y, _, _, _, hg⟩ | ⟨_, hg⟩ <;> exact ⟨_, hg⟩
  · intro hs
    constructor
    · intro x
      rw [hiff]
      rcases getRemove_eq (t := st.pend.txn) H h.holds hio h0 hs with ⟨y, hy, e, ha, hg⟩ | ⟨hn, hg⟩
      · rw [hg]
        simp only [Except.ok.injEq, Option.some.injEq]
        constructor
        · intro e'; subst e'
          refine ⟨hy, (riv y hy).1 e, ?_⟩
          by_cases hr : y.isRemoval
          · exact hr
          · rw [(rem y hy).2 hr] at ha; cases ha
        · rintro ⟨hx, hxr, _⟩; exact h.holds.unique hy hx (e.trans ((riv x hx).2 hxr).symm)
      · rw [hg]
        simp only [Except.ok.injEq, reduceCtorEq, false_iff]
        rintro ⟨hx, hxr, hxa⟩
        exact (rem x hx).1 (hn x hx ((riv x hx).2 hxr)) hxa
    · rcases getRemove_eq (t := st.pend.txn) H h.holds hio h0 hs with ⟨y, _, _, _, hg⟩ | ⟨_, hg⟩ <;> exact ⟨_, hg⟩

end Verif
