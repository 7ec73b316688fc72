import Verif.Lemmas.StoreDelete
/-! The invariant of histories with merges, prunes and revocations. -/
namespace Verif
namespace StoreDef
variable {D : StoreDef} {ok : Msg → Prop} {ctx : Nat → MergeCtx}

/-! ### Forced merges -/

theorem resolveSelector_none {db : Db SVal} {fid : Nat} {k : Bytes} {s : SSt} (h : viewOf db s.txn k = none) :
    D.resolveSelector db fid k s = (.ok [], s) := by
  unfold resolveSelector
  rw [SM.bind_ok (read_eq db k s), h]; rfl

theorem resolveSelector_some {db : Db SVal} {fid : Nat} {k : Bytes} {s : SSt} {x : Msg}
    (h : viewOf db s.txn k = some (.raw (tsh x))) (hx : x.hash.length = 20) (hf : x.fid = fid)
    (hp : viewOf db s.txn (D.prim x) = some (.msg x)) :
    D.resolveSelector db fid k s = (.ok [x], s) := by
  unfold resolveSelector
  rw [SM.bind_ok (read_eq db k s), h]
  simp only
  rw [SM.bind_ok (SM.lift_ok (asTsHash_raw hx) s), ← hf, SM.bind_ok (getMessage_eq hp)]; rfl

theorem existingConflicts_eq (H : D.Lawful ok) {db : Db SVal} {s : SSt} {L : List Msg}
    (h : D.Holds ok ctx L (viewOf db s.txn)) {m : Msg} (hm : ok m) :
    ∃ old, D.existingConflicts db m s = (.ok old, s) ∧ ∀ x, x ∈ old ↔ x ∈ L ∧ D.ak x = D.ak m := by
  have hrem : ∃ r, D.existingRemove db m s = (.ok r, s) ∧
      ∀ x, x ∈ r ↔ x ∈ L ∧ D.ak x = D.ak m ∧ D.isAdd x = false := by
    unfold existingRemove
    by_cases hs : D.removeSupported = true
    · rw [if_pos hs, SM.bind_ok (SM.lift_ok (H.removeKey hs hm) s)]
      rcases h.get_rk H hm hs with ⟨x, hx, e, ha, hv⟩ | ⟨hn, hv⟩
      · refine ⟨[x], resolveSelector_some hv (H.hash (h.valid x hx)) (H.itemFid (h.valid x hx) hm e) (h.get_prim H hx), ?_⟩
        intro y
        rw [List.mem_singleton]
        exact ⟨fun e' => e' ▸ ⟨hx, e, ha⟩, fun ⟨a, b, _⟩ => h.unique a hx (b.trans e.symm)⟩
      · refine ⟨[], resolveSelector_none hv, ?_⟩
        intro y
        simp only [List.not_mem_nil, false_iff, not_and]
        intro a b c; rw [hn y a b] at c; cases c
    · rw [if_neg hs]
      refine ⟨[], rfl, ?_⟩
      intro y
      simp only [List.not_mem_nil, false_iff, not_and]
      intro a b c; exact hs (H.remove_of_not_add (h.valid y a) c).2
  have hadd : ∃ r, D.resolveSelector db m.fid (D.ak m) s = (.ok r, s) ∧
      ∀ x, x ∈ r ↔ x ∈ L ∧ D.ak x = D.ak m ∧ D.isAdd x = true := by
    rcases h.get_ak H hm with ⟨x, hx, e, ha, hv⟩ | ⟨hn, hv⟩
    · refine ⟨[x], resolveSelector_some hv (H.hash (h.valid x hx)) (H.itemFid (h.valid x hx) hm e) (h.get_prim H hx), ?_⟩
      intro y
      rw [List.mem_singleton]
      exact ⟨fun e' => e' ▸ ⟨hx, e, ha⟩, fun ⟨a, b, _⟩ => h.unique a hx (b.trans e.symm)⟩
    · refine ⟨[], resolveSelector_none hv, ?_⟩
      intro y
      simp only [List.not_mem_nil, false_iff, not_and]
      intro a b c; rw [hn y a b] at c; cases c
  obtain ⟨r, hr1, hr2⟩ := hrem
  obtain ⟨a, ha1, ha2⟩ := hadd
  refine ⟨r ++ a, ?_, ?_⟩
  · unfold existingConflicts
    rw [SM.bind_ok hr1, SM.bind_ok (SM.lift_ok (H.addKey hm) s), SM.bind_ok ha1]; rfl
  · intro x
    rw [List.mem_append, hr2, ha2]
    cases D.isAdd x <;> simp

theorem force_spec (H : D.Lawful ok) {db : Db SVal} {L : List Msg} {s : SSt}
    (h : D.Holds ok ctx L (viewOf db s.txn)) {m : Msg} (hm : ok m)
    (hu : ∀ x ∈ L, x.fid = m.fid → x.hash = m.hash → x = m) :
    (D.compactSupported = true ∧ D.mergeForce db (ctx m.ts) m s = (.error .invalidParameter, s)) ∨
    ∃ old s', (D.mergeForce db (ctx m.ts) m s = (.ok (.merge m old), s') ∨
        D.mergeForce db (ctx m.ts) m s = (.error .invalidParameter, s')) ∧
      (∀ x, x ∈ old ↔ x ∈ L ∧ D.ak x = D.ak m ∧ x ≠ m) ∧
      D.Holds ok ctx (m :: L.filter (fun x => D.ak x ≠ D.ak m)) (viewOf db s'.txn) ∧
      Frame D ok (viewOf db s.txn) (viewOf db s'.txn) := by
  by_cases hc : D.compactSupported = true
  · left; refine ⟨hc, ?_⟩
    unfold mergeForce; rw [if_pos hc]; rfl
  · right
    obtain ⟨ex, he1, he2⟩ := existingConflicts_eq H h hm
    have hmem : ∀ x, x ∈ ex.filter (fun c => c.hash ≠ m.hash) ↔ x ∈ L ∧ D.ak x = D.ak m ∧ x ≠ m := by
      intro x
      rw [List.mem_filter, he2]
      simp only [ne_eq, decide_not, Bool.not_eq_eq_eq_not, Bool.not_true, decide_eq_false_iff_not]
      constructor
      · rintro ⟨⟨a, b⟩, c⟩; exact ⟨a, b, fun e => c (by rw [e])⟩
      · rintro ⟨a, b, c⟩
        exact ⟨⟨a, b⟩, fun e => c (hu x a (H.itemFid (h.valid x a) hm b) e)⟩
    obtain ⟨s', h1, h2, h3⟩ := write_spec H h hm (old := ex.filter (fun c => c.hash ≠ m.hash))
      (fun x hx => ((hmem x).1 hx).1)
      (fun x hx e => by
        by_cases e' : x = m
        · exact .inr e'
        · exact .inl ((hmem x).2 ⟨hx, e, e'⟩))
      (fun x hx => ((hmem x).1 hx).2.1) (.merge m (ex.filter (fun c => c.hash ≠ m.hash)))
    refine ⟨_, s', ?_, hmem, h2, h3⟩
    have hrun : D.mergeForce db (ctx m.ts) m s =
        D.writeOne ctx m (ex.filter (fun c => c.hash ≠ m.hash)) (.merge m (ex.filter (fun c => c.hash ≠ m.hash))) s := by
      unfold mergeForce
      rw [if_neg hc]
      rcases H.kind hm with ⟨ha, hr⟩ | ⟨ha, hr⟩
      · rw [if_neg (by simp [ha]), SM.bind_ok (SM.lift_ok (makeTsHash_ok (H.hash hm)) s), SM.bind_ok he1]
        unfold writeOne mergeAddWithConflicts writeRows
        simp only [ha, if_true]
      · rw [if_neg (by simp [hr]), SM.bind_ok (SM.lift_ok (makeTsHash_ok (H.hash hm)) s), SM.bind_ok he1]
        unfold writeOne mergeRemoveWithConflicts writeRows
        simp only [ha, Bool.false_eq_true, if_false]
    rw [hrun]
    exact h1

/-! ### Whole histories -/

/-- Both the committed database and what a reader sees hold consistent messages. -/
structure PairInv (D : StoreDef) (ok : Msg → Prop) (ctx : Nat → MergeCtx) (L0 L : List Msg) (st : StoreState) : Prop where
  committed : D.Holds ok ctx L0 (viewOf st.db OMap.empty)
  holds : D.Holds ok ctx L st.view

/-- The invariant: consistent messages and nothing else but events. -/
structure SafeInv (D : StoreDef) (ok : Msg → Prop) (ctx : Nat → MergeCtx) (L0 L : List Msg) (st : StoreState) : Prop
    extends PairInv D ok ctx L0 L st where
  blank0 : Blank D ok (viewOf st.db OMap.empty)
  blank : Blank D ok st.view

theorem PairInv.has_iff (H : D.Lawful ok) {L0 L : List Msg} {st : StoreState} (h : PairInv D ok ctx L0 L st)
    (m : Msg) : st.Has D m ↔ m ∈ L := by
  constructor
  · intro hm
    obtain ⟨x, hx, hr⟩ := (h.holds.rows _ (Space.prim m) _).1 hm
    have hxo := h.holds.valid x hx
    rcases mem_rowsOf hr with e | e | e | e
    · have := e.2; cases this; exact hx
    · exact absurd e.2.1 (H.prim_ne_ak hxo)
    · exact absurd e.2.1 (H.prim_ne_rk (H.remove_of_not_add hxo e.1).2 hxo)
    · exact absurd e.2.1 (H.prim_notin_aux hxo)
  · intro hm; exact h.holds.get_prim H hm

/-- What a call does to the visible messages. -/
theorem safe_pend {L0 L : List Msg} {st : StoreState} (h : SafeInv D ok ctx L0 L st) {L' : List Msg} {s' : SSt}
    (hh : D.Holds ok ctx L' (viewOf st.db s'.txn)) (hf : Frame D ok st.view (viewOf st.db s'.txn)) :
    SafeInv D ok ctx L0 L' { st with pend := s' } :=
  ⟨⟨h.committed, hh⟩, h.blank0, h.blank.frame hf⟩

theorem oldest_live (H : D.Lawful ok) {L0 L : List Msg} {st : StoreState} (h : PairInv D ok ctx L0 L st) {fid n : Nat}
    (hs : st.Oldest D fid n) : ∀ m ∈ (storedMessages D st.db fid).take n, m ∈ L :=
  fun m hm => (h.has_iff H m).1 (hs m hm)

theorem ofSigner_live (H : D.Lawful ok) {L0 L : List Msg} {st : StoreState} (h : PairInv D ok ctx L0 L st) {fid : Nat}
    {signer : Bytes} (hs : st.OfSigner D fid signer) : ∀ m ∈ storedMessages D st.db fid, m.signer = signer → m ∈ L :=
  fun m hm e => (h.has_iff H m).1 (hs m hm e)

theorem Settled.oldest {st : StoreState} {fid : Nat} (h : st.Settled D fid) (n : Nat) : st.Oldest D fid n :=
  fun m hm => h m (List.mem_of_mem_take hm)

theorem Settled.ofSigner {st : StoreState} {fid : Nat} (h : st.Settled D fid) (signer : Bytes) : st.OfSigner D fid signer :=
  fun m hm _ => h m hm

theorem prune_spec (H : D.Lawful ok) (hset : D.set ≠ 255) {L0 L : List Msg} {st : StoreState}
    (h : PairInv D ok ctx L0 L st) {fid cur max : Nat} (hf : fid < 2 ^ 32) (hs : st.Oldest D fid (cur - max)) :
    ∃ n s', n ≤ min (storedMessages D st.db fid).length (cur - max) ∧
      D.Holds ok ctx (L.filter (fun x => x ∉ (storedMessages D st.db fid).take n)) (viewOf st.db s'.txn) ∧
      Frame D ok st.view (viewOf st.db s'.txn) ∧
      ((D.pruneMessages st.db fid cur max st.pend = (.ok (((storedMessages D st.db fid).take n).map .prune), s') ∧
          n = min (storedMessages D st.db fid).length (cur - max)) ∨
        D.pruneMessages st.db fid cur max st.pend = (.error .invalidParameter, s')) := by
  unfold pruneMessages
  by_cases hc : cur ≤ max
  · rw [if_pos hc]
    refine ⟨0, st.pend, by simp, ?_, Frame.refl _, .inl ⟨rfl, by omega⟩⟩
    rw [filter_all _ (by simp)]; exact h.holds
  · rw [if_neg hc]
    have e := scan_stored H h.committed hf hset
    have e' : D.pruneMessages st.db fid cur max = D.pruneLoop max (D.msgRows (storedMessages D st.db fid)) cur := by
      rw [← e]; unfold pruneMessages; rw [if_neg hc]
    unfold pruneMessages at e'
    rw [if_neg hc] at e'
    rw [e']
    exact pruneLoop_spec H max _ cur L st.pend h.holds (oldest_live H h hs) (stored_nodup H h.committed hf)

theorem revokeSigner_spec (H : D.Lawful ok) (hset : D.set ≠ 255) {L0 L : List Msg} {st : StoreState}
    (h : PairInv D ok ctx L0 L st) {fid : Nat} {signer : Bytes} (hf : fid < 2 ^ 32) (hs : st.OfSigner D fid signer) :
    ∃ es s', D.revokeBySigner st.db fid signer st.pend = (.ok es, s') ∧
      D.Holds ok ctx (L.filter (fun x => ¬ (x ∈ storedMessages D st.db fid ∧ x.signer = signer)))
        (viewOf st.db s'.txn) ∧
      Frame D ok st.view (viewOf st.db s'.txn) ∧
      (∀ e ∈ es, ∃ m ∈ storedMessages D st.db fid, m.signer = signer ∧ e = .revoke m) := by
  have e : D.revokeBySigner st.db fid signer = D.revokeLoop signer (D.msgRows (storedMessages D st.db fid)) := by
    rw [← scan_stored H h.committed hf hset]; rfl
  rw [e]
  exact revokeLoop_spec H signer _ L st.pend h.holds (ofSigner_live H h hs) (stored_nodup H h.committed hf)

end StoreDef

open StoreDef
variable {U : Msg → Prop} {channelOf : Bytes → Option Bytes} {ctx : Nat → MergeCtx}

theorem kind_set (kind : StoreKind) : (kind.store channelOf).set ≠ 255 ∧ (kind.store channelOf).set.toNat ≤ 85 := by
  cases kind <;> constructor <;> simp [StoreKind.store, castStore, reactionStore, linkStore, verificationStore, userDataStore, lendStore]

/-- The invariant of a kind's store. -/
def KindInv (kind : StoreKind) (channelOf : Bytes → Option Bytes) (ctx : Nat → MergeCtx) (U : Msg → Prop)
    (L0 L : List Msg) (st : StoreState) : Prop :=
  SafeInv (kind.store channelOf) (okIn kind U) ctx L0 L st

theorem kind_step (kind : StoreKind) (hch : ChannelNaming channelOf) (hU : HashesIdentify U) {L0 L : List Msg}
    {st : StoreState} (h : KindInv kind channelOf ctx U L0 L st) {o : StoreOp} (ho : kind.Proper channelOf U st o) :
    ∃ L0' L', KindInv kind channelOf ctx U L0' L' (st.exec (kind.store channelOf) ctx o) := by
  have H := kind_lawful (channelOf := channelOf) kind hch hU
  have hc := kind_compactOut (channelOf := channelOf) kind hU
  have hset := (kind_set (channelOf := channelOf) kind).1
  cases o with
  | merge m =>
    have hm : okIn kind U m := ho
    rcases merge_spec H h.holds hm (CompactFree.of_blank hc h.blank hm) with
      ⟨e, hl, _, hr⟩ | ⟨old, s', hl, hr, hh, hf⟩
    · refine ⟨L0, L, ?_⟩
      have : st.exec (kind.store channelOf) ctx (.merge m) = st := by
        simp only [StoreState.exec, StoreState.after, hr]
      rw [this]; exact h
    · have : st.exec (kind.store channelOf) ctx (.merge m) = { st with pend := s' } := by
        simp only [StoreState.exec, StoreState.after]
        rcases hr with hr | hr <;> rw [hr]
      rw [this]; exact ⟨L0, _, safe_pend h hh hf⟩
  | force m =>
    obtain ⟨hv, hu, hx⟩ := ho
    have hm : okIn kind U m := ⟨hv, hu⟩
    rcases force_spec (ctx := ctx) H h.holds hm (fun x hxL => hx x ((h.has_iff H x).2 hxL)) with
      ⟨_, hr⟩ | ⟨old, s', hr, _, hh, hf⟩
    · refine ⟨L0, L, ?_⟩
      have : st.exec (kind.store channelOf) ctx (.force m) = st := by
        simp only [StoreState.exec, StoreState.after, hr]
      rw [this]; exact h
    · have : st.exec (kind.store channelOf) ctx (.force m) = { st with pend := s' } := by
        simp only [StoreState.exec, StoreState.after]
        rcases hr with hr | hr <;> rw [hr]
      rw [this]; exact ⟨L0, _, safe_pend h hh hf⟩
  | revokeAdd item =>
    have hm : okIn kind U item := ho
    have h0 : item.fid ≠ 0 := by have := hm.1.1; omega
    rcases getAdd_eq (t := st.pend.txn) H h.holds hm h0 with ⟨x, hx, _, _, hg⟩ | ⟨_, hg⟩
    · obtain ⟨s', hr, hh, hf⟩ := revoke_spec H h.holds hx
      have : st.exec (kind.store channelOf) ctx (.revokeAdd item) = { st with pend := s' } := by
        simp only [StoreState.exec, StoreState.after, hg]
        rcases hr with hr | hr <;> rw [hr]
      rw [this]; exact ⟨L0, _, safe_pend h hh hf⟩
    · refine ⟨L0, L, ?_⟩
      have : st.exec (kind.store channelOf) ctx (.revokeAdd item) = st := by
        simp only [StoreState.exec, hg]
      rw [this]; exact h
  | prune fid cur max =>
    obtain ⟨n, s', _, hh, hf, hr⟩ := prune_spec (cur := cur) (max := max) H hset h.toPairInv ho.1 ho.2
    have : st.exec (kind.store channelOf) ctx (.prune fid cur max) = { st with pend := s' } := by
      simp only [StoreState.exec, StoreState.after]
      rcases hr with ⟨hr, _⟩ | hr <;> rw [hr]
    rw [this]; exact ⟨L0, _, safe_pend h hh hf⟩
  | revokeSigner fid signer =>
    obtain ⟨es, s', hr, hh, hf, _⟩ := revokeSigner_spec (signer := signer) H hset h.toPairInv ho.1 ho.2
    have : st.exec (kind.store channelOf) ctx (.revokeSigner fid signer) = { st with pend := s' } := by
      simp only [StoreState.exec, StoreState.after, hr]
    rw [this]; exact ⟨L0, _, safe_pend h hh hf⟩
  | commit =>
    refine ⟨L, L, ⟨?_, ?_⟩, ?_, ?_⟩
    · exact h.holds.congr (fun k _ => by
        exact view_commit (D := kind.store channelOf) (ctx := ctx) st k)
    · exact h.holds.congr (fun k _ => view_commit st k)
    · intro k hk he
      exact (view_commit (D := kind.store channelOf) (ctx := ctx) st k).trans (h.blank k hk he)
    · intro k hk he
      exact (view_commit (D := kind.store channelOf) (ctx := ctx) st k).trans (h.blank k hk he)
  | drop => exact ⟨L0, L0, ⟨h.committed, h.committed⟩, h.blank0, h.blank0⟩
  | block n => exact ⟨L0, L, ⟨h.committed, h.holds⟩, h.blank0, h.blank⟩

theorem kind_init (kind : StoreKind) : KindInv kind channelOf ctx U [] [] {} :=
  ⟨⟨holds_empty, holds_empty⟩, fun k _ _ => by simp [viewOf, getFromDbOrTxn], fun k _ _ => by
    simp [StoreState.view, getFromDbOrTxn]⟩

theorem kind_run (kind : StoreKind) (hch : ChannelNaming channelOf) (hU : HashesIdentify U) (ops : List StoreOp) :
    ∀ {L0 L : List Msg} {st : StoreState}, KindInv kind channelOf ctx U L0 L st → kind.ProperRun channelOf ctx U st ops →
    ∃ L0' L', KindInv kind channelOf ctx U L0' L' (st.run (kind.store channelOf) ctx ops) := by
  induction ops with
  | nil => intro L0 L st h _; exact ⟨L0, L, h⟩
  | cons o ops ih =>
    intro L0 L st h ho
    obtain ⟨L0', L', h'⟩ := kind_step kind hch hU h ho.1
    exact ih h' ho.2

end Verif
