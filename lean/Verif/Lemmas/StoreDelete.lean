import Verif.Lemmas.StoreKinds
import Verif.Lemmas.Scan
/-! Pruning, revoking and forced merges, as operations on the live messages. -/
namespace Verif
namespace StoreDef
variable {D : StoreDef} {ok : Msg → Prop} {ctx : Nat → MergeCtx}

theorem filter_congr_ak {L : List Msg} (hu : L.Pairwise (fun a b => D.ak a ≠ D.ak b)) {m : Msg} (hm : m ∈ L) :
    L.filter (fun x => D.ak x ≠ D.ak m) = L.filter (fun x => x ≠ m) := by
  apply List.filter_congr
  intro x hx
  simp only [ne_eq, decide_not, Bool.not_eq_eq_eq_not, Bool.not_not, decide_eq_decide]
  exact ⟨fun e => unique_of_pairwise hu hx hm e, fun e => by rw [e]⟩

/-- Deleting a live message and recording it. -/
theorem deleteLive (H : D.Lawful ok) {db : Db SVal} {L : List Msg} {s : SSt}
    (h : D.Holds ok ctx L (viewOf db s.txn)) {m : Msg} (hm : m ∈ L) {x : SM Unit}
    (hx : Stages x (dels (D.delKeys m)) ()) (e : StoreEvent) :
    ∃ s', ((x >>= fun _ => SM.event e) s = (.ok e, s') ∨
        (x >>= fun _ => SM.event e) s = (.error .invalidParameter, s')) ∧
      D.Holds ok ctx (L.filter (fun x => x ≠ m)) (viewOf db s'.txn) ∧
      Frame D ok (viewOf db s.txn) (viewOf db s'.txn) := by
  have hmo := h.valid m hm
  let t := stageAll s.txn (dels (D.delKeys m))
  have hv : ∀ k, viewOf db t k = if k ∈ D.delKeys m then none else viewOf db s.txn k := fun k => view_dels _ _ _ _
  have hfin : D.Holds ok ctx (L.filter (fun x => x ≠ m)) (viewOf db t) := by
    rw [← filter_congr_ak h.items hm]
    exact h.delete H hm (fun k _ => hv k)
  have hframe : Frame D ok (viewOf db s.txn) (viewOf db t) := by
    intro k hk _
    rw [hv, if_neg]
    intro hd
    refine hk ?_
    rw [mem_delKeys] at hd
    rcases hd with e | ⟨_, e | e⟩ | ⟨a, e⟩
    · rw [e]; exact Space.prim m
    · rw [e]; exact Space.ak hmo
    · exact Space.aux hmo e
    · rw [e]; exact Space.rk hmo (H.remove_of_not_add hmo a).2
  rw [SM.bind_ok (hx s)]
  rcases event_cases e { s with txn := t } with ⟨id, g, he⟩ | ⟨g, he⟩
  · refine ⟨_, .inl he, ?_, ?_⟩
    · exact hfin.congr (fun k hk => view_putEvent _ _ _ _ _ (H.event_free hk))
    · exact hframe.trans (fun k _ he => view_putEvent _ _ _ _ _ he)
  · exact ⟨_, .inr he, hfin, hframe⟩

theorem revoke_spec (H : D.Lawful ok) {db : Db SVal} {L : List Msg} {s : SSt}
    (h : D.Holds ok ctx L (viewOf db s.txn)) {m : Msg} (hm : m ∈ L) :
    ∃ s', (D.revoke m s = (.ok (.revoke m), s') ∨ D.revoke m s = (.error .invalidParameter, s')) ∧
      D.Holds ok ctx (L.filter (fun x => x ≠ m)) (viewOf db s'.txn) ∧
      Frame D ok (viewOf db s.txn) (viewOf db s'.txn) := by
  have hmo := h.valid m hm
  have hst : Stages (D.revokeDelete (tsh m) m) (dels (D.delKeys m)) () := by
    unfold revokeDelete
    rw [if_neg (by simp [H.notCompact hmo])]
    rcases H.kind hmo with ⟨ha, hr⟩ | ⟨ha, hr⟩
    · rw [if_pos ha]; exact deleteAdd_stages H hmo ha
    · rw [if_neg (by simp [ha]), if_pos hr]; exact deleteRemove_stages H hmo ha
  have hr : D.revoke m s = (D.revokeDelete (tsh m) m >>= fun _ => SM.event (.revoke m)) s := by
    unfold revoke
    rw [SM.bind_ok (SM.lift_ok (makeTsHash_ok (H.hash hmo)) s)]
  rw [hr]
  exact deleteLive H h hm hst _

theorem pruneMessage_spec (H : D.Lawful ok) {db : Db SVal} {L : List Msg} {s : SSt}
    (h : D.Holds ok ctx L (viewOf db s.txn)) {m : Msg} (hm : m ∈ L) :
    ∃ s', (D.pruneMessage m s = (.ok (some (.prune m)), s') ∨ D.pruneMessage m s = (.error .invalidParameter, s')) ∧
      D.Holds ok ctx (L.filter (fun x => x ≠ m)) (viewOf db s'.txn) ∧
      Frame D ok (viewOf db s.txn) (viewOf db s'.txn) := by
  have hmo := h.valid m hm
  have hst : Stages (D.pruneDelete m) (dels (D.delKeys m)) () := by
    unfold pruneDelete
    rcases H.kind hmo with ⟨ha, hr⟩ | ⟨ha, hr⟩
    · rw [if_pos ha]
      exact Stages.bind (Stages.lift (makeTsHash_ok (H.hash hmo))) (deleteAdd_stages H hmo ha)
    · rw [if_neg (by simp [ha]), if_pos hr]; exact deleteRemove_stages H hmo ha
  obtain ⟨s', h1, h2, h3⟩ := deleteLive H h hm hst (.prune m)
  refine ⟨s', ?_, h2, h3⟩
  unfold pruneMessage
  rw [if_neg (by simp [H.notCompact hmo])]
  rw [SM.bind_ok (hst s)] at h1 ⊢
  rcases h1 with h1 | h1
  · left; rw [SM.bind_ok h1]; rfl
  · right; rw [SM.bind_error h1]

/-- The rows of some messages. -/
def msgRows (D : StoreDef) (ms : List Msg) : List (Bytes × SVal) := ms.map (fun m => (D.prim m, .msg m))

theorem filter_all (L : List Msg) {p : Msg → Bool} (h : ∀ x, p x = true) : L.filter p = L :=
  List.filter_eq_self.2 (fun x _ => h x)

theorem filter_take_succ (L ms : List Msg) (m : Msg) (n : Nat) (hn : m ∉ ms) :
    (L.filter (fun x => x ≠ m)).filter (fun x => x ∉ ms.take n) = L.filter (fun x => x ∉ (m :: ms).take (n + 1)) := by
  rw [List.filter_filter]
  apply List.filter_congr
  intro x _
  by_cases h : x = m <;> simp [h]

theorem pruneLoop_spec (H : D.Lawful ok) {db : Db SVal} (max : Nat) (ms : List Msg) :
    ∀ (count : Nat) (L : List Msg) (s : SSt), D.Holds ok ctx L (viewOf db s.txn) → (∀ m ∈ ms.take (count - max), m ∈ L) → ms.Nodup →
    ∃ n s', n ≤ min ms.length (count - max) ∧
      D.Holds ok ctx (L.filter (fun x => x ∉ ms.take n)) (viewOf db s'.txn) ∧
      Frame D ok (viewOf db s.txn) (viewOf db s'.txn) ∧
      ((D.pruneLoop max (msgRows D ms) count s = (.ok ((ms.take n).map .prune), s') ∧
          n = min ms.length (count - max)) ∨
        D.pruneLoop max (msgRows D ms) count s = (.error .invalidParameter, s')) := by
  induction ms with
  | nil =>
    intro count L s h _ _
    refine ⟨0, s, by simp, ?_, Frame.refl _, .inl ⟨rfl, by simp⟩⟩
    rwa [filter_all L (by simp)]
  | cons m ms ih =>
    intro count L s h hsub hnd
    obtain ⟨hnm, hnd'⟩ := List.nodup_cons.1 hnd
    have hrows : msgRows D (m :: ms) = (D.prim m, .msg m) :: msgRows D ms := rfl
    rw [hrows]
    unfold pruneLoop
    by_cases hc : count ≤ max
    · rw [if_pos hc]
      refine ⟨0, s, by simp, ?_, Frame.refl _, .inl ⟨rfl, by simp; omega⟩⟩
      rwa [filter_all L (by simp)]
    · rw [if_neg hc]
      simp only [SVal.decodeMsg]
      obtain ⟨j, hj⟩ : ∃ j, count - max = j + 1 := ⟨count - max - 1, by omega⟩
      rw [hj, List.take_succ_cons] at hsub
      have hm := hsub m List.mem_cons_self
      obtain ⟨s1, h1, h2, h3⟩ := pruneMessage_spec H h hm
      have hsub' : ∀ x ∈ ms.take (count - 1 - max), x ∈ L.filter (fun x => x ≠ m) := by
        rw [show count - 1 - max = j by omega]
        intro x hx
        refine List.mem_filter.2 ⟨hsub x (List.mem_cons_of_mem _ hx), ?_⟩
        simp only [ne_eq, decide_not, Bool.not_eq_eq_eq_not, Bool.not_true, decide_eq_false_iff_not]
        intro e; exact hnm (e ▸ List.mem_of_mem_take hx)
      rcases h1 with h1 | h1
      · obtain ⟨n, s', hn, hh, hf, hr⟩ := ih (count - 1) _ s1 h2 hsub' hnd'
        refine ⟨n + 1, s', by simp; omega, ?_, h3.trans hf, ?_⟩
        · rw [← filter_take_succ L ms m n hnm]; exact hh
        · rw [SM.bind_ok h1]
          simp only
          rcases hr with ⟨hr, hn'⟩ | hr
          · left
            rw [SM.bind_ok hr]
            exact ⟨rfl, by simp; omega⟩
          · right; rw [SM.bind_error hr]
      · refine ⟨1, s1, by simp; omega, ?_, h3, .inr ?_⟩
        · have := filter_take_succ L ms m 0 hnm
          rw [← this, filter_all _ (by simp)]; exact h2
        · rw [SM.bind_error h1]

theorem revokeLoop_hit {signer k : Bytes} {m : Msg} {rest : List (Bytes × SVal)} {s : SSt}
    (h : bytesCompare m.signer signer = 0) :
    D.revokeLoop signer ((k, .msg m) :: rest) s = match D.revoke m s with
      | (.ok e, s') => (D.revokeLoop signer rest >>= fun es => pure (e :: es)) s'
      | (.error _, s') => D.revokeLoop signer rest s' := by
  rw [revokeLoop]; simp only [SVal.decodeMsg]
  exact congrFun (if_pos h) s

theorem revokeLoop_miss {signer k : Bytes} {m : Msg} {rest : List (Bytes × SVal)}
    (h : bytesCompare m.signer signer ≠ 0) :
    D.revokeLoop signer ((k, .msg m) :: rest) = D.revokeLoop signer rest := by
  rw [revokeLoop]; simp only [SVal.decodeMsg]; exact if_neg h

theorem revokeLoop_spec (H : D.Lawful ok) {db : Db SVal} (signer : Bytes) (ms : List Msg) :
    ∀ (L : List Msg) (s : SSt), D.Holds ok ctx L (viewOf db s.txn) → (∀ m ∈ ms, m.signer = signer → m ∈ L) → ms.Nodup →
    ∃ es s', D.revokeLoop signer (msgRows D ms) s = (.ok es, s') ∧
      D.Holds ok ctx (L.filter (fun x => ¬ (x ∈ ms ∧ x.signer = signer))) (viewOf db s'.txn) ∧
      Frame D ok (viewOf db s.txn) (viewOf db s'.txn) ∧
      (∀ e ∈ es, ∃ m ∈ ms, m.signer = signer ∧ e = .revoke m) := by
  induction ms with
  | nil =>
    intro L s h _ _
    exact ⟨[], s, rfl, by rwa [filter_all L (by simp)], Frame.refl _, by simp⟩
  | cons m ms ih =>
    intro L s h hsub hnd
    obtain ⟨hnm, hnd'⟩ := List.nodup_cons.1 hnd
    have hrows : msgRows D (m :: ms) = (D.prim m, .msg m) :: msgRows D ms := rfl
    rw [hrows]
    have hcmp : bytesCompare m.signer signer = 0 ↔ m.signer = signer := by
      rcases bytesCompare_cases m.signer signer with ⟨h, h'⟩ | ⟨h, h'⟩ | ⟨h, h'⟩
      · constructor
        · intro e; omega
        · intro e; rw [e, Bytes.blt_irrefl] at h'; cases h'
      · exact ⟨fun _ => h', fun _ => h⟩
      · constructor
        · intro e; omega
        · intro e; rw [e, Bytes.blt_irrefl] at h'; cases h'
    by_cases hs : m.signer = signer
    · rw [revokeLoop_hit (hcmp.2 hs)]
      have hm := hsub m List.mem_cons_self hs
      obtain ⟨s1, h1, h2, h3⟩ := revoke_spec H h hm
      have hsub' : ∀ x ∈ ms, x.signer = signer → x ∈ L.filter (fun x => x ≠ m) := by
        intro x hx hxs
        refine List.mem_filter.2 ⟨hsub x (List.mem_cons_of_mem _ hx) hxs, ?_⟩
        simp only [ne_eq, decide_not, Bool.not_eq_eq_eq_not, Bool.not_true, decide_eq_false_iff_not]
        intro e; exact hnm (e ▸ hx)
      obtain ⟨es, s', hr, hh, hf, hes⟩ := ih _ s1 h2 hsub' hnd'
      have hL : (L.filter (fun x => x ≠ m)).filter (fun x => ¬ (x ∈ ms ∧ x.signer = signer))
          = L.filter (fun x => ¬ (x ∈ m :: ms ∧ x.signer = signer)) := by
        rw [List.filter_filter]
        apply List.filter_congr
        intro x _
        by_cases e : x = m <;> simp [e, hs, hnm]
      rw [hL] at hh
      rcases h1 with h1 | h1
      · refine ⟨.revoke m :: es, s', ?_, hh, h3.trans hf, ?_⟩
        · simp only [h1]
          rw [SM.bind_ok hr]; rfl
        · intro e he
          rcases List.mem_cons.1 he with rfl | he
          · exact ⟨m, List.mem_cons_self, hs, rfl⟩
          · obtain ⟨x, hx, h⟩ := hes e he
            exact ⟨x, List.mem_cons_of_mem _ hx, h⟩
      · refine ⟨es, s', ?_, hh, h3.trans hf, ?_⟩
        · simp only [h1]; exact hr
        · intro e he
          obtain ⟨x, hx, h⟩ := hes e he
          exact ⟨x, List.mem_cons_of_mem _ hx, h⟩
    · rw [revokeLoop_miss (fun e => hs (hcmp.1 e))]
      obtain ⟨es, s', hr, hh, hf, hes⟩ := ih L s h (fun x hx => hsub x (List.mem_cons_of_mem _ hx)) hnd'
      refine ⟨es, s', hr, ?_, hf, ?_⟩
      · have hL : L.filter (fun x => ¬ (x ∈ ms ∧ x.signer = signer))
            = L.filter (fun x => ¬ (x ∈ m :: ms ∧ x.signer = signer)) := by
          apply List.filter_congr
          intro x _
          by_cases e : x = m <;> simp [e, hs]
        rw [← hL]; exact hh
      · intro e he
        obtain ⟨x, hx, h⟩ := hes e he
        exact ⟨x, List.mem_cons_of_mem _ hx, h⟩

/-! ### Committed messages -/

theorem prefixOf_fid {fid : Nat} (hf : fid < 2 ^ 32) {m : Msg} (hm : m.fid < 2 ^ 32)
    (h : D.prefixOf fid <+: D.prim m) : m.fid = fid := by
  obtain ⟨t, ht⟩ := h
  simp only [prefixOf, prim, makeMessagePrimaryKey, makeUserKey, makeFidKey, List.cons_append, List.append_assoc,
    List.cons.injEq, true_and] at ht
  obtain ⟨h1, _⟩ := List.append_inj ht (by simp)
  exact (be_inj (by omega) (by omega) h1).symm

/-- The committed rows of a user are its committed messages. -/
theorem rows_committed (H : D.Lawful ok) {db : Db SVal} {L : List Msg}
    (h : D.Holds ok ctx L (viewOf db OMap.empty)) {fid : Nat} (hf : fid < 2 ^ 32) (k : Bytes) (v : SVal) :
    (k, v) ∈ rowsStartingWith db (D.prefixOf fid) ↔ ∃ m ∈ L, m.fid = fid ∧ k = D.prim m ∧ v = .msg m := by
  have hv : viewOf db OMap.empty k = db.get k := by simp [viewOf, getFromDbOrTxn]
  unfold rowsStartingWith
  rw [List.mem_filter, ← OMap.get_eq_some_iff, ← hv]
  simp only [List.isPrefixOf_iff_prefix]
  constructor
  · rintro ⟨hg, hp⟩
    obtain ⟨m, hm, hr⟩ := (h.rows k (.inl ⟨fid, hp⟩) v).1 hg
    have hmo := h.valid m hm
    rcases mem_rowsOf hr with e | e | e | e
    · refine ⟨m, hm, prefixOf_fid hf (H.fid hmo) (e.1 ▸ hp), e⟩
    · exact absurd (e.2.1 ▸ hp) (H.akRegion hmo fid)
    · exact absurd (e.2.1 ▸ hp) (H.rkRegion (H.remove_of_not_add hmo e.1).2 hmo fid)
    · exact absurd hp (H.auxRegion hmo k e.2.1 fid)
  · rintro ⟨m, hm, rfl, rfl, rfl⟩
    exact ⟨h.get_prim H hm, prefixOf_prim m⟩

theorem rowsStartingWith_sorted (db : Db SVal) (p : Bytes) : OMapL.Sorted (rowsStartingWith db p) :=
  List.Pairwise.filter _ db.sorted

theorem stored_rows (H : D.Lawful ok) {db : Db SVal} {L : List Msg}
    (h : D.Holds ok ctx L (viewOf db OMap.empty)) {fid : Nat} (hf : fid < 2 ^ 32) :
    rowsStartingWith db (D.prefixOf fid) = msgRows D (storedMessages D db fid) := by
  have key : ∀ rows : List (Bytes × SVal),
      (∀ k v, (k, v) ∈ rows → ∃ m ∈ L, m.fid = fid ∧ k = D.prim m ∧ v = .msg m) →
      rows = msgRows D (rows.filterMap (fun r => r.2.decodeMsg)) := by
    intro rows
    induction rows with
    | nil => intro _; rfl
    | cons r rows ih =>
      intro hr
      obtain ⟨k, v⟩ := r
      obtain ⟨m, hm, _, rfl, rfl⟩ := hr k v List.mem_cons_self
      have := ih (fun k v hk => hr k v (List.mem_cons_of_mem _ hk))
      simp only [List.filterMap_cons, SVal.decodeMsg, msgRows, List.map_cons, List.cons.injEq, true_and]
      exact this
  exact key _ (fun k v hk => (rows_committed H h hf k v).1 hk)

theorem mem_stored (H : D.Lawful ok) {db : Db SVal} {L : List Msg}
    (h : D.Holds ok ctx L (viewOf db OMap.empty)) {fid : Nat} (hf : fid < 2 ^ 32) (m : Msg) :
    m ∈ storedMessages D db fid ↔ m ∈ L ∧ m.fid = fid := by
  have e := stored_rows H h hf
  constructor
  · intro hm
    have : (D.prim m, SVal.msg m) ∈ rowsStartingWith db (D.prefixOf fid) := by
      rw [e]; exact List.mem_map.2 ⟨m, hm, rfl⟩
    obtain ⟨x, hx, hf', _, ev⟩ := (rows_committed H h hf _ _).1 this
    cases ev
    exact ⟨hx, hf'⟩
  · rintro ⟨hm, hf'⟩
    have : (D.prim m, SVal.msg m) ∈ rowsStartingWith db (D.prefixOf fid) :=
      (rows_committed H h hf _ _).2 ⟨m, hm, hf', rfl, rfl⟩
    exact List.mem_filterMap.2 ⟨_, this, rfl⟩

theorem stored_sorted (H : D.Lawful ok) {db : Db SVal} {L : List Msg}
    (h : D.Holds ok ctx L (viewOf db OMap.empty)) {fid : Nat} (hf : fid < 2 ^ 32) :
    (storedMessages D db fid).Pairwise (fun a b => Bytes.blt (D.prim a) (D.prim b) = true) := by
  have e := stored_rows H h hf
  have hs := rowsStartingWith_sorted db (D.prefixOf fid)
  rw [e] at hs
  unfold OMapL.Sorted msgRows at hs
  rw [List.pairwise_map] at hs
  exact hs

theorem stored_nodup (H : D.Lawful ok) {db : Db SVal} {L : List Msg}
    (h : D.Holds ok ctx L (viewOf db OMap.empty)) {fid : Nat} (hf : fid < 2 ^ 32) :
    (storedMessages D db fid).Nodup := by
  refine (stored_sorted H h hf).imp ?_
  intro a b hab e
  rw [e, Bytes.blt_irrefl] at hab; cases hab

theorem scan_stored (H : D.Lawful ok) {db : Db SVal} {L : List Msg}
    (h : D.Holds ok ctx L (viewOf db OMap.empty)) {fid : Nat} (hf : fid < 2 ^ 32) (hset : D.set ≠ 255) :
    scanRows db (iterBounds (some (makeMessagePrimaryKey fid D.set none))
        (some (incrementVec (makeMessagePrimaryKey fid D.set none))) {}).1
      (iterBounds (some (makeMessagePrimaryKey fid D.set none))
        (some (incrementVec (makeMessagePrimaryKey fid D.set none))) {}).2 false
      = msgRows D (storedMessages D db fid) := by
  have e : makeMessagePrimaryKey fid D.set none = makeUserKey fid ++ [D.set] := rfl
  have hb : iterBounds (some (makeMessagePrimaryKey fid D.set none))
      (some (incrementVec (makeMessagePrimaryKey fid D.set none))) {} =
      (makeMessagePrimaryKey fid D.set none, incrementVec (makeMessagePrimaryKey fid D.set none)) := rfl
  rw [hb]
  simp only
  rw [scan_prefix_eq db _ ⟨D.set, by rw [e]; simp, hset⟩ (by rw [e]; exact noShortKey_of_last db _ _ hset)]
  simp only [inDirection]
  exact stored_rows H h hf

end StoreDef
end Verif
