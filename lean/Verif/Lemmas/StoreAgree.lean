import Verif.Lemmas.StoreSafe
/-! A store's calls depend on the committed rows they read only. -/
namespace Verif
open StoreDef

/-- Two databases agree on some keys. -/
def AgreeOn (P : Bytes → Prop) (db db' : Db SVal) : Prop := ∀ k, P k → db.get k = db'.get k

/-- A store reads rows at some keys only. -/
structure ReadsIn (D : StoreDef) (P : Bytes → Prop) : Prop where
  compact : D.compactSupported = false
  add : ∀ m k, D.addKey m = .ok k → P k
  rem : ∀ m k, D.removeKey m = .ok k → P k
  prim : ∀ f th, P (makeMessagePrimaryKey f D.set th)
  scan : ∀ f k, let p := makeMessagePrimaryKey f D.set none
    Bytes.blt k p = false → Bytes.blt k (incrementVec p) = true → P k

namespace AgreeOn
variable {D : StoreDef} {P : Bytes → Prop} {db db' : Db SVal}

theorem scanRows_congr {lo hi : Bytes} {rev : Bool}
    (h : ∀ k, Bytes.blt k lo = false → Bytes.blt k hi = true → db.get k = db'.get k) :
    scanRows db lo hi rev = scanRows db' lo hi rev := by
  have : db.rows.filter (fun r => !Bytes.blt r.1 lo && Bytes.blt r.1 hi) =
      db'.rows.filter (fun r => !Bytes.blt r.1 lo && Bytes.blt r.1 hi) := by
    have s1 := List.Pairwise.filter (fun r : Bytes × SVal => !Bytes.blt r.1 lo && Bytes.blt r.1 hi) db.sorted
    have s2 := List.Pairwise.filter (fun r : Bytes × SVal => !Bytes.blt r.1 lo && Bytes.blt r.1 hi) db'.sorted
    apply OMapL.ext s1 s2
    intro k
    apply Option.ext
    intro v
    rw [OMapL.get_eq_some_iff s1, OMapL.get_eq_some_iff s2, List.mem_filter, List.mem_filter]
    simp only [Bool.and_eq_true, Bool.not_eq_true', ← OMap.get_eq_some_iff]
    constructor
    · rintro ⟨a, b, c⟩; exact ⟨(h k b c) ▸ a, b, c⟩
    · rintro ⟨a, b, c⟩; exact ⟨(h k b c).symm ▸ a, b, c⟩
  unfold scanRows
  rw [this]

variable (h : AgreeOn P db db') (R : ReadsIn D P)
include h

theorem read {k : Bytes} (hk : P k) : SM.read db k = SM.read db' k := by
  funext s
  simp only [SM.read, getFromDbOrTxn, h k hk]

include R

theorem getMessage (f : Nat) (th : Bytes) : D.getMessage db f th = D.getMessage db' f th := by
  unfold StoreDef.getMessage
  rw [h.read (R.prim f (some th))]

theorem conflictAt {ty : MessageType} {k : Bytes} (hk : P k) (m : Msg) (th : Bytes) :
    D.conflictAt db ty k m th = D.conflictAt db' ty k m th := by
  unfold StoreDef.conflictAt
  simp only [h.read hk, h.getMessage R]

theorem resolveSelector {k : Bytes} (hk : P k) (f : Nat) : D.resolveSelector db f k = D.resolveSelector db' f k := by
  unfold StoreDef.resolveSelector
  simp only [h.read hk, h.getMessage R]

omit h R in
theorem lift_congr {α : Type} {r : Except HubErr Bytes} {f g : Bytes → SM α} (hfg : ∀ k, r = .ok k → f k = g k) :
    (SM.lift r >>= f) = (SM.lift r >>= g) := by
  cases r with
  | error e => rfl
  | ok k => funext s; show f k s = g k s; rw [hfg k rfl]

theorem removeConflicts (m : Msg) (th : Bytes) : D.removeConflicts db m th = D.removeConflicts db' m th := by
  unfold StoreDef.removeConflicts
  split
  · exact lift_congr (fun k hk => h.conflictAt R (R.rem m k hk) m th)
  · rfl

theorem getMergeConflicts (m : Msg) (th : Bytes) : D.getMergeConflicts db m th = D.getMergeConflicts db' m th := by
  unfold StoreDef.getMergeConflicts
  rw [h.removeConflicts R]
  congr 1; funext r
  exact lift_congr (fun k hk => by rw [h.conflictAt R (R.add m k hk) m th])

theorem storedCompact (m : Msg) : D.storedCompact db m = D.storedCompact db' m := by
  unfold StoreDef.storedCompact
  simp [R.compact]

theorem merge (c : MergeCtx) (m : Msg) : D.merge db c m = D.merge db' c m := by
  have hc : D.isCompact m = false := by simp [StoreDef.isCompact, R.compact]
  unfold StoreDef.merge
  simp only [hc, Bool.false_eq_true, if_false]
  have h1 : ∀ th, D.mergeAdd db c th m = D.mergeAdd db' c th m := by
    intro th; unfold StoreDef.mergeAdd; rw [h.storedCompact R, h.getMergeConflicts R]
  have h2 : ∀ th, D.mergeRemove db th m = D.mergeRemove db' th m := by
    intro th; unfold StoreDef.mergeRemove; rw [h.storedCompact R, h.getMergeConflicts R]
  simp only [h1, h2]

theorem existingConflicts (m : Msg) : D.existingConflicts db m = D.existingConflicts db' m := by
  have e : D.existingRemove db m = D.existingRemove db' m := by
    unfold StoreDef.existingRemove
    split
    · exact lift_congr (fun k hk => h.resolveSelector R (R.rem m k hk) _)
    · rfl
  unfold StoreDef.existingConflicts
  rw [e]
  congr 1; funext r
  exact lift_congr (fun k hk => by rw [h.resolveSelector R (R.add m k hk)])

theorem mergeForce (c : MergeCtx) (m : Msg) : D.mergeForce db c m = D.mergeForce db' c m := by
  unfold StoreDef.mergeForce
  simp only [h.existingConflicts R]

theorem scan (f : Nat) :
    scanRows db (makeMessagePrimaryKey f D.set none) (incrementVec (makeMessagePrimaryKey f D.set none)) false =
    scanRows db' (makeMessagePrimaryKey f D.set none) (incrementVec (makeMessagePrimaryKey f D.set none)) false :=
  scanRows_congr (fun k a b => h k (R.scan f k a b))

theorem pruneMessages (f cur max : Nat) : D.pruneMessages db f cur max = D.pruneMessages db' f cur max := by
  unfold StoreDef.pruneMessages
  have := h.scan R f
  simp only [iterBounds] at this ⊢
  simp only [Bool.false_eq_true, if_false] at this ⊢
  rw [this]

theorem revokeBySigner (f : Nat) (sg : Bytes) : D.revokeBySigner db f sg = D.revokeBySigner db' f sg := by
  unfold StoreDef.revokeBySigner
  have := h.scan R f
  simp only [iterBounds] at this ⊢
  simp only [Bool.false_eq_true, if_false] at this ⊢
  rw [this]

theorem getAdd (t : Txn SVal) (item : Msg) : D.getAdd db t item = D.getAdd db' t item := by
  unfold StoreDef.getAdd
  split
  · rfl
  · refine congrArg Prod.fst (congrFun ?_ _)
    exact lift_congr (fun k hk => by simp only [h.read (R.add item k hk), h.getMessage R])

/-- The batch a call leaves behind is the same on both. -/
theorem exec (ctx : Nat → MergeCtx) (s : SSt) (o : StoreOp) :
    (StoreState.exec D ctx ⟨db, s⟩ o).pend = (StoreState.exec D ctx ⟨db', s⟩ o).pend := by
  cases o with
  | merge m => simp only [StoreState.exec, StoreState.after, h.merge R]
  | force m => simp only [StoreState.exec, StoreState.after, h.mergeForce R]
  | revokeAdd item =>
    simp only [StoreState.exec, h.getAdd R]
    split <;> rfl
  | prune f c m => simp only [StoreState.exec, StoreState.after, h.pruneMessages R]
  | revokeSigner f sg => simp only [StoreState.exec, StoreState.after, h.revokeBySigner R]
  | commit => rfl
  | drop => rfl
  | block n => rfl

end AgreeOn

theorem exec_db (D : StoreDef) (ctx : Nat → MergeCtx) (st : StoreState) (o : StoreOp) :
    (st.exec D ctx o).db = if o = .commit then Db.commit st.db st.pend.txn else st.db := by
  cases o <;> simp only [StoreState.exec, StoreState.after, reduceCtorEq, if_false, if_true]
  split <;> rfl

/-- The keys outside the index of verifications by address. -/
def OffIndex (k : Bytes) : Prop := k.head? ≠ some 14

theorem v_reads : ReadsIn verificationStore OffIndex where
  compact := rfl
  add m k hk := by
    simp only [verificationStore, verificationAddress] at hk
    split at hk <;> cases hk <;> simp [OffIndex, makeUserKey]
  rem m k hk := by
    simp only [verificationStore, verificationAddress] at hk
    split at hk <;> cases hk <;> simp [OffIndex, makeUserKey]
  prim f th := by simp [OffIndex, makeMessagePrimaryKey, makeUserKey]
  scan f k := by
    intro p h1 h2 e
    have hp : p = (3 :: makeFidKey f) ++ [4] := rfl
    rw [hp] at h1 h2
    have := (mem_range_iff_prefix_of_last (q := 3 :: makeFidKey f) (b := 4) (by decide) (k := k)).1 ⟨h1, h2⟩
    obtain ⟨t, rfl⟩ := this
    simp at e
end Verif
