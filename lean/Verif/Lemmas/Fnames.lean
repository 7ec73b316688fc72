import Verif.Spec.Fnames
import Verif.Lemmas.KV
import Verif.Lemmas.Bytes
import Verif.Lemmas.StoreOrder
/-! Fname rows: by-user entries always point at a name of that user. -/
namespace Verif
namespace Fnames

abbrev FView := Bytes → Option FVal
def fview (st : FState) : FView := getFromDbOrTxn st.db st.txn

theorem fview_put (db : Db FVal) (t : Txn FVal) (k : Bytes) (o : Option FVal) (j : Bytes) :
    getFromDbOrTxn db (OMap.put t k o) j = if j = k then o else getFromDbOrTxn db t j := by
  unfold getFromDbOrTxn
  rw [OMap.get_put]
  by_cases h : j = k <;> simp [h]

/-- Who owns what, and the by-user rows, behind a view. -/
structure Rep (V : FView) (own : Bytes → Option FProof) (idx : Nat → Option Bytes) : Prop where
  name : ∀ n, V (fnameKey n) = (own n).map .proof
  user : ∀ f, f < 2 ^ 32 → V (fnameByFidKey f) = (idx f).map (fun n => .key (fnameKey n))

theorem key_ne_event (n : Bytes) (id : Nat) : fnameKey n ≠ eventKey id := by simp [fnameKey, eventKey]
theorem fid_ne_event (f : Nat) (id : Nat) : fnameByFidKey f ≠ eventKey id := by simp [fnameByFidKey, eventKey]
theorem fid_ne_key (f : Nat) (n : Bytes) : fnameByFidKey f ≠ fnameKey n := by simp [fnameByFidKey, fnameKey]
theorem key_inj {a b : Bytes} : fnameKey a = fnameKey b ↔ a = b := by simp [fnameKey]
theorem fid_inj {f g : Nat} (hf : f < 2 ^ 32) (hg : g < 2 ^ 32) : fnameByFidKey f = fnameByFidKey g ↔ f = g := by
  simp only [fnameByFidKey, makeFidKey, List.cons.injEq, true_and]
  exact ⟨fun h => be_inj (by omega) (by omega) h, fun h => by rw [h]⟩

/-- The owners after a merge. -/
def own' (own : Bytes → Option FProof) (p : FProof) : Bytes → Option FProof :=
  match fnameAdmit p (own p.name) with
  | .ok _ => fun n => if n = p.name then some p else own n
  | .error _ => own

/-- The by-user rows after a merge. -/
def idx' (own : Bytes → Option FProof) (idx : Nat → Option Bytes) (p : FProof) : Nat → Option Bytes :=
  match fnameAdmit p (own p.name) with
  | .ok old => fun f => if some f = old then none else if f = p.fid ∧ p.fid ≠ 0 then some p.name else idx f
  | .error _ => idx

theorem Rep.congr {V V' : FView} {own idx} (h : Rep V own idx) (e : ∀ k, (∀ id, k ≠ eventKey id) → V' k = V k) :
    Rep V' own idx :=
  ⟨fun n => by rw [e _ (key_ne_event n)]; exact h.name n, fun f hf => by rw [e _ (fid_ne_event f)]; exact h.user f hf⟩

theorem admit_old {p : FProof} {e : Option FProof} {old : Option Nat} (h : fnameAdmit p e = .ok old) :
    old = e.map (·.fid) := by
  unfold fnameAdmit at h
  split at h
  · split at h
    · cases h
    · split at h
      · cases h
      · cases h; rfl
  · split at h <;> cases h; rfl

theorem merge_rep {st : FState} {own idx} (h : Rep (fview st) own idx) {p : FProof} (hp : p.fid < 2 ^ 32)
    (ho : ∀ n q, own n = some q → q.fid < 2 ^ 32) :
    Rep (fview (mergeFname st p).2) (own' own p) (idx' own idx p) ∧ (mergeFname st p).2.db = st.db := by
  have hg : getFname st.db st.txn p.name = .ok (own p.name) := by
    have := h.name p.name
    unfold getFname
    rw [show getFromDbOrTxn st.db st.txn (fnameKey p.name) = _ from this]
    cases own p.name <;> rfl
  unfold mergeFname own' idx'
  rw [hg]
  simp only
  cases ha : fnameAdmit p (own p.name) with
  | error e => exact ⟨h, rfl⟩
  | ok old =>
    simp only
    have hold := admit_old ha
    have hlt : ∀ f, old = some f → f < 2 ^ 32 := by
      intro f hf
      rw [hold] at hf
      cases hq : own p.name with
      | none => rw [hq] at hf; cases hf
      | some q => rw [hq] at hf; cases hf; exact ho _ _ hq
    let t := if p.fid = 0 then deleteFname st.txn p old else putFname st.txn p old
    have hr : Rep (getFromDbOrTxn st.db t) (fun n => if n = p.name then some p else own n)
        (fun f => if some f = old then none else if f = p.fid ∧ p.fid ≠ 0 then some p.name else idx f) := by
      have hdrop : ∀ (t : Txn FVal) k, getFromDbOrTxn st.db (dropOldOwner t old) k =
          if some k = old.map fnameByFidKey then none else getFromDbOrTxn st.db t k := by
        intro t k
        cases old with
        | none => simp [dropOldOwner]
        | some f => simp only [dropOldOwner, Txn.stageDel, fview_put]; simp
      have hbase : ∀ k, getFromDbOrTxn st.db t k = if some k = old.map fnameByFidKey then none else
          if k = fnameByFidKey p.fid ∧ p.fid ≠ 0 then some (.key (fnameKey p.name)) else
          if k = fnameKey p.name then some (.proof p) else fview st k := by
        intro k
        by_cases h0 : p.fid = 0
        · simp only [t, if_pos h0, deleteFname, hdrop, Txn.stagePut, fview_put, h0]
          simp [fview]
        · simp only [t, if_neg h0, putFname, hdrop, Txn.stagePut, fview_put]
          simp [fview, h0]
      constructor
      · intro n
        rw [hbase, if_neg, if_neg]
        · by_cases hn : n = p.name
          · simp [hn]
          · rw [if_neg (by rw [key_inj]; exact hn), h.name n]; simp [hn]
        · rintro ⟨e, _⟩; exact fid_ne_key _ _ e.symm
        · cases old with
          | none => simp
          | some f => simp only [Option.map_some, Option.some.injEq]; exact fun e => fid_ne_key _ _ e.symm
      · intro f hf
        rw [hbase]
        have e1 : (some (fnameByFidKey f) = old.map fnameByFidKey) ↔ some f = old := by
          cases ho : old with
          | none => simp
          | some g => simp [fid_inj hf (hlt g ho)]
        rw [if_neg (fid_ne_key f p.name), h.user f hf]
        simp only [e1, fid_inj hf hp]
        split
        · rfl
        · split <;> rfl
    have ht : (if p.fid = 0 then deleteFname st.txn p old else putFname st.txn p old) = t := rfl
    rw [ht]
    cases hc : commitEvent st.gen t false (fun id => FVal.event id p (own p.name)) with
    | mk r g =>
      cases r with
      | error e => exact ⟨hr, rfl⟩
      | ok x =>
        obtain ⟨id, t'⟩ := x
        refine ⟨?_, rfl⟩
        simp only
        unfold commitEvent at hc
        split at hc
        · cases hc
        · cases hc
          refine hr.congr (fun k hk => ?_)
          simp only [fview, putEvent, Txn.stagePut, fview_put]
          rw [if_neg (hk _)]

/-- By-user rows point at names of that user. -/
structure Good (own : Bytes → Option FProof) (idx : Nat → Option Bytes) : Prop where
  names : ∀ n q, own n = some q → q.name = n ∧ q.fid < 2 ^ 32
  owned : ∀ f n, idx f = some n → ∃ q, own n = some q ∧ q.fid = f

theorem Good.step {own idx} (h : Good own idx) {p : FProof} (hp : p.fid < 2 ^ 32) :
    Good (own' own p) (idx' own idx p) := by
  unfold own' idx'
  cases ha : fnameAdmit p (own p.name) with
  | error e => exact h
  | ok old =>
    simp only
    have hold := admit_old ha
    constructor
    · intro n q hq
      split at hq
      · cases hq; rename_i e; exact ⟨e.symm, hp⟩
      · exact h.names n q hq
    · intro f n hf
      split at hf
      · cases hf
      · rename_i hne
        split at hf
        · rename_i hc
          cases hf
          exact ⟨p, by simp, hc.1.symm⟩
        · obtain ⟨q, hq, hqf⟩ := h.owned f n hf
          refine ⟨q, ?_, hqf⟩
          rw [if_neg]
          · exact hq
          · intro e; subst e
            rw [hq] at hold
            exact hne (by rw [hold, ← hqf]; rfl)

/-- Both the committed database and what a reader sees are consistent. -/
structure Inv (st : FState) (own0 own : Bytes → Option FProof) (idx0 idx : Nat → Option Bytes) : Prop where
  rep0 : Rep (getFromDbOrTxn st.db OMap.empty) own0 idx0
  good0 : Good own0 idx0
  rep : Rep (fview st) own idx
  good : Good own idx

theorem Inv.init : Inv {} (fun _ => none) (fun _ => none) (fun _ => none) (fun _ => none) := by
  have hr : Rep (getFromDbOrTxn OMap.empty OMap.empty) (fun _ => none) (fun _ => none) :=
    ⟨fun n => rfl, fun f _ => rfl⟩
  have hg : Good (fun _ => none) (fun _ => none) := ⟨fun _ _ h => (by cases h), fun _ _ h => (by cases h)⟩
  exact ⟨hr, hg, hr, hg⟩

theorem view_commit (st : FState) (k : Bytes) : fview (st.exec .commit) k = fview st k := by
  simp only [FState.exec, fview, getFromDbOrTxn]
  rw [Db.get_commit]
  simp only [OMap.get_empty]
  rfl

theorem Inv.commit {st own0 own idx0 idx} (h : Inv st own0 own idx0 idx) : Inv (st.exec .commit) own own idx idx := by
  have hr : Rep (fview (st.exec .commit)) own idx := h.rep.congr (fun k _ => view_commit st k)
  exact ⟨hr, h.good, hr, h.good⟩

theorem Inv.merge {st own0 own idx0 idx} (h : Inv st own0 own idx0 idx) {p : FProof} (hp : p.fid < 2 ^ 32) :
    Inv (st.exec (.merge p)) own0 (own' own p) idx0 (idx' own idx p) := by
  obtain ⟨h1, h2⟩ := merge_rep h.rep hp (fun n q hq => (h.good.names n q hq).2)
  refine ⟨?_, h.good0, h1, h.good.step hp⟩
  show Rep (getFromDbOrTxn (mergeFname st p).2.db OMap.empty) _ _
  rw [h2]; exact h.rep0

theorem Inv.step {st own0 own idx0 idx} (h : Inv st own0 own idx0 idx) (o : FnameOp)
    (ho : ∀ p, o = .merge p → p.fid < 2 ^ 32) : ∃ own0' own' idx0' idx', Inv (st.exec o) own0' own' idx0' idx' := by
  cases o with
  | merge p => exact ⟨_, _, _, _, h.merge (ho p rfl)⟩
  | commit => exact ⟨_, _, _, _, h.commit⟩
  | drop => exact ⟨own0, own0, idx0, idx0, h.rep0, h.good0, h.rep0, h.good0⟩
  | block n => exact ⟨own0, own, idx0, idx, h.rep0, h.good0, h.rep, h.good⟩

theorem Inv.run {st own0 own idx0 idx} (h : Inv st own0 own idx0 idx) (ops : List FnameOp) (ho : FnameOp.Sized ops) :
    ∃ own0' own' idx0' idx', Inv (st.run ops) own0' own' idx0' idx' := by
  induction ops generalizing st own0 own idx0 idx with
  | nil => exact ⟨_, _, _, _, h⟩
  | cons o ops ih =>
    obtain ⟨_, _, _, _, h'⟩ := h.step o (fun p e => ho p (by simp [e]))
    exact ih h' (fun p hp => ho p (List.mem_cons_of_mem _ hp))

theorem getFname_iff {db : Db FVal} {t : Txn FVal} {own idx} (h : Rep (getFromDbOrTxn db t) own idx) (n : Bytes) :
    getFname db t n = .ok (own n) := by
  unfold getFname
  rw [h.name n]
  cases own n <;> rfl

theorem getByFid_iff {db : Db FVal} {own idx} (h : Rep (getFromDbOrTxn db OMap.empty) own idx) {f : Nat}
    (hf : f < 2 ^ 32) : getFnameByFid db f = .ok ((idx f).bind own) := by
  have hd : ∀ k, getFromDbOrTxn db OMap.empty k = db.get k := by
    intro k; simp [getFromDbOrTxn, OMap.get_empty]
  unfold getFnameByFid
  rw [← hd, h.user f hf]
  cases hi : idx f with
  | none => rfl
  | some n =>
    simp only [Option.map_some, Option.bind_some]
    rw [← hd, h.name n]
    cases own n <;> rfl

/-! ### The latest transfer -/

theorem compare_cases (a b : FProof) :
    (fnameCompare a b < 0 ∧ b.later a) ∨ (fnameCompare a b = 0 ∧ ¬ a.later b ∧ ¬ b.later a) ∨
      (fnameCompare a b > 0 ∧ a.later b ∧ ¬ b.later a) := by
  unfold fnameCompare FProof.later
  have irr := Bytes.blt_irrefl
  have asym : ∀ x y, Bytes.blt x y = true → Bytes.blt y x = true → False := fun x y h h' => by
    have := Bytes.blt_trans h h'; simp [irr] at this
  by_cases h1 : a.ts < b.ts
  · left; simp [h1]
  · by_cases h2 : a.ts > b.ts
    · right; right; simp [h2, h1]; omega
    · have e : a.ts = b.ts := by omega
      simp only [h1, h2, if_false]
      rcases bytesCompare_cases a.sig b.sig with ⟨h, h'⟩ | ⟨h, h'⟩ | ⟨h, h'⟩
      · left; rw [h]; exact ⟨by decide, .inr ⟨e, h'⟩⟩
      · right; left; rw [h, e, h']; simp [irr]
      · right; right; rw [h]; refine ⟨by decide, .inr ⟨e.symm, h'⟩, ?_⟩
        rintro (hh | ⟨_, hh⟩)
        · omega
        · exact asym _ _ h' hh

theorem later_trans {a b c : FProof} (h : a.later b) (h' : b.later c) : a.later c := by
  unfold FProof.later at *
  have := @Bytes.blt_trans c.sig b.sig a.sig
  grind

theorem later_of_not {a b c : FProof} (h : a.later b) (h' : ¬ c.later b) : a.later c := by
  unfold FProof.later at *
  rcases Bytes.blt_tri c.sig b.sig with hh | hh | hh
  · have := @Bytes.blt_trans c.sig b.sig a.sig; grind
  · grind
  · grind

/-- The owner is the latest transfer that counts. -/
def Tracks (own : Bytes → Option FProof) (ps : List FProof) : Prop :=
  ∀ n, match own n with
    | none => countingTransfers n ps = []
    | some q => LatestOf (countingTransfers n ps) q

theorem dropWhile_append_single (S : List FProof) (p : FProof) :
    (S ++ [p]).dropWhile (fun p => decide (p.fid = 0)) =
      if S.dropWhile (fun p => decide (p.fid = 0)) = [] then (if p.fid = 0 then [] else [p])
      else S.dropWhile (fun p => decide (p.fid = 0)) ++ [p] := by
  induction S with
  | nil => by_cases h : p.fid = 0 <;> simp [h]
  | cons a S ih =>
    by_cases h : a.fid = 0
    · simp only [List.cons_append, List.dropWhile_cons, h, decide_true, if_true]
      exact ih
    · simp [List.dropWhile_cons, h]

theorem counting_append (n : Bytes) (ps : List FProof) (p : FProof) :
    countingTransfers n (ps ++ [p]) =
      if p.name = n then
        (if countingTransfers n ps = [] then (if p.fid = 0 then [] else [p]) else countingTransfers n ps ++ [p])
      else countingTransfers n ps := by
  unfold countingTransfers
  rw [List.filter_append]
  by_cases h : p.name = n
  · rw [if_pos h]
    have : [p].filter (fun p => decide (p.name = n)) = [p] := by simp [h]
    rw [this, dropWhile_append_single]
  · rw [if_neg h]
    have : [p].filter (fun p => decide (p.name = n)) = [] := by simp [h]
    rw [this, List.append_nil]

theorem LatestOf.ne_nil {S : List FProof} {q : FProof} (h : LatestOf S q) : S ≠ [] := by
  obtain ⟨b, a, rfl, _⟩ := h; simp

theorem Tracks.step {own : Bytes → Option FProof} {ps : List FProof} (h : Tracks own ps) (p : FProof) :
    Tracks (own' own p) (ps ++ [p]) := by
  intro n
  rw [counting_append]
  have hn := h n
  unfold own' fnameAdmit
  by_cases e : p.name = n
  · subst e
    rw [if_pos rfl]
    cases hq : own p.name with
    | none =>
      rw [hq] at hn
      simp only at hn ⊢
      rw [if_pos hn]
      by_cases h0 : p.fid = 0
      · simp [h0, hq]
      · simp only [h0, if_false, if_true]
        exact ⟨[], [], rfl, by simp, by simp⟩
    | some q =>
      rw [hq] at hn
      simp only at hn ⊢
      rw [if_neg (LatestOf.ne_nil hn)]
      obtain ⟨b, a, hS, hb, ha⟩ := hn
      rcases compare_cases q p with ⟨hc, hl⟩ | ⟨hc, hl, hl'⟩ | ⟨hc, hl, hl'⟩
      · have h1 : ¬ fnameCompare q p = 0 := by omega
        have h2 : ¬ fnameCompare q p > 0 := by omega
        simp only [h1, h2, if_false, if_true]
        refine ⟨b ++ q :: a, [], by rw [hS], ?_, by simp⟩
        intro x hx
        rcases List.mem_append.1 hx with hx | hx
        · exact later_trans hl (hb x hx)
        · rcases List.mem_cons.1 hx with rfl | hx
          · exact hl
          · exact later_of_not hl (ha x hx)
      · simp only [hc, if_true, hq]
        refine ⟨b, a ++ [p], by rw [hS]; simp, hb, ?_⟩
        intro x hx
        rcases List.mem_append.1 hx with hx | hx
        · exact ha x hx
        · rw [List.mem_singleton.1 hx]; exact hl'
      · have h1 : ¬ fnameCompare q p = 0 := by omega
        simp only [h1, hc, if_false, if_true, hq]
        refine ⟨b, a ++ [p], by rw [hS]; simp, hb, ?_⟩
        intro x hx
        rcases List.mem_append.1 hx with hx | hx
        · exact ha x hx
        · rw [List.mem_singleton.1 hx]; exact hl'
  · rw [if_neg e]
    have hx : own' own p n = own n := by
      unfold own'
      cases fnameAdmit p (own p.name) with
      | ok _ => simp only; rw [if_neg (fun h => e h.symm)]
      | error _ => rfl
    unfold own' fnameAdmit at hx
    rw [hx]
    exact hn

theorem run_tracks {st own0 own idx0 idx} (h : Inv st own0 own idx0 idx) {ps : List FProof} (ht : Tracks own ps)
    (ops : List FnameOp) (ho : FnameOp.Sized ops) (hd : FnameOp.NoDrops ops) :
    ∃ own0' own' idx0' idx', Inv (st.run ops) own0' own' idx0' idx' ∧ Tracks own' (ps ++ FnameOp.merged ops) := by
  induction ops generalizing st own0 own idx0 idx ps with
  | nil => exact ⟨_, _, _, _, h, by simpa [FnameOp.merged] using ht⟩
  | cons o ops ih =>
    have ho' : FnameOp.Sized ops := fun p hp => ho p (List.mem_cons_of_mem _ hp)
    have hd' : FnameOp.NoDrops ops := fun h => hd (List.mem_cons_of_mem _ h)
    cases o with
    | merge p =>
      have := ih (h.merge (ho p List.mem_cons_self)) (ht.step p) ho' hd'
      simpa [FnameOp.merged, FState.run] using this
    | commit => exact ih h.commit ht ho' hd'
    | drop => exact absurd List.mem_cons_self hd
    | block n => exact ih (st := st.exec (.block n)) ⟨h.rep0, h.good0, h.rep, h.good⟩ ht ho' hd'

/-! ### One name each -/

/-- Every owner is found by the by-user rows, and holds one name. -/
structure Full (own : Bytes → Option FProof) (idx : Nat → Option Bytes) : Prop where
  found : ∀ n q, own n = some q → q.fid ≠ 0 → idx q.fid = some n

theorem Full.step {own idx} (h : Full own idx) (hg : Good own idx) {p : FProof}
    (hp : p.fid = 0 ∨ ∀ n q, own n = some q → q.fid ≠ p.fid) : Full (own' own p) (idx' own idx p) := by
  constructor
  unfold own' idx'
  cases ha : fnameAdmit p (own p.name) with
  | error e => exact h.found
  | ok old =>
    simp only
    have hold := admit_old ha
    intro n q hq h0
    split at hq
    · rename_i e
      cases hq
      rw [if_neg]
      · simp [h0, e]
      · intro he
        rw [hold] at he
        cases hx : own p.name with
        | none => rw [hx] at he; cases he
        | some x =>
          rw [hx] at he
          simp only [Option.map_some, Option.some.injEq] at he
          rcases hp with hp | hp
          · exact h0 hp
          · exact hp _ _ hx he.symm
    · rename_i hne
      have hf := h.found n q hq h0
      rw [if_neg, if_neg]
      · exact hf
      · rintro ⟨e, hp0⟩
        rcases hp with hp | hp
        · exact hp0 hp
        · exact hp n q hq e
      · intro he
        rw [hold] at he
        cases hx : own p.name with
        | none => rw [hx] at he; cases he
        | some x =>
          rw [hx] at he
          simp only [Option.map_some, Option.some.injEq] at he
          have := h.found _ x hx (he ▸ h0)
          rw [← he, hf] at this
          exact hne (Option.some.inj this)

theorem run_full {st own0 own idx0 idx} (h : Inv st own0 own idx0 idx) (h0 : Full own0 idx0) (h1 : Full own idx)
    (ops : List FnameOp) (ho : FnameOp.Sized ops) (he : OneNameEach st ops) :
    ∃ own0' own' idx0' idx', Inv (st.run ops) own0' own' idx0' idx' ∧ Full own0' idx0' := by
  induction ops generalizing st own0 own idx0 idx with
  | nil => exact ⟨_, _, _, _, h, h0⟩
  | cons o ops ih =>
    have ho' : FnameOp.Sized ops := fun p hp => ho p (List.mem_cons_of_mem _ hp)
    cases o with
    | merge p =>
      refine ih (h.merge (ho p List.mem_cons_self)) h0 (h1.step h.good ?_) ho' he.2
      rcases he.1 with hp | hp
      · exact .inl hp
      · refine .inr (fun n q hq => hp n q ?_)
        rw [getFname_iff h.rep, hq]
    | commit => exact ih h.commit h1 h1 ho' he.2
    | drop => exact ih (st := st.exec .drop) ⟨h.rep0, h.good0, h.rep0, h.good0⟩ h0 h0 ho' he.2
    | block n => exact ih (st := st.exec (.block n)) ⟨h.rep0, h.good0, h.rep, h.good⟩ h0 h1 ho' he.2

end Fnames
end Verif
