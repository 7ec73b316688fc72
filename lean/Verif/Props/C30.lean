import Verif.Lemmas.GaslessRun
import Verif.Lemmas.KeyedPage
import Verif.Case.Gasless
/-!
C30: the gasless key count of a user is exact and at most 1000, in the committed database and in every
pending batch, and the paged listing returns exactly the live keys.
-/
namespace Verif

/-- Keys of the record rows of a user. -/
theorem record_rows {W : Db GVal} (hI : KeyInv W) (fid : Nat) :
    ∀ r ∈ rowsStartingWith W (keyByFidPrefix fid), ∃ pk rec, pk.length = 32 ∧
      r = (23 :: 105 :: (makeFidKey fid ++ pk), .record rec) := by
  intro r hr
  obtain ⟨h1, h2⟩ := List.mem_filter.1 hr
  have h3 := List.isPrefixOf_iff_prefix.1 h2
  obtain ⟨pk, hpk⟩ := h3
  have hg : W.get r.1 = some r.2 := (OMap.get_eq_some_iff W).2 h1
  have hk : r.1 = 23 :: 105 :: (makeFidKey fid ++ pk) := by rw [← hpk]; simp [keyByFidPrefix]
  have hl := (hI.layout 105 (makeFidKey fid ++ pk) (by rw [← hk, hg]; rfl)).2.2.1 rfl
  have hpl : pk.length = 32 := by simp [makeFidKey_length] at hl; omega
  obtain ⟨rec, hv, _⟩ := hI.recs _ pk r.2 (makeFidKey_length fid) hpl (by rw [← hk]; exact hg)
  exact ⟨pk, rec, hpl, Prod.ext hk hv⟩

theorem keyInv_noShort {W : Db GVal} (hI : KeyInv W) (fid : Nat) : NoShortKey W (keyByFidPrefix fid) := by
  intro r hr h1 h2
  have hg : W.get r.1 = some r.2 := (OMap.get_eq_some_iff W).2 hr
  have hlen := incrementVec_length (p := keyByFidPrefix fid) ⟨23, by simp [keyByFidPrefix], by decide⟩
  have hl6 : (keyByFidPrefix fid).length = 6 := by simp [keyByFidPrefix, makeFidKey]
  refine h2.eq_of_length_le ?_
  rw [hlen, hl6]
  apply Classical.byContradiction
  intro hlt
  have hshape : ∃ q g, incrementVec (keyByFidPrefix fid) = 23 :: q :: g ∧ (q = 105 ∨ q = 106) := by
    have hm := makeFidKey_length fid
    unfold keyByFidPrefix
    generalize makeFidKey fid = f at hm
    match f, hm with
    | [a, b, c, d], _ =>
      by_cases hd : d.toNat < 255
      · simp [incrementVec, incrRev, hd]
      · by_cases hc : c.toNat < 255
        · simp [incrementVec, incrRev, hd, hc]
        · by_cases hb : b.toNat < 255
          · simp [incrementVec, incrRev, hd, hc, hb]
          · by_cases ha : a.toNat < 255
            · simp [incrementVec, incrRev, hd, hc, hb, ha]
            · simp [incrementVec, incrRev, hd, hc, hb, ha]
  obtain ⟨q, g, hq, hq'⟩ := hshape
  rw [hq] at h2
  match hk : r.1 with
  | [] => rw [hk] at h1; simp [Bytes.blt] at h1
  | [x] =>
    rw [hk] at h2 hg
    have := (List.cons_prefix_cons.1 h2).1
    subst this
    rw [hI.noShort] at hg; simp at hg
  | x :: y :: z =>
    rw [hk] at h2 hg hlt
    obtain ⟨e1, h3⟩ := List.cons_prefix_cons.1 h2
    obtain ⟨e2, _⟩ := List.cons_prefix_cons.1 h3
    subst e1 e2
    have hlay := (hI.layout y z (by rw [hg]; rfl)).2.2
    simp at hlt
    rcases hq' with e | e
    · have := hlay.1 e; omega
    · have := hlay.2 e; omega

/-- The public keys of a user's record rows. -/
def liveKeys (W : Db GVal) (fid : Nat) : List Bytes :=
  (rowsStartingWith W (keyByFidPrefix fid)).map (fun r => r.1.drop 6)

theorem rows_nodup {V : Type} (db : Db V) (p : Bytes) : ((rowsStartingWith db p).map Prod.fst).Nodup := by
  have hs := db.sorted
  unfold OMapL.Sorted at hs
  unfold List.Nodup
  rw [List.pairwise_map]
  refine (List.Pairwise.filter _ hs).imp ?_
  intro a b hab e
  rw [e] at hab
  exact StrictOrd.irrefl _ hab

theorem liveKeys_nodup {W : Db GVal} (hI : KeyInv W) (fid : Nat) : (liveKeys W fid).Nodup := by
  have h := rows_nodup W (keyByFidPrefix fid)
  have hr := record_rows hI fid
  unfold liveKeys
  generalize rowsStartingWith W (keyByFidPrefix fid) = rows at h hr
  induction rows with
  | nil => simp
  | cons a rows ih =>
    simp only [List.map_cons, List.nodup_cons] at h ⊢
    refine ⟨?_, ih h.2 (fun r hx => hr r (by simp [hx]))⟩
    intro hm
    obtain ⟨b, hb, e⟩ := List.mem_map.1 hm
    obtain ⟨pk, rec, hl, ea⟩ := hr a (by simp)
    obtain ⟨pk', rec', hl', eb⟩ := hr b (by simp [hb])
    apply h.1
    refine List.mem_map.2 ⟨b, hb, ?_⟩
    subst ea eb
    have h6 := makeFidKey_length fid
    simp [h6, List.drop_append] at e
    simp [e]

theorem mem_liveKeys {s : KeyState} (hI : KeyInv s.view) (fid : Nat) (pk : Bytes) :
    pk ∈ liveKeys s.view fid ↔ ∃ r, getKeyRecord s.db s.txn fid pk = .ok (some r) := by
  unfold liveKeys
  rw [List.mem_map]
  constructor
  · rintro ⟨row, hrow, e⟩
    obtain ⟨pk', rec, hl, ea⟩ := record_rows hI fid row hrow
    have hg := (OMap.get_eq_some_iff s.view).2 (List.mem_filter.1 hrow).1
    subst ea
    have h6 := makeFidKey_length fid
    simp [h6, List.drop_append] at e
    subst e
    refine ⟨rec, ?_⟩
    rw [getKeyRecord_view]
    unfold KeyState.view at hg
    simp only at hg
    simp [hl, hg]
  · rintro ⟨r, hr⟩
    rw [getKeyRecord_view] at hr
    split at hr
    · cases hr
    · rename_i hl
      simp only [ne_eq, Decidable.not_not] at hl
      cases hg : (s.db.commit s.txn).get (23 :: 105 :: (makeFidKey fid ++ pk)) with
      | none => rw [hg] at hr; simp at hr
      | some v =>
        refine ⟨_, List.mem_filter.2 ⟨(OMap.get_eq_some_iff s.view).1 hg, ?_⟩, ?_⟩
        · rw [List.isPrefixOf_iff_prefix]
          exact ⟨pk, by simp [keyByFidPrefix]⟩
        · have h6 := makeFidKey_length fid
          simp [h6, List.drop_append]

theorem count_liveKeys {s : KeyState} (hI : KeyInv s.view) (fid : Nat) :
    getKeyCount s.db s.txn fid = .ok (liveKeys s.view fid).length ∧ (liveKeys s.view fid).length ≤ 1000 := by
  have hlen : (liveKeys s.view fid).length = recCount s.view (makeFidKey fid) := by
    simp [liveKeys, recCount, OMap.countKeys, rowsStartingWith, keyByFidPrefix]
  rw [hlen]
  have hcap := hI.cap (makeFidKey fid) (makeFidKey_length fid)
  refine ⟨?_, hcap⟩
  rw [getKeyCount_view]
  have hc := hI.count (makeFidKey fid) (makeFidKey_length fid)
  unfold KeyState.view at hc hcap ⊢
  rw [hc]
  by_cases hz : recCount (s.db.commit s.txn) (makeFidKey fid) = 0
  · simp [hz]
  · rw [if_neg hz]
    simp only [be_length, ne_eq, not_true_eq_false, if_false]
    rw [fromBe_be_of_lt (by omega)]

/-- The count read by the API equals the number of distinct public keys with a live record, and is at most
1000, whatever the history of additions, replacements, removals, uses, commits and dropped batches. -/
theorem C30_count_exact (s0 : KeyState) (ops : List KeyOp) (h0 : s0.fresh) (fid : Nat) :
    ∃ keys : List Bytes, keys.Nodup ∧
      (∀ pk, pk ∈ keys ↔ ∃ r, getKeyRecord (runKeyOps s0 ops).db (runKeyOps s0 ops).txn fid pk = .ok (some r)) ∧
      getKeyCount (runKeyOps s0 ops).db (runKeyOps s0 ops).txn fid = .ok keys.length ∧
      keys.length ≤ 1000 := by
  have hg := run_good s0 ops (fresh_good h0)
  exact ⟨liveKeys (runKeyOps s0 ops).view fid, liveKeys_nodup hg.2 fid, fun pk => mem_liveKeys hg.2 fid pk,
    (count_liveKeys hg.2 fid).1, (count_liveKeys hg.2 fid).2⟩

/-- Decoding of one listed row. -/
def listDec (k : Bytes) (v : GVal) : Except HubErr (Bytes × KeyRecord) :=
  match v with
  | .raw _ => .error .internal
  | .record r => if k.length < 38 then .error .internal else .ok ((k.drop 6).take 32, r)

theorem listGaslessKeys_eq (db : Db GVal) (fid : Nat) (po : PageOptions) :
    listGaslessKeys db fid po =
      keyedPage true listDec db (keyByFidPrefix fid) (incrementVec (keyByFidPrefix fid)) po pageSizeMax := by
  have hcb : keyListStep (po.pageSize.getD pageSizeMax) = keyedStep listDec (po.pageSize.getD pageSizeMax) := by
    funext s k v
    cases v with
    | raw b => rfl
    | record r =>
      simp only [keyListStep, keyedStep, listDec]
      by_cases hk : k.length < 38
      · simp [hk]
      · simp only [if_neg hk]
  unfold listGaslessKeys keyedPage forEachPaged
  rw [hcb]
  simp only [if_true]
  generalize iterate _ _ _ _ _ = x
  rcases x with _ | ⟨⟨_, _⟩, _⟩ <;> rfl

/-- Following the page tokens of the listing, with any page size and direction, returns exactly the live
keys of the committed state, each once, with its record; their number is the committed count. -/
theorem C30_listing_complete (s0 : KeyState) (ops : List KeyOp) (h0 : s0.fresh) (fid : Nat) (n : Option Nat)
    (rev : Bool) :
    ∃ keys : List (Bytes × KeyRecord),
      FollowTokens (fun t => listGaslessKeys (runKeyOps s0 ops).db fid
        { pageSize := n, pageToken := t, reverse := rev }) none keys ∧
      (keys.map Prod.fst).Nodup ∧
      (∀ pk r, (pk, r) ∈ keys ↔ getKeyRecord (runKeyOps s0 ops).db OMap.empty fid pk = .ok (some r)) ∧
      getKeyCount (runKeyOps s0 ops).db OMap.empty fid = .ok keys.length := by
  have hg := run_good s0 ops (fresh_good h0)
  generalize hs : runKeyOps s0 ops = s at hg
  have hI : KeyInv s.db := hg.1
  have hscan := scan_prefix_eq s.db (keyByFidPrefix fid) ⟨23, by simp [keyByFidPrefix], by decide⟩
    (keyInv_noShort hI fid) rev
  have hrows := record_rows hI fid
  have hdec : ∀ r ∈ scanRows s.db (keyByFidPrefix fid) (incrementVec (keyByFidPrefix fid)) rev,
      ∃ pk rec, pk.length = 32 ∧ r = (23 :: 105 :: (makeFidKey fid ++ pk), GVal.record rec) := by
    intro r hr
    rw [hscan] at hr
    apply hrows r
    cases rev <;> simpa [inDirection] using hr
  have hok : ∀ pk rec, pk.length = 32 →
      listDec (23 :: 105 :: (makeFidKey fid ++ pk)) (.record rec) = .ok (pk, rec) := by
    intro pk rec hl
    have h6 := makeFidKey_length fid
    simp [listDec, h6, hl, List.drop_append, List.take_of_length_le]
  have hfollow := follow_keyed true listDec s.db (keyByFidPrefix fid) (incrementVec (keyByFidPrefix fid))
    (by simp [keyByFidPrefix]) rev
    (by
      intro r hr
      obtain ⟨pk, rec, hl, e⟩ := hdec r hr
      exact ⟨(pk, rec), by rw [e]; exact hok pk rec hl⟩) n pageSizeMax
  have hfun : (fun t => listGaslessKeys s.db fid { pageSize := n, pageToken := t, reverse := rev }) =
      (fun t => keyedPage true listDec s.db (keyByFidPrefix fid) (incrementVec (keyByFidPrefix fid))
        { pageSize := n, pageToken := t, reverse := rev } pageSizeMax) := by
    funext t; exact listGaslessKeys_eq _ _ _
  rw [hfun]
  refine ⟨_, hfollow, ?_⟩
  -- describe the listed pairs
  have hmap : ((scanRows s.db (keyByFidPrefix fid) (incrementVec (keyByFidPrefix fid)) rev).filterMap
      (fun r => (listDec r.1 r.2).toOption)).map Prod.fst = inDirection rev (liveKeys s.db fid) := by
    have : ∀ rows : List (Bytes × GVal),
        (∀ r ∈ rows, ∃ pk rec, pk.length = 32 ∧ r = (23 :: 105 :: (makeFidKey fid ++ pk), GVal.record rec)) →
        (rows.filterMap (fun r => (listDec r.1 r.2).toOption)).map Prod.fst = rows.map (fun r => r.1.drop 6) := by
      intro rows
      induction rows with
      | nil => simp
      | cons a rows ih =>
        intro h
        obtain ⟨pk, rec, hl, e⟩ := h a (by simp)
        have ht : (listDec a.1 a.2).toOption = some (pk, rec) := by rw [e, hok pk rec hl]; rfl
        have h6 := makeFidKey_length fid
        rw [List.filterMap_cons, ht]
        simp only [List.map_cons]
        rw [ih (fun r hr => h r (by simp [hr])), e]
        simp [h6, List.drop_append]
    rw [this _ hdec, hscan]
    cases rev <;> simp [inDirection, liveKeys]
  have hview : KeyState.view { db := s.db, txn := OMap.empty } = s.db := by
    unfold KeyState.view; exact Db.commit_empty s.db
  have hnd' : (inDirection rev (liveKeys s.db fid)).Nodup := by
    have h := liveKeys_nodup hI fid
    cases rev
    · exact h
    · show (liveKeys s.db fid).reverse.Nodup
      unfold List.Nodup at *
      rw [List.pairwise_reverse]
      exact h.imp (fun h => fun e => h e.symm)
  refine ⟨by rw [hmap]; exact hnd', ?_, ?_⟩
  · intro pk r
    rw [List.mem_filterMap]
    constructor
    · rintro ⟨row, hrow, e⟩
      obtain ⟨pk', rec, hl, ea⟩ := hdec row hrow
      have hg' := (OMap.get_eq_some_iff s.db).2 (mem_scanRows.1 hrow).1
      rw [ea] at e hg'
      rw [hok pk' rec hl] at e
      simp only [Except.toOption, Option.some.injEq, Prod.mk.injEq] at e
      obtain ⟨rfl, rfl⟩ := e
      rw [getKeyRecord_view, Db.commit_empty]
      simp only at hg'
      simp [hl, hg']
    · intro h
      rw [getKeyRecord_view, Db.commit_empty] at h
      split at h
      · cases h
      · rename_i hl
        simp only [ne_eq, Decidable.not_not] at hl
        have hgr : s.db.get (23 :: 105 :: (makeFidKey fid ++ pk)) = some (.record r) := by
          cases hgv : s.db.get (23 :: 105 :: (makeFidKey fid ++ pk)) with
          | none => rw [hgv] at h; simp at h
          | some v => cases v <;> rw [hgv] at h <;> simp at h; rw [h]
        refine ⟨(23 :: 105 :: (makeFidKey fid ++ pk), .record r), ?_, ?_⟩
        · rw [hscan]
          have : (23 :: 105 :: (makeFidKey fid ++ pk), GVal.record r) ∈ rowsStartingWith s.db (keyByFidPrefix fid) := by
            refine List.mem_filter.2 ⟨(OMap.get_eq_some_iff s.db).1 hgr, ?_⟩
            rw [List.isPrefixOf_iff_prefix]
            exact ⟨pk, by simp [keyByFidPrefix]⟩
          cases rev <;> simpa [inDirection] using this
        · rw [hok pk r hl]; rfl
  · have hc := (count_liveKeys (s := { db := s.db, txn := OMap.empty }) (by rw [hview]; exact hI) fid).1
    rw [hview] at hc
    rw [hc, ← List.length_map (f := Prod.fst), hmap]
    cases rev <;> simp [inDirection]

/-- A user with 1000 keys cannot add another one. -/
theorem C30_cap_enforced (s0 : KeyState) (ops : List KeyOp) (h0 : s0.fresh) (env : KeyEnv) (m : KeyAddMsg)
    (rep : Bool) (hfull : getKeyCount (runKeyOps s0 ops).db (runKeyOps s0 ops).txn m.fid = .ok 1000)
    (hnew : getKeyRecord (runKeyOps s0 ops).db (runKeyOps s0 ops).txn m.fid m.key = .ok none) :
    (KeyOp.exec (runKeyOps s0 ops) (.add env m rep)).1 = false := by
  have hg := run_good s0 ops (fresh_good h0)
  cases h : (KeyOp.exec (runKeyOps s0 ops) (.add env m rep)).1 with
  | false => rfl
  | true =>
    exfalso
    obtain ⟨hb, rf, first, ha, _⟩ := add_accepted hg h
    rcases ha.cases with ⟨_, _, hc⟩ | ⟨_, _, r, hr, _⟩
    · have hcnt := hg.2.count (makeFidKey m.fid) (makeFidKey_length m.fid)
      rw [getKeyCount_view] at hfull
      unfold KeyState.view at hcnt hc
      rw [hcnt] at hfull
      by_cases hz : recCount ((runKeyOps s0 ops).db.commit (runKeyOps s0 ops).txn) (makeFidKey m.fid) = 0
      · simp [hz] at hfull
      · rw [if_neg hz] at hfull
        simp only [be_length, ne_eq, not_true_eq_false, if_false] at hfull
        rw [fromBe_be_of_lt (by omega)] at hfull
        simp only [Except.ok.injEq] at hfull
        omega
    · rw [getKeyRecord_view] at hnew
      unfold KeyState.view at hr
      rw [hr] at hnew
      split at hnew <;> simp at hnew

section Cases
open GaslessCase

/-- A history with a replacement, a removal, a commit and a dropped batch: one live key is left, the count is
1 and the listing shows it. -/
example :
    let s := runKeyOps start [.add env (addMsg 5 7 1 100) false, .add env (addMsg 5 8 2 100) false,
      .add env (addMsg 5 7 3 200) false, .commit, .remove env (rmMsg 5 8 1 4), .commit,
      .add env (addMsg 5 6 5 1) false, .abort]
    getKeyCount s.db s.txn 5 = .ok 1 ∧
    listGaslessKeys s.db 5 {} = .ok ⟨[(pk 7, ⟨addMsg 5 7 3 200, 9⟩)], none⟩ := by decide +kernel

end Cases
end Verif
