import Verif.Lemmas.Scan
/-!
# C06: range deletion deletes the range and only the range
-/
namespace Verif
variable {V : Type}

theorem OMapL.length_put_new {K W : Type} [StrictOrd K] {k : K} {v : W} {l : List (K × W)}
    (hs : OMapL.Sorted l) (h : OMapL.get k l = none) : (OMapL.put k v l).length = l.length + 1 := by
  induction l with
  | nil => rfl
  | cons a m ih =>
    obtain ⟨k', v'⟩ := a
    simp only [OMapL.put]
    simp only [OMapL.get] at h
    split
    · simp
    · rename_i h1
      split
      · rename_i h2
        rw [if_pos (.inr h2)] at h
        simp [ih (List.pairwise_cons.1 hs).2 h]
      · rename_i h2
        rw [if_neg (by simp [h1, h2])] at h
        simp at h

/-- The batch that a delete page stages. -/
def stageDeletes (rows : List (Bytes × V)) : Txn V :=
  rows.foldl (fun t r => t.stageDel r.1) OMap.empty

theorem stageDeletes_spec (rows : List (Bytes × V)) (t : Txn V)
    (hd : rows.Pairwise (fun a b => a.1 ≠ b.1)) (hn : ∀ r ∈ rows, t.get r.1 = none) :
    (∀ k, (rows.foldl (fun t r => t.stageDel r.1) t).get k =
      if k ∈ rows.map Prod.fst then some none else t.get k) ∧
    (rows.foldl (fun t r => t.stageDel r.1) t).len = t.len + rows.length := by
  induction rows generalizing t with
  | nil => simp
  | cons a rows ih =>
    obtain ⟨h1, h2⟩ := List.pairwise_cons.1 hd
    have hn' : ∀ r ∈ rows, (t.stageDel a.1).get r.1 = none := by
      intro r hr
      rw [Txn.get_stageDel, if_neg (fun e => h1 r hr e.symm)]
      exact hn r (by simp [hr])
    obtain ⟨ih1, ih2⟩ := ih (t.stageDel a.1) h2 hn'
    constructor
    · intro k
      rw [List.foldl_cons, ih1, Txn.get_stageDel]
      by_cases hk : k = a.1 <;> by_cases hk' : k ∈ rows.map Prod.fst <;> simp_all
    · rw [List.foldl_cons, ih2]
      have : (t.stageDel a.1).len = t.len + 1 :=
        OMapL.length_put_new t.sorted (hn a (by simp))
      rw [this]; simp; omega

theorem dirSorted_distinct {rev : Bool} {l : List (Bytes × V)} (h : DirSorted rev l) :
    l.Pairwise (fun a b => a.1 ≠ b.1) := by
  refine List.Pairwise.imp ?_ h
  intro a b hab e
  rw [e] at hab
  cases rev <;> exact StrictOrd.irrefl _ hab

/-- How many rows one page deletes at most. -/
def pageRows (n : Option Nat) (len : Nat) : Nat := match n with | none => len | some n => max n 1

theorem deletePage_eq (db : Db V) (start stop : Option Bytes) (po : PageOptions) :
    let b := iterBounds start stop po
    let rows := scanRows db b.1 b.2 po.reverse
    deletePage db start stop po =
      .ok (Db.commit db (stageDeletes (rows.take (pageRows po.pageSize rows.length))),
        (rows.take (pageRows po.pageSize rows.length)).length) := by
  intro b rows
  have hstage : forEachPaged db start stop po
      (fun (t : Txn V) k _ => .ok (t.stageDel k, false)) OMap.empty =
      .ok (stageDeletes (rows.take (pageRows po.pageSize rows.length)), true) := by
    unfold forEachPaged stageDeletes
    simp only
    cases hps : po.pageSize with
    | none =>
      rw [iterate_none_cont (fun (t : Txn V) k _ => t.stageDel k)]
      simp only [pageRows, List.take_length]
      rfl
    | some n =>
      rw [iterate_some_cont (fun (t : Txn V) k _ => t.stageDel k) n _ 0 _ (by omega)]
      simp only [pageRows, Nat.sub_zero]
      rfl
  unfold deletePage
  rw [hstage]
  simp only
  congr 2
  have hd : (rows.take (pageRows po.pageSize rows.length)).Pairwise (fun a b => a.1 ≠ b.1) :=
    (dirSorted_distinct (scanRows_dirSorted db _ _ _)).sublist (List.take_sublist _ _)
  have := (stageDeletes_spec (rows.take (pageRows po.pageSize rows.length)) (OMap.empty : Txn V) hd
    (by simp)).2
  rw [stageDeletes, this]
  simp [Txn.len, OMap.empty]

theorem deletePage_get (db : Db V) (T : List (Bytes × V)) (hd : T.Pairwise (fun a b => a.1 ≠ b.1)) (k : Bytes) :
    (Db.commit db (stageDeletes T)).get k = if k ∈ T.map Prod.fst then none else db.get k := by
  rw [Db.get_commit]
  unfold getFromDbOrTxn stageDeletes
  rw [(stageDeletes_spec T OMap.empty hd (by simp)).1]
  by_cases h : k ∈ T.map Prod.fst
  · simp [h]
  · rw [if_neg h, if_neg h]; rfl

theorem deletePage_rows (db : Db V) (T : List (Bytes × V)) (hd : T.Pairwise (fun a b => a.1 ≠ b.1)) :
    (Db.commit db (stageDeletes T)).rows = db.rows.filter (fun r => !decide (r.1 ∈ T.map Prod.fst)) := by
  have hs : OMapL.Sorted (db.rows.filter (fun r => !decide (r.1 ∈ T.map Prod.fst))) :=
    List.Pairwise.filter _ db.sorted
  have : Db.commit db (stageDeletes T) = ⟨_, hs⟩ := by
    apply OMap.ext
    intro k
    rw [deletePage_get db T hd]
    apply Option.ext
    intro v
    rw [OMap.get_eq_some_iff]
    simp only [List.mem_filter, Bool.not_eq_true', decide_eq_false_iff_not]
    by_cases h : k ∈ T.map Prod.fst
    · simp only [h, if_true, not_true, and_false, iff_false]; simp
    · simp only [h, if_false, not_false_iff, and_true]; exact OMap.get_eq_some_iff db
  rw [this]

theorem scan_after_page (db : Db V) (lo hi : Bytes) (rev : Bool) (m : Nat) :
    scanRows (Db.commit db (stageDeletes ((scanRows db lo hi rev).take m))) lo hi rev
      = (scanRows db lo hi rev).drop m := by
  have hsort := scanRows_dirSorted db lo hi rev
  have hdist := dirSorted_distinct hsort
  have hd : ((scanRows db lo hi rev).take m).Pairwise (fun a b => a.1 ≠ b.1) :=
    hdist.sublist (List.take_sublist _ _)
  generalize hT : (scanRows db lo hi rev).take m = T at hd
  have hrows := deletePage_rows db T hd
  have h1 : scanRows (Db.commit db (stageDeletes T)) lo hi rev
      = (scanRows db lo hi rev).filter (fun r => !decide (r.1 ∈ T.map Prod.fst)) := by
    unfold scanRows
    rw [hrows]
    cases rev
    · simp only [Bool.false_eq_true, if_false, List.filter_filter]
      apply List.filter_congr
      intro r _
      rw [Bool.and_comm]
    · simp only [if_true, ← List.filter_reverse, List.filter_filter]
      apply List.filter_congr
      intro r _
      rw [Bool.and_comm]
  rw [h1]
  conv => lhs; rw [← List.take_append_drop m (scanRows db lo hi rev)]
  have hdist' := hdist
  rw [← List.take_append_drop m (scanRows db lo hi rev)] at hdist'
  rw [List.pairwise_append] at hdist'
  obtain ⟨_, _, h3⟩ := hdist'
  rw [List.filter_append, hT]
  have ha : T.filter (fun r => !decide (r.1 ∈ T.map Prod.fst)) = [] := by
    rw [List.filter_eq_nil_iff]
    intro r hr
    simp only [Bool.not_eq_true', decide_eq_false_iff_not, Classical.not_not]
    exact List.mem_map.2 ⟨r, hr, rfl⟩
  have hb : ((scanRows db lo hi rev).drop m).filter (fun r => !decide (r.1 ∈ T.map Prod.fst))
      = (scanRows db lo hi rev).drop m := by
    rw [List.filter_eq_self]
    intro r hr
    simp only [Bool.not_eq_true', decide_eq_false_iff_not]
    intro hm
    obtain ⟨q, hq, e⟩ := List.mem_map.1 hm
    exact h3 q (hT ▸ hq) r hr e
  rw [ha, hb]
  simp

/-- **C06.** Page-wise deletion of `[start, stop)` ends after finitely many pages, reports the number of
rows that were in the range, removes them all and leaves every other row as it was; for every page
size (zero acts as one, none as unlimited) and either direction. -/
theorem C06_range_deleted_exactly (db : Db V) (start stop : Bytes) (n : Option Nat) (rev : Bool) :
    ∃ db' : Db V, ∃ pages : Nat,
      (∀ fuel ≥ pages, deletePaginated (some start) (some stop) { pageSize := n, reverse := rev } fuel db 0
        = some (.ok (db', (db.rows.filter (fun r => !Bytes.blt r.1 start && Bytes.blt r.1 stop)).length))) ∧
      ∀ k, db'.get k = if Bytes.blt k start = false ∧ Bytes.blt k stop = true then none else db.get k := by
  have hb : iterBounds (some start) (some stop) { pageSize := n, reverse := rev } = (start, stop) := by
    cases rev <;> simp [iterBounds]
  have key : ∀ (len : Nat) (db : Db V) (total : Nat), (scanRows db start stop rev).length ≤ len →
      ∃ db' : Db V, ∃ pages : Nat,
      (∀ fuel ≥ pages, deletePaginated (some start) (some stop) { pageSize := n, reverse := rev } fuel db total
        = some (.ok (db', total + (scanRows db start stop rev).length))) ∧
      ∀ k, db'.get k = if Bytes.blt k start = false ∧ Bytes.blt k stop = true then none else db.get k := by
    intro len
    induction len with
    | zero =>
      intro db total hlen
      have hnil : scanRows db start stop rev = [] := List.eq_nil_of_length_eq_zero (by omega)
      refine ⟨db, 1, ?_, ?_⟩
      · intro fuel hf
        obtain ⟨f, rfl⟩ : ∃ f, fuel = f + 1 := ⟨fuel - 1, by omega⟩
        have hp := deletePage_eq db (some start) (some stop) { pageSize := n, reverse := rev }
        simp only [hb] at hp
        rw [hnil] at hp
        simp only [List.take_nil, List.length_nil] at hp
        simp only [deletePaginated, hp, hnil]
        rfl
      · intro k
        split
        · rename_i hk
          cases hg : db.get k with
          | none => rfl
          | some v =>
            have : (k, v) ∈ scanRows db start stop rev :=
              mem_scanRows.2 ⟨(OMap.get_eq_some_iff db).1 hg, hk⟩
            rw [hnil] at this
            simp at this
        · rfl
    | succ len ih =>
      intro db total hlen
      by_cases hnil : scanRows db start stop rev = []
      · exact (by
          have := ih db total (by simp [hnil])
          exact this)
      · have hp := deletePage_eq db (some start) (some stop) { pageSize := n, reverse := rev }
        simp only [hb] at hp
        generalize hm : pageRows n (scanRows db start stop rev).length = m at hp
        have hpos : 0 < (scanRows db start stop rev).length := List.length_pos_iff.2 hnil
        have hm1 : 1 ≤ m := by
          rw [← hm]
          cases n with
          | none => exact hpos
          | some n => simp only [pageRows]; omega
        have hscan := scan_after_page db start stop rev m
        generalize hdb1 : Db.commit db (stageDeletes ((scanRows db start stop rev).take m)) = db1 at hp hscan
        have hcount : ∃ c, ((scanRows db start stop rev).take m).length = c + 1 := by
          refine ⟨((scanRows db start stop rev).take m).length - 1, ?_⟩
          rw [List.length_take]; omega
        obtain ⟨c, hc⟩ := hcount
        rw [hc] at hp
        obtain ⟨db', pages, hfuel, hget⟩ := ih db1 (total + (c + 1)) (by
          rw [hscan, List.length_drop]; omega)
        refine ⟨db', pages + 1, ?_, ?_⟩
        · intro fuel hf
          obtain ⟨f, rfl⟩ : ∃ f, fuel = f + 1 := ⟨fuel - 1, by omega⟩
          rw [deletePaginated, hp]
          simp only
          rw [hfuel f (by omega), hscan, List.length_drop]
          rw [List.length_take] at hc
          have : total + (c + 1) + ((scanRows db start stop rev).length - m)
              = total + (scanRows db start stop rev).length := by omega
          rw [this]
        · intro k
          rw [hget k]
          split
          · rfl
          · rename_i hk
            rw [← hdb1, deletePage_get db _ ((dirSorted_distinct (scanRows_dirSorted db _ _ _)).sublist
              (List.take_sublist _ _)), if_neg]
            intro hmem
            obtain ⟨r, hr, e⟩ := List.mem_map.1 hmem
            have := mem_scanRows.1 (List.mem_of_mem_take hr)
            rw [e] at this
            exact hk this.2
  obtain ⟨db', pages, h1, h2⟩ := key _ db 0 (Nat.le_refl _)
  refine ⟨db', pages, ?_, h2⟩
  intro fuel hf
  rw [h1 fuel hf]
  congr 2
  cases rev <;> simp [scanRows]

/-- Non-vacuity: five rows, page size two, the middle three deleted. -/
example :
    let db : Db Nat := ((((OMap.empty.put [1] 1).put [2] 2).put [2, 5] 3).put [3] 4).put [4] 5
    (deletePaginated (some [2]) (some [4]) { pageSize := some 2 } 9 db 0).map
      (fun r => r.map (fun x => (x.1.rows, x.2))) = some (.ok ([([1], 1), ([4], 5)], 3)) := by rfl

end Verif
