import Verif.Spec.BlockStore
import Verif.Spec.Scan
import Verif.Lemmas.Numbered
import Verif.Lemmas.RangePage
import Verif.Props.C06
/-! The block stores hold what their history says. -/
namespace Verif

theorem BlockKind.pre_lt (kind : BlockKind) : kind.pre.toNat < 255 := by cases kind <;> decide
theorem BlockKind.pre_ne (kind : BlockKind) : kind.pre ≠ 18 := by cases kind <;> decide
theorem BlockKind.pre_ne9 (kind : BlockKind) : kind.pre ≠ 9 := by cases kind <;> decide

theorem blockKey_inj {kind : BlockKind} {m n : Nat} (hm : m < 2 ^ 64) (hn : n < 2 ^ 64)
    (h : blockKey kind m = blockKey kind n) : m = n := numKey_inj hm hn h

theorem blockKey_blt {kind : BlockKind} {m n : Nat} (hm : m < 2 ^ 64) (hn : n < 2 ^ 64) :
    Bytes.blt (blockKey kind m) (blockKey kind n) = true ↔ m < n := numKey_blt hm hn

theorem timeKey_inj {s t s' t' : Nat} (hs : s < 2 ^ 32) (ht : t < 2 ^ 64) (hs' : s' < 2 ^ 32) (ht' : t' < 2 ^ 64)
    (h : timeKey s t = timeKey s' t') : s = s' ∧ t = t' := by
  simp only [timeKey, List.cons.injEq, true_and] at h
  have := List.append_inj h (by simp)
  exact ⟨be_inj (w := 4) hs hs' this.1, be_inj (w := 8) ht ht' this.2⟩

theorem timeKey_blt {s t t' : Nat} (ht : t < 2 ^ 64) (ht' : t' < 2 ^ 64) :
    Bytes.blt (timeKey s t) (timeKey s t') = true ↔ t < t' := by
  have h := be_blt_iff (w := 8) ht ht'
  have : Bytes.blt (timeKey s t) (timeKey s t') = Bytes.blt (be 8 t) (be 8 t') := by
    have := Bytes.blt_append_left (18 :: be 4 s) (be 8 t) (be 8 t')
    simpa [timeKey] using this
  rw [this]; exact h

/-- Keys with another first byte are not between two keys with the same first byte. -/
theorem not_between_of_head {p : UInt8} {a b k : Bytes} (h : k.head? ≠ some p) :
    ¬ (Bytes.blt k (p :: a) = false ∧ Bytes.blt k (p :: b) = true) := by
  rintro ⟨h1, h2⟩
  cases k with
  | nil => simp [Bytes.blt] at h1
  | cons c l =>
    have hc : c ≠ p := by simpa using h
    have hne : c.toNat ≠ p.toNat := fun e => hc (UInt8.toNat_inj' e)
    simp only [Bytes.blt] at h1 h2
    by_cases hlt : c.toNat < p.toNat
    · simp [hlt] at h1
    · have : p.toNat < c.toNat := by omega
      simp [hlt, this] at h2

theorem deletePaginated_mono {V : Type} {start stop : Option Bytes} {po : PageOptions} :
    ∀ {fuel : Nat} {db : Db V} {total : Nat} {r}, deletePaginated start stop po fuel db total = some r →
      ∀ fuel' ≥ fuel, deletePaginated start stop po fuel' db total = some r := by
  intro fuel
  induction fuel with
  | zero => intro db total r h; simp [deletePaginated] at h
  | succ f ih =>
    intro db total r h fuel' hf
    obtain ⟨f', rfl⟩ : ∃ f', fuel' = f' + 1 := ⟨fuel' - 1, by omega⟩
    simp only [deletePaginated] at h ⊢
    split at h
    · exact h
    · exact h
    · exact ih h f' (by omega)

/-- What a completed range deletion does. -/
theorem deletePaginated_get {V : Type} {db db' : Db V} {start stop : Bytes} {n : Option Nat} {fuel count : Nat}
    (h : deletePaginated (some start) (some stop) { pageSize := n } fuel db 0 = some (.ok (db', count))) :
    (∀ k, db'.get k = if Bytes.blt k start = false ∧ Bytes.blt k stop = true then none else db.get k) ∧
    count = (db.rows.filter (fun r => !Bytes.blt r.1 start && Bytes.blt r.1 stop)).length := by
  obtain ⟨d, pages, h1, h2⟩ := C06_range_deleted_exactly db start stop n false
  have e1 := h1 (max pages fuel) (by omega)
  have e2 := deletePaginated_mono h (max pages fuel) (by omega)
  rw [e1] at e2
  simp only [Option.some.injEq, Except.ok.injEq, Prod.mk.injEq] at e2
  obtain ⟨rfl, rfl⟩ := e2
  exact ⟨h2, rfl⟩

/-- A prune can always be run to its end. -/
theorem pruneUntil_ends (kind : BlockKind) (db : Db BRow) (stop : Nat) (n : Option Nat) :
    ∃ fuel db' count, pruneUntil kind fuel db stop { pageSize := n } = some (.ok (db', count)) := by
  obtain ⟨d, pages, h1, _⟩ := C06_range_deleted_exactly db (blockKey kind 0) (blockKey kind stop) n false
  exact ⟨pages, d, _, h1 pages (Nat.le_refl _)⟩

structure BInv (kind : BlockKind) (ops : List BOp) (db : Db BRow) : Prop where
  rows : ∀ k v, db.get k = some v → k.head? = some kind.pre →
    ∃ n b, n < 2 ^ 64 ∧ k = blockKey kind n ∧ v = .block b ∧ b.number? = some n
  agree : ∀ n, n < 2 ^ 64 → db.get (blockKey kind n) = (storedBlocks ops n).map .block
  high : ∀ n, 2 ^ 64 ≤ n → storedBlocks ops n = none

theorem storedBlocks_snoc (ops : List BOp) (op : BOp) :
    storedBlocks (ops ++ [op]) = blocksAfter (storedBlocks ops) op := by
  simp [storedBlocks, List.foldl_append]

/-- What a put does to each row. -/
theorem putBlock_get {kind : BlockKind} {db : Db BRow} {b : SBlock} {s n t : Nat}
    (hb : b.head = some ⟨some (s, n), t⟩) :
    ∃ d, putBlock kind db b = .ok d ∧ ∀ k, d.get k =
      if k = timeKey (kind.indexShard s) t ∧ db.get (timeKey (kind.indexShard s) t) = none
        then some (.index (blockKey kind n))
      else if k = blockKey kind n then some (.block b) else db.get k := by
  refine ⟨Db.commit db (putBatch kind db s n t b), by simp only [putBlock, hb], ?_⟩
  intro k
  rw [Db.get_commit]
  unfold putBatch
  have hne : timeKey (kind.indexShard s) t ≠ blockKey kind n := by
    intro e
    simp only [timeKey, blockKey, List.cons.injEq] at e
    exact kind.pre_ne e.1.symm
  cases hg : db.get (timeKey (kind.indexShard s) t) with
  | none =>
    simp only [getFromDbOrTxn_stagePut]
    by_cases h1 : k = timeKey (kind.indexShard s) t
    · simp [h1]
    · simp [h1, getFromDbOrTxn]
  | some v =>
    simp only [getFromDbOrTxn_stagePut]
    simp [getFromDbOrTxn]

theorem putBlock_none {kind : BlockKind} {db : Db BRow} {b : SBlock} (hb : b.number? = none) :
    ∃ e, putBlock kind db b = .error e := by
  unfold putBlock
  cases h : b.head with
  | none => exact ⟨_, rfl⟩
  | some hd =>
    cases h2 : hd.height with
    | none => exact ⟨.invalidInternalState, by simp only [h2]⟩
    | some p => simp [SBlock.number?, h, h2] at hb

theorem head_of_number {b : SBlock} {n : Nat} (h : b.number? = some n) : ∃ s t, b.head = some ⟨some (s, n), t⟩ := by
  unfold SBlock.number? at h
  cases h1 : b.head with
  | none => simp [h1] at h
  | some hd =>
    obtain ⟨ht, ts⟩ := hd
    cases ht with
    | none => simp [h1] at h
    | some p =>
      obtain ⟨s, m⟩ := p
      simp [h1] at h
      exact ⟨s, ts, by simp [h]⟩

theorem prune_get {kind : BlockKind} {db db' : Db BRow} {stop : Nat} {n : Option Nat} {fuel count : Nat}
    (h : pruneUntil kind fuel db stop { pageSize := n } = some (.ok (db', count))) (hstop : stop < 2 ^ 64) :
    (∀ k, k.head? ≠ some kind.pre → db'.get k = db.get k) ∧
    (∀ m, m < 2 ^ 64 → db'.get (blockKey kind m) = if m < stop then none else db.get (blockKey kind m)) := by
  have hg := (deletePaginated_get h).1
  constructor
  · intro k hk
    rw [hg]
    exact if_neg (not_between_of_head (p := kind.pre) (a := be 8 0) (b := be 8 stop) hk)
  · intro m hm
    rw [hg]
    have h1 := blockKey_blt (kind := kind) hm hstop
    have h2 := blockKey_blt (kind := kind) hm (n := 0) (by decide)
    have h2' : Bytes.blt (blockKey kind m) (blockKey kind 0) = false := by
      cases hc : Bytes.blt (blockKey kind m) (blockKey kind 0) with
      | false => rfl
      | true => exact absurd (h2.1 hc) (by omega)
    by_cases hlt : m < stop
    · rw [if_pos ⟨h2', h1.2 hlt⟩, if_pos hlt]
    · rw [if_neg (fun c => hlt (h1.1 c.2)), if_neg hlt]

theorem prune_rows {kind : BlockKind} {db db' : Db BRow} {stop : Nat} {n : Option Nat} {fuel count : Nat}
    (h : pruneUntil kind fuel db stop { pageSize := n } = some (.ok (db', count))) {k : Bytes} {v : BRow}
    (hk : db'.get k = some v) : db.get k = some v := by
  rw [(deletePaginated_get h).1] at hk
  split at hk
  · simp at hk
  · exact hk

theorem blockKey_head (kind : BlockKind) (n : Nat) : (blockKey kind n).head? = some kind.pre := rfl
theorem timeKey_head (s t : Nat) : (timeKey s t).head? = some 18 := rfl

theorem reach_binv {kind : BlockKind} {ops : List BOp} {db : Db BRow} (h : BlockHistory kind ops db)
    (hf : ∀ op ∈ ops, OpFits kind op) : BInv kind ops db := by
  induction h with
  | start => exact ⟨by simp, by simp [storedBlocks], by simp [storedBlocks]⟩
  | @step ops db op db' h hs ih =>
    have ih := ih (fun o ho => hf o (by simp [ho]))
    have hop := hf op (by simp)
    cases op with
    | put b =>
      simp only [BlockStep] at hs
      cases hn : b.number? with
      | none =>
        obtain ⟨e, he⟩ := putBlock_none (kind := kind) (db := db) hn
        rw [he] at hs
        simp only at hs
        subst hs
        have : storedBlocks (ops ++ [.put b]) = storedBlocks ops := by
          funext m; rw [storedBlocks_snoc]; simp [blocksAfter, hn]
        exact ⟨ih.rows, by rw [this]; exact ih.agree, by rw [this]; exact ih.high⟩
      | some n =>
        obtain ⟨s, t, hb⟩ := head_of_number hn
        obtain ⟨d, hd, hg⟩ := putBlock_get (kind := kind) (db := db) hb
        rw [hd] at hs
        simp only at hs
        subst hs
        have hfit := (hop _ hb).2 s n rfl
        refine ⟨?_, ?_, ?_⟩
        · intro k v hv hk
          rw [hg] at hv
          split at hv
          · rename_i hc
            rw [hc.1, timeKey_head] at hk
            exact absurd (Option.some.inj hk).symm kind.pre_ne
          · split at hv
            · rename_i hc
              simp only [Option.some.injEq] at hv
              exact ⟨n, b, hfit.2, hc, hv.symm, hn⟩
            · exact ih.rows k v hv hk
        · intro m hm
          rw [hg, storedBlocks_snoc]
          rw [if_neg (by
            rintro ⟨hc, _⟩
            have := congrArg List.head? hc
            rw [blockKey_head, timeKey_head] at this
            exact kind.pre_ne (Option.some.inj this))]
          simp only [blocksAfter, hn, Option.some.injEq]
          by_cases hmn : n = m
          · subst hmn; simp
          · rw [if_neg hmn, if_neg (fun e => hmn (blockKey_inj hm hfit.2 e).symm)]
            exact ih.agree m hm
        · intro m hm
          rw [storedBlocks_snoc]
          simp only [blocksAfter, hn, Option.some.injEq]
          rw [if_neg (by omega)]
          exact ih.high m hm
    | prune stop n =>
      obtain ⟨fuel, count, hp⟩ := hs
      have hg := prune_get hp hop
      refine ⟨fun k v hv hk => ih.rows k v (prune_rows hp hv) hk, ?_, ?_⟩
      · intro m hm
        rw [hg.2 m hm, storedBlocks_snoc]
        simp only [blocksAfter]
        split
        · rfl
        · exact ih.agree m hm
      · intro m hm
        rw [storedBlocks_snoc]
        simp only [blocksAfter]
        split
        · rfl
        · exact ih.high m hm
    | other k v =>
      have hst : storedBlocks (ops ++ [.other k v]) = storedBlocks ops := by
        funext m; rw [storedBlocks_snoc]; rfl
      have hget : ∀ j, j.head? = some kind.pre → db'.get j = db.get j := by
        intro j hj
        have hne : j ≠ k := fun e => hop.1 (e ▸ hj)
        cases v with
        | none => simp only [BlockStep] at hs; rw [hs, OMap.get_del_ne _ hne]
        | some w => simp only [BlockStep] at hs; rw [hs, OMap.get_put_ne _ _ hne]
      refine ⟨fun j w hw hj => ih.rows j w (by rw [← hget j hj]; exact hw) hj, ?_, by rw [hst]; exact ih.high⟩
      intro m hm
      rw [hget _ (blockKey_head kind m), hst]
      exact ih.agree m hm

theorem stored_number {kind : BlockKind} {ops : List BOp} {db : Db BRow} (hi : BInv kind ops db) {n : Nat} {b : SBlock}
    (h : storedBlocks ops n = some b) : n < 2 ^ 64 ∧ b.number? = some n := by
  have hn : n < 2 ^ 64 := by
    refine Nat.lt_of_not_le (fun hc => ?_)
    rw [hi.high n hc] at h; simp at h
  refine ⟨hn, ?_⟩
  have := hi.agree n hn
  rw [h] at this
  obtain ⟨m, b', hm, e1, e2, e3⟩ := hi.rows _ _ this (blockKey_head kind n)
  simp only [BRow.block.injEq] at e2
  have := blockKey_inj hn hm e1
  subst this; subst e2
  exact e3

/-! ### Ranges -/

theorem blt_stopKey {kind : BlockKind} {n : Nat} {stop : Option Nat} (hn : n < 2 ^ 64) (hs : ∀ s, stop = some s → s < 2 ^ 64) :
    Bytes.blt (blockKey kind n) (stopKey kind stop) = true ↔ ∀ s, stop = some s → n < s := by
  cases stop with
  | none =>
    have := ((numKey_range kind.pre_lt hn (lo := 0) (by decide)).2 (by omega)).2
    simp only [stopKey, blockKey, numKey] at this ⊢
    simp [this]
  | some s =>
    simp only [stopKey, Option.some.injEq, forall_eq']
    exact blockKey_blt hn (hs s rfl)

/-- A stored row in the range of the scan is a block of the range. -/
theorem scan_row {kind : BlockKind} {ops : List BOp} {db : Db BRow} (hi : BInv kind ops db) {start : Nat}
    {stop : Option Nat} (hstart : start < 2 ^ 64) (hs : ∀ s, stop = some s → s < 2 ^ 64) {rev : Bool} {r : Bytes × BRow} :
    r ∈ scanRows db (blockKey kind start) (stopKey kind stop) rev ↔
      ∃ n b, InRange start stop n ∧ storedBlocks ops n = some b ∧ r = (blockKey kind n, .block b) := by
  rw [mem_scanRows]
  obtain ⟨k, v⟩ := r
  constructor
  · rintro ⟨h1, h2, h3⟩
    have hg := db.get_eq_some_iff.2 h1
    have hhead : k.head? = some kind.pre := by
      refine Classical.byContradiction (fun hc => ?_)
      cases stop with
      | some s => exact not_between_of_head (a := be 8 start) (b := be 8 s) hc ⟨h2, h3⟩
      | none =>
        simp only [stopKey] at h2 h3
        cases k with
        | nil => simp [blockKey, Bytes.blt] at h2
        | cons c l =>
          have hc' : c ≠ kind.pre := by simpa using hc
          have hne : c.toNat ≠ kind.pre.toNat := fun e => hc' (UInt8.toNat_inj' e)
          simp only [blockKey, Bytes.blt] at h2 h3
          have hp : (kind.pre + 1).toNat = kind.pre.toNat + 1 := by cases kind <;> rfl
          rw [hp] at h3
          by_cases hlt : c.toNat < kind.pre.toNat
          · simp [hlt] at h2
          · have h4 : ¬ c.toNat < kind.pre.toNat + 1 := by omega
            simp [h4] at h3
    obtain ⟨n, b, hn, rfl, rfl, hb⟩ := hi.rows _ _ hg hhead
    refine ⟨n, b, ⟨?_, (blt_stopKey hn hs).1 h3⟩, ?_, rfl⟩
    · have := blockKey_blt (kind := kind) hn hstart
      refine Nat.le_of_not_lt (fun hc => ?_)
      rw [this.2 hc] at h2; simp at h2
    · rw [hi.agree n hn] at hg
      cases hst : storedBlocks ops n with
      | none => rw [hst] at hg; simp at hg
      | some b' => rw [hst] at hg; simp at hg; rw [hg]
  · rintro ⟨n, b, ⟨h1, h2⟩, hst, e⟩
    simp only [Prod.mk.injEq] at e
    obtain ⟨rfl, rfl⟩ := e
    have hn := (stored_number hi hst).1
    refine ⟨db.get_eq_some_iff.1 (by rw [hi.agree n hn, hst]; rfl), ?_, (blt_stopKey hn hs).2 h2⟩
    have := blockKey_blt (kind := kind) hn hstart
    cases hc : Bytes.blt (blockKey kind n) (blockKey kind start) with
    | false => rfl
    | true => exact absurd (this.1 hc) (by omega)

theorem scan_decodes {kind : BlockKind} {ops : List BOp} {db : Db BRow} (hi : BInv kind ops db) {start : Nat}
    {stop : Option Nat} (hstart : start < 2 ^ 64) (hs : ∀ s, stop = some s → s < 2 ^ 64) {rev : Bool} :
    ∀ r ∈ scanRows db (blockKey kind start) (stopKey kind stop) rev, (r.2.decode).isSome := by
  intro r hr
  obtain ⟨n, b, _, _, rfl⟩ := (scan_row hi hstart hs).1 hr
  rfl

/-- The blocks a range scan meets, ascending. -/
def scanBlocks (kind : BlockKind) (db : Db BRow) (start : Nat) (stop : Option Nat) : List SBlock :=
  (scanRows db (blockKey kind start) (stopKey kind stop) false).filterMap (fun r => r.2.decode)

theorem scanRows_rev {V : Type} (db : Db V) (lo hi : Bytes) (rev : Bool) :
    scanRows db lo hi rev = inDirection rev (scanRows db lo hi false) := by
  cases rev <;> simp [scanRows, inDirection]

theorem scanBlocks_lists {kind : BlockKind} {ops : List BOp} {db : Db BRow} (hi : BInv kind ops db) {start : Nat}
    {stop : Option Nat} (hstart : start < 2 ^ 64) (hs : ∀ s, stop = some s → s < 2 ^ 64) :
    ListsRange (storedBlocks ops) start stop (scanBlocks kind db start stop) := by
  constructor
  · intro b
    unfold scanBlocks
    rw [List.mem_filterMap]
    constructor
    · rintro ⟨r, hr, e⟩
      obtain ⟨n, b', h1, h2, rfl⟩ := (scan_row hi hstart hs).1 hr
      simp only [BRow.decode, Option.some.injEq] at e
      subst e
      exact ⟨n, h1, h2⟩
    · rintro ⟨n, h1, h2⟩
      exact ⟨_, (scan_row hi hstart hs).2 ⟨n, b, h1, h2, rfl⟩, rfl⟩
  · unfold scanBlocks
    rw [List.pairwise_filterMap]
    have hd := scanRows_dirSorted db (blockKey kind start) (stopKey kind stop) false
    refine List.Pairwise.imp_of_mem ?_ hd
    intro r r' hr hr' hlt b hb b' hb'
    obtain ⟨n, c, _, h2, rfl⟩ := (scan_row hi hstart hs).1 hr
    obtain ⟨n', c', _, h2', rfl⟩ := (scan_row hi hstart hs).1 hr'
    simp only [BRow.decode, Option.some.injEq] at hb hb'
    subst hb; subst hb'
    obtain ⟨k1, k2⟩ := stored_number hi h2
    obtain ⟨k3, k4⟩ := stored_number hi h2'
    exact ⟨n, n', k2, k4, (blockKey_blt k1 k3).1 hlt⟩

theorem blocksInRange_eq (kind : BlockKind) (db : Db BRow) (po : PageOptions) (start : Nat) (stop : Option Nat) :
    blocksInRange kind db po start stop = rangePage BRow.decode db (blockKey kind start) (stopKey kind stop)
      po (po.pageSize.getD eventPageSizeMax) (fun _ => true) := by
  unfold blocksInRange rangePage forEachPaged
  simp only
  generalize scanRows db _ _ po.reverse = rows
  have hstep : collectBlock (po.pageSize.getD eventPageSizeMax) =
      pageStep BRow.decode (fun _ => true) (po.pageSize.getD eventPageSizeMax) := by
    funext s k v
    simp only [collectBlock, pageStep, if_true]
    cases v.decode <;> rfl
  rw [hstep]
  cases hn : po.pageSize with
  | none =>
    cases iterate none (pageStep BRow.decode (fun _ => true) (none.getD eventPageSizeMax)) rows 0 ([], []) <;> rfl
  | some n =>
    have := iterate_limit_eq BRow.decode n rows [] [] (by simp; omega)
    simp only [List.length_nil] at this
    simp only [Option.getD_some]
    cases h1 : iterate (some n) (pageStep BRow.decode (fun _ => true) n) rows 0 ([], []) with
    | error e =>
      rw [h1] at this
      cases h2 : iterate none (pageStep BRow.decode (fun _ => true) n) rows 0 ([], []) with
      | error e' => rw [h2] at this; simp [Except.map] at this; simp [this]
      | ok x => rw [h2] at this; simp [Except.map] at this
    | ok x =>
      rw [h1] at this
      cases h2 : iterate none (pageStep BRow.decode (fun _ => true) n) rows 0 ([], []) with
      | error e' => rw [h2] at this; simp [Except.map] at this
      | ok y =>
        rw [h2] at this
        simp [Except.map] at this
        obtain ⟨x1, x2⟩ := x; obtain ⟨y1, y2⟩ := y
        simp only at this
        subst this
        rfl

theorem blocks_follow {kind : BlockKind} {ops : List BOp} {db : Db BRow} (hi : BInv kind ops db) {start : Nat}
    {stop : Option Nat} (hstart : start < 2 ^ 64) (hs : ∀ s, stop = some s → s < 2 ^ 64) (n : Option Nat) (rev : Bool) :
    FollowTokens (fun t => blocksInRange kind db { pageSize := n, pageToken := t, reverse := rev } start stop) none
      (inDirection rev (scanBlocks kind db start stop)) := by
  have h := follow_range BRow.decode db (blockKey kind start) (stopKey kind stop) (by simp [blockKey]) rev
    (scan_decodes hi hstart hs) n (n.getD eventPageSizeMax) (fun _ => true)
  have e : (((scanRows db (blockKey kind start) (stopKey kind stop) rev).filterMap (fun r => r.2.decode)).filter
      (fun _ => true)) = inDirection rev (scanBlocks kind db start stop) := by
    rw [scanRows_rev]
    unfold scanBlocks
    cases rev
    · simp [inDirection]
    · simp only [inDirection, if_true, List.filterMap_reverse]
      simp
  rw [e] at h
  simp only [blocksInRange_eq]
  exact h

theorem follow_loop {kind : BlockKind} {db : Db BRow} {start : Nat} {stop : Option Nat} {t : Option Bytes} {ms : List SBlock}
    (h : FollowTokens (fun t => blocksInRange kind db { pageSize := some 100, pageToken := t } start stop) t ms) :
    ∃ pages, ∀ fuel ≥ pages, ∀ acc, allBlocks kind db start stop fuel t acc = some (.ok (acc ++ ms)) := by
  induction h with
  | @last t ms h =>
    refine ⟨1, fun fuel hf acc => ?_⟩
    obtain ⟨f, rfl⟩ : ∃ f, fuel = f + 1 := ⟨fuel - 1, by omega⟩
    simp only [allBlocks, h]
  | @next t t' ms rest h _ ih =>
    obtain ⟨pages, ih⟩ := ih
    refine ⟨pages + 1, fun fuel hf acc => ?_⟩
    obtain ⟨f, rfl⟩ : ∃ f, fuel = f + 1 := ⟨fuel - 1, by omega⟩
    simp only [allBlocks, h]
    rw [ih f (by omega)]
    simp

/-! ### First and last -/

theorem iterate_one (rows : List (Bytes × BRow)) (hd : ∀ r ∈ rows, (r.2.decode).isSome) :
    (iterate none (pageStep BRow.decode (fun _ => true) 1) rows 0 ([], [])).map (fun x => x.1.1) =
      .ok ((rows.filterMap (fun r => r.2.decode)).head?.toList) := by
  cases rows with
  | nil => rfl
  | cons r rows =>
    obtain ⟨k, v⟩ := r
    have := hd (k, v) (by simp)
    obtain ⟨b, hb⟩ := Option.isSome_iff_exists.1 this
    simp only at hb
    simp [iterate, pageStep, hb, Except.map]

theorem firstOrLast_eq {kind : BlockKind} {ops : List BOp} {db : Db BRow} (hi : BInv kind ops db) (last : Bool) :
    firstOrLast kind db last = .ok (inDirection last (scanBlocks kind db 0 none)).head? := by
  have hd := scan_decodes hi (start := 0) (stop := none) (by decide) (by simp) (rev := last)
  have h := iterate_one _ hd
  have hb : iterBounds (some (blockKey kind 0)) (some (stopKey kind none))
      { pageSize := some 1, reverse := last } = (blockKey kind 0, stopKey kind none) := by
    cases last <;> rfl
  have e : ((scanRows db (blockKey kind 0) (stopKey kind none) last).filterMap (fun r => r.2.decode)) =
      inDirection last (scanBlocks kind db 0 none) := by
    rw [scanRows_rev]
    unfold scanBlocks
    cases last
    · rfl
    · simp only [inDirection, if_true, List.filterMap_reverse]
  rw [e] at h
  unfold firstOrLast
  rw [blocksInRange_eq]
  unfold rangePage
  rw [hb]
  simp only [Option.getD_some]
  cases hit : iterate none (pageStep BRow.decode (fun _ => true) 1)
      (scanRows db (blockKey kind 0) (stopKey kind none) last) 0 ([], []) with
  | error e => rw [hit] at h; simp [Except.map] at h
  | ok x =>
    obtain ⟨⟨ms, lk⟩, fl⟩ := x
    rw [hit] at h
    simp only [Except.map, Except.ok.injEq] at h
    subst h
    simp only
    cases (inDirection last (scanBlocks kind db 0 none)).head? <;> simp

/-! ### One page of a prune -/

theorem prune_page {kind : BlockKind} {db : Db BRow} {stop : Nat} {n : Option Nat} (hstop : stop < 2 ^ 64)
    (hrows : ∀ k v, db.get k = some v → k.head? = some kind.pre → ∃ m, m < 2 ^ 64 ∧ k = blockKey kind m) :
    ∃ db' c, deletePage db (some (blockKey kind 0)) (some (blockKey kind stop)) { pageSize := n } = .ok (db', c) ∧
      (∀ k, k.head? ≠ some kind.pre → db'.get k = db.get k) ∧
      ∃ b, b ≤ stop ∧ ∀ m, m < 2 ^ 64 → db'.get (blockKey kind m) = if m < b then none else db.get (blockKey kind m) := by
  have hp := deletePage_eq db (some (blockKey kind 0)) (some (blockKey kind stop)) { pageSize := n }
  have hb : iterBounds (some (blockKey kind 0)) (some (blockKey kind stop)) { pageSize := n } =
      (blockKey kind 0, blockKey kind stop) := rfl
  simp only [hb] at hp
  generalize hrw : scanRows db (blockKey kind 0) (blockKey kind stop) false = rows at hp
  generalize pageRows n rows.length = j at hp
  have hdir : DirSorted false rows := by rw [← hrw]; exact scanRows_dirSorted _ _ _ _
  have hdist : (rows.take j).Pairwise (fun a b => a.1 ≠ b.1) := (dirSorted_distinct hdir).sublist (List.take_sublist _ _)
  have hget := deletePage_get db (rows.take j) hdist
  have hnum : ∀ r ∈ rows, ∃ m, m < 2 ^ 64 ∧ m < stop ∧ r.1 = blockKey kind m := by
    intro r hr
    rw [← hrw, mem_scanRows] at hr
    have hg := db.get_eq_some_iff.2 hr.1
    have hh : r.1.head? = some kind.pre :=
      Classical.byContradiction (fun hc => not_between_of_head (a := be 8 0) (b := be 8 stop) hc hr.2)
    obtain ⟨m, hm, e⟩ := hrows _ _ hg hh
    refine ⟨m, hm, ?_, e⟩
    have := hr.2.2
    rw [e] at this
    exact (blockKey_blt hm hstop).1 this
  have hin : ∀ m v, m < stop → m < 2 ^ 64 → db.get (blockKey kind m) = some v → (blockKey kind m, v) ∈ rows := by
    intro m v h1 h2 h3
    rw [← hrw, mem_scanRows]
    refine ⟨db.get_eq_some_iff.1 h3, ?_, (blockKey_blt h2 hstop).2 h1⟩
    have := blockKey_blt (kind := kind) h2 (n := 0) (by decide)
    simp only
    cases hc : Bytes.blt (blockKey kind m) (blockKey kind 0) with
    | false => rfl
    | true => exact absurd (this.1 hc) (by omega)
  refine ⟨_, _, hp, ?_, ?_⟩
  · intro k hk
    rw [hget, if_neg]
    intro hmem
    obtain ⟨r, hr, e⟩ := List.mem_map.1 hmem
    obtain ⟨m, _, _, e'⟩ := hnum r (List.mem_of_mem_take hr)
    rw [← e, e'] at hk
    exact hk rfl
  · cases hd : rows.drop j with
    | nil =>
      refine ⟨stop, Nat.le_refl _, ?_⟩
      intro m hm
      have htake : rows.take j = rows := by
        have := List.take_append_drop j rows
        rw [hd, List.append_nil] at this
        exact this
      rw [hget, htake]
      by_cases hlt : m < stop
      · rw [if_pos hlt]
        cases hg : db.get (blockKey kind m) with
        | none => simp
        | some v =>
          rw [if_pos]
          exact List.mem_map.2 ⟨_, hin m v hlt hm hg, rfl⟩
      · rw [if_neg hlt, if_neg]
        intro hmem
        obtain ⟨r, hr, e⟩ := List.mem_map.1 hmem
        obtain ⟨m', h1, h2, e'⟩ := hnum r hr
        rw [e'] at e
        have := blockKey_inj h1 hm e
        omega
    | cons r rest =>
      have hrm : r ∈ rows := List.mem_of_mem_drop (by rw [hd]; simp)
      obtain ⟨b, hb1, hb2, hbe⟩ := hnum r hrm
      refine ⟨b, by omega, ?_⟩
      intro m hm
      rw [← List.take_append_drop j rows, hd] at hdir
      have hpa := List.pairwise_append.1 hdir
      rw [hget]
      by_cases hlt : m < b
      · rw [if_pos hlt]
        cases hg : db.get (blockKey kind m) with
        | none => simp
        | some v =>
          have hmem := hin m v (by omega) hm hg
          rw [← List.take_append_drop j rows, hd] at hmem
          rw [if_pos]
          rcases List.mem_append.1 hmem with h | h
          · exact List.mem_map.2 ⟨_, h, rfl⟩
          · exfalso
            rcases List.mem_cons.1 h with h | h
            · rw [← h] at hbe
              have := blockKey_inj hm hb1 hbe
              omega
            · have := (List.pairwise_cons.1 hpa.2.1).1 _ h
              simp only [Bool.false_eq_true, if_false] at this
              rw [hbe] at this
              have := (blockKey_blt hb1 hm).1 this
              omega
      · rw [if_neg hlt, if_neg]
        intro hmem
        obtain ⟨q, hq, e⟩ := List.mem_map.1 hmem
        have := hpa.2.2 q hq r (by simp)
        simp only [Bool.false_eq_true, if_false] at this
        rw [e, hbe] at this
        exact hlt ((blockKey_blt hm hb1).1 this)

end Verif
