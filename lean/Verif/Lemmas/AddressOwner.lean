import Verif.Model.AddressOwner
import Verif.Lemmas.StoreLaws
/-! Selecting the owner of an address. -/
namespace Verif
namespace AddressOwner

theorem le_total (a b : Nat × Bytes) : candidateLe a b = true ∨ candidateLe b a = true := by
  unfold candidateLe
  rcases Bytes.blt_tri a.2 b.2 with h | h | h <;> simp [h]; omega

theorem le_trans {a b c : Nat × Bytes} (h : candidateLe a b = true) (h' : candidateLe b c = true) :
    candidateLe a c = true := by
  unfold candidateLe at *
  simp only [Bool.or_eq_true, Bool.and_eq_true, beq_iff_eq, decide_eq_true_eq] at *
  rcases h with h | ⟨h, h1⟩ <;> rcases h' with h' | ⟨h', h1'⟩
  · exact .inl (Bytes.blt_trans h h')
  · left; rw [← h']; exact h
  · left; rw [h]; exact h'
  · right; exact ⟨h.trans h', by omega⟩

theorem le_antisymm {a b : Nat × Bytes} (h : candidateLe a b = true) (h' : candidateLe b a = true) : a = b := by
  unfold candidateLe at *
  simp only [Bool.or_eq_true, Bool.and_eq_true, beq_iff_eq, decide_eq_true_eq] at *
  have irr := Bytes.blt_irrefl
  rcases h with h | ⟨h, h1⟩ <;> rcases h' with h' | ⟨h', h1'⟩
  · have := Bytes.blt_trans h h'; simp [irr] at this
  · rw [h', irr] at h; cases h
  · rw [h, irr] at h'; cases h'
  · exact Prod.ext (by omega) h

theorem fold_some (l : List (Nat × Bytes)) (b : Nat × Bytes) :
    ∃ w, l.foldl maxStep (some b) = some w ∧ w ∈ b :: l ∧ ∀ c ∈ b :: l, candidateLe c w = true := by
  induction l generalizing b with
  | nil =>
    refine ⟨b, rfl, by simp, ?_⟩
    intro c hc; simp at hc; subst hc
    rcases le_total c c with h | h <;> exact h
  | cons a l ih =>
    simp only [List.foldl_cons, maxStep]
    by_cases h : candidateLe b a = true
    · rw [if_pos h]
      obtain ⟨w, h1, h2, h3⟩ := ih a
      refine ⟨w, h1, by grind, ?_⟩
      intro c hc
      rcases List.mem_cons.1 hc with rfl | hc
      · exact le_trans h (h3 a (by simp))
      · exact h3 c hc
    · rw [if_neg h]
      obtain ⟨w, h1, h2, h3⟩ := ih b
      have hab : candidateLe a b = true := (le_total a b).resolve_right h
      refine ⟨w, h1, by grind, ?_⟩
      intro c hc
      rcases List.mem_cons.1 hc with rfl | hc
      · exact h3 c (by simp)
      · rcases List.mem_cons.1 hc with rfl | hc
        · exact le_trans hab (h3 b (by simp))
        · exact h3 c (List.mem_cons_of_mem _ hc)

theorem fold_spec (l : List (Nat × Bytes)) :
    (l = [] ∧ l.foldl maxStep none = none) ∨
      ∃ w, l.foldl maxStep none = some w ∧ w ∈ l ∧ ∀ c ∈ l, candidateLe c w = true := by
  cases l with
  | nil => exact .inl ⟨rfl, rfl⟩
  | cons a l => exact .inr (fold_some l a)

theorem get_filter_rows {t : Txn SVal} (p : Bytes → Bool) (k : Bytes) :
    OMapL.get k (t.rows.filter (fun r => p r.1)) = if p k then t.get k else none := by
  have hs : OMapL.Sorted (t.rows.filter (fun r => p r.1)) := List.Pairwise.filter _ t.sorted
  cases hv : OMapL.get k (t.rows.filter (fun r => p r.1)) with
  | some v =>
    have := (OMapL.get_eq_some_iff hs).1 hv
    obtain ⟨h1, h2⟩ := List.mem_filter.1 this
    rw [if_pos h2]
    exact ((OMap.get_eq_some_iff t).2 h1).symm
  | none =>
    split
    · rename_i hp
      cases hg : t.get k with
      | none => rfl
      | some v =>
        have := (OMap.get_eq_some_iff t).1 hg
        rw [(OMapL.get_eq_some_iff hs).2 (List.mem_filter.2 ⟨this, hp⟩)] at hv
        cases hv
    · rfl

theorem records_get {db : Db SVal} {t : Txn SVal} {a : Bytes} :
    ∃ R, addressRecords db (some t) (14 :: a) = .ok R ∧
      ∀ k, (14 :: a).length ≤ k.length → R.get k = if (14 :: a) <+: k then getFromDbOrTxn db t k else none := by
  have hp : ∃ b ∈ (14 :: a : Bytes), b ≠ 255 := ⟨14, by simp, by decide⟩
  unfold addressRecords forEachByPrefix forEachPaged
  have hit := iterate_none_cont (fun (s : OMap Bytes SVal) k v => s.put k v)
    (scanRows db (14 :: a) (incrementVec (14 :: a)) false) 0 OMap.empty
  have hit' : iterate none collectRow (scanRows db (14 :: a) (incrementVec (14 :: a)) false) 0 OMap.empty = _ := hit
  simp only [iterBounds]
  rw [if_neg (by simp), if_neg (by simp), hit']
  refine ⟨_, rfl, ?_⟩
  intro k hk
  rw [Db.get_foldl_applyRow _ (List.Pairwise.filter _ t.sorted), get_filter_rows (fun k => (14 :: a).isPrefixOf k)]
  have hss : OMapL.Sorted (scanRows db (14 :: a) (incrementVec (14 :: a)) false) := by
    simpa [DirSorted, OMapL.Sorted] using scanRows_dirSorted db (14 :: a) (incrementVec (14 :: a)) false
  rw [Txn.get_foldl_put _ hss]
  have hscan : OMapL.get k (scanRows db (14 :: a) (incrementVec (14 :: a)) false) =
      if (14 :: a) <+: k then db.get k else none := by
    cases hv : OMapL.get k (scanRows db (14 :: a) (incrementVec (14 :: a)) false) with
    | some v =>
      obtain ⟨h1, h2⟩ := mem_scanRows.1 ((OMapL.get_eq_some_iff hss).1 hv)
      rw [if_pos ((mem_range_iff_prefix hp hk).1 h2)]
      exact ((OMap.get_eq_some_iff db).2 h1).symm
    | none =>
      split
      · rename_i hpre
        cases hg : db.get k with
        | none => rfl
        | some v =>
          have := (OMap.get_eq_some_iff db).1 hg
          rw [(OMapL.get_eq_some_iff hss).2 (mem_scanRows.2 ⟨this, (mem_range_iff_prefix hp hk).2 hpre⟩)] at hv
          cases hv
      · rfl
  rw [hscan]
  by_cases hpre : (14 :: a) <+: k
  · have hb : (14 :: a).isPrefixOf k = true := List.isPrefixOf_iff_prefix.2 hpre
    simp only [hb, if_true, if_pos hpre, getFromDbOrTxn]
    cases t.get k with
    | some v => rfl
    | none => simp only; cases db.get k <;> rfl
  · have hb : (14 :: a).isPrefixOf k = false := by
      cases h : (14 :: a).isPrefixOf k with
      | false => rfl
      | true => exact absurd (List.isPrefixOf_iff_prefix.1 h) hpre
    simp [hb, if_neg hpre]

/-- The candidates of an address are its index rows. -/
theorem entries_mem {db : Db SVal} {t : Txn SVal} {a : Bytes} (ha : a ≠ []) :
    ∃ es, verificationsByAddress db (some t) a = .ok es ∧ ∀ f th, (f, th) ∈ es ↔
      f < 2 ^ 32 ∧ th.length = 24 ∧
        getFromDbOrTxn db t (RowKey.verificationByAddress a f).bytes = some (.raw th) := by
  obtain ⟨R, hR, hget⟩ := records_get (db := db) (t := t) (a := a)
  unfold verificationsByAddress
  rw [if_neg ha, hR]
  refine ⟨_, rfl, ?_⟩
  intro f th
  rw [List.mem_filterMap]
  constructor
  · rintro ⟨⟨k, v⟩, hkv, he⟩
    cases v with
    | raw b =>
      simp only [addressEntry] at he
      split at he
      · rename_i hl
        simp only [Option.some.injEq, Prod.mk.injEq] at he
        obtain ⟨rfl, rfl⟩ := he
        have hg := (OMap.get_eq_some_iff R).2 hkv
        rw [hget k (by omega)] at hg
        split at hg
        · rename_i hpre
          obtain ⟨r, hr⟩ := hpre
          have hlr : r.length = 4 := by
            have := congrArg List.length hr; simp at this hl; omega
          have hd : k.drop (14 :: a).length = r := by rw [← hr]; simp
          refine ⟨?_, hl.2, ?_⟩
          · rw [hd]; have := fromBe_lt r; rw [hlr] at this; omega
          · rw [hd]
            have : (RowKey.verificationByAddress a (fromBe r)).bytes = k := by
              simp only [RowKey.bytes, makeFidKey]
              have hb : be 4 (fromBe r) = r := by rw [← hlr]; exact be_fromBe r
              rw [hb, ← hr]; rfl
            rw [this]; exact hg
        · cases hg
      · cases he
    | msg m => simp [addressEntry] at he
    | event i e => simp [addressEntry] at he
  · rintro ⟨hf, hth, hg⟩
    have hkl : (RowKey.verificationByAddress a f).bytes.length = (14 :: a).length + 4 := by
      simp [RowKey.bytes, makeFidKey]
    refine ⟨((RowKey.verificationByAddress a f).bytes, .raw th), ?_, ?_⟩
    · rw [← OMap.get_eq_some_iff, hget _ (by rw [hkl]; omega), if_pos ⟨makeFidKey f, rfl⟩]
      exact hg
    · simp only [addressEntry]
      rw [if_pos ⟨hkl, hth⟩]
      have hd : (RowKey.verificationByAddress a f).bytes.drop (14 :: a).length = makeFidKey f := by
        show ((14 :: a) ++ makeFidKey f).drop (14 :: a).length = _
        simp
      rw [hd]
      simp [makeFidKey, fromBe_be_of_lt (w := 4) (n := f) (by omega)]

end AddressOwner
end Verif
