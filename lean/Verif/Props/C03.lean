import Verif.Lemmas.Scan
/-!
# C03: prefix scans return exactly the rows with the prefix
-/
namespace Verif

/-- Collect every visited row. -/
def collectRows {V : Type} (s : List (Bytes × V)) (k : Bytes) (v : V) :
    Except HubErr (List (Bytes × V) × Bool) := .ok (s ++ [(k, v)], false)

theorem forEach_collect {V : Type} (db : Db V) (start stop : Option Bytes) (po : PageOptions) :
    forEachByPrefix db start stop po collectRows [] =
      .ok (scanRows db (iterBounds start stop po).1 (iterBounds start stop po).2 po.reverse, true) := by
  unfold forEachByPrefix forEachPaged collectRows
  simp only
  rw [iterate_none_cont (fun s k v => s ++ [(k, v)])]
  congr 2
  have : ∀ (l : List (Bytes × V)) acc, l.foldl (fun s r => s ++ [(r.1, r.2)]) acc = acc ++ l := by
    intro l
    induction l with
    | nil => simp
    | cons a m ih => intro acc; simp [ih]
  rw [this]
  rfl

/-- **C03.** A scan from a prefix to its successor visits exactly the rows whose key starts with the
prefix, ascending or (reversed) descending, provided the prefix has a byte below 255 and no stored key
is a proper prefix of the successor (see `C03_short_key` for why). -/
theorem C03_prefix_scan_exact {V : Type} (db : Db V) (p : Bytes) (hp : ∃ b ∈ p, b ≠ 255)
    (hs : NoShortKey db p) (rev : Bool) :
    forEachByPrefix db (some p) (some (incrementVec p)) { reverse := rev } collectRows []
      = .ok (inDirection rev (rowsStartingWith db p), true) := by
  rw [forEach_collect, ← scan_prefix_eq db p hp hs rev]
  cases rev <;> simp [iterBounds]

/-- The side condition holds whenever the last prefix byte is below 255. -/
theorem C03_last_byte_suffices {V : Type} (db : Db V) (q : Bytes) (b : UInt8) (hb : b ≠ 255)
    (rev : Bool) :
    forEachByPrefix db (some (q ++ [b])) (some (incrementVec (q ++ [b]))) { reverse := rev } collectRows []
      = .ok (inDirection rev (rowsStartingWith db (q ++ [b])), true) :=
  C03_prefix_scan_exact db _ ⟨b, by simp, hb⟩ (noShortKey_of_last db q b hb) rev

/-- The side condition holds whenever all stored keys are at least as long as the prefix. -/
theorem C03_long_keys_suffice {V : Type} (db : Db V) (p : Bytes) (hp : ∃ b ∈ p, b ≠ 255)
    (hl : ∀ r ∈ db.rows, p.length ≤ r.1.length) (rev : Bool) :
    forEachByPrefix db (some p) (some (incrementVec p)) { reverse := rev } collectRows []
      = .ok (inDirection rev (rowsStartingWith db p), true) :=
  C03_prefix_scan_exact db p hp (noShortKey_of_length db p hp hl) rev

/-- Visited rows come in strictly ascending (descending) key order. -/
theorem C03_order {V : Type} (db : Db V) (p : Bytes) (rev : Bool) (rows : List (Bytes × V))
    (h : forEachByPrefix db (some p) (some (incrementVec p)) { reverse := rev } collectRows []
      = .ok (rows, true)) :
    rows.Pairwise (fun a b => if rev then Bytes.blt b.1 a.1 = true else Bytes.blt a.1 b.1 = true) := by
  rw [forEach_collect] at h
  injection h with h
  injection h with h _
  rw [← h]
  exact scanRows_dirSorted db _ _ rev

/-- `count_keys_at_prefix` counts exactly the rows with the prefix. -/
theorem C03_count_exact {V : Type} (db : Db V) (p : Bytes) (hp : ∃ b ∈ p, b ≠ 255)
    (hs : NoShortKey db p) : countKeysAtPrefix db p = (rowsStartingWith db p).length := by
  have := scan_prefix_eq db p hp hs false
  simp only [inDirection, Bool.false_eq_true, if_false] at this
  simp [countKeysAtPrefix, iterBounds, this]

/-- For a nonempty all-255 prefix the scan visits nothing, whatever is stored. -/
theorem C03_all_255_empty {V : Type} (db : Db V) (p : Bytes) (hne : p ≠ []) (hp : ∀ b ∈ p, b = 255)
    (rev : Bool) :
    forEachByPrefix db (some p) (some (incrementVec p)) { reverse := rev } collectRows []
      = .ok ([], true) := by
  rw [forEach_collect]
  have hempty : ∀ r : Bytes × V, (!Bytes.blt r.1 p && Bytes.blt r.1 (incrementVec p)) = false := by
    intro r
    rw [incrementVec_all255 hp]
    cases p with
    | nil => exact absurd rfl hne
    | cons x p =>
      have hx := hp x (by simp)
      subst hx
      cases hr : r.1 with
      | nil => simp [Bytes.blt]
      | cons y k =>
        have h255 : (255 : UInt8).toNat = 255 := rfl
        have h1 : (1 : UInt8).toNat = 1 := rfl
        cases h2 : Bytes.blt (y :: k) (1 :: List.replicate (255 :: p).length 0) with
        | false => simp
        | true =>
          rcases blt_cons_replicate_zero h2 with h | ⟨h, _⟩
          · simp [Bytes.blt]; omega
          · subst h; simp [Bytes.blt]
  have : db.rows.filter (fun r => !Bytes.blt r.1 p && Bytes.blt r.1 (incrementVec p)) = [] := by
    rw [List.filter_eq_nil_iff]; intro r _; simp only [hempty r, Bool.false_eq_true, not_false_iff]
  cases rev <;> simp [iterBounds, scanRows, this]

/-- Why the side condition is needed: with the prefix `[1, 255]` the scan also visits the shorter key
`[2]`, which does not start with the prefix (the successor is `[2, 0]`, not `[2]`). -/
theorem C03_short_key :
    let db : Db Nat := OMap.empty.put [2] 7
    forEachByPrefix db (some [1, 255]) (some (incrementVec [1, 255])) {} collectRows []
      = .ok ([([2], 7)], true) ∧ rowsStartingWith db [1, 255] = [] := by
  constructor <;> rfl

/-- Exactly which keys a prefix scan visits, with no side condition. -/
theorem C03_range_characterisation (p k : Bytes) (hp : ∃ b ∈ p, b ≠ 255) :
    (Bytes.blt k p = false ∧ Bytes.blt k (incrementVec p) = true) ↔
      p <+: k ∨ (Bytes.blt p k = true ∧ k <+: incrementVec p ∧ k ≠ incrementVec p) :=
  mem_range_iff hp

/-- Non-vacuity: a prefix with a carry, keys on both sides of the range. -/
example :
    let db : Db Nat := (((OMap.empty.put [3, 0, 255, 9] 1).put [3, 1, 0, 0] 2).put [3, 0, 254, 255] 3).put
      [3, 0, 255] 4
    (∃ b ∈ ([3, 0, 255] : Bytes), b ≠ 255) ∧ NoShortKey db [3, 0, 255] ∧
      rowsStartingWith db [3, 0, 255] = [([3, 0, 255], 4), ([3, 0, 255, 9], 1)] := by
  refine ⟨⟨3, by simp, by decide⟩, noShortKey_of_length _ _ ⟨3, by simp, by decide⟩ ?_, rfl⟩
  intro r hr
  simp [OMap.put, OMapL.put, OMap.empty] at hr
  revert hr
  decide +revert

end Verif
