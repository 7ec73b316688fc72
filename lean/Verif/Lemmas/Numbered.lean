import Verif.Model.BlockEvents
import Verif.Lemmas.KV
/-! Rows keyed by a prefix byte and a big-endian number. -/
namespace Verif

/-- A prefix byte followed by eight bytes of a number. -/
def numKey (p : UInt8) (n : Nat) : Bytes := p :: be 8 n

theorem numKey_inj {p : UInt8} {m n : Nat} (hm : m < 2 ^ 64) (hn : n < 2 ^ 64) (h : numKey p m = numKey p n) : m = n := by
  simp only [numKey, List.cons.injEq, true_and] at h
  exact be_inj (w := 8) hm hn h

theorem numKey_blt {p : UInt8} {m n : Nat} (hm : m < 2 ^ 64) (hn : n < 2 ^ 64) :
    Bytes.blt (numKey p m) (numKey p n) = true ↔ m < n := by
  have := be_blt_iff (w := 8) hm hn
  simp only [numKey, Bytes.blt]
  simpa using this

/-- Keys of another prefix byte stay outside the range of a prefix byte. -/
theorem numKey_range {p : UInt8} {n : Nat} (hp : p.toNat < 255) (h : n < 2 ^ 64) {lo : Nat} (hlo : lo < 2 ^ 64) :
    (¬ Bytes.blt (numKey p n) (numKey p lo) = true ∧ Bytes.blt (numKey p n) [p + 1] = true) ↔ lo ≤ n := by
  rw [numKey_blt h hlo]
  have : Bytes.blt (numKey p n) [p + 1] = true := by
    have hlt : p < p + 1 := by
      rw [UInt8.lt_iff_toNat_lt, UInt8.toNat_add]
      have : (1 : UInt8).toNat = 1 := rfl
      omega
    simp only [numKey, Bytes.blt]
    rw [if_pos (UInt8.lt_iff_toNat_lt.1 hlt)]
  simp [this]

/-- In a database where every row from `numKey p 0` to the next prefix byte is a numbered row. -/
def Numbered {V : Type} (p : UInt8) (db : Db V) : Prop :=
  ∀ k v, db.get k = some v → ¬ Bytes.blt k (numKey p 0) = true → Bytes.blt k [p + 1] = true →
    ∃ n, n < 2 ^ 64 ∧ k = numKey p n

theorem scan_last {V : Type} {p : UInt8} (hp : p.toNat < 255) {db : Db V} (hn : Numbered p db) :
    match (scanRows db (numKey p 0) [p + 1] true).head? with
    | none => ∀ n, n < 2 ^ 64 → db.get (numKey p n) = none
    | some r => ∃ n, n < 2 ^ 64 ∧ r.1 = numKey p n ∧ db.get (numKey p n) = some r.2 ∧
        ∀ m, m < 2 ^ 64 → n < m → db.get (numKey p m) = none := by
  have hdir := scanRows_dirSorted db (numKey p 0) [p + 1] true
  cases hl : scanRows db (numKey p 0) [p + 1] true with
  | nil =>
    simp only [List.head?_nil]
    intro n hb
    cases hg : db.get (numKey p n) with
    | none => rfl
    | some v =>
      have : (numKey p n, v) ∈ scanRows db (numKey p 0) [p + 1] true := by
        rw [mem_scanRows]
        refine ⟨db.get_eq_some_iff.1 hg, ?_⟩
        have := (numKey_range hp hb (lo := 0) (by decide)).2 (by omega)
        simpa using this
      rw [hl] at this
      exact absurd this (by simp)
  | cons r rest =>
    simp only [List.head?_cons]
    have hr : r ∈ scanRows db (numKey p 0) [p + 1] true := by rw [hl]; simp
    have hr' := mem_scanRows.1 hr
    have hg := db.get_eq_some_iff.2 hr'.1
    obtain ⟨n, hb, hk⟩ := hn _ _ hg (by simpa using hr'.2.1) (by simpa using hr'.2.2)
    refine ⟨n, hb, hk, by rw [← hk]; exact hg, ?_⟩
    intro m hm hlt
    cases hgm : db.get (numKey p m) with
    | none => rfl
    | some v =>
      exfalso
      have hin : (numKey p m, v) ∈ scanRows db (numKey p 0) [p + 1] true := by
        rw [mem_scanRows]
        refine ⟨db.get_eq_some_iff.1 hgm, ?_⟩
        have := (numKey_range hp hm (lo := 0) (by decide)).2 (by omega)
        simpa using this
      rw [hl] at hin hdir
      rcases List.mem_cons.1 hin with e | hin
      · rw [← e] at hk
        have := numKey_inj hm hb hk
        omega
      · have h1 := (List.pairwise_cons.1 hdir).1 _ hin
        have h2 := (numKey_blt (p := p) hb hm).2 hlt
        rw [hk] at h1
        have h3 : Bytes.blt (numKey p m) (numKey p n) = true := h1
        rw [numKey_blt hm hb] at h3
        omega

end Verif
