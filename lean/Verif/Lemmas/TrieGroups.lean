import Verif.Lemmas.TrieGood
/-! The loop over groups of keys. -/
namespace Verif
open OMapL

theorem copyResults_length (js : List Nat) (rs out : List Bool) : (copyResults js rs out).length = out.length := by
  induction js generalizing rs out with
  | nil => simp [copyResults]
  | cons j js ih => cases rs with
    | nil => simp [copyResults]
    | cons r rs => simp [copyResults, ih]

theorem copyResults_other (js : List Nat) (rs out : List Bool) (j : Nat) (h : j ∉ js) :
    (copyResults js rs out)[j]? = out[j]? := by
  induction js generalizing rs out with
  | nil => simp [copyResults]
  | cons a js ih => cases rs with
    | nil => simp [copyResults]
    | cons r rs =>
      simp only [copyResults]
      rw [ih _ _ (by grind), List.getElem?_set_ne (by grind)]

theorem copyResults_count (js : List Nat) (rs out : List Bool) (hn : js.Nodup) (hl : js.length = rs.length)
    (hf : ∀ j ∈ js, out[j]? = some false) :
    (copyResults js rs out).count true = out.count true + rs.count true := by
  induction js generalizing rs out with
  | nil => cases rs with
    | nil => simp [copyResults]
    | cons r rs => simp at hl
  | cons a js ih => cases rs with
    | nil => simp at hl
    | cons r rs =>
      obtain ⟨h1, h2⟩ := List.nodup_cons.1 hn
      simp only [copyResults]
      rw [ih _ _ h2 (by simpa using hl) (by
        intro j hj
        rw [List.getElem?_set_ne (by rintro rfl; exact h1 hj)]
        exact hf j (by simp [hj]))]
      have ha := hf a (by simp)
      obtain ⟨hlt, hv⟩ := List.getElem?_eq_some_iff.1 ha
      rw [List.count_set (h := hlt), hv]
      cases r <;> simp; omega

theorem mem_groupChars {i : Nat} {ks : List (Nat × Bytes)} {c : UInt8} :
    c ∈ groupChars i ks ↔ ∃ k ∈ ks, k.2[i]? = some c := by
  simp [groupChars, List.mem_eraseDups, List.mem_filterMap]

theorem mem_group {i : Nat} {ks : List (Nat × Bytes)} {c : UInt8} {k : Nat × Bytes} :
    k ∈ group i ks c ↔ k ∈ ks ∧ k.2[i]? = some c := by
  simp [group]

theorem group_ne_nil {i : Nat} {ks : List (Nat × Bytes)} {c : UInt8} (h : c ∈ groupChars i ks) :
    group i ks c ≠ [] := by
  obtain ⟨k, h1, h2⟩ := mem_groupChars.1 h
  intro e
  have : k ∈ group i ks c := mem_group.2 ⟨h1, h2⟩
  rw [e] at this; cases this

theorem group_nodup {i : Nat} {ks : List (Nat × Bytes)} {c : UInt8} (h : (ks.map (·.1)).Nodup) :
    ((group i ks c).map (·.1)).Nodup := by
  exact List.Sublist.nodup (List.Sublist.map _ List.filter_sublist) h

theorem idx_inj {ks : List (Nat × Bytes)} (h : (ks.map (·.1)).Nodup) {a b : Nat × Bytes} (ha : a ∈ ks) (hb : b ∈ ks)
    (e : a.1 = b.1) : a = b := by
  induction ks with
  | nil => cases ha
  | cons x xs ih =>
    simp only [List.map_cons, List.nodup_cons] at h
    rcases List.mem_cons.1 ha with ea | ha' <;> rcases List.mem_cons.1 hb with eb | hb'
    · rw [ea, eb]
    · exact absurd (List.mem_map.2 ⟨b, hb', by rw [← e, ea]⟩) h.1
    · exact absurd (List.mem_map.2 ⟨a, ha', by rw [e, eb]⟩) h.1
    · exact ih h.2 ha' hb'

/-- No key is a proper prefix of another. -/
def PrefixFree (S : Bytes → Prop) : Prop := ∀ a b, S a → S b → a <+: b → a = b

theorem nodup_eraseDups_aux (n : Nat) (l : List UInt8) (hn : l.length ≤ n) : l.eraseDups.Nodup := by
  induction n generalizing l with
  | zero => cases l with
    | nil => simp
    | cons a l => simp at hn
  | succ n ih => cases l with
    | nil => simp
    | cons a l =>
      rw [List.eraseDups_cons]
      refine List.nodup_cons.2 ⟨?_, ih _ (Nat.le_trans (List.length_filter_le _ _) (by simpa using hn))⟩
      simp [List.mem_eraseDups]

theorem groupChars_nodup {i : Nat} {ks : List (Nat × Bytes)} : (groupChars i ks).Nodup :=
  nodup_eraseDups_aux _ _ (Nat.le_refl _)

end Verif
