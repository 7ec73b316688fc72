/-!
Finite ordered maps: the abstract content of RocksDB (an ordered key/value map, see the trusted base
in DESIGN.md), of Rust `BTreeMap`s and of transaction batches.
-/
namespace Verif

/-- A strict total order. -/
class StrictOrd (K : Type) where
  /-- The strict order. -/
  lt : K → K → Prop
  decLt : (a b : K) → Decidable (lt a b)
  irrefl : ∀ a : K, ¬ lt a a
  trans : ∀ {a b c : K}, lt a b → lt b c → lt a c
  tri : ∀ a b : K, lt a b ∨ a = b ∨ lt b a

@[inherit_doc] infix:50 " ≺ " => StrictOrd.lt

instance {K : Type} [StrictOrd K] (a b : K) : Decidable (a ≺ b) := StrictOrd.decLt a b

/-- Equality is decided by the order. -/
def StrictOrd.decEq {K : Type} [StrictOrd K] (a b : K) : Decidable (a = b) :=
  if h : a ≺ b then isFalse (fun e => StrictOrd.irrefl b (e ▸ h))
  else if h' : b ≺ a then isFalse (fun e => StrictOrd.irrefl a (e ▸ h'))
  else isTrue ((StrictOrd.tri a b).resolve_left h |>.resolve_right h')

namespace OMapL
variable {K V : Type} [StrictOrd K]

/-- Rows in strictly ascending key order. -/
def Sorted (l : List (K × V)) : Prop := l.Pairwise (fun a b => a.1 ≺ b.1)

/-- Insert or overwrite in an ascending row list. -/
def put (k : K) (v : V) : List (K × V) → List (K × V)
  | [] => [(k, v)]
  | (k', v') :: m =>
    if k ≺ k' then (k, v) :: (k', v') :: m
    else if k' ≺ k then (k', v') :: put k v m
    else (k, v) :: m

/-- Remove a key from a row list. -/
def del (k : K) : List (K × V) → List (K × V)
  | [] => []
  | (k', v') :: m => if k ≺ k' ∨ k' ≺ k then (k', v') :: del k m else del k m

/-- Look a key up. -/
def get (k : K) : List (K × V) → Option V
  | [] => none
  | (k', v') :: m => if k ≺ k' ∨ k' ≺ k then get k m else some v'

theorem mem_put {k : K} {v : V} {l : List (K × V)} {x : K × V} (h : x ∈ put k v l) :
    x = (k, v) ∨ x ∈ l := by
  induction l with
  | nil => simpa [put] using h
  | cons a m ih =>
    obtain ⟨k', v'⟩ := a
    simp only [put] at h
    split at h
    · simpa using h
    · split at h
      · rcases List.mem_cons.1 h with h | h
        · exact .inr (by simp [h])
        · rcases ih h with h | h
          · exact .inl h
          · exact .inr (by simp [h])
      · rcases List.mem_cons.1 h with h | h
        · exact .inl h
        · exact .inr (by simp [h])

theorem sorted_put {k : K} {v : V} {l : List (K × V)} (h : Sorted l) : Sorted (put k v l) := by
  induction l with
  | nil => simp [put, Sorted]
  | cons a m ih =>
    obtain ⟨k', v'⟩ := a
    obtain ⟨h1, h2⟩ := List.pairwise_cons.1 h
    simp only [put]
    split
    · rename_i hlt
      refine List.pairwise_cons.2 ⟨?_, h⟩
      intro x hx
      rcases List.mem_cons.1 hx with hx | hx
      · simpa [hx] using hlt
      · exact StrictOrd.trans hlt (h1 x hx)
    · split
      · rename_i hlt
        refine List.pairwise_cons.2 ⟨?_, ih h2⟩
        intro x hx
        rcases mem_put hx with hx | hx
        · simpa [hx] using hlt
        · exact h1 x hx
      · rename_i h3 h4
        have e : k = k' := (StrictOrd.tri k k').resolve_left h3 |>.resolve_right h4
        subst e
        exact List.pairwise_cons.2 ⟨h1, h2⟩

theorem mem_del {k : K} {l : List (K × V)} {x : K × V} (h : x ∈ del k l) : x ∈ l := by
  induction l with
  | nil => simp [del] at h
  | cons a m ih =>
    simp only [del] at h
    split at h
    · rcases List.mem_cons.1 h with h | h
      · simp [h]
      · simp [ih h]
    · simp [ih h]

theorem sorted_del {k : K} {l : List (K × V)} (h : Sorted l) : Sorted (del k l) := by
  induction l with
  | nil => simp [del, Sorted]
  | cons a m ih =>
    obtain ⟨h1, h2⟩ := List.pairwise_cons.1 h
    simp only [del]
    split
    · exact List.pairwise_cons.2 ⟨fun x hx => h1 x (mem_del hx), ih h2⟩
    · exact ih h2

theorem get_put_self {k : K} {v : V} {l : List (K × V)} : get k (put k v l) = some v := by
  induction l with
  | nil => simp [put, get, StrictOrd.irrefl]
  | cons a m ih =>
    obtain ⟨k', v'⟩ := a
    simp only [put]
    split
    · simp [get, StrictOrd.irrefl]
    · split
      · rename_i h; simp [get, h, ih]
      · simp [get, StrictOrd.irrefl]

theorem get_put_ne {k j : K} {v : V} {l : List (K × V)} (h : j ≠ k) :
    get j (put k v l) = get j l := by
  have hne : j ≺ k ∨ k ≺ j := by
    rcases StrictOrd.tri j k with h' | h' | h'
    · exact .inl h'
    · exact absurd h' h
    · exact .inr h'
  induction l with
  | nil => simp [put, get, hne]
  | cons a m ih =>
    obtain ⟨k', v'⟩ := a
    simp only [put]
    split
    · simp [get, hne]
    · split
      · simp only [get, ih]
      · rename_i h3 h4
        have e : k = k' := (StrictOrd.tri k k').resolve_left h3 |>.resolve_right h4
        subst e
        simp [get, hne]

theorem get_del_self {k : K} {l : List (K × V)} : get k (del k l) = none := by
  induction l with
  | nil => simp [del, get]
  | cons a m ih =>
    obtain ⟨k', v'⟩ := a
    simp only [del]
    split
    · rename_i h; simp [get, h, ih]
    · exact ih

theorem get_del_ne {k j : K} {l : List (K × V)} (h : j ≠ k) : get j (del k l) = get j l := by
  induction l with
  | nil => simp [del, get]
  | cons a m ih =>
    obtain ⟨k', v'⟩ := a
    simp only [del]
    split
    · simp only [get, ih]
    · rename_i h3
      have e : k = k' := by
        rcases StrictOrd.tri k k' with h' | h' | h'
        · exact absurd (Or.inl h') h3
        · exact h'
        · exact absurd (Or.inr h') h3
      subst e
      have hne : j ≺ k ∨ k ≺ j := by
        rcases StrictOrd.tri j k with h' | h' | h'
        · exact .inl h'
        · exact absurd h' h
        · exact .inr h'
      simp [get, hne, ih]

theorem get_eq_some_iff {k : K} {v : V} {l : List (K × V)} (h : Sorted l) :
    get k l = some v ↔ (k, v) ∈ l := by
  induction l with
  | nil => simp [get]
  | cons a m ih =>
    obtain ⟨k', v'⟩ := a
    obtain ⟨h1, h2⟩ := List.pairwise_cons.1 h
    simp only [get]
    split
    · rename_i hne
      rw [ih h2]
      have : (k, v) ≠ (k', v') := by
        intro e
        injection e with e1 e2
        subst e1
        rcases hne with hne | hne <;> exact StrictOrd.irrefl _ hne
      simp [this]
    · rename_i h3
      have e : k = k' := by
        rcases StrictOrd.tri k k' with h' | h' | h'
        · exact absurd (Or.inl h') h3
        · exact h'
        · exact absurd (Or.inr h') h3
      subst e
      constructor
      · intro e; injection e with e; simp [e]
      · intro hm
        rcases List.mem_cons.1 hm with hm | hm
        · injection hm with _ e; rw [e]
        · exact absurd (h1 _ hm) (StrictOrd.irrefl _)

theorem get_none_of_lt {k : K} {l : List (K × V)} (h : ∀ x ∈ l, k ≺ x.1) : get k l = none := by
  induction l with
  | nil => rfl
  | cons a m ih =>
    obtain ⟨k', v'⟩ := a
    have h1 := h (k', v') (by simp)
    simp only [get]
    rw [if_pos (Or.inl h1)]
    exact ih (fun x hx => h x (by simp [hx]))

theorem ext {l1 l2 : List (K × V)} (h1 : Sorted l1) (h2 : Sorted l2)
    (h : ∀ k, get k l1 = get k l2) : l1 = l2 := by
  induction l1 generalizing l2 with
  | nil =>
    cases l2 with
    | nil => rfl
    | cons a m =>
      obtain ⟨k, v⟩ := a
      have := h k
      simp [get, StrictOrd.irrefl] at this
  | cons a m ih =>
    obtain ⟨k, v⟩ := a
    cases l2 with
    | nil =>
      have := h k
      simp [get, StrictOrd.irrefl] at this
    | cons b n =>
      obtain ⟨k', v'⟩ := b
      obtain ⟨h11, h12⟩ := List.pairwise_cons.1 h1
      obtain ⟨h21, h22⟩ := List.pairwise_cons.1 h2
      have hk : k = k' := by
        rcases StrictOrd.tri k k' with hlt | e | hlt
        · have := h k
          simp only [get, StrictOrd.irrefl, or_self, if_false] at this
          rw [if_pos (Or.inl hlt), get_none_of_lt] at this
          · simp at this
          · intro x hx; exact StrictOrd.trans hlt (h21 x hx)
        · exact e
        · have := h k'
          simp only [get, StrictOrd.irrefl, or_self, if_false] at this
          rw [if_pos (Or.inl hlt), get_none_of_lt] at this
          · simp at this
          · intro x hx; exact StrictOrd.trans hlt (h11 x hx)
      subst hk
      have hv : v = v' := by
        have := h k
        simpa [get, StrictOrd.irrefl] using this
      subst hv
      congr 1
      apply ih h12 h22
      intro j
      rcases StrictOrd.tri j k with hlt | e | hlt
      · have := h j
        simpa [get, hlt] using this
      · subst e
        rw [get_none_of_lt h11, get_none_of_lt h21]
      · have := h j
        simpa [get, hlt] using this

end OMapL

/-- An ordered map: rows in strictly ascending key order. -/
structure OMap (K V : Type) [StrictOrd K] where
  rows : List (K × V)
  sorted : OMapL.Sorted rows

namespace OMap
variable {K V : Type} [StrictOrd K]

/-- The empty map. -/
def empty : OMap K V := ⟨[], List.Pairwise.nil⟩

/-- Point read. -/
def get (m : OMap K V) (k : K) : Option V := OMapL.get k m.rows

/-- Insert or overwrite. -/
def put (m : OMap K V) (k : K) (v : V) : OMap K V := ⟨OMapL.put k v m.rows, OMapL.sorted_put m.sorted⟩

/-- Remove. -/
def del (m : OMap K V) (k : K) : OMap K V := ⟨OMapL.del k m.rows, OMapL.sorted_del m.sorted⟩

@[simp] theorem get_empty (k : K) : (empty : OMap K V).get k = none := rfl
@[simp] theorem get_put_self (m : OMap K V) (k : K) (v : V) : (m.put k v).get k = some v :=
  OMapL.get_put_self
theorem get_put_ne (m : OMap K V) {k j : K} (v : V) (h : j ≠ k) : (m.put k v).get j = m.get j :=
  OMapL.get_put_ne h
@[simp] theorem get_del_self (m : OMap K V) (k : K) : (m.del k).get k = none := OMapL.get_del_self
theorem get_del_ne (m : OMap K V) {k j : K} (h : j ≠ k) : (m.del k).get j = m.get j :=
  OMapL.get_del_ne h

theorem get_eq_some_iff (m : OMap K V) {k : K} {v : V} : m.get k = some v ↔ (k, v) ∈ m.rows :=
  OMapL.get_eq_some_iff m.sorted

theorem ext_rows {m n : OMap K V} (h : m.rows = n.rows) : m = n := by
  cases m; cases n; simp at h; subst h; rfl

@[ext] theorem ext {m n : OMap K V} (h : ∀ k, m.get k = n.get k) : m = n :=
  ext_rows (OMapL.ext m.sorted n.sorted h)

section dec
variable [DecidableEq K]
theorem get_put (m : OMap K V) (k j : K) (v : V) :
    (m.put k v).get j = if j = k then some v else m.get j := by
  by_cases h : j = k
  · subst h; simp
  · simp [h, get_put_ne m v h]
theorem get_del (m : OMap K V) (k j : K) :
    (m.del k).get j = if j = k then none else m.get j := by
  by_cases h : j = k
  · subst h; simp
  · simp [h, get_del_ne m h]
end dec

end OMap
end Verif
