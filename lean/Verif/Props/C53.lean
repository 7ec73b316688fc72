import Verif.Lemmas.ReadNode
import Verif.Props.C51
/-!
C53: read nodes apply blocks in height order, once each.
-/
namespace Verif
open Spec
section
variable {B : Type} {env : ReadEnv B}

/-- The values a schedule delivers. -/
def delivered (l : List (ReadStep B)) : List (Decided B) :=
  l.filterMap (fun s => match s with | .deliver v => some v | .restart => none)

theorem readRun_inv {h0 : BlockHeight} {steps : List (ReadStep B)} :
    ∀ {seen : List (Decided B)} {n n' : ReadNode B}, ReadInv env h0 seen n →
    h0.block + n.log.length + n.buf.rows.length + steps.length + 2 < 2 ^ 64 →
    n.buf.rows.length ≤ env.maxBuffered →
    readRun env n steps = some n' →
    ReadInv env h0 (seen ++ delivered steps) n' ∧ n.log <+: n'.log ∧ n'.buf.rows.length ≤ env.maxBuffered := by
  induction steps with
  | nil =>
    intro seen n n' h _ hm hr
    simp only [readRun, Option.some.injEq] at hr; subst hr
    exact ⟨by simpa [delivered] using h, List.prefix_refl _, hm⟩
  | cons s steps ih =>
    intro seen n n' h hb hm hr
    simp only [List.length_cons] at hb
    simp only [readRun] at hr
    cases s with
    | deliver v =>
      simp only [readStep] at hr
      cases hp : processDecided env n v with
      | none => rw [hp] at hr; exact absurd hr (by simp)
      | some m =>
        rw [hp] at hr
        obtain ⟨i1, i2, i3, i4, _⟩ := processDecided_inv h (by omega) hp
        obtain ⟨j1, j2, j3⟩ := ih i1 (by omega) (i4 hm) hr
        refine ⟨?_, i2.trans j2, j3⟩
        simpa [delivered] using j1
    | restart =>
      simp only [readStep, Option.bind_some] at hr
      obtain ⟨j1, j2, j3⟩ := ih (n := { n with buf := OMap.empty }) (seen := seen)
        ⟨h.heights, h.last, h.logged, by intro r hr'; exact absurd hr' (by simp [OMap.empty])⟩
        (by simp only [OMap.empty, List.length_nil]; omega) (by simp [OMap.empty]) hr
      exact ⟨by simpa [delivered] using j1, j2, j3⟩

/-- Whatever arrives, in whatever order and however often, with restarts in between: the heights committed are the ones
after the starting height, consecutive, once each; all of them were delivered with an accepted certificate and protocol
version; the buffer stays within its limit. -/
theorem C53_in_order_once {h0 : BlockHeight} {steps : List (ReadStep B)} {n : ReadNode B}
    (hb : h0.block + steps.length + 2 < 2 ^ 64) (hr : readRun env (startAt h0) steps = some n) :
    n.log.map (·.height) = heightsAfter h0 n.log.length ∧ n.last = ⟨h0.shard, h0.block + n.log.length⟩ ∧
    (∀ v ∈ n.log, ReadStep.deliver v ∈ steps ∧ Passes env v) ∧ n.buf.rows.length ≤ env.maxBuffered := by
  obtain ⟨h, _, hm⟩ := readRun_inv (seen := []) (h0 := h0) (n := startAt h0)
    ⟨by simp [startAt, heightsAfter], by simp [startAt], by simp [startAt], by simp [startAt, OMap.empty]⟩
    (by simp only [startAt, OMap.empty, List.length_nil]; omega) (by simp [startAt, OMap.empty]) hr
  refine ⟨h.heights, h.last, ?_, hm⟩
  intro v hv
  obtain ⟨h1, h2⟩ := h.logged v hv
  refine ⟨?_, h2⟩
  simp only [List.nil_append, delivered, List.mem_filterMap] at h1
  obtain ⟨s, hs, he⟩ := h1
  cases s with
  | deliver w => simp only [Option.some.injEq] at he; rw [← he]; exact hs
  | restart => exact absurd he (by simp)

/-- What was committed stays committed. -/
theorem C53_log_grows {h0 : BlockHeight} {a b : List (ReadStep B)} {n m : ReadNode B}
    (hb : h0.block + (a ++ b).length + 2 < 2 ^ 64) (hn : readRun env (startAt h0) a = some n)
    (hm : readRun env (startAt h0) (a ++ b) = some m) : n.log <+: m.log := by
  have happ : ∀ (a : List (ReadStep B)) (s : ReadNode B), readRun env s (a ++ b) = (readRun env s a).bind (fun n => readRun env n b) := by
    intro a
    induction a with
    | nil => intro s; rfl
    | cons x a ih =>
      intro s
      simp only [List.cons_append, readRun]
      cases readStep env s x with
      | none => rfl
      | some t => exact ih t
  rw [happ, hn, Option.bind_some] at hm
  simp only [List.length_append] at hb
  have h0i : ReadInv env h0 [] (startAt h0) :=
    ⟨by simp [startAt, heightsAfter], by simp [startAt], by simp [startAt], by simp [startAt, OMap.empty]⟩
  have size : ∀ (a : List (ReadStep B)) (seen : List (Decided B)) (s n : ReadNode B), ReadInv env h0 seen s →
      h0.block + s.log.length + s.buf.rows.length + a.length + 2 < 2 ^ 64 → readRun env s a = some n →
      n.log.length + n.buf.rows.length ≤ s.log.length + s.buf.rows.length + a.length := by
    intro a
    induction a with
    | nil => intro seen s n _ _ h; simp only [readRun, Option.some.injEq] at h; subst h; simp
    | cons x a ih =>
      intro seen s n hi hb h
      simp only [List.length_cons] at hb ⊢
      simp only [readRun] at h
      cases x with
      | deliver v =>
        simp only [readStep] at h
        cases hp : processDecided env s v with
        | none => rw [hp] at h; exact absurd h (by simp)
        | some t =>
          rw [hp] at h
          obtain ⟨i1, _, i3, _⟩ := processDecided_inv hi (by omega) hp
          have := ih _ _ _ i1 (by omega) h
          omega
      | restart =>
        simp only [readStep, Option.bind_some] at h
        have := ih seen { s with buf := OMap.empty } _
          ⟨hi.heights, hi.last, hi.logged, by intro r hr'; exact absurd hr' (by simp [OMap.empty])⟩
          (by simp only [OMap.empty, List.length_nil]; omega) h
        simp only [OMap.empty, List.length_nil] at this
        omega
  have hs := size a [] _ _ h0i (by simp only [startAt, OMap.empty, List.length_nil]; omega) hn
  simp only [startAt, OMap.empty, List.length_nil] at hs
  obtain ⟨i1, _, i3⟩ := readRun_inv h0i (by simp only [startAt, OMap.empty, List.length_nil]; omega)
    (by simp [startAt, OMap.empty]) hn
  exact (readRun_inv i1 (by omega) i3 hm).2.1

/-- If the next `k` heights are all delivered with accepted certificates, in any order and with any repetitions and
rejected values in between, and `k` is at most one more than the buffer holds, then all of them are committed. -/
theorem C53_complete {h0 : BlockHeight} {vs : List (Decided B)} {k : Nat} {n : ReadNode B}
    (hb : h0.block + vs.length + k + 2 < 2 ^ 64) (hk : k ≤ env.maxBuffered + 1)
    (hall : ∀ h ∈ heightsAfter h0 k, ∃ v ∈ vs, v.height = h ∧ Passes env v)
    (hin : ∀ v ∈ vs, Passes env v → v.height ∈ heightsAfter h0 k)
    (hr : readRun env (startAt h0) (vs.map .deliver) = some n) :
    n.log.map (·.height) = heightsAfter h0 k := by
  have hmemH : ∀ (h : BlockHeight) (j : Nat), h ∈ heightsAfter h0 j ↔ h.shard = h0.shard ∧ h0.block < h.block ∧ h.block ≤ h0.block + j := by
    intro h j
    obtain ⟨s, b⟩ := h
    simp only [heightsAfter, List.mem_map, List.mem_range, BlockHeight.mk.injEq]
    constructor
    · rintro ⟨i, hi, rfl, rfl⟩; omega
    · rintro ⟨rfl, h1, h2⟩; exact ⟨b - h0.block - 1, by omega, rfl, by omega⟩
  have key : ∀ (vs : List (Decided B)) (seen : List (Decided B)) (s n : ReadNode B), ReadInv env h0 seen s →
      h0.block + s.log.length + s.buf.rows.length + vs.length + 2 < 2 ^ 64 →
      (∀ v ∈ seen ++ vs, Passes env v → v.height ∈ heightsAfter h0 k) →
      (∀ v ∈ seen, Passes env v → (s.buf.get v.height).isSome ∨ v.height ∈ s.log.map (·.height)) →
      readRun env s (vs.map .deliver) = some n →
      ReadInv env h0 (seen ++ vs) n ∧
      (∀ v ∈ seen ++ vs, Passes env v → (n.buf.get v.height).isSome ∨ v.height ∈ n.log.map (·.height)) := by
    intro vs
    induction vs with
    | nil =>
      intro seen s n hi _ _ hs h
      simp only [List.map_nil, readRun, Option.some.injEq] at h; subst h
      rw [List.append_nil]
      exact ⟨hi, hs⟩
    | cons v vs ih =>
      intro seen s n hi hb hin hs h
      simp only [List.length_cons] at hb
      simp only [List.map_cons, readRun, readStep] at h
      cases hp : processDecided env s v with
      | none => rw [hp] at h; exact absurd h (by simp)
      | some t =>
        rw [hp] at h
        obtain ⟨i1, i2, i3, i4, i5, i6, i7⟩ := processDecided_inv hi (by omega) hp
        have := ih (seen ++ [v]) t n i1 (by omega) (by simpa using hin) ?_ h
        · simpa using this
        · intro w hw hpw
          rcases List.mem_append.1 hw with hw | hw
          · rcases hs w hw hpw with g | g
            · exact i5 _ g
            · right
              obtain ⟨x, hx, e⟩ := List.mem_map.1 g
              rw [← e]
              exact List.mem_map_of_mem (i2.subset hx)
          · rw [List.mem_singleton.1 hw] at hpw ⊢
            rcases i6 hpw with g | g | g | g
            · exact .inl g
            · exact .inr g
            · right
              have hv := (hmemH _ _).1 (hin v (by simp) hpw)
              have hlog : v.height ∈ s.log.map (·.height) := by
                rw [hi.heights, hmemH]
                refine ⟨hv.1, hv.2.1, ?_⟩
                rw [hi.last, next_eq (by omega)] at g
                simp only [StrictOrd.lt] at g
                omega
              obtain ⟨x, hx, e⟩ := List.mem_map.1 hlog
              rw [← e]
              exact List.mem_map_of_mem (i2.subset hx)
            · by_cases hbuf : (s.buf.get v.height).isSome
              · exact i5 _ hbuf
              · exfalso
                have hv := (hmemH _ _).1 (hin v (by simp) hpw)
                have hloglen : s.log.length ≤ k := by
                  rcases Nat.eq_zero_or_pos s.log.length with e | hpos
                  · omega
                  · have hm : (⟨h0.shard, h0.block + s.log.length⟩ : BlockHeight) ∈ s.log.map (·.height) := by
                      rw [hi.heights, hmemH]; exact ⟨rfl, by simp only; omega, Nat.le_refl _⟩
                    obtain ⟨x, hx, e⟩ := List.mem_map.1 hm
                    have h1 := hi.logged x hx
                    have := (hmemH _ _).1 (hin x (by simp [h1.1]) h1.2)
                    rw [e] at this
                    simp only at this
                    omega
                have hnext : s.last.next = ⟨h0.shard, h0.block + s.log.length + 1⟩ := by
                  rw [hi.last, next_eq (by omega)]
                have hlen := Tree.Good.length_le_of_subset (l := v.height :: s.buf.rows.map (·.1))
                  (m := (heightsAfter h0 k).drop (s.log.length + 1))
                  (by
                    refine List.nodup_cons.2 ⟨?_, ?_⟩
                    · intro hm
                      obtain ⟨r, hr, e⟩ := List.mem_map.1 hm
                      apply hbuf
                      rw [← e, (OMap.get_eq_some_iff s.buf (v := r.2)).2 hr]; rfl
                    · have := s.buf.sorted
                      unfold OMapL.Sorted at this
                      rw [← List.pairwise_map (f := fun x : BlockHeight × Decided B => x.1) (R := fun a b => a ≺ b)] at this
                      unfold List.Nodup
                      exact this.imp (fun {a b} h e => by subst e; exact StrictOrd.irrefl _ h))
                  (by
                    have hdrop : ∀ h : BlockHeight, h.shard = h0.shard → h0.block + s.log.length + 1 < h.block →
                        h.block ≤ h0.block + k → h ∈ (heightsAfter h0 k).drop (s.log.length + 1) := by
                      intro h e1 e2 e3
                      rw [List.mem_iff_getElem?]
                      refine ⟨h.block - h0.block - 1 - (s.log.length + 1), ?_⟩
                      rw [List.getElem?_drop]
                      simp only [heightsAfter, List.getElem?_map]
                      rw [List.getElem?_range (by omega)]
                      obtain ⟨hs', hb'⟩ := h
                      simp only [Option.map_some, Option.some.injEq, BlockHeight.mk.injEq] at e1 e2 e3 ⊢
                      exact ⟨e1.symm, by omega⟩
                    intro h hh
                    rcases List.mem_cons.1 hh with e | e
                    · rw [e]
                      refine hdrop _ hv.1 ?_ hv.2.2
                      have := g.1
                      rw [hnext] at this
                      simp only [StrictOrd.lt] at this
                      omega
                    · obtain ⟨r, hr, e⟩ := List.mem_map.1 e
                      have h1 := hi.buffered r hr
                      have h2 := (hmemH _ _).1 (hin r.2 (by simp [h1.2.2.1]) h1.2.2.2)
                      rw [h1.1] at h2
                      rw [← e]
                      refine hdrop _ h2.1 ?_ h2.2.2
                      have h3 := h1.2.1
                      rw [hnext] at h3
                      simp only [StrictOrd.lt] at h3
                      omega)
                simp only [List.length_cons, List.length_map, List.length_drop, heightsAfter, List.length_range] at hlen
                have := g.2
                omega
  obtain ⟨hi, hs⟩ := key vs [] (startAt h0) n
    ⟨by simp [startAt, heightsAfter], by simp [startAt], by simp [startAt], by simp [startAt, OMap.empty]⟩
    (by simp only [startAt, OMap.empty, List.length_nil]; omega) (by simpa using hin) (by simp) hr
  simp only [List.nil_append] at hs hi
  rw [hi.heights]
  have hle : n.log.length ≤ k := by
    rcases Nat.eq_zero_or_pos n.log.length with e | hpos
    · omega
    · have hm : (⟨h0.shard, h0.block + n.log.length⟩ : BlockHeight) ∈ n.log.map (·.height) := by
        rw [hi.heights, hmemH]; exact ⟨rfl, by simp only; omega, Nat.le_refl _⟩
      obtain ⟨x, hx, e⟩ := List.mem_map.1 hm
      have h1 := hi.logged x hx
      have := (hmemH _ _).1 (hin x h1.1 h1.2)
      rw [e] at this
      simp only at this
      omega
  rcases Nat.lt_or_ge n.log.length k with hlt | hge
  · exfalso
    obtain ⟨v, hv, he, hp⟩ := hall ⟨h0.shard, h0.block + n.log.length + 1⟩ ((hmemH _ _).2 ⟨rfl, by simp only; omega, by simp only; omega⟩)
    rcases hs v hv hp with g | g
    · obtain ⟨x, hx⟩ := Option.isSome_iff_exists.1 g
      have h1 := (hi.buffered _ ((OMap.get_eq_some_iff _).1 hx)).2.1
      rw [he, hi.last, next_eq (by omega)] at h1
      exact StrictOrd.irrefl _ h1
    · rw [hi.heights, hmemH, he] at g
      simp only at g
      omega
  · rw [Nat.le_antisymm hle hge]

end

namespace C53Case
open C51Case

/-- A read node of shard 1 with room for two values; bodies are numbers. -/
def env : ReadEnv Nat := ⟨cr, sets, 2, fun _ v => v.header.isNone⟩
def value (h : Nat) (body : Nat) : Decided Nat := ⟨none, ⟨1, h⟩, cert [[1], [2], [4]], body⟩
def forged (h : Nat) : Decided Nat := ⟨none, ⟨1, h⟩, cert [[1]], 0⟩
def heights (l : List (Decided Nat)) : Option (List Nat) :=
  (readRun env (startAt ⟨1, 0⟩) (l.map .deliver)).map (fun n => n.log.map (·.height.block))

/-- Three heights out of order, one twice, and one without a quorum. -/
example : heights [value 3 0, forged 1, value 2 0, value 3 0, value 1 0] = some [1, 2, 3] := by decide +kernel

/-- A restart in between loses the buffered ones, which come again. -/
example : (readRun env (startAt ⟨1, 0⟩) [.deliver (value 2 0), .restart, .deliver (value 1 0), .deliver (value 2 0)]).map
    (fun n => n.log.map (·.height.block)) = some [1, 2] := by decide +kernel

end C53Case

/-- Beyond the limit a complete delivery is not enough: values far ahead fill the buffer for good and a later gap is
never closed from it. -/
theorem C53_full_buffer_drops :
    C53Case.heights [C53Case.value 90 0, C53Case.value 91 0, C53Case.value 2 0, C53Case.value 1 0] = some [1] := by
  decide +kernel

end Verif
