import Verif.Spec.Migrations
import Verif.Lemmas.Scan
/-! The iteration over registered users. -/
namespace Verif

/-- The user a row registers. -/
def regFid : OVal → Option Nat
  | .event e => match e.body with
    | .idRegister _ .register => some e.fid
    | _ => none
  | _ => none

/-- What one row does to the iterator's state. -/
def fidStep (acc : List Nat × Nat) (r : Bytes × OVal) : List Nat × Nat :=
  match regFid r.2 with
  | some f => if acc.1.getLast? = some f then acc else (acc.1 ++ [f], f)
  | none => acc

theorem fetchStep_eq (acc : List Nat × Nat) (k : Bytes) (e : OEvent) :
    ∃ b, fetchStep acc k (.event e) = .ok (fidStep acc (k, .event e), b) := by
  simp only [fetchStep, fidStep, regFid]
  cases hb : e.body with
  | idRegister to ty => cases ty <;> exact ⟨_, rfl⟩
  | _ => exact ⟨false, rfl⟩

theorem fetch_iterate : ∀ (rows : List (Bytes × OVal)), (∀ r ∈ rows, ∃ e, r.2 = .event e) → ∀ (c : Nat) (acc : List Nat × Nat),
    ∃ n b, (rows ≠ [] → 0 < n) ∧ iterate (some 100) fetchStep rows c acc = .ok ((rows.take n).foldl fidStep acc, b)
  | [], _, c, acc => ⟨0, true, by simp, rfl⟩
  | (k, v) :: rest, h, c, acc => by
    obtain ⟨e, he⟩ := h (k, v) (by simp)
    simp only at he; subst he
    obtain ⟨b, hb⟩ := fetchStep_eq acc k e
    cases b with
    | true =>
      refine ⟨1, false, by simp, ?_⟩
      simp [iterate, hb]
    | false =>
      by_cases hc : c + 1 ≥ 100
      · refine ⟨1, true, by simp, ?_⟩
        simp only [iterate, hb, if_pos hc]; simp
      · obtain ⟨n, b', _, h2⟩ := fetch_iterate rest (fun r hr => h r (by simp [hr])) (c + 1) (fidStep acc (k, .event e))
        refine ⟨n + 1, b', by simp, ?_⟩
        simp only [iterate, hb, if_neg hc, h2, List.take_succ_cons, List.foldl_cons]

theorem fids_spec : ∀ (P : List (Bytes × OVal)) (acc : List Nat × Nat),
    (∀ x ∈ (P.foldl fidStep acc).1, x ∈ acc.1 ∨ ∃ p ∈ P, regFid p.2 = some x) ∧
    (∀ x ∈ acc.1, x ∈ (P.foldl fidStep acc).1) ∧
    (∀ p ∈ P, ∀ x, regFid p.2 = some x → x ∈ (P.foldl fidStep acc).1) ∧
    (acc.2 = acc.1.getLast?.getD 0 → (P.foldl fidStep acc).2 = (P.foldl fidStep acc).1.getLast?.getD 0) ∧
    (acc.1.Pairwise (· < ·) → (∀ x ∈ acc.1, ∀ p ∈ P, ∀ y, regFid p.2 = some y → x ≤ y) →
      P.Pairwise (fun p p' => ∀ x y, regFid p.2 = some x → regFid p'.2 = some y → x ≤ y) →
      (P.foldl fidStep acc).1.Pairwise (· < ·))
  | [], acc => by simp
  | p :: P, acc => by
    obtain ⟨h1, h2, h3, h4, h5⟩ := fids_spec P (fidStep acc p)
    have hstep : (∀ x ∈ (fidStep acc p).1, x ∈ acc.1 ∨ regFid p.2 = some x) ∧ (∀ x ∈ acc.1, x ∈ (fidStep acc p).1) ∧
        (∀ x, regFid p.2 = some x → x ∈ (fidStep acc p).1) ∧
        (acc.2 = acc.1.getLast?.getD 0 → (fidStep acc p).2 = (fidStep acc p).1.getLast?.getD 0) := by
      unfold fidStep
      split
      · rename_i f hf
        split
        · rename_i hl
          refine ⟨by simp_all, by simp, ?_, by simp⟩
          intro x hx; rw [hf] at hx; cases hx; exact List.mem_of_getLast? hl
        · refine ⟨by simp; grind, by simp; grind, ?_, by simp⟩
          intro x hx; rw [hf] at hx; cases hx; simp
      · rename_i hf
        refine ⟨fun x hx => .inl hx, fun x hx => hx, ?_, fun h => h⟩
        intro x hx; rw [hf] at hx; cases hx
    obtain ⟨a1, a2, a3, a4⟩ := hstep
    simp only [List.foldl_cons]
    refine ⟨?_, ?_, ?_, ?_, ?_⟩
    · intro x hx
      rcases h1 x hx with h | ⟨q, hq, e⟩
      · rcases a1 x h with h | h
        · exact .inl h
        · exact .inr ⟨p, by simp, h⟩
      · exact .inr ⟨q, by simp [hq], e⟩
    · exact fun x hx => h2 x (a2 x hx)
    · intro q hq x hx
      rcases List.mem_cons.1 hq with rfl | hq
      · exact h2 x (a3 x hx)
      · exact h3 q hq x hx
    · exact fun h => h4 (a4 h)
    · intro hs hle hp
      rw [List.pairwise_cons] at hp
      apply h5 _ _ hp.2
      · unfold fidStep
        split
        · rename_i f hf
          split
          · exact hs
          · rename_i hl
            rw [List.pairwise_append]
            refine ⟨hs, by simp, ?_⟩
            intro x hx y hy
            simp only [List.mem_singleton] at hy; subst hy
            have h1 := hle x hx p (by simp) y hf
            by_cases hxy : x = y
            · exfalso
              subst hxy
              obtain ⟨l, z, hz⟩ : ∃ l z, acc.1 = l ++ [z] := by
                rcases List.eq_nil_or_concat acc.1 with h | ⟨l, z, h⟩
                · rw [h] at hx; cases hx
                · exact ⟨l, z, by simpa using h⟩
              rw [hz] at hl hs hx
              have hzx := hle z (by rw [hz]; simp) p (by simp) x hf
              rcases List.mem_append.1 hx with h | h
              · have := (List.pairwise_append.1 hs).2.2 x h z (by simp); omega
              · simp at h; subst h; simp at hl
            · omega
        · exact hs
      · intro x hx q hq y hy
        rcases a1 x hx with h | h
        · exact hle x h q (by simp [hq]) y hy
        · exact hp.1 q hq x y h hy

/-! ### One call of `next` -/

/-- Users the iterator has still to deliver. -/
def FidIter.Ahead (it : FidIter) (f : Nat) : Prop := f ∈ it.queue ∨ it.queue.getLast?.getD it.last < f

/-- Well-formed iterator states. -/
structure FidIter.OK (it : FidIter) : Prop where
  last : it.last < 2 ^ 32 - 1
  sorted : it.queue.Pairwise (· < ·)
  queue : ∀ x ∈ it.queue, it.last < x ∧ x < 2 ^ 32 - 1

theorem FidIter.pop_spec {it : FidIter} (h : it.OK) (hq : it.queue ≠ []) :
    ∃ g it', it.pop = (some g, it') ∧ it'.OK ∧ it.last < g ∧ it'.last = g ∧
      ∀ f, it.Ahead f → f = g ∨ it'.Ahead f := by
  obtain ⟨last, queue⟩ := it
  cases queue with
  | nil => exact absurd rfl hq
  | cons g rest =>
    have hs := List.pairwise_cons.1 h.sorted
    refine ⟨g, ⟨g, rest⟩, rfl, ⟨(h.queue g (by simp)).2, hs.2, fun x hx => ⟨hs.1 x hx, (h.queue x (by simp [hx])).2⟩⟩,
      (h.queue g (by simp)).1, rfl, ?_⟩
    intro f hf
    unfold FidIter.Ahead at hf ⊢
    simp only [List.mem_cons] at hf
    rcases hf with (rfl | hf) | hf
    · exact .inl rfl
    · exact .inr (.inl hf)
    · refine .inr (.inr ?_)
      cases rest with
      | nil => simpa using hf
      | cons y ys =>
        rw [List.getLast?_cons_cons] at hf
        cases hz : (y :: ys).getLast? with
        | none => simp at hz
        | some z => rw [hz] at hf; exact hf

/-- Keys of events in the order of users and positions. -/
theorem oKey_blt_fid {a b : OEvent} (ha : a.IdEvent) (hb : b.IdEvent)
    (h : Bytes.blt (oPrimaryKey a) (oPrimaryKey b) = true) : a.fid ≤ b.fid := by
  have e : ∀ e : OEvent, e.IdEvent → oPrimaryKey e = oTypePrefix 3 ++ (makeFidKey e.fid ++ (be 4 e.block ++ be 4 e.log)) := by
    intro e he; unfold oPrimaryKey; rw [he.1]; simp
  rw [e a ha, e b hb, Bytes.blt_append_left] at h
  have h1 := ha.2.2.1
  have h2 := hb.2.2.1
  rcases Bytes.blt_of_append (by simp [makeFidKey]) h with h | ⟨h, _⟩
  · have := (be_blt_iff (w := 4) (m := a.fid) (n := b.fid) (by omega) (by omega)).1 h
    omega
  · have := be_inj (w := 4) (m := a.fid) (n := b.fid) (by omega) (by omega) h
    omega

theorem oKey_noLater {r e : OEvent} (hr : r.IdEvent) (he : e.IdEvent) (hf : r.fid = e.fid) (h : r.noLater e) :
    Bytes.blt (oPrimaryKey e) (oPrimaryKey r) = false := by
  rw [Bool.eq_false_iff]
  intro hc
  have ek : ∀ e : OEvent, e.IdEvent → oPrimaryKey e = (oTypePrefix 3 ++ makeFidKey e.fid) ++ (be 4 e.block ++ be 4 e.log) := by
    intro e he; unfold oPrimaryKey; rw [he.1]; simp
  rw [ek e he, ek r hr, hf, Bytes.blt_append_left] at hc
  obtain ⟨_, _, _, h1, h2⟩ := hr
  obtain ⟨_, _, _, h3, h4⟩ := he
  rcases Bytes.blt_of_append (by simp) hc with hc | ⟨hc, hc'⟩
  · have := (be_blt_iff (w := 4) (m := e.block) (n := r.block) (by omega) (by omega)).1 hc
    rcases h with h | h <;> omega
  · have := be_inj (w := 4) (m := e.block) (n := r.block) (by omega) (by omega) hc
    have := (be_blt_iff (w := 4) (m := e.log) (n := r.log) (by omega) (by omega)).1 hc'
    rcases h with h | h <;> omega

/-- The rows a fetch scans. -/
def fetchRows (reg : Db OVal) (last : Nat) : List (Bytes × OVal) :=
  scanRows reg (oTypePrefix 3 ++ makeFidKey (last + 1)) (incrementVec (oTypePrefix 3)) false

theorem mem_fetchRows {reg : Db OVal} (hr : RegistryOK reg) {last : Nat} (hl : last + 1 < 2 ^ 32) (r : Bytes × OVal) :
    r ∈ fetchRows reg last ↔ ∃ e, e.IdEvent ∧ r = (oPrimaryKey e, .event e) ∧
      reg.get (oPrimaryKey e) = some (.event e) ∧ last < e.fid := by
  have hlow : ∀ e : OEvent, e.IdEvent →
      (Bytes.blt (oPrimaryKey e) (oTypePrefix 3 ++ makeFidKey (last + 1)) = false ↔ last < e.fid) := by
    intro e he
    have h1 := he.2.2.1
    have e1 : oPrimaryKey e = oTypePrefix 3 ++ (makeFidKey e.fid ++ (be 4 e.block ++ be 4 e.log)) := by
      unfold oPrimaryKey; rw [he.1]; simp
    rw [e1, Bytes.blt_append_left]
    constructor
    · intro h
      by_cases hc : last < e.fid
      · exact hc
      · exfalso
        have : Bytes.blt (makeFidKey e.fid) (makeFidKey (last + 1)) = true :=
          (be_blt_iff (w := 4) (m := e.fid) (n := last + 1) (by omega) (by omega)).2 (by omega)
        have := Bytes.blt_append_of_blt (by simp [makeFidKey]) this (be 4 e.block ++ be 4 e.log) []
        rw [List.append_nil] at this
        rw [this] at h; cases h
    · intro h
      rw [Bool.eq_false_iff]
      intro hc
      have hc' : Bytes.blt (makeFidKey e.fid ++ (be 4 e.block ++ be 4 e.log)) (makeFidKey (last + 1) ++ []) = true := by
        simpa using hc
      rcases Bytes.blt_of_append (by simp [makeFidKey]) hc' with hc | ⟨_, hc⟩
      · have := (be_blt_iff (w := 4) (m := e.fid) (n := last + 1) (by omega) (by omega)).1 hc
        omega
      · cases hb : be 4 e.block ++ be 4 e.log <;> rw [hb] at hc <;> simp [Bytes.blt] at hc
  have hup : ∀ k : Bytes, Bytes.blt k (oTypePrefix 3 ++ makeFidKey (last + 1)) = false →
      Bytes.blt k (incrementVec (oTypePrefix 3)) = true → oTypePrefix 3 <+: k := by
    intro k h1 h2
    have := (mem_range_iff_prefix_of_last (q := [12, 1]) (b := 3) (by decide) (k := k)).1
    refine this ⟨?_, h2⟩
    rw [Bool.eq_false_iff]
    intro hc
    have h3 : Bytes.blt k (oTypePrefix 3 ++ makeFidKey (last + 1)) = true := by
      have h4 := Bytes.not_blt_of_prefix (p := oTypePrefix 3) (k := oTypePrefix 3 ++ makeFidKey (last + 1)) (List.prefix_append _ _)
      rcases Bytes.blt_tri (oTypePrefix 3) (oTypePrefix 3 ++ makeFidKey (last + 1)) with h | h | h
      · exact Bytes.blt_trans hc h
      · rw [← h]; exact hc
      · rw [h] at h4; cases h4
    rw [h3] at h1; cases h1
  obtain ⟨k, v⟩ := r
  unfold fetchRows
  rw [mem_scanRows]
  constructor
  · rintro ⟨h1, h2, h3⟩
    have h1' := (OMap.get_eq_some_iff reg).2 h1
    obtain ⟨e, rfl, rfl, he⟩ := hr.rows k v (hup k h2 h3) h1'
    exact ⟨e, he, rfl, h1', (hlow e he).1 h2⟩
  · rintro ⟨e, he, hre, hg, hf⟩
    obtain ⟨rfl, rfl⟩ := Prod.mk.inj hre
    refine ⟨(OMap.get_eq_some_iff reg).1 hg, (hlow e he).2 hf, ?_⟩
    have := (mem_range_iff_prefix_of_last (q := [12, 1]) (b := 3) (by decide) (k := oPrimaryKey e)).2
    refine (this ?_).2
    unfold oPrimaryKey; rw [he.1]; exact ⟨makeFidKey e.fid ++ (be 4 e.block ++ be 4 e.log), by simp [oTypePrefix]⟩

theorem FidIter.next_spec {reg : Db OVal} (hr : RegistryOK reg) {it : FidIter} (hit : it.OK) :
    (∃ it', it.next reg = .ok (none, it') ∧ ∀ f, Registered reg f → ¬ it.Ahead f) ∨
    ∃ g it', it.next reg = .ok (some g, it') ∧ it'.OK ∧ it.last < g ∧ it'.last = g ∧
      ∀ f, Registered reg f → it.Ahead f → f = g ∨ it'.Ahead f := by
  unfold FidIter.next
  by_cases hq : it.queue = []
  · rw [if_pos hq]
    have hl := hit.last
    have hm := fun r => mem_fetchRows hr (last := it.last) (by omega) r
    have hev : ∀ r ∈ fetchRows reg it.last, ∃ e, r.2 = .event e := by
      intro r h; obtain ⟨e, _, rfl, _⟩ := (hm r).1 h; exact ⟨e, rfl⟩
    obtain ⟨n, b, hn, hi⟩ := fetch_iterate (fetchRows reg it.last) hev 0 (it.queue, 0)
    have hf : it.fetch reg = .ok (((fetchRows reg it.last).take n).foldl fidStep (it.queue, 0)) := by
      unfold FidIter.fetch forEachPaged
      simp only [iterBounds, Bool.false_eq_true, if_false]
      unfold fetchRows at hi
      rw [hi]
      rfl
    rw [hf]
    have hsort : (fetchRows reg it.last).Pairwise (fun a b => a.1 ≺ b.1) := by
      have := scanRows_dirSorted reg (oTypePrefix 3 ++ makeFidKey (it.last + 1)) (incrementVec (oTypePrefix 3)) false
      simpa [DirSorted, fetchRows] using this
    have htake : ∀ r ∈ (fetchRows reg it.last).take n, r ∈ fetchRows reg it.last := fun r h => List.mem_of_mem_take h
    have hreg : ∀ {e : OEvent} {x : Nat}, regFid (.event e) = some x → e.fid = x ∧ ∃ to, e.body = .idRegister to .register := by
      intro e x h
      simp only [regFid] at h
      cases hb : e.body with
      | idRegister to ty =>
        rw [hb] at h
        cases ty <;> simp at h
        exact ⟨h, to, rfl⟩
      | _ => rw [hb] at h; simp at h
    have hreg' : ∀ {e : OEvent} {to : Bytes}, e.body = .idRegister to .register → regFid (.event e) = some e.fid := by
      intro e to h; simp [regFid, h]
    obtain ⟨s1, s2, s3, s4, s5⟩ := fids_spec ((fetchRows reg it.last).take n) (it.queue, 0)
    have s4 := s4 (by simp [hq])
    have s5 := s5 (by simp [hq]) (by simp [hq]) (by
      refine (hsort.sublist (List.take_sublist _ _)).imp_of_mem ?_
      intro p q hp hqm hlt x y hx hy
      obtain ⟨e, he, rfl, _⟩ := (hm p).1 (htake p hp)
      obtain ⟨e', he', rfl, _⟩ := (hm q).1 (htake q hqm)
      rw [← (hreg hx).1, ← (hreg hy).1]
      exact oKey_blt_fid he he' hlt)
    generalize hacc : ((fetchRows reg it.last).take n).foldl fidStep (it.queue, 0) = acc at *
    obtain ⟨q, l⟩ := acc
    simp only at s1 s2 s3 s4 s5 ⊢
    have hok : FidIter.OK { it with queue := q } := by
      refine ⟨hl, s5, ?_⟩
      intro x hx
      rcases s1 x hx with h | ⟨p, hp, h⟩
      · rw [hq] at h; cases h
      · obtain ⟨e, he, rfl, _, hf⟩ := (hm p).1 (htake p hp)
        have := (hreg h).1
        have := he.2.2.1
        simp only at *
        omega
    by_cases hrow : fetchRows reg it.last = []
    · have hq' : q = [] := by
        rw [hrow] at hacc
        simp [hq] at hacc
        exact hacc.1
      have hl0 : l = 0 := by rw [s4, hq']; rfl
      left
      refine ⟨{ it with queue := q }, by simp [hl0], ?_⟩
      rintro f ⟨e, to, hg, ht, hfe, hb⟩ ha
      unfold FidIter.Ahead at ha
      rw [hq] at ha
      have hlf : it.last < f := by simpa using ha
      have hie : e.IdEvent := by
        obtain ⟨e', h1, h2, h3⟩ := hr.rows (oPrimaryKey e) _
          (by unfold oPrimaryKey; rw [ht]; exact ⟨makeFidKey e.fid ++ (be 4 e.block ++ be 4 e.log), by simp⟩) hg
        cases h1; exact h3
      have := (hm (oPrimaryKey e, .event e)).2 ⟨e, hie, rfl, hg, by omega⟩
      rw [hrow] at this; cases this
    · right
      -- the first row is a registration
      have hne : ∃ x, x ∈ q := by
        cases hR : fetchRows reg it.last with
        | nil => exact absurd hR hrow
        | cons p R =>
          obtain ⟨e, he, rfl, hg, hf⟩ := (hm p).1 (by rw [hR]; simp)
          obtain ⟨r, to, hri, hrg, hrf, hrb, hrl⟩ := hr.first e he hg
          have hrm := (hm (oPrimaryKey r, .event r)).2 ⟨r, hri, rfl, hrg, by omega⟩
          have hn0 := hn hrow
          rw [hR] at hrm
          rcases List.mem_cons.1 hrm with h | h
          · refine ⟨r.fid, s3 (oPrimaryKey r, .event r) ?_ _ (hreg' hrb)⟩
            rw [hR]
            obtain ⟨n', rfl⟩ : ∃ n', n = n' + 1 := ⟨n - 1, by omega⟩
            rw [List.take_succ_cons]
            rw [h]; simp
          · exfalso
            rw [hR] at hsort
            have := (List.pairwise_cons.1 hsort).1 _ h
            rw [Bytes.lt_def] at this
            rw [oKey_noLater hri he hrf hrl] at this; cases this
      obtain ⟨x, hx⟩ := hne
      have hqne : q ≠ [] := by rintro rfl; cases hx
      have hlast : ∃ g, q.getLast? = some g := by
        rcases List.eq_nil_or_concat q with h | ⟨l', z, h⟩
        · exact absurd h hqne
        · exact ⟨z, by rw [h]; simp⟩
      obtain ⟨top, htop⟩ := hlast
      have htm := List.mem_of_getLast? htop
      have hl1 : l > 0 := by
        rw [s4, htop]
        have := (hok.queue top htm).1
        simp only [Option.getD_some] at *; omega
      rw [if_pos hl1]
      obtain ⟨g, it', h1, h2, h3, h4, h5⟩ := FidIter.pop_spec hok hqne
      refine ⟨g, it', by rw [h1], h2, h3, h4, ?_⟩
      rintro f ⟨e, to, hg, ht, hfe, hb⟩ ha
      apply h5
      unfold FidIter.Ahead at ha ⊢
      rw [hq] at ha
      have hlf : it.last < f := by simpa using ha
      have hie : e.IdEvent := by
        obtain ⟨e', h1, h2, h3⟩ := hr.rows (oPrimaryKey e) _
          (by unfold oPrimaryKey; rw [ht]; exact ⟨makeFidKey e.fid ++ (be 4 e.block ++ be 4 e.log), by simp⟩) hg
        cases h1; exact h3
      have hem := (hm (oPrimaryKey e, .event e)).2 ⟨e, hie, rfl, hg, by omega⟩
      rw [← List.take_append_drop n (fetchRows reg it.last)] at hem hsort
      rcases List.mem_append.1 hem with h | h
      · left
        have := s3 _ h _ (hreg' hb)
        rw [hfe] at this; exact this
      · rcases s1 top htm with h' | ⟨p, hp, hpt⟩
        · rw [hq] at h'; cases h'
        · have hlt := (List.pairwise_append.1 hsort).2.2 p hp _ h
          obtain ⟨e', he', rfl, _⟩ := (hm p).1 (htake p hp)
          have hle := oKey_blt_fid he' hie hlt
          rw [(hreg hpt).1, hfe] at hle
          by_cases hft : f = top
          · left; rw [hft]; exact htm
          · right
            simp only [htop, Option.getD_some]; omega
  · rw [if_neg hq]
    right
    obtain ⟨g, it', h1, h2, h3, h4, h5⟩ := FidIter.pop_spec hit hq
    exact ⟨g, it', by rw [h1], h2, h3, h4, fun f _ => h5 f⟩

end Verif
