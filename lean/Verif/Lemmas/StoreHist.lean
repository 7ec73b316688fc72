import Verif.Lemmas.StoreMerge
import Verif.Model.StoreRun
/-! Histories that only merge and commit: the live messages are the greatest ones merged. -/
namespace Verif
namespace StoreDef
variable {D : StoreDef} {ok : Msg → Prop} {ctx : Nat → MergeCtx}

theorem view_commit (st : StoreState) (k : Bytes) :
    (st.exec D ctx .commit).view k = st.view k := by
  simp only [StoreState.exec, StoreState.view, getFromDbOrTxn]
  rw [Db.get_commit]
  simp only [OMap.get_empty]
  rfl

/-- A store with compaction is only used with messages whose compact-state row is outside the store's
own rows. -/
def CompactOut (D : StoreDef) (ok : Msg → Prop) : Prop :=
  D.compactSupported = true → ∀ m, ok m → ∃ k, D.compactKey m = .ok k ∧ ¬ D.Space ok k ∧ ∀ id, k ≠ eventKey id

/-- The rows outside the store, other than events, are absent. -/
def Blank (D : StoreDef) (ok : Msg → Prop) (V : View) : Prop :=
  ∀ k, ¬ D.Space ok k → (∀ id, k ≠ eventKey id) → V k = none

theorem CompactFree.of_blank (hc : CompactOut D ok) {V : View} (hb : Blank D ok V) {m : Msg} (hm : ok m) :
    CompactFree D m V := by
  intro hs
  obtain ⟨k, h1, h2, h3⟩ := hc hs m hm
  exact ⟨k, h1, .inl (hb k h2 h3)⟩

theorem Blank.frame {V V' : View} (h : Blank D ok V) (hf : Frame D ok V V') : Blank D ok V' :=
  fun k hk he => (hf k hk he).trans (h k hk he)

/-- The live messages `L` after the messages `ms` were merged. -/
structure Winners (D : StoreDef) (ms L : List Msg) : Prop where
  sub : ∀ m ∈ L, m ∈ ms
  dom : ∀ x ∈ ms, ∃ z ∈ L, D.ak z = D.ak x ∧ ¬ D.cmp x z > 0

theorem Winners.mem_iff (H : D.Lawful ok) {ms L : List Msg} (h : Winners D ms L) (hok : ∀ m ∈ ms, ok m)
    (hu : L.Pairwise (fun a b => D.ak a ≠ D.ak b)) (m : Msg) :
    m ∈ L ↔ m ∈ ms ∧ ∀ x ∈ ms, D.ak x = D.ak m → ¬ D.cmp x m > 0 := by
  constructor
  · intro hm
    refine ⟨h.sub m hm, ?_⟩
    intro x hx e
    obtain ⟨z, hz, ez, hz'⟩ := h.dom x hx
    rw [unique_of_pairwise hu hz hm (ez.trans e)] at hz'
    exact hz'
  · rintro ⟨hm, hmax⟩
    obtain ⟨z, hz, ez, hz'⟩ := h.dom m hm
    have hzm := h.sub z hz
    have h1 := hmax z hzm ez
    have h2 : ¬ D.cmp z m < 0 := fun hlt => hz' ((H.cmpAnti (hok z hzm) (hok m hm)).1 hlt)
    rw [← H.cmpEq (hok z hzm) (hok m hm) ez (by omega)]
    exact hz

theorem Winners.merge (H : D.Lawful ok) {ms L : List Msg} (h : Winners D ms L) (hok : ∀ m ∈ ms, ok m)
    (hu : L.Pairwise (fun a b => D.ak a ≠ D.ak b)) {m : Msg} (hm : ok m) :
    Winners D (ms ++ [m]) (D.liveMerge L m).2 := by
  unfold liveMerge
  cases hf : L.find? (fun x => D.ak x = D.ak m) with
  | none =>
    have hn : ∀ x ∈ L, D.ak x ≠ D.ak m := by simpa using List.find?_eq_none.1 hf
    constructor
    · intro y hy
      rcases List.mem_cons.1 hy with e | hy
      · simp [e]
      · exact List.mem_append.2 (.inl (h.sub y hy))
    · intro x hx
      rcases List.mem_append.1 hx with hx | hx
      · obtain ⟨z, hz, h'⟩ := h.dom x hx
        exact ⟨z, List.mem_cons_of_mem _ hz, h'⟩
      · rw [List.mem_singleton.1 hx]
        exact ⟨m, List.mem_cons_self, rfl, by rw [H.cmpSelf]; omega⟩
  | some x₀ =>
    have hx₀ : x₀ ∈ L := List.mem_of_find?_eq_some hf
    have he₀ : D.ak x₀ = D.ak m := by simpa using List.find?_some hf
    have hok₀ := hok x₀ (h.sub x₀ hx₀)
    have keep : ¬ D.cmp m x₀ > 0 → Winners D (ms ++ [m]) L := by
      intro hle
      constructor
      · intro y hy; exact List.mem_append.2 (.inl (h.sub y hy))
      · intro x hx
        rcases List.mem_append.1 hx with hx | hx
        · exact h.dom x hx
        · rw [List.mem_singleton.1 hx]
          exact ⟨x₀, hx₀, he₀, hle⟩
    have anti := H.cmpAnti hok₀ hm
    have anti' := H.cmpAnti hm hok₀
    by_cases h1 : D.cmp x₀ m > 0
    · simp only [h1, if_true]
      exact keep (by omega)
    · by_cases h2 : D.cmp x₀ m = 0
      · simp only [h2, if_true]
        refine keep ?_
        intro hgt
        have := anti.2 hgt
        omega
      · simp only [h1, h2, if_false]
        have hgt : D.cmp m x₀ > 0 := anti.1 (by omega)
        constructor
        · intro y hy
          rcases List.mem_cons.1 hy with e | hy
          · simp [e]
          · exact List.mem_append.2 (.inl (h.sub y (List.mem_filter.1 hy).1))
        · intro x hx
          by_cases e : D.ak x = D.ak m
          · refine ⟨m, List.mem_cons_self, e.symm, ?_⟩
            rcases List.mem_append.1 hx with hx | hx
            · obtain ⟨z, hz, ez, hz'⟩ := h.dom x hx
              rw [unique_of_pairwise hu hz hx₀ (ez.trans (e.trans he₀.symm))] at hz'
              intro hxm
              exact hz' (H.cmpTrans (hok x hx) hm hok₀ e he₀.symm hxm hgt)
            · rw [List.mem_singleton.1 hx, H.cmpSelf]; omega
          · rcases List.mem_append.1 hx with hx | hx
            · obtain ⟨z, hz, ez, hz'⟩ := h.dom x hx
              refine ⟨z, List.mem_cons_of_mem _ (List.mem_filter.2 ⟨hz, ?_⟩), ez, hz'⟩
              simpa [ez] using e
            · exact absurd (by rw [List.mem_singleton.1 hx]) e

theorem merged_append (a b : List StoreOp) : StoreOp.merged (a ++ b) = StoreOp.merged a ++ StoreOp.merged b := by
  induction a with
  | nil => rfl
  | cons o a ih => cases o <;> simp [StoreOp.merged, ih]

/-- The invariant of such a history. -/
structure MergeInv (D : StoreDef) (ok : Msg → Prop) (ctx : Nat → MergeCtx) (ms L : List Msg)
    (st : StoreState) : Prop where
  holds : D.Holds ok ctx L st.view
  blank : Blank D ok st.view
  winners : Winners D ms L

theorem run_append (st : StoreState) (a b : List StoreOp) :
    st.run D ctx (a ++ b) = (st.run D ctx a).run D ctx b := by simp [StoreState.run]

theorem holds_empty : D.Holds ok ctx [] ({} : StoreState).view where
  valid := by simp
  items := List.Pairwise.nil
  rows k _ v := by simp [StoreState.view, getFromDbOrTxn]

theorem merge_run (H : D.Lawful ok) (hc : CompactOut D ok) (ops : List StoreOp) (ho : MergesOnly ops)
    (hok : ∀ m ∈ StoreOp.merged ops, ok m) :
    ∃ L, MergeInv D ok ctx (StoreOp.merged ops) L (({} : StoreState).run D ctx ops) := by
  suffices h : ∀ n, ∀ ops : List StoreOp, ops.length = n → MergesOnly ops → (∀ m ∈ StoreOp.merged ops, ok m) →
      ∃ L, MergeInv D ok ctx (StoreOp.merged ops) L (({} : StoreState).run D ctx ops) from
    h _ ops rfl ho hok
  clear ho hok ops
  intro n
  induction n with
  | zero =>
    intro ops hl _ _
    cases ops with
    | nil =>
      refine ⟨[], holds_empty, ?_, ⟨by simp, by simp [StoreOp.merged]⟩⟩
      intro k _ _; simp [StoreState.run, StoreState.view, getFromDbOrTxn]
    | cons a l => simp at hl
  | succ n ih =>
    intro ops hl ho hok
    obtain ⟨pre, o, rfl⟩ : ∃ pre o, ops = pre ++ [o] :=
      ⟨ops.dropLast, ops.getLast (by intro e; simp [e] at hl), (List.dropLast_concat_getLast _).symm⟩
    rw [merged_append] at hok ⊢
    obtain ⟨L, hi⟩ := ih pre (by simpa using hl) (fun o ho' => ho o (List.mem_append.2 (.inl ho')))
      (fun m hm => hok m (List.mem_append.2 (.inl hm)))
    rw [run_append]
    generalize ({} : StoreState).run D ctx pre = st at hi ⊢
    have hstep : st.run D ctx [o] = st.exec D ctx o := rfl
    rw [hstep]
    rcases ho o (by simp) with ⟨m, rfl⟩ | rfl | ⟨h, rfl⟩
    · have hm : ok m := hok m (by simp [StoreOp.merged])
      have hpre : ∀ m ∈ StoreOp.merged pre, ok m := fun m hm => hok m (List.mem_append.2 (.inl hm))
      have hw := hi.winners.merge H hpre hi.holds.items hm
      rcases merge_spec H hi.holds hm (CompactFree.of_blank hc hi.blank hm) with
        ⟨e, hl, _, hr⟩ | ⟨old, s', hl, hr, hh, hf⟩
      · refine ⟨L, ?_⟩
        rw [hl] at hw
        have : st.exec D ctx (.merge m) = st := by
          simp only [StoreState.exec, StoreState.after, hr]
        rw [this]
        exact ⟨hi.holds, hi.blank, hw⟩
      · refine ⟨m :: L.filter (fun x => D.ak x ≠ D.ak m), ?_⟩
        rw [hl] at hw
        have : st.exec D ctx (.merge m) = { st with pend := s' } := by
          simp only [StoreState.exec, StoreState.after]
          rcases hr with hr | hr <;> rw [hr]
        rw [this]
        exact ⟨hh, hi.blank.frame hf, hw⟩
    · refine ⟨L, ?_, ?_, ?_⟩
      · exact hi.holds.congr (fun k _ => view_commit st k)
      · intro k hk he; rw [view_commit]; exact hi.blank k hk he
      · simpa [StoreOp.merged] using hi.winners
    · refine ⟨L, hi.holds, hi.blank, ?_⟩
      simpa [StoreOp.merged] using hi.winners

/-- Order independence, in terms of the store's own notions. -/
theorem order_independent (H : D.Lawful ok) (hc : CompactOut D ok) (ops ops' : List StoreOp)
    (ho : MergesOnly ops) (ho' : MergesOnly ops') (hok : ∀ m ∈ StoreOp.merged ops, ok m)
    (hset : ∀ m, m ∈ StoreOp.merged ops ↔ m ∈ StoreOp.merged ops') (k : Bytes) (hk : ∀ id, k ≠ eventKey id) :
    (({} : StoreState).run D ctx ops).view k = (({} : StoreState).run D ctx ops').view k := by
  have hok' : ∀ m ∈ StoreOp.merged ops', ok m := fun m hm => hok m ((hset m).2 hm)
  obtain ⟨L, h⟩ := merge_run (ctx := ctx) H hc ops ho hok
  obtain ⟨L', h'⟩ := merge_run (ctx := ctx) H hc ops' ho' hok'
  by_cases hs : D.Space ok k
  · refine h.holds.agree h'.holds ?_ k hs
    intro m
    rw [h.winners.mem_iff H hok h.holds.items, h'.winners.mem_iff H hok' h'.holds.items, hset]
    constructor
    · rintro ⟨a, b⟩; exact ⟨a, fun x hx => b x ((hset x).2 hx)⟩
    · rintro ⟨a, b⟩; exact ⟨a, fun x hx => b x ((hset x).1 hx)⟩
  · rw [h.blank k hs hk, h'.blank k hs hk]

end StoreDef
end Verif
