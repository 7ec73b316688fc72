import Verif.Spec.Subscribe
import Verif.Props.C19
/-! The event stream: what a subscriber gets. -/
namespace Verif

theorem extract_block (id : Nat) : (IdGen.extract id).1 = id / 2 ^ 14 := by
  simp [IdGen.extract, sequenceBits, Nat.shiftRight_eq_div_pow]

theorem rewrite_undated (e : HEvent) (i : Nat) (ts : Option Nat) : (rewriteEvent e i ts).undated = e.reported i := by
  unfold rewriteEvent HEvent.undated HEvent.reported
  simp only [extract_block, HEvent.mk.injEq, true_and, and_true]
  unfold trimBody
  split
  · next h => rw [h]; rfl
  · next h1 =>
    split
    · next ty m d hb =>
      split
      · next hc => subst hc; exact absurd hb (h1 _ _)
      · exact hb
    · rfl

theorem rewrite_ty (e : HEvent) (i : Nat) (ts : Option Nat) : (rewriteEvent e i ts).ty = e.ty := rfl
theorem rewrite_shard (e : HEvent) (i : Nat) (ts : Option Nat) : (rewriteEvent e i ts).shard = i := rfl

/-! ### One shard -/

structure EvInv (s : EvShard) : Prop where
  rows : s.log.rows = s.written.map (fun e => (eventKey e.id, e))
  asc : s.written.Pairwise (fun a b => a.id < b.id)
  lt : ∀ e ∈ s.written, e.id < 2 ^ 64
  zero : ∀ e ∈ s.written, e.ts = 0
  sent : (s.sent ++ s.queue).map HEvent.undated = s.written.map HEvent.undated
  stored : ∀ h ts, s.chunks h = some ts → ∀ e ∈ s.sent ++ s.queue, e.id / 2 ^ 14 = h → e.ts = ts
  open_ : ∀ h ts, s.chunk = some (h, ts) → ∀ e ∈ s.sent ++ s.queue, e.id / 2 ^ 14 = h → e.ts = ts
  old : ∀ h ts, s.chunks h = some ts → ∃ e ∈ s.written, e.id / 2 ^ 14 = h
  last : ∀ h ts, s.chunk = some (h, ts) → ∃ e ∈ s.written, e.id / 2 ^ 14 = h

theorem putL_end {l : List (Bytes × HEvent)} {k : Bytes} {v : HEvent} (h : ∀ r ∈ l, Bytes.blt r.1 k = true) :
    OMapL.put k v l = l ++ [(k, v)] := by
  induction l with
  | nil => rfl
  | cons r l ih =>
    have h1 := h r (by simp)
    have h2 : ¬ (k ≺ r.1) := fun h' => StrictOrd.irrefl _ (StrictOrd.trans (show r.1 ≺ k from h1) h')
    have h3 : ¬ (k = r.1) := by rintro rfl; exact StrictOrd.irrefl _ (show r.1 ≺ r.1 from h1)
    obtain ⟨a, b⟩ := r
    simp only at h2
    unfold OMapL.put
    rw [if_neg h2, if_pos (show a ≺ k from h1), ih (fun r hr => h r (by simp [hr]))]
    rfl

theorem putAll_end (es : List HEvent) : ∀ (db : Db HEvent) (W : List HEvent),
    db.rows = W.map (fun e => (eventKey e.id, e)) → (∀ e ∈ W, e.id < 2 ^ 64) → (∀ e ∈ es, e.id < 2 ^ 64) →
    es.Pairwise (fun a b => a.id < b.id) → (∀ a ∈ W, ∀ b ∈ es, a.id < b.id) →
    (es.foldl (fun db e => OMap.put db (eventKey e.id) e) db).rows = (W ++ es).map (fun e => (eventKey e.id, e)) := by
  induction es with
  | nil => intro db W h _ _ _ _; simpa using h
  | cons e es ih =>
    intro db W h hW he hp hlt
    obtain ⟨hp1, hp2⟩ := List.pairwise_cons.1 hp
    have := ih (OMap.put db (eventKey e.id) e) (W ++ [e]) (by
      show OMapL.put _ _ db.rows = _
      rw [putL_end (by
        intro r hr
        rw [h] at hr
        obtain ⟨x, hx, rfl⟩ := List.mem_map.1 hr
        simp only
        rw [eventKey_blt _ _ (hW x hx) (he e (by simp))]
        exact decide_eq_true (hlt x hx e (by simp))), h]
      simp) (by
      intro x hx
      rcases List.mem_append.1 hx with hx | hx
      · exact hW x hx
      · simp only [List.mem_singleton] at hx; subst hx; exact he _ (by simp)) (fun x hx => he x (by simp [hx])) hp2 (by
      intro a ha b hb
      rcases List.mem_append.1 ha with ha | ha
      · exact hlt a ha b (by simp [hb])
      · simp only [List.mem_singleton] at ha; subst ha; exact hp1 b hb)
    simpa using this

theorem undated_id {a b : List HEvent} (h : a.map HEvent.undated = b.map HEvent.undated) : a.map (·.id) = b.map (·.id) := by
  have : ∀ l : List HEvent, l.map (·.id) = (l.map HEvent.undated).map (·.id) := by
    intro l; rw [List.map_map]; rfl
  rw [this, h, ← this]

theorem EvInv.mem_sent {s : EvShard} (h : EvInv s) {e : HEvent} (he : e ∈ s.sent ++ s.queue) :
    ∃ x ∈ s.written, x.id = e.id ∧ x.undated = e.undated := by
  have : e.undated ∈ s.written.map HEvent.undated := by rw [← h.sent]; exact List.mem_map.2 ⟨e, he, rfl⟩
  obtain ⟨x, hx, hxe⟩ := List.mem_map.1 this
  refine ⟨x, hx, ?_, hxe⟩
  have := congrArg HEvent.id hxe
  exact this

theorem EvInv.sent_of {s : EvShard} (h : EvInv s) {e : HEvent} (he : e ∈ s.written) :
    ∃ x ∈ s.sent ++ s.queue, x.id = e.id ∧ x.undated = e.undated := by
  have : e.undated ∈ (s.sent ++ s.queue).map HEvent.undated := by rw [h.sent]; exact List.mem_map.2 ⟨e, he, rfl⟩
  obtain ⟨x, hx, hxe⟩ := List.mem_map.1 this
  have h2 := congrArg HEvent.id hxe
  exact ⟨x, hx, h2, hxe⟩

theorem EvInv.init : EvInv {} where
  rows := rfl
  asc := List.Pairwise.nil
  lt := fun _ h => by cases h
  zero := fun _ h => by cases h
  sent := rfl
  stored := fun _ _ h => by cases h
  open_ := fun _ _ h => by cases h
  old := fun _ _ h => by cases h
  last := fun _ _ h => by cases h

/-- A step of a shard keeps the invariant, and the lists only grow. -/
theorem EvInv.step {s : EvShard} (h : EvInv s) (c : CommitStep)
    (ho : ∀ hh ts es, c = .write hh ts es → hh < 2 ^ 50 ∧ es ≠ [] ∧ es.Pairwise (fun a b => a.id < b.id) ∧
      (∀ e ∈ es, e.id / 2 ^ 14 = hh ∧ e.ts = 0) ∧ ∀ e ∈ s.written, e.id / 2 ^ 14 < hh) :
    EvInv (s.step c) ∧ ∃ more sent, (s.step c).written = s.written ++ more ∧ (s.step c).sent = s.sent ++ sent ∧
      ∀ a ∈ s.written, ∀ b ∈ more, a.id < b.id := by
  cases c with
  | write hh ts es =>
    obtain ⟨h0, hne, h1, h2, h3⟩ := ho hh ts es rfl
    simp only [EvShard.step]
    split
    · next hidle =>
      have hlt : ∀ a ∈ s.written, ∀ b ∈ es, a.id < b.id := by
        intro a ha b hb
        have ha' := h3 a ha
        have hb' := (h2 b hb).1
        omega
      have hlt' : ∀ e ∈ es, e.id < 2 ^ 64 := by
        intro e he
        have := (h2 e he).1
        omega
      have hq : ∀ x ∈ es.map (fun e => { e with ts := ts }), x.id / 2 ^ 14 = hh ∧ x.ts = ts := by
        intro x hx
        obtain ⟨e, he, rfl⟩ := List.mem_map.1 hx
        exact ⟨(h2 e he).1, rfl⟩
      have hsent : ∀ x ∈ s.sent, x.id / 2 ^ 14 < hh := by
        intro x hx
        obtain ⟨y, hy, hyx, _⟩ := h.mem_sent (List.mem_append.2 (.inl hx))
        rw [← hyx]; exact h3 y hy
      obtain ⟨e0, he0⟩ := List.exists_mem_of_ne_nil es hne
      refine ⟨⟨?_, ?_, ?_, ?_, ?_, ?_, ?_, ?_, ?_⟩, es, [], rfl, by simp, hlt⟩
      · exact putAll_end es s.log s.written h.rows h.lt hlt' h1 hlt
      · exact List.pairwise_append.2 ⟨h.asc, h1, hlt⟩
      · intro e he
        rcases List.mem_append.1 he with he | he
        · exact h.lt e he
        · exact hlt' e he
      · intro e he
        rcases List.mem_append.1 he with he | he
        · exact h.zero e he
        · exact (h2 e he).2
      · have := h.sent
        rw [hidle.1, List.append_nil] at this
        simp only [List.map_append, this, List.map_map]
        rfl
      · intro h' t' hc e he hb
        rcases List.mem_append.1 he with he | he
        · exact h.stored h' t' hc e (List.mem_append.2 (.inl he)) hb
        · obtain ⟨y, hy, hyb⟩ := h.old h' t' hc
          have := h3 y hy
          have := (hq e he).1
          omega
      · intro h' t' hc e he hb
        simp only [Option.some.injEq, Prod.mk.injEq] at hc
        obtain ⟨rfl, rfl⟩ := hc
        rcases List.mem_append.1 he with he | he
        · have := hsent e he; omega
        · exact (hq e he).2
      · intro h' t' hc
        obtain ⟨y, hy, hyb⟩ := h.old h' t' hc
        exact ⟨y, List.mem_append.2 (.inl hy), hyb⟩
      · intro h' t' hc
        simp only [Option.some.injEq, Prod.mk.injEq] at hc
        obtain ⟨rfl, rfl⟩ := hc
        exact ⟨e0, List.mem_append.2 (.inr he0), (h2 e0 he0).1⟩
    · exact ⟨h, [], [], by simp, by simp, fun _ _ _ h => by cases h⟩
  | send =>
    simp only [EvShard.step]
    split
    · exact ⟨h, [], [], by simp, by simp, fun _ _ _ h => by cases h⟩
    · next e q hq =>
      have heq : (s.sent ++ [e]) ++ q = s.sent ++ s.queue := by rw [hq]; simp
      refine ⟨⟨h.rows, h.asc, h.lt, h.zero, ?_, ?_, ?_, h.old, h.last⟩, [], [e], by simp, rfl, fun _ _ _ h => by cases h⟩
      · simp only [heq]; exact h.sent
      · simp only [heq]; exact h.stored
      · simp only [heq]; exact h.open_
  | chunk =>
    simp only [EvShard.step]
    split
    · next hh ts hq hc =>
      refine ⟨⟨h.rows, h.asc, h.lt, h.zero, h.sent, ?_, ?_, ?_, ?_⟩, [], [], by simp, by simp, fun _ _ _ h => by cases h⟩
      · intro h' t' hs
        simp only at hs
        split at hs
        · next he => cases hs; subst he; exact h.open_ _ _ hc
        · exact h.stored h' t' hs
      · intro h' t' hs; cases hs
      · intro h' t' hs
        simp only at hs
        split at hs
        · next he => subst he; exact h.last _ _ hc
        · exact h.old h' t' hs
      · intro h' t' hs; cases hs
    · exact ⟨h, [], [], by simp, by simp, fun _ _ _ h => by cases h⟩
  | forget k =>
    refine ⟨⟨h.rows, h.asc, h.lt, h.zero, h.sent, ?_, h.open_, ?_, h.last⟩, [], [], by simp [EvShard.step], by simp [EvShard.step], fun _ _ _ h => by cases h⟩
    · intro h' t' hs
      simp only [EvShard.step] at hs
      split at hs
      · cases hs
      · exact h.stored h' t' hs
    · intro h' t' hs
      simp only [EvShard.step] at hs
      split at hs
      · cases hs
      · exact h.old h' t' hs

/-! ### Pages -/

/-- Past the token. -/
def pastToken (t : Option Bytes) (e : HEvent) : Bool :=
  match t with
  | none => true
  | some t => Bytes.blt t (eventKey e.id)

theorem log_page {s : EvShard} (h : EvInv s) {f : Nat} (hf : f < 2 ^ 64) {t : Option Bytes}
    (ht : ∀ k, t = some k → ∃ e ∈ s.written, k = eventKey e.id ∧ f ≤ e.id) :
    let S := s.written.filter (fun e => decide (f ≤ e.id) && pastToken t e)
    getEvents some s.log f none { pageToken := t } = .ok ⟨S, none⟩ ∨
    ∃ A e B, S = A ++ e :: B ∧ getEvents some s.log f none { pageToken := t } = .ok ⟨A ++ [e], some (eventKey e.id)⟩ := by
  intro S
  rw [getEvents_eq]
  unfold rangePage
  have hrange : ∀ r ∈ s.log.rows, (!Bytes.blt r.1 (eventKey f) && Bytes.blt r.1 (eventStop none)) = decide (f ≤ r.2.id) := by
    intro r hr
    rw [h.rows] at hr
    obtain ⟨e, he, rfl⟩ := List.mem_map.1 hr
    simp only
    rw [eventKey_blt _ _ (h.lt e he) hf, eventStop_none]
    rw [show Bytes.blt (eventKey e.id) _ = true by simp [eventKey, Bytes.blt]]
    by_cases hle : f ≤ e.id
    · simp [hle]
    · simp [hle]; omega
  have hscan : scanRows s.log (eventKey f) (eventStop none) false =
      (s.written.filter (fun e => decide (f ≤ e.id))).map (fun e => (eventKey e.id, e)) := by
    simp only [scanRows, Bool.false_eq_true, if_false]
    rw [List.filter_congr hrange, h.rows, List.filter_map]
    rfl
  have hrows : scanRows s.log (iterBounds (some (eventKey f)) (some (eventStop none)) { pageToken := t }).1
      (iterBounds (some (eventKey f)) (some (eventStop none)) { pageToken := t }).2 false =
      S.map (fun e => (eventKey e.id, e)) := by
    cases t with
    | none =>
      have : S = s.written.filter (fun e => decide (f ≤ e.id)) := by
        simp only [S, pastToken, Bool.and_true]
      rw [this, ← hscan]; rfl
    | some k =>
      obtain ⟨e0, he0, rfl, hfe⟩ := ht k rfl
      have h1 : Bytes.blt (eventKey e0.id) (eventKey f) = false := by
        rw [eventKey_blt _ _ (h.lt _ he0) hf]; simp; omega
      have h2 : Bytes.blt (eventKey e0.id) (eventStop none) = true := by rw [eventStop_none]; simp [eventKey, Bytes.blt]
      have := scan_with_token s.log (eventKey f) (eventStop none) (eventKey e0.id) false none h1 h2
      simp only at this
      rw [this, hscan, List.filter_map, List.filter_filter]
      congr 1
      apply List.filter_congr
      intro e _
      simp only [Function.comp, afterToken, Bool.false_eq_true, if_false, pastToken]
      exact Bool.and_comm _ _
  simp only [hrows]
  have hfm : ∀ l : List HEvent, (l.map (fun e => (eventKey e.id, e))).filterMap (fun r => some r.2) = l := by
    intro l; induction l with
    | nil => rfl
    | cons a l ih => simp only [List.map_cons, List.filterMap_cons, ih]
  rcases page_split (V := HEvent) (M := HEvent) some (fun _ => true) 1000 (S.map (fun e => (eventKey e.id, e)))
    (fun r _ => rfl) [] [] 0 with ⟨A, k, v, B, e1, e2⟩ | e
  · right
    obtain ⟨A', L', h1, h2, h3⟩ := List.map_eq_append_iff.1 e1
    cases L' with
    | nil => simp at h3
    | cons e B' =>
      simp only [List.map_cons, List.cons.injEq, Prod.mk.injEq] at h3
      obtain ⟨⟨rfl, rfl⟩, h4⟩ := h3
      refine ⟨A', e, B', h1, ?_⟩
      simp only [Option.getD_none, e2]
      rw [← h2]
      have : (eventKey e.id).isEmpty = false := rfl
      simp only [this]
      have hq := hfm (A' ++ [e])
      simp only [List.map_append, List.map_cons, List.map_nil] at hq
      rw [hq]
      simp
  · left
    simp only [Option.getD_none, e, hfm]
    simp

theorem fillIn_undated (chunks : Nat → Option Nat) (i : Nat) (es : List HEvent) : ∀ last,
    (fillIn chunks i last es).1.map HEvent.undated = es.map (HEvent.reported i) := by
  induction es with
  | nil => intro last; rfl
  | cons e es ih =>
    intro last
    simp only [fillIn, List.map_cons, rewrite_undated, ih]

theorem fillIn_shard (chunks : Nat → Option Nat) (i : Nat) (es : List HEvent) : ∀ last,
    ∀ d ∈ (fillIn chunks i last es).1, d.shard = i := by
  induction es with
  | nil => intro last d h; cases h
  | cons e es ih =>
    intro last d h
    simp only [fillIn, List.mem_cons] at h
    rcases h with rfl | h
    · rfl
    · exact ih _ d h

end Verif
