import Verif.Spec.NameFeed
/-! Lemmas for C82. -/
namespace Verif
namespace NameFeed

theorem submit_fields (s : Node) (t : Entry) : (s.submit t).position = s.position ∧ (s.submit t).stored = s.stored ∧
    (s.submit t).pc = s.pc ∧ (s.submit t).serve = s.serve := by
  unfold Node.submit; split <;> exact ⟨rfl, rfl, rfl, rfl⟩

theorem submit_handed (s : Node) (t : Entry) (x : Nat × WTransfer) :
    x ∈ (s.submit t).handed ↔ x ∈ s.handed ∨ (x.1 = t.id ∧ parse t = some x.2) := by
  unfold Node.submit
  rcases hp : parse t with _ | w
  · simp
  · simp only [List.mem_append, List.mem_singleton]
    constructor
    · rintro (h | rfl)
      · exact .inl h
      · exact .inr ⟨rfl, rfl⟩
    · rintro (h | ⟨h1, h2⟩)
      · exact .inl h
      · obtain ⟨a, b⟩ := x
        simp only [Option.some.injEq] at h2
        right; rw [h2]; simp at h1; rw [h1]

theorem submit_mono {s : Node} (t : Entry) {x : Entry} (h : s.Delivered x) : (s.submit t).Delivered x :=
  fun w hw => (submit_handed s t _).2 (.inl (h w hw))
theorem submit_self (s : Node) (t : Entry) : (s.submit t).Delivered t :=
  fun w hw => (submit_handed s t _).2 (.inr ⟨rfl, hw⟩)

/-- Entries up to an id have been delivered. -/
def Upto (reg : List Entry) (start : Nat) (s : Node) (p : Nat) : Prop :=
  ∀ t ∈ reg, start < t.id → t.id ≤ p → s.Delivered t

def PcOK (reg : List Entry) (start : Nat) (s : Node) : Pc → Prop
  | .off => True
  | .boot => True
  | .ask => Upto reg start s s.position
  | .page todo last => Upto reg start s s.position ∧ todo <+: reg.filter (fun t => decide (s.position < t.id)) ∧
      (last = 0 ∨ last = s.position)

structure Inv (reg : List Entry) (start : Nat) (s : Node) : Prop where
  stored : Upto reg start s s.stored
  honest : HonestServer reg s.serve
  pc : PcOK reg start s s.pc
  only : ∀ x ∈ s.handed, ∃ t ∈ reg, t.id = x.1 ∧ parse t = some x.2

theorem Upto.mono {reg : List Entry} {start : Nat} {s s' : Node} {p : Nat} (h : Upto reg start s p)
    (hm : ∀ x, s.Delivered x → s'.Delivered x) : Upto reg start s' p := fun t h1 h2 h3 => hm t (h t h1 h2 h3)

/-- The next entry of a page is the next entry of the registry. -/
theorem next_of_prefix {reg : List Entry} (hr : RegistryOK reg) {p : Nat} {t : Entry} {todo : List Entry}
    (h : (t :: todo) <+: reg.filter (fun t => decide (p < t.id))) :
    t ∈ reg ∧ p < t.id ∧ todo <+: reg.filter (fun x => decide (t.id < x.id)) ∧
      ∀ x ∈ reg, p < x.id → x.id ≤ t.id → x = t := by
  obtain ⟨rest, hrest⟩ := h
  have hs : (reg.filter (fun t => decide (p < t.id))).Pairwise (fun a b => a.id < b.id) := List.Pairwise.filter _ hr
  have hmem : t ∈ reg.filter (fun t => decide (p < t.id)) := by rw [← hrest]; simp
  obtain ⟨hm, hp⟩ := List.mem_filter.1 hmem
  have hp : p < t.id := by simpa using hp
  have hs' := hs
  rw [← hrest] at hs'
  have hhead : ∀ x ∈ todo ++ rest, t.id < x.id := by
    rw [List.cons_append, List.pairwise_cons] at hs'
    exact hs'.1
  refine ⟨hm, hp, ⟨rest, ?_⟩, ?_⟩
  · have e : reg.filter (fun x => decide (t.id < x.id)) = (reg.filter (fun x => decide (p < x.id))).filter (fun x => decide (t.id < x.id)) := by
      rw [List.filter_filter]
      apply List.filter_congr
      intro x _
      by_cases h1 : t.id < x.id
      · simp [h1]; omega
      · simp [h1]
    rw [e, ← hrest, List.cons_append, List.filter_cons_of_neg (by simp)]
    exact (List.filter_eq_self.2 (fun x hx => by simpa using hhead x hx)).symm
  · intro x hx h1 h2
    have : x ∈ reg.filter (fun t => decide (p < t.id)) := List.mem_filter.2 ⟨hx, by simpa using h1⟩
    rw [← hrest, List.cons_append, List.mem_cons] at this
    rcases this with rfl | this
    · rfl
    · have := hhead x this; omega

theorem inv_step {cfg : Config} {reg : List Entry} (hr : RegistryOK reg) {start : Nat} (hcfg : cfg.startFrom = some start)
    {s : Node} (h : Inv reg start s) : Inv reg start (s.step cfg) := by
  obtain ⟨h1, h2, h3, h4⟩ := h
  unfold Node.step
  rcases hpc : s.pc with _ | _ | _ | ⟨_ | ⟨t, todo⟩, last⟩
  all_goals rw [hpc] at h3
  · exact ⟨h1, h2, by rw [hpc]; trivial, h4⟩
  · refine ⟨h1, h2, ?_, h4⟩
    simp only [hcfg]
    intro t ht hs hle
    exact h1 t ht hs (by have : t.id ≤ max start s.stored := hle; omega)
  · simp only
    split
    · exact ⟨h1, h2, by rw [hpc]; exact h3, h4⟩
    · exact ⟨h1, h2, ⟨h3, h2 _, .inl rfl⟩, h4⟩
  · obtain ⟨p1, p2, p3⟩ := h3
    simp only
    split
    · rename_i hl
      have hl' : last = s.position := by omega
      exact ⟨hl' ▸ p1, h2, p1, h4⟩
    · exact ⟨h1, h2, p1, h4⟩
  · obtain ⟨p1, p2, p3⟩ := h3
    obtain ⟨q1, q2, q3, q4⟩ := next_of_prefix hr p2
    simp only
    rw [if_neg (by omega)]
    split
    · exact ⟨h1, h2, trivial, h4⟩
    · let s0 : Node := { s with position := t.id, pc := .page (t :: todo) last }
      obtain ⟨f1, f2, f3, f4⟩ := submit_fields s0 t
      refine ⟨?_, ?_, ⟨?_, ?_, .inr ?_⟩, ?_⟩
      · show Upto reg start (s0.submit t) (s0.submit t).stored
        rw [f2]; exact h1.mono (fun x hx => submit_mono (s := s0) t hx)
      · show HonestServer reg (s0.submit t).serve
        rw [f4]; exact h2
      · show Upto reg start (s0.submit t) (s0.submit t).position
        rw [f1]
        intro x hx hs hle
        by_cases hb : x.id ≤ s.position
        · exact submit_mono (s := s0) t (p1 x hx hs hb)
        · rw [q4 x hx (by omega) hle]; exact submit_self s0 t
      · show todo <+: reg.filter (fun x => decide ((s0.submit t).position < x.id))
        rw [f1]; exact q3
      · show t.id = (s0.submit t).position
        rw [f1]
      · intro x hx
        rcases (submit_handed s0 t x).1 hx with hx | ⟨e1, e2⟩
        · exact h4 x hx
        · exact ⟨t, q1, e1.symm, e2⟩

theorem inv_submits {reg : List Entry} {start : Nat} : ∀ (ts : List Entry) {s : Node}, Inv reg start s → s.pc = .ask →
    (∀ t ∈ ts, t ∈ reg) → Inv reg start (ts.foldl Node.submit s)
  | [], _, h, _, _ => h
  | t :: ts, s, h, hpc, ht => by
    obtain ⟨f1, f2, f3, f4⟩ := submit_fields s t
    have hp := h.pc
    rw [hpc] at hp
    refine inv_submits ts (s := s.submit t) ⟨?_, ?_, ?_, ?_⟩ (f3.trans hpc) (fun x hx => ht x (by simp [hx]))
    · rw [f2]; exact h.stored.mono (fun x hx => submit_mono t hx)
    · rw [f4]; exact h.honest
    · rw [f3, hpc]
      show Upto reg start _ _
      rw [f1]
      exact Upto.mono hp (fun x hx => submit_mono t hx)
    · intro x hx
      rcases (submit_handed s t x).1 hx with hx | ⟨e1, e2⟩
      · exact h.only x hx
      · exact ⟨t, ht t (by simp), e1.symm, e2⟩

theorem inv_exec {cfg : Config} {reg : List Entry} (hr : RegistryOK reg) {start : Nat} (hcfg : cfg.startFrom = some start)
    {s : Node} (h : Inv reg start s) (o : Op) (ho : match o with
      | .server serve _ => HonestServer reg serve | .retry ts => ∀ t ∈ ts, t ∈ reg | _ => True) :
    Inv reg start (s.exec cfg o) := by
  cases o with
  | step => exact inv_step hr hcfg h
  | requestFails =>
    simp only [Node.exec]
    rw [if_neg (by simp [hcfg])]
    exact h
  | server serve current =>
    refine ⟨h.stored, ho, ?_, h.only⟩
    have hp := h.pc
    show PcOK reg start _ s.pc
    rcases hpc : s.pc with _ | _ | _ | ⟨todo, last⟩ <;> rw [hpc] at hp <;> exact hp
  | retry ts =>
    simp only [Node.exec]
    split
    · rename_i hpc; exact inv_submits ts h hpc ho
    · exact h
  | restart => exact ⟨h.stored, h.honest, trivial, h.only⟩

theorem inv_run {cfg : Config} {reg : List Entry} (hr : RegistryOK reg) {start : Nat} (hcfg : cfg.startFrom = some start) :
    ∀ (ops : List Op) {s : Node}, Inv reg start s → HonestRun reg ops → Inv reg start (s.run cfg ops)
  | [], _, h, _ => h
  | o :: ops, s, h, ho =>
    inv_run hr hcfg ops (s := s.exec cfg o) (inv_exec hr hcfg h o (ho o (by simp))) (fun x hx => ho x (by simp [hx]))

theorem inv_new {reg : List Entry} {start : Nat} {serve : Nat → List Entry} (hr : ∀ t ∈ reg, 0 < t.id)
    (h : HonestServer reg serve) : Inv reg start { serve := serve } :=
  ⟨fun t ht _ hle => by have := hr t ht; have : t.id ≤ 0 := hle; omega, h, trivial, by simp⟩

/-! ### Handed transfers stay -/

theorem submits_handed : ∀ (ts : List Entry) {s : Node} {x : Nat × WTransfer}, x ∈ s.handed → x ∈ (ts.foldl Node.submit s).handed
  | [], _, _, h => h
  | t :: ts, s, x, h => submits_handed ts (s := s.submit t) ((submit_handed s t x).2 (.inl h))

theorem step_handed {cfg : Config} {s : Node} {x : Nat × WTransfer} (h : x ∈ s.handed) : x ∈ (s.step cfg).handed := by
  unfold Node.step
  split
  · exact h
  · exact h
  · split <;> exact h
  · split
    · exact h
    · split
      · exact h
      · exact (submit_handed _ _ x).2 (.inl h)
  · split <;> exact h

theorem exec_handed {cfg : Config} {s : Node} {x : Nat × WTransfer} (h : x ∈ s.handed) (o : Op) : x ∈ (s.exec cfg o).handed := by
  cases o with
  | step => exact step_handed h
  | requestFails => simp only [Node.exec]; split <;> exact h
  | server _ _ => exact h
  | retry ts =>
    simp only [Node.exec]; split
    · exact submits_handed ts h
    · exact h
  | restart => exact h

theorem run_handed {cfg : Config} : ∀ (ops : List Op) {s : Node} {x : Nat × WTransfer}, x ∈ s.handed → x ∈ (s.run cfg ops).handed
  | [], _, _, h => h
  | o :: ops, _, _, h => run_handed ops (exec_handed h o)

/-! ### Catching up -/

/-- Everything in scope is delivered. -/
def Final (cfg : Config) (reg : List Entry) (start : Nat) (s : Node) : Prop :=
  ∀ t ∈ reg, start < t.id → cfg.stops t.id = false → s.Delivered t

theorem Final.run {cfg : Config} {reg : List Entry} {start : Nat} {s : Node} (h : Final cfg reg start s) (ops : List Op) :
    Final cfg reg start (s.run cfg ops) := fun t h1 h2 h3 w hw => run_handed ops (h t h1 h2 h3 w hw)

/-- The entries after a position. -/
def left (reg : List Entry) (p : Nat) : Nat := (reg.filter (fun t => decide (p < t.id))).length

theorem left_lt {reg : List Entry} {p : Nat} {t : Entry} (h : t ∈ reg) (hp : p < t.id) : left reg t.id < left reg p := by
  unfold left
  have e : reg.filter (fun x => decide (t.id < x.id)) = (reg.filter (fun x => decide (p < x.id))).filter (fun x => decide (t.id < x.id)) := by
    rw [List.filter_filter]
    apply List.filter_congr
    intro x _
    by_cases h1 : t.id < x.id
    · simp [h1]; omega
    · simp [h1]
  rw [e]
  apply List.length_filter_lt_length_iff_exists.2
  exact ⟨t, List.mem_filter.2 ⟨h, by simpa using hp⟩, by simp⟩

theorem stops_mono {cfg : Config} {a b : Nat} (h : cfg.stops a = true) (hab : a ≤ b) : cfg.stops b = true := by
  unfold Config.stops at *
  split at h
  · simp at h
  · simp at h ⊢; omega

def measure (reg : List Entry) (s : Node) : Nat :=
  match s.pc with
  | .off => 0
  | .boot => 3 * reg.length + 1
  | .ask => 3 * left reg s.position
  | .page [] _ => 3 * left reg s.position + 1
  | .page (_ :: _) _ => 3 * left reg s.position - 1

theorem left_le (reg : List Entry) (p : Nat) : left reg p ≤ reg.length := List.length_filter_le _ _

theorem step_serve (cfg : Config) (s : Node) : (s.step cfg).serve = s.serve := by
  unfold Node.step
  split
  · rfl
  · rfl
  · split <;> rfl
  · split
    · rfl
    · split
      · rfl
      · exact (submit_fields _ _).2.2.2
  · split <;> rfl

theorem catches_up {cfg : Config} {reg : List Entry} (hr : RegistryOK reg) {start : Nat} (hcfg : cfg.startFrom = some start) :
    ∀ (n : Nat) {s : Node}, Inv reg start s → CompleteServer reg s.serve → s.pc ≠ .off → measure reg s ≤ n →
      Final cfg reg start (s.run cfg (List.replicate n .step)) := by
  intro n
  induction n with
  | zero =>
    intro s h hc hoff hm
    have hp := h.pc
    unfold measure at hm
    rcases hpc : s.pc with _ | _ | _ | ⟨_ | ⟨t, todo⟩, last⟩ <;> rw [hpc] at hm hp
    · exact absurd hpc hoff
    · simp at hm
    · intro t ht hst _
      refine hp t ht hst ?_
      have hm : 3 * left reg s.position ≤ 0 := hm
      by_cases hlt : s.position < t.id
      · have := left_lt ht hlt; omega
      · omega
    · simp at hm
    · obtain ⟨-, p2, -⟩ := hp
      obtain ⟨q1, q2, -, -⟩ := next_of_prefix hr p2
      have := left_lt q1 q2
      have hm : 3 * left reg s.position - 1 ≤ 0 := hm
      omega
  | succ n ih =>
    intro s h hc hoff hm
    show Final cfg reg start ((s.step cfg).run cfg (List.replicate n .step))
    have h' := inv_step (cfg := cfg) hr hcfg h
    have hc' : CompleteServer reg (s.step cfg).serve := by rw [step_serve]; exact hc
    have hp := h.pc
    unfold measure at hm
    rcases hpc : s.pc with _ | _ | _ | ⟨_ | ⟨t, todo⟩, last⟩ <;> rw [hpc] at hm hp
    · exact absurd hpc hoff
    · have e : (s.step cfg).pc = .ask := by unfold Node.step; rw [hpc]
      refine ih h' hc' (by rw [e]; simp) ?_
      unfold measure; rw [e]
      have := left_le reg (s.step cfg).position
      have hm : 3 * reg.length + 1 ≤ n + 1 := hm
      show 3 * left reg _ ≤ n
      omega
    · by_cases hemp : s.serve s.position = []
      · have e : s.step cfg = s := by unfold Node.step; rw [hpc]; simp [hemp]
        rw [e]
        apply Final.run
        intro t ht hst _
        refine hp t ht hst ?_
        by_cases hlt : s.position < t.id
        · exact absurd hemp (hc.2 _ ⟨t, ht, hlt⟩)
        · omega
      · have e : s.step cfg = { s with pc := .page (s.serve s.position) 0 } := by unfold Node.step; rw [hpc]; simp [hemp]
        obtain ⟨t, todo, hser⟩ : ∃ t todo, s.serve s.position = t :: todo := by
          rcases hs : s.serve s.position with _ | ⟨t, todo⟩
          · exact absurd hs hemp
          · exact ⟨t, todo, rfl⟩
        refine ih h' hc' (by rw [e]; simp) ?_
        rw [e, hser]
        show 3 * left reg s.position - 1 ≤ n
        have hm : 3 * left reg s.position ≤ n + 1 := hm
        omega
    · have e : (s.step cfg).pc = .ask ∧ (s.step cfg).position = s.position := by
        unfold Node.step; rw [hpc]; simp only; split <;> exact ⟨rfl, rfl⟩
      refine ih h' hc' (by rw [e.1]; simp) ?_
      unfold measure; rw [e.1, e.2]
      have hm : 3 * left reg s.position + 1 ≤ n + 1 := hm
      show 3 * left reg _ ≤ n
      omega
    · obtain ⟨p1, p2, p3⟩ := hp
      obtain ⟨q1, q2, q3, q4⟩ := next_of_prefix hr p2
      by_cases hstop : cfg.stops t.id = true
      · apply Final.run
        intro x hx hst hxs w hw
        refine step_handed (p1 x hx hst ?_ w hw)
        by_cases hlt : s.position < x.id
        · by_cases hle : x.id ≤ t.id
          · rw [q4 x hx hlt hle, hstop] at hxs; simp at hxs
          · rw [stops_mono hstop (by omega)] at hxs; simp at hxs
        · omega
      · have e : (s.step cfg).pc = .page todo t.id ∧ (s.step cfg).position = t.id := by
          unfold Node.step; rw [hpc]
          simp only [if_neg (show ¬ t.id ≤ s.position by omega), if_neg hstop]
          exact ⟨trivial, (submit_fields _ _).1⟩
        refine ih h' hc' (by rw [e.1]; simp) ?_
        have := left_lt q1 q2
        have hm : 3 * left reg s.position - 1 ≤ n + 1 := hm
        unfold measure; rw [e.1, e.2]
        rcases todo with _ | ⟨x, todo⟩
        · show 3 * left reg t.id + 1 ≤ n
          omega
        · show 3 * left reg t.id - 1 ≤ n
          omega

/-! ### Whatever the server answers -/

/-- Since the start, ids went up, past the position at the start. -/
structure Rising (cfg : Config) (low : Nat) (old : List (Nat × WTransfer)) (s : Node) : Prop where
  news : ∃ new, s.handed = old ++ new ∧ new.Pairwise (fun a b => a.1 < b.1) ∧
    ∀ x ∈ new, low < x.1 ∧ x.1 ≤ s.position ∧ cfg.stops x.1 = false
  low : low ≤ s.position
  pc : s.pc ≠ .boot

theorem rising_exec {cfg : Config} {low : Nat} {old : List (Nat × WTransfer)} {s : Node} (h : Rising cfg low old s) (o : Op)
    (ho : match o with | .retry _ => False | .restart => False | _ => True) : Rising cfg low old (s.exec cfg o) := by
  obtain ⟨⟨new, n1, n2, n3⟩, h2, h3⟩ := h
  cases o with
  | step =>
    show Rising cfg low old (s.step cfg)
    unfold Node.step
    rcases hpc : s.pc with _ | _ | _ | ⟨_ | ⟨t, todo⟩, last⟩
    · exact ⟨⟨new, n1, n2, n3⟩, h2, h3⟩
    · exact absurd hpc h3
    · simp only; split
      · exact ⟨⟨new, n1, n2, n3⟩, h2, h3⟩
      · exact ⟨⟨new, n1, n2, n3⟩, h2, by simp⟩
    · simp only; split <;> exact ⟨⟨new, n1, n2, n3⟩, h2, by simp⟩
    · simp only
      split
      · exact ⟨⟨new, n1, n2, n3⟩, h2, by simp⟩
      · split
        · exact ⟨⟨new, n1, n2, n3⟩, h2, by simp⟩
        · rename_i hlt hstop
          refine ⟨?_, ?_, by simp⟩
          · simp only [Node.submit]
            rcases parse t with _ | w
            · exact ⟨new, n1, n2, fun x hx => ⟨(n3 x hx).1, by have := (n3 x hx).2.1; show x.1 ≤ t.id; omega, (n3 x hx).2.2⟩⟩
            · refine ⟨new ++ [(t.id, w)], by simp [n1], ?_, ?_⟩
              · rw [List.pairwise_append]
                refine ⟨n2, by simp, ?_⟩
                intro a ha b hb
                simp only [List.mem_singleton] at hb
                have := (n3 a ha).2.1
                subst hb; show a.1 < t.id; omega
              · intro x hx
                rcases List.mem_append.1 hx with hx | hx
                · exact ⟨(n3 x hx).1, by have := (n3 x hx).2.1; show x.1 ≤ t.id; omega, (n3 x hx).2.2⟩
                · simp only [List.mem_singleton] at hx
                  subst hx
                  exact ⟨by show low < t.id; omega, Nat.le_refl _, by simpa using hstop⟩
          · show low ≤ ((Node.submit _ t).position)
            rw [(submit_fields _ t).1]
            show low ≤ t.id; omega
  | requestFails =>
    simp only [Node.exec]
    rw [if_neg (fun hb => h3 hb.1)]
    exact ⟨⟨new, n1, n2, n3⟩, h2, h3⟩
  | server _ _ => exact ⟨⟨new, n1, n2, n3⟩, h2, h3⟩
  | retry _ => exact ho.elim
  | restart => exact ho.elim

theorem rising_run {cfg : Config} {low : Nat} {old : List (Nat × WTransfer)} : ∀ (ops : List Op) {s : Node},
    Rising cfg low old s → (∀ o ∈ ops, match o with | .retry _ => False | .restart => False | _ => True) →
    Rising cfg low old (s.run cfg ops)
  | [], _, h, _ => h
  | o :: ops, _, h, ho => rising_run ops (rising_exec h o (ho o (by simp))) (fun x hx => ho x (by simp [hx]))

/-- The stored id is behind the position. -/
def Behind (s : Node) : Prop :=
  match s.pc with
  | .ask => s.stored ≤ s.position
  | .page _ last => s.stored ≤ s.position ∧ (last = 0 ∨ last = s.position)
  | _ => True

theorem submits_fields : ∀ (ts : List Entry) (s : Node), (ts.foldl Node.submit s).position = s.position ∧
    (ts.foldl Node.submit s).stored = s.stored ∧ (ts.foldl Node.submit s).pc = s.pc
  | [], _ => ⟨rfl, rfl, rfl⟩
  | t :: ts, s => by
    obtain ⟨a, b, c⟩ := submits_fields ts (s.submit t)
    obtain ⟨f1, f2, f3, -⟩ := submit_fields s t
    exact ⟨a.trans f1, b.trans f2, c.trans f3⟩

theorem behind_exec {cfg : Config} {start : Nat} (hcfg : cfg.startFrom = some start) {s : Node} (h : Behind s) (o : Op) :
    Behind (s.exec cfg o) ∧ s.stored ≤ (s.exec cfg o).stored := by
  cases o with
  | step =>
    show Behind (s.step cfg) ∧ s.stored ≤ (s.step cfg).stored
    unfold Behind at h
    unfold Node.step
    rcases hpc : s.pc with _ | _ | _ | ⟨_ | ⟨t, todo⟩, last⟩ <;> rw [hpc] at h
    · exact ⟨by unfold Behind; rw [hpc]; trivial, Nat.le_refl _⟩
    · simp only [hcfg]
      exact ⟨Nat.le_max_right _ _, Nat.le_refl _⟩
    · simp only; split
      · exact ⟨by unfold Behind; rw [hpc]; exact h, Nat.le_refl _⟩
      · exact ⟨⟨h, .inl rfl⟩, Nat.le_refl _⟩
    · simp only; split
      · have e : last = s.position := by have := h.2; omega
        exact ⟨by show last ≤ s.position; omega, by show s.stored ≤ last; have := h.1; omega⟩
      · exact ⟨h.1, Nat.le_refl _⟩
    · simp only
      split
      · exact ⟨h.1, Nat.le_refl _⟩
      · split
        · exact ⟨trivial, Nat.le_refl _⟩
        · rename_i hlt _
          obtain ⟨f1, f2, -, -⟩ := submit_fields { s with position := t.id, pc := .page (t :: todo) last } t
          refine ⟨?_, ?_⟩
          · show (Node.submit _ t).stored ≤ (Node.submit _ t).position ∧ (t.id = 0 ∨ t.id = (Node.submit _ t).position)
            rw [f1, f2]
            have := h.1
            exact ⟨by show s.stored ≤ t.id; omega, .inr rfl⟩
          · show s.stored ≤ (Node.submit _ t).stored
            rw [f2]; exact Nat.le_refl _
  | requestFails =>
    simp only [Node.exec]
    rw [if_neg (by simp [hcfg])]
    exact ⟨h, Nat.le_refl _⟩
  | server _ _ => exact ⟨h, Nat.le_refl _⟩
  | retry ts =>
    simp only [Node.exec]
    split
    · obtain ⟨a, b, c⟩ := submits_fields ts s
      refine ⟨?_, by rw [b]; exact Nat.le_refl _⟩
      unfold Behind at h ⊢
      rw [c, a, b]; exact h
    · exact ⟨h, Nat.le_refl _⟩
  | restart => exact ⟨trivial, Nat.le_refl _⟩

theorem behind_run {cfg : Config} {start : Nat} (hcfg : cfg.startFrom = some start) : ∀ (ops : List Op) {s : Node},
    Behind s → Behind (s.run cfg ops) ∧ s.stored ≤ (s.run cfg ops).stored
  | [], _, h => ⟨h, Nat.le_refl _⟩
  | o :: ops, s, h => by
    obtain ⟨a, b⟩ := behind_exec hcfg h o
    obtain ⟨c, d⟩ := behind_run hcfg ops a
    exact ⟨c, Nat.le_trans b d⟩

end NameFeed
end Verif
