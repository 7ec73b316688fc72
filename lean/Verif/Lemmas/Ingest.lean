import Verif.Spec.Ingest
/-! Lemmas for C81. -/
namespace Verif
namespace Ingest

/-- Every log in scope below block `n` has been dealt with. -/
def Read (cfg : Config) (ch : ChainView) (att : Log → Prop) (n : Nat) : Prop :=
  ∀ l ∈ ch.logs, InScope cfg l → l.block < n → att l

def ReadC (cfg : Config) (ch : ChainView) (att : Log → Prop) (c n : Nat) : Prop :=
  ∀ l ∈ ch.logs, InScope cfg l → l.contract = c → l.block < n → att l

def Bd (cfg : Config) (ch : ChainView) (n : Nat) : Prop := n ≤ cfg.base ∨ n ≤ ch.latest + 1

def Window (cfg : Config) (ch : ChainView) (att : Log → Prop) (c b e : Nat) : Prop :=
  ∀ l ∈ ch.logs, InScope cfg l → l.contract = c → b ≤ l.block → l.block ≤ min e (b + histWindow) → att l

def Cursors (cfg : Config) (ch : ChainView) (att : Log → Prop) (cs : List (Nat × Nat)) : Prop :=
  (∀ p ∈ cs, ReadC cfg ch att p.1 p.2 ∧ Bd cfg ch p.2) ∧ ∀ c ∈ cfg.contracts, ∃ n, (c, n) ∈ cs

def PcOK (cfg : Config) (ch : ChainView) (att : Log → Prop) : Pc → Prop
  | .off => True
  | .boot => True
  | .hist b e todo => Read cfg ch att b ∧ Bd cfg ch b ∧ e ≤ ch.latest ∧
      ∀ c ∈ cfg.contracts, c ∉ todo → Window cfg ch att c b e
  | .histLogs b e todo logs => Read cfg ch att b ∧ Bd cfg ch b ∧ e ≤ ch.latest ∧
      (∀ c ∈ cfg.contracts, c ∉ todo → Window cfg ch att c b e) ∧
      ∀ c, todo.head? = some c → Window cfg ch (fun l => att l ∨ l ∈ logs) c b e
  | .subscribe b => Read cfg ch att b ∧ Bd cfg ch b
  | .stream b seen => Read cfg ch att b ∧ Bd cfg ch b ∧ seen ≤ ch.logs.length ∧
      ∀ l ∈ ch.logs.take seen, streamed cfg b l = true → att l
  | .streamRecord b seen n => Read cfg ch att b ∧ Bd cfg ch b ∧ seen ≤ ch.logs.length ∧
      (∀ l ∈ ch.logs.take seen, streamed cfg b l = true → att l) ∧ Read cfg ch att n ∧ n ≤ ch.latest
  | .idle b cs => Read cfg ch att b ∧ Bd cfg ch b ∧ Cursors cfg ch att cs
  | .poll b done rest cur => Read cfg ch att b ∧ Bd cfg ch b ∧ Cursors cfg ch att (done ++ rest) ∧
      ∀ n, cur = some n → n ≤ ch.latest
  | .pollLogs b done rest cur hi logs => Read cfg ch att b ∧ Bd cfg ch b ∧ Cursors cfg ch att (done ++ rest) ∧
      cur ≤ ch.latest ∧ hi ≤ ch.latest ∧
      ∀ c n, rest.head? = some (c, n) → ReadC cfg ch (fun l => att l ∨ l ∈ logs) c (hi + 1)

section mono
variable {cfg : Config} {ch : ChainView} {att att' : Log → Prop} (h : ∀ l, att l → att' l)
include h

theorem Read.mono {n : Nat} (hr : Read cfg ch att n) : Read cfg ch att' n := fun l h1 h2 h3 => h l (hr l h1 h2 h3)
theorem ReadC.mono {c n : Nat} (hr : ReadC cfg ch att c n) : ReadC cfg ch att' c n :=
  fun l h1 h2 h3 h4 => h l (hr l h1 h2 h3 h4)
theorem Window.mono {c b e : Nat} (hr : Window cfg ch att c b e) : Window cfg ch att' c b e :=
  fun l h1 h2 h3 h4 h5 => h l (hr l h1 h2 h3 h4 h5)
theorem Cursors.mono {cs : List (Nat × Nat)} (hr : Cursors cfg ch att cs) : Cursors cfg ch att' cs :=
  ⟨fun p hp => ⟨(hr.1 p hp).1.mono h, (hr.1 p hp).2⟩, hr.2⟩

theorem PcOK.mono {pc : Pc} (hp : PcOK cfg ch att pc) : PcOK cfg ch att' pc := by
  have hor : ∀ (logs : List Log) l, (att l ∨ l ∈ logs) → (att' l ∨ l ∈ logs) := fun _ l => Or.imp_left (h l)
  cases pc with
  | off => trivial
  | boot => trivial
  | hist b e todo => exact ⟨hp.1.mono h, hp.2.1, hp.2.2.1, fun c h1 h2 => (hp.2.2.2 c h1 h2).mono h⟩
  | histLogs b e todo logs =>
    exact ⟨hp.1.mono h, hp.2.1, hp.2.2.1, fun c h1 h2 => (hp.2.2.2.1 c h1 h2).mono h,
      fun c hc => (hp.2.2.2.2 c hc).mono (hor logs)⟩
  | subscribe b => exact ⟨hp.1.mono h, hp.2⟩
  | stream b seen => exact ⟨hp.1.mono h, hp.2.1, hp.2.2.1, fun l h1 h2 => h l (hp.2.2.2 l h1 h2)⟩
  | streamRecord b seen n =>
    exact ⟨hp.1.mono h, hp.2.1, hp.2.2.1, fun l h1 h2 => h l (hp.2.2.2.1 l h1 h2), hp.2.2.2.2.1.mono h, hp.2.2.2.2.2⟩
  | idle b cs => exact ⟨hp.1.mono h, hp.2.1, hp.2.2.mono h⟩
  | poll b done rest cur => exact ⟨hp.1.mono h, hp.2.1, hp.2.2.1.mono h, hp.2.2.2⟩
  | pollLogs b done rest cur hi logs =>
    exact ⟨hp.1.mono h, hp.2.1, hp.2.2.1.mono h, hp.2.2.2.1, hp.2.2.2.2.1,
      fun c n hc => (hp.2.2.2.2.2 c n hc).mono (hor logs)⟩

end mono

section grow
variable {cfg : Config} {ch : ChainView} {att : Log → Prop} {latest : Nat} {logs : List Log} (h : Grows ch latest logs)
include h

theorem ChainOK.grow (hc : ChainOK ch) : ChainOK ⟨latest, ch.logs ++ logs⟩ := by
  refine ⟨List.pairwise_append.2 ⟨hc.ordered, h.2.1, fun a ha b hb => ?_⟩, fun l hl => ?_⟩
  · have := hc.known a ha; have := h.2.2 b hb; omega
  · rcases List.mem_append.1 hl with hl | hl
    · exact Nat.le_trans (hc.known l hl) h.1
    · exact (h.2.2 l hl).2

theorem Bd.grow {n : Nat} (hb : Bd cfg ch n) : Bd cfg ⟨latest, ch.logs ++ logs⟩ n := by
  have := h.1
  rcases hb with hb | hb
  · exact .inl hb
  · exact .inr (by show n ≤ latest + 1; omega)

theorem Read.grow {n : Nat} (hb : Bd cfg ch n) (hr : Read cfg ch att n) : Read cfg ⟨latest, ch.logs ++ logs⟩ att n := by
  intro l hl hs hn
  rcases List.mem_append.1 hl with hl | hl
  · exact hr l hl hs hn
  · have h1 := (h.2.2 l hl).1
    have h2 := hs.2.1
    rcases hb with hb | hb <;> omega

theorem ReadC.grow {c n : Nat} (hb : Bd cfg ch n) (hr : ReadC cfg ch att c n) :
    ReadC cfg ⟨latest, ch.logs ++ logs⟩ att c n := by
  intro l hl hs hc hn
  rcases List.mem_append.1 hl with hl | hl
  · exact hr l hl hs hc hn
  · have h1 := (h.2.2 l hl).1
    have h2 := hs.2.1
    rcases hb with hb | hb <;> omega

theorem Window.grow {c b e : Nat} (he : e ≤ ch.latest) (hr : Window cfg ch att c b e) :
    Window cfg ⟨latest, ch.logs ++ logs⟩ att c b e := by
  intro l hl hs hc h1 h2
  rcases List.mem_append.1 hl with hl | hl
  · exact hr l hl hs hc h1 h2
  · have h3 := (h.2.2 l hl).1
    omega

theorem Cursors.grow {cs : List (Nat × Nat)} (hr : Cursors cfg ch att cs) :
    Cursors cfg ⟨latest, ch.logs ++ logs⟩ att cs :=
  ⟨fun p hp => ⟨(hr.1 p hp).1.grow h (hr.1 p hp).2, (hr.1 p hp).2.grow h⟩, hr.2⟩

theorem PcOK.grow {pc : Pc} (hp : PcOK cfg ch att pc) : PcOK cfg ⟨latest, ch.logs ++ logs⟩ att pc := by
  have h0 := h.1
  cases pc with
  | off => trivial
  | boot => trivial
  | hist b e todo =>
    obtain ⟨h1, h2, h3, h4⟩ := hp
    exact ⟨h1.grow h h2, h2.grow h, Nat.le_trans h3 h0, fun c a b => (h4 c a b).grow h h3⟩
  | histLogs b e todo logs' =>
    obtain ⟨h1, h2, h3, h4, h5⟩ := hp
    exact ⟨h1.grow h h2, h2.grow h, Nat.le_trans h3 h0, fun c a b => (h4 c a b).grow h h3,
      fun c hc => (h5 c hc).grow h h3⟩
  | subscribe b => exact ⟨hp.1.grow h hp.2, hp.2.grow h⟩
  | stream b seen =>
    obtain ⟨h1, h2, h3, h4⟩ := hp
    refine ⟨h1.grow h h2, h2.grow h, by simp; omega, ?_⟩
    rw [List.take_append_of_le_length h3]; exact h4
  | streamRecord b seen n =>
    obtain ⟨h1, h2, h3, h4, h5, h6⟩ := hp
    refine ⟨h1.grow h h2, h2.grow h, by simp; omega, ?_, h5.grow h (.inr (by omega)), Nat.le_trans h6 h0⟩
    rw [List.take_append_of_le_length h3]; exact h4
  | idle b cs => exact ⟨hp.1.grow h hp.2.1, hp.2.1.grow h, hp.2.2.grow h⟩
  | poll b done rest cur =>
    exact ⟨hp.1.grow h hp.2.1, hp.2.1.grow h, hp.2.2.1.grow h, fun n hn => Nat.le_trans (hp.2.2.2 n hn) h0⟩
  | pollLogs b done rest cur hi logs' =>
    obtain ⟨h1, h2, h3, h4, h5, h6⟩ := hp
    exact ⟨h1.grow h h2, h2.grow h, h3.grow h, Nat.le_trans h4 h0, Nat.le_trans h5 h0,
      fun c n hc => (h6 c n hc).grow h (.inr (by omega))⟩

end grow

/-- The logs waiting to be handed over are logs of the chain. -/
def Pending (cfg : Config) (ch : ChainView) : Pc → Prop
  | .histLogs _ _ todo logs => (∀ l ∈ logs, l ∈ ch.logs ∧ l.contract ∈ cfg.contracts) ∧ ∀ c ∈ todo, c ∈ cfg.contracts
  | .hist _ _ todo => ∀ c ∈ todo, c ∈ cfg.contracts
  | .pollLogs _ done rest _ _ logs => (∀ l ∈ logs, l ∈ ch.logs ∧ l.contract ∈ cfg.contracts) ∧
      ∀ p ∈ done ++ rest, p.1 ∈ cfg.contracts
  | .poll _ done rest _ => ∀ p ∈ done ++ rest, p.1 ∈ cfg.contracts
  | .idle _ cs => ∀ p ∈ cs, p.1 ∈ cfg.contracts
  | _ => True

theorem attempted_attempt (s : Node) (l : Log) (ok : Bool) (x : Log) :
    (s.attempt l ok).Attempted x ↔ s.Attempted x ∨ x = l := by
  cases ok <;> simp [Node.attempt, Node.Attempted, or_assoc, or_comm, or_left_comm]

@[simp] theorem attempt_chain (s : Node) (l : Log) (ok : Bool) : (s.attempt l ok).chain = s.chain := by
  cases ok <;> rfl
@[simp] theorem attempt_stored (s : Node) (l : Log) (ok : Bool) : (s.attempt l ok).stored = s.stored := by
  cases ok <;> rfl
@[simp] theorem record_chain (s : Node) (n : Nat) : (s.record n).chain = s.chain := by unfold Node.record; split <;> rfl
@[simp] theorem record_attempted (s : Node) (n : Nat) (l : Log) : (s.record n).Attempted l ↔ s.Attempted l := by
  unfold Node.record; split <;> rfl
theorem record_attempted' (s : Node) (n : Nat) : (s.record n).Attempted = s.Attempted := by
  unfold Node.record; split <;> rfl
theorem record_stored (s : Node) (n : Nat) : (s.record n).stored = max s.stored n := by
  unfold Node.record
  split
  · show n = max s.stored n; omega
  · omega

/-- The invariant without the place. -/
structure Inv0 (cfg : Config) (s : Node) : Prop where
  chain : ChainOK s.chain
  stored : Read cfg s.chain s.Attempted s.stored
  bound : Bd cfg s.chain s.stored
  honest : ∀ l, s.Attempted l → l ∈ s.chain.logs ∧ l.contract ∈ cfg.contracts

theorem Inv0.record {cfg : Config} {s : Node} (h : Inv0 cfg s) {n : Nat} (hr : Read cfg s.chain s.Attempted n)
    (hb : Bd cfg s.chain n) : Inv0 cfg (s.record n) := by
  refine ⟨by simpa using h.chain, ?_, ?_, ?_⟩
  · rw [record_attempted', record_stored, record_chain]
    rcases Nat.le_total s.stored n with h' | h'
    · rw [Nat.max_eq_right h']; exact hr
    · rw [Nat.max_eq_left h']; exact h.stored
  · rw [record_stored, record_chain]
    rcases Nat.le_total s.stored n with h' | h'
    · rw [Nat.max_eq_right h']; exact hb
    · rw [Nat.max_eq_left h']; exact h.bound
  · rw [record_attempted', record_chain]; exact h.honest

theorem Inv0.attempt {cfg : Config} {s : Node} (h : Inv0 cfg s) {l : Log} (ok : Bool) (hl : l ∈ s.chain.logs)
    (hc : l.contract ∈ cfg.contracts) : Inv0 cfg (s.attempt l ok) := by
  refine ⟨by simpa using h.chain, ?_, by simpa using h.bound, ?_⟩
  · rw [attempt_chain, attempt_stored]
    exact h.stored.mono (fun x hx => (attempted_attempt s l ok x).2 (.inl hx))
  · intro x hx
    rw [attempt_chain]
    rcases (attempted_attempt s l ok x).1 hx with hx | rfl
    · exact h.honest x hx
    · exact ⟨hl, hc⟩

theorem Inv0.setPc {cfg : Config} {s : Node} (h : Inv0 cfg s) (pc : Pc) : Inv0 cfg { s with pc := pc } :=
  ⟨h.chain, h.stored, h.bound, h.honest⟩

/-- The whole invariant. -/
structure Good (cfg : Config) (s : Node) : Prop where
  base : Inv0 cfg s
  pc : PcOK cfg s.chain s.Attempted s.pc
  pending : Pending cfg s.chain s.pc

theorem mem_between {ch : ChainView} {c lo hi : Nat} {l : Log} :
    l ∈ ch.between c lo hi ↔ l ∈ ch.logs ∧ l.contract = c ∧ lo ≤ l.block ∧ l.block ≤ hi := by
  simp [ChainView.between, and_assoc]

theorem leastNext_spec : ∀ (cs : List (Nat × Nat)), (leastNext cs = none ↔ cs = []) ∧
    ∀ n, leastNext cs = some n → (∀ p ∈ cs, n ≤ p.2) ∧ ∃ p ∈ cs, p.2 = n
  | [] => by simp [leastNext]
  | (c, n) :: r => by
    have ih := leastNext_spec r
    rcases h : leastNext r with _ | m
    · simp only [leastNext, h]
      have := ih.1.1 h
      subst this
      simp
    · simp only [leastNext, h]
      refine ⟨by simp, ?_⟩
      intro k hk
      have hk : min n m = k := by simpa using hk
      obtain ⟨h1, p, hp, hpm⟩ := ih.2 m h
      refine ⟨?_, ?_⟩
      · intro q hq
        rcases List.mem_cons.1 hq with rfl | hq
        · simp; omega
        · have := h1 q hq; omega
      · rcases Nat.le_total n m with h' | h'
        · exact ⟨(c, n), by simp, by simp; omega⟩
        · exact ⟨p, by simp [hp], by omega⟩

theorem Cursors.read {cfg : Config} {ch : ChainView} {att : Log → Prop} {cs : List (Nat × Nat)} (h : Cursors cfg ch att cs)
    {n : Nat} (hn : leastNext cs = some n) : Read cfg ch att n ∧ Bd cfg ch n := by
  obtain ⟨h1, p, hp, hpn⟩ := (leastNext_spec cs).2 n hn
  refine ⟨?_, hpn ▸ (h.1 p hp).2⟩
  intro l hl hs hb
  obtain ⟨m, hm⟩ := h.2 l.contract hs.1
  have := h1 _ hm
  exact (h.1 _ hm).1 l hl hs rfl (by simp at this ⊢; omega)

theorem Read.le {cfg : Config} {ch : ChainView} {att : Log → Prop} {m n : Nat} (h : Read cfg ch att n) (hm : m ≤ n) :
    Read cfg ch att m := fun l h1 h2 h3 => h l h1 h2 (by omega)
theorem Bd.le {cfg : Config} {ch : ChainView} {m n : Nat} (h : Bd cfg ch n) (hm : m ≤ n) : Bd cfg ch m := by
  rcases h with h | h
  · exact .inl (by omega)
  · exact .inr (by omega)

theorem Inv0.recordLeast {cfg : Config} {s : Node} (h : Inv0 cfg s) {cs : List (Nat × Nat)}
    (hc : Cursors cfg s.chain s.Attempted cs) : Inv0 cfg (s.recordLeast cs) := by
  unfold Node.recordLeast
  rcases hn : leastNext cs with _ | n
  · exact h
  · simp only
    split
    · obtain ⟨h1, h2⟩ := hc.read hn
      exact h.record (h1.le (by omega)) (h2.le (by omega))
    · exact h

theorem recordLeast_same (s : Node) (cs : List (Nat × Nat)) :
    (s.recordLeast cs).chain = s.chain ∧ (s.recordLeast cs).Attempted = s.Attempted := by
  unfold Node.recordLeast
  rcases leastNext cs with _ | n
  · exact ⟨rfl, rfl⟩
  · simp only
    split
    · exact ⟨record_chain s _, record_attempted' s _⟩
    · exact ⟨rfl, rfl⟩

/-- The end of a window. -/
theorem hist_read {cfg : Config} {ch : ChainView} {att : Log → Prop} {b e : Nat} (hr : Read cfg ch att b)
    (hw : ∀ c ∈ cfg.contracts, Window cfg ch att c b e) : Read cfg ch att (min e (b + histWindow) + 1) := by
  intro l hl hs hn
  by_cases hb : l.block < b
  · exact hr l hl hs hb
  · exact hw l.contract hs.1 l hl hs rfl (by omega) (by omega)

theorem good_histNext {cfg : Config} {s : Node} (h : Inv0 cfg s) {b e : Nat}
    (hp : PcOK cfg s.chain s.Attempted (.hist b e [])) : Good cfg (s.histNext cfg b e) := by
  obtain ⟨h1, h2, h3, h4⟩ := hp
  have hr := hist_read h1 (fun c hc => h4 c hc (by simp))
  have hb : Bd cfg s.chain (min e (b + histWindow) + 1) := .inr (by omega)
  have h0 := h.record (n := min e (b + histWindow)) (hr.le (by omega)) (hb.le (by omega))
  unfold Node.histNext
  simp only
  split
  · rename_i hgt
    refine ⟨h0.setPc _, ?_, ?_⟩
    · show PcOK cfg (s.record _).chain (s.record _).Attempted (afterHist cfg e)
      rw [record_attempted', record_chain]
      have he : min e (b + histWindow) = e := Nat.min_eq_left (by omega)
      rw [he] at hr hb
      unfold afterHist
      rcases cfg.stop with _ | stop
      · exact ⟨hr.le (by omega), hb.le (by omega)⟩
      · simp only
        split
        · exact ⟨hr.le (by omega), hb.le (by omega)⟩
        · trivial
    · show Pending cfg _ (afterHist cfg e)
      unfold afterHist
      rcases cfg.stop with _ | stop
      · trivial
      · simp only; split <;> trivial
  · rename_i hle
    refine ⟨h0.setPc _, ?_, fun c hc => hc⟩
    show PcOK cfg (s.record _).chain (s.record _).Attempted _
    rw [record_attempted', record_chain]
    have he : min e (b + histWindow) = b + histWindow := Nat.min_eq_right (by omega)
    rw [he] at hr hb
    exact ⟨hr.le (by omega), hb.le (by omega), h3, fun c hc hn => absurd hc hn⟩

theorem good_boot {cfg : Config} {s : Node} (h : Inv0 cfg s) :
    Good cfg { s with pc := bootPc cfg s.chain.latest s.stored } := by
  refine ⟨h.setPc _, ?_, ?_⟩
  · show PcOK cfg s.chain s.Attempted (bootPc cfg s.chain.latest s.stored)
    have hmax : Read cfg s.chain s.Attempted (max s.stored cfg.base) := by
      intro l hl hs hn
      have := hs.2.1
      exact h.stored l hl hs (by omega)
    have hbd : Bd cfg s.chain (max s.stored cfg.base) := by
      rcases h.bound with hb | hb
      · exact .inl (by omega)
      · rcases Nat.le_total s.stored cfg.base with h' | h'
        · exact .inl (by omega)
        · exact .inr (by omega)
    unfold bootPc
    rcases hst : cfg.start with _ | start
    · have : cfg.base = cfg.first := by simp [Config.base, hst]
      rw [this, Nat.max_comm] at hmax hbd
      exact ⟨hmax, hbd⟩
    · have : cfg.base = start := by simp [Config.base, hst]
      rw [this] at hmax hbd
      exact ⟨hmax, hbd, Nat.min_le_left _ _, fun c hc hn => absurd hc hn⟩
  · show Pending cfg s.chain (bootPc cfg s.chain.latest s.stored)
    unfold bootPc
    rcases cfg.start with _ | start
    · trivial
    · exact fun c hc => hc

theorem streamed_of_scope {cfg : Config} {b : Nat} {l : Log} (hs : InScope cfg l) (hb : b ≤ l.block) :
    streamed cfg b l = true := by
  unfold streamed
  rw [Bool.and_eq_true, Bool.and_eq_true]
  refine ⟨⟨by simpa using hs.1, by simpa using hb⟩, ?_⟩
  rcases hst : cfg.stop with _ | stop
  · rfl
  · simpa using hs.2.2 stop hst

/-- Logs of smaller blocks come first. -/
theorem mem_take_of_lt {logs : List Log} (ho : logs.Pairwise (fun a b => a.block ≤ b.block)) {i : Nat} {x l : Log}
    (hx : logs[i]? = some x) (hl : l ∈ logs) (hlt : l.block < x.block) : l ∈ logs.take i := by
  obtain ⟨j, hj, rfl⟩ := List.mem_iff_getElem.1 hl
  have hi : i < logs.length := by
    rcases Nat.lt_or_ge i logs.length with h | h
    · exact h
    · rw [List.getElem?_eq_none h] at hx; cases hx
  have hxe : logs[i] = x := by rw [List.getElem?_eq_getElem hi] at hx; exact Option.some.inj hx
  have hji : j < i := by
    rcases Nat.lt_or_ge j i with h | h
    · exact h
    · rcases Nat.eq_or_lt_of_le h with rfl | h
      · rw [hxe] at hlt; omega
      · have := (List.pairwise_iff_getElem.1 ho) i j hi hj h
        rw [hxe] at this; omega
  rw [List.mem_take_iff_getElem]
  exact ⟨j, by omega, by simp⟩

theorem take_succ_of {logs : List Log} {i : Nat} {x : Log} (hx : logs[i]? = some x) :
    logs.take (i + 1) = logs.take i ++ [x] := by
  rw [List.take_add_one, hx]; rfl

theorem good_step {cfg : Config} (hcfg : cfg.polled = false → cfg.replays = true) {s : Node} (h : Good cfg s)
    (ok : Bool) : Good cfg (s.step cfg ok) := by
  obtain ⟨h0, hp, hq⟩ := h
  have hatt : ∀ (l x : Log), s.Attempted x → (s.attempt l ok).Attempted x :=
    fun l x hx => (attempted_attempt s l ok x).2 (.inl hx)
  unfold Node.step
  rcases hpc : s.pc with _ | _ | ⟨b, e, todo⟩ | ⟨b, e, todo, logs⟩ | b | ⟨b, seen⟩ | ⟨b, seen, n⟩ | ⟨b, cs⟩ |
      ⟨b, done, rest, cur⟩ | ⟨b, done, rest, cur, hi, logs⟩
  all_goals rw [hpc] at hp hq
  · exact ⟨h0, by rw [hpc]; trivial, by rw [hpc]; trivial⟩
  · exact good_boot h0
  · rcases todo with _ | ⟨c, todo⟩
    · exact good_histNext h0 hp
    · obtain ⟨h1, h2, h3, h4⟩ := hp
      refine ⟨h0.setPc _, ⟨h1, h2, h3, h4, ?_⟩, ?_, hq⟩
      · intro c' hc'
        have : c = c' := by simpa using hc'
        subst this
        intro l hl hs hc hb1 hb2
        exact .inr (mem_between.2 ⟨hl, hc, hb1, hb2⟩)
      · intro l hl
        obtain ⟨h5, h6, -⟩ := mem_between.1 hl
        exact ⟨h5, h6 ▸ hq c (by simp)⟩
  · obtain ⟨h1, h2, h3, h4, h5⟩ := hp
    rcases logs with _ | ⟨l, logs⟩
    · refine ⟨h0.setPc _, ⟨h1, h2, h3, ?_⟩, ?_⟩
      · intro c hc hn
        rcases todo with _ | ⟨c', todo⟩
        · exact h4 c hc (by simp)
        · by_cases hcc : c = c'
          · subst hcc
            exact (h5 c rfl).mono (fun l hl => hl.resolve_right (by simp))
          · exact h4 c hc (by simp at hn ⊢; exact ⟨hcc, hn⟩)
      · intro c hc
        exact hq.2 c (List.mem_of_mem_tail hc)
    · obtain ⟨hl1, hl2⟩ := hq.1 l (by simp)
      refine ⟨(h0.attempt ok hl1 hl2).setPc _, ?_, ?_⟩
      · show PcOK cfg (s.attempt l ok).chain (s.attempt l ok).Attempted _
        rw [attempt_chain]
        refine ⟨h1.mono (hatt l), h2, h3, fun c a b => (h4 c a b).mono (hatt l), fun c hc => (h5 c hc).mono ?_⟩
        intro x hx
        rcases hx with hx | hx
        · exact .inl (hatt l x hx)
        · rcases List.mem_cons.1 hx with rfl | hx
          · exact .inl ((attempted_attempt s x ok x).2 (.inr rfl))
          · exact .inr hx
      · show Pending cfg (s.attempt l ok).chain _
        rw [attempt_chain]
        exact ⟨fun x hx => hq.1 x (by simp [hx]), hq.2⟩
  · obtain ⟨h1, h2⟩ := hp
    simp only
    split
    · refine ⟨h0.setPc _, ⟨h1, h2, ?_, ?_⟩, ?_⟩
      · intro p hp
        obtain ⟨c, hc, rfl⟩ := List.mem_map.1 hp
        exact ⟨fun l hl hs _ hb => h1 l hl hs hb, h2⟩
      · intro c hc
        exact ⟨b, List.mem_map.2 ⟨c, hc, rfl⟩⟩
      · intro p hp
        obtain ⟨c, hc, rfl⟩ := List.mem_map.1 hp
        exact hc
    · rename_i hpl
      rw [hcfg (by simpa using hpl)]
      exact ⟨h0.setPc _, ⟨h1, h2, Nat.zero_le _, by simp⟩, trivial⟩
  · obtain ⟨h1, h2, h3, h4⟩ := hp
    simp only
    rcases hx : s.chain.logs[seen]? with _ | l
    · exact ⟨h0, by rw [hpc]; exact ⟨h1, h2, h3, h4⟩, by rw [hpc]; trivial⟩
    · have hlen : seen < s.chain.logs.length := by
        rcases Nat.lt_or_ge seen s.chain.logs.length with h | h
        · exact h
        · rw [List.getElem?_eq_none h] at hx; cases hx
      have hl : l ∈ s.chain.logs := List.mem_of_getElem? hx
      simp only
      split
      · rename_i hst
        have hlc : l.contract ∈ cfg.contracts := by
          unfold streamed at hst
          simp only [Bool.and_eq_true, List.contains_iff_mem] at hst
          exact hst.1.1
        have htake : ∀ x ∈ s.chain.logs.take (seen + 1), streamed cfg b x = true → (s.attempt l ok).Attempted x := by
          intro x hx' hsx
          rw [take_succ_of hx] at hx'
          rcases List.mem_append.1 hx' with hx' | hx'
          · exact hatt l x (h4 x hx' hsx)
          · exact (attempted_attempt s l ok x).2 (.inr (by simpa using hx'))
        split
        · rename_i hok
          subst hok
          refine ⟨(h0.attempt true hl hlc).setPc _, ?_, trivial⟩
          show PcOK cfg (s.attempt l true).chain (s.attempt l true).Attempted _
          rw [attempt_chain]
          refine ⟨h1.mono (hatt l), h2, hlen, htake, ?_, h0.chain.known l hl⟩
          intro x hx1 hsx hbx
          by_cases hb : x.block < b
          · exact hatt l x (h1 x hx1 hsx hb)
          · exact hatt l x (h4 x (mem_take_of_lt h0.chain.ordered hx hx1 hbx) (streamed_of_scope hsx (by omega)))
        · rename_i hok
          have hok : ok = false := by simpa using hok
          subst hok
          refine ⟨(h0.attempt false hl hlc).setPc _, ?_, trivial⟩
          show PcOK cfg (s.attempt l false).chain (s.attempt l false).Attempted _
          rw [attempt_chain]
          exact ⟨h1.mono (hatt l), h2, hlen, htake⟩
      · rename_i hst
        refine ⟨h0.setPc _, ⟨h1, h2, hlen, ?_⟩, trivial⟩
        intro x hx' hsx
        rw [take_succ_of hx] at hx'
        rcases List.mem_append.1 hx' with hx' | hx'
        · exact h4 x hx' hsx
        · have : x = l := by simpa using hx'
          subst this
          exact absurd hsx hst
  · obtain ⟨h1, h2, h3, h4, h5, h6⟩ := hp
    refine ⟨(h0.record h5 (.inr (by omega))).setPc _, ?_, trivial⟩
    show PcOK cfg (s.record n).chain (s.record n).Attempted _
    rw [record_attempted', record_chain]
    exact ⟨h1, h2, h3, h4⟩
  · exact ⟨h0.setPc _, ⟨hp.1, hp.2.1, hp.2.2, by simp⟩, hq⟩
  · obtain ⟨h1, h2, h3, h4⟩ := hp
    rcases rest with _ | ⟨⟨c, n⟩, rest⟩
    · rw [List.append_nil] at h3
      obtain ⟨e1, e2⟩ := recordLeast_same s done
      refine ⟨(h0.recordLeast h3).setPc _, ?_, ?_⟩
      · show PcOK cfg (s.recordLeast done).chain (s.recordLeast done).Attempted _
        rw [e1, e2]
        exact ⟨h1, h2, h3⟩
      · show Pending cfg (s.recordLeast done).chain _
        rw [e1]
        have hq : ∀ p ∈ done ++ [], p.1 ∈ cfg.contracts := hq
        rw [List.append_nil] at hq
        exact hq
    · rcases cur with _ | cur
      · exact ⟨h0.setPc _, ⟨h1, h2, h3, by simp⟩, hq⟩
      · simp only
        have hcur := h4 cur rfl
        split
        · rename_i hn
          have hto : pollTo cfg n cur ≤ s.chain.latest := by
            unfold pollTo
            rcases cfg.stop with _ | stop
            · simp only; omega
            · simp only; omega
          refine ⟨h0.setPc _, ⟨h1, h2, h3, hcur, hto, ?_⟩, ?_, hq⟩
          · intro c' n' hc'
            have : c = c' ∧ n = n' := by simpa using hc'
            obtain ⟨rfl, rfl⟩ := this
            intro l hl hs hlc hb
            by_cases hlt : l.block < n
            · exact .inl ((h3.1 (c, n) (by simp)).1 l hl hs hlc hlt)
            · exact .inr (mem_between.2 ⟨hl, hlc, by omega, by omega⟩)
          · intro l hl
            obtain ⟨h5, h6, -⟩ := mem_between.1 hl
            exact ⟨h5, h6 ▸ hq (c, n) (by simp)⟩
        · refine ⟨h0.setPc _, ⟨h1, h2, ?_, by simp⟩, ?_⟩
          · rw [List.append_assoc]; exact h3
          · show ∀ p ∈ (done ++ [(c, n)]) ++ rest, p.1 ∈ cfg.contracts
            rw [List.append_assoc]; exact hq
  · obtain ⟨h1, h2, h3, h4, h5, h6⟩ := hp
    rcases logs with _ | ⟨l, logs⟩
    · rcases rest with _ | ⟨⟨c, n⟩, rest⟩
      · exact ⟨h0.setPc _, ⟨h1, h2, h3, by simp⟩, hq.2⟩
      · refine ⟨h0.setPc _, ⟨h1, h2, ?_, by simpa using h4⟩, ?_⟩
        · refine ⟨?_, ?_⟩
          · intro p hp
            rcases List.mem_append.1 hp with hp | hp
            · exact h3.1 p (by simp [hp])
            · rcases List.mem_cons.1 hp with rfl | hp
              · exact ⟨(h6 c n rfl).mono (fun l hl => hl.resolve_right (by simp)), .inr (by simp; omega)⟩
              · exact h3.1 p (by simp [hp])
          · intro c' hc'
            obtain ⟨m, hm⟩ := h3.2 c' hc'
            rcases List.mem_append.1 hm with hm | hm
            · exact ⟨m, by simp [hm]⟩
            · rcases List.mem_cons.1 hm with hm | hm
              · cases hm; exact ⟨hi + 1, by simp⟩
              · exact ⟨m, by simp [hm]⟩
        · intro p hp
          rcases List.mem_append.1 hp with hp | hp
          · exact hq.2 p (by simp [hp])
          · rcases List.mem_cons.1 hp with rfl | hp
            · exact hq.2 (c, n) (by simp)
            · exact hq.2 p (by simp [hp])
    · obtain ⟨hl1, hl2⟩ := hq.1 l (by simp)
      refine ⟨(h0.attempt ok hl1 hl2).setPc _, ?_, ?_⟩
      · show PcOK cfg (s.attempt l ok).chain (s.attempt l ok).Attempted _
        rw [attempt_chain]
        refine ⟨h1.mono (hatt l), h2, h3.mono (hatt l), h4, h5, fun c n hc => (h6 c n hc).mono ?_⟩
        intro x hx
        rcases hx with hx | hx
        · exact .inl (hatt l x hx)
        · rcases List.mem_cons.1 hx with rfl | hx
          · exact .inl ((attempted_attempt s x ok x).2 (.inr rfl))
          · exact .inr hx
      · show Pending cfg (s.attempt l ok).chain _
        rw [attempt_chain]
        exact ⟨fun x hx => hq.1 x (by simp [hx]), hq.2⟩

theorem good_fails {cfg : Config} {s : Node} (h : Good cfg s) : Good cfg s.requestFails := by
  obtain ⟨h0, hp, hq⟩ := h
  unfold Node.requestFails
  rcases hpc : s.pc with _ | _ | ⟨b, e, _ | ⟨c, todo⟩⟩ | ⟨b, e, todo, logs⟩ | b | ⟨b, seen⟩ | ⟨b, seen, n⟩ | ⟨b, cs⟩ |
      ⟨b, done, _ | ⟨c, rest⟩, cur⟩ | ⟨b, done, rest, cur, hi, logs⟩
  all_goals first
    | exact ⟨h0, hp, hq⟩
    | exact ⟨h0.setPc _, trivial, trivial⟩
    | skip
  rw [hpc] at hp hq
  obtain ⟨h1, h2, h3, h4⟩ := hp
  refine ⟨h0.setPc _, ⟨h1, h2, ?_, by simp⟩, ?_⟩
  · rw [List.append_assoc]; exact h3
  · show ∀ p ∈ (done ++ [c]) ++ rest, p.1 ∈ cfg.contracts
    rw [List.append_assoc]; exact hq

theorem good_streamEnds {cfg : Config} {s : Node} (h : Good cfg s) : Good cfg s.streamEnds := by
  obtain ⟨h0, hp, hq⟩ := h
  unfold Node.streamEnds
  split
  · rename_i b seen hpc
    rw [hpc] at hp
    exact ⟨h0.setPc _, ⟨hp.1, hp.2.1⟩, trivial⟩
  · exact ⟨h0, hp, hq⟩

theorem good_attempts {cfg : Config} (ok : Log → Bool) : ∀ (ls : List Log) {s : Node}, Good cfg s →
    (∀ l ∈ ls, l ∈ s.chain.logs ∧ l.contract ∈ cfg.contracts) → Good cfg (ls.foldl (fun s l => s.attempt l (ok l)) s)
  | [], _, h, _ => h
  | l :: ls, s, h, hl => by
    obtain ⟨h1, h2⟩ := hl l (by simp)
    have hpc : (s.attempt l (ok l)).pc = s.pc := by unfold Node.attempt; split <;> rfl
    refine good_attempts ok ls (s := s.attempt l (ok l)) ⟨h.base.attempt (ok l) h1 h2, ?_, ?_⟩ ?_
    · rw [hpc, attempt_chain]
      exact h.pc.mono (fun x hx => (attempted_attempt s l (ok l) x).2 (.inl hx))
    · rw [hpc, attempt_chain]; exact h.pending
    · rw [attempt_chain]; exact fun x hx => hl x (by simp [hx])

theorem good_retry {cfg : Config} {s : Node} (h : Good cfg s) (lo hi : Nat) (ok : Log → Bool) :
    Good cfg (s.retryRange cfg lo hi ok) := by
  have hgo := good_attempts ok (s.chain.logs.filter (fun l => cfg.contracts.contains l.contract && decide (lo ≤ l.block) &&
    decide (l.block ≤ hi))) h (by
      intro l hl
      simp only [List.mem_filter, Bool.and_eq_true, List.contains_iff_mem] at hl
      exact ⟨hl.1, hl.2.1.1⟩)
  unfold Node.retryRange
  simp only
  split
  · exact hgo
  · exact hgo
  · exact h

theorem pending_grow {cfg : Config} {ch : ChainView} {latest : Nat} {logs : List Log} {pc : Pc} (hq : Pending cfg ch pc) :
    Pending cfg ⟨latest, ch.logs ++ logs⟩ pc := by
  cases pc with
  | histLogs b e todo ls => exact ⟨fun l hl => ⟨List.mem_append_left _ (hq.1 l hl).1, (hq.1 l hl).2⟩, hq.2⟩
  | pollLogs b done rest cur hi ls => exact ⟨fun l hl => ⟨List.mem_append_left _ (hq.1 l hl).1, (hq.1 l hl).2⟩, hq.2⟩
  | _ => exact hq

theorem good_exec {cfg : Config} (hcfg : cfg.polled = false → cfg.replays = true) {s : Node} (h : Good cfg s) (o : Op)
    (ho : match o with | .grow latest logs => Grows s.chain latest logs | _ => True) : Good cfg (s.exec cfg o) := by
  cases o with
  | grow latest logs =>
    have ho : Grows s.chain latest logs := ho
    refine ⟨⟨h.base.chain.grow ho, h.base.stored.grow ho h.base.bound, h.base.bound.grow ho, ?_⟩, h.pc.grow ho,
      pending_grow h.pending⟩
    intro l hl
    have := h.base.honest l hl
    exact ⟨List.mem_append_left _ this.1, this.2⟩
  | step ok => exact good_step hcfg h ok
  | requestFails => exact good_fails h
  | streamEnds => exact good_streamEnds h
  | retryRange lo hi ok => exact good_retry h lo hi ok
  | restart => exact ⟨h.base.setPc _, trivial, trivial⟩

theorem good_run {cfg : Config} (hcfg : cfg.polled = false → cfg.replays = true) : ∀ (ops : List Op) {s : Node},
    Good cfg s → GrowingRun cfg s ops → Good cfg (s.run cfg ops)
  | [], _, h, _ => h
  | o :: ops, _, h, hr => good_run hcfg ops (good_exec hcfg h o hr.1) hr.2

theorem good_new {cfg : Config} {ch : ChainView} (h : ChainOK ch) : Good cfg { chain := ch } := by
  refine ⟨⟨h, ?_, .inr (Nat.zero_le _), ?_⟩, trivial, trivial⟩
  · intro l _ _ hl; exact absurd hl (Nat.not_lt_zero _)
  · intro l hl; rcases hl with hl | hl <;> cases hl

/-! ### Progress -/

/-- Left alone, the subscriber gets to a state with `P`. -/
def Leads (cfg : Config) (s : Node) (P : Node → Prop) : Prop := ∃ n, P (s.run cfg (List.replicate n (.step true)))

theorem Leads.now {cfg : Config} {s : Node} {P : Node → Prop} (h : P s) : Leads cfg s P := ⟨0, h⟩
theorem Leads.step {cfg : Config} {s : Node} {P : Node → Prop} (h : Leads cfg (s.step cfg true) P) : Leads cfg s P := by
  obtain ⟨n, hn⟩ := h
  exact ⟨n + 1, hn⟩
theorem Leads.trans {cfg : Config} {s : Node} {P Q : Node → Prop} (h : Leads cfg s Q)
    (hq : ∀ s', Q s' → Leads cfg s' P) : Leads cfg s P := by
  obtain ⟨n, hn⟩ := h
  obtain ⟨m, hm⟩ := hq _ hn
  refine ⟨n + m, ?_⟩
  rw [← List.replicate_append_replicate]
  unfold Node.run at hm ⊢
  rw [List.foldl_append]
  exact hm

/-- What stays the same. -/
structure Keeps (cfg : Config) (ch : ChainView) (fl : List Log) (s : Node) : Prop where
  chain : s.chain = ch
  failed : s.failed = fl
  good : Good cfg s

theorem record_failed (s : Node) (n : Nat) : (s.record n).failed = s.failed := by unfold Node.record; split <;> rfl
theorem recordLeast_failed (s : Node) (cs : List (Nat × Nat)) : (s.recordLeast cs).failed = s.failed := by
  unfold Node.recordLeast
  rcases leastNext cs with _ | n
  · rfl
  · simp only; split
    · exact record_failed s _
    · rfl

theorem step_same (cfg : Config) (s : Node) : (s.step cfg true).chain = s.chain ∧ (s.step cfg true).failed = s.failed := by
  unfold Node.step
  rcases hpc : s.pc with _ | _ | ⟨b, e, _ | ⟨c, todo⟩⟩ | ⟨b, e, todo, _ | ⟨l, logs⟩⟩ | b | ⟨b, seen⟩ | ⟨b, seen, n⟩ | ⟨b, cs⟩ |
      ⟨b, done, _ | ⟨c, rest⟩, _ | cur⟩ | ⟨b, done, _ | ⟨c, rest⟩, cur, hi, _ | ⟨l, logs⟩⟩
  all_goals first
    | exact ⟨rfl, rfl⟩
    | skip
  · show (s.histNext cfg b e).chain = _ ∧ (s.histNext cfg b e).failed = _
    unfold Node.histNext
    simp only
    split
    · exact ⟨record_chain s _, record_failed s _⟩
    · exact ⟨record_chain s _, record_failed s _⟩
  · simp only; split <;> exact ⟨rfl, rfl⟩
  · simp only
    rcases s.chain.logs[seen]? with _ | l
    · exact ⟨rfl, rfl⟩
    · simp only
      split
      · exact ⟨rfl, rfl⟩
      · exact ⟨rfl, rfl⟩
  · exact ⟨record_chain s _, record_failed s _⟩
  · exact ⟨(recordLeast_same s done).1, recordLeast_failed s done⟩
  · exact ⟨(recordLeast_same s done).1, recordLeast_failed s done⟩
  · simp only; split <;> exact ⟨rfl, rfl⟩

section progress
variable {cfg : Config} (hcfg : cfg.polled = false → cfg.replays = true) {ch : ChainView} {fl : List Log}
include hcfg

theorem Keeps.step {s : Node} (h : Keeps cfg ch fl s) : Keeps cfg ch fl (s.step cfg true) :=
  ⟨(step_same cfg s).1.trans h.chain, (step_same cfg s).2.trans h.failed, good_step hcfg h.good true⟩

theorem leads_histLogs {b e : Nat} {todo : List Nat} : ∀ (logs : List Log) {s : Node}, Keeps cfg ch fl s →
    s.pc = .histLogs b e todo logs → Leads cfg s (fun s' => Keeps cfg ch fl s' ∧ s'.pc = .hist b e todo.tail)
  | [], s, h, hpc => .step (.now ⟨h.step hcfg, by unfold Node.step; rw [hpc]⟩)
  | l :: logs, s, h, hpc => .step (leads_histLogs logs (h.step hcfg) (by unfold Node.step; rw [hpc]))

theorem leads_hist {b e : Nat} : ∀ (todo : List Nat) {s : Node}, Keeps cfg ch fl s → s.pc = .hist b e todo →
    Leads cfg s (fun s' => Keeps cfg ch fl s' ∧ s'.pc = .hist b e [])
  | [], s, h, hpc => .now ⟨h, hpc⟩
  | c :: todo, s, h, hpc => by
    refine .step (Leads.trans (leads_histLogs hcfg (b := b) (e := e) (todo := c :: todo)
      (s.chain.between c b (min e (b + histWindow))) (h.step hcfg) (by unfold Node.step; rw [hpc])) ?_)
    rintro s' ⟨h', hpc'⟩
    exact leads_hist todo h' hpc'

theorem leads_histAll {e : Nat} : ∀ (k : Nat) {b : Nat} {s : Node}, e + 1 - b ≤ k → Keeps cfg ch fl s →
    s.pc = .hist b e cfg.contracts → Leads cfg s (fun s' => Keeps cfg ch fl s' ∧ Read cfg ch s'.Attempted (e + 1)) := by
  intro k
  induction k with
  | zero =>
    intro b s hk h hpc
    have hp := h.good.pc
    rw [hpc, h.chain] at hp
    exact .now ⟨h, hp.1.le (by omega)⟩
  | succ k ih =>
    intro b s hk h hpc
    refine Leads.trans (leads_hist hcfg cfg.contracts h hpc) ?_
    rintro s' ⟨h', hpc'⟩
    have hp := h'.good.pc
    rw [hpc', h'.chain] at hp
    have hr := hist_read hp.1 (fun c hc => hp.2.2.2 c hc (by simp))
    by_cases hgt : b + histWindow > e
    · refine .now ⟨h', ?_⟩
      rwa [Nat.min_eq_left (by omega)] at hr
    · refine .step (ih (b := b + histWindow) (by simp only [histWindow] at *; omega) (h'.step hcfg) ?_)
      unfold Node.step
      rw [hpc']
      show (s'.histNext cfg b e).pc = _
      unfold Node.histNext
      simp only [if_neg hgt]

theorem leads_stream {b : Nat} : ∀ (k : Nat) {seen : Nat} {s : Node}, ch.logs.length - seen ≤ k → Keeps cfg ch fl s →
    s.pc = .stream b seen → Leads cfg s (fun s' => Keeps cfg ch fl s' ∧ s'.pc = .stream b ch.logs.length) := by
  intro k
  induction k with
  | zero =>
    intro seen s hk h hpc
    have hp := h.good.pc
    rw [hpc, h.chain] at hp
    have := hp.2.2.1
    have : seen = ch.logs.length := by omega
    exact .now ⟨h, this ▸ hpc⟩
  | succ k ih =>
    intro seen s hk h hpc
    rcases hx : s.chain.logs[seen]? with _ | l
    · have hp := h.good.pc
      rw [hpc, h.chain] at hp
      have h1 := hp.2.2.1
      have h2 : ch.logs.length ≤ seen := by
        rw [h.chain] at hx
        exact List.getElem?_eq_none_iff.1 hx
      have : seen = ch.logs.length := by omega
      exact .now ⟨h, this ▸ hpc⟩
    · by_cases hst : streamed cfg b l = true
      · have e1 : (s.step cfg true).pc = .streamRecord b (seen + 1) l.block := by
          unfold Node.step; rw [hpc]; simp only [hx, hst, if_true]
        refine .step (.step (ih (seen := seen + 1) (by omega) ((h.step hcfg).step hcfg) ?_))
        generalize hs1 : s.step cfg true = s1 at e1
        unfold Node.step
        rw [e1]
      · refine .step (ih (seen := seen + 1) (by omega) (h.step hcfg) ?_)
        unfold Node.step; rw [hpc]; simp only [hx, hst, if_false]; rfl

theorem leads_pollLogs {b : Nat} {done rest : List (Nat × Nat)} {c n cur hi : Nat} : ∀ (logs : List Log) {s : Node},
    Keeps cfg ch fl s → s.pc = .pollLogs b done ((c, n) :: rest) cur hi logs →
    Leads cfg s (fun s' => Keeps cfg ch fl s' ∧ s'.pc = .poll b done ((c, hi + 1) :: rest) (some cur))
  | [], s, h, hpc => .step (.now ⟨h.step hcfg, by unfold Node.step; rw [hpc]⟩)
  | l :: logs, s, h, hpc => .step (leads_pollLogs logs (h.step hcfg) (by unfold Node.step; rw [hpc]))

theorem leads_pollOne (hstop : cfg.stop = none) {b c : Nat} {done rest : List (Nat × Nat)} : ∀ (k : Nat) {n : Nat} {s : Node},
    ch.latest + 1 - n ≤ k → Keeps cfg ch fl s → s.pc = .poll b done ((c, n) :: rest) (some ch.latest) →
    Leads cfg s (fun s' => Keeps cfg ch fl s' ∧ ∃ n', ch.latest < n' ∧ s'.pc = .poll b (done ++ [(c, n')]) rest none) := by
  intro k
  induction k with
  | zero =>
    intro n s hk h hpc
    refine .step (.now ⟨h.step hcfg, n, by omega, ?_⟩)
    unfold Node.step; rw [hpc]; simp only [if_neg (show ¬ n ≤ ch.latest by omega)]
  | succ k ih =>
    intro n s hk h hpc
    by_cases hn : n ≤ ch.latest
    · refine .step (Leads.trans (leads_pollLogs hcfg (b := b) (done := done) (rest := rest) (c := c) (n := n)
        (cur := ch.latest) (hi := pollTo cfg n ch.latest) (s.chain.between c n (pollTo cfg n ch.latest)) (h.step hcfg) ?_) ?_)
      · unfold Node.step; rw [hpc]; simp only [if_pos hn]
      · rintro s' ⟨h', hpc'⟩
        refine ih ?_ h' hpc'
        have : n ≤ pollTo cfg n ch.latest := by
          unfold pollTo; rw [hstop]; simp only; omega
        omega
    · refine .step (.now ⟨h.step hcfg, n, by omega, ?_⟩)
      unfold Node.step; rw [hpc]; simp only [if_neg hn]

theorem leads_poll (hstop : cfg.stop = none) {b : Nat} : ∀ (rest : List (Nat × Nat)) {done : List (Nat × Nat)} {s : Node},
    Keeps cfg ch fl s → (∀ p ∈ done, ch.latest < p.2) → s.pc = .poll b done rest none →
    Leads cfg s (fun s' => Keeps cfg ch fl s' ∧ ∃ done', (∀ p ∈ done', ch.latest < p.2) ∧ s'.pc = .poll b done' [] none)
  | [], done, s, h, hd, hpc => .now ⟨h, done, hd, hpc⟩
  | (c, n) :: rest, done, s, h, hd, hpc => by
    refine .step (Leads.trans (leads_pollOne hcfg hstop (b := b) (c := c) (done := done) (rest := rest)
      (ch.latest + 1 - n) (Nat.le_refl _) (h.step hcfg) ?_) ?_)
    · unfold Node.step; rw [hpc, h.chain]
    · rintro s' ⟨h', n', hn', hpc'⟩
      refine leads_poll hstop rest h' ?_ hpc'
      intro p hp
      rcases List.mem_append.1 hp with hp | hp
      · exact hd p hp
      · have : p = (c, n') := by simpa using hp
        subst this; exact hn'

/-- A restarted subscriber reads everything there is. -/
theorem catches_up (hlive : cfg.start = none → cfg.polled = true → cfg.stop = none) {s : Node} (h : Keeps cfg ch fl s)
    (hpc : s.pc = .boot) :
    Leads cfg s (fun s' => Keeps cfg ch fl s' ∧ ∀ l ∈ ch.logs, InScope cfg l → s'.Attempted l) := by
  have hch := h.chain ▸ h.good.base.chain
  have e1 : (s.step cfg true).pc = bootPc cfg ch.latest s.stored := by
    unfold Node.step; rw [hpc, ← h.chain]
  refine .step ?_
  have h1 := h.step hcfg
  generalize s.step cfg true = s1 at e1 h1
  rcases hst : cfg.start with _ | start
  · have e2 : s1.pc = .subscribe (max cfg.first s.stored) := by rw [e1]; simp only [bootPc, hst]
    generalize max cfg.first s.stored = b at e2
    refine .step ?_
    have h2 := h1.step hcfg
    by_cases hpo : cfg.polled = true
    · have e3 : (s1.step cfg true).pc = .idle b (cfg.contracts.map (fun c => (c, b))) := by
        unfold Node.step; rw [e2]; simp only [if_pos hpo]
      generalize s1.step cfg true = s2 at e3 h2
      refine .step ?_
      have h3 := h2.step hcfg
      have e4 : (s2.step cfg true).pc = .poll b [] (cfg.contracts.map (fun c => (c, b))) none := by
        unfold Node.step; rw [e3]
      refine Leads.trans (leads_poll hcfg (hlive hst hpo) _ h3 (by simp) e4) ?_
      rintro s' ⟨h', done, hd, hpc'⟩
      refine .now ⟨h', ?_⟩
      intro l hl hs
      have hp := h'.good.pc
      rw [hpc', h'.chain, PcOK, List.append_nil] at hp
      obtain ⟨n, hn⟩ := hp.2.2.1.2 l.contract hs.1
      exact (hp.2.2.1.1 _ hn).1 l hl hs rfl (Nat.lt_of_le_of_lt (hch.known l hl) (hd _ hn))
    · have hpo : cfg.polled = false := by simpa using hpo
      have e3 : (s1.step cfg true).pc = .stream b 0 := by
        unfold Node.step; rw [e2]; simp only [hpo, hcfg hpo]; rfl
      refine Leads.trans (leads_stream hcfg ch.logs.length (by omega) h2 e3) ?_
      rintro s' ⟨h', hpc'⟩
      refine .now ⟨h', ?_⟩
      intro l hl hs
      have hp := h'.good.pc
      rw [hpc', h'.chain] at hp
      obtain ⟨p1, -, -, p4⟩ := hp
      by_cases hb : l.block < b
      · exact p1 l hl hs hb
      · exact p4 l (by rw [List.take_length]; exact hl) (streamed_of_scope hs (by omega))
  · have e2 : s1.pc = .hist (max s.stored start) (min ch.latest (cfg.stop.getD ch.latest)) cfg.contracts := by
      rw [e1]; simp only [bootPc, hst]
    refine Leads.trans (leads_histAll hcfg _ (Nat.le_refl _) h1 e2) ?_
    rintro s' ⟨h', hr⟩
    refine .now ⟨h', ?_⟩
    intro l hl hs
    refine hr l hl hs ?_
    have := hch.known l hl
    rcases hsp : cfg.stop with _ | stop
    · simp; omega
    · have := hs.2.2 stop hsp
      simp; omega

end progress

end Ingest
end Verif
