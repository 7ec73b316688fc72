import Verif.Lemmas.Subscribe
/-! The event stream: the invariant of a subscription. -/
namespace Verif

/-! ### Lists -/

theorem take_grow {α : Type} {l m : List α} {r : Nat} (h : r ≤ l.length) : (l ++ m).take r = l.take r := by
  rw [List.take_append_of_le_length h]

theorem slice_grow {α : Type} {l m : List α} {b p : Nat} (h : p ≤ l.length) :
    ((l ++ m).drop b).take (p - b) = (l.drop b).take (p - b) := by
  by_cases hb : b ≤ l.length
  · rw [List.drop_append_of_le_length hb, List.take_append_of_le_length (by simp; omega)]
  · have : p - b = 0 := by omega
    rw [this]; simp

/-- In a list with ascending ids those up to a token come first. -/
theorem split_token {X : List HEvent} (h : X.Pairwise (fun a b => a.id < b.id)) (hlt : ∀ e ∈ X, e.id < 2 ^ 64) {t : Option Bytes}
    (ht : ∀ k, t = some k → ∃ m, m < 2 ^ 64 ∧ k = eventKey m) :
    X.filter (fun e => !pastToken t e) ++ X.filter (pastToken t) = X := by
  cases t with
  | none =>
    rw [List.filter_eq_nil_iff.2 (by simp [pastToken]), List.filter_eq_self.2 (by simp [pastToken])]; rfl
  | some k =>
    obtain ⟨m, hm, rfl⟩ := ht k rfl
    induction X with
    | nil => rfl
    | cons e X ih =>
      obtain ⟨h1, h2⟩ := List.pairwise_cons.1 h
      have ih := ih h2 (fun e he => hlt e (by simp [he]))
      have hp : ∀ x ∈ e :: X, pastToken (some (eventKey m)) x = decide (m < x.id) := by
        intro x hx
        simp only [pastToken]
        rw [eventKey_blt _ _ hm (hlt x hx)]
      by_cases he : m < e.id
      · have : ∀ x ∈ e :: X, pastToken (some (eventKey m)) x = true := by
          intro x hx
          rw [hp x hx]
          rcases List.mem_cons.1 hx with rfl | hx
          · exact decide_eq_true he
          · exact decide_eq_true (Nat.lt_trans he (h1 x hx))
        rw [List.filter_eq_self.2 this, List.filter_eq_nil_iff.2 (fun x hx => by simp [this x hx])]
        rfl
      · have := hp e (by simp)
        rw [decide_eq_false he] at this
        simp only [List.filter_cons, this, Bool.not_false, if_true, Bool.false_eq_true, if_false, List.cons_append, ih]

/-- A later token. -/
theorem next_token {X A B : List HEvent} {e : HEvent} (h : X.Pairwise (fun a b => a.id < b.id)) (hlt : ∀ e ∈ X, e.id < 2 ^ 64)
    {t : Option Bytes} (ht : ∀ k, t = some k → ∃ m, m < 2 ^ 64 ∧ k = eventKey m)
    (hs : X.filter (pastToken t) = A ++ e :: B) :
    X.filter (fun x => !pastToken (some (eventKey e.id)) x) = X.filter (fun e => !pastToken t e) ++ (A ++ [e]) := by
  have hsp := split_token h hlt ht
  rw [hs] at hsp
  have hX : X = (X.filter (fun e => !pastToken t e) ++ (A ++ [e])) ++ B := by
    rw [List.append_assoc, List.append_assoc]; exact hsp.symm
  generalize hP : X.filter (fun e => !pastToken t e) ++ (A ++ [e]) = P at hX
  have heP : ∀ x ∈ P, x.id ≤ e.id := by
    intro x hx
    have hP' : P = (X.filter (fun e => !pastToken t e) ++ A) ++ [e] := by rw [← hP]; simp
    have hpw : P.Pairwise (fun a b => a.id < b.id) := by rw [hX] at h; exact (List.pairwise_append.1 h).1
    rw [hP'] at hpw hx
    rcases List.mem_append.1 hx with hx | hx
    · exact Nat.le_of_lt ((List.pairwise_append.1 hpw).2.2 x hx e (by simp))
    · simp at hx; simp [hx]
  have heB : ∀ x ∈ B, e.id < x.id := by
    intro x hx
    have hpw := h
    rw [hX] at hpw
    exact (List.pairwise_append.1 hpw).2.2 e (by rw [← hP]; simp) x hx
  have he64 : e.id < 2 ^ 64 := hlt e (by rw [hX, ← hP]; simp)
  have hlt' := hlt
  rw [hX] at hlt' ⊢
  rw [List.filter_append, List.filter_eq_self.2, List.filter_eq_nil_iff.2, List.append_nil]
  · intro x hx
    simp only [pastToken]
    rw [eventKey_blt _ _ he64 (hlt' x (List.mem_append.2 (.inr hx))), decide_eq_true (heB x hx)]
    simp
  · intro x hx
    simp only [pastToken]
    rw [eventKey_blt _ _ he64 (hlt' x (List.mem_append.2 (.inl hx))), decide_eq_false (Nat.not_lt.2 (heP x hx))]
    rfl

theorem view_append (req : SubRequest) (i : Nat) (a b : List HEvent) : req.view i (a ++ b) = req.view i a ++ req.view i b := by
  simp [SubRequest.view]

theorem view_undated (req : SubRequest) (i : Nat) {a b : List HEvent} (h : a.map HEvent.undated = b.map HEvent.undated) :
    req.view i a = req.view i b := by
  have key : ∀ l : List HEvent, req.view i l = req.view i (l.map HEvent.undated) := by
    intro l
    unfold SubRequest.view
    rw [List.filter_map, List.map_map]
    rfl
  rw [key a, h, ← key b]

theorem received_append (n : SubNode) (es : List HEvent) (i : Nat) :
    SubNode.received { n with out := n.out ++ es } i = n.received i ++ (es.filter (fun e => decide (e.shard = i))).map HEvent.undated := by
  simp [SubNode.received]

theorem fillIn_view (req : SubRequest) (chunks : Nat → Option Nat) (i : Nat) (es : List HEvent) : ∀ last,
    ((fillIn chunks i last es).1.filter req.wants).map HEvent.undated = req.view i es := by
  induction es with
  | nil => intro last; rfl
  | cons e es ih =>
    intro last
    simp only [fillIn]
    have hw : ∀ ts, req.wants (rewriteEvent e i ts) = decide (e.ty ∈ req.types) := fun _ => rfl
    rw [List.filter_cons, hw]
    unfold SubRequest.view
    rw [List.filter_cons]
    split
    · rw [List.map_cons, List.map_cons, rewrite_undated]
      exact congrArg _ (ih _)
    · exact ih _

/-! ### Timestamps -/

def LastOk (s : EvShard) (last : Option (Nat × Nat)) : Prop :=
  ∀ b ts, last = some (b, ts) → (∃ e ∈ s.written, e.id / 2 ^ 14 = b) ∧ ∀ e ∈ s.sent ++ s.queue, e.id / 2 ^ 14 = b → e.ts = ts

theorem LastOk.none {s : EvShard} : LastOk s none := fun _ _ h => by cases h

/-- The timestamp of an event delivered: that of the broadcast, or none. -/
def Dated (s : EvShard) (d : HEvent) : Prop := d.ts = 0 ∨ ∃ e ∈ s.sent ++ s.queue, e.id = d.id ∧ e.ts = d.ts

theorem fillIn_dated {s : EvShard} (h : EvInv s) (i : Nat) (es : List HEvent) : ∀ last, LastOk s last → (∀ e ∈ es, e ∈ s.written) →
    LastOk s (fillIn s.chunks i last es).2 ∧ ∀ d ∈ (fillIn s.chunks i last es).1, Dated s d := by
  induction es with
  | nil => intro last hl _; exact ⟨hl, fun _ h => by cases h⟩
  | cons e es ih =>
    intro last hl hes
    simp only [fillIn]
    generalize hl' : chunkFor s.chunks (IdGen.extract e.id).1 last = last'
    have hlast' : LastOk s last' ∧ ∀ b ts, last' = some (b, ts) → b = e.id / 2 ^ 14 := by
      subst hl'
      rw [extract_block]
      have hst : LastOk s (match s.chunks (e.id / 2 ^ 14) with | some ts => some (e.id / 2 ^ 14, ts) | none => none) ∧
          ∀ b ts, (match s.chunks (e.id / 2 ^ 14) with | some ts => some (e.id / 2 ^ 14, ts) | none => none) = some (b, ts) →
            b = e.id / 2 ^ 14 := by
        cases hts : s.chunks (e.id / 2 ^ 14) with
        | none => exact ⟨LastOk.none, fun _ _ h => by cases h⟩
        | some ts =>
          refine ⟨fun b t hbt => ?_, fun b t hbt => ?_⟩
          · cases hbt
            exact ⟨h.old _ _ hts, h.stored _ _ hts⟩
          · cases hbt; rfl
      unfold chunkFor
      cases last with
      | none => exact hst
      | some nt =>
        obtain ⟨m, t⟩ := nt
        simp only
        split
        · exact hst
        · next hn =>
          refine ⟨hl, fun b t' hbt => ?_⟩
          cases hbt
          exact (Decidable.not_not.1 hn).symm
    obtain ⟨h1, h2⟩ := ih last' hlast'.1 (fun x hx => hes x (by simp [hx]))
    refine ⟨h1, ?_⟩
    intro d hd
    rcases List.mem_cons.1 hd with rfl | hd
    · cases hc : last' with
      | none => left; exact h.zero e (hes e (by simp))
      | some bt =>
        obtain ⟨b, ts⟩ := bt
        right
        obtain ⟨x, hx, hxid, _⟩ := h.sent_of (hes e (by simp))
        refine ⟨x, hx, hxid, ?_⟩
        have hb := hlast'.2 b ts hc
        exact (hlast'.1 b ts hc).2 x hx (by rw [hxid, hb])
    · exact h2 d hd

/-- What a shard has sent or is to send stays, in order. -/
theorem EvInv.step_sends {s : EvShard} (h : EvInv s) (c : CommitStep) :
    ∃ more, (s.step c).sent ++ (s.step c).queue = (s.sent ++ s.queue) ++ more ∧
      ∀ x ∈ more, ∃ hh ts es, c = .write hh ts es ∧ ∃ e ∈ es, e.id = x.id := by
  cases c with
  | write hh ts es =>
    simp only [EvShard.step]
    split
    · next hidle =>
      refine ⟨es.map (fun e => { e with ts := ts }), by simp [hidle.1], ?_⟩
      intro x hx
      obtain ⟨e, he, rfl⟩ := List.mem_map.1 hx
      exact ⟨hh, ts, es, rfl, e, he, rfl⟩
    · exact ⟨[], by simp, fun _ h => (by cases h)⟩
  | send =>
    simp only [EvShard.step]
    split
    · exact ⟨[], by simp, fun _ h => (by cases h)⟩
    · next e q hq => exact ⟨[], by simp [hq], fun _ h => (by cases h)⟩
  | chunk =>
    simp only [EvShard.step]
    split <;> exact ⟨[], by simp, fun _ h => (by cases h)⟩
  | forget k => exact ⟨[], by simp [EvShard.step], fun _ h => (by cases h)⟩

theorem Dated.step {s : EvShard} (h : EvInv s) {d : HEvent} (hd : Dated s d) (c : CommitStep) : Dated (s.step c) d := by
  rcases hd with hd | ⟨e, he, h1⟩
  · exact .inl hd
  · obtain ⟨more, hm, _⟩ := h.step_sends c
    exact .inr ⟨e, by rw [hm]; exact List.mem_append.2 (.inl he), h1⟩

theorem LastOk.step {s : EvShard} (h : EvInv s) {last : Option (Nat × Nat)} (hl : LastOk s last) (c : CommitStep)
    (ho : ∀ hh ts es, c = .write hh ts es → hh < 2 ^ 50 ∧ es ≠ [] ∧ es.Pairwise (fun a b => a.id < b.id) ∧
      (∀ e ∈ es, e.id / 2 ^ 14 = hh ∧ e.ts = 0) ∧ ∀ e ∈ s.written, e.id / 2 ^ 14 < hh) : LastOk (s.step c) last := by
  intro b ts hbt
  obtain ⟨⟨x, hx, hxb⟩, h2⟩ := hl b ts hbt
  obtain ⟨_, more, sent, hw, _, hlt⟩ := h.step c ho
  refine ⟨⟨x, by rw [hw]; exact List.mem_append.2 (.inl hx), hxb⟩, ?_⟩
  obtain ⟨ms, hms, hid⟩ := h.step_sends c
  intro e he heb
  rw [hms] at he
  rcases List.mem_append.1 he with he | he
  · exact h2 e he heb
  · obtain ⟨hh, t, es, hc, y, hy, hye⟩ := hid e he
    obtain ⟨_, _, _, ho1, ho2⟩ := ho hh t es hc
    have h3 := (ho1 y hy).1
    have h4 := ho2 x hx
    rw [hye] at h3
    omega

/-! ### A subscription -/

/-- The part of a shard's log read by the subscriber, once it has been read. -/
def SubNode.readPart (req : SubRequest) (n : SubNode) (i : Nat) : List HEvent :=
  ((n.shards i).written.take ((n.ended i).getD 0)).filter (fun e => decide (req.fromId.getD 0 ≤ e.id))

structure SubInv (req : SubRequest) (n : SubNode) : Prop where
  ev : ∀ i, EvInv (n.shards i)
  out : ∀ d ∈ n.out, d.ty ∈ req.types ∧ d.shard ∈ req.shards ∧ Dated (n.shards d.shard) d
  ended : ∀ i r, n.ended i = some r → r ≤ (n.shards i).written.length
  phase : match n.phase with
    | .stopped => False
    | .replay todo token last =>
      todo.Nodup ∧ (∀ i ∈ todo, i ∈ req.shards ∧ n.ended i = none) ∧ (∀ i, n.begun i = none ∧ n.lagged i = false) ∧
      (∀ i ∈ req.shards, i ∉ todo → n.ended i ≠ none) ∧
      (∀ i, (∀ rest, todo ≠ i :: rest) → n.received i = req.view i (n.readPart req i)) ∧
      (∀ i rest, todo = i :: rest →
        (∀ k, token = some k → ∃ e ∈ (n.shards i).written, k = eventKey e.id ∧ req.fromId.getD 0 ≤ e.id) ∧
        LastOk (n.shards i) last ∧
        n.received i = req.view i (((n.shards i).written.filter (fun e => decide (req.fromId.getD 0 ≤ e.id))).filter (fun e => !pastToken token e)))
    | .live pos =>
      (∀ i ∈ req.shards, req.fromId ≠ none → n.ended i ≠ none) ∧
      ∀ i, match pos i with
        | none => n.begun i = none ∧ n.lagged i = false ∧ n.received i = req.view i (n.readPart req i)
        | some p => i ∈ req.shards ∧ ∃ b L, n.begun i = some b ∧ b ≤ p ∧ p ≤ (n.shards i).sent.length ∧
          n.received i = req.view i (n.readPart req i) ++ L ∧
          List.Sublist L (req.view i (((n.shards i).written.drop b).take (p - b))) ∧
          (n.lagged i = false → L = req.view i (((n.shards i).written.drop b).take (p - b)))

theorem SubInv.start (req : SubRequest) (hn : req.shards.Nodup) : SubInv req (SubNode.start req (fun _ => {})) := by
  refine ⟨fun i => EvInv.init, fun d h => (by cases h), fun i r h => (by cases h), ?_⟩
  unfold SubNode.start
  cases hf : req.fromId with
  | none =>
    refine ⟨fun i _ h => absurd rfl h, fun i => ⟨rfl, rfl, ?_⟩⟩
    simp [SubNode.received, SubNode.readPart, SubRequest.view]
  | some f =>
    refine ⟨hn, fun i hi => ⟨hi, rfl⟩, fun i => ⟨rfl, rfl⟩, fun i h1 h2 => absurd h1 h2, ?_, ?_⟩
    · intro i _; simp [SubNode.received, SubNode.readPart, SubRequest.view]
    · intro i rest _
      refine ⟨fun k h => (by cases h), LastOk.none, ?_⟩
      simp [SubNode.received, SubRequest.view]

theorem sent_le {s : EvShard} (h : EvInv s) : s.sent.length ≤ s.written.length := by
  have := congrArg List.length h.sent
  simp at this
  omega

theorem SubInv.node {req : SubRequest} {cap : Nat} {n : SubNode} (h : SubInv req n) (j : Nat) (c : CommitStep)
    (ho : n.Orderly (.node j c)) : SubInv req (n.exec req cap (.node j c)) := by
  have ho' : ∀ hh ts es, c = .write hh ts es → hh < 2 ^ 50 ∧ es ≠ [] ∧ es.Pairwise (fun a b => a.id < b.id) ∧
      (∀ e ∈ es, e.id / 2 ^ 14 = hh ∧ e.ts = 0) ∧ ∀ e ∈ (n.shards j).written, e.id / 2 ^ 14 < hh := by
    rintro hh ts es rfl
    exact ho
  obtain ⟨hev, more, sent, hw, hs, hlt⟩ := (h.ev j).step c ho'
  have hsh : ∀ i, ∃ more sent, (setAt n.shards j ((n.shards j).step c) i).written = (n.shards i).written ++ more ∧
      (setAt n.shards j ((n.shards j).step c) i).sent = (n.shards i).sent ++ sent ∧
      ∀ a ∈ (n.shards i).written, ∀ b ∈ more, a.id < b.id := by
    intro i
    unfold setAt
    split
    · next hij => subst hij; exact ⟨more, sent, hw, hs, hlt⟩
    · exact ⟨[], [], by simp, by simp, fun _ _ _ h => by cases h⟩
  have hevs : ∀ i, EvInv (setAt n.shards j ((n.shards j).step c) i) := by
    intro i
    unfold setAt
    split
    · exact hev
    · exact h.ev i
  have hrp : ∀ i, SubNode.readPart req (n.exec req cap (.node j c)) i = n.readPart req i := by
    intro i
    unfold SubNode.readPart
    simp only [SubNode.exec]
    obtain ⟨m, _, hm, _⟩ := hsh i
    rw [hm]
    cases he : n.ended i with
    | none => simp
    | some r => simp only [Option.getD_some]; rw [take_grow (h.ended i r he)]
  have hrec : ∀ i, SubNode.received (n.exec req cap (.node j c)) i = n.received i := fun i => rfl
  refine ⟨hevs, ?_, ?_, ?_⟩
  · intro d hd
    obtain ⟨h1, h2, h3⟩ := h.out d hd
    refine ⟨h1, h2, ?_⟩
    show Dated (setAt n.shards j ((n.shards j).step c) d.shard) d
    unfold setAt
    split
    · next he => rw [he] at h3; exact h3.step (h.ev j) c
    · exact h3
  · intro i r hr
    obtain ⟨m, _, hm, _⟩ := hsh i
    show r ≤ (setAt n.shards j ((n.shards j).step c) i).written.length
    rw [hm]
    have := h.ended i r hr
    simp; omega
  · have hp := h.phase
    show match n.phase with
      | .stopped => _
      | .replay todo token last => _
      | .live pos => _
    cases hph : n.phase with
    | stopped => rw [hph] at hp; exact hp
    | replay todo token last =>
      rw [hph] at hp
      obtain ⟨p1, p2, p3, p4, p5, p6⟩ := hp
      refine ⟨p1, p2, p3, p4, fun i hi => ?_, fun i rest hi => ?_⟩
      · rw [hrec, hrp]; exact p5 i hi
      · obtain ⟨q1, q2, q3⟩ := p6 i rest hi
        obtain ⟨m, _, hm, _, hmlt⟩ := hsh i
        refine ⟨?_, ?_, ?_⟩
        · intro k hk
          obtain ⟨e, he, h2⟩ := q1 k hk
          exact ⟨e, by show e ∈ (setAt n.shards j ((n.shards j).step c) i).written; rw [hm]; exact List.mem_append.2 (.inl he), h2⟩
        · show LastOk (setAt n.shards j ((n.shards j).step c) i) last
          unfold setAt
          split
          · next he => subst he; exact q2.step (h.ev _) c ho'
          · exact q2
        · rw [hrec, q3]
          show _ = req.view i (((setAt n.shards j ((n.shards j).step c) i).written.filter _).filter _)
          have hlt64 := (hevs i).lt
          rw [hm] at hlt64 ⊢
          rw [List.filter_append, List.filter_append]
          have : (m.filter (fun e => decide (req.fromId.getD 0 ≤ e.id))).filter (fun e => !pastToken token e) = [] := by
            apply List.filter_eq_nil_iff.2
            intro e he
            have he := (List.mem_filter.1 he).1
            cases token with
            | none => simp [pastToken]
            | some k =>
              obtain ⟨x, hx, rfl, _⟩ := q1 k rfl
              simp only [pastToken]
              rw [eventKey_blt _ _ ((h.ev i).lt x hx) (hlt64 e (List.mem_append.2 (.inr he))), decide_eq_true (hmlt x hx e he)]
              simp
          rw [this, List.append_nil]
    | live pos =>
      rw [hph] at hp
      obtain ⟨p1, p2⟩ := hp
      refine ⟨p1, fun i => ?_⟩
      have p2 := p2 i
      cases hpi : pos i with
      | none => rw [hpi] at p2; simp only at p2 ⊢; rw [hrec, hrp]; exact p2
      | some p =>
        rw [hpi] at p2
        simp only at p2 ⊢
        obtain ⟨q0, b, L, q1, q2, q3, q4, q5, q6⟩ := p2
        obtain ⟨m, sn, hm, hsn, _⟩ := hsh i
        have hle := sent_le (h.ev i)
        have hsl : (((setAt n.shards j ((n.shards j).step c) i).written.drop b).take (p - b)) = (((n.shards i).written.drop b).take (p - b)) := by
          rw [hm]; exact slice_grow (by omega)
        refine ⟨q0, b, L, q1, q2, ?_, ?_, ?_, ?_⟩
        · show p ≤ (setAt n.shards j ((n.shards j).step c) i).sent.length
          rw [hsn]; simp; omega
        · rw [hrec, hrp]; exact q4
        · show List.Sublist L (req.view i (((setAt n.shards j ((n.shards j).step c) i).written.drop b).take (p - b)))
          rw [hsl]; exact q5
        · intro hlag
          show L = req.view i (((setAt n.shards j ((n.shards j).step c) i).written.drop b).take (p - b))
          rw [hsl]; exact q6 hlag

theorem filter_shard_all {l : List HEvent} {i : Nat} (h : ∀ d ∈ l, d.shard = i) (j : Nat) :
    l.filter (fun e => decide (e.shard = j)) = if j = i then l else [] := by
  split
  · next hj => subst hj; exact List.filter_eq_self.2 (fun d hd => decide_eq_true (h d hd))
  · next hj => exact List.filter_eq_nil_iff.2 (fun d hd => by simp [h d hd]; omega)

theorem SubInv.page {req : SubRequest} {cap : Nat} {n : SubNode} (hf : req.fromId.getD 0 < 2 ^ 64) (h : SubInv req n) :
    SubInv req (n.exec req cap .page) := by
  have hp := h.phase
  show SubInv req (n.readPage req)
  cases hph : n.phase with
  | stopped => rw [show n.readPage req = n by unfold SubNode.readPage; rw [hph]]; exact h
  | live pos => rw [show n.readPage req = n by unfold SubNode.readPage; rw [hph]]; exact h
  | replay todo token last =>
    rw [hph] at hp
    obtain ⟨p1, p2, p3, p4, p5, p6⟩ := hp
    cases todo with
    | nil =>
      rw [show n.readPage req = { n with phase := .live (fun _ => none) } by unfold SubNode.readPage; rw [hph]]
      refine ⟨h.ev, h.out, h.ended, fun i hi _ => p4 i hi (by simp), fun i => ⟨(p3 i).1, (p3 i).2, p5 i (by simp)⟩⟩
    | cons i rest =>
      obtain ⟨q1, q2, q3⟩ := p6 i rest rfl
      have hev := h.ev i
      have hW : ((n.shards i).written.filter (fun e => decide (req.fromId.getD 0 ≤ e.id))).Pairwise (fun a b => a.id < b.id) :=
        hev.asc.sublist List.filter_sublist
      have hW64 : ∀ e ∈ (n.shards i).written.filter (fun e => decide (req.fromId.getD 0 ≤ e.id)), e.id < 2 ^ 64 :=
        fun e he => hev.lt e (List.mem_filter.1 he).1
      have htok : ∀ k, token = some k → ∃ m, m < 2 ^ 64 ∧ k = eventKey m := by
        intro k hk
        obtain ⟨e, he, hke, _⟩ := q1 k hk
        exact ⟨e.id, hev.lt e he, hke⟩
      have hS : (n.shards i).written.filter (fun e => decide (req.fromId.getD 0 ≤ e.id) && pastToken token e) =
          ((n.shards i).written.filter (fun e => decide (req.fromId.getD 0 ≤ e.id))).filter (pastToken token) := by
        rw [List.filter_filter]
        apply List.filter_congr
        intro e _
        exact Bool.and_comm _ _
      have hnot : i ∉ rest := (List.nodup_cons.1 p1).1
      -- the effect of a page of events `es` of the log
      have hmain : ∀ es tk, (∀ e ∈ es, e ∈ (n.shards i).written) →
          getEvents some (n.shards i).log (req.fromId.getD 0) none { pageToken := token } = .ok ⟨es, tk⟩ →
          ∃ out last', (∀ d ∈ out, d.ty ∈ req.types ∧ d.shard = i ∧ Dated (n.shards i) d) ∧
            out.map HEvent.undated = req.view i es ∧ LastOk (n.shards i) last' ∧
            n.readPage req = { n with
              out := n.out ++ out
              phase := match tk with
                | some t => .replay (i :: rest) (some t) last'
                | none => .replay rest none none
              ended := match tk with
                | some _ => n.ended
                | none => setAt n.ended i (some (n.shards i).written.length) } := by
        intro es tk hes hge
        obtain ⟨d1, d2⟩ := fillIn_dated hev i es last q2 hes
        refine ⟨(fillIn (n.shards i).chunks i last es).1.filter req.wants, (fillIn (n.shards i).chunks i last es).2, ?_, ?_, d1, ?_⟩
        · intro d hd
          obtain ⟨hd1, hd2⟩ := List.mem_filter.1 hd
          exact ⟨of_decide_eq_true hd2, fillIn_shard _ _ _ _ d hd1, d2 d hd1⟩
        · exact fillIn_view req _ i es last
        · unfold SubNode.readPage
          rw [hph]
          simp only [eventsFromStore, hge]
          cases tk <;> rfl
      rcases log_page hev hf q1 with hpg | ⟨A, e, B, hAB, hpg⟩
      · -- the last page of the shard
        obtain ⟨out, last', o1, o2, o3, o4⟩ := hmain _ _ (fun e he => (List.mem_filter.1 he).1) hpg
        rw [o4]
        simp only
        have hrecv : ∀ j, SubNode.received { n with out := n.out ++ out } j =
            n.received j ++ if j = i then req.view i (((n.shards i).written.filter (fun e => decide (req.fromId.getD 0 ≤ e.id))).filter (pastToken token)) else [] := by
          intro j
          rw [received_append, filter_shard_all (fun d hd => (o1 d hd).2.1) j]
          split
          · rw [o2, hS]
          · rfl
        refine ⟨h.ev, ?_, ?_, ?_⟩
        · intro d hd
          rcases List.mem_append.1 hd with hd | hd
          · exact h.out d hd
          · obtain ⟨a1, a2, a3⟩ := o1 d hd
            exact ⟨a1, by rw [a2]; exact (p2 i (by simp)).1, by simp only [a2]; exact a3⟩
        · intro j r hr
          simp only [setAt] at hr
          split at hr
          · next hj => cases hr; subst hj; exact Nat.le_refl _
          · exact h.ended j r hr
        · have hall : ∀ j, SubNode.received { n with out := n.out ++ out } j =
              req.view j (((n.shards j).written.take ((setAt n.ended i (some (n.shards i).written.length) j).getD 0)).filter
                (fun e => decide (req.fromId.getD 0 ≤ e.id))) := by
            intro j
            rw [hrecv]
            by_cases hj : j = i
            · subst hj
              simp only [setAt, if_true, Option.getD_some, List.take_length]
              rw [q3, ← view_append, split_token hW hW64 htok]
            · simp only [setAt, if_neg hj, List.append_nil]
              exact p5 j (fun r hr => hj (by cases hr; rfl))
          refine ⟨(List.nodup_cons.1 p1).2, ?_, p3, ?_, ?_, ?_⟩
          · intro j hj
            obtain ⟨a1, a2⟩ := p2 j (by simp [hj])
            refine ⟨a1, ?_⟩
            simp only [setAt]
            rw [if_neg (by rintro rfl; exact hnot hj)]
            exact a2
          · intro j hj1 hj2
            simp only [setAt]
            split
            · simp
            · next hne => exact p4 j hj1 (by simp; exact ⟨hne, hj2⟩)
          · intro j _; exact hall j
          · intro j r hr
            refine ⟨fun k hk => (by cases hk), LastOk.none, ?_⟩
            have := hall j
            have hje : n.ended j = none := (p2 j (by rw [hr]; simp)).2
            have hji : j ≠ i := by rintro rfl; exact hnot (by rw [hr]; simp)
            simp only [setAt, if_neg hji, hje, Option.getD_none, List.take_zero, List.filter_nil] at this
            refine Eq.trans this ?_
            rw [show List.filter (fun e => !pastToken none e) _ = [] from List.filter_eq_nil_iff.2 (by simp [pastToken])]
      · -- there is another page
        have hes : ∀ x ∈ A ++ [e], x ∈ (n.shards i).written ∧ req.fromId.getD 0 ≤ x.id := by
          intro x hx
          have hx' : x ∈ (n.shards i).written.filter (fun e => decide (req.fromId.getD 0 ≤ e.id) && pastToken token e) := by
            rw [hAB]
            simp at hx ⊢
            rcases hx with hx | hx
            · exact .inl hx
            · exact .inr (.inl hx)
          obtain ⟨a1, a2⟩ := List.mem_filter.1 hx'
          exact ⟨a1, of_decide_eq_true (Bool.and_eq_true _ _ ▸ a2).1⟩
        obtain ⟨out, last', o1, o2, o3, o4⟩ := hmain _ _ (fun x hx => (hes x hx).1) hpg
        rw [o4]
        simp only
        have hrecv : ∀ j, SubNode.received { n with out := n.out ++ out } j =
            n.received j ++ if j = i then req.view i (A ++ [e]) else [] := by
          intro j
          rw [received_append, filter_shard_all (fun d hd => (o1 d hd).2.1) j]
          split
          · rw [o2]
          · rfl
        refine ⟨h.ev, ?_, h.ended, ?_⟩
        · intro d hd
          rcases List.mem_append.1 hd with hd | hd
          · exact h.out d hd
          · obtain ⟨a1, a2, a3⟩ := o1 d hd
            exact ⟨a1, by rw [a2]; exact (p2 i (by simp)).1, by simp only [a2]; exact a3⟩
        · refine ⟨p1, p2, p3, p4, ?_, ?_⟩
          · intro j hj
            have hji : j ≠ i := by rintro rfl; exact hj rest rfl
            have := hrecv j
            rw [if_neg hji, List.append_nil] at this
            refine Eq.trans this ?_
            exact p5 j hj
          · intro j r hr
            cases hr
            refine ⟨?_, o3, ?_⟩
            · intro k hk
              cases hk
              exact ⟨e, (hes e (by simp)).1, rfl, (hes e (by simp)).2⟩
            · have := hrecv i
              rw [if_pos rfl] at this
              refine Eq.trans this ?_
              rw [q3, ← view_append, next_token hW hW64 htok (by rw [← hS]; exact hAB)]

theorem SubInv.begin {req : SubRequest} {cap : Nat} {n : SubNode} (h : SubInv req n) (j : Nat) : SubInv req (n.exec req cap (.begin j)) := by
  have hp := h.phase
  show SubInv req (n.subscribeTo req j)
  unfold SubNode.subscribeTo
  cases hph : n.phase with
  | stopped => simp only; exact h
  | replay todo token last => simp only; exact h
  | live pos =>
    rw [hph] at hp
    obtain ⟨p1, p2⟩ := hp
    simp only
    split
    · next hc =>
      refine ⟨h.ev, h.out, h.ended, p1, fun i => ?_⟩
      have q := p2 i
      simp only [setAt]
      by_cases hij : i = j
      · subst hij
        rw [hc.2] at q
        obtain ⟨q1, q2, q3⟩ := q
        simp only [if_true]
        refine ⟨hc.1, _, [], rfl, Nat.le_refl _, Nat.le_refl _, by rw [List.append_nil]; exact q3, List.nil_sublist _, fun _ => ?_⟩
        simp [SubRequest.view]
      · simp only [if_neg hij]
        exact q
    · exact h

theorem SubInv.receive {req : SubRequest} {cap : Nat} {n : SubNode} (h : SubInv req n) (j : Nat) : SubInv req (n.exec req cap (.recv j)) := by
  have hp := h.phase
  show SubInv req (n.receive req cap j)
  unfold SubNode.receive
  cases hph : n.phase with
  | stopped => simp only; exact h
  | replay todo token last => simp only; exact h
  | live pos =>
    rw [hph] at hp
    obtain ⟨p1, p2⟩ := hp
    simp only
    cases hpj : pos j with
    | none => exact h
    | some p =>
      have q := p2 j
      rw [hpj] at q
      obtain ⟨q0, b, L, q1, q2, q3, q4, q5, q6⟩ := q
      have hle := sent_le (h.ev j)
      simp only
      split
      · next hlag =>
        refine ⟨h.ev, h.out, h.ended, p1, fun i => ?_⟩
        simp only [setAt]
        by_cases hij : i = j
        · subst hij
          simp only [if_true]
          refine ⟨q0, b, L, q1, by omega, by omega, q4, ?_, fun hf => by cases hf⟩
          refine q5.trans ?_
          unfold SubRequest.view
          refine List.Sublist.map _ (List.Sublist.filter _ ?_)
          exact (List.take_prefix_take_left (by omega)).sublist
        · simp only [if_neg hij]
          exact p2 i
      · cases hg : (n.shards j).sent[p]? with
        | none => exact h
        | some e =>
          obtain ⟨hlt, hge⟩ := List.getElem?_eq_some_iff.1 hg
          have hpW : p < (n.shards j).written.length := by omega
          have hund : (n.shards j).written[p].undated = e.undated := by
            have := congrArg (fun l => l[p]?) (h.ev j).sent
            simp only [List.getElem?_map, List.getElem?_append_left hlt, hg, List.getElem?_eq_getElem hpW, Option.map_some, Option.some.injEq] at this
            exact this.symm
          have hview : req.view j (((n.shards j).written.drop b).take (p + 1 - b)) =
              req.view j (((n.shards j).written.drop b).take (p - b)) ++ (if req.wants e then [e.reported j] else []) := by
            have h1 : p + 1 - b = (p - b) + 1 := by omega
            rw [h1, List.take_succ, view_append]
            congr 1
            have h2 : ((n.shards j).written.drop b)[p - b]? = some (n.shards j).written[p] := by
              rw [List.getElem?_drop, show b + (p - b) = p by omega, List.getElem?_eq_getElem hpW]
            rw [h2]
            simp only [Option.toList_some]
            rw [view_undated req j (a := [(n.shards j).written[p]]) (b := [e]) (by simp [hund])]
            unfold SubRequest.view SubRequest.wants
            rw [List.filter_cons]
            split <;> simp
          have hrecv : ∀ i, SubNode.received { n with out := n.out ++ (if req.wants e then [rewriteEvent e j none] else []) } i =
              n.received i ++ if i = j then (if req.wants e then [e.reported j] else []) else [] := by
            intro i
            rw [received_append, filter_shard_all (i := j) (fun d hd => by
              split at hd
              · simp at hd; rw [hd]; rfl
              · cases hd) i]
            congr 1
            split
            · split
              · simp [rewrite_undated]
              · rfl
            · rfl
          refine ⟨h.ev, ?_, h.ended, p1, fun i => ?_⟩
          · intro d hd
            rcases List.mem_append.1 hd with hd | hd
            · exact h.out d hd
            · split at hd
              · next hw =>
                simp only [List.mem_singleton] at hd
                subst hd
                refine ⟨of_decide_eq_true hw, q0, .inr ⟨e, ?_, rfl, rfl⟩⟩
                exact List.mem_append.2 (.inl (List.mem_of_getElem? hg))
              · cases hd
          · simp only [setAt]
            have hr := hrecv i
            by_cases hij : i = j
            · subst hij
              rw [if_pos rfl] at hr
              simp only [if_true]
              refine ⟨q0, b, L ++ (if req.wants e then [e.reported i] else []), q1, by omega, by omega, ?_, ?_, ?_⟩
              · refine Eq.trans hr ?_
                rw [q4, List.append_assoc]
                rfl
              · rw [hview]; exact List.Sublist.append q5 (List.Sublist.refl _)
              · intro hl; rw [hview, q6 hl]
            · simp only [if_neg hij, List.append_nil] at hr ⊢
              have q := p2 i
              have hr' : SubNode.received { shards := n.shards, phase := SubPhase.live (setAt pos j (some (p + 1))), out := n.out ++ (if req.wants e then [rewriteEvent e j none] else []), ended := n.ended, begun := n.begun, lagged := n.lagged } i = n.received i := hr
              cases hpi : pos i with
              | none =>
                rw [hpi] at q
                exact ⟨q.1, q.2.1, Eq.trans hr q.2.2⟩
              | some p' =>
                rw [hpi] at q
                obtain ⟨a0, b', L', a1, a2, a3, a4, a5⟩ := q
                exact ⟨a0, b', L', a1, a2, a3, Eq.trans hr a4, a5⟩

theorem SubInv.exec {req : SubRequest} {cap : Nat} {n : SubNode} (hf : req.fromId.getD 0 < 2 ^ 64) (h : SubInv req n) (s : SubStep)
    (ho : n.Orderly s) : SubInv req (n.exec req cap s) := by
  cases s with
  | node j c => exact h.node j c ho
  | page => exact h.page hf
  | begin j => exact h.begin j
  | recv j => exact h.receive j

theorem SubInv.run {req : SubRequest} {cap : Nat} (hf : req.fromId.getD 0 < 2 ^ 64) (steps : List SubStep) : ∀ {n : SubNode},
    SubInv req n → n.OrderlyRun req cap steps → SubInv req (n.run req cap steps) := by
  induction steps with
  | nil => intro n h _; exact h
  | cons s steps ih => intro n h ho; exact ih (h.exec hf s ho.1) ho.2

/-! ### Consequences -/

theorem OrderlyRun.append {req : SubRequest} {cap : Nat} (a b : List SubStep) : ∀ {n : SubNode},
    n.OrderlyRun req cap (a ++ b) → n.OrderlyRun req cap a ∧ (n.run req cap a).OrderlyRun req cap b := by
  induction a with
  | nil => intro n h; exact ⟨trivial, h⟩
  | cons s a ih => intro n h; exact ⟨⟨h.1, (ih h.2).1⟩, (ih h.2).2⟩

theorem subRun_append (req : SubRequest) (cap : Nat) (n : SubNode) (a b : List SubStep) :
    n.run req cap (a ++ b) = (n.run req cap a).run req cap b := by
  simp [SubNode.run, List.foldl_append]

theorem take_filter_prefix {req : SubRequest} {n : SubNode} (i : Nat) : n.readPart req i <+: (n.shards i).written.filter
    (fun e => decide (req.fromId.getD 0 ≤ e.id)) := (List.take_prefix _ _).filter _

theorem view_prefix (req : SubRequest) (i : Nat) {a b : List HEvent} (h : a <+: b) : req.view i a <+: req.view i b :=
  (h.filter _).map _

/-- What has been read is the first part of what there is to read. -/
theorem SubInv.reading {req : SubRequest} {n : SubNode} (h : SubInv req n) (i : Nat) (hp : n.position i = none) :
    n.received i <+: req.view i ((n.shards i).written.filter (fun e => decide (req.fromId.getD 0 ≤ e.id))) := by
  have hph := h.phase
  unfold SubNode.position at hp
  cases hc : n.phase with
  | stopped => rw [hc] at hph; exact hph.elim
  | live pos =>
    rw [hc] at hph hp
    have := hph.2 i
    simp only at hp
    rw [hp] at this
    rw [this.2.2]
    exact view_prefix req i (take_filter_prefix i)
  | replay todo token last =>
    rw [hc] at hph
    obtain ⟨p1, p2, p3, p4, p5, p6⟩ := hph
    by_cases hh : ∃ rest, todo = i :: rest
    · obtain ⟨rest, hr⟩ := hh
      obtain ⟨q1, q2, q3⟩ := p6 i rest hr
      rw [q3]
      apply view_prefix
      have := split_token (X := (n.shards i).written.filter (fun e => decide (req.fromId.getD 0 ≤ e.id)))
        ((h.ev i).asc.sublist List.filter_sublist) (fun e he => (h.ev i).lt e (List.mem_filter.1 he).1) (t := token) (by
          intro k hk
          obtain ⟨e, he, hke, _⟩ := q1 k hk
          exact ⟨e.id, (h.ev i).lt e he, hke⟩)
      exact ⟨_, this⟩
    · rw [p5 i (fun rest hr => hh ⟨rest, hr⟩)]
      exact view_prefix req i (take_filter_prefix i)

theorem SubInv.reads_all {req : SubRequest} {n : SubNode} (h : SubInv req n) (i : Nat) (hp : n.position i = none) {r : Nat}
    (he : n.ended i = some r) : n.received i = req.view i (n.readPart req i) := by
  have hph := h.phase
  unfold SubNode.position at hp
  cases hc : n.phase with
  | stopped => rw [hc] at hph; exact hph.elim
  | live pos =>
    rw [hc] at hph hp
    have := hph.2 i
    simp only at hp
    rw [hp] at this
    exact this.2.2
  | replay todo token last =>
    rw [hc] at hph
    obtain ⟨p1, p2, p3, p4, p5, p6⟩ := hph
    apply p5
    rintro rest rfl
    have := (p2 i (by simp)).2
    rw [he] at this
    cases this

theorem SubInv.following {req : SubRequest} {n : SubNode} (h : SubInv req n) {i p : Nat} (hp : n.position i = some p) :
    i ∈ req.shards ∧ ∃ b L, n.begun i = some b ∧ b ≤ p ∧ p ≤ (n.shards i).sent.length ∧
      n.received i = req.view i (n.readPart req i) ++ L ∧
      List.Sublist L (req.view i (((n.shards i).written.drop b).take (p - b))) ∧
      (n.lagged i = false → L = req.view i (((n.shards i).written.drop b).take (p - b))) := by
  have hph := h.phase
  unfold SubNode.position at hp
  cases hc : n.phase with
  | stopped => rw [hc] at hph; exact hph.elim
  | replay todo token last => rw [hc] at hp; simp at hp
  | live pos =>
    rw [hc] at hph hp
    have := hph.2 i
    simp only at hp
    rw [hp] at this
    exact this

theorem SubInv.ended_stays {req : SubRequest} {cap : Nat} {n : SubNode} (h : SubInv req n) (s : SubStep) {i r : Nat}
    (he : n.ended i = some r) : (n.exec req cap s).ended i = some r := by
  cases s with
  | node j c => exact he
  | begin j =>
    show (n.subscribeTo req j).ended i = some r
    unfold SubNode.subscribeTo
    split
    · split <;> exact he
    · exact he
  | recv j =>
    show (n.receive req cap j).ended i = some r
    unfold SubNode.receive
    split
    · split
      · exact he
      · simp only
        split
        · exact he
        · split <;> exact he
    · exact he
  | page =>
    have hph := h.phase
    show (n.readPage req).ended i = some r
    unfold SubNode.readPage
    split
    · exact he
    · next j rest token last hc =>
      rw [hc] at hph
      obtain ⟨_, p2, _⟩ := hph
      split
      · exact he
      · next p last' _ =>
        cases p.nextPageToken with
        | some _ => exact he
        | none =>
          simp only [setAt]
          split
          · next hij => rw [hij, (p2 j (by simp)).2] at he; cases he
          · exact he
    · exact he

theorem SubInv.begun_stays {req : SubRequest} {cap : Nat} {n : SubNode} (h : SubInv req n) (s : SubStep) {i b : Nat}
    (hb : n.begun i = some b) : (n.exec req cap s).begun i = some b := by
  cases s with
  | node j c => exact hb
  | begin j =>
    have hph := h.phase
    show (n.subscribeTo req j).begun i = some b
    unfold SubNode.subscribeTo
    split
    · next pos hc =>
      rw [hc] at hph
      split
      · next hcond =>
        simp only [setAt]
        split
        · next hij =>
          have := hph.2 j
          rw [hcond.2] at this
          rw [hij, this.1] at hb
          cases hb
        · exact hb
      · exact hb
    · exact hb
  | recv j =>
    show (n.receive req cap j).begun i = some b
    unfold SubNode.receive
    split
    · split
      · exact hb
      · simp only
        split
        · exact hb
        · split <;> exact hb
    · exact hb
  | page =>
    show (n.readPage req).begun i = some b
    unfold SubNode.readPage
    split
    · exact hb
    · split <;> exact hb
    · exact hb

theorem SubInv.stays {req : SubRequest} {cap : Nat} (hf : req.fromId.getD 0 < 2 ^ 64) {i r b : Nat} (steps : List SubStep) : ∀ {n : SubNode},
    SubInv req n → n.OrderlyRun req cap steps → n.ended i = some r → n.begun i = some b →
    (n.run req cap steps).ended i = some r ∧ (n.run req cap steps).begun i = some b := by
  induction steps with
  | nil => intro n _ _ h1 h2; exact ⟨h1, h2⟩
  | cons s steps ih => intro n h ho h1 h2; exact ih (h.exec hf s ho.1) ho.2 (h.ended_stays s h1) (h.begun_stays s h2)

theorem exec_shard {req : SubRequest} {cap : Nat} (n : SubNode) (s : SubStep) (i : Nat) (hs : ∀ c, s ≠ .node i c) :
    (n.exec req cap s).shards i = n.shards i := by
  cases s with
  | node j c =>
    simp only [SubNode.exec, setAt]
    rw [if_neg]
    rintro rfl
    exact hs c rfl
  | begin j =>
    show (n.subscribeTo req j).shards i = _
    unfold SubNode.subscribeTo
    split
    · split <;> rfl
    · rfl
  | recv j =>
    show (n.receive req cap j).shards i = _
    unfold SubNode.receive
    split
    · split
      · rfl
      · simp only
        split
        · rfl
        · split <;> rfl
    · rfl
  | page =>
    show (n.readPage req).shards i = _
    unfold SubNode.readPage
    split
    · rfl
    · split <;> rfl
    · rfl

theorem exec_begun {req : SubRequest} {cap : Nat} (n : SubNode) (s : SubStep) (i : Nat) (hb : n.begun i = none) :
    (n.exec req cap s).begun i = none ∨ (n.exec req cap s).begun i = some (n.shards i).sent.length := by
  cases s with
  | node j c => exact .inl hb
  | begin j =>
    show (n.subscribeTo req j).begun i = none ∨ (n.subscribeTo req j).begun i = _
    unfold SubNode.subscribeTo
    split
    · split
      · simp only [setAt]
        split
        · next hij => subst hij; exact .inr rfl
        · exact .inl hb
      · exact .inl hb
    · exact .inl hb
  | recv j =>
    left
    show (n.receive req cap j).begun i = _
    unfold SubNode.receive
    split
    · split
      · exact hb
      · simp only
        split
        · exact hb
        · split <;> exact hb
    · exact hb
  | page =>
    left
    show (n.readPage req).begun i = _
    unfold SubNode.readPage
    split
    · exact hb
    · split <;> exact hb
    · exact hb

/-- If the shard does nothing, the subscription starts where the shard is. -/
theorem SubInv.quiet {req : SubRequest} {cap : Nat} (hf : req.fromId.getD 0 < 2 ^ 64) {i : Nat} (steps : List SubStep) : ∀ {n : SubNode},
    SubInv req n → n.OrderlyRun req cap steps → (∀ c, SubStep.node i c ∉ steps) →
    (n.begun i = none ∨ n.begun i = some (n.shards i).sent.length) →
    ((n.run req cap steps).shards i = n.shards i) ∧
    ((n.run req cap steps).begun i = none ∨ (n.run req cap steps).begun i = some (n.shards i).sent.length) := by
  induction steps with
  | nil => intro n _ _ _ h; exact ⟨rfl, h⟩
  | cons s steps ih =>
    intro n h ho hs hb
    have hsh := exec_shard (req := req) (cap := cap) n s i (fun c hc => hs c (by simp [hc]))
    have := ih (h.exec hf s ho.1) ho.2 (fun c hc => hs c (by simp [hc])) (by
      rw [hsh]
      rcases hb with hb | hb
      · exact exec_begun n s i hb
      · exact .inr (h.begun_stays s hb))
    rw [hsh] at this
    exact this

/-- Everything received is of an event written by the shard. -/
theorem SubInv.genuine {req : SubRequest} {n : SubNode} (h : SubInv req n) (i : Nat) {d : HEvent} (hd : d ∈ n.received i) :
    ∃ e ∈ (n.shards i).written, d = e.reported i := by
  have key : ∀ l : List HEvent, (∀ e ∈ l, e ∈ (n.shards i).written) → d ∈ req.view i l → ∃ e ∈ (n.shards i).written, d = e.reported i := by
    intro l hl hd
    obtain ⟨e, he, rfl⟩ := List.mem_map.1 hd
    exact ⟨e, hl e (List.mem_filter.1 he).1, rfl⟩
  cases hp : n.position i with
  | none => exact key _ (fun e he => (List.mem_filter.1 he).1) ((h.reading i hp).subset hd)
  | some p =>
    obtain ⟨_, b, L, q1, q2, q3, q4, q5, _⟩ := h.following hp
    rw [q4] at hd
    rcases List.mem_append.1 hd with hd | hd
    · exact key _ (fun e he => List.mem_of_mem_take (List.mem_filter.1 he).1) hd
    · exact key _ (fun e he => List.mem_of_mem_drop (List.mem_of_mem_take he)) (q5.subset hd)

/-- What a shard sends is dated by the commit that wrote it. -/
theorem sends_dated {req : SubRequest} {cap : Nat} (steps : List SubStep) : ∀ (n : SubNode) (i : Nat),
    ∀ x ∈ ((n.run req cap steps).shards i).sent ++ ((n.run req cap steps).shards i).queue,
      x ∈ (n.shards i).sent ++ (n.shards i).queue ∨ ∃ h ts es, SubStep.node i (.write h ts es) ∈ steps ∧ x.ts = ts ∧ ∃ e ∈ es, e.id = x.id := by
  induction steps with
  | nil => intro n i x hx; exact .inl hx
  | cons s steps ih =>
    intro n i x hx
    rcases ih (n.exec req cap s) i x hx with hx | ⟨h, ts, es, h1, h2⟩
    · by_cases hs : ∃ c, s = .node i c
      · obtain ⟨c, rfl⟩ := hs
        have hsh : (n.exec req cap (.node i c)).shards i = (n.shards i).step c := by simp [SubNode.exec, setAt]
        rw [hsh] at hx
        cases c with
        | write h ts es =>
          simp only [EvShard.step] at hx
          split at hx
          · next hidle =>
            simp only at hx
            rcases List.mem_append.1 hx with hx | hx
            · exact .inl (List.mem_append.2 (.inl hx))
            · obtain ⟨e, he, rfl⟩ := List.mem_map.1 hx
              exact .inr ⟨h, ts, es, by simp, rfl, e, he, rfl⟩
          · exact .inl hx
        | send =>
          simp only [EvShard.step] at hx
          split at hx
          · exact .inl hx
          · next e q hq => left; rw [hq]; simpa using hx
        | chunk =>
          simp only [EvShard.step] at hx
          split at hx <;> exact .inl hx
        | forget k => exact .inl hx
      · rw [exec_shard n s i (fun c hc => hs ⟨c, hc⟩)] at hx
        exact .inl hx
    · exact .inr ⟨h, ts, es, by simp [h1], h2⟩

/-- Without a first id nothing is read. -/
theorem run_noRead {req : SubRequest} {cap : Nat} (steps : List SubStep) : ∀ (n : SubNode),
    ((∀ i, n.ended i = none) ∧ ∃ pos, n.phase = .live pos) →
    (∀ i, (n.run req cap steps).ended i = none) ∧ ∃ pos, (n.run req cap steps).phase = .live pos := by
  induction steps with
  | nil => intro n h; exact h
  | cons s steps ih =>
    intro n h
    apply ih
    obtain ⟨h1, pos, h2⟩ := h
    cases s with
    | node j c => exact ⟨h1, pos, h2⟩
    | page =>
      have : n.readPage req = n := by unfold SubNode.readPage; rw [h2]
      show (∀ i, (n.readPage req).ended i = none) ∧ ∃ pos, (n.readPage req).phase = .live pos
      rw [this]; exact ⟨h1, pos, h2⟩
    | begin j =>
      show (∀ i, (n.subscribeTo req j).ended i = none) ∧ ∃ pos, (n.subscribeTo req j).phase = .live pos
      unfold SubNode.subscribeTo
      rw [h2]
      simp only
      split
      · exact ⟨h1, _, rfl⟩
      · exact ⟨h1, pos, h2⟩
    | recv j =>
      show (∀ i, (n.receive req cap j).ended i = none) ∧ ∃ pos, (n.receive req cap j).phase = .live pos
      unfold SubNode.receive
      rw [h2]
      simp only
      split
      · exact ⟨h1, pos, h2⟩
      · split
        · exact ⟨h1, _, rfl⟩
        · split
          · exact ⟨h1, pos, h2⟩
          · exact ⟨h1, _, rfl⟩

theorem fillIn_exact (chunks : Nat → Option Nat) (i : Nat) (es : List HEvent) (hz : ∀ e ∈ es, e.ts = 0) : ∀ last,
    (∀ b ts, last = some (b, ts) → chunks b = some ts) → ∀ d ∈ (fillIn chunks i last es).1, d.ts = (chunks (d.id / 2 ^ 14)).getD 0 := by
  induction es with
  | nil => intro last _ d hd; cases hd
  | cons e es ih =>
    intro last hl d hd
    simp only [fillIn] at hd
    have hnew : (chunkFor chunks (IdGen.extract e.id).1 last).map (·.2) = chunks (e.id / 2 ^ 14) ∧
        ∀ b ts, chunkFor chunks (IdGen.extract e.id).1 last = some (b, ts) → chunks b = some ts := by
      rw [extract_block]
      have hst : ((match chunks (e.id / 2 ^ 14) with | some ts => some (e.id / 2 ^ 14, ts) | none => none) : Option (Nat × Nat)).map (·.2) =
          chunks (e.id / 2 ^ 14) ∧ ∀ b ts, (match chunks (e.id / 2 ^ 14) with | some ts => some (e.id / 2 ^ 14, ts) | none => none) = some (b, ts) →
            chunks b = some ts := by
        cases hc : chunks (e.id / 2 ^ 14) with
        | none => exact ⟨rfl, fun _ _ h => by cases h⟩
        | some ts => exact ⟨rfl, fun b t h => by cases h; exact hc⟩
      unfold chunkFor
      cases last with
      | none => exact hst
      | some nt =>
        obtain ⟨m, t⟩ := nt
        simp only
        split
        · exact hst
        · next hn =>
          have hm : e.id / 2 ^ 14 = m := Decidable.not_not.1 hn
          refine ⟨?_, hl⟩
          rw [hm, hl m t rfl]; rfl
    rcases List.mem_cons.1 hd with rfl | hd
    · show Option.getD _ e.ts = (chunks (e.id / 2 ^ 14)).getD 0
      rw [hnew.1, hz e (by simp)]
    · exact ih (fun x hx => hz x (by simp [hx])) _ hnew.2 d hd

theorem getEvents_mem {log : Db HEvent} {start : Nat} {stop : Option Nat} {po : PageOptions} {q : MessagesPage HEvent}
    (h : getEvents some log start stop po = .ok q) : ∀ e ∈ q.messages, ∃ r ∈ log.rows, some e = some r.2 := by
  rw [getEvents_eq] at h
  unfold rangePage at h
  generalize hrows : scanRows log (iterBounds (some (eventKey start)) (some (eventStop stop)) po).1
    (iterBounds (some (eventKey start)) (some (eventStop stop)) po).2 po.reverse = rows at h
  have hsub : ∀ r ∈ rows, r ∈ log.rows := by
    intro r hr
    rw [← hrows] at hr
    unfold scanRows at hr
    simp only at hr
    split at hr
    · exact (List.mem_filter.1 (List.mem_reverse.1 hr)).1
    · exact (List.mem_filter.1 hr).1
  have hfm : ∀ l : List (Bytes × HEvent), ∀ e ∈ l.filterMap (fun r => some r.2), ∃ r ∈ l, some e = some r.2 := by
    intro l e he
    obtain ⟨r, hr, hre⟩ := List.mem_filterMap.1 he
    exact ⟨r, hr, hre.symm⟩
  rcases page_split (V := HEvent) (M := HEvent) some (fun _ => true) (po.pageSize.getD 1000) rows
    (fun r _ => rfl) [] [] 0 with ⟨A, k, v, B, e1, e2⟩ | e
  · rw [e2] at h
    simp only [Except.ok.injEq] at h
    intro x hx
    rw [← h] at hx
    simp at hx
    rcases hx with ⟨a, hx⟩ | hx
    · exact ⟨(a, x), hsub _ (by rw [e1]; simp [hx]), rfl⟩
    · exact ⟨(k, v), hsub _ (by rw [e1]; simp), by rw [hx]⟩
  · rw [e] at h
    simp only [Except.ok.injEq] at h
    intro x hx
    rw [← h] at hx
    simp at hx
    obtain ⟨a, hx⟩ := hx
    exact ⟨(a, x), hsub _ hx, rfl⟩

end Verif
