import Verif.Lemmas.NameFeed
import Verif.Lemmas.ValidateNames
/-! C82: reading the registry of names. -/
namespace Verif
open NameFeed

/-- **C82.** With a configured start, no entry up to the stored id is passed over, whatever pages the server makes of
the registry and whenever requests fail or the process stops: each was handed to the mempool, unless malformed. -/
theorem C82_nothing_passed_over (cfg : Config) (start : Nat) (hcfg : cfg.startFrom = some start) (reg : List Entry)
    (hr : RegistryOK reg) (hpos : ∀ t ∈ reg, 0 < t.id) (serve : Nat → List Entry) (hserve : HonestServer reg serve)
    (ops : List Op) (hops : HonestRun reg ops) (t : Entry) (ht : t ∈ reg) (hs : start < t.id)
    (hb : t.id ≤ (Node.run cfg { serve := serve } ops).stored) (w : WTransfer) (hw : parse t = some w) :
    (t.id, w) ∈ (Node.run cfg { serve := serve } ops).handed :=
  (inv_run hr hcfg ops (inv_new hpos hserve) hops).stored t ht hs hb w hw

/-- **C82.** Nothing is made up: what is handed over carries the fields of an entry of the registry, the
hexadecimal ones decoded. -/
theorem C82_only_entries (cfg : Config) (start : Nat) (hcfg : cfg.startFrom = some start) (reg : List Entry)
    (hr : RegistryOK reg) (hpos : ∀ t ∈ reg, 0 < t.id) (serve : Nat → List Entry) (hserve : HonestServer reg serve)
    (ops : List Op) (hops : HonestRun reg ops) (id : Nat) (w : WTransfer)
    (h : (id, w) ∈ (Node.run cfg { serve := serve } ops).handed) :
    ∃ t ∈ reg, t.id = id ∧ w.name = t.username ∧ w.fid = t.to ∧ w.fromFid = t.from_ ∧ w.ts = t.timestamp ∧ w.ty = 1 ∧
      (∃ o, t.owner = hexPrefix ++ o ∧ o ≠ [] ∧ hexDecode o = some w.owner) ∧
      (∃ o, t.serverSignature = hexPrefix ++ o ∧ o ≠ [] ∧ hexDecode o = some w.signature) := by
  obtain ⟨t, ht, he, hp⟩ := (inv_run hr hcfg ops (inv_new hpos hserve) hops).only _ h
  have field : ∀ {s v : Bytes}, hexField s = some v → ∃ o, s = hexPrefix ++ o ∧ o ≠ [] ∧ hexDecode o = some v := by
    intro s v hv
    unfold hexField at hv
    split at hv
    · simp at hv
    · rename_i hc
      have h1 : s.take 2 = hexPrefix := Classical.not_not.1 (fun hn => hc (.inl hn))
      have h2 : 2 < s.length := Nat.lt_of_not_le (fun hn => hc (.inr hn))
      refine ⟨s.drop 2, by rw [← h1, List.take_append_drop], ?_, hv⟩
      intro h0
      have := congrArg List.length h0
      rw [List.length_drop] at this
      simp at this; omega
  unfold parse at hp
  split at hp
  · rename_i o sig ho hsig
    simp only [Option.some.injEq] at hp
    subst hp
    exact ⟨t, ht, he, rfl, rfl, rfl, rfl, rfl, field ho, field hsig⟩
  · simp at hp

/-- **C82.** An entry is not malformed when its owner and signature are bytes written in hexadecimal digits of either
case after `0x`; then exactly these bytes are handed over. -/
theorem C82_well_formed (id ts fid to : Nat) (name owner signature : Bytes) (ho : owner ≠ []) (hs : signature ≠ [])
    (ns ms : List Nat) :
    parse ⟨id, ts, name, hexPrefix ++ caseBy (hexEncode owner) ns, fid, to, hexPrefix ++ caseBy (hexEncode signature) ms⟩ =
      some { fromFid := fid, name := name, ts := ts, owner := owner, signature := signature, fid := to, ty := 1 } := by
  have field : ∀ (b : Bytes) (ns : List Nat), b ≠ [] → hexField (hexPrefix ++ caseBy (hexEncode b) ns) = some b := by
    intro b ns hb
    have hd := hexDecode_caseBy b ns
    unfold hexField
    rw [if_neg]
    · exact hd
    · rintro (h | h)
      · exact h rfl
      · have : caseBy (hexEncode b) ns = [] := by
          apply List.eq_nil_of_length_eq_zero
          rw [List.length_append] at h
          have : hexPrefix.length = 2 := rfl
          omega
        rw [this] at hd
        simp only [hexDecode, Option.some.injEq] at hd
        exact hb hd.symm
  unfold parse
  rw [field owner ns ho, field signature ms hs]

/-- **C82.** Whatever the server answers, ids only go up between two starts of the process: nothing is handed over
twice, nothing at or below the start or the stored id, nothing at or past the configured end. -/
theorem C82_ids_go_up (cfg : Config) (start : Nat) (hcfg : cfg.startFrom = some start) (s : Node) (ops : List Op)
    (hops : ∀ o ∈ ops, match o with | .retry _ => False | .restart => False | _ => True) :
    ∃ new, (s.run cfg (.restart :: .step :: ops)).handed = s.handed ++ new ∧ new.Pairwise (fun a b => a.1 < b.1) ∧
      ∀ x ∈ new, start < x.1 ∧ s.stored < x.1 ∧ ∀ stop, cfg.stopAt = some stop → x.1 < stop := by
  have h0 : Rising cfg (max start s.stored) s.handed ((s.exec cfg .restart).exec cfg .step) := by
    simp only [Node.exec, Node.step, hcfg]
    exact ⟨⟨[], by simp, by simp, by simp⟩, Nat.le_refl _, by simp⟩
  obtain ⟨⟨new, n1, n2, n3⟩, -, -⟩ := rising_run ops h0 hops
  refine ⟨new, n1, n2, fun x hx => ?_⟩
  obtain ⟨a, -, c⟩ := n3 x hx
  refine ⟨by omega, by omega, ?_⟩
  intro stop hstop
  simp only [Config.stops, hstop, ge_iff_le, decide_eq_false_iff_not] at c
  omega

/-- **C82.** Whatever the server answers, the stored id never goes back. -/
theorem C82_stored_never_goes_back (cfg : Config) (start : Nat) (hcfg : cfg.startFrom = some start)
    (serve : Nat → List Entry) (ops more : List Op) :
    (Node.run cfg { serve := serve } ops).stored ≤ (Node.run cfg { serve := serve } (ops ++ more)).stored := by
  have h0 : Behind { serve := serve } := trivial
  have h1 := behind_run hcfg ops h0
  have := (behind_run hcfg more h1.1).2
  simp only [Node.run, List.foldl_append] at this ⊢
  exact this

/-- **C82.** Catching up: after any history, a restarted node that is left alone with an honest server hands over
every entry between the start and the configured end, malformed ones excepted, in at most three steps per entry. -/
theorem C82_catches_up (cfg : Config) (start : Nat) (hcfg : cfg.startFrom = some start) (reg : List Entry)
    (hr : RegistryOK reg) (hpos : ∀ t ∈ reg, 0 < t.id) (serve : Nat → List Entry) (hserve : HonestServer reg serve)
    (ops : List Op) (hops : HonestRun reg ops) (serve' : Nat → List Entry) (current : Nat)
    (hserve' : CompleteServer reg serve') (n : Nat) (hn : 3 * reg.length + 1 ≤ n) (t : Entry) (ht : t ∈ reg)
    (hs : start < t.id) (he : ∀ stop, cfg.stopAt = some stop → t.id < stop) (w : WTransfer) (hw : parse t = some w) :
    (t.id, w) ∈ (Node.run cfg { serve := serve }
      (ops ++ .server serve' current :: .restart :: List.replicate n .step)).handed := by
  have h := inv_run hr hcfg (ops ++ [.server serve' current, .restart]) (inv_new (start := start) hpos hserve) (by
    intro o ho
    rcases List.mem_append.1 ho with ho | ho
    · exact hops o ho
    · simp only [List.mem_cons, List.not_mem_nil, or_false] at ho
      rcases ho with rfl | rfl
      · exact hserve'.1
      · trivial)
  have e : Node.run cfg { serve := serve } (ops ++ .server serve' current :: .restart :: List.replicate n .step) =
      (Node.run cfg { serve := serve } (ops ++ [.server serve' current, .restart])).run cfg (List.replicate n .step) := by
    simp [Node.run, List.foldl_append]
  have hpc : (Node.run cfg { serve := serve } (ops ++ [.server serve' current, .restart])).pc = .boot := by
    simp [Node.run, List.foldl_append, Node.exec]
  have hsv : (Node.run cfg { serve := serve } (ops ++ [.server serve' current, .restart])).serve = serve' := by
    simp [Node.run, List.foldl_append, Node.exec]
  rw [e]
  refine catches_up hr hcfg n h (by rw [hsv]; exact hserve') (by rw [hpc]; simp) ?_ t ht hs ?_ w hw
  · unfold NameFeed.measure; rw [hpc]; exact hn
  · unfold Config.stops
    split
    · rfl
    · rename_i stop hstop
      have := he stop hstop
      simp; omega

/-! ### Non-vacuity -/

def entry82 (id : Nat) : Entry := ⟨id, 1700000000 + id, [97], hexPrefix ++ [97, 98], 0, id, hexPrefix ++ [48, 49]⟩
/-- An owner without `0x`. -/
def bad82 (id : Nat) : Entry := { entry82 id with owner := [97, 98] }
def reg82 : List Entry := [entry82 3, entry82 5, bad82 6, entry82 8, entry82 9]
/-- Pages of at most two. -/
def serve82 (p : Nat) : List Entry := (reg82.filter (fun t => decide (p < t.id))).take 2
/-- What is published before the last two. -/
def early82 (p : Nat) : List Entry := ([entry82 3, entry82 5, bad82 6].filter (fun t => decide (p < t.id))).take 2
def cfg82 : Config := ⟨some 3, none⟩
/-- The process stops in its second page. -/
def ops82 : List Op := .restart :: List.replicate 6 .step ++ [.server serve82 0, .requestFails, .step, .step, .restart] ++
  List.replicate 9 .step
def w82 (id : Nat) : Nat × WTransfer := (id, ⟨0, [97], 1700000000 + id, [171], [1], id, 1⟩)

theorem registry82 : RegistryOK reg82 ∧ ∀ t ∈ reg82, 0 < t.id := ⟨by unfold RegistryOK; decide, by decide⟩

theorem complete82 : CompleteServer reg82 serve82 := by
  refine ⟨fun p => List.take_prefix _ _, ?_⟩
  rintro p ⟨t, ht, hp⟩ h
  have : reg82.filter (fun t => decide (p < t.id)) = [] := by
    by_cases hf : reg82.filter (fun t => decide (p < t.id)) = []
    · exact hf
    · exact absurd (List.take_eq_nil_iff.1 h) (by simp [hf])
  have hm : t ∈ reg82.filter (fun t => decide (p < t.id)) := List.mem_filter.2 ⟨ht, by simpa using hp⟩
  rw [this] at hm; simp at hm

theorem early82_honest : HonestServer reg82 early82 := by
  intro p
  refine List.IsPrefix.trans (List.take_prefix _ _) ?_
  refine ⟨[entry82 8, entry82 9].filter (fun t => decide (p < t.id)), ?_⟩
  rw [← List.filter_append]; rfl

example : HonestRun reg82 ops82 := by
  intro o ho
  simp only [ops82, List.mem_append, List.mem_cons, List.mem_replicate, List.not_mem_nil, or_false] at ho
  rcases ho with ((rfl | ⟨-, rfl⟩) | rfl | rfl | rfl | rfl | rfl) | ⟨-, rfl⟩
  all_goals first | trivial | exact complete82.1

example : (Node.run cfg82 { serve := early82 } ops82).stored = 9 ∧
    (Node.run cfg82 { serve := early82 } ops82).handed = [w82 5, w82 8, w82 8, w82 9] := by decide +kernel

/-! ### Where the code falls short -/

/-- Without a configured start (the default) a restarted node begins at the newest entry: what was published while
it was down is never handed over, although an id was stored. -/
theorem C82_default_start_skips :
    let s := Node.run ⟨none, none⟩ { serve := early82, current := 3 } (.restart :: List.replicate 8 .step)
    s.stored = 6 ∧ s.handed = [w82 5] ∧
    ∀ n, (s.run ⟨none, none⟩ (.server serve82 9 :: .restart :: List.replicate n .step)).handed = [w82 5] := by
  refine ⟨by decide +kernel, by decide +kernel, ?_⟩
  intro n
  have hfix : ∀ (n : Nat) (s : Node), s.pc = .ask → s.serve s.position = [] → s.run ⟨none, none⟩ (List.replicate n .step) = s := by
    intro n
    induction n with
    | zero => intro s _ _; rfl
    | succ n ih =>
      intro s h1 h2
      have e : s.exec ⟨none, none⟩ .step = s := by simp only [Node.exec, Node.step, h1, h2, if_true]
      show (s.exec ⟨none, none⟩ .step).run _ _ = s
      rw [e]; exact ih s h1 h2
  rcases n with _ | n
  · decide +kernel
  · rw [List.replicate_succ]
    show ((Node.run ⟨none, none⟩ { serve := early82, current := 3 } (.restart :: List.replicate 8 .step ++
      [.server serve82 9, .restart, .step])).run ⟨none, none⟩ (List.replicate n .step)).handed = [w82 5]
    rw [hfix n _ (by decide +kernel) (by decide +kernel)]
    decide +kernel

/-- A failed first request leaves the position at 0 when no start is configured: the whole registry is read again. -/
theorem C82_failed_first_request_rereads :
    (Node.run ⟨none, none⟩ { serve := serve82, current := 9 } (.restart :: .requestFails :: List.replicate 15 .step)).handed =
      [w82 3, w82 5, w82 8, w82 9] := by decide +kernel

end Verif
