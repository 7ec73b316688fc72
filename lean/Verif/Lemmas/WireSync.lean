import Verif.Lemmas.WireRead
import Verif.Spec.WireSync
/-!
Lemmas for the wire format of catching up.
-/
namespace Verif
namespace Wire

/-- A field with a tag and a number in their ranges. -/
def Shape : Field → Prop
  | (t, .num n) => 1 ≤ t ∧ t < 2 ^ 29 ∧ n < 2 ^ 64
  | (t, .str _) => 1 ≤ t ∧ t < 2 ^ 29
  | (_, .alien) => False

theorem str_le {t : Nat} {b : Bytes} : ∀ {fs : List Field}, (t, WVal.str b) ∈ fs → b.length ≤ (put fs).length
  | f :: fs, h => by
    rw [show put (f :: fs) = putField f ++ put fs from rfl, List.length_append]
    rcases List.mem_cons.1 h with rfl | h
    · simp only [putField, List.length_append]; omega
    · have := str_le h; omega

theorem good_of_shape {fs : List Field} (hs : ∀ f ∈ fs, Shape f) (hl : (put fs).length < 2 ^ 64) : ∀ f ∈ fs, Good f := by
  intro f hf
  have h := hs f hf
  obtain ⟨t, v⟩ := f
  cases v with
  | num n => exact h
  | str b => exact ⟨h.1, h.2, by have := str_le hf; omega⟩
  | alien => exact h

theorem shape_num {t n : Nat} (ht : 1 ≤ t ∧ t < 2 ^ 29) (hn : n < 2 ^ 64) : ∀ f ∈ numField t n, Shape f := by
  intro f hf
  unfold numField at hf
  split at hf
  · cases hf
  · cases List.mem_singleton.1 hf; exact ⟨ht.1, ht.2, hn⟩

theorem shape_str {t : Nat} {b : Bytes} (ht : 1 ≤ t ∧ t < 2 ^ 29) : ∀ f ∈ strField t b, Shape f := by
  intro f hf
  unfold strField at hf
  split at hf
  · cases hf
  · cases List.mem_singleton.1 hf; exact ht

theorem shape_msg {t : Nat} {o : Option (List Field)} (ht : 1 ≤ t ∧ t < 2 ^ 29) : ∀ f ∈ msgField t o, Shape f := by
  intro f hf
  cases o with
  | none => cases hf
  | some fs => cases List.mem_singleton.1 hf; exact ht

theorem shape_map {A : Type} {t : Nat} {g : A → Bytes} (ht : 1 ≤ t ∧ t < 2 ^ 29) (l : List A) :
    ∀ f ∈ l.map (fun a => ((t, .str (g a)) : Field)), Shape f := by
  intro f hf
  obtain ⟨a, _, rfl⟩ := List.mem_map.1 hf
  exact ht

theorem shape_append {a b : List Field} (ha : ∀ f ∈ a, Shape f) (hb : ∀ f ∈ b, Shape f) : ∀ f ∈ a ++ b, Shape f := by
  intro f hf
  rcases List.mem_append.1 hf with h | h
  · exact ha f h
  · exact hb f h

theorem shape_vote (v : PVote) : ∀ f ∈ voteFields v, Shape f :=
  shape_append (shape_append (shape_append (shape_append (shape_num (by omega) (ofInt_lt _)) (shape_msg (by omega)))
    (shape_num (by omega) (ofInt_lt _))) (shape_msg (by omega))) (shape_str (by omega))

theorem shape_sig (s : PSig) : ∀ f ∈ sigFields s, Shape f := shape_append (shape_str (by omega)) (shape_str (by omega))

theorem shape_commits (c : PCommits) : ∀ f ∈ commitsFields c, Shape f :=
  shape_append (shape_append (shape_append (shape_msg (by omega)) (shape_num (by omega) (ofInt_lt _))) (shape_msg (by omega)))
    (shape_map (by omega) _)

theorem shape_value (v : PValue) : ∀ f ∈ valueFields v, Shape f :=
  shape_append (shape_append (shape_msg (by omega)) (shape_str (by omega))) (shape_msg (by omega))

theorem shape_votes (v : PVotes) : ∀ f ∈ votesFields v, Shape f :=
  shape_append (shape_append (shape_append (shape_msg (by omega)) (shape_num (by omega) (ofInt_lt _))) (shape_map (by omega) _))
    (shape_map (by omega) _)

theorem read_sig {limit : Nat} {s : PSig} (hl : (put (sigFields s)).length < 2 ^ 64) :
    readMsg limit sigStep {} (put (sigFields s)) = some s := by
  rw [readMsg_put (good_of_shape (shape_sig s) hl), sigFields, mergeFields_append]
  have e1 : mergeFields sigStep {} (strField 1 s.signer) = some { signer := s.signer } := by
    unfold strField
    split
    · rename_i e; rw [e]; rfl
    · rfl
  rw [e1, Option.bind_some]
  unfold strField
  split
  · rename_i e
    obtain ⟨a, b⟩ := s
    cases e
    rfl
  · rfl

theorem read_sigs {limit : Nat} : ∀ (l : List PSig) (c : PCommits), (∀ s ∈ l, (put (sigFields s)).length < 2 ^ 64) →
    mergeFields (commitsStep limit) c (l.map fun s => (4, .str (put (sigFields s)))) = some { c with sigs := c.sigs ++ l }
  | [], c, _ => by simp [mergeFields]
  | s :: l, c, h => by
    simp only [List.map_cons, mergeFields, commitsStep, read_sig (h s List.mem_cons_self), Option.map_some]
    rw [read_sigs l _ (fun x hx => h x (List.mem_cons_of_mem _ hx))]
    simp

theorem read_commits {limit limit' : Nat} {c : PCommits} (h1 : ∀ h, c.height = some h → FitsHeight h)
    (h2 : -2 ^ 63 ≤ c.round ∧ c.round < 2 ^ 63) (h3 : ∀ h, c.value = some h → FitsHash h)
    (hl : (put (commitsFields c)).length < 2 ^ 64) : readMsg limit (commitsStep limit') {} (put (commitsFields c)) = some c := by
  have h4 : ∀ s ∈ c.sigs, (put (sigFields s)).length < 2 ^ 64 := by
    intro s hs
    have : (4, WVal.str (put (sigFields s))) ∈ commitsFields c :=
      List.mem_append_right _ (List.mem_map_of_mem (f := fun s => ((4, .str (put (sigFields s))) : Field)) hs)
    have := str_le this
    omega
  rw [readMsg_put (good_of_shape (shape_commits c) hl), commitsFields, mergeFields_append, mergeFields_append, mergeFields_append]
  have e1 : mergeFields (commitsStep limit') {} (msgField 1 (c.height.map heightFields)) = some { height := c.height } := by
    cases hh : c.height with
    | none => rfl
    | some h => simp only [Option.map_some, msgField, mergeFields, commitsStep, Option.getD_none, read_height (h1 h hh)]
  have e2 : mergeFields (commitsStep limit') { height := c.height } (numField 2 (ofInt c.round)) =
      some { height := c.height, round := c.round } := by
    unfold numField
    split
    · rename_i e; rw [ofInt_zero h2 e]; rfl
    · simp only [mergeFields, commitsStep, toI64_ofInt h2]
  have e3 : mergeFields (commitsStep limit') { height := c.height, round := c.round } (msgField 3 (c.value.map hashFields)) =
      some { height := c.height, round := c.round, value := c.value } := by
    cases hh : c.value with
    | none => rfl
    | some h => simp only [Option.map_some, msgField, mergeFields, commitsStep, Option.getD_none, read_hash (h3 h hh)]
  rw [e1, Option.bind_some, e2, Option.bind_some, e3, Option.bind_some, read_sigs c.sigs _ h4]
  simp

theorem read_value {limit limit' : Nat} {h : BlockHeight} {full : Bytes} {c : PCommits} (hh : FitsHeight h)
    (h1 : ∀ h, c.height = some h → FitsHeight h)
    (h2 : -2 ^ 63 ≤ c.round ∧ c.round < 2 ^ 63) (h3 : ∀ h, c.value = some h → FitsHash h)
    (hl : (put (valueFields ⟨some h, full, some c⟩)).length < 2 ^ 64) :
    readMsg limit (valueStep limit') {} (put (valueFields ⟨some h, full, some c⟩)) = some ⟨some h, full, some c⟩ := by
  have h4 : (put (commitsFields c)).length < 2 ^ 64 := by
    have : (3, WVal.str (put (commitsFields c))) ∈ valueFields ⟨some h, full, some c⟩ := by simp [valueFields, msgField]
    have := str_le this
    omega
  rw [readMsg_put (good_of_shape (shape_value _) hl), valueFields, mergeFields_append, mergeFields_append]
  have e1 : mergeFields (valueStep limit') {} (msgField 1 (some (heightFields h))) = some { height := some h } := by
    simp only [msgField, mergeFields, valueStep, Option.getD_none, read_height hh, Option.map_some]
  have e2 : mergeFields (valueStep limit') { height := some h } (strField 2 full) = some { height := some h, full := full } := by
    unfold strField
    split
    · rename_i e; rw [e]; rfl
    · rfl
  simp only [Option.map_some, e1, Option.bind_some, e2]
  simp only [msgField, mergeFields, valueStep, Option.getD_none, read_commits h1 h2 h3 h4, Option.map_some]

theorem read_voteList {limit : Nat} : ∀ (l : List PVote) (c : PVotes), (∀ v ∈ l, v.Fits) →
    mergeFields (votesStep limit) c (l.map fun v => (3, .str (put (voteFields v)))) = some { c with votes := c.votes ++ l }
  | [], c, _ => by simp [mergeFields]
  | s :: l, c, h => by
    simp only [List.map_cons, mergeFields, votesStep, read_vote (h s List.mem_cons_self), Option.map_some]
    rw [read_voteList l _ (fun x hx => h x (List.mem_cons_of_mem _ hx))]
    simp

theorem read_sigList {limit : Nat} : ∀ (l : List Bytes) (c : PVotes),
    mergeFields (votesStep limit) c (l.map fun s => (4, .str s)) = some { c with sigs := c.sigs ++ l }
  | [], c => by simp [mergeFields]
  | s :: l, c => by
    simp only [List.map_cons, mergeFields, votesStep]
    rw [read_sigList l _]
    simp

theorem read_votes {limit limit' : Nat} {h : BlockHeight} {r : Int} {vs : List PVote} {ss : List Bytes} (hh : FitsHeight h)
    (h2 : -2 ^ 63 ≤ r ∧ r < 2 ^ 63) (hv : ∀ v ∈ vs, v.Fits) (hl : (put (votesFields ⟨some h, r, vs, ss⟩)).length < 2 ^ 64) :
    readMsg limit (votesStep limit') {} (put (votesFields ⟨some h, r, vs, ss⟩)) = some ⟨some h, r, vs, ss⟩ := by
  rw [readMsg_put (good_of_shape (shape_votes _) hl), votesFields, mergeFields_append, mergeFields_append, mergeFields_append]
  have e1 : mergeFields (votesStep limit') {} (msgField 1 (some (heightFields h))) = some { height := some h } := by
    simp only [msgField, mergeFields, votesStep, Option.getD_none, read_height hh, Option.map_some]
  have e2 : mergeFields (votesStep limit') { height := some h } (numField 2 (ofInt r)) = some { height := some h, round := r } := by
    unfold numField
    split
    · rename_i e; rw [ofInt_zero h2 e]; rfl
    · simp only [mergeFields, votesStep, toI64_ofInt h2]
  simp only [Option.map_some, e1, Option.bind_some, e2, read_voteList vs _ hv, read_sigList]
  simp

theorem read_response {r : PResponse} (hl : (put (responseFields r)).length < 2 ^ 64)
    (hv : match r with
      | .value v => readMsg 99 (valueStep 98) {} (put (valueFields v)) = some v
      | .votes v => readMsg 99 (votesStep 98) {} (put (votesFields v)) = some v) : readResponse (put (responseFields r)) = some (some r) := by
  unfold readResponse
  have hs : ∀ f ∈ responseFields r, Shape f := by
    cases r with
    | value v => unfold responseFields; exact shape_msg (by omega)
    | votes v => unfold responseFields; exact shape_msg (by omega)
  rw [readMsg_put (good_of_shape hs hl)]
  cases r with
  | value v => simp only at hv; simp only [responseFields, msgField, mergeFields, responseStep, hv, Option.map_some]
  | votes v => simp only at hv; simp only [responseFields, msgField, mergeFields, responseStep, hv, Option.map_some]

theorem inner_length {t : Nat} {fs : List Field} (h : (put (msgField t (some fs))).length < 2 ^ 64) : (put fs).length < 2 ^ 64 := by
  have : (t, WVal.str (put fs)) ∈ msgField t (some fs) := by simp [msgField]
  have := str_le this
  omega

theorem toCertificate_of {roundOf : Int → Int} (hr : ∀ r, IsRound r → roundOf r = r) {c : Commits} (hc : FitsCertificate c) :
    toCertificate roundOf (ofCertificate c) = some c := by
  obtain ⟨h, r, v, ss⟩ := c
  have hr := hr r hc.round
  have : ((ss.map fun s => (⟨s.1, s.2⟩ : PSig)).all fun s => s.signer.length == 32) = true := by
    rw [List.all_eq_true]
    intro x hx
    obtain ⟨s, hs, rfl⟩ := List.mem_map.1 hx
    have := hc.signers s hs
    simp [this]
  simp only [toCertificate, ofCertificate, this, if_true, hr, List.map_map]
  have e : ((fun s : PSig => (s.signer, s.signature)) ∘ fun s : Bytes × Bytes => (⟨s.1, s.2⟩ : PSig)) = id := by funext s; rfl
  rw [e, List.map_id]

theorem CVote.ofProto_proto {roundOf : Int → Int} (hr : ∀ r, IsRound r → roundOf r = r) {v : CVote} (hv : v.Fits) :
    CVote.ofProto roundOf v.proto = some v := by
  obtain ⟨p, h, r, x, k⟩ := v
  have h1 := hr r hv.round
  have h2 : k.length = 32 := hv.voter
  cases p <;> simp [CVote.ofProto, CVote.proto, h1, h2]

theorem zipVotes_of {roundOf : Int → Int} (hr : ∀ r, IsRound r → roundOf r = r) : ∀ (vs : List (CVote × Bytes)),
    (∀ x ∈ vs, x.1.Fits) → zipVotes roundOf (vs.map (·.1.proto)) (vs.map (·.2)) = some vs
  | [], _ => rfl
  | x :: vs, h => by
    simp only [List.map_cons, zipVotes, CVote.ofProto_proto hr (h x List.mem_cons_self),
      zipVotes_of hr vs (fun y hy => h y (List.mem_cons_of_mem _ hy)), Option.map_some]

theorem ofProto_none {roundOf : Int → Int} {v : PVote} : CVote.ofProto roundOf v = none ↔ ¬ (PBody.vote v).Complete := by
  unfold CVote.ofProto PBody.Complete
  by_cases h1 : v.ty = 0 ∨ v.ty = 1
  · have h1' : ¬ (v.ty ≠ 0 ∧ v.ty ≠ 1) := by omega
    rw [if_neg h1']
    cases hh : v.height with
    | none => simp [hh]
    | some x =>
      by_cases h2 : v.voter.length = 32
      · simp [h1, h2, hh]
      · simp [h2]
  · have h1' : v.ty ≠ 0 ∧ v.ty ≠ 1 := by omega
    rw [if_pos h1']
    simp [h1]

theorem zipVotes_none {roundOf : Int → Int} : ∀ (vs : List PVote) (ss : List Bytes),
    zipVotes roundOf vs ss = none ↔ ∃ x ∈ vs.zip ss, ¬ (PBody.vote x.1).Complete
  | [], ss => by simp [zipVotes]
  | v :: vs, [] => by simp [zipVotes]
  | v :: vs, s :: ss => by
    have ih := zipVotes_none (roundOf := roundOf) vs ss
    unfold zipVotes
    cases hv : CVote.ofProto roundOf v with
    | none =>
      simp only [true_iff]
      exact ⟨(v, s), by simp, ofProto_none.1 hv⟩
    | some w =>
      have hc : (PBody.vote v).Complete := Classical.byContradiction fun h => by rw [ofProto_none.2 h] at hv; cases hv
      simp only [Option.map_eq_none_iff, ih, List.zip_cons_cons, List.mem_cons]
      constructor
      · rintro ⟨x, hx, h⟩; exact ⟨x, Or.inr hx, h⟩
      · rintro ⟨x, hx | hx, h⟩
        · rw [hx] at h; exact absurd hc h
        · exact ⟨x, hx, h⟩

theorem toCertificate_none {roundOf : Int → Int} {c : PCommits} : toCertificate roundOf c = none ↔ BadCommits c := by
  unfold toCertificate BadCommits
  cases hh : c.height with
  | none => simp
  | some h =>
    cases hv : c.value with
    | none => simp
    | some v => simp

/-- What is read of a certificate fits its types. -/
def CommitsRead (c : PCommits) : Prop := (∀ h, c.height = some h → FitsHeight h) ∧ (∀ h, c.value = some h → FitsHash h)

theorem commitsStep_keeps {N limit : Nat} (hN : N < 2 ^ 32) (s : PCommits) (f : Field) (s' : PCommits) (hp : CommitsRead s)
    (hb : Bounded N f.2) (h : commitsStep limit s f = some s') : CommitsRead s' := by
  obtain ⟨p1, p2⟩ := hp
  unfold commitsStep at h
  split at h
  · obtain ⟨x, hx, rfl⟩ := Option.map_eq_some_iff.1 h
    refine ⟨fun y e => ?_, p2⟩
    cases e
    refine readMsg_keeps (P := FitsHeight) hb heightStep_keeps ?_ hx
    cases hh : s.height with
    | none => exact ⟨by decide, by decide⟩
    | some y => exact p1 y hh
  · cases h; exact ⟨p1, p2⟩
  · obtain ⟨x, hx, rfl⟩ := Option.map_eq_some_iff.1 h
    refine ⟨p1, fun y e => ?_⟩
    cases e
    refine readMsg_keeps (P := FitsHash) hb (hashStep_keeps hN) ?_ hx
    cases hh : s.value with
    | none => exact ⟨by decide, by decide⟩
    | some y => exact p2 y hh
  · obtain ⟨x, hx, rfl⟩ := Option.map_eq_some_iff.1 h
    exact ⟨p1, p2⟩
  all_goals first | (cases h; done) | (cases h; exact ⟨p1, p2⟩)

def ValueRead (v : PValue) : Prop := ∀ c, v.commits = some c → CommitsRead c

theorem valueStep_keeps {N limit : Nat} (hN : N < 2 ^ 32) (s : PValue) (f : Field) (s' : PValue) (hp : ValueRead s)
    (hb : Bounded N f.2) (h : valueStep limit s f = some s') : ValueRead s' := by
  unfold valueStep at h
  split at h
  · obtain ⟨x, hx, rfl⟩ := Option.map_eq_some_iff.1 h
    exact hp
  · cases h; exact hp
  · obtain ⟨x, hx, rfl⟩ := Option.map_eq_some_iff.1 h
    intro y e
    cases e
    refine readMsg_keeps (P := CommitsRead) hb (commitsStep_keeps hN) ?_ hx
    cases hh : s.commits with
    | none => exact ⟨(fun _ e => by cases e), fun _ e => by cases e⟩
    | some y => exact hp y hh
  all_goals first | (cases h; done) | (cases h; exact hp)

def ResponseRead : Option PResponse → Prop
  | some (.value v) => ValueRead v
  | _ => True

theorem responseStep_keeps {N limit : Nat} (hN : N < 2 ^ 32) (s : Option PResponse) (f : Field) (s' : Option PResponse)
    (hp : ResponseRead s) (hb : Bounded N f.2) (h : responseStep limit s f = some s') : ResponseRead s' := by
  unfold responseStep at h
  split at h
  · obtain ⟨x, hx, rfl⟩ := Option.map_eq_some_iff.1 h
    show ValueRead x
    refine readMsg_keeps (P := ValueRead) hb (valueStep_keeps hN) ?_ hx
    split
    · exact hp
    · exact fun _ e => by cases e
  · obtain ⟨x, hx, rfl⟩ := Option.map_eq_some_iff.1 h
    trivial
  all_goals first | (cases h; done) | (cases h; exact hp)

theorem readResponse_read {b : Bytes} (hb : b.length < 2 ^ 32) {r : Option PResponse} (h : readResponse b = some r) : ResponseRead r :=
  readMsg_keeps (P := ResponseRead) (Nat.le_refl _) (responseStep_keeps hb) (s := none) trivial h

end Wire
end Verif
