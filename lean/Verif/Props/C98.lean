import Verif.Lemmas.WireMsgs
import Verif.Props.C51
/-!
C98: a validator's signature stands for one statement.
-/
namespace Verif
namespace Wire

theorem msg_inj {t : Nat} {a b : List Field} (ha : ∀ f ∈ a, Good f) (hb : ∀ f ∈ b, Good f)
    (h : msgField t (some a) = msgField t (some b)) : a = b := by
  simp only [msgField, List.cons.injEq, Prod.mk.injEq, true_and, and_true, WVal.str.injEq] at h
  exact put_inj ha hb h

/-- The tags of the fields of a proposal: always those of the height, the proposer and the value. -/
theorem proposal_tags {p : CProposal} (hf : p.Fits) :
    (4, WVal.str p.proposer) ∈ proposalFields p.proto ∧ (5, WVal.str (put (hashFields p.value))) ∈ proposalFields p.proto ∧
    (proposalFields p.proto).head? = some (1, WVal.str (put (heightFields p.height))) := by
  have h0 : p.proposer ≠ [] := by
    intro e
    have := hf.proposer
    rw [e] at this
    cases this
  refine ⟨?_, ?_, ?_⟩ <;> simp [proposalFields, CProposal.proto, msgField, strField, h0]

/-- The first field of a vote. -/
theorem vote_head (v : CVote) : (voteFields v.proto).head? = some (if v.precommit then (1, WVal.num 1)
    else (2, WVal.str (put (heightFields v.height)))) := by
  cases hp : v.precommit <;> simp [voteFields, CVote.proto, msgField, numField, hp, ofInt]

def partFields (p : Part) : List Field :=
  msgField 1 (p.height.map heightFields) ++ numField 2 (ofInt p.round) ++ strField 3 p.proposer ++
    (match p.value with
      | none => []
      | some (chunk, b) => [(if chunk then 5 else 4, .str b)])

theorem good_part {p : Part} (hf : p.Fits) : ∀ f ∈ partFields p, Good f := by
  intro f hm
  unfold partFields at hm
  simp only [List.mem_append] at hm
  rcases hm with ((hm | hm) | hm) | hm
  · refine good_msg (by omega) (fun fs e => ?_) f hm
    obtain ⟨h, _, rfl⟩ := Option.map_eq_some_iff.1 e
    have := height_length h; omega
  · exact good_num (by omega) (ofInt_lt _) f hm
  · exact good_str (by omega) (by have := hf.proposer; omega) f hm
  · split at hm
    · cases hm
    · rename_i chunk b hv
      have := hf.value _ hv
      cases List.mem_singleton.1 hm
      cases chunk
      · exact ⟨by simp, by simp, by simp only at this; omega⟩
      · exact ⟨by simp, by simp, by simp only at this; omega⟩

/-- The fields of a part: a message for tag 1, a number for tag 2, and not both a block and a chunk. -/
theorem part_tags {p : Part} : (∀ t n, (t, WVal.num n) ∈ partFields p → t = 2) ∧ (∀ b, (2, WVal.str b) ∉ partFields p) ∧
    ∀ b b', (4, WVal.str b) ∈ partFields p → (5, WVal.str b') ∉ partFields p := by
  have h1 : ∀ o (x : Field), x ∈ msgField 1 o → ∃ b, x = (1, WVal.str b) := by
    intro o x hx
    cases o with
    | none => cases hx
    | some fs => exact ⟨_, List.mem_singleton.1 hx⟩
  have h2 : ∀ n (x : Field), x ∈ numField 2 n → ∃ n, x = (2, WVal.num n) := by
    intro n x hx
    unfold numField at hx
    split at hx
    · cases hx
    · exact ⟨_, List.mem_singleton.1 hx⟩
  have h3 : ∀ b (x : Field), x ∈ strField 3 b → ∃ b, x = (3, WVal.str b) := by
    intro n x hx
    unfold strField at hx
    split at hx
    · cases hx
    · exact ⟨_, List.mem_singleton.1 hx⟩
  have hall : ∀ x : Field, x ∈ partFields p → (∃ b, x = (1, .str b)) ∨ (∃ n, x = (2, .num n)) ∨ (∃ b, x = (3, .str b)) ∨
      ∃ chunk b, p.value = some (chunk, b) ∧ x = (if chunk then 5 else 4, .str b) := by
    intro x hx
    unfold partFields at hx
    simp only [List.mem_append] at hx
    rcases hx with ((hx | hx) | hx) | hx
    · exact .inl (h1 _ _ hx)
    · exact .inr (.inl (h2 _ _ hx))
    · exact .inr (.inr (.inl (h3 _ _ hx)))
    · split at hx
      · cases hx
      · rename_i chunk b hv
        exact .inr (.inr (.inr ⟨chunk, b, hv, List.mem_singleton.1 hx⟩))
  refine ⟨fun t n hm => ?_, fun b hm => ?_, fun b b' hm hm' => ?_⟩
  · rcases hall _ hm with ⟨_, e⟩ | ⟨_, e⟩ | ⟨_, e⟩ | ⟨c, _, _, e⟩ <;> simp at e
    exact e.1
  · rcases hall _ hm with ⟨_, e⟩ | ⟨_, e⟩ | ⟨_, e⟩ | ⟨c, _, _, e⟩ <;> simp at e
    cases c <;> simp at e
  · rcases hall _ hm with ⟨_, e⟩ | ⟨_, e⟩ | ⟨_, e⟩ | ⟨c, _, g, e⟩ <;> simp at e
    rcases hall _ hm' with ⟨_, e'⟩ | ⟨_, e'⟩ | ⟨_, e'⟩ | ⟨c', _, g', e'⟩ <;> simp at e'
    rw [g] at g'
    cases g'
    cases c <;> simp at e e'

/-- The fields of a part determine it. -/
def partStep (v : Part) : Field → Option Part
  | (1, .str b) => (readMsg 0 heightStep ⟨0, 0⟩ b).map fun h => { v with height := some h }
  | (2, .num n) => some { v with round := toI64 n }
  | (3, .str b) => some { v with proposer := b }
  | (4, .str b) => some { v with value := some (false, b) }
  | (5, .str b) => some { v with value := some (true, b) }
  | _ => none

theorem read_part {v : Part} (hf : v.Fits) : mergeFields partStep ⟨none, 0, [], none⟩ (partFields v) = some v := by
  rw [partFields, mergeFields_append, mergeFields_append, mergeFields_append]
  have e1 : mergeFields partStep ⟨none, 0, [], none⟩ (msgField 1 (v.height.map heightFields)) = some ⟨v.height, 0, [], none⟩ := by
    cases hh : v.height with
    | none => rfl
    | some h => simp only [Option.map_some, msgField, mergeFields, partStep, read_height (hf.height h hh)]
  have e2 : mergeFields partStep ⟨v.height, 0, [], none⟩ (numField 2 (ofInt v.round)) = some ⟨v.height, v.round, [], none⟩ := by
    unfold numField
    split
    · rename_i e; rw [ofInt_zero hf.round e]; rfl
    · simp only [mergeFields, partStep, toI64_ofInt hf.round]
  have e3 : mergeFields partStep ⟨v.height, v.round, [], none⟩ (strField 3 v.proposer) = some ⟨v.height, v.round, v.proposer, none⟩ := by
    unfold strField
    split
    · rename_i e; rw [e]; rfl
    · rfl
  rw [e1, Option.bind_some, e2, Option.bind_some, e3, Option.bind_some]
  obtain ⟨h, r, k, x⟩ := v
  cases x with
  | none => rfl
  | some x =>
    obtain ⟨c, b⟩ := x
    cases c <;> rfl

theorem part_inj {p q : Part} (hp : p.Fits) (hq : q.Fits) (e : partFields p = partFields q) : p = q := by
  have h1 := read_part hp
  rw [e, read_part hq] at h1
  exact (Option.some.inj h1).symm

/-- **C98**, encoding: different statements have different bytes to sign, whether votes, proposals or parts. -/
theorem C98_one_statement {a b : Statement} (ha : a.Fits) (hb : b.Fits) (e : a.signBytes = b.signBytes) : a = b := by
  have vp : ∀ (v : CVote) (p : CProposal), v.Fits → p.Fits → v.signBytes ≠ p.signBytes := by
    intro v p hv hp e
    have e := put_inj (good_vote (fits_vote hv)) (good_proposal (fits_proposal hp)) e
    have h1 := vote_head v
    rw [e, (proposal_tags hp).2.2] at h1
    cases hc : v.precommit <;> rw [hc] at h1 <;> simp at h1
  have vr : ∀ (v : CVote) (p : Part), v.Fits → p.Fits → v.signBytes ≠ p.signBytes := by
    intro v p hv hp e
    have e : voteFields v.proto = partFields p := put_inj (good_vote (fits_vote hv)) (good_part hp) e
    have h1 := List.mem_of_mem_head? (vote_head v)
    rw [e] at h1
    cases hc : v.precommit <;> rw [hc] at h1
    · exact part_tags.2.1 _ h1
    · exact absurd (part_tags.1 _ _ h1) (by simp)
  have pr : ∀ (v : CProposal) (p : Part), v.Fits → p.Fits → v.signBytes ≠ p.signBytes := by
    intro v p hv hp e
    have e : proposalFields v.proto = partFields p := put_inj (good_proposal (fits_proposal hv)) (good_part hp) e
    obtain ⟨h1, h2, _⟩ := proposal_tags hv
    rw [e] at h1 h2
    exact part_tags.2.2 _ _ h1 h2
  cases a with
  | vote v =>
    cases b with
    | vote w =>
      have h1 := read_vote (limit := 9) (limit' := 9) (fits_vote ha)
      have h2 := read_vote (limit := 9) (limit' := 9) (fits_vote hb)
      have e : put (voteFields v.proto) = put (voteFields w.proto) := e
      rw [e, h2] at h1
      have := Option.some.inj h1
      obtain ⟨p, h, r, x, k⟩ := v
      obtain ⟨p', h', r', x', k'⟩ := w
      simp only [CVote.proto, PVote.mk.injEq, Option.some.injEq] at this
      obtain ⟨g1, rfl, rfl, rfl, rfl⟩ := this
      cases p <;> cases p' <;> simp at g1 ⊢
    | proposal p => exact absurd e (vp v p ha hb)
    | part p => exact absurd e (vr v p ha hb)
  | proposal v =>
    cases b with
    | vote w => exact absurd e.symm (vp w v hb ha)
    | proposal w =>
      have h1 := read_proposal (limit := 9) (limit' := 9) (fits_proposal ha)
      have h2 := read_proposal (limit := 9) (limit' := 9) (fits_proposal hb)
      have e : put (proposalFields v.proto) = put (proposalFields w.proto) := e
      rw [e, h2] at h1
      have := Option.some.inj h1
      obtain ⟨h, r, x, pr, k⟩ := v
      obtain ⟨h', r', x', pr', k'⟩ := w
      simp only [CProposal.proto, PProposal.mk.injEq, Option.some.injEq] at this
      obtain ⟨rfl, rfl, rfl, rfl, rfl⟩ := this
      rfl
    | part p => exact absurd e (pr v p ha hb)
  | part v =>
    cases b with
    | vote w => exact absurd e.symm (vr w v hb ha)
    | proposal w => exact absurd e.symm (pr w v hb ha)
    | part w => exact congrArg Statement.part (part_inj ha hb (put_inj (good_part ha) (good_part hb) e))

section
variable {roundOf : Int → Int} {verify : Bytes → Bytes → Bytes → Bool} {said : Bytes → Statement → Prop}

/-- **C98**, certificates: if valid signatures exist only for what the holder of the key signed, then behind an accepted
certificate stand distinct validators of the set in charge, more than two thirds of it, and each of them precommitted to the
value of the certificate at its height and round. -/
theorem C98_certificate_means_precommits {shard : Nat} {first : SetConfig} {others : List SetConfig} {c : Commits}
    (hkeys : ∀ h, ∀ k ∈ Spec.inCharge (Spec.configured shard first others) h, k.length = 32)
    (hsaid : ∀ key b sig, verify key b sig = true → ∃ st, said key st ∧ st.Fits ∧ st.signBytes = b)
    (hh : FitsHeight c.height) (hr : IsRound (roundOf c.round)) (hv : FitsHash c.value)
    (h : verifySignatures (crypto roundOf verify) (Spec.configured shard first others) c = true) :
    ∃ signers : List Bytes, signers.Nodup ∧
      (∀ k ∈ signers, k ∈ Spec.inCharge (Spec.configured shard first others) c.height.block ∧
        Precommitted said k c.height (roundOf c.round) c.value) ∧
      2 * (Spec.inCharge (Spec.configured shard first others) c.height.block).length < 3 * signers.length := by
  obtain ⟨signers, h1, h2, h3⟩ := C51_quorum h
  refine ⟨signers, h1, fun k hk => ⟨(h2 k hk).1, ?_⟩, h3⟩
  obtain ⟨sig, _, hs⟩ := (h2 k hk).2
  obtain ⟨st, g1, g2, g3⟩ := hsaid _ _ _ hs
  have hf : (Statement.vote ⟨true, c.height, roundOf c.round, some c.value, k⟩).Fits :=
    ⟨hh, hr, fun x e => by cases e; exact hv, hkeys _ k (h2 k hk).1⟩
  have := C98_one_statement g2 hf g3
  rw [this] at g1
  exact g1

/-- **C98**, conflicts: two accepted certificates of one height and round that name different values convict more than a
third of the validators of having precommitted to two values in one round. -/
theorem C98_conflict_convicts {shard : Nat} {first : SetConfig} {others : List SetConfig} {c c' : Commits}
    (hkeys : ∀ h, ∀ k ∈ Spec.inCharge (Spec.configured shard first others) h, k.length = 32)
    (hsaid : ∀ key b sig, verify key b sig = true → ∃ st, said key st ∧ st.Fits ∧ st.signBytes = b)
    (hh : FitsHeight c.height) (hr : IsRound (roundOf c.round)) (hv : FitsHash c.value) (hv' : FitsHash c'.value)
    (h : verifySignatures (crypto roundOf verify) (Spec.configured shard first others) c = true)
    (h' : verifySignatures (crypto roundOf verify) (Spec.configured shard first others) c' = true)
    (same : c'.height = c.height ∧ roundOf c'.round = roundOf c.round) (differ : c'.value ≠ c.value) :
    ∃ both : List Bytes, both.Nodup ∧
      (∀ k ∈ both, k ∈ Spec.inCharge (Spec.configured shard first others) c.height.block ∧
        ∃ v v', v ≠ v' ∧ Precommitted said k c.height (roundOf c.round) v ∧ Precommitted said k c.height (roundOf c.round) v') ∧
      (Spec.inCharge (Spec.configured shard first others) c.height.block).length < 3 * both.length := by
  obtain ⟨both, h1, h2, h3⟩ := C51_two_certificates_overlap (by rw [same.1]) h h'
  refine ⟨both, h1, fun k hk => ?_, h3⟩
  obtain ⟨g0, ⟨s, _, g1⟩, s', _, g2⟩ := h2 k hk
  have key : ∀ x : ShardHash, FitsHash x → ∀ sig, verify k (CVote.signBytes ⟨true, c.height, roundOf c.round, some x, k⟩) sig = true →
      Precommitted said k c.height (roundOf c.round) x := by
    intro x hx sig hs
    obtain ⟨st, e1, e2, e3⟩ := hsaid _ _ _ hs
    have hf : (Statement.vote ⟨true, c.height, roundOf c.round, some x, k⟩).Fits :=
      ⟨hh, hr, fun y e => by cases e; exact hx, hkeys _ k g0⟩
    rw [C98_one_statement e2 hf e3] at e1
    exact e1
  have g2' : verify k (CVote.signBytes ⟨true, c'.height, roundOf c'.round, some c'.value, k⟩) s' = true := g2
  rw [same.1, same.2] at g2'
  exact ⟨g0, c.value, c'.value, fun e => differ e.symm, key _ hv s g1, key _ hv' s' g2'⟩

end

namespace Case98

def key (n : UInt8) : Bytes := List.replicate 32 n
def cfg : SetConfig := ⟨0, [key 3, key 1, key 4, key 2], [1]⟩

/-- What validators said: three of them precommitted to a hash, and the fourth one proposed it. -/
def precommit (k : Bytes) : Statement := .vote ⟨true, ⟨1, 5⟩, 0, some ⟨1, [9]⟩, k⟩
def proposal : Statement := .proposal ⟨⟨1, 5⟩, 0, ⟨1, [9]⟩, -1, key 4⟩
def all : List (Bytes × Statement) := [(key 1, precommit (key 1)), (key 2, precommit (key 2)), (key 3, precommit (key 3)), (key 4, proposal)]
def said (k : Bytes) (s : Statement) : Prop := (k, s) ∈ all

/-- A signature is the key and the bytes. -/
def verify (k b s : Bytes) : Bool := all.any fun x => x.1 = k && x.2.signBytes = b && s = k ++ b

def cert (ks : List Bytes) : Commits := ⟨⟨1, 5⟩, 0, ⟨1, [9]⟩, ks.map fun k => (k, k ++ (precommit k).signBytes)⟩

theorem fits : ∀ x ∈ all, x.2.Fits := by
  intro x hx
  simp only [all, List.mem_cons, List.not_mem_nil, or_false] at hx
  rcases hx with rfl | rfl | rfl | rfl
  · exact ⟨by decide, by decide, fun h e => by cases e; decide, by decide⟩
  · exact ⟨by decide, by decide, fun h e => by cases e; decide, by decide⟩
  · exact ⟨by decide, by decide, fun h e => by cases e; decide, by decide⟩
  · exact ⟨by decide, by decide, by decide, by decide, by decide⟩

theorem charge (h : Nat) : Spec.inCharge (Spec.configured 1 cfg []) h = [key 1, key 2, key 3, key 4] := by
  have e : Spec.inCharge (Spec.configured 1 cfg []) h = Spec.inCharge (Spec.configured 1 cfg []) 0 := rfl
  rw [e]; decide +kernel

/-- The theorem applies: the certificate with the three precommits is accepted, one with the proposer is not. -/
example : verifySignatures (crypto id verify) (Spec.configured 1 cfg []) (cert [key 1, key 2, key 4]) = false ∧
    ∃ signers : List Bytes, signers.Nodup ∧
      (∀ k ∈ signers, k ∈ Spec.inCharge (Spec.configured 1 cfg []) 5 ∧ Precommitted said k ⟨1, 5⟩ 0 ⟨1, [9]⟩) ∧
      2 * (Spec.inCharge (Spec.configured 1 cfg []) 5).length < 3 * signers.length := by
  refine ⟨by decide +kernel, C98_certificate_means_precommits (roundOf := id) (verify := verify) (c := cert [key 1, key 2, key 3])
    ?_ ?_ (by decide) (by decide) (by decide) (by decide +kernel)⟩
  · intro h k hk
    rw [charge] at hk
    simp only [List.mem_cons, List.not_mem_nil, or_false] at hk
    rcases hk with rfl | rfl | rfl | rfl <;> rfl
  · intro k b s hs
    obtain ⟨x, hx, e⟩ := List.any_eq_true.1 hs
    simp only [Bool.and_eq_true, decide_eq_true_eq] at e
    obtain ⟨⟨rfl, e2⟩, _⟩ := e
    exact ⟨x.2, hx, fits x hx, e2⟩

end Case98
end Wire
end Verif
