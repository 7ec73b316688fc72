import Verif.Lemmas.Wire
import Verif.Spec.Wire
/-!
Lemmas for the wire format of consensus messages: what is written is read.
-/
namespace Verif
namespace Wire

theorem height_length (h : BlockHeight) : (put (heightFields h)).length ≤ 40 := by
  have h1 := put_num_length 1 h.shard
  have h2 := put_num_length 2 h.block
  rw [heightFields, put_append, List.length_append]; omega

theorem hash_length (h : ShardHash) : (put (hashFields h)).length ≤ 40 + h.hash.length := by
  have h1 := put_num_length 1 h.shard
  have h2 := put_str_length 2 h.hash
  rw [hashFields, put_append, List.length_append]; omega

theorem good_height {h : BlockHeight} (hf : FitsHeight h) : ∀ f ∈ heightFields h, Good f := by
  intro f hm
  rcases List.mem_append.1 hm with hm | hm
  · exact good_num (by omega) (by have := hf.1; omega) f hm
  · exact good_num (by omega) hf.2 f hm

theorem good_hash {h : ShardHash} (hf : FitsHash h) : ∀ f ∈ hashFields h, Good f := by
  intro f hm
  rcases List.mem_append.1 hm with hm | hm
  · exact good_num (by omega) (by have := hf.1; omega) f hm
  · exact good_str (by omega) (by have := hf.2; omega) f hm

theorem read_height {limit : Nat} {h : BlockHeight} (hf : FitsHeight h) :
    readMsg limit heightStep ⟨0, 0⟩ (put (heightFields h)) = some h := by
  rw [readMsg_put (good_height hf), heightFields, mergeFields_append]
  have e1 : mergeFields heightStep ⟨0, 0⟩ (numField 1 h.shard) = some ⟨h.shard, 0⟩ := by
    unfold numField
    split
    · rename_i e; rw [e]; rfl
    · simp only [mergeFields, heightStep, Nat.mod_eq_of_lt hf.1]
  rw [e1]
  show mergeFields heightStep ⟨h.shard, 0⟩ (numField 2 h.block) = some h
  unfold numField
  split
  · rename_i e
    obtain ⟨s, n⟩ := h
    cases e
    rfl
  · rfl

theorem read_hash {limit : Nat} {h : ShardHash} (hf : FitsHash h) :
    readMsg limit hashStep ⟨0, []⟩ (put (hashFields h)) = some h := by
  rw [readMsg_put (good_hash hf), hashFields, mergeFields_append]
  have e1 : mergeFields hashStep ⟨0, []⟩ (numField 1 h.shard) = some ⟨h.shard, []⟩ := by
    unfold numField
    split
    · rename_i e; rw [e]; rfl
    · simp only [mergeFields, hashStep, Nat.mod_eq_of_lt hf.1]
  rw [e1]
  show mergeFields hashStep ⟨h.shard, []⟩ (strField 2 h.hash) = some h
  unfold strField
  split
  · rename_i e
    obtain ⟨s, n⟩ := h
    cases e
    rfl
  · rfl

theorem good_vote {v : PVote} (hf : v.Fits) : ∀ f ∈ voteFields v, Good f := by
  intro f hm
  unfold voteFields at hm
  simp only [List.mem_append] at hm
  rcases hm with (((hm | hm) | hm) | hm) | hm
  · exact good_num (by omega) (ofInt_lt _) f hm
  · refine good_msg (by omega) (fun fs e => ?_) f hm
    obtain ⟨h, _, rfl⟩ := Option.map_eq_some_iff.1 e
    have := height_length h; omega
  · exact good_num (by omega) (ofInt_lt _) f hm
  · refine good_msg (by omega) (fun fs e => ?_) f hm
    obtain ⟨h, hh, rfl⟩ := Option.map_eq_some_iff.1 e
    have := hash_length h; have := (hf.value h hh).2; omega
  · exact good_str (by omega) (by have := hf.voter; omega) f hm

theorem good_proposal {p : PProposal} (hf : p.Fits) : ∀ f ∈ proposalFields p, Good f := by
  intro f hm
  unfold proposalFields at hm
  simp only [List.mem_append] at hm
  rcases hm with (((hm | hm) | hm) | hm) | hm
  · refine good_msg (by omega) (fun fs e => ?_) f hm
    obtain ⟨h, _, rfl⟩ := Option.map_eq_some_iff.1 e
    have := height_length h; omega
  · exact good_num (by omega) (ofInt_lt _) f hm
  · exact good_num (by omega) (ofInt_lt _) f hm
  · exact good_str (by omega) (by have := hf.proposer; omega) f hm
  · refine good_msg (by omega) (fun fs e => ?_) f hm
    obtain ⟨h, hh, rfl⟩ := Option.map_eq_some_iff.1 e
    have := hash_length h; have := (hf.value h hh).2; omega

/-- What is written is read. -/
theorem read_vote {limit limit' : Nat} {v : PVote} (hf : v.Fits) : readMsg limit (voteStep limit') {} (put (voteFields v)) = some v := by
  rw [readMsg_put (good_vote hf), voteFields, mergeFields_append, mergeFields_append, mergeFields_append, mergeFields_append]
  have e1 : mergeFields (voteStep limit') {} (numField 1 (ofInt v.ty)) = some { ty := v.ty } := by
    unfold numField
    split
    · rename_i e; rw [ofInt_zero ⟨by have := hf.ty.1; omega, by have := hf.ty.2; omega⟩ e]; rfl
    · simp only [mergeFields, voteStep, toI32_ofInt hf.ty]
  have e2 : mergeFields (voteStep limit') { ty := v.ty } (msgField 2 (v.height.map heightFields)) =
      some { ty := v.ty, height := v.height } := by
    cases hh : v.height with
    | none => rfl
    | some h => simp only [Option.map_some, msgField, mergeFields, voteStep, Option.getD_none, read_height (hf.height h hh)]
  have e3 : mergeFields (voteStep limit') { ty := v.ty, height := v.height } (numField 3 (ofInt v.round)) =
      some { ty := v.ty, height := v.height, round := v.round } := by
    unfold numField
    split
    · rename_i e; rw [ofInt_zero hf.round e]; rfl
    · simp only [mergeFields, voteStep, toI64_ofInt hf.round]
  have e4 : mergeFields (voteStep limit') { ty := v.ty, height := v.height, round := v.round } (msgField 4 (v.value.map hashFields)) =
      some { ty := v.ty, height := v.height, round := v.round, value := v.value } := by
    cases hh : v.value with
    | none => rfl
    | some h => simp only [Option.map_some, msgField, mergeFields, voteStep, Option.getD_none, read_hash (hf.value h hh)]
  rw [e1, Option.bind_some, e2, Option.bind_some, e3, Option.bind_some, e4, Option.bind_some]
  unfold strField
  split
  · rename_i e
    obtain ⟨a, b, c, d, w⟩ := v
    cases e
    rfl
  · rfl

theorem read_proposal {limit limit' : Nat} {v : PProposal} (hf : v.Fits) :
    readMsg limit (proposalStep limit') {} (put (proposalFields v)) = some v := by
  rw [readMsg_put (good_proposal hf), proposalFields, mergeFields_append, mergeFields_append, mergeFields_append, mergeFields_append]
  have e1 : mergeFields (proposalStep limit') {} (msgField 1 (v.height.map heightFields)) = some { height := v.height } := by
    cases hh : v.height with
    | none => rfl
    | some h => simp only [Option.map_some, msgField, mergeFields, proposalStep, Option.getD_none, read_height (hf.height h hh)]
  have e2 : mergeFields (proposalStep limit') { height := v.height } (numField 2 (ofInt v.round)) =
      some { height := v.height, round := v.round } := by
    unfold numField
    split
    · rename_i e; rw [ofInt_zero hf.round e]; rfl
    · simp only [mergeFields, proposalStep, toI64_ofInt hf.round]
  have e3 : mergeFields (proposalStep limit') { height := v.height, round := v.round } (numField 3 (ofInt v.polRound)) =
      some { height := v.height, round := v.round, polRound := v.polRound } := by
    unfold numField
    split
    · rename_i e; rw [ofInt_zero hf.polRound e]; rfl
    · simp only [mergeFields, proposalStep, toI64_ofInt hf.polRound]
  have e4 : mergeFields (proposalStep limit') { height := v.height, round := v.round, polRound := v.polRound } (strField 4 v.proposer) =
      some { height := v.height, round := v.round, polRound := v.polRound, proposer := v.proposer } := by
    unfold strField
    split
    · rename_i e; rw [e]; rfl
    · rfl
  rw [e1, Option.bind_some, e2, Option.bind_some, e3, Option.bind_some, e4, Option.bind_some]
  cases hh : v.value with
  | none =>
    obtain ⟨a, b, c, d, w⟩ := v
    cases hh
    rfl
  | some h =>
    simp only [Option.map_some, msgField, mergeFields, proposalStep, Option.getD_none, read_hash (hf.value h hh)]
    obtain ⟨a, b, c, d, w⟩ := v
    cases hh
    rfl

theorem vote_length {v : PVote} (hf : v.Fits) : (put (voteFields v)).length < 2 ^ 34 := by
  have h1 := put_num_length 1 (ofInt v.ty)
  have h2 := put_msg_length 2 (v.height.map heightFields) 40 (fun fs e => by
    obtain ⟨h, _, rfl⟩ := Option.map_eq_some_iff.1 e; exact height_length h)
  have h3 := put_num_length 3 (ofInt v.round)
  have h4 := put_msg_length 4 (v.value.map hashFields) (40 + 2 ^ 32) (fun fs e => by
    obtain ⟨h, hh, rfl⟩ := Option.map_eq_some_iff.1 e
    have := hash_length h; have := (hf.value h hh).2; omega)
  have h5 := put_str_length 5 v.voter
  have := hf.voter
  simp only [voteFields, put_append, List.length_append]
  omega

theorem proposal_length {v : PProposal} (hf : v.Fits) : (put (proposalFields v)).length < 2 ^ 34 := by
  have h1 := put_msg_length 1 (v.height.map heightFields) 40 (fun fs e => by
    obtain ⟨h, _, rfl⟩ := Option.map_eq_some_iff.1 e; exact height_length h)
  have h2 := put_num_length 2 (ofInt v.round)
  have h3 := put_num_length 3 (ofInt v.polRound)
  have h4 := put_str_length 4 v.proposer
  have h5 := put_msg_length 5 (v.value.map hashFields) (40 + 2 ^ 32) (fun fs e => by
    obtain ⟨h, hh, rfl⟩ := Option.map_eq_some_iff.1 e
    have := hash_length h; have := (hf.value h hh).2; omega)
  have := hf.proposer
  simp only [proposalFields, put_append, List.length_append]
  omega

theorem good_consensus {b : PBody} {sig : Bytes} (hf : b.Fits) (hs : sig.length < 2 ^ 32) :
    ∀ f ∈ consensusFields ⟨some b, sig⟩, Good f := by
  intro f hm
  unfold consensusFields at hm
  rcases List.mem_append.1 hm with hm | hm
  · cases b with
    | vote v =>
      refine good_msg (by omega) (fun fs e => ?_) f hm
      cases e
      have := vote_length hf; omega
    | proposal p =>
      refine good_msg (by omega) (fun fs e => ?_) f hm
      cases e
      have := proposal_length hf; omega
  · exact good_str (by omega) (show sig.length < 2 ^ 64 by omega) f hm

theorem read_consensus {limit limit' : Nat} {b : PBody} {sig : Bytes} (hf : b.Fits) (hs : sig.length < 2 ^ 32) :
    readMsg limit (consensusStep limit') {} (put (consensusFields ⟨some b, sig⟩)) = some ⟨some b, sig⟩ := by
  rw [readMsg_put (good_consensus hf hs), consensusFields, mergeFields_append]
  have e2 : ∀ x : PBody, mergeFields (consensusStep limit') ⟨some x, []⟩ (strField 3 sig) = some ⟨some x, sig⟩ := by
    intro x
    unfold strField
    split
    · rename_i e; rw [e]; rfl
    · rfl
  cases b with
  | vote v =>
    simp only [msgField, mergeFields, consensusStep]
    rw [read_vote hf]
    exact e2 _
  | proposal p =>
    simp only [msgField, mergeFields, consensusStep]
    rw [read_proposal hf]
    exact e2 _

theorem consensus_length {b : PBody} {sig : Bytes} (hf : b.Fits) (hs : sig.length < 2 ^ 32) :
    (put (consensusFields ⟨some b, sig⟩)).length < 2 ^ 64 := by
  have h2 := put_str_length 3 sig
  unfold consensusFields
  rw [put_append, List.length_append]
  cases b with
  | vote v =>
    have h1 := put_msg_length 1 (some (voteFields v)) (2 ^ 34) (fun fs e => by cases e; have := vote_length hf; omega)
    simp only
    omega
  | proposal p =>
    have h1 := put_msg_length 2 (some (proposalFields p)) (2 ^ 34) (fun fs e => by cases e; have := proposal_length hf; omega)
    simp only
    omega

theorem read_gossip {ov : Bytes → Bool} {oo : Nat → Bytes → Bool} {b : PBody} {sig : Bytes} (hf : b.Fits) (hs : sig.length < 2 ^ 32) :
    readMsg 100 (gossipStep ov oo) none (gossipBytes b sig) = some (some (.consensus ⟨some b, sig⟩)) := by
  unfold gossipBytes
  rw [readMsg_put (good_msg (by omega) (fun fs e => by cases e; exact consensus_length hf hs))]
  simp only [msgField, mergeFields, gossipStep]
  rw [read_consensus hf hs]
  rfl

theorem fits_vote {v : CVote} (hf : v.Fits) : v.proto.Fits := by
  obtain ⟨h1, h2, h3, h4⟩ := hf
  unfold IsRound at h2
  refine ⟨?_, fun h e => ?_, ⟨by show -2 ^ 63 ≤ v.round; omega, by show v.round < 2 ^ 63; omega⟩, h3, by show v.voter.length < 2 ^ 32; omega⟩
  · show -2 ^ 31 ≤ (if v.precommit then (1 : Int) else 0) ∧ (if v.precommit then (1 : Int) else 0) < 2 ^ 31
    split <;> omega
  · cases e; exact h1

theorem fits_proposal {p : CProposal} (hf : p.Fits) : p.proto.Fits := by
  obtain ⟨h1, h2, h3, h4, h5⟩ := hf
  unfold IsRound at h2 h3
  refine ⟨fun h e => ?_, ⟨by show -2 ^ 63 ≤ p.round; omega, by show p.round < 2 ^ 63; omega⟩,
    ⟨by show -2 ^ 63 ≤ p.polRound; omega, by show p.polRound < 2 ^ 63; omega⟩, by show p.proposer.length < 2 ^ 32; omega, fun h e => ?_⟩
  · cases e; exact h1
  · cases e; exact h4

end Wire
end Verif
