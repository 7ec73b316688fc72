import Verif.Lemmas.WireSync
import Verif.Props.C98
/-!
C100: what a peer serves to a node that catches up is what the node gets.
-/
namespace Verif
namespace Wire

section
variable {roundOf : Int → Int}

/-- **C100**, responses: a decided value with its certificate, or a set of signed votes, is decoded as it was sent, and goes
to its shard.  Only a response without a value is not sent. -/
theorem C100_response_arrives (hr : ∀ r, IsRound r → roundOf r = r) (r : Response) (hf : r.Fits) :
    (encodeResponse r = none ↔ ∃ h, r = .value h none) ∧
    ∀ b, encodeResponse r = some b → b.length < 2 ^ 64 →
      decodeResponse roundOf b = .got r ∧ routeResponse roundOf b = .got r.shard := by
  cases r with
  | value h d =>
    cases d with
    | none => exact ⟨⟨fun _ => ⟨h, rfl⟩, fun _ => rfl⟩, fun b e => by cases e⟩
    | some x =>
      obtain ⟨full, cert⟩ := x
      refine ⟨⟨(fun e => by cases e), fun ⟨h, e⟩ => by cases e⟩, fun b e hl => ?_⟩
      have hc : FitsCertificate cert := hf.2 _ rfl
      cases e
      have hrd := hc.round
      unfold IsRound at hrd
      have h1 := read_value (limit := 99) (limit' := 98) (full := full) (c := ofCertificate cert) hf.1
        (fun h e => by cases e; exact hc.height)
        ⟨by show -2 ^ 63 ≤ cert.round; omega, by show cert.round < 2 ^ 63; omega⟩ (fun h e => by cases e; exact hc.value) (inner_length hl)
      have h2 := read_response hl h1
      have h3 : decodeResponse roundOf (put (responseFields (.value ⟨some h, full, some (ofCertificate cert)⟩))) =
          .got (.value h (some (full, cert))) := by
        unfold decodeResponse
        rw [h2]
        simp only [toCertificate_of hr hc]
      exact ⟨h3, by unfold routeResponse; rw [h3]; rfl⟩
  | votes h r vs =>
    refine ⟨⟨(fun e => by cases e), fun ⟨h, e⟩ => by cases e⟩, fun b e hl => ?_⟩
    obtain ⟨f1, f2, f3⟩ := hf
    cases e
    have f2' := f2
    unfold IsRound at f2'
    have hl' : (put (msgField 2 (some (votesFields ⟨some h, r, vs.map (·.1.proto), vs.map (·.2)⟩)))).length < 2 ^ 64 := hl
    have hp : ∀ v ∈ vs.map (·.1.proto), v.Fits := by
      intro v hv
      obtain ⟨x, hx, rfl⟩ := List.mem_map.1 hv
      exact fits_vote (f3 x hx)
    have l1 := inner_length hl'
    have f2r : -2 ^ 63 ≤ r ∧ r < 2 ^ 63 := ⟨by omega, by omega⟩
    have h1 := read_votes (limit := 99) (limit' := 98) (h := h) (vs := vs.map (·.1.proto)) (ss := vs.map (·.2)) (r := r) f1 f2r hp l1
    have h2 := read_response hl h1
    have h3 : decodeResponse roundOf (put (responseFields (.votes ⟨some h, r, vs.map (·.1.proto), vs.map (·.2)⟩))) =
        .got (.votes h r vs) := by
      unfold decodeResponse
      rw [h2]
      simp only [zipVotes_of hr vs f3, hr r f2]
    exact ⟨h3, by unfold routeResponse; rw [h3]; rfl⟩

/-- **C100**, requests: what is asked for is what the peer is asked. -/
theorem C100_request_arrives (hr : ∀ r, IsRound r → roundOf r = r) (r : Request) (hf : r.Fits) :
    decodeRequest roundOf (encodeRequest r) = .got r := by
  have hg : ∀ (t : Nat) (fs : List Field), 1 ≤ t ∧ t < 2 ^ 29 → (put fs).length < 2 ^ 64 → ∀ f ∈ msgField t (some fs), Good f :=
    fun t fs ht hl => good_msg ht (fun x e => by cases e; exact hl)
  cases r with
  | value h =>
    have l1 : (put (heightFields h)).length < 2 ^ 64 := by have := height_length h; omega
    have l2 : (put (msgField 1 (some (heightFields h)))).length < 2 ^ 64 := by
      have := put_msg_length 1 (some (heightFields h)) 40 (fun fs e => by cases e; exact height_length h); omega
    unfold decodeRequest encodeRequest
    simp only
    rw [readMsg_put (hg 1 _ (by omega) l2)]
    simp only [msgField, mergeFields, requestArmStep]
    rw [show put [(1, WVal.str (put (heightFields h)))] = put (msgField 1 (some (heightFields h))) from rfl, readMsg_put (hg 1 _ (by omega) l1)]
    simp only [msgField, mergeFields, requestStep, Option.getD_none, read_height (show FitsHeight h from hf), Option.map_some]
    rfl
  | votes h r =>
    obtain ⟨f1, f2⟩ := hf
    have f2' := f2
    unfold IsRound at f2'
    have l1 : (put (heightFields h)).length < 2 ^ 64 := by have := height_length h; omega
    have l2 : (put (msgField 1 (some (heightFields h)) ++ numField 2 (ofInt r))).length < 2 ^ 64 := by
      have h1 := put_msg_length 1 (some (heightFields h)) 40 (fun fs e => by cases e; exact height_length h)
      have h2 := put_num_length 2 (ofInt r)
      rw [put_append, List.length_append]; omega
    unfold decodeRequest encodeRequest
    simp only
    rw [readMsg_put (hg 2 _ (by omega) l2)]
    simp only [msgField, mergeFields, requestArmStep]
    rw [show [(1, WVal.str (put (heightFields h)))] = msgField 1 (some (heightFields h)) from rfl,
      readMsg_put (fun f hf => by
        rcases List.mem_append.1 hf with hf | hf
        · exact hg 1 _ (by omega) l1 f hf
        · exact good_num (by omega) (ofInt_lt _) f hf), mergeFields_append]
    simp only [msgField, mergeFields, requestStep, Option.getD_none, read_height f1, Option.map_some, Option.bind_some]
    have e2 : mergeFields (requestStep (99 - 1) true) { height := some h } (numField 2 (ofInt r)) = some ⟨some h, r⟩ := by
      unfold numField
      split
      · rename_i e; rw [ofInt_zero ⟨by omega, by omega⟩ e]; rfl
      · simp [mergeFields, requestStep, toI64_ofInt (i := r) ⟨by omega, by omega⟩]
    simp only [e2, Option.map_some, hr r f2, if_true]

/-- **C100**, statuses: the heights a peer announces are those that are heard, also after gossip encodes the message again. -/
theorem C100_status_arrives {isPeer : Bytes → Bool} (s : Status) (hp : isPeer s.peer = true) (hl : s.peer.length < 2 ^ 32)
    (h1 : FitsHeight s.height) (h2 : FitsHeight s.minHeight) :
    decodeStatus isPeer (encodeStatus s) = .got s ∧
    (readMsg 100 (statusStep 99) {} (encodeStatus s)).map (fun m => put (statusFields m)) = some (encodeStatus s) := by
  have hs : ∀ f ∈ statusFields ⟨s.peer, some s.height, some s.minHeight⟩, Good f := by
    intro f hf
    unfold statusFields at hf
    simp only [List.mem_append, Option.map_some] at hf
    rcases hf with (hf | hf) | hf
    · exact good_str (by omega) (show s.peer.length < 2 ^ 64 by omega) f hf
    · exact good_msg (t := 2) (by omega) (fun fs e => by cases e; have := height_length s.height; omega) f hf
    · exact good_msg (t := 3) (by omega) (fun fs e => by cases e; have := height_length s.minHeight; omega) f hf
  have e : readMsg 100 (statusStep 99) {} (encodeStatus s) = some ⟨s.peer, some s.height, some s.minHeight⟩ := by
    unfold encodeStatus
    rw [readMsg_put hs, statusFields, mergeFields_append, mergeFields_append]
    have e1 : mergeFields (statusStep 99) {} (strField 1 s.peer) = some { peer := s.peer } := by
      unfold strField
      split
      · rename_i e; rw [e]; rfl
      · rfl
    simp only [e1, Option.bind_some, Option.map_some, msgField, mergeFields, statusStep, Option.getD_none, read_height h1, read_height h2]
  refine ⟨?_, ?_⟩
  · unfold decodeStatus
    rw [e]
    simp [hp]
  · rw [e]; rfl

/-- **C100**, certificates: the certificate kept with a block is the one that was decided, and is served as such. -/
theorem C100_certificate_kept (hr : ∀ r, IsRound r → roundOf r = r) (c : Commits) (hc : FitsCertificate c) :
    toCertificate roundOf (ofCertificate c) = some c := toCertificate_of hr hc

/-- **C100**, catching up: whatever bytes a peer answers with, if they are decoded as a value with a certificate that is
accepted, then distinct validators of the set in charge of its height, more than two thirds of it, precommitted to the value that
the certificate names. -/
theorem C100_accepted_value_was_decided {verify : Bytes → Bytes → Bytes → Bool} {said : Bytes → Statement → Prop}
    (hround : ∀ r, IsRound (roundOf r)) {shard : Nat} {first : SetConfig} {others : List SetConfig}
    (hkeys : ∀ h, ∀ k ∈ Spec.inCharge (Spec.configured shard first others) h, k.length = 32)
    (hsaid : ∀ key b sig, verify key b sig = true → ∃ st, said key st ∧ st.Fits ∧ st.signBytes = b)
    {raw : Bytes} (hl : raw.length < 2 ^ 32) {h : BlockHeight} {full : Bytes} {cert : Commits}
    (hd : decodeResponse roundOf raw = .got (.value h (some (full, cert))))
    (hv : verifySignatures (crypto roundOf verify) (Spec.configured shard first others) cert = true) :
    ∃ signers : List Bytes, signers.Nodup ∧
      (∀ k ∈ signers, k ∈ Spec.inCharge (Spec.configured shard first others) cert.height.block ∧
        Precommitted said k cert.height (roundOf cert.round) cert.value) ∧
      2 * (Spec.inCharge (Spec.configured shard first others) cert.height.block).length < 3 * signers.length := by
  have hc : FitsHeight cert.height ∧ FitsHash cert.value := by
    unfold decodeResponse at hd
    split at hd
    · cases hd
    · cases hd
    · rename_i v hr
      have hread : ValueRead v := readResponse_read hl hr
      split at hd
      · cases hd
      · rename_i c hc
        split at hd
        · cases hd
        · rename_i cert' ht
          split at hd
          · cases hd
          · cases hd
            unfold toCertificate at ht
            split at ht
            · rename_i x y hx hy
              split at ht <;> cases ht
              exact ⟨(hread c hc).1 _ hx, (hread c hc).2 _ hy⟩
            · cases ht
    · split at hd
      · cases hd
      · split at hd <;> cases hd
  exact C98_certificate_means_precommits hkeys hsaid hc.1 (hround _) hc.2 hv

/-- **C100**, panics: the responses that make the gossip task of the node that asked panic are exactly those with a
certificate that lacks its height, its value or the 32 bytes of a signer, and those with a signed vote that is not complete. -/
theorem C100_panics_exactly (raw : Bytes) :
    routeResponse roundOf raw = .panic ↔
      (∃ v c, readResponse raw = some (some (.value v)) ∧ v.commits = some c ∧ BadCommits c) ∨
      (∃ v, readResponse raw = some (some (.votes v)) ∧ BadVotes v) := by
  have e : routeResponse roundOf raw = .panic ↔ decodeResponse roundOf raw = .panic := by
    unfold routeResponse
    split <;> simp_all
  rw [e]
  unfold decodeResponse
  cases h : readResponse raw with
  | none => simp
  | some r =>
    cases r with
    | none => simp
    | some r =>
      cases r with
      | value v =>
        cases hc : v.commits with
        | none => simp [hc]
        | some c =>
          simp only [hc]
          cases ht : toCertificate roundOf c with
          | none => simp [hc, toCertificate_none.1 ht]
          | some cert =>
            have hb : ¬ BadCommits c := fun hb => by rw [toCertificate_none.2 hb] at ht; cases ht
            cases hh : v.height <;> simp [hc, hb]
      | votes v =>
        cases hz : zipVotes roundOf v.votes v.sigs with
        | none => simp [hz, show BadVotes v from (zipVotes_none _ _).1 hz]
        | some l =>
          have hb : ¬ BadVotes v := fun hb => by rw [(zipVotes_none _ _).2 hb] at hz; cases hz
          cases hh : v.height <;> simp [hz, hh, hb]

/-- **C100**: four bytes in answer to a request make the gossip task panic: a value with an empty certificate. -/
theorem C100_four_bytes_stop_gossip : routeResponse roundOf [0x0A, 2, 0x1A, 0] = .panic := rfl

/-- **C100**: signatures without votes, and votes without signatures, are dropped without an error. -/
theorem C100_unpaired_votes_dropped :
    decodeResponse roundOf [0x12, 7, 0x0A, 0, 0x22, 1, 5, 0x1A, 0] = .panic ∧
    decodeResponse roundOf [0x12, 5, 0x0A, 0, 0x22, 1, 5] = .got (.votes ⟨0, 0⟩ (roundOf 0) []) ∧
    decodeResponse roundOf [0x12, 4, 0x0A, 0, 0x1A, 0] = .got (.votes ⟨0, 0⟩ (roundOf 0) []) := ⟨rfl, rfl, rfl⟩

end

/-- A value with a certificate of two validators meets the hypotheses; it goes out and comes back. -/
example : Response.Fits (.value ⟨1, 300⟩ (some ([1, 2], ⟨⟨1, 300⟩, 0, ⟨1, [9]⟩, [(List.replicate 32 7, [5]), (List.replicate 32 8, [6])]⟩))) ∧
    Response.Fits (.votes ⟨1, 300⟩ (-1) [(⟨true, ⟨1, 300⟩, 2, some ⟨1, [1, 2, 3]⟩, List.replicate 32 7⟩, [5])]) ∧
    Request.Fits (.votes ⟨1, 300⟩ (-1)) := by
  refine ⟨⟨by decide, fun x e => by cases e; exact ⟨by decide, by decide, by decide, by decide⟩⟩, ⟨by decide, by decide, ?_⟩, by decide, by decide⟩
  intro x hx
  cases List.mem_singleton.1 hx
  exact ⟨by decide, by decide, (fun h e => by cases e; decide), by decide⟩

example : (encodeResponse (.value ⟨1, 300⟩ (some ([1, 2], ⟨⟨1, 300⟩, 0, ⟨1, [9]⟩, [(List.replicate 32 7, [5])]⟩)))).map (·.length) = some 68 := by
  decide +kernel

namespace Case100
open Case98

/-- Rounds as Malachite reads them: negative numbers are none. -/
def roundOf (r : Int) : Int := if r < 0 then -1 else r % 2 ^ 32

def raw : Bytes := (encodeResponse (.value ⟨1, 5⟩ (some ([1, 2], cert [key 1, key 2, key 3])))).getD []

/-- The theorem applies to the certificate of the three precommits of C98, served by a peer. -/
example : ∃ signers : List Bytes, signers.Nodup ∧
    (∀ k ∈ signers, k ∈ Spec.inCharge (Spec.configured 1 cfg []) 5 ∧ Precommitted said k ⟨1, 5⟩ 0 ⟨1, [9]⟩) ∧
    2 * (Spec.inCharge (Spec.configured 1 cfg []) 5).length < 3 * signers.length := by
  refine C100_accepted_value_was_decided (roundOf := roundOf) (verify := verify) (said := said) (raw := raw) (h := ⟨1, 5⟩)
    (full := [1, 2]) (cert := cert [key 1, key 2, key 3]) ?_ ?_ ?_ (by decide +kernel) (by decide +kernel) (by decide +kernel)
  · intro r
    unfold IsRound roundOf
    split <;> omega
  · intro h k hk
    rw [charge] at hk
    simp only [List.mem_cons, List.not_mem_nil, or_false] at hk
    rcases hk with rfl | rfl | rfl | rfl <;> rfl
  · intro k b s hs
    obtain ⟨x, hx, e⟩ := List.any_eq_true.1 hs
    simp only [Bool.and_eq_true, decide_eq_true_eq] at e
    obtain ⟨⟨rfl, e2⟩, _⟩ := e
    exact ⟨x.2, hx, fits x hx, e2⟩

end Case100
end Wire
end Verif
