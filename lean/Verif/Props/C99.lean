import Verif.Lemmas.WireRead
/-!
C99: what validators say is what the others hear; messages that are not complete stop a node.
-/
namespace Verif
namespace Wire

section
variable {roundOf : Int → Int} {okValue : Bytes → Bool} {okOther : Nat → Bytes → Bool}

theorem arrives_of {b : PBody} {sig : Bytes} (hf : b.Fits) (hs : sig.length < 2 ^ 32) {h : BlockHeight} (hh : b.height = some h) :
    arrives roundOf okValue okOther (gossipBytes b sig) = codecDecode roundOf (put (consensusFields ⟨some b, sig⟩)) := by
  have hid : shardId ⟨some b, sig⟩ = some h.shard := by
    cases b with
    | vote v => show v.height.map (·.shard) = _; rw [show v.height = some h from hh]; rfl
    | proposal p => show p.height.map (·.shard) = _; rw [show p.height = some h from hh]; rfl
  unfold arrives gossipIn
  rw [read_gossip hf hs]
  simp only [hid]

theorem decode_of {b : PBody} {sig : Bytes} (hf : b.Fits) (hs : sig.length < 2 ^ 32) :
    codecDecode roundOf (put (consensusFields ⟨some b, sig⟩)) = (match b with
      | .vote v => match CVote.ofProto roundOf v with
        | none => .panic
        | some v => .vote v sig
      | .proposal p => match CProposal.ofProto roundOf p with
        | none => .panic
        | some p => .proposal p sig) := by
  unfold codecDecode readConsensus
  rw [read_consensus hf hs]
  cases b <;> rfl

/-- **C99**, votes: a signed vote that is broadcast arrives as this vote with this signature. -/
theorem C99_vote_arrives (hr : ∀ r, IsRound r → roundOf r = r) (v : CVote) (hv : v.Fits) (sig : Bytes) (hs : sig.length < 2 ^ 32) :
    arrives roundOf okValue okOther (gossipVote v sig) = .vote v sig := by
  have hf : (PBody.vote v.proto).Fits := fits_vote hv
  have e := arrives_of (roundOf := roundOf) (okValue := okValue) (okOther := okOther) hf hs (h := v.height) rfl
  show arrives roundOf okValue okOther (gossipBytes (.vote v.proto) sig) = _
  rw [e, decode_of hf hs]
  have : CVote.ofProto roundOf v.proto = some v := by
    obtain ⟨p, h, r, x, k⟩ := v
    have h1 := hr r hv.round
    have h2 : k.length = 32 := hv.voter
    cases p <;> simp [CVote.ofProto, CVote.proto, h1, h2]
  simp only [this]

/-- **C99**, proposals: a signed proposal that is broadcast arrives as this proposal with this signature. -/
theorem C99_proposal_arrives (hr : ∀ r, IsRound r → roundOf r = r) (p : CProposal) (hp : p.Fits) (sig : Bytes)
    (hs : sig.length < 2 ^ 32) : arrives roundOf okValue okOther (gossipProposal p sig) = .proposal p sig := by
  have hf : (PBody.proposal p.proto).Fits := fits_proposal hp
  have e := arrives_of (roundOf := roundOf) (okValue := okValue) (okOther := okOther) hf hs (h := p.height) rfl
  show arrives roundOf okValue okOther (gossipBytes (.proposal p.proto) sig) = _
  rw [e, decode_of hf hs]
  have : CProposal.ofProto roundOf p.proto = some p := by
    obtain ⟨h, r, x, q, k⟩ := p
    have h1 := hr r hp.round
    have h2 := hr q hp.polRound
    have h3 : k.length = 32 := hp.proposer
    simp [CProposal.ofProto, CProposal.proto, h1, h2, h3]
  simp only [this]

/-- **C99**, panics: of the consensus messages a peer may send, those without a height are dropped; of the others, exactly
those that are not complete make the network connector panic, whoever sent them and whatever their signature. -/
theorem C99_incomplete_panics (b : PBody) (sig : Bytes) (hf : b.Fits) (hs : sig.length < 2 ^ 32) :
    (b.height = none → arrives roundOf okValue okOther (gossipBytes b sig) = .refused) ∧
    (b.height ≠ none → (arrives roundOf okValue okOther (gossipBytes b sig) = .panic ↔ ¬ b.Complete)) := by
  refine ⟨fun hn => ?_, fun hn => ?_⟩
  · have hid : shardId ⟨some b, sig⟩ = none := by
      cases b with
      | vote v => show v.height.map (·.shard) = _; rw [show v.height = none from hn]; rfl
      | proposal p => show p.height.map (·.shard) = _; rw [show p.height = none from hn]; rfl
    unfold arrives gossipIn
    rw [read_gossip hf hs]
    simp only [hid]
  · obtain ⟨h, hh⟩ := Option.ne_none_iff_exists'.1 hn
    rw [arrives_of hf hs hh, decode_of hf hs]
    cases b with
    | vote v =>
      have hh : v.height = some h := hh
      simp only [PBody.Complete, CVote.ofProto, hh]
      by_cases h1 : v.ty = 0 ∨ v.ty = 1
      · have h1' : ¬ (v.ty ≠ 0 ∧ v.ty ≠ 1) := by omega
        rw [if_neg h1']
        by_cases h2 : v.voter.length = 32
        · simp [h1, h2]
        · simp [h2]
      · have h1' : v.ty ≠ 0 ∧ v.ty ≠ 1 := by omega
        rw [if_pos h1']
        simp [h1]
    | proposal p =>
      have hh : p.height = some h := hh
      simp only [PBody.Complete, CProposal.ofProto, hh]
      cases hv : p.value with
      | none => simp
      | some x =>
        by_cases h2 : p.proposer.length = 32
        · simp [h2]
        · simp [h2]

/-- **C99**, all bytes: what becomes of bytes that hold a consensus message depends only on the message, not on how it was
encoded: they are heard as the plain encoding of this message is heard, and as they would be without the second encoding. -/
theorem C99_encoding_is_irrelevant {raw : Bytes} (hl : raw.length < 2 ^ 32) {m : PConsensus}
    (h : readMsg 100 (gossipStep okValue okOther) none raw = some (some (.consensus m))) :
    (m.body = none → arrives roundOf okValue okOther raw = .refused) ∧
    (∀ b, m.body = some b → arrives roundOf okValue okOther raw = arrives roundOf okValue okOther (gossipBytes b m.signature)) := by
  have hm := readGossip_fits hl h
  obtain ⟨body, sig⟩ := m
  refine ⟨fun e => ?_, fun b e => ?_⟩
  · cases e
    unfold arrives gossipIn
    rw [h]
    rfl
  · cases e
    unfold arrives gossipIn
    rw [h, read_gossip (hm.1 b rfl) hm.2]

/-- **C99**, all bytes: the bytes from a peer that make a node panic are exactly full proposals without a height, and votes
and proposals with a height that are not complete. -/
theorem C99_panics_exactly (raw : Bytes) (hl : raw.length < 2 ^ 32) :
    arrives roundOf okValue okOther raw = .panic ↔
      (∃ p, readMsg 100 (gossipStep okValue okOther) none raw = some (some (.full p)) ∧ p.height = none) ∨
      (∃ b sig, readMsg 100 (gossipStep okValue okOther) none raw = some (some (.consensus ⟨some b, sig⟩)) ∧
        b.height ≠ none ∧ ¬ b.Complete) := by
  cases h : readMsg 100 (gossipStep okValue okOther) none raw with
  | none => simp [arrives, gossipIn, h]
  | some g =>
    cases g with
    | none => simp [arrives, gossipIn, h]
    | some g =>
      cases g with
      | other => simp [arrives, gossipIn, h]
      | full p => cases hp : p.height <;> simp [arrives, gossipIn, h, hp]
      | consensus m =>
        have hm := readGossip_fits hl h
        obtain ⟨h1, h2⟩ := C99_encoding_is_irrelevant (roundOf := roundOf) hl h
        obtain ⟨body, sig⟩ := m
        cases body with
        | none => rw [h1 rfl]; simp
        | some b =>
          rw [h2 b rfl]
          obtain ⟨g1, g2⟩ := C99_incomplete_panics (roundOf := roundOf) (okValue := okValue) (okOther := okOther) b sig (hm.1 b rfl) hm.2
          by_cases hb : b.height = none
          · rw [g1 hb]; simp [hb]
          · rw [g2 hb]; simp [hb]

/-- **C99**, all bytes: a vote that is heard was in the bytes that came, with its signature. -/
theorem C99_heard_was_said {raw : Bytes} (hl : raw.length < 2 ^ 32) {v : CVote} {sig : Bytes}
    (h : arrives roundOf okValue okOther raw = .vote v sig) :
    ∃ p, readMsg 100 (gossipStep okValue okOther) none raw = some (some (.consensus ⟨some (.vote p), sig⟩)) ∧
      p.ty = (if v.precommit then 1 else 0) ∧ p.height = some v.height ∧ roundOf p.round = v.round ∧ p.value = v.value ∧
      p.voter = v.voter := by
  cases hr : readMsg 100 (gossipStep okValue okOther) none raw with
  | none => simp [arrives, gossipIn, hr] at h
  | some g =>
    cases g with
    | none => simp [arrives, gossipIn, hr] at h
    | some g =>
      cases g with
      | other => simp [arrives, gossipIn, hr] at h
      | full p => cases hp : p.height <;> simp [arrives, gossipIn, hr, hp] at h
      | consensus m =>
        have hm := readGossip_fits hl hr
        obtain ⟨h1, h2⟩ := C99_encoding_is_irrelevant (roundOf := roundOf) hl hr
        obtain ⟨body, s⟩ := m
        cases body with
        | none => rw [h1 rfl] at h; cases h
        | some b =>
          rw [h2 b rfl] at h
          obtain ⟨g1, g2⟩ := C99_incomplete_panics (roundOf := roundOf) (okValue := okValue) (okOther := okOther) b s (hm.1 b rfl) hm.2
          cases hh : b.height with
          | none => rw [g1 hh] at h; cases h
          | some x =>
            rw [arrives_of (hm.1 b rfl) hm.2 hh, decode_of (hm.1 b rfl) hm.2] at h
            cases b with
            | proposal p =>
              simp only at h
              split at h <;> cases h
            | vote p =>
              have hh : p.height = some x := hh
              simp only at h
              split at h
              · cases h
              · rename_i w hw
                cases h
                refine ⟨p, rfl, ?_⟩
                unfold CVote.ofProto at hw
                split at hw
                · cases hw
                · rename_i hty
                  simp only [hh] at hw
                  split at hw
                  · cases hw
                  · cases hw
                    have : p.ty = 0 ∨ p.ty = 1 := by omega
                    rcases this with e | e <;> simp [e, hh]

/-- Two bytes from any peer make the gossip task panic: a full proposal without a height. -/
theorem C99_two_bytes_stop_gossip : gossipIn okValue okOther [0x12, 0] = .panic := rfl

/-- Six bytes from any peer make the network connector panic: a vote with a height and nothing else, not signed. -/
theorem C99_six_bytes_stop_connector : arrives roundOf okValue okOther [0x0A, 4, 0x0A, 2, 0x12, 0] = .panic := rfl

end

/-- The theorems apply to a precommit for a value, to a vote for none, and to a proposal. -/
example : CVote.Fits ⟨true, ⟨1, 300⟩, 2, some ⟨1, [1, 2, 3]⟩, List.replicate 32 7⟩ ∧
    CVote.Fits ⟨false, ⟨1, 300⟩, -1, none, List.replicate 32 7⟩ ∧
    CProposal.Fits ⟨⟨1, 300⟩, 2, ⟨1, [1, 2, 3]⟩, -1, List.replicate 32 7⟩ ∧
    PBody.Fits (.vote ⟨2, some ⟨1, 300⟩, 0, none, [1]⟩) ∧ ¬ PBody.Complete (.vote ⟨2, some ⟨1, 300⟩, 0, none, [1]⟩) :=
  ⟨⟨by decide, by decide, fun h e => by cases e; decide, by decide⟩, ⟨by decide, by decide, (fun h e => by cases e), by decide⟩,
    ⟨by decide, by decide, by decide, by decide, by decide⟩,
    ⟨by decide, (fun h e => by cases e; decide), by decide, (fun h e => by cases e), by decide⟩, fun h => by rcases h.1 with h | h <;> cases h⟩

/-- Bytes that no validator would send: the signature twice, a field the code does not know and a long zero.  The last
signature counts. -/
example : readMsg 100 (gossipStep (fun _ => true) (fun _ _ => true)) none
    [0x0A, 16, 0x1A, 1, 5, 0x0A, 2, 0x12, 0, 0x1A, 1, 9, 0x78, 0x80, 0x80, 0x00, 0x7D, 1] = none ∧
    readMsg 100 (gossipStep (fun _ => true) (fun _ _ => true)) none
    [0x0A, 14, 0x1A, 1, 5, 0x0A, 2, 0x12, 0, 0x1A, 1, 9, 0x78, 0x80, 0x80, 0x00] =
      some (some (.consensus ⟨some (.vote { height := some ⟨0, 0⟩ }), [9]⟩)) := by decide +kernel

/-- The bytes of a precommit, as they are sent. -/
example : gossipVote ⟨true, ⟨1, 300⟩, -1, some ⟨1, [7]⟩, [5]⟩ [9] =
    [0x0A, 35, 0x0A, 30, 8, 1, 0x12, 5, 8, 1, 0x10, 0xAC, 2, 0x18, 255, 255, 255, 255, 255, 255, 255, 255, 255, 1,
      0x22, 5, 8, 1, 0x12, 1, 7, 0x2A, 1, 5, 0x1A, 1, 9] := by decide +kernel

end Wire
end Verif
