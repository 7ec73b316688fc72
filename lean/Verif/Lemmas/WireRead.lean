import Verif.Lemmas.WireMsgs
/-!
Lemmas for the wire format: whatever can be read fits the types.
-/
namespace Verif
namespace Wire

theorem readVarintAux_lt : ∀ (f : Nat) (b : Bytes) (n : Nat) (r : Bytes), readVarintAux (f + 1) b = some (n, r) →
    n < 2 ^ (7 * f + 1) ∧ r.length ≤ b.length
  | _, [], n, r, h => by cases h
  | 0, x :: l, n, r, h => by
    unfold readVarintAux at h
    split at h
    · split at h
      · cases h
      · rename_i h1 h2
        cases h
        have : ¬ (x.toNat ≥ 2) := by simpa using h2
        exact ⟨by simp only [Nat.mul_zero, Nat.zero_add, Nat.pow_one]; omega, by simp⟩
    · simp only [readVarintAux] at h
      cases h
  | f + 1, x :: l, n, r, h => by
    unfold readVarintAux at h
    have hp : 2 ^ (7 * (f + 1) + 1) = 2 ^ (7 * f + 1) * 128 := by
      rw [show 7 * (f + 1) + 1 = (7 * f + 1) + 7 by omega, Nat.pow_add]
    have h1 : 1 ≤ 2 ^ (7 * f + 1) := Nat.one_le_two_pow
    split at h
    · split at h
      · cases h
      · cases h
        exact ⟨by rw [hp]; omega, by simp⟩
    · split at h
      · cases h
      · rename_i v r' hv
        cases h
        obtain ⟨g1, g2⟩ := readVarintAux_lt f l v _ hv
        exact ⟨by rw [hp]; omega, by simp only [List.length_cons]; omega⟩

theorem readVarint_lt {b : Bytes} {n : Nat} {r : Bytes} (h : readVarint b = some (n, r)) : n < 2 ^ 64 ∧ r.length ≤ b.length :=
  readVarintAux_lt 9 b n r h

/-- The value of a field of a message of at most `N` bytes. -/
def Bounded (N : Nat) : WVal → Prop
  | .num n => n < 2 ^ 64
  | .str b => b.length ≤ N
  | .alien => True

theorem readKey_length {b : Bytes} {k : Nat × Nat} {r : Bytes} (h : readKey b = some (k, r)) : r.length ≤ b.length := by
  unfold readKey at h
  split at h
  · cases h
  · rename_i v r' hv
    split at h <;> cases h
    exact (readVarint_lt hv).2

theorem readPlain_bounded {w : Nat} {b : Bytes} {v : WVal} {r : Bytes} (h : readPlain w b = some (v, r)) :
    Bounded b.length v ∧ r.length ≤ b.length := by
  unfold readPlain at h
  split at h
  · obtain ⟨⟨n, r'⟩, h1, h2⟩ := Option.map_eq_some_iff.1 h
    cases h2
    exact readVarint_lt h1
  · split at h
    · split at h <;> cases h
      exact ⟨trivial, by simp⟩
    · split at h
      · obtain ⟨⟨s, r'⟩, h1, h2⟩ := Option.map_eq_some_iff.1 h
        cases h2
        unfold readStr at h1
        split at h1
        · cases h1
        · rename_i n r0 hv
          have := (readVarint_lt hv).2
          split at h1 <;> cases h1
          exact ⟨by show (r0.take n).length ≤ _; rw [List.length_take]; omega, by rw [List.length_drop]; omega⟩
      · split at h
        · split at h <;> cases h
          exact ⟨trivial, by simp⟩
        · cases h

theorem skipGroup_length : ∀ (f limit tag : Nat) (b r : Bytes), skipGroup f limit tag b = some r → r.length ≤ b.length
  | 0, _, _, _, _, h => by cases h
  | f + 1, limit, tag, b, r, h => by
    unfold skipGroup at h
    split at h
    · cases h
    · rename_i t w r0 hk
      have h0 := readKey_length hk
      split at h
      · split at h <;> cases h
        exact h0
      · split at h
        · cases h
        · split at h
          · cases h
          · rename_i r1 h1
            have g := skipGroup_length f _ _ _ _ h
            split at h1
            · have := skipGroup_length f _ _ _ _ h1; omega
            · obtain ⟨x, hx, rfl⟩ := Option.map_eq_some_iff.1 h1
              have := (readPlain_bounded hx).2; omega

theorem readValue_bounded {limit t w : Nat} {b : Bytes} {v : WVal} {r : Bytes} (h : readValue limit t w b = some (v, r)) :
    Bounded b.length v ∧ r.length ≤ b.length := by
  unfold readValue at h
  split at h
  · obtain ⟨x, hx, e⟩ := Option.map_eq_some_iff.1 h
    cases e
    exact ⟨trivial, skipGroup_length _ _ _ _ _ hx⟩
  · exact readPlain_bounded h

theorem Bounded.mono {N M : Nat} (h : N ≤ M) : ∀ {v : WVal}, Bounded N v → Bounded M v
  | .num _, hb => hb
  | .str _, hb => Nat.le_trans hb h
  | .alien, _ => trivial

theorem readFields_bounded (limit : Nat) : ∀ (f : Nat) (b : Bytes) (fs : List Field), readFields limit f b = some fs →
    ∀ x ∈ fs, Bounded b.length x.2
  | f, [], fs, h, x, hx => by
    cases f <;> (cases h; cases hx)
  | 0, _ :: _, fs, h, x, hx => by cases h
  | f + 1, y :: l, fs, h, x, hx => by
    unfold readFields at h
    split at h
    · cases h
    · rename_i t w r hk
      have h0 := readKey_length hk
      split at h
      · cases h
      · rename_i v r' hv
        obtain ⟨g1, g2⟩ := readValue_bounded hv
        obtain ⟨fs', h1, rfl⟩ := Option.map_eq_some_iff.1 h
        rcases List.mem_cons.1 hx with rfl | hx
        · exact g1.mono h0
        · exact (readFields_bounded limit f r' fs' h1 x hx).mono (by omega)

theorem mergeFields_keeps {S : Type} {step : S → Field → Option S} {P : S → Prop} {Q : Field → Prop}
    (hstep : ∀ s f s', P s → Q f → step s f = some s' → P s') :
    ∀ (fs : List Field) (s s' : S), P s → (∀ f ∈ fs, Q f) → mergeFields step s fs = some s' → P s'
  | [], s, s', hp, _, h => by cases h; exact hp
  | f :: fs, s, s', hp, hq, h => by
    unfold mergeFields at h
    split at h
    · cases h
    · rename_i s1 h1
      exact mergeFields_keeps hstep fs s1 s' (hstep s f s1 hp (hq f List.mem_cons_self) h1)
        (fun x hx => hq x (List.mem_cons_of_mem _ hx)) h

theorem readMsg_keeps {S : Type} {step : S → Field → Option S} {P : S → Prop} {limit N : Nat} {b : Bytes} (hb : b.length ≤ N)
    (hstep : ∀ s f s', P s → Bounded N f.2 → step s f = some s' → P s') {s s' : S} (hp : P s)
    (h : readMsg limit step s b = some s') : P s' := by
  unfold readMsg at h
  split at h
  · cases h
  · rename_i fs hfs
    exact mergeFields_keeps (Q := fun f => Bounded N f.2) hstep fs s s' hp
      (fun f hf => (readFields_bounded limit _ _ _ hfs f hf).mono hb) h

theorem heightStep_keeps {N : Nat} (s : BlockHeight) (f : Field) (s' : BlockHeight) (hp : FitsHeight s) (hb : Bounded N f.2)
    (h : heightStep s f = some s') : FitsHeight s' := by
  unfold heightStep at h
  split at h <;> cases h
  · exact ⟨Nat.mod_lt _ (by omega), hp.2⟩
  · exact ⟨hp.1, hb⟩
  · exact hp

theorem hashStep_keeps {N : Nat} (hN : N < 2 ^ 32) (s : ShardHash) (f : Field) (s' : ShardHash) (hp : FitsHash s) (hb : Bounded N f.2)
    (h : hashStep s f = some s') : FitsHash s' := by
  unfold hashStep at h
  split at h <;> cases h
  · exact ⟨Nat.mod_lt _ (by omega), hp.2⟩
  · exact ⟨hp.1, Nat.lt_of_le_of_lt hb hN⟩
  · exact hp

theorem toI64_range {n : Nat} (h : n < 2 ^ 64) : -2 ^ 63 ≤ toI64 n ∧ toI64 n < 2 ^ 63 := by
  unfold toI64; split <;> omega

theorem toI32_range (n : Nat) : -2 ^ 31 ≤ toI32 n ∧ toI32 n < 2 ^ 31 := by
  unfold toI32; split <;> omega

theorem voteStep_keeps {N limit : Nat} (hN : N < 2 ^ 32) (s : PVote) (f : Field) (s' : PVote) (hp : s.Fits) (hb : Bounded N f.2)
    (h : voteStep limit s f = some s') : s'.Fits := by
  obtain ⟨p1, p2, p3, p4, p5⟩ := hp
  unfold voteStep at h
  split at h
  · cases h; exact ⟨toI32_range _, p2, p3, p4, p5⟩
  · obtain ⟨x, hx, rfl⟩ := Option.map_eq_some_iff.1 h
    refine ⟨p1, fun y e => ?_, p3, p4, p5⟩
    cases e
    refine readMsg_keeps (P := FitsHeight) hb heightStep_keeps ?_ hx
    cases hh : s.height with
    | none => exact ⟨by decide, by decide⟩
    | some y => exact p2 y hh
  · cases h; exact ⟨p1, p2, toI64_range hb, p4, p5⟩
  · obtain ⟨x, hx, rfl⟩ := Option.map_eq_some_iff.1 h
    refine ⟨p1, p2, p3, fun y e => ?_, p5⟩
    cases e
    refine readMsg_keeps (P := FitsHash) hb (hashStep_keeps hN) ?_ hx
    cases hh : s.value with
    | none => exact ⟨by decide, by decide⟩
    | some y => exact p4 y hh
  · cases h; exact ⟨p1, p2, p3, p4, Nat.lt_of_le_of_lt hb hN⟩
  all_goals first | (cases h; done) | (cases h; exact ⟨p1, p2, p3, p4, p5⟩)

theorem proposalStep_keeps {N limit : Nat} (hN : N < 2 ^ 32) (s : PProposal) (f : Field) (s' : PProposal) (hp : s.Fits)
    (hb : Bounded N f.2) (h : proposalStep limit s f = some s') : s'.Fits := by
  obtain ⟨p1, p2, p3, p4, p5⟩ := hp
  unfold proposalStep at h
  split at h
  · obtain ⟨x, hx, rfl⟩ := Option.map_eq_some_iff.1 h
    refine ⟨fun y e => ?_, p2, p3, p4, p5⟩
    cases e
    refine readMsg_keeps (P := FitsHeight) hb heightStep_keeps ?_ hx
    cases hh : s.height with
    | none => exact ⟨by decide, by decide⟩
    | some y => exact p1 y hh
  · cases h; exact ⟨p1, toI64_range hb, p3, p4, p5⟩
  · cases h; exact ⟨p1, p2, toI64_range hb, p4, p5⟩
  · cases h; exact ⟨p1, p2, p3, Nat.lt_of_le_of_lt hb hN, p5⟩
  · obtain ⟨x, hx, rfl⟩ := Option.map_eq_some_iff.1 h
    refine ⟨p1, p2, p3, p4, fun y e => ?_⟩
    cases e
    refine readMsg_keeps (P := FitsHash) hb (hashStep_keeps hN) ?_ hx
    cases hh : s.value with
    | none => exact ⟨by decide, by decide⟩
    | some y => exact p5 y hh
  all_goals first | (cases h; done) | (cases h; exact ⟨p1, p2, p3, p4, p5⟩)

def PConsensus.Fits (m : PConsensus) : Prop := (∀ b, m.body = some b → b.Fits) ∧ m.signature.length < 2 ^ 32

theorem consensusStep_keeps {N limit : Nat} (hN : N < 2 ^ 32) (s : PConsensus) (f : Field) (s' : PConsensus) (hp : s.Fits)
    (hb : Bounded N f.2) (h : consensusStep limit s f = some s') : s'.Fits := by
  obtain ⟨p1, p2⟩ := hp
  have v0 : PVote.Fits {} := ⟨by decide, nofun, by decide, nofun, by decide⟩
  have q0 : PProposal.Fits {} := ⟨nofun, by decide, by decide, by decide, nofun⟩
  unfold consensusStep at h
  split at h
  · obtain ⟨x, hx, rfl⟩ := Option.map_eq_some_iff.1 h
    refine ⟨fun y e => ?_, p2⟩
    cases e
    refine readMsg_keeps (P := PVote.Fits) hb (voteStep_keeps hN) ?_ hx
    split
    · rename_i v hv; exact p1 _ hv
    · exact v0
  · obtain ⟨x, hx, rfl⟩ := Option.map_eq_some_iff.1 h
    refine ⟨fun y e => ?_, p2⟩
    cases e
    refine readMsg_keeps (P := PProposal.Fits) hb (proposalStep_keeps hN) ?_ hx
    split
    · rename_i v hv; exact p1 _ hv
    · exact q0
  · cases h; exact ⟨p1, Nat.lt_of_le_of_lt hb hN⟩
  all_goals first | (cases h; done) | (cases h; exact ⟨p1, p2⟩)

def gossipFits : Option PGossip → Prop
  | some (.consensus m) => m.Fits
  | _ => True

theorem gossipStep_keeps {ov : Bytes → Bool} {oo : Nat → Bytes → Bool} {N : Nat} (hN : N < 2 ^ 32) (s : Option PGossip) (f : Field)
    (s' : Option PGossip) (hp : gossipFits s) (hb : Bounded N f.2) (h : gossipStep ov oo s f = some s') : gossipFits s' := by
  have c0 : PConsensus.Fits {} := ⟨nofun, by decide⟩
  unfold gossipStep at h
  split at h
  · obtain ⟨x, hx, rfl⟩ := Option.map_eq_some_iff.1 h
    show x.Fits
    refine readMsg_keeps (P := PConsensus.Fits) hb (consensusStep_keeps hN) ?_ hx
    split
    · exact hp
    · exact c0
  · obtain ⟨x, hx, rfl⟩ := Option.map_eq_some_iff.1 h
    trivial
  all_goals first
    | (split at h <;> first | (cases h; done) | (cases h; trivial))
    | (cases h; done)
    | (cases h; exact hp)

theorem readConsensus_fits {b : Bytes} (hb : b.length < 2 ^ 32) {m : PConsensus} (h : readConsensus b = some m) : m.Fits :=
  readMsg_keeps (P := PConsensus.Fits) (Nat.le_refl _) (consensusStep_keeps hb) ⟨(fun _ e => by cases e), by decide⟩ h

theorem readGossip_fits {ov : Bytes → Bool} {oo : Nat → Bytes → Bool} {b : Bytes} (hb : b.length < 2 ^ 32) {m : PConsensus}
    (h : readMsg 100 (gossipStep ov oo) none b = some (some (.consensus m))) : m.Fits :=
  readMsg_keeps (P := gossipFits) (Nat.le_refl _) (gossipStep_keeps hb) (s := none) trivial h

end Wire
end Verif
