import Verif.Lemmas.ValidateMsg
import Verif.Case.Validate
/-!
C50: what is merged is what was signed.  Merging reads the field `data` of a message.  Messages that come in by RPC or
gossip are first normalised (`bytesDecode`).
-/
namespace Verif

theorem bytesDecode_dataBytes (env : VEnv) (m : WMsg) : (bytesDecode env m).dataBytes = m.dataBytes := by
  unfold bytesDecode
  cases h : m.dataBytes with
  | none => simp [h]
  | some b => by_cases hb : b.isEmpty = true <;> simp [hb, h]

theorem bytesDecode_data {env : VEnv} {m : WMsg} {b : Bytes} (h : m.dataBytes = some b) (hb : b ≠ []) :
    (bytesDecode env m).data = env.decode b := by
  simp [bytesDecode, h, hb]

theorem bytesDecode_none {env : VEnv} {m : WMsg} (h : m.dataBytes = none) : bytesDecode env m = m := by
  simp [bytesDecode, h]

/-- The `data` that an accepted, normalised message is merged with is what its signer signed: the signature is over the
hash of bytes that decode to it.  Protobuf is assumed to read back what it wrote of this message. -/
theorem C50_merged_is_signed (env : VEnv) (current : Network) (pro : Bool) (now : Nat) (v : EngineVersion) (m : WMsg)
    (hcodec : ∀ d, m.data = some d → env.decode (env.encode d) = some d)
    (h : validateMessage env current pro now v (bytesDecode env m) = .ok ()) :
    ∃ d bytes, (bytesDecode env m).data = some d ∧ env.decode bytes = some d ∧ Sealed env (bytesDecode env m) bytes := by
  obtain ⟨d, bytes, he, -⟩ := validateMessage_envelope.1 h
  rcases he.contents with ⟨h1, h2⟩ | ⟨h1, h2, h3⟩
  · rw [bytesDecode_dataBytes] at h1
    exact ⟨d, bytes, by rw [bytesDecode_data h1 he.sealed.nonempty, h2], h2, he.sealed⟩
  · rw [bytesDecode_dataBytes] at h1
    refine ⟨d, bytes, h2, ?_, he.sealed⟩
    rw [bytesDecode_none h1] at h2
    rw [h3, hcodec d h2]

/-- Two accepted, normalised messages with the same hash are merged with the same content, or else the bytes they carry
are a collision of the hash function. -/
theorem C50_same_hash_same_content (env : VEnv) (current current' : Network) (pro pro' : Bool) (now now' : Nat)
    (v v' : EngineVersion) (m m' : WMsg)
    (hcodec : ∀ d, m.data = some d ∨ m'.data = some d → env.decode (env.encode d) = some d)
    (h : validateMessage env current pro now v (bytesDecode env m) = .ok ())
    (h' : validateMessage env current' pro' now' v' (bytesDecode env m') = .ok ())
    (he : m.hash = m'.hash) : (bytesDecode env m).data = (bytesDecode env m').data ∨
      ∃ a b, a ≠ b ∧ env.blake3 a = env.blake3 b ∧ Sealed env (bytesDecode env m) a ∧ Sealed env (bytesDecode env m') b := by
  obtain ⟨d, b, h1, h2, h3⟩ := C50_merged_is_signed env current pro now v m (fun d hd => hcodec d (.inl hd)) h
  obtain ⟨d', b', h1', h2', h3'⟩ := C50_merged_is_signed env current' pro' now' v' m' (fun d hd => hcodec d (.inr hd)) h'
  have keep : ∀ x : WMsg, (bytesDecode env x).hash = x.hash := by
    intro x
    unfold bytesDecode
    cases x.dataBytes with
    | none => rfl
    | some b => by_cases hb : b.isEmpty = true <;> simp [hb]
  by_cases hb : b = b'
  · subst hb
    rw [h2] at h2'
    exact .inl (by rw [h1, h1', h2'])
  · exact .inr ⟨b, b', hb, by rw [← h3.hash, ← h3'.hash, keep, keep, he], h3, h3'⟩

/-- What is read back of a stored message that was normalised is that message. -/
theorem C50_stored_is_merged (env : VEnv) (m : WMsg) :
    storedForm env (bytesDecode env m) = bytesDecode env m := by
  unfold storedForm bytesDecode
  cases hd : m.dataBytes with
  | none => simp [hd]
  | some b =>
    by_cases hb : b.isEmpty = true
    · simp [hb, hd]
    · simp [hb, hd]

/-- Without normalisation, as when blocks and proposals are replayed, the verdict says nothing about `data` once
`dataBytes` is present: any other `data` is accepted as well. -/
theorem C50_verdict_ignores_data (env : VEnv) (current : Network) (pro : Bool) (now : Nat) (v : EngineVersion) (m : WMsg)
    (bytes : Bytes) (hb : m.dataBytes = some bytes) (other : Option WData) :
    validateMessage env current pro now v { m with data := other } = validateMessage env current pro now v m := by
  have : validatedData env { m with data := other } = validatedData env m := by
    unfold validatedData
    simp only [hb]
  unfold validateMessage
  rw [this]
  rfl

/-- So what is merged need not be what was signed: a message signed by its author for one cast passes with another cast in
`data`, and what is read back later is again the signed one. -/
theorem C50_unnormalised_merge_differs : ∃ (env : VEnv) (m : WMsg) (signed merged : WData),
    m.data = some merged ∧ merged ≠ signed ∧
    validateMessage env .mainnet false 1000 .v20 m = .ok () ∧
    (∃ bytes, Sealed env m bytes ∧ env.decode bytes = some signed) ∧ (storedForm env m).data = some signed := by
  refine ⟨demoEnv (demoData 1 (.castAdd demoCast)),
    { demoMsg (demoData 1 (.castAdd demoCast)) with data := some (demoData 1 (.castAdd { demoCast with text := [98, 121] })) },
    demoData 1 (.castAdd demoCast), demoData 1 (.castAdd { demoCast with text := [98, 121] }), rfl, by decide, rfl,
    ⟨[7], ⟨by decide, rfl, rfl, rfl, rfl, rfl, rfl⟩, by simp [demoEnv]⟩, rfl⟩

/-! The hypotheses of the theorems above hold for a message whose `data` was replaced before it was normalised. -/

example : validateMessage (demoEnv (demoData 1 (.castAdd demoCast))) .mainnet false 1000 .v20
    (bytesDecode (demoEnv (demoData 1 (.castAdd demoCast))) { demoMsg (demoData 1 (.castAdd demoCast)) with data := none }) =
    .ok () := rfl

example : validateMessage (demoEnv (demoData 1 (.castAdd demoCast))) .mainnet false 1000 .v20
    (bytesDecode (demoEnv (demoData 1 (.castAdd demoCast)))
      { demoMsg (demoData 1 (.castAdd demoCast)) with dataBytes := none }) = .ok () := rfl

example : ∀ d, (demoMsg (demoData 1 (.castAdd demoCast))).data = some d →
    (demoEnv (demoData 1 (.castAdd demoCast))).decode ((demoEnv (demoData 1 (.castAdd demoCast))).encode d) = some d := by
  intro d h
  cases h
  simp [demoEnv]

end Verif
