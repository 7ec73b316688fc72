import Verif.Lemmas.ValidateNames
/-! When a whole message is accepted. -/
namespace Verif

theorem withFeature_ok {v : EngineVersion} {f : ProtocolFeature} {r : Except VErr Unit} :
    withFeature v f r = .ok () ↔ v.isEnabled f = true ∧ r = .ok () := ite_ok_err

theorem validateUserData_ok {env : VEnv} (ho : env.otherDigit 45 = false) {ty : Int} {s : Bytes} {pro : Bool}
    {v : EngineVersion} : validateUserData env ty s pro v = .ok () ↔ GoodProfile env ty s pro v.num := by
  obtain ⟨-, -, -, -, p5, -, p10, -, p17, -⟩ := isEnabled_num v
  by_cases hr : 0 ≤ ty ∧ ty ≤ 14
  · obtain ⟨n, rfl⟩ : ∃ n : Nat, ty = n := ⟨ty.toNat, by omega⟩
    have hn : n < 15 := by omega
    clear hr
    have hc : n = 0 ∨ n = 1 ∨ n = 2 ∨ n = 3 ∨ n = 4 ∨ n = 5 ∨ n = 6 ∨ n = 7 ∨ n = 8 ∨ n = 9 ∨ n = 10 ∨ n = 11 ∨ n = 12 ∨
      n = 13 ∨ n = 14 := by omega
    rcases hc with rfl | rfl | rfl | rfl | rfl | rfl | rfl | rfl | rfl | rfl | rfl | rfl | rfl | rfl | rfl <;>
      simp [validateUserData, UdType.ofInt, GoodProfile, validateLength_ok, validateUsername_ok, validateLocation_ok,
        validateTwitter_ok, validateGithub_ok ho, withFeature_ok, validatePrimaryEth_ok, validatePrimarySol_ok,
        validateCaip19_ok, p5, p10, p17]
    all_goals (cases pro <;> simp [validateLength_ok])
  · have h1 : UdType.ofInt ty = none := by
      unfold UdType.ofInt
      repeat rw [if_neg (by omega)]
    simp only [validateUserData, h1, reduceCtorEq, false_iff, GoodProfile]
    omega

theorem validateProofName_ok {env : VEnv} {ty : Int} {name : Bytes} {v : EngineVersion} :
    validateProofName env ty name v = .ok () ↔ GoodProof env ty name v.num := by
  obtain ⟨-, -, pe, pb, -⟩ := isEnabled_num v
  unfold validateProofName GoodProof
  by_cases h2 : ty = 2
  · subst h2
    rw [if_pos rfl]
    by_cases hv : 5 ≤ v.num
    · rw [if_pos (pe.2 hv)]
      cases env.chars name <;> simp [hv, validateEnsName_ok]
    · rw [if_neg (by rw [pe]; exact hv)]
      simp [hv]
  rw [if_neg h2]
  by_cases h3 : ty = 3
  · subst h3
    rw [if_pos rfl]
    by_cases hv : 5 ≤ v.num
    · rw [if_pos (pb.2 hv)]
      cases env.chars name <;> simp [hv, validateBaseName_ok]
    · rw [if_neg (by rw [pb]; exact hv)]
      simp [hv]
  rw [if_neg h3]
  simp [h2, h3]

theorem validateEoa_ok {env : VEnv} {b : WVerification} {fid : Nat} {n : Int} : validateEoa env b fid n = .ok () ↔
    b.claimSignature.length = 65 ∧
      env.recoverClaim fid b.address n b.blockHash b.claimSignature = some b.address := by
  unfold validateEoa
  rw [ite_err_ok]
  cases env.recoverClaim fid b.address n b.blockHash b.claimSignature <;> simp

theorem validateVerification_ok {env : VEnv} {b : WVerification} {fid : Nat} {n : Int} :
    validateVerification env b fid n = .ok () ↔ GoodVerification env b fid n := by
  unfold validateVerification GoodVerification ClaimSized ClaimSigned
  by_cases h0 : b.protocol = 0
  · rw [if_pos h0]
    unfold validateAddEth ChainAllowed
    rw [andThen_ok, andThen_ok, validateAddress_ok (by decide), validateBlockHash_ok, ite_err_ok, ite_err_ok]
    by_cases hv0 : b.verificationType = 0
    · rw [if_pos hv0, validateEoa_ok]
      have : b.claimSignature.length = 65 → ¬ b.claimSignature.length > 2048 := by omega
      simp only [h0, hv0, Nat.reducePow, ne_eq, Decidable.not_not, true_and, reduceCtorEq, false_and, or_false,
        Int.reduceEq, Nat.reduceEqDiff]
      grind
    · rw [if_neg hv0]
      by_cases hv1 : b.verificationType = 1
      · simp [h0, hv1]
        omega
      · simp [h0, hv0, hv1]
  · rw [if_neg h0]
    by_cases h1 : b.protocol = 1
    · rw [if_pos h1]
      unfold validateAddSol
      rw [andThen_ok, andThen_ok, validateAddress_ok (by decide), validateBlockHash_ok, ite_err_ok, ite_err_ok, ite_err_ok]
      simp [h1, and_assoc]
    · simp [h0, h1]

theorem validateContent_ok {env : VEnv} (ho : env.otherDigit 45 = false) {pro : Bool} {now : Nat} {v : EngineVersion}
    {d : WData} (h1 : 600 ≤ now) (h2 : now < 2 ^ 32) :
    validateContent env pro now v d.network d = .ok () ↔ GoodBody env pro now v.num d := by
  cases hb : d.body with
  | none => simp [validateContent, GoodBody, hb]
  | some b =>
    cases b
    case castAdd c => simp only [validateContent, GoodBody, hb, validateCastAdd_ok]
    case userData => simp only [validateContent, GoodBody, hb, validateUserData_ok ho]
    case usernameProof => simp only [validateContent, GoodBody, hb, validateProofName_ok]
    case verificationAdd => simp only [validateContent, GoodBody, hb, validateVerification_ok]
    all_goals (rw [validateContent_other hb rfl h1 h2]; simp only [GoodBody, hb])

theorem type_iff (d : WData) : (d.type = .linkCompactState ↔ d.ty = 14) ∧ (d.type = .castAdd ↔ d.ty = 1) ∧
    (d.type = .usernameProof ↔ d.ty = 12) := by
  unfold WData.type
  generalize d.ty = t
  by_cases hr : 0 ≤ t ∧ t ≤ 21
  · obtain ⟨n, rfl⟩ : ∃ n : Nat, t = n := ⟨t.toNat, by omega⟩
    have hn : n < 22 := by omega
    clear hr
    revert n
    decide
  · have h1 : MessageType.ofInt t = none := by
      unfold MessageType.ofInt
      repeat rw [if_neg (by omega)]
    rw [h1]
    simp only [Option.getD_none, reduceCtorEq, false_iff]
    omega

theorem maxDataSize_eq (v : EngineVersion) (pro : Bool) (d : WData) :
    maxDataSize v pro d.type = sizeLimit v.num pro d.ty := by
  obtain ⟨-, p5, -, -, -, -, -, p15, -⟩ := isEnabled_num v
  obtain ⟨t1, t2, t3⟩ := type_iff d
  unfold maxDataSize sizeLimit
  simp only [p5, p15, t1, t2, t3, Bool.and_eq_true, decide_eq_true_eq]
  grind

theorem validateNetwork_ok {current : Network} {n : Int} : validateNetwork current n = .ok () ↔ ForNetwork current n := by
  unfold validateNetwork ForNetwork
  rw [ite_err_ok, ite_err_ok]
  simp only [not_and, Decidable.not_not, and_true]
  constructor <;> (rintro ⟨h1, h2⟩; exact ⟨by omega, h2⟩)

theorem sealed_ok {env : VEnv} {m : WMsg} {bytes : Bytes} :
    (validateHash env m.hashScheme bytes m.hash = .ok () ∧
      validateSignature env m.signatureScheme m.hash m.signature m.signer = .ok ()) ↔ Sealed env m bytes := by
  unfold validateHash validateSignature
  simp only [ite_err_ok, Bool.not_eq_true', Bool.not_eq_false, List.isEmpty_iff, ne_eq, Decidable.not_not, and_true]
  constructor
  · rintro ⟨⟨a, b, c⟩, d, -, e, f, g⟩
    exact ⟨b, a, c.symm, d, e, f, g⟩
  · rintro ⟨a, b, c, d, e, f, g⟩
    exact ⟨⟨b, a, c.symm⟩, d, by intro h; simp [h] at e, e, f, g⟩

theorem validateTimestamp_ok {ts now : Nat} {v : EngineVersion} :
    validateTimestamp ts now v = .ok () ↔ (6 ≤ v.num → ts ≤ now + 600) := by
  obtain ⟨-, -, -, -, -, p6, -⟩ := isEnabled_num v
  unfold validateTimestamp
  rw [ite_err_ok, Bool.and_eq_true, Bool.and_eq_true, p6, decide_eq_true_eq, decide_eq_true_eq]
  simp only [and_true]
  omega

theorem validatedData_ok {env : VEnv} {m : WMsg} {d : WData} {bytes : Bytes} :
    validatedData env m = .ok (d, bytes) ↔ Contents env m d bytes ∧ (m.dataBytes = some bytes → bytes ≠ []) := by
  unfold validatedData Contents
  cases hb : m.dataBytes with
  | none =>
    cases hd : m.data with
    | none => simp
    | some d' =>
      simp only [Except.ok.injEq, Prod.mk.injEq, reduceCtorEq, false_and, false_or, true_and, Option.some.injEq,
        false_implies, and_true]
      constructor
      · rintro ⟨rfl, rfl⟩; exact ⟨rfl, rfl⟩
      · rintro ⟨rfl, rfl⟩; exact ⟨rfl, rfl⟩
  | some b =>
    simp only [Option.some.injEq, reduceCtorEq, false_and, or_false]
    by_cases h0 : b = []
    · subst h0
      simp only [List.isEmpty_nil, if_true, reduceCtorEq, false_iff]
      rintro ⟨⟨rfl, -⟩, h⟩
      exact h rfl rfl
    · rw [if_neg (by simpa using h0)]
      cases hd : env.decode b with
      | none =>
        simp only [reduceCtorEq, false_iff]
        rintro ⟨⟨rfl, h⟩, -⟩
        rw [hd] at h; cases h
      | some d' =>
        simp only [Except.ok.injEq, Prod.mk.injEq]
        constructor
        · rintro ⟨rfl, rfl⟩; exact ⟨⟨rfl, hd⟩, fun _ => h0⟩
        · rintro ⟨⟨rfl, h⟩, -⟩
          rw [hd] at h
          cases h
          exact ⟨rfl, rfl⟩

theorem Contents.unique {env : VEnv} {m : WMsg} {d d' : WData} {b b' : Bytes} (h : Contents env m d b)
    (h' : Contents env m d' b') : d = d' ∧ b = b' := by
  rcases h with ⟨h1, h2⟩ | ⟨h1, h2, h3⟩ <;> rcases h' with ⟨g1, g2⟩ | ⟨g1, g2, g3⟩
  · rw [h1] at g1; cases g1
    rw [h2] at g2; cases g2
    exact ⟨rfl, rfl⟩
  · rw [h1] at g1; cases g1
  · rw [h1] at g1; cases g1
  · rw [h2] at g2; cases g2
    exact ⟨rfl, by rw [h3, g3]⟩

theorem validateMessage_envelope {env : VEnv} {current : Network} {pro : Bool} {now : Nat} {v : EngineVersion} {m : WMsg} :
    validateMessage env current pro now v m = .ok () ↔
      ∃ d bytes, GoodEnvelope env current pro now v.num m d bytes ∧ validateContent env pro now v d.network d = .ok () := by
  constructor
  · intro h
    unfold validateMessage at h
    split at h
    · cases h
    · rename_i d bytes hd
      unfold validateChecks at h
      rw [ite_err_ok, andThen_ok, andThen_ok, andThen_ok, andThen_ok, maxDataSize_eq, validateNetwork_ok,
        validateTimestamp_ok] at h
      obtain ⟨h1, h2, h3, h4, h5, h6⟩ := h
      exact ⟨d, bytes, ⟨(validatedData_ok.1 hd).1, by omega, h2, sealed_ok.1 ⟨h3, h4⟩, h5⟩, h6⟩
  · rintro ⟨d, bytes, h, hb⟩
    have hd := validatedData_ok.2 ⟨h.contents, fun _ => h.sealed.nonempty⟩
    unfold validateMessage
    rw [hd]
    simp only
    unfold validateChecks
    rw [ite_err_ok, andThen_ok, andThen_ok, andThen_ok, andThen_ok, maxDataSize_eq, validateNetwork_ok,
      validateTimestamp_ok]
    have hs := sealed_ok.2 h.sealed
    exact ⟨by have := h.size; omega, h.network, hs.1, hs.2, h.time, hb⟩

theorem validateMessage_ok {env : VEnv} (ho : env.otherDigit 45 = false) {current : Network} {pro : Bool} {now : Nat}
    {v : EngineVersion} {m : WMsg} (h1 : 600 ≤ now) (h2 : now < 2 ^ 32) :
    validateMessage env current pro now v m = .ok () ↔
      ∃ d bytes, GoodEnvelope env current pro now v.num m d bytes ∧ GoodBody env pro now v.num d := by
  simp only [validateMessage_envelope, validateContent_ok ho h1 h2]

/-- For a message whose envelope is in order, the content decides. -/
theorem validateMessage_of_envelope {env : VEnv} {current : Network} {pro : Bool} {now : Nat}
    {v : EngineVersion} {m : WMsg} {d : WData} {bytes : Bytes} (he : GoodEnvelope env current pro now v.num m d bytes) :
    validateMessage env current pro now v m = .ok () ↔ validateContent env pro now v d.network d = .ok () := by
  rw [validateMessage_envelope]
  constructor
  · rintro ⟨d', b', he', h⟩
    rw [(he.contents.unique he'.contents).1]
    exact h
  · exact fun h => ⟨d, bytes, he, h⟩

end Verif
