import Verif.Spec.Validate
/-! When the parts of validation accept. -/
namespace Verif

theorem ite_err_ok {p : Prop} [Decidable p] {e : ε} {r : Except ε Unit} :
    (if p then .error e else r) = .ok () ↔ ¬ p ∧ r = .ok () := by
  by_cases h : p <;> simp [h]

theorem ite_ok_err {p : Prop} [Decidable p] {e : ε} {r : Except ε Unit} :
    (if p then r else .error e) = .ok () ↔ p ∧ r = .ok () := by
  by_cases h : p <;> simp [h]

theorem andThen_ok {x k : Except VErr Unit} : (x >>? k) = .ok () ↔ x = .ok () ∧ k = .ok () := by
  cases x <;> simp [andThen]

theorem validateAll_ok {f : α → Except VErr Unit} {l : List α} :
    validateAll f l = .ok () ↔ ∀ a ∈ l, f a = .ok () := by
  induction l with
  | nil => simp [validateAll]
  | cons a l ih => simp only [validateAll, andThen_ok, ih, List.mem_cons, forall_eq_or_imp]

theorem validateFid_ok {fid : Nat} : validateFid fid = .ok () ↔ fid ≠ 0 := by
  simp [validateFid, ite_err_ok]

theorem validateCastId_ok {c : WCastId} : validateCastId c = .ok () ↔ GoodCastId c := by
  simp [validateCastId, andThen_ok, validateFid_ok, ite_err_ok, GoodCastId]

theorem validateUrl_ok {u : Bytes} : validateUrl u = .ok () ↔ GoodUrl u := by
  cases u <;> simp [validateUrl, ite_err_ok, GoodUrl]

theorem validateTarget_ok {t : WTarget} : validateTarget t = .ok () ↔ GoodTarget t := by
  cases t <;> simp [validateTarget, validateCastId_ok, validateUrl_ok, GoodTarget]

theorem validateEmbed_ok {e : Option WTarget} : validateEmbed e = .ok () ↔ ∃ t, e = some t ∧ GoodTarget t := by
  cases e <;> simp [validateEmbed, validateTarget_ok]

theorem validateParent_ok {e : Option WTarget} : validateParent e = .ok () ↔ ∀ t, e = some t → GoodTarget t := by
  cases e <;> simp [validateParent, validateTarget_ok]

theorem isEnabled_num (v : EngineVersion) :
    (v.isEnabled .increaseEmbedLimitForAllUsers = true ↔ 20 ≤ v.num) ∧
    (v.isEnabled .messageLengthCheckFix = true ↔ 5 ≤ v.num) ∧ (v.isEnabled .ensValidation = true ↔ 5 ≤ v.num) ∧
    (v.isEnabled .basenames = true ↔ 5 ≤ v.num) ∧ (v.isEnabled .primaryAddresses = true ↔ 5 ≤ v.num) ∧
    (v.isEnabled .futureTimestampValidation = true ↔ 6 ≤ v.num) ∧ (v.isEnabled .userProfileToken = true ↔ 10 ≤ v.num) ∧
    (v.isEnabled .increaseUsernameProofSizeLimit = true ↔ 15 ≤ v.num) ∧ (v.isEnabled .liveAt = true ↔ 17 ≤ v.num) ∧
    (v.isEnabled .channelMessages = true ↔ 21 ≤ v.num) := by
  cases v <;> decide

theorem validateText_ok {ty : Int} {len : Nat} {pro : Bool} : validateText ty len pro = .ok () ↔
    (ty = 0 ∧ len ≤ 320) ∨ (ty = 1 ∧ 320 < len ∧ len ≤ 1024) ∨ (ty = 2 ∧ pro = true ∧ 1024 < len ∧ len ≤ 10000) := by
  unfold validateText
  by_cases h0 : ty = 0
  · subst h0; simp [ite_err_ok]
  by_cases h1 : ty = 1
  · subst h1; simp [ite_err_ok]; omega
  by_cases h2 : ty = 2
  · subst h2; cases pro <;> simp [ite_err_ok]; omega
  simp [h0, h1, h2]

theorem validateMentions_ok (len : Nat) : ∀ (fids ps : List Nat) (prev : Option Nat), fids.length = ps.length →
    (validateMentions len prev (fids.zip ps) = .ok () ↔
      (∀ f ∈ fids, f ≠ 0) ∧ (∀ p ∈ ps, p ≤ len) ∧ ps.Pairwise (· ≤ ·) ∧ ∀ q, prev = some q → ∀ p ∈ ps, q ≤ p)
  | [], [], prev, _ => by simp [validateMentions]
  | [], _ :: _, _, h => by simp at h
  | _ :: _, [], _, h => by simp at h
  | f :: fs, p :: ps, prev, h => by
    have ih := validateMentions_ok len fs ps (some p) (by simpa using h)
    simp only [List.zip_cons_cons, validateMentions, andThen_ok, validateFid_ok, ite_err_ok, ih]
    cases prev with
    | none =>
      simp only [List.mem_cons, forall_eq_or_imp, List.pairwise_cons, reduceCtorEq, false_implies, implies_true,
        Option.some.injEq, forall_eq', Bool.false_eq_true, not_false_eq_true, true_and, and_true]
      grind
    | some q =>
      simp only [List.mem_cons, forall_eq_or_imp, List.pairwise_cons, decide_eq_true_eq,
        Option.some.injEq, forall_eq', Nat.not_lt]
      constructor
      · rintro ⟨a, b, c, d, e, g, k⟩
        exact ⟨⟨a, d⟩, ⟨by omega, e⟩, ⟨k, g⟩, c, fun x hx => Nat.le_trans c (k x hx)⟩
      · rintro ⟨⟨a, d⟩, ⟨b, e⟩, ⟨k, g⟩, c, -⟩
        exact ⟨a, by omega, c, d, e, g, k⟩

theorem validateCastAdd_ok {b : WCast} {ts : Nat} {pro : Bool} {v : EngineVersion} :
    validateCastAdd b (decide (ts < embedsCutoff)) pro v = .ok () ↔ GoodCast b ts pro v.num := by
  have hlim : (¬ b.embeds.length > maxEmbeds pro v) ↔
      (b.embeds.length ≤ 2 ∨ (b.embeds.length ≤ 4 ∧ (pro = true ∨ 20 ≤ v.num))) := by
    unfold maxEmbeds
    rw [← (isEnabled_num v).1]
    cases pro <;> cases v.isEnabled .increaseEmbedLimitForAllUsers <;> simp <;> omega
  simp only [validateCastAdd, andThen_ok, ite_err_ok, validateText_ok, validateAll_ok, validateEmbed_ok, validateUrl_ok,
    validateParent_ok, hlim]
  constructor
  · rintro ⟨h1, h2, h3, h4, h5, h6, h7, h8, h9, h10, h11, h12⟩
    have h6' : b.mentions.length = b.positions.length := by simpa using h6
    rw [validateMentions_ok _ _ _ _ h6'] at h11
    obtain ⟨m1, m2, m3, -⟩ := h11
    refine ⟨h1, h2, h9, ?_, ⟨by omega, h6'.symm⟩, m1, ⟨m2, m3⟩, ?_, h12⟩
    · intro hne
      have hts : ts < embedsCutoff := by
        refine Decidable.byContradiction fun hn => h4 ?_
        simp [hn, hne]
      refine ⟨hts, ?_, ?_, h10⟩
      · simpa [hts] using h3
      · simpa [hne] using h7
    · simp only [Bool.and_eq_true, List.isEmpty_iff, not_and] at h8
      by_cases a : b.text = []
      · by_cases c : b.embeds = []
        · by_cases d : b.embedsDeprecated = []
          · exact .inr (.inr (.inr fun e => h8 ⟨⟨a, c⟩, d⟩ e))
          · exact .inr (.inr (.inl d))
        · exact .inr (.inl c)
      · exact .inl a
  · intro g
    obtain ⟨c1, c2⟩ := g.mentionCount
    refine ⟨g.text, g.embedCount, ?_, ?_, by omega, by simp [c2], ?_, ?_, g.embedsGood, ?_, ?_, g.parent⟩
    · by_cases hne : b.embedsDeprecated = []
      · simp [hne]
      · have := (g.oldEmbeds hne).2.1
        simp; intro _; exact this
    · by_cases hne : b.embedsDeprecated = []
      · simp [hne]
      · have : ts < embedsCutoff := (g.oldEmbeds hne).1
        simp [this]
    · by_cases hne : b.embedsDeprecated = []
      · simp [hne]
      · simp [(g.oldEmbeds hne).2.2.1]
    · rcases g.content with h | h | h | h <;> simp [h]
    · intro u hu
      exact (g.oldEmbeds (by intro h; rw [h] at hu; cases hu)).2.2.2 u hu
    · rw [validateMentions_ok _ _ _ _ c2.symm]
      exact ⟨g.mentionsGood, g.positions.1, g.positions.2, by simp⟩

/-! ### Other contents -/

theorem validateLinkType_ok {ty : Bytes} : validateLinkType ty = .ok () ↔ 1 ≤ ty.length ∧ ty.length ≤ 8 := by
  cases ty <;> simp [validateLinkType, ite_err_ok]

theorem validateAddress_ok {a : Bytes} {n : Nat} (hn : n ≠ 0) : validateAddress a n = .ok () ↔ a.length = n := by
  cases a with
  | nil => simp [validateAddress]; omega
  | cons x a => simp [validateAddress, ite_err_ok]

theorem validateBlockHash_ok {h : Bytes} : validateBlockHash h = .ok () ↔ h.length = 32 := by
  cases h with
  | nil => simp [validateBlockHash]
  | cons x a => simp [validateBlockHash, ite_err_ok]

theorem validateBytesString_ok {b : Bytes} {max : Nat} {req : Bool} :
    validateBytesString b max req = .ok () ↔ (req = true → 1 ≤ b.length) ∧ b.length ≤ max := by
  cases b <;> cases req <;> simp [validateBytesString, ite_err_ok]

theorem withChannel_ok {c : Bytes} {r : Bool} : withChannel c r = .ok () ↔ c.length = 32 ∧ r = true := by
  simp [withChannel, ite_err_ok, ite_ok_err]

theorem channelGate_ok {v : EngineVersion} {r : Except VErr Unit} :
    channelGate v r = .ok () ↔ 21 ≤ v.num ∧ r = .ok () := by
  simp only [channelGate, ite_ok_err, (isEnabled_num v).2.2.2.2.2.2.2.2.2]

theorem keyBody_ok {b : Bool} : keyBody b = .ok () ↔ b = true := by cases b <;> simp [keyBody]

theorem lendFloor_le {now ts : Nat} (h1 : 600 ≤ now) (h2 : now < 2 ^ 32) : ¬ ts < lendFloor now ↔ now ≤ ts + 600 := by
  unfold lendFloor
  omega

theorem scopeAdmissible_iff (s : Int) : scopeAdmissible s = true ↔ (1 ≤ s ∧ s ≤ 8) ∨ (11 ≤ s ∧ s ≤ 15) := by
  by_cases h : 0 ≤ s ∧ s ≤ 21
  · obtain ⟨n, rfl⟩ : ∃ n : Nat, s = n := ⟨s.toNat, by omega⟩
    have hn : n < 22 := by omega
    clear h
    revert n
    decide
  · have h1 : MessageType.ofInt s = none := by
      unfold MessageType.ofInt
      repeat rw [if_neg (by omega)]
    simp only [scopeAdmissible, h1, Bool.false_eq_true, false_iff]
    omega

theorem validateKeyAddBody_iff (k : KeyAddMsg) : validateKeyAddBody k = true ↔
    k.key.length = 32 ∧ k.keyType = 1 ∧ k.deadline ≠ 0 ∧
    (k.ttl ≠ 0 ∧ k.ttl.toNat ≤ 90 * 24 * 60 * 60) ∧ k.metadataType = 1 ∧ k.metadata ≠ [] ∧
    (1 ≤ k.scopes.length ∧ k.scopes.length ≤ 16) ∧
    ∀ s ∈ k.scopes, (1 ≤ s ∧ s ≤ 8) ∨ (11 ≤ s ∧ s ≤ 15) := by
  have ht : (k.ttl.toNat = 0 ↔ k.ttl = 0) := by
    rw [← UInt32.toNat_inj]; rfl
  have hs : (¬ k.scopes = [] ↔ 1 ≤ k.scopes.length) := by cases k.scopes <;> simp
  simp only [validateKeyAddBody, validateKeyAddScopes, maxKeyTtl, maxKeyAddScopes, Bool.and_eq_true, beq_iff_eq,
    bne_iff_ne, Bool.not_eq_true', Bool.or_eq_false_iff, beq_eq_false_iff_ne, decide_eq_false_iff_not, ne_eq, ht,
    decide_eq_true_eq, List.all_eq_true, scopeAdmissible_iff, List.isEmpty_eq_false_iff, hs, Nat.not_lt, gt_iff_lt]
  grind

theorem validateKeyRemoveBody_iff (k : KeyRemoveMsg) : validateKeyRemoveBody k = true ↔
    k.key.length = 32 ∧ (k.signatureType = 1 ∨ k.signatureType = 2) ∧ k.deadline ≠ 0 := by
  simp [validateKeyRemoveBody, and_assoc]

theorem validateReaction_ok {ty : Int} {target : Option WTarget} : validateReaction ty target = .ok () ↔
    (0 ≤ ty ∧ ty ≤ 2) ∧ ∃ t, target = some t ∧ GoodTarget t := by
  have h : (¬ ¬ (ty = 0 ∨ ty = 1 ∨ ty = 2)) ↔ (0 ≤ ty ∧ ty ≤ 2) := by omega
  cases target <;> simp only [validateReaction, ite_err_ok, validateTarget_ok, h] <;> simp

theorem validateLink_ok {ty : Bytes} {target : Option Nat} : validateLink ty target = .ok () ↔
    (1 ≤ ty.length ∧ ty.length ≤ 8) ∧ ∃ fid, target = some fid ∧ fid ≠ 0 := by
  cases target <;> simp [validateLink, andThen_ok, validateLinkType_ok, validateFid_ok]

theorem validateCompact_ok {ty : Bytes} {targets : List Nat} : validateCompact ty targets = .ok () ↔
    (1 ≤ ty.length ∧ ty.length ≤ 8) ∧ targets ≠ [] ∧ ∀ fid ∈ targets, fid ≠ 0 := by
  simp only [validateCompact, andThen_ok, validateLinkType_ok, ite_err_ok, validateAll_ok, validateFid_ok,
    List.isEmpty_iff, ne_eq]

theorem validateFrame_ok {f : WFrame} : validateFrame f = .ok () ↔
    f.button ≤ 5 ∧ (1 ≤ f.url.length ∧ f.url.length ≤ 1024) ∧ f.input.length ≤ 256 ∧
    f.state.length ≤ 4096 ∧ f.txId.length ≤ 256 ∧ f.address.length ≤ 64 ∧ ∀ c, f.castId = some c → GoodCastId c := by
  unfold validateFrame
  rw [ite_err_ok, andThen_ok, validateAll_ok]
  cases f.castId <;> simp only [validateCastId_ok, frameStrings, List.mem_cons, List.not_mem_nil, or_false, forall_eq_or_imp, forall_eq,
    validateBytesString_ok, Nat.not_lt, gt_iff_lt] <;> simp [and_assoc]

/-- The contents checked here and not elsewhere. -/
def WBody.other : WBody → Bool
  | .castAdd _ | .userData _ _ | .usernameProof _ _ _ _ _ | .verificationAdd _ => false
  | _ => true

theorem validateContent_other {env : VEnv} {pro : Bool} {now : Nat} {v : EngineVersion} {n : Int} {d : WData} {b : WBody}
    (hb : d.body = some b) (ho : b.other = true) (h1 : 600 ≤ now) (h2 : now < 2 ^ 32) :
    validateContent env pro now v n d = .ok () ↔ GoodOther v.num now d.ts b := by
  unfold validateContent
  rw [hb]
  cases b <;> simp only [WBody.other, Bool.false_eq_true] at ho <;> simp only [GoodOther]
  case castRemove t => simp [validateCastRemove, ite_err_ok]
  case reaction => exact validateReaction_ok
  case link => exact validateLink_ok
  case linkCompactState => exact validateCompact_ok
  case verificationRemove a p =>
    unfold validateVerificationRemove
    by_cases h0 : p = 0
    · subst h0; simp [validateAddress_ok]
    by_cases h1 : p = 1
    · subst h1; simp [validateAddress_ok]
    simp [h0, h1]
  case frameAction => exact validateFrame_ok
  case lendStorage =>
    rw [ite_err_ok, lendFloor_le h1 h2, validateLend, ite_err_ok, ite_err_ok]
    simp
    omega
  case keyAdd k => rw [keyBody_ok, validateKeyAddBody_iff]
  case keyRemove k => rw [keyBody_ok, validateKeyRemoveBody_iff]
  case channelUpdate c m n =>
    rw [channelGate_ok]
    unfold validateChannelUpdate
    rw [withChannel_ok]
    cases m <;> cases n <;> simp
  case channelMember c f a =>
    rw [channelGate_ok, validateChannelMember, withChannel_ok]
    simp
    omega
  case channelPin c h =>
    rw [channelGate_ok, validateChannelPin, withChannel_ok]
    cases h <;> simp
  case channelModerate c h a =>
    rw [channelGate_ok, validateChannelModerate, withChannel_ok]
    simp
    omega

end Verif
