import Verif.Spec.Http
import Verif.Spec.Validate
import Verif.Lemmas.ValidateMsg
namespace Verif
namespace Http

theorem lookup_mem {t : List (Int × String)} {n : Int} {s : String} (h : t.lookup n = some s) : (n, s) ∈ t := by
  induction t with
  | nil => simp at h
  | cons p t ih =>
    rw [List.lookup_cons] at h
    split at h
    · rename_i hb
      obtain ⟨a, b⟩ := p
      simp at h hb
      subst h hb
      exact List.mem_cons_self
    · exact List.mem_cons_of_mem _ (ih h)

theorem lookup_isSome {t : List (Int × String)} {n : Int} : (t.lookup n).isSome ↔ n ∈ t.map (·.1) := by
  induction t with
  | nil => simp
  | cons p t ih =>
    rw [List.lookup_cons]
    split
    · rename_i hb
      simp at hb
      simp [hb]
    · rename_i hb
      have : n ≠ p.1 := by simpa using hb
      rw [ih]
      simp [this]

theorem named_isSome {t : List (Int × String)} {n : Int} : (∃ j, named t n = some j) ↔ n ∈ t.map (·.1) := by
  rw [← lookup_isSome, named, Option.isSome_iff_exists]
  cases t.lookup n <;> simp

theorem named_read {t : List (Int × String)} {rd : J → Option Int} (ht : ∀ p ∈ t, rd (.name p.2) = some p.1) {n : Int} {j : J}
    (h : named t n = some j) : rd j = some n := by
  rw [named, Option.map_eq_some_iff] at h
  obtain ⟨s, hs, rfl⟩ := h
  exact ht _ (lookup_mem hs)

theorem messageTypes_known {n : Int} : (∃ j, named messageTypes n = some j) ↔ KnownType n := by
  rw [named_isSome]; simp [messageTypes, KnownType]; omega
theorem networks_known {n : Int} : (∃ j, named networks n = some j) ↔ 0 ≤ n ∧ n ≤ 3 := by
  rw [named_isSome]; simp [networks]; omega
theorem hashSchemes_known {n : Int} : (∃ j, named hashSchemes n = some j) ↔ 0 ≤ n ∧ n ≤ 1 := by
  rw [named_isSome]; simp [hashSchemes]; omega
theorem signatureSchemes_known {n : Int} : (∃ j, named signatureSchemes n = some j) ↔ 0 ≤ n ∧ n ≤ 2 := by
  rw [named_isSome]; simp [signatureSchemes]; omega
theorem castTypes_known {n : Int} : (∃ j, named castTypes n = some j) ↔ 0 ≤ n ∧ n ≤ 2 := by
  rw [named_isSome]; simp [castTypes]; omega
theorem reactionTypes_known {n : Int} : (∃ j, named reactionTypes n = some j) ↔ 0 ≤ n ∧ n ≤ 2 := by
  rw [named_isSome]; simp [reactionTypes]; omega
theorem protocols_known {n : Int} : (∃ j, named protocols n = some j) ↔ 0 ≤ n ∧ n ≤ 1 := by
  rw [named_isSome]; simp [protocols]; omega
theorem userDataTypes_known {n : Int} : (∃ j, named userDataTypes n = some j) ↔ (0 ≤ n ∧ n ≤ 3) ∨ (5 ≤ n ∧ n ≤ 14) := by
  rw [named_isSome]; simp [userDataTypes]; omega
theorem proofTypes_known {n : Int} : (∃ j, named proofTypes n = some j) ↔ 0 ≤ n ∧ n ≤ 3 := by
  rw [named_isSome]; simp [proofTypes]; omega
theorem castingModes_known {n : Int} : (∃ j, named castingModes n = some j) ↔ 0 ≤ n ∧ n ≤ 3 := by
  rw [named_isSome]; simp [castingModes]; omega
theorem membershipModes_known {n : Int} : (∃ j, named membershipModes n = some j) ↔ 0 ≤ n ∧ n ≤ 2 := by
  rw [named_isSome]; simp [membershipModes]; omega
theorem memberActions_known {n : Int} : (∃ j, named memberActions n = some j) ↔ 0 ≤ n ∧ n ≤ 6 := by
  rw [named_isSome]; simp [memberActions]; omega
theorem moderateActions_known {n : Int} : (∃ j, named moderateActions n = some j) ↔ 0 ≤ n ∧ n ≤ 2 := by
  rw [named_isSome]; simp [moderateActions]; omega

theorem namedOpt_known {t : List (Int × String)} {o : Option Int} {P : Int → Prop}
    (ht : ∀ n, (∃ j, named t n = some j) ↔ P n) : (∃ j, namedOpt t o = some j) ↔ ∀ n, o = some n → P n := by
  cases o with
  | none => simp [namedOpt]
  | some n =>
    have := ht n
    simp only [namedOpt, Option.some.injEq, forall_eq']
    rw [← this]
    cases named t n <;> simp

theorem type_read {n : Int} {j : J} (h : named messageTypes n = some j) : typeOf j = some n :=
  named_read (t := messageTypes) (by decide +kernel) h
theorem network_read {n : Int} {j : J} (h : named networks n = some j) : networkOf j = some n :=
  named_read (t := networks) (by decide +kernel) h
theorem profile_read {n : Int} {j : J} (h : named userDataTypes n = some j) : profileOf j = some n :=
  named_read (t := userDataTypes) (by decide +kernel) h
theorem protocol_read {n : Int} {j : J} (h : named protocols n = some j) : protocolOf j = some n :=
  named_read (t := protocols) (by decide +kernel) h
theorem casting_read {n : Int} {j : J} (h : named castingModes n = some j) : castingOf j = some n :=
  named_read (t := castingModes) (by decide +kernel) h
theorem membership_read {n : Int} {j : J} (h : named membershipModes n = some j) : membershipOf j = some n :=
  named_read (t := membershipModes) (by decide +kernel) h
theorem memberAction_read {n : Int} {j : J} (h : named memberActions n = some j) : memberActionOf j = some n :=
  named_read (t := memberActions) (by decide +kernel) h
theorem moderateAction_read {n : Int} {j : J} (h : named moderateActions n = some j) : moderateActionOf j = some n :=
  named_read (t := moderateActions) (by decide +kernel) h
theorem hashScheme_read {n : Int} {j : J} (h : named hashSchemes n = some j) :
    J.asName ["HASH_SCHEME_NONE", "HASH_SCHEME_BLAKE3"] 0 j = some n :=
  named_read (t := hashSchemes) (by decide +kernel) h
theorem signatureScheme_read {n : Int} {j : J} (h : named signatureSchemes n = some j) :
    J.asName ["SIGNATURE_SCHEME_NONE", "SIGNATURE_SCHEME_ED25519", "SIGNATURE_SCHEME_EIP712"] 0 j = some n :=
  named_read (t := signatureSchemes) (by decide +kernel) h
theorem castType_read {n : Int} {j : J} (h : named castTypes n = some j) :
    J.asName ["CAST", "LONG_CAST", "TEN_K_CAST"] 0 j = some n :=
  named_read (t := castTypes) (by decide +kernel) h
theorem reactionType_read {n : Int} {j : J} (h : named reactionTypes n = some j) :
    J.asName ["REACTION_TYPE_NONE", "REACTION_TYPE_LIKE", "REACTION_TYPE_RECAST"] 0 j = some n :=
  named_read (t := reactionTypes) (by decide +kernel) h
theorem proofType_read {n : Int} {j : J} (h : named proofTypes n = some j) :
    J.asName ["USERNAME_TYPE_NONE", "USERNAME_TYPE_FNAME", "USERNAME_TYPE_ENS_L1", "USERNAME_TYPE_BASENAME"] 0 j = some n :=
  named_read (t := proofTypes) (by decide +kernel) h

/-! ### Which messages can be shown -/

theorem map_known {α : Type} {o : Option J} {f : J → α} : (∃ y, o.map f = some y) ↔ ∃ j, o = some j := by
  cases o <;> simp

theorem body_known {e : HEnv} {x : Extra} {b : WBody} : (∃ f, body e x b = some f) ↔ KnownBody e b := by
  cases b with
  | castAdd b =>
    simp only [body, map_known, castAdd, KnownBody, ← castTypes_known]
    cases named castTypes b.ty <;> simp
  | reaction ty t =>
    simp only [body, map_known, reaction, KnownBody, ← reactionTypes_known]
    cases named reactionTypes ty <;> simp
  | verificationAdd b =>
    simp only [body, map_known, verificationAdd, KnownBody, ← protocols_known]
    cases named protocols b.protocol <;> simp
  | verificationRemove a p =>
    simp only [body, map_known, verificationRemove, KnownBody, ← protocols_known]
    cases named protocols p <;> simp
  | userData ty v =>
    simp only [body, map_known, userData, KnownBody, ← userDataTypes_known]
    cases named userDataTypes ty <;> simp
  | link ty t => cases t <;> simp [body, link, KnownBody]
  | usernameProof ty n ts o f =>
    simp only [body, map_known, usernameProof, KnownBody, ← proofTypes_known]
    cases named proofTypes ty <;> cases e.utf8 n <;> simp
  | channelUpdate c m n =>
    simp only [body, map_known, channelUpdate, KnownBody, ← namedOpt_known fun _ => castingModes_known,
      ← namedOpt_known fun _ => membershipModes_known]
    cases namedOpt castingModes m <;> cases namedOpt membershipModes n <;> simp
  | channelMember c f a =>
    simp only [body, map_known, channelMember, KnownBody, ← memberActions_known]
    cases named memberActions a <;> simp
  | channelModerate c h a =>
    simp only [body, map_known, channelModerate, KnownBody, ← moderateActions_known]
    cases named moderateActions a <;> simp
  | _ => simp [body, KnownBody]

theorem data_known {e : HEnv} {x : Extra} {d : WData} : (∃ j, data e d x = some j) ↔
    ∃ b, d.body = some b ∧ KnownType d.ty ∧ (0 ≤ d.network ∧ d.network ≤ 3) ∧ KnownBody e b := by
  cases hb : d.body with
  | none => simp [data, hb]
  | some b =>
    simp only [Option.some.injEq, exists_eq_left', data, hb, ← messageTypes_known, ← networks_known, ← body_known (x := x)]
    cases hx : body e x b <;> cases named messageTypes d.ty <;> cases named networks d.network <;> simp [hx]

theorem message_known {e : HEnv} {x : Extra} {m : WMsg} : (∃ j, message e m x = some j) ↔ Showable e m := by
  unfold Showable
  cases hd : m.data with
  | none => simp [message, hd]
  | some d =>
    have : (∃ d' b, some d = some d' ∧ d'.body = some b ∧ KnownType d'.ty ∧ (0 ≤ d'.network ∧ d'.network ≤ 3) ∧ KnownBody e b) ↔
        ∃ j, data e d x = some j := by
      rw [data_known]
      constructor
      · rintro ⟨d', b, h, r⟩
        cases h
        exact ⟨b, r⟩
      · rintro ⟨b, r⟩
        exact ⟨d, b, rfl, r⟩
    rw [this]
    simp only [message, hd, ← hashSchemes_known, ← signatureSchemes_known]
    cases hx : data e d x <;> cases named hashSchemes m.hashScheme <;> cases named signatureSchemes m.signatureScheme <;> simp [hx]

/-! ### What a client reads -/

theorem hexDecode_hexEncode (b : Bytes) : hexDecode (hexEncode b) = some b := by
  have := hexDecode_caseBy b []
  rwa [show caseBy (hexEncode b) [] = hexEncode b by cases hexEncode b <;> rfl] at this

@[simp] theorem hex_read (b : Bytes) : J.asHex (hex b) = some b := by
  simp [J.asHex, hex, hexPrefix, hexDecode_hexEncode]

theorem hex_ne_null (b : Bytes) : hex b ≠ .null := by simp [hex]

theorem mapM_map {α : Type} {f : α → J} {g : J → Option α} :
    ∀ {l : List α}, (∀ a ∈ l, g (f a) = some a) → (l.map f).mapM g = some l
  | [], _ => rfl
  | a :: l, hl => by
    rw [List.map_cons, List.mapM_cons, hl a List.mem_cons_self, mapM_map fun b hb => hl b (List.mem_cons_of_mem _ hb)]
    rfl

theorem nums_read (l : List Nat) : J.asList J.asNum (.arr (l.map .num)) = some l := mapM_map fun _ _ => rfl

theorem strs_read (l : List Bytes) : J.asList J.asStr (.arr (l.map .str)) = some l := mapM_map fun _ _ => rfl

@[simp] theorem castId_read (c : WCastId) : castIdOf (castId c) = some c := by
  simp [castIdOf, castId, J.field, J.get, J.asNum, List.lookup]

theorem embed_read : ∀ {t : Option WTarget}, t ≠ none → embedOf (embed t) = some t
  | none, h => absurd rfl h
  | some (.castId c), _ => by simp [embedOf, embed, J.get, List.lookup]
  | some (.url u), _ => by simp [embedOf, embed, J.get, J.field, J.asStr, List.lookup]

theorem embeds_read {l : List (Option WTarget)} (h : none ∉ l) : J.asList embedOf (.arr (l.map embed)) = some l :=
  mapM_map fun _ ha => embed_read fun hn => h (hn ▸ ha)

theorem scopes_read : ∀ {l : List Int}, (∀ s ∈ l, KnownType s) → (l.filterMap (named messageTypes)).mapM typeOf = some l
  | [], _ => rfl
  | s :: l, h => by
    obtain ⟨j, hj⟩ := messageTypes_known.2 (h s List.mem_cons_self)
    rw [List.filterMap_cons, hj, List.mapM_cons, type_read hj, scopes_read fun t ht => h t (List.mem_cons_of_mem _ ht)]
    rfl

theorem address_read {e : HEnv} {c : Client} (hc : c.Reads e) (p : Int) (b : Bytes) : chainBytes c p (address e p b) = some b := by
  unfold chainBytes address
  split
  · exact hex_read b
  · simp [J.asStr, hc.b58]

theorem b64_read {e : HEnv} {c : Client} (hc : c.Reads e) (b : Bytes) : J.as64 c (b64 e b) = some b := by
  simp [J.as64, b64, hc.b64]

theorem castAdd_read {b : WCast} {j : J} (h : castAdd b = some j) (hw : none ∉ b.embeds) : castAddOf j = some b := by
  unfold castAdd at h
  cases ht : named castTypes b.ty with
  | none => simp [ht] at h
  | some t =>
    simp only [ht, Option.bind_eq_bind, Option.bind_some, Option.some.injEq] at h
    subst h
    have h1 := strs_read b.embedsDeprecated
    have h2 := nums_read b.mentions
    have h3 := nums_read b.positions
    have h4 := embeds_read hw
    have h5 := castType_read ht
    rcases hp : b.parent with _ | ⟨c⟩ | ⟨u⟩ <;>
      simp [castAddOf, J.field, J.get, List.lookup, h1, h2, h3, h4, h5, targetOf, J.optional, orNull, targetCast, targetUrl, J.asStr,
        castId, castIdOf, J.asNum, hp.symm]

theorem lookup_skip (k k' : String) (o : Option J) (l : List (String × J)) :
    (skip k' o ++ l).lookup k = if k = k' then o.or (l.lookup k) else l.lookup k := by
  cases o with
  | none => simp [skip]
  | some j =>
    simp only [skip, List.cons_append, List.nil_append, List.lookup_cons]
    by_cases h : k = k'
    · simp [h]
    · rw [if_neg h, beq_false_of_ne h]

theorem lookup_skip_last (k k' : String) (o : Option J) : (skip k' o).lookup k = if k = k' then o else none := by
  have := lookup_skip k k' o []
  simpa using this

theorem optional_str {k : String} {j : J} {o : Option Bytes} (h : j.get k = o.map .str) : j.optional k J.asStr = some o := by
  unfold J.optional
  rw [h]
  cases o <;> rfl

theorem optional_named {t : List (Int × String)} {rd : J → Option Int} (ht : ∀ {n j}, named t n = some j → rd j = some n)
    {o : Option Int} {oj : Option J} (hn : namedOpt t o = some oj) {k : String} {j : J} (h : j.get k = oj) :
    j.optional k rd = some o := by
  unfold J.optional
  rw [h]
  cases o with
  | none => cases hn; rfl
  | some n =>
    simp only [namedOpt, Option.map_eq_some_iff] at hn
    obtain ⟨v, hv, rfl⟩ := hn
    have h2 := ht hv
    simp only [named, Option.map_eq_some_iff] at hv
    obtain ⟨s, -, rfl⟩ := hv
    simp [h2]

theorem channelUpdate_read {ch : Bytes} {m n : Option Int} {x : Extra} {j : J} (h : channelUpdate ch m n x = some j) :
    channelUpdateOf j = some (.channelUpdate ch m n, x.of (.channelUpdate ch m n)) := by
  unfold channelUpdate at h
  cases hm : namedOpt castingModes m with
  | none => simp [hm] at h
  | some mj =>
    cases hn : namedOpt membershipModes n with
    | none => simp [hm, hn] at h
    | some nj =>
      simp only [hm, hn, Option.bind_eq_bind, Option.bind_some, Option.some.injEq] at h
      have hg : ∀ k, j.get k = (("channelId", hex ch) :: (skip "name" (x.name.map .str) ++ (skip "description" (x.description.map .str) ++
          (skip "imageUrl" (x.imageUrl.map .str) ++ (skip "header" (x.header.map .str) ++ (skip "rules" (x.rules.map .str) ++
          (skip "castingMode" mj ++ skip "membershipMode" nj))))))).lookup k := fun k => by rw [← h]; rfl
      simp only [List.lookup_cons, lookup_skip, lookup_skip_last] at hg
      have h0 : j.field "channelId" J.asHex = some ch := by simp [J.field, hg]
      have h1 := optional_str (o := x.name) ((hg "name").trans (by simp))
      have h2 := optional_str (o := x.description) ((hg "description").trans (by simp))
      have h3 := optional_str (o := x.imageUrl) ((hg "imageUrl").trans (by simp))
      have h4 := optional_str (o := x.header) ((hg "header").trans (by simp))
      have h5 := optional_str (o := x.rules) ((hg "rules").trans (by simp))
      have h6 := optional_named casting_read hm ((hg "castingMode").trans (by simp))
      have h7 := optional_named membership_read hn ((hg "membershipMode").trans (by simp))
      simp [channelUpdateOf, h0, h1, h2, h3, h4, h5, h6, h7, Extra.of]

/-- The copies of the envelope in the body of a key message. -/
def CoherentBody (fid ts : Nat) (signer : Bytes) : WBody → Prop
  | .keyAdd k => k.fid = fid ∧ k.timestamp = UInt32.ofNat ts
  | .keyRemove k => k.fid = fid ∧ k.timestamp = UInt32.ofNat ts ∧ k.signer = signer
  | _ => True

theorem body_read {e : HEnv} {c : Client} (hc : c.Reads e) {x : Extra} {b : WBody} {f : String × J} {fid ts : Nat} {signer : Bytes}
    (h : body e x b = some f) (hw : Whole b) (hk : CoherentBody fid ts signer b) :
    bodyOf c fid ts signer f.1 f.2 = some (b, x.of b) := by
  cases b with
  | castAdd b =>
    simp only [body, Option.map_eq_some_iff] at h
    obtain ⟨j, hj, rfl⟩ := h
    simp [bodyOf, castAdd_read hj hw, Extra.of]
  | castRemove t =>
    simp only [body, Option.some.injEq] at h
    subst h
    simp [bodyOf, J.field, J.get, List.lookup, b64_read hc, Extra.of]
  | reaction ty t =>
    simp only [body, reaction, Option.map_eq_some_iff] at h
    obtain ⟨j, hj, rfl⟩ := h
    cases ht : named reactionTypes ty with
    | none => simp [ht] at hj
    | some n =>
      simp only [ht, Option.bind_eq_bind, Option.bind_some, Option.some.injEq] at hj
      subst hj
      have h5 := reactionType_read ht
      rcases t with _ | ⟨c⟩ | ⟨u⟩ <;>
        simp [bodyOf, J.field, J.get, List.lookup, h5, targetOf, J.optional, skip, targetCast, targetUrl, J.asStr,
          castId, castIdOf, J.asNum, Extra.of]
  | verificationAdd b =>
    simp only [body, verificationAdd, Option.map_eq_some_iff] at h
    obtain ⟨j, hj, rfl⟩ := h
    cases ht : named protocols b.protocol with
    | none => simp [ht] at hj
    | some n =>
      simp only [ht, Option.bind_eq_bind, Option.bind_some, Option.some.injEq] at hj
      subst hj
      simp [bodyOf, verificationOf, J.field, J.get, List.lookup, protocol_read ht, address_read hc, b64_read hc, J.asNum, Extra.of]
  | verificationRemove a p =>
    simp only [body, verificationRemove, Option.map_eq_some_iff] at h
    obtain ⟨j, hj, rfl⟩ := h
    cases ht : named protocols p with
    | none => simp [ht] at hj
    | some n =>
      simp only [ht, Option.bind_eq_bind, Option.bind_some, Option.some.injEq] at hj
      subst hj
      simp [bodyOf, J.field, J.get, List.lookup, protocol_read ht, address_read hc, Extra.of]
  | userData ty v =>
    simp only [body, userData, Option.map_eq_some_iff] at h
    obtain ⟨j, hj, rfl⟩ := h
    cases ht : named userDataTypes ty with
    | none => simp [ht] at hj
    | some n =>
      simp only [ht, Option.bind_eq_bind, Option.bind_some, Option.some.injEq] at hj
      subst hj
      simp [bodyOf, J.field, J.get, List.lookup, profile_read ht, J.asStr, Extra.of]
  | link ty t =>
    cases t with
    | none => simp [body, link] at h
    | some t =>
      simp only [body, link, Option.bind_eq_bind, Option.bind_some, Option.map_some, Option.some.injEq] at h
      subst h
      cases hx : x.displayTimestamp <;>
        simp [bodyOf, J.field, J.get, List.lookup, J.optional, orNull, J.asStr, J.asNum, Extra.of, hx]
  | usernameProof ty n t o f =>
    simp only [body, usernameProof, Option.map_eq_some_iff] at h
    obtain ⟨j, hj, rfl⟩ := h
    cases ht : named proofTypes ty with
    | none => simp [ht] at hj
    | some n =>
      simp only [ht, Option.bind_eq_bind, Option.bind_some] at hj
      split at hj
      · cases hj
        simp [bodyOf, J.field, J.get, List.lookup, proofType_read ht, J.asStr, J.asNum, b64_read hc, Extra.of]
      · cases hj
  | frameAction b =>
    simp only [body, Option.some.injEq] at h
    subst h
    obtain ⟨url, button, cast, input, state, tx, a⟩ := b
    cases cast <;>
      simp [bodyOf, frameOf, frameAction, J.field, J.get, List.lookup, J.optional, skip, b64_read hc, J.asNum, castId, castIdOf,
        Extra.of]
  | linkCompactState ty ts =>
    simp only [body, Option.some.injEq] at h
    subst h
    have := nums_read ts
    simp [bodyOf, J.field, J.get, List.lookup, J.asStr, this, Extra.of]
  | lendStorage f u ty =>
    simp only [body, Option.some.injEq] at h
    subst h
    have : J.asName ["UnitTypeLegacy", "UnitType2024", "UnitType2025"] 0 (.name (unitName ty)) = some ty := by
      have : ty = 0 ∨ ty = 1 ∨ ty = 2 := by simp only [Whole] at hw; omega
      rcases this with rfl | rfl | rfl <;> decide +kernel
    simp [bodyOf, lendStorage, J.field, J.get, List.lookup, J.asNum, this, Extra.of]
  | keyAdd b =>
    simp only [body, Option.some.injEq] at h
    subst h
    obtain ⟨h1, h2⟩ := hk
    have := scopes_read hw
    simp [bodyOf, keyAddOf, keyAdd, J.field, J.get, List.lookup, J.asNum, J.asU32, J.asList, this, Extra.of, ← h1, ← h2]
  | keyRemove b =>
    simp only [body, Option.some.injEq] at h
    subst h
    obtain ⟨h1, h2, h3⟩ := hk
    simp [bodyOf, keyRemoveOf, keyRemove, J.field, J.get, List.lookup, J.asNum, J.asU32, Extra.of, ← h1, ← h2, ← h3]
  | channelUpdate ch m n =>
    simp only [body, Option.map_eq_some_iff] at h
    obtain ⟨j, hj, rfl⟩ := h
    simp [bodyOf, channelUpdate_read hj]
  | channelMember ch g a =>
    simp only [body, channelMember, Option.map_eq_some_iff] at h
    obtain ⟨j, hj, rfl⟩ := h
    cases ht : named memberActions a with
    | none => simp [ht] at hj
    | some n =>
      simp only [ht, Option.bind_eq_bind, Option.bind_some, Option.some.injEq] at hj
      subst hj
      simp [bodyOf, J.field, J.get, List.lookup, memberAction_read ht, J.asNum, Extra.of]
  | channelPin ch k =>
    simp only [body, Option.some.injEq] at h
    subst h
    simp [bodyOf, channelPin, J.field, J.get, List.lookup, Extra.of]
  | channelModerate ch k a =>
    simp only [body, channelModerate, Option.map_eq_some_iff] at h
    obtain ⟨j, hj, rfl⟩ := h
    cases ht : named moderateActions a with
    | none => simp [ht] at hj
    | some n =>
      simp only [ht, Option.bind_eq_bind, Option.bind_some, Option.some.injEq] at hj
      subst hj
      simp [bodyOf, J.field, J.get, List.lookup, moderateAction_read ht, Extra.of]

theorem bodyOf_other {c : Client} {fid ts : Nat} {signer : Bytes} {j : J} {k : String}
    (h : k = "type" ∨ k = "fid" ∨ k = "timestamp" ∨ k = "network") : bodyOf c fid ts signer k j = none := by
  rcases h with rfl | rfl | rfl | rfl <;> simp [bodyOf]

theorem data_read {e : HEnv} {c : Client} (hc : c.Reads e) {x : Extra} {d : WData} {b : WBody} {j : J} {signer : Bytes}
    (hb : d.body = some b) (h : data e d x = some j) (hw : Whole b) (hk : CoherentBody d.fid d.ts signer b) :
    dataOf c signer j = some (d, x.of b) := by
  unfold data at h
  cases hf : body e x b with
  | none => simp [hb, hf] at h
  | some f =>
    cases ht : named messageTypes d.ty with
    | none => simp [hb, hf, ht] at h
    | some t =>
      cases hn : named networks d.network with
      | none => simp [hb, hf, ht, hn] at h
      | some n =>
        simp only [hb, hf, ht, hn, Option.bind_eq_bind, Option.bind_some, Option.some.injEq] at h
        subst h
        simp [dataOf, J.field, J.get, List.lookup, type_read ht, network_read hn, J.asNum, List.findSome?_cons, bodyOf_other,
          body_read hc hf hw hk, ← hb]

theorem message_read {e : HEnv} {c : Client} (hc : c.Reads e) {x : Extra} {m : WMsg} {d : WData} {b : WBody} {j : J}
    (hd : m.data = some d) (hb : d.body = some b) (h : message e m x = some j) (hw : Whole b)
    (hk : CoherentBody d.fid d.ts m.signer b) : messageOf c j = some ({ m with dataBytes := none }, x.of b) := by
  unfold message at h
  cases hf : data e d x with
  | none => simp [hd, hf] at h
  | some f =>
    cases ht : named hashSchemes m.hashScheme with
    | none => simp [hd, hf, ht] at h
    | some t =>
      cases hn : named signatureSchemes m.signatureScheme with
      | none => simp [hd, hf, ht, hn] at h
      | some n =>
        simp only [hd, hf, ht, hn, Option.bind_eq_bind, Option.bind_some, Option.some.injEq] at h
        subst h
        simp [messageOf, J.field, J.get, List.lookup, hashScheme_read ht, signatureScheme_read hn, b64_read hc,
          data_read hc hb hf hw hk, ← hd]

/-! ### Pages -/

theorem messages_some {e : HEnv} : ∀ {l : List (WMsg × Extra)} {js : List J},
    messages e l = some js ↔ l.map (fun m => message e m.1 m.2) = js.map some
  | [], js => by cases js <;> simp [messages]
  | m :: l, [] => by
    simp only [messages, List.map_cons, List.map_nil, reduceCtorEq, iff_false]
    cases message e m.1 m.2 <;> simp
  | m :: l, j :: js => by
    simp only [messages, List.map_cons, List.cons.injEq]
    rw [← messages_some (l := l) (js := js)]
    cases message e m.1 m.2 with
    | none => simp
    | some v => simp; exact and_comm

theorem messages_none {e : HEnv} : ∀ {l : List (WMsg × Extra)}, messages e l = none ↔ ∃ m ∈ l, message e m.1 m.2 = none
  | [] => by simp [messages]
  | m :: l => by
    have := messages_none (e := e) (l := l)
    simp only [messages, List.mem_cons, exists_eq_or_imp]
    rw [← this]
    cases message e m.1 m.2 <;> simp

/-! ### Page tokens -/

theorem spacesToPlus_of {s t : Bytes} (hl : s.length = t.length)
    (h : ∀ i : Nat, s[i]? = t[i]? ∨ (s[i]? = some 32 ∧ t[i]? = some 43)) (ht : (32 : UInt8) ∉ t) : spacesToPlus s = t := by
  apply List.ext_getElem?
  intro i
  simp only [spacesToPlus, List.getElem?_map]
  rcases h i with h | ⟨h, h'⟩
  · rw [h]
    cases hi : t[i]? with
    | none => rfl
    | some c =>
      have : c ≠ 32 := fun hc => ht (hc ▸ List.mem_of_getElem? hi)
      simp [this]
  · rw [h, h']; rfl

/-! ### Accepted messages -/

theorem storedForm_data {env : VEnv} {m : WMsg} {d : WData} {bytes : Bytes} (hc : Contents env m d bytes) (hn : bytes ≠ []) :
    (storedForm env m).data = some d ∧ (storedForm env m).hashScheme = m.hashScheme ∧
    (storedForm env m).signatureScheme = m.signatureScheme ∧ (storedForm env m).signer = m.signer := by
  rcases hc with ⟨h1, h2⟩ | ⟨h1, h2, h3⟩
  · have : bytes.isEmpty = false := by cases bytes <;> simp_all
    simp [storedForm, bytesDecode, h1, this, h2]
  · simp [storedForm, h1, h2]

theorem good_known {env : VEnv} {e : HEnv} (hu : ∀ s, e.utf8 s = (env.chars s).isSome) {pro : Bool} {now v : Nat} {d : WData} {b : WBody}
    (hb : d.body = some b) (hv : 5 ≤ v ∨ ∀ ty n t o f, b ≠ .usernameProof ty n t o f) (h : GoodBody env pro now v d) :
    KnownBody e b ∧ Whole b := by
  unfold GoodBody at h
  rw [hb] at h
  cases b with
  | castAdd b =>
    refine ⟨?_, fun hn => ?_⟩
    · have := h.text
      simp only [KnownBody]
      omega
    · obtain ⟨t, ht, -⟩ := h.embedsGood _ hn
      cases ht
  | userData ty s =>
    simp only [GoodProfile] at h
    simp only [KnownBody, Whole, and_true]
    omega
  | usernameProof ty n t o f =>
    have h5 : 5 ≤ v := hv.resolve_right fun h => h _ _ _ _ _ rfl
    simp only [KnownBody, Whole, hu, and_true]
    rcases h with ⟨rfl, h⟩ | ⟨rfl, -, h, -⟩
    · exact ⟨by omega, (h h5).1⟩
    · exact ⟨by omega, h⟩
  | verificationAdd b =>
    have := h.1.1
    simp only [KnownBody, Whole, and_true]
    omega
  | verificationRemove a p =>
    simp only [GoodOther] at h
    simp only [KnownBody, Whole, and_true]
    omega
  | reaction ty t => exact ⟨h.1, trivial⟩
  | link ty t =>
    obtain ⟨-, f, rfl, -⟩ := h
    exact ⟨by simp [KnownBody], trivial⟩
  | lendStorage f u ty => exact ⟨trivial, h.2.1⟩
  | keyAdd k =>
    refine ⟨trivial, fun s hs => ?_⟩
    have := h.2.2.2.2.2.2.2 s hs
    unfold KnownType
    omega
  | channelUpdate c m n => exact ⟨⟨h.2.2.1, h.2.2.2⟩, trivial⟩
  | channelMember c f a =>
    have := h.2.2.2
    simp only [KnownBody, Whole, and_true]
    omega
  | channelModerate c k a =>
    have := h.2.2.2
    simp only [KnownBody, Whole, and_true]
    omega
  | _ => exact ⟨trivial, trivial⟩

end Http
end Verif
