import Verif.Lemmas.Http
import Verif.Case.Http
/-! C102: messages in JSON say what is stored. -/
namespace Verif
namespace Http

/-- A message can be shown exactly when it has data with a body, every number in it that stands for a name is that of a name,
a link has a target and a name that is proved is text. -/
theorem C102_shown_iff (e : HEnv) (m : WMsg) (x : Extra) : (∃ j, message e m x = some j) ↔ Showable e m := message_known

/-- What is shown is the message: a client that looks the fields up by name reads all of it, other than the bytes that were
signed, if nothing in it is unknown. -/
theorem C102_client_reads (e : HEnv) (c : Client) (hc : c.Reads e) (m : WMsg) (x : Extra) (d : WData) (b : WBody) (j : J)
    (hd : m.data = some d) (hb : d.body = some b) (hw : Whole b) (hk : Coherent m d) (h : message e m x = some j) :
    messageOf c j = some ({ m with dataBytes := none }, x.of b) := by
  refine message_read hc hd hb h hw ?_
  unfold Coherent at hk
  rw [hb] at hk
  cases b <;> first | exact hk | trivial

/-- Two messages that are shown alike are alike. -/
theorem C102_same_json_same_message (e : HEnv) (c : Client) (hc : c.Reads e) (m m' : WMsg) (x x' : Extra) (d d' : WData)
    (b b' : WBody) (hd : m.data = some d) (hb : d.body = some b) (hw : Whole b) (hk : Coherent m d)
    (hd' : m'.data = some d') (hb' : d'.body = some b') (hw' : Whole b') (hk' : Coherent m' d')
    (hs : Showable e m) (h : message e m x = message e m' x') :
    d = d' ∧ m.hash = m'.hash ∧ m.signature = m'.signature ∧ m.signer = m'.signer ∧ x.of b = x'.of b' := by
  obtain ⟨j, hj⟩ := (C102_shown_iff e m x).2 hs
  have h1 := C102_client_reads e c hc m x d b j hd hb hw hk hj
  have h2 := C102_client_reads e c hc m' x' d' b' j hd' hb' hw' hk' (h ▸ hj)
  rw [h1] at h2
  simp only [Option.some.injEq, Prod.mk.injEq, WMsg.mk.injEq] at h2
  obtain ⟨⟨h3, -, h4, -, h5, -, h6⟩, h7⟩ := h2
  rw [hd, hd'] at h3
  exact ⟨Option.some.inj h3, h4, h5, h6, h7⟩

/-- An accepted message with a body and of a known type is shown, as it is stored, and in full.  Username proofs are
accepted with names that are text only from version 5 on. -/
theorem C102_accepted_in_full (env : VEnv) (ho : env.otherDigit 45 = false) (e : HEnv) (hu : ∀ s, e.utf8 s = (env.chars s).isSome)
    (c : Client) (hc : c.Reads e) (current : Network) (pro : Bool) (now : Nat) (v : EngineVersion) (m : WMsg) (x : Extra)
    (h1 : 600 ≤ now) (h2 : now < 2 ^ 32) (hm : validateMessage env current pro now v m = .ok ())
    (d : WData) (bytes : Bytes) (hd : Contents env m d bytes) (b : WBody) (hb : d.body = some b) (ht : KnownType d.ty)
    (hk : Coherent m d) (hv : 5 ≤ v.num ∨ ∀ ty n t o f, b ≠ .usernameProof ty n t o f) :
    ∃ j, message e (storedForm env m) x = some j ∧
      messageOf c j = some ({ storedForm env m with dataBytes := none }, x.of b) := by
  obtain ⟨d', bytes', he, hg⟩ := (validateMessage_ok ho h1 h2).1 hm
  obtain ⟨rfl, rfl⟩ := hd.unique he.contents
  obtain ⟨k1, k2⟩ := good_known hu hb hv hg
  obtain ⟨s1, s2, s3, s4⟩ := storedForm_data hd he.sealed.nonempty
  have hs : Showable e (storedForm env m) := by
    refine ⟨?_, ?_, d, b, s1, hb, ht, ?_, k1⟩
    · rw [s2, he.sealed.hashScheme]; omega
    · rw [s3, he.sealed.signatureScheme]; omega
    · have := he.network
      unfold ForNetwork at this
      omega
  obtain ⟨j, hj⟩ := (C102_shown_iff e (storedForm env m) x).2 hs
  refine ⟨j, hj, C102_client_reads e c hc _ x d b j s1 hb k2 ?_ hj⟩
  unfold Coherent at hk ⊢
  rw [s4]
  exact hk

/-- A page shows each message, in order, and the token of the next page. -/
theorem C102_page (e : HEnv) (l : List (WMsg × Extra)) (token : Option Bytes) (j : J) (h : page e l token = some j) :
    ∃ js, l.map (fun m => message e m.1 m.2) = js.map some ∧
      j = .obj [("messages", .arr js), ("nextPageToken", .str ((token.map e.base64).getD []))] := by
  unfold page at h
  rw [Option.map_eq_some_iff] at h
  obtain ⟨js, h1, h2⟩ := h
  refine ⟨js, messages_some.1 h1, ?_⟩
  rw [← h2]
  cases token <;> rfl

/-- A page fails exactly if one of its messages cannot be shown: the server panics over the whole page. -/
theorem C102_page_fails_iff (e : HEnv) (l : List (WMsg × Extra)) (token : Option Bytes) :
    page e l token = none ↔ ∃ m ∈ l, ¬ Showable e m.1 := by
  unfold page
  rw [Option.map_eq_none_iff, messages_none]
  constructor
  · rintro ⟨m, hm, h⟩
    refine ⟨m, hm, fun hs => ?_⟩
    obtain ⟨j, hj⟩ := (C102_shown_iff e m.1 m.2).2 hs
    rw [h] at hj
    cases hj
  · rintro ⟨m, hm, h⟩
    refine ⟨m, hm, ?_⟩
    cases hj : message e m.1 m.2 with
    | none => rfl
    | some j => exact absurd ((C102_shown_iff e m.1 m.2).1 ⟨j, hj⟩) h

/-- The token of a page, given back as it is or with pluses turned into spaces on the way, is the token; and the empty
token asks for the first page. -/
theorem C102_page_token (e : HEnv) (t s : Bytes) (h64 : e.unbase64 (e.base64 t) = some t) (hn : (32 : UInt8) ∉ e.base64 t)
    (he : e.base64 t ≠ []) (hl : s.length = (e.base64 t).length)
    (hs : ∀ i : Nat, s[i]? = (e.base64 t)[i]? ∨ (s[i]? = some 32 ∧ (e.base64 t)[i]? = some 43)) :
    readToken e s = some (some t) ∧ readToken e [] = some none := by
  refine ⟨?_, rfl⟩
  unfold readToken
  rw [spacesToPlus_of hl hs hn]
  have : (e.base64 t).isEmpty = false := by cases h : e.base64 t <;> simp_all
  rw [this, h64]
  rfl

/-! Non-vacuity: the client reads what is written plainly; a cast with a parent, an embed and a mention is shown and read. -/

theorem plain_reads : plainC.Reads plainH := ⟨fun _ => rfl, fun _ => rfl⟩

/-- A reply that mentions user 7 and embeds a cast. -/
def demoReply : WCast :=
  { embedsDeprecated := [], mentions := [7], parent := some (.url [104]), text := [104, 105], positions := [1],
    embeds := [some (.castId ⟨3, List.replicate 20 2⟩)], ty := 0 }

example : Showable plainH (demoMsg (demoData 1 (.castAdd demoReply))) :=
  ⟨by decide, by decide, _, _, rfl, rfl, .inl (by decide), by decide, (by decide : (0 : Int) ≤ 0 ∧ (0 : Int) ≤ 2)⟩

example : ∃ j, message plainH (demoMsg (demoData 1 (.castAdd demoReply))) {} = some j ∧
    messageOf plainC j = some ({ demoMsg (demoData 1 (.castAdd demoReply)) with dataBytes := none }, {}) := by
  obtain ⟨j, hj⟩ := (C102_shown_iff plainH (demoMsg (demoData 1 (.castAdd demoReply))) {}).2
    ⟨by decide, by decide, _, _, rfl, rfl, .inl (by decide), by decide, (by decide : (0 : Int) ≤ 0 ∧ (0 : Int) ≤ 2)⟩
  exact ⟨j, hj, C102_client_reads plainH plainC plain_reads _ _ (demoData 1 (.castAdd demoReply)) (.castAdd demoReply) j rfl rfl
    (by decide : none ∉ demoReply.embeds) trivial hj⟩

example : validateMessage (demoEnv (demoData 1 (.castAdd demoReply))) .mainnet false 1000 .v20
    (demoMsg (demoData 1 (.castAdd demoReply))) = .ok () := rfl

example : readToken plainH [1, 32, 2] = some (some [1, 43, 2]) := rfl

/-! ### What is not shown -/

/-- An embed that is neither a cast nor a URL is shown as an empty URL. -/
theorem C102_missing_embed_is_empty_url (e : HEnv) (b : WCast) :
    castAdd { b with embeds := [none] } = castAdd { b with embeds := [some (.url [])] } := rfl

/-- Storage units of an unknown kind are shown as legacy units. -/
theorem C102_unknown_units_are_legacy (f u : Nat) : lendStorage f u 7 = lendStorage f u 0 := rfl

/-- Unknown scopes of a key are left out. -/
theorem C102_unknown_scopes_vanish (b : KeyAddMsg) (tx : Bytes) : keyAdd { b with scopes := [99] } tx = keyAdd { b with scopes := [] } tx := rfl

/-- Before version 5 a proof of an ENS name that is no text is accepted, and every page with it fails. -/
theorem C102_old_proof_fails_pages :
    let d := demoData 12 (.usernameProof 2 [255] 1000 (List.replicate 20 1) 11)
    let env : VEnv := { demoEnv d with chars := fun b => if b = [255] then none else some [] }
    validateMessage env .mainnet false 1000 .v4 (demoMsg d) = .ok () ∧ (∀ s, plainH.utf8 s = (env.chars s).isSome) ∧
    ∀ l1 l2 token, page plainH (l1 ++ (storedForm env (demoMsg d), ({} : Extra)) :: l2) token = none := by
  refine ⟨by rfl, fun s => by by_cases h : s = [255] <;> simp [plainH, h], fun l1 l2 token => ?_⟩
  rw [C102_page_fails_iff]
  refine ⟨_, List.mem_append_right _ List.mem_cons_self, ?_⟩
  rintro ⟨-, -, d, b, h1, h2, -, -, h3⟩
  cases h1
  cases h2
  exact absurd h3.2 (by decide)

end Http
end Verif
