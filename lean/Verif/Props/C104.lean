import Verif.Lemmas.Auth
/-! C104: credentials of the RPC servers. -/
namespace Verif
namespace Auth

/-- A message is taken from exactly those who know a configured user and their password, or from everyone if no user is
configured. -/
theorem C104_submit_iff (env : AEnv) (s : Settings) (auth : Option Bytes) :
    passes env s auth .submit = true ↔ (¬ ∃ u p, Configured s.rpcAuth u p) ∨ Knows env s.rpcAuth auth := by
  rw [← authenticate_iff]
  unfold passes
  cases authenticate env (parseAuth s.rpcAuth) auth <;> simp [Except.isOk, Except.toBool]

/-- The mesh view, with the users of the admin server. -/
theorem C104_mesh_iff (env : AEnv) (s : Settings) (auth : Option Bytes) :
    passes env s auth .mesh = true ↔ (¬ ∃ u p, Configured s.adminAuth u p) ∨ Knows env s.adminAuth auth := by
  rw [← authenticate_iff]
  unfold passes
  cases authenticate env (parseAuth s.adminAuth) auth <;> simp [Except.isOk, Except.toBool]

/-- Snapshots are uploaded and events migrated only for those who know a user of the admin server and their password; without
any such user, for nobody. -/
theorem C104_admin_iff (env : AEnv) (s : Settings) (auth : Option Bytes) (c : Call) (hc : c = .uploadSnapshot ∨ c = .migrateEvents) :
    passes env s auth c = true ↔ Knows env s.adminAuth auth := by
  have key : (!(parseAuth s.adminAuth).isEmpty && (authenticate env (parseAuth s.adminAuth) auth).isOk) = true ↔
      Knows env s.adminAuth auth := by
    have hiff := authenticate_iff env s.adminAuth auth
    have hok : (authenticate env (parseAuth s.adminAuth) auth).isOk = true ↔ authenticate env (parseAuth s.adminAuth) auth = .ok () := by
      cases authenticate env (parseAuth s.adminAuth) auth <;> simp [Except.isOk, Except.toBool]
    rw [Bool.and_eq_true, hok, hiff]
    constructor
    · rintro ⟨h1, h2 | h2⟩
      · rw [no_users_iff.2 h2] at h1; cases h1
      · exact h2
    · intro hk
      refine ⟨?_, .inr hk⟩
      obtain ⟨h, u, p, -, -, hcf⟩ := hk
      cases he : (parseAuth s.adminAuth).isEmpty with
      | false => rfl
      | true => exact absurd ⟨u, p, hcf⟩ (no_users_iff.1 he)
  rcases hc with rfl | rfl <;> exact key

/-- A user has one password: that of their last entry. -/
theorem C104_one_password (config u p q : Bytes) (h1 : Configured config u p) (h2 : Configured config u q) : p = q := by
  rw [← configured_iff] at h1 h2
  rw [h1] at h2
  exact Option.some.inj h2

/-- One who knows a user and their password gets in with the usual header, provided that the client's base64 is the server's. -/
theorem C104_client_gets_in (env : AEnv) (s : Settings) (base64 : Bytes → Bytes) (u p : Bytes) (hu : env.utf8 (u ++ 58 :: p) = true)
    (h64 : env.unbase64 (base64 (u ++ 58 :: p)) = some (u ++ 58 :: p)) (hne : base64 (u ++ 58 :: p) ≠ [])
    (hpr : ∀ b ∈ base64 (u ++ 58 :: p), 33 ≤ b ∧ b < 127) :
    (Configured s.rpcAuth u p → passes env s (some ([66, 97, 115, 105, 99, 32] ++ base64 (u ++ 58 :: p))) .submit = true) ∧
    (Configured s.adminAuth u p → ∀ c, c ≠ .submit → (c = .debugSubmit → s.debug = true) →
      passes env s (some ([66, 97, 115, 105, 99, 32] ++ base64 (u ++ 58 :: p))) c = true) := by
  have hk : ∀ config, Configured config u p → Knows env config (some ([66, 97, 115, 105, 99, 32] ++ base64 (u ++ 58 :: p))) := by
    intro config hc
    have hc' := hc
    obtain ⟨_, _, -, -, h1, h2, -⟩ := hc'
    exact ⟨_, u, p, rfl, ⟨[], [32], [], base64 (u ++ 58 :: p), by simp, by simp [Blanks], by simp [Blanks], by simp [Blanks], by simp, hne,
      hpr, h64, hu, h1, h2⟩, hc⟩
  refine ⟨fun hc => (C104_submit_iff env s _).2 (.inr (hk _ hc)), fun hc c h1 h2 => ?_⟩
  have he : (parseAuth s.adminAuth).isEmpty = false := by
    cases he : (parseAuth s.adminAuth).isEmpty with
    | false => rfl
    | true => exact absurd ⟨u, p, hc⟩ (no_users_iff.1 he)
  cases c with
  | submit => exact absurd rfl h1
  | mesh => exact (C104_mesh_iff env s _).2 (.inr (hk _ hc))
  | uploadSnapshot => exact (C104_admin_iff env s _ _ (.inl rfl)).2 (hk _ hc)
  | migrateEvents => exact (C104_admin_iff env s _ _ (.inr rfl)).2 (hk _ hc)
  | retryEvents => simp [passes, he]
  | retryNames => simp [passes, he]
  | debugSubmit => simp [passes, he, h2 rfl]

/-- A wrong password, or that of another, does not let in. -/
theorem C104_wrong_password (env : AEnv) (s : Settings) (h u p q : Bytes) (hc : Configured s.rpcAuth u p)
    (hp : Presents env h u q) (hq : q ≠ p) : passes env s (some h) .submit = false := by
  cases hx : passes env s (some h) .submit with
  | false => rfl
  | true =>
    exfalso
    rcases (C104_submit_iff env s _).1 hx with hn | ⟨h', u', p', he, hp', hc'⟩
    · exact hn ⟨u, p, hc⟩
    · cases he
      obtain ⟨w0, w1, w2, code, a1, a2, a3, a4, a5, a6, a7, a8, a9, a10, a11⟩ := hp
      obtain ⟨v0, v1, v2, code', b1, b2, b3, b4, b5, b6, b7, b8, b9, b10, b11⟩ := hp'
      have e1 : words h = [basic, code] :=
        words_two.2 ⟨w0, w1, w2, a1, a2, a3, a4, a5, by decide, a6, by decide, fun x hx => (printable_word.2 (a7 x hx)).2⟩
      have e2 : words h = [basic, code'] :=
        words_two.2 ⟨v0, v1, v2, b1, b2, b3, b4, b5, by decide, b6, by decide, fun x hx => (printable_word.2 (b7 x hx)).2⟩
      rw [e1] at e2
      have : code = code' := by simpa using e2
      subst this
      rw [a8] at b8
      have e3 := split_two.2 ⟨rfl, a10, a11⟩
      have e4 := split_two.2 ⟨rfl, b10, b11⟩
      rw [Option.some.inj b8, e4] at e3
      simp only [List.cons.injEq, and_true] at e3
      obtain ⟨rfl, rfl⟩ := e3
      exact hq (C104_one_password _ _ _ _ hc' hc)

/-- An only user whose password has a colon is no user: everyone gets in, with any header or none. -/
theorem C104_colon_in_password_opens (env : AEnv) (s : Settings) (u p1 p2 : Bytes) (hu : 44 ∉ u) (h1 : 44 ∉ p1) (h2 : 44 ∉ p2)
    (hs : s.rpcAuth = u ++ 58 :: (p1 ++ 58 :: p2)) (auth : Option Bytes) : passes env s auth .submit = true := by
  refine (C104_submit_iff env s auth).2 (.inl ?_)
  rintro ⟨v, q, before, after, h3, h4, h5, h6, -⟩
  have e1 : split (· == 44) s.rpcAuth = [s.rpcAuth] := by
    refine split_joined (ps := [s.rpcAuth]) (by simp) ?_
    rw [hs]; simp [hu, h1, h2]
  have e2 : split (· == 44) s.rpcAuth = before ++ (v ++ 58 :: q) :: after := by
    rw [h3]; exact split_joined (by simp) h4
  rw [e1] at e2
  have hb : before = [] := by
    cases before with
    | nil => rfl
    | cons x l => simp at e2
  subst hb
  simp only [List.nil_append, List.cons.injEq] at e2
  have c1 : s.rpcAuth.count 58 = 1 := by
    rw [e2.1]; simp [List.count_append, List.count_eq_zero.2 h5, List.count_eq_zero.2 h6]
  rw [hs] at c1
  simp [List.count_append] at c1
  omega

/-- Once the admin server is there, retries of events and names need no credentials, nor, on the devnet, does submitting
on-chain events and names. -/
theorem C104_retries_are_open (env : AEnv) (s : Settings) (u p : Bytes) (h : Configured s.adminAuth u p) (auth : Option Bytes) :
    passes env s auth .retryEvents = true ∧ passes env s auth .retryNames = true ∧ passes env s auth .debugSubmit = s.debug := by
  have he : (parseAuth s.adminAuth).isEmpty = false := by
    cases he : (parseAuth s.adminAuth).isEmpty with
    | false => rfl
    | true => exact absurd ⟨u, p, h⟩ (no_users_iff.1 he)
  simp [passes, he]

/-- Without a user of the admin server nobody reaches any of its calls. -/
theorem C104_no_admin_without_users (env : AEnv) (s : Settings) (h : ¬ ∃ u p, Configured s.adminAuth u p) (auth : Option Bytes) (c : Call)
    (hc : c ≠ .submit ∧ c ≠ .mesh) : passes env s auth c = false := by
  have he := no_users_iff.2 h
  cases c <;> simp_all [passes]

/-- Base64 that changes nothing, and two users, one with two entries: `a:b,c:d,a:e`. -/
def plain : AEnv := ⟨some, fun _ => true⟩
def cfg : Settings := ⟨[97, 58, 98, 44, 99, 58, 100, 44, 97, 58, 101], [97, 58, 98], false⟩

example : ¬ ∃ u p, Configured [97, 98] u p := no_users_iff.1 (by decide)
example : Configured cfg.rpcAuth [97] [101] := configured_iff.1 (by decide)
example : ¬ Configured cfg.rpcAuth [97] [98] := fun h => absurd (configured_iff.2 h) (by decide)

/-- `Basic a:e` gets in, `Basic a:b` and no header do not. -/
example : passes plain cfg (some (basic ++ [32] ++ [97, 58, 101])) .submit = true ∧
    passes plain cfg (some (basic ++ [32] ++ [97, 58, 98])) .submit = false ∧ passes plain cfg none .submit = false ∧
    passes plain cfg none .uploadSnapshot = false ∧ passes plain cfg (some (basic ++ [32] ++ [97, 58, 98])) .uploadSnapshot = true := by decide

/-- The conditions of `C104_client_gets_in` and `C104_wrong_password`. -/
example : plain.utf8 ([97] ++ 58 :: [101]) = true ∧ plain.unbase64 (id ([97] ++ 58 :: [101])) = some ([97] ++ 58 :: [101]) ∧
    (∀ b ∈ id ([97] ++ 58 :: [101] : Bytes), 33 ≤ b ∧ b < 127) := by decide
example : Presents plain (basic ++ [32] ++ [97, 58, 98]) [97] [98] :=
  ⟨[], [32], [], [97, 58, 98], by decide, by simp [Blanks], by simp [Blanks], by simp [Blanks], by simp, by simp, by decide, rfl, rfl,
    by decide, by decide⟩

end Auth
end Verif
