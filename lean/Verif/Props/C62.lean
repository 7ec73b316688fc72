import Verif.Lemmas.ChannelUri
/-! C62: each channel has exactly one accepted spelling. -/
namespace Verif

/-- The texts accepted are exactly those of the form `eip155:<chain>/erc721:<contract>/<token>` with the numbers and the
contract in their usual spelling, and what is read is what is named. -/
theorem C62_accepted_iff (keccak : Bytes → Bytes) (u : Bytes) (a : AssetId) :
    AssetId.parse keccak u = .ok a ↔ ∃ token, NamesAsset keccak u a.chain a.contract token ∧ a.channel = be 32 token :=
  parse_ok

/-- Printing what was read gives back the text. -/
theorem C62_printing_gives_back_the_text (keccak : Bytes → Bytes) (u : Bytes) (a : AssetId)
    (h : AssetId.parse keccak u = .ok a) : a.canonical keccak = u := by
  obtain ⟨n, hn, hc⟩ := parse_ok.1 h
  have b : (256 : Nat) ^ 32 = 2 ^ 256 := by decide
  rw [hn.text, AssetId.canonical, hc, fromBe_be_of_lt (by rw [b]; exact hn.2.2.1)]

/-- What is printed is read back. -/
theorem C62_printed_is_read_back (keccak : Bytes → Bytes) (a : AssetId) (h1 : a.chain < 2 ^ 64)
    (h2 : a.contract.length = 20) (h3 : a.channel.length = 32) : AssetId.parse keccak (a.canonical keccak) = .ok a := by
  refine parse_ok.2 ⟨_, names_canonical h1 h2 h3, ?_⟩
  rw [← h3, be_fromBe]

/-- Two accepted texts for the same token are equal. -/
theorem C62_one_spelling (keccak : Bytes → Bytes) (u u' : Bytes) (a : AssetId) (h : AssetId.parse keccak u = .ok a)
    (h' : AssetId.parse keccak u' = .ok a) : u = u' := by
  rw [← C62_printing_gives_back_the_text keccak u a h, C62_printing_gives_back_the_text keccak u' a h']

/-- Liking a URL follows a channel exactly when the URL is the one spelling of that channel in the registrar of the
network. -/
theorem C62_follows_iff (keccak : Bytes → Bytes) (network : Network) (u c : Bytes) :
    channelOfUrl keccak network u = some c ↔ c.length = 32 ∧ ∃ r, registrarOf network = some r ∧
      NamesAsset keccak u r.chain r.address (fromBe c) := by
  have b : (256 : Nat) ^ 32 = 2 ^ 256 := by decide
  unfold channelOfUrl
  cases hr : registrarOf network with
  | none => simp
  | some r =>
    simp only [Option.some.injEq, exists_eq_left', followTarget]
    constructor
    · intro h
      cases hp : AssetId.parse keccak u with
      | error e => simp [hp] at h
      | ok a =>
        simp only [hp] at h
        by_cases hi : a.isIn r = true
        · rw [if_pos hi, Option.some.injEq] at h
          simp only [AssetId.isIn, Bool.and_eq_true, beq_iff_eq] at hi
          obtain ⟨n, hn, hc⟩ := parse_ok.1 hp
          rw [← h, hc, be_length, fromBe_be_of_lt (by rw [b]; exact hn.2.2.1), ← hi.1, ← hi.2]
          exact ⟨rfl, hn⟩
        · rw [if_neg hi] at h
          cases h
    · rintro ⟨hl, hn⟩
      have hp := parse_ok (k := keccak) (u := u) (a := ⟨r.chain, r.address, c⟩) |>.2 ⟨_, hn, by rw [← hl, be_fromBe]⟩
      simp [hp, AssetId.isIn]

/-- So no two URLs follow the same channel, as the properties of the reaction store (C07 to C13, C17) assume. -/
theorem C62_channels_are_named_once (keccak : Bytes → Bytes) (network : Network) :
    ChannelNaming (channelOfUrl keccak network) := by
  refine ⟨fun u c h => ((C62_follows_iff keccak network u c).1 h).1, fun u u' c h h' => ?_⟩
  obtain ⟨-, r, hr, h⟩ := (C62_follows_iff keccak network u c).1 h
  obtain ⟨-, r', hr', h'⟩ := (C62_follows_iff keccak network u' c).1 h'
  rw [hr, Option.some.injEq] at hr'
  subst hr'
  rw [h.text, h'.text]

/-- On mainnet nothing follows a channel yet. -/
theorem C62_nothing_follows_on_mainnet (keccak : Bytes → Bytes) (u : Bytes) : channelOfUrl keccak .mainnet u = none := rfl

/-- Every channel can be followed on the test and development networks, by its printed name. -/
theorem C62_every_channel_can_be_followed (keccak : Bytes → Bytes) (network : Network) (r : Registrar) (c : Bytes)
    (hr : registrarOf network = some r) (hc : c.length = 32) :
    channelOfUrl keccak network ((AssetId.forChannel r c).canonical keccak) = some c := by
  refine (C62_follows_iff keccak network _ c).2 ⟨hc, r, hr, names_canonical ?_ ?_ hc⟩ <;>
    cases network <;> simp [registrarOf, sepoliaRegistrar] at hr <;> subst hr <;> simp [AssetId.forChannel]

/-! `eip155:7/erc721:0x0101…01/9`, and the same with a leading zero, a sign, an underscore, a fourth part. -/

/-- The EIP-55 spelling of `01` twenty times; no letters, so that any hash gives it. -/
def demoUri (chain token : Bytes) : Bytes :=
  eip155 ++ chain ++ 47 :: (erc721 ++ (hexPrefix ++ hexEncode (List.replicate 20 1)) ++ 47 :: token)

example : AssetId.parse (fun _ => []) (demoUri [55] [57]) = .ok ⟨7, List.replicate 20 1, be 32 9⟩ := by decide +kernel
example : AssetId.parse (fun _ => []) (demoUri [48, 55] [57]) = .error .invalidChainReference := by decide +kernel
example : AssetId.parse (fun _ => []) (demoUri [43, 55] [57]) = .error .invalidChainReference := by decide +kernel
example : AssetId.parse (fun _ => []) (demoUri [55] [57, 95]) = .error .invalidTokenId := by decide +kernel
example : AssetId.parse (fun _ => []) (demoUri [55] []) = .error .invalidTokenId := by decide +kernel
example : AssetId.parse (fun _ => []) (demoUri [55] [57, 47]) = .error .malformedAssetId := by decide +kernel
example : registrarOf .devnet = some sepoliaRegistrar := rfl

end Verif
