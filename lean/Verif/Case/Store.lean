import Verif.Spec.Store
/-! Concrete messages for the examples and witnesses about the message stores. -/
namespace Verif.Case

/-- A 20-byte hash. -/
def h20 (b : UInt8) : Bytes := List.replicate 20 b

/-- User 7 casts, removes the cast, and casts something else. -/
def castA : Msg := ⟨7, .castAdd, 100, h20 1, [1], .castAdd (some (.url [104])) [9, 12]⟩
def castARemove : Msg := ⟨7, .castRemove, 90, h20 2, [1], .castRemove (h20 1)⟩
def castB : Msg := ⟨7, .castAdd, 120, h20 3, [2], .castAdd none []⟩
def casts : List Msg := [castA, castARemove, castB]

/-- User 7 follows user 8, unfollows them later, and follows user 9. -/
def follow8 : Msg := ⟨7, .linkAdd, 100, h20 1, [1], .link [102] (some 8)⟩
def unfollow8 : Msg := ⟨7, .linkRemove, 110, h20 2, [1], .link [102] (some 8)⟩
def follow9 : Msg := ⟨7, .linkAdd, 105, h20 3, [2], .link [102] (some 9)⟩
def refollow8 : Msg := ⟨7, .linkAdd, 130, h20 4, [2], .link [102] (some 8)⟩
def links : List Msg := [follow8, unfollow8, follow9, refollow8]

def noChannels : Bytes → Option Bytes := fun _ => none
theorem noChannels_naming : ChannelNaming noChannels :=
  ⟨fun _ _ h => by simp [noChannels] at h, fun _ _ _ h => by simp [noChannels] at h⟩

def allOn : Nat → MergeCtx := fun _ => {}

theorem casts_valid : ∀ m ∈ casts, StoreKind.casts.Valid m := by
  intro m hm
  simp only [casts, List.mem_cons, List.not_mem_nil, or_false] at hm
  rcases hm with rfl | rfl | rfl
  · exact ⟨by decide, by decide, by decide, by decide, .inl ⟨rfl, _, _, rfl, by decide⟩⟩
  · exact ⟨by decide, by decide, by decide, by decide, .inr ⟨rfl, _, rfl, by decide⟩⟩
  · exact ⟨by decide, by decide, by decide, by decide, .inl ⟨rfl, _, _, rfl, by decide⟩⟩

theorem casts_hashes : HashesIdentify (· ∈ casts) := by
  have h : ∀ a ∈ casts, ∀ b ∈ casts, a.fid = b.fid → a.ts = b.ts → a.hash = b.hash → a = b := by decide
  exact fun a b ha hb => h a ha b hb

theorem links_valid : ∀ m ∈ links, StoreKind.links.Valid m := by
  intro m hm
  simp only [links, List.mem_cons, List.not_mem_nil, or_false] at hm
  rcases hm with rfl | rfl | rfl | rfl
  · exact ⟨by decide, by decide, by decide, by decide, .inl rfl, _, _, rfl, by decide, by decide, by decide⟩
  · exact ⟨by decide, by decide, by decide, by decide, .inr rfl, _, _, rfl, by decide, by decide, by decide⟩
  · exact ⟨by decide, by decide, by decide, by decide, .inl rfl, _, _, rfl, by decide, by decide, by decide⟩
  · exact ⟨by decide, by decide, by decide, by decide, .inl rfl, _, _, rfl, by decide, by decide, by decide⟩

theorem links_hashes : HashesIdentify (· ∈ links) := by
  have h : ∀ a ∈ links, ∀ b ∈ links, a.fid = b.fid → a.ts = b.ts → a.hash = b.hash → a = b := by decide
  exact fun a b ha hb => h a ha b hb

end Verif.Case
