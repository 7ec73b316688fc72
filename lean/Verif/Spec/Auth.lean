import Verif.Model.Auth
/-! Who is let in. -/
namespace Verif
namespace Auth

/-- Pieces of text with a separator between them. -/
def joined (sep : UInt8) : List Bytes → Bytes
  | [] => []
  | [p] => p
  | p :: q :: ps => p ++ sep :: joined sep (q :: ps)

/-- The text, read as entries separated by commas, has the user with this password, and no later entry of this user. A user and
a password are without colons. -/
def Configured (config u p : Bytes) : Prop :=
  ∃ before after, config = joined 44 (before ++ (u ++ 58 :: p) :: after) ∧ (∀ x ∈ before ++ (u ++ 58 :: p) :: after, 44 ∉ x) ∧
    58 ∉ u ∧ 58 ∉ p ∧ ∀ q, 58 ∉ q → (u ++ 58 :: q) ∉ after

/-- Blanks and tabs. -/
def Blanks (w : Bytes) : Prop := ∀ b ∈ w, b = 32 ∨ b = 9

/-- The header says `Basic`, in these letters, and a user and a password in base64, with blanks between and perhaps around. -/
def Presents (env : AEnv) (h u p : Bytes) : Prop :=
  ∃ w0 w1 w2 code, h = w0 ++ [66, 97, 115, 105, 99] ++ w1 ++ code ++ w2 ∧ Blanks w0 ∧ Blanks w1 ∧ Blanks w2 ∧ w1 ≠ [] ∧ code ≠ [] ∧
    (∀ b ∈ code, 33 ≤ b ∧ b < 127) ∧ env.unbase64 code = some (u ++ 58 :: p) ∧ env.utf8 (u ++ 58 :: p) = true ∧ 58 ∉ u ∧ 58 ∉ p

/-- The header names a configured user and their password. -/
def Knows (env : AEnv) (config : Bytes) (auth : Option Bytes) : Prop :=
  ∃ h u p, auth = some h ∧ Presents env h u p ∧ Configured config u p

end Auth
end Verif
