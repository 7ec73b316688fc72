import Verif.Model.Bytes
/-!
The regular expressions of the validators, with a matcher by derivatives.  The real matchers are the `regex` and
`fancy_regex` crates; they are not modelled, only which strings a pattern matches.  Patterns here have only ASCII
classes, so that matching the bytes of a string is the same as matching its characters.
-/
namespace Verif

/-- The pattern syntax in use: nothing, the empty string, a character class, concatenation, alternation and `{lo,hi}`
(`hi = none` for no upper bound). -/
inductive Re where
  | none
  | eps
  | cls (p : UInt8 → Bool)
  | seq (a b : Re)
  | alt (a b : Re)
  | rep (r : Re) (lo : Nat) (hi : Option Nat)

namespace Re

/-- The pattern matches the empty string. -/
def nullable : Re → Bool
  | none => false
  | eps => true
  | cls _ => false
  | seq a b => nullable a && nullable b
  | alt a b => nullable a || nullable b
  | rep r lo hi => match hi with
    | some h => decide (lo ≤ h) && (nullable r || decide (lo = 0))
    | Option.none => nullable r || decide (lo = 0)

/-- What may follow the character `c`. -/
def deriv (c : UInt8) : Re → Re
  | none => none
  | eps => none
  | cls p => if p c then eps else none
  | seq a b => if nullable a then alt (seq (deriv c a) b) (deriv c b) else seq (deriv c a) b
  | alt a b => alt (deriv c a) (deriv c b)
  | rep r lo hi => match hi with
    | some 0 => none
    | some (h + 1) => if lo ≤ h + 1 then seq (deriv c r) (rep r (lo - 1) (some h)) else none
    | Option.none => seq (deriv c r) (rep r (lo - 1) Option.none)

/-- `Regex::is_match` of `^r$`. -/
def isMatch (r : Re) : Bytes → Bool
  | [] => nullable r
  | c :: s => isMatch (deriv c r) s

/-- One given character. -/
def chr (c : UInt8) : Re := cls (· == c)

/-- A given text. -/
def txt : Bytes → Re
  | [] => eps
  | c :: s => seq (chr c) (txt s)

end Re

/-- `[a-z]`. -/
def isLower (c : UInt8) : Bool := decide (97 ≤ c.toNat ∧ c.toNat ≤ 122)

/-- `[A-Z]`. -/
def isUpper (c : UInt8) : Bool := decide (65 ≤ c.toNat ∧ c.toNat ≤ 90)

/-- `[0-9]`. -/
def isDigit (c : UInt8) : Bool := decide (48 ≤ c.toNat ∧ c.toNat ≤ 57)

/-- `FNAME_REGEX`, `^[a-z0-9][a-z0-9-]{0,15}$`: /repo/src/core/validations/message.rs:26. -/
def fnameRe : Re :=
  .seq (.cls fun c => isLower c || isDigit c) (.rep (.cls fun c => isLower c || isDigit c || c == 45) 0 (some 15))

/-- `TWITTER_USERNAME_REGEX`, `^[a-z0-9_]{0,15}$`: message.rs:25. -/
def twitterRe : Re := .rep (.cls fun c => isLower c || isDigit c || c == 95) 0 (some 15)

/-- The latitude group of `GEO_RE`, `-?\d{1,2}\.\d{2}`: message.rs:34-35.  `\d` also matches digits of other scripts, but
those are refused right after, with the same error, because they do not parse as a number (message.rs:526-530). -/
def degreesRe (most : Nat) : Re :=
  .seq (.rep (.chr 45) 0 (some 1)) (.seq (.rep (.cls isDigit) 1 (some most)) (.seq (.chr 46) (.rep (.cls isDigit) 2 (some 2))))

/-- The pattern of `validate_caip19_format`, message.rs:608-609:
`^[a-z0-9]+:[a-zA-Z0-9]+/[a-z0-9-]{3,8}:[-.%a-zA-Z0-9]{1,128}(/[a-zA-Z0-9]+)?$`. -/
def caip19Re : Re :=
  let an := Re.cls fun c => isLower c || isUpper c || isDigit c
  .seq (.rep (.cls fun c => isLower c || isDigit c) 1 none) (.seq (.chr 58) (.seq (.rep an 1 none) (.seq (.chr 47)
    (.seq (.rep (.cls fun c => isLower c || isDigit c || c == 45) 3 (some 8)) (.seq (.chr 58)
      (.seq (.rep (.cls fun c => isLower c || isUpper c || isDigit c || c == 45 || c == 46 || c == 37) 1 (some 128))
        (.rep (.seq (.chr 47) (.rep an 1 none)) 0 (some 1))))))))

end Verif
