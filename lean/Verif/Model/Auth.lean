import Verif.Model.Bytes
/-!
Credentials of the RPC servers.  `rpc` in citations is /repo/src/network/rpc_extensions.rs, `server` is
/repo/src/network/server.rs and `admin` is /repo/src/network/admin_server.rs.  Text is its UTF-8 bytes: the separators are
ASCII, so that splitting bytes is splitting characters.
-/
namespace Verif
namespace Auth

/-- `str::split` at characters. -/
def split (sep : UInt8 → Bool) : Bytes → List Bytes
  | [] => [[]]
  | b :: s =>
    if sep b then [] :: split sep s
    else match split sep s with
      | [] => [[b]]
      | w :: ws => (b :: w) :: ws

/-- The white space a header value can have: only printable ASCII, blanks and tabs pass `to_str`. -/
def blank (b : UInt8) : Bool := b == 32 || b == 9

/-- `str::split_whitespace` of such a value. -/
def words (s : Bytes) : List Bytes := (split blank s).filter fun w => !w.isEmpty

/-- What `HeaderValue::to_str` lets pass. -/
def printable (b : UInt8) : Bool := (32 ≤ b && b < 127) || b == 9

/-- One entry of the configuration put into the `HashMap`, server 683-686 and admin 66-69. -/
def addUser (users : List (Bytes × Bytes)) (entry : Bytes) : List (Bytes × Bytes) :=
  match split (· == 58) entry with
  | [u, p] => (u, p) :: users.filter fun x => x.1 != u
  | _ => users

/-- `parse_auth`, server 680-689, and the same loop in admin 64-70. -/
def parseAuth (config : Bytes) : List (Bytes × Bytes) := (split (· == 44) config).foldl addUser []

/-- `HashMap::get`. -/
def passwordOf : List (Bytes × Bytes) → Bytes → Option Bytes
  | [], _ => none
  | (v, p) :: l, u => if v = u then some p else passwordOf l u

/-- Reading base64 and `String::from_utf8`. -/
structure AEnv where
  unbase64 : Bytes → Option Bytes
  utf8 : Bytes → Bool

/-- The word `Basic`. -/
def basic : Bytes := [66, 97, 115, 105, 99]

/-- Why a request is refused. -/
inductive AErr where
  | missing
  | notText
  | header
  | notBase64
  | notUtf8
  | credentials
  deriving DecidableEq, Repr

/-- `authenticate_request`, rpc 157-201, given the `authorization` entry. -/
def authenticate (env : AEnv) (users : List (Bytes × Bytes)) (auth : Option Bytes) : Except AErr Unit :=
  if users.isEmpty then .ok ()
  else match auth with
    | none => .error .missing
    | some h =>
      if !h.all printable then .error .notText
      else match words h with
        | [scheme, code] =>
          if scheme ≠ basic then .error .header
          else match env.unbase64 code with
            | none => .error .notBase64
            | some d =>
              if !env.utf8 d then .error .notUtf8
              else match split (· == 58) d with
                | [u, p] => match passwordOf users u with
                  | some password => if password = p then .ok () else .error .credentials
                  | none => .error .credentials
                | _ => .error .header
        | _ => .error .header

/-- The calls of the servers that look at credentials, and those of the admin server that do not. -/
inductive Call where
  | submit
  | mesh
  | uploadSnapshot
  | migrateEvents
  | retryEvents
  | retryNames
  | debugSubmit
  deriving DecidableEq, Repr

/-- The settings. -/
structure Settings where
  rpcAuth : Bytes
  adminAuth : Bytes
  /-- The network is none or the devnet, admin 91-96. -/
  debug : Bool

/-- Does the call get past the checks before its work?  `submit_message` and `submit_bulk_messages` server 1467 and 1540, the
mesh calls server 3714 and 3774, the admin calls admin 103-302; the admin service is added only if it has users,
admin 86-88 and /repo/src/main.rs:129-132. -/
def passes (env : AEnv) (s : Settings) (auth : Option Bytes) : Call → Bool
  | .submit => (authenticate env (parseAuth s.rpcAuth) auth).isOk
  | .mesh => (authenticate env (parseAuth s.adminAuth) auth).isOk
  | .uploadSnapshot => !(parseAuth s.adminAuth).isEmpty && (authenticate env (parseAuth s.adminAuth) auth).isOk
  | .migrateEvents => !(parseAuth s.adminAuth).isEmpty && (authenticate env (parseAuth s.adminAuth) auth).isOk
  | .retryEvents => !(parseAuth s.adminAuth).isEmpty
  | .retryNames => !(parseAuth s.adminAuth).isEmpty
  | .debugSubmit => !(parseAuth s.adminAuth).isEmpty && s.debug

end Auth
end Verif
