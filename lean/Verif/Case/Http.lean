import Verif.Spec.Http
import Verif.Case.Validate
/-! Small encodings for the examples about the HTTP interface. -/
namespace Verif
namespace Http

/-- As they are. -/
def plainH : HEnv where
  base64 b := b
  unbase64 b := some b
  base58 b := b
  utf8 b := b != [255]

/-- The client that goes with it. -/
def plainC : Client where
  un64 b := some b
  un58 b := some b

end Http
end Verif
