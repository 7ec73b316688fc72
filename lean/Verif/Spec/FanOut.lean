import Verif.Model.FanOut
import Verif.Spec.Listing
/-!
Specification vocabulary for listings over all shards of a node.
-/
namespace Verif

/-- Following the next-page tokens of a server listing: from token `t` the pages end and concatenate to
`ms`. -/
inductive FollowsTo {T M : Type} (page : TokenIn T → Except HubErr (List M × Option T)) : TokenIn T → List M → Prop
  | last {t ms} : page t = .ok (ms, none) → FollowsTo page t ms
  | next {t t' ms rest} : page t = .ok (ms, some t') → FollowsTo page (.given t') rest → FollowsTo page t (ms ++ rest)

/-- Following the tokens of one shard from `t` takes exactly `k` pages, which concatenate to `ms`. -/
inductive PagesTo {M : Type} (page : Option Bytes → Except HubErr (MessagesPage M)) : Option Bytes → Nat → List M → Prop
  | last {t ms} : page t = .ok ⟨ms, none⟩ → PagesTo page t 1 ms
  | next {t t' ms k rest} : page t = .ok ⟨ms, some t'⟩ → PagesTo page (some t') k rest → PagesTo page t (k + 1) (ms ++ rest)

end Verif
