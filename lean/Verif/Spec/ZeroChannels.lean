import Verif.Spec.Zero
import Verif.Spec.Channel
import Verif.Spec.Store
/-!
The channels of shard 0, as its readers see them.
-/
namespace Verif

/-- The channels on the node. -/
def ZWork.channels (d : ZWork) : ChanNode := { st := d.st.store }

/-- The channels at the moment a message was validated. -/
def ZPost.channels (p : ZPost) : ChanNode := { st := p.store }

namespace ZeroCfg

/-- No two validated messages of a user have the same time and hash; times have 32 bits. -/
structure Distinct (d : ZWork) : Prop where
  hashes : HashesIdentify (fun m => ∃ p ∈ d.posts, p.msg = m)
  times : ∀ p ∈ d.posts, p.msg.ts < 2 ^ 32

end ZeroCfg
end Verif
