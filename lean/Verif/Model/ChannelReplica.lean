import Verif.Model.Channel
import Verif.Model.ShardEngine
/-!
Channels on the data shards: what the replay of a block event does to the channel stores.
-/
namespace Verif

/-- The store of a channel message, the channel arms of `merge_message`, /repo/src/storage/store/engine.rs:1871-1902. -/
def ChanKind.ofType : MessageType → Option ChanKind
  | .channelUpdate => some .update
  | .channelMember => some .member
  | .channelPin => some .pin
  | .channelModerate => some .moderate
  | _ => none

/-- `handle_block_event`, /repo/src/storage/store/engine.rs:732-845, as far as the channel stores are concerned: the message
merged and the outcome, nothing if the event does not reach them.  The feature must be on at the time of the block of shard 0
that issued the event, 791-804; the roles of the author are not checked again; the derived index is always written, 806-812.
Simplification: the update of the trie after the merge is not modelled here; its failure, a database error, would leave the
merged rows in the batch. -/
def replayChannelEvent (ver : Nat → EngineVersion) (caps : SlotCaps) (db : Db SVal) (e : BEvent) (s : SSt) :
    Option (Msg × (Except HubErr StoreEvent × SSt)) :=
  match e.data with
  | none => none
  | some d =>
    match d.body with
    | some (.message (some m)) =>
      match ChanKind.ofType m.ty with
      | none => none
      | some K => if (ver d.ts).isEnabled .channelMessages then some (m, mergeSlot K caps db true m s) else none
    | _ => none

end Verif
