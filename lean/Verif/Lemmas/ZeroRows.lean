import Verif.Lemmas.RowOrigin
/-! Which messages the stores of shard 0 can hold: those of `RowOrigin`, for loans and channels. -/
namespace Verif

namespace SM
variable {α : Type} {G : Msg → Prop}

theorem puts_nested {x : SM α} (hx : x.Puts G) : (nested x).Puts G := by
  intro s hs
  have h := hx ⟨OMap.empty, s.gen⟩ (fun k m hk => by simp [OMap.get_empty] at hk)
  unfold nested
  split <;> rename_i hr <;> rw [hr] at h
  · intro k m hk
    simp only at hk
    rw [Txn.get_merge] at hk
    split at hk
    · rename_i hk'; exact h k m (hk'.trans hk)
    · exact hs k m hk
  · exact hs

end SM

theorem chan_rawRows (K : ChanKind) : K.store.RawRows := ⟨by simp [ChanKind.store], by simp [ChanKind.store]⟩

theorem mergeSlot_puts {G : Msg → Prop} (K : ChanKind) (caps : SlotCaps) (db : Db SVal) (w : Bool) {m : Msg} (hm : G m) :
    (mergeSlot K caps db w m).Puts G := by
  intro s hs
  unfold mergeSlot
  split
  · exact hs
  · rename_i p _
    refine SM.puts_nested ?_ s hs
    have h1 := fun l => K.store.deleteMany_puts (G := G) l
    have h2 : ∀ x, (putSlotCount x).Puts G := fun x => by unfold putSlotCount; repeat' puts_step
    have h3 : ∀ x, (putModeratorCount x).Puts G := fun x => by unfold putModeratorCount; repeat' puts_step
    have h4 := fun th => StoreDef.putAdd_puts (chan_rawRows K) {} th hm
    unfold stageSlot
    refine SM.puts_bind (h1 _) (fun _ => SM.puts_bind (SM.puts_lift _) (fun _ => SM.puts_bind (SM.puts_raw _ _) (fun _ =>
      SM.puts_bind (h2 _) (fun _ => SM.puts_bind (h3 _) (fun _ => SM.puts_bind ?_ (fun e => ?_))))))
    · unfold StoreDef.mergeAddWithConflicts
      exact SM.puts_bind (h4 _) (fun _ => SM.puts_event _)
    · intro s hs
      show (SM.bind (SM.lift (K.gatedRows w m)) _ s).2.From G
      unfold SM.bind SM.lift
      cases hr : K.gatedRows w m with
      | error e => exact hs
      | ok rows =>
        refine SM.puts_bind (StoreDef.putRows_puts ?_) (fun _ => SM.puts_pure' _) s hs
        unfold ChanKind.gatedRows at hr
        intro r hr' x
        split at hr
        · split at hr <;> cases hr
          simp at hr'; subst hr'; simp
        · cases hr
        · cases hr; simp at hr'

theorem lendMerge_puts {G : Msg → Prop} (db : Db SVal) (ctx : MergeCtx) {m : Msg} (hm : G m) : (lendMerge db ctx m).Puts G := by
  unfold lendMerge
  refine SM.puts_bind (StoreDef.merge_puts (kind_rawRows .lends (fun _ => none)) db ctx hm) (fun e => ?_)
  intro s hs
  have h := lendStore.pruneMessage_puts (G := G) m s hs
  unfold lendPruneZero
  split
  · split <;> rename_i hr <;> (try rw [hr] at h) <;> exact h
  · exact hs

end Verif
