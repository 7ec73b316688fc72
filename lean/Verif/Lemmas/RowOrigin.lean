import Verif.Model.ShardEngine
import Verif.Model.Channel
import Verif.Lemmas.StoreDelete
import Verif.Spec.Provenance
/-! Which messages the rows of a message store can hold: the ones it was given. -/
namespace Verif
open Spec

/-- Every message in the batch satisfies `G`. -/
def SSt.From (G : Msg → Prop) (s : SSt) : Prop := ∀ k m, s.txn.get k = some (some (.msg m)) → G m

/-- The operation stages no other message rows. -/
def SM.Puts {α : Type} (G : Msg → Prop) (x : SM α) : Prop := ∀ s, s.From G → (x s).2.From G

namespace SM
variable {α β : Type} {G : Msg → Prop}

theorem puts_pure (a : α) : (pure a : SM α).Puts G := fun _ h => h
theorem puts_pure' (a : α) : (Pure.pure a : SM α).Puts G := fun _ h => h
theorem puts_fail (e : HubErr) : (fail e : SM α).Puts G := fun _ h => h
theorem puts_lift (r : Except HubErr α) : (lift r).Puts G := fun _ h => h
theorem puts_read (db : Db SVal) (k : Bytes) : (read db k).Puts G := fun _ h => h

theorem puts_bind {x : SM α} {f : α → SM β} (hx : x.Puts G) (hf : ∀ a, (f a).Puts G) : (x >>= f).Puts G := by
  intro s hs
  have h1 := hx s hs
  show ((SM.bind x f) s).2.From G
  unfold SM.bind
  split <;> rename_i h
  · rw [h] at h1; exact hf _ _ h1
  · rw [h] at h1; exact h1

theorem puts_put {k : Bytes} {v : SVal} (h : ∀ m, v = .msg m → G m) : (put k v).Puts G := by
  intro s hs k' m hk
  simp only [put, Txn.get_stagePut] at hk
  split at hk
  · exact h m (by simpa using hk)
  · exact hs k' m hk

theorem puts_raw (k b : Bytes) : (put k (.raw b)).Puts G := puts_put (fun _ h => nomatch h)

theorem puts_del (k : Bytes) : (del k).Puts G := by
  intro s hs k' m hk
  simp only [del, Txn.get_stageDel] at hk
  split at hk
  · cases hk
  · exact hs k' m hk

theorem puts_event (e : StoreEvent) : (event e).Puts G := by
  intro s hs k' m hk
  unfold event commitEvent at hk
  rcases hg : s.gen.generateId false with ⟨r, g⟩
  cases r <;> simp only [hg] at hk
  · exact hs k' m hk
  · simp only [putEvent, Txn.get_stagePut] at hk
    split at hk
    · cases hk
    · exact hs k' m hk

theorem puts_forEach {f : α → SM Unit} (hf : ∀ a, (f a).Puts G) : ∀ l, (forEach f l).Puts G
  | [] => puts_pure ()
  | a :: l => puts_bind (hf a) (fun _ => puts_forEach hf l)

theorem puts_forEach_mem {f : α → SM Unit} : ∀ l, (∀ a ∈ l, (f a).Puts G) → (forEach f l).Puts G
  | [], _ => puts_pure ()
  | a :: l, h => puts_bind (h a (by simp)) (fun _ => puts_forEach_mem l (fun b hb => h b (by simp [hb])))

theorem puts_run {x : SM α} (h : x.Puts G) {s : SSt} (hs : s.From G) {r : Except HubErr α} {s' : SSt} (hx : x s = (r, s')) : s'.From G := by
  have := h s hs
  rwa [hx] at this

end SM

/-- One step of an operation. -/
macro "puts_step" : tactic => `(tactic| first
  | with_reducible assumption
  | with_reducible exact SM.puts_pure _
  | with_reducible exact SM.puts_pure' _
  | with_reducible exact SM.puts_fail _
  | with_reducible exact SM.puts_lift _
  | with_reducible exact SM.puts_read _ _
  | with_reducible exact SM.puts_del _
  | with_reducible exact SM.puts_event _
  | with_reducible exact SM.puts_raw _ _
  | refine SM.puts_bind ?_ (fun _ => ?_)
  | refine SM.puts_forEach (fun _ => ?_) _
  | split
  | dsimp only)

namespace StoreDef
variable {G : Msg → Prop} (D : StoreDef)

/-- The index rows of a store hold no messages. -/
structure RawRows : Prop where
  index : ∀ th m rows, D.indexRows th m = .ok rows → ∀ r ∈ rows, ∀ x, r.2 ≠ .msg x
  follow : ∀ m, ∀ r ∈ D.followRows m, ∀ x, r.2 ≠ .msg x

theorem getMessage_puts (db : Db SVal) (f : Nat) (th : Bytes) : (D.getMessage db f th).Puts G := by
  unfold getMessage; repeat' puts_step

theorem conflictAt_puts (db : Db SVal) (t : MessageType) (k : Bytes) (m : Msg) (th : Bytes) : (D.conflictAt db t k m th).Puts G := by
  have h := fun f th => D.getMessage_puts (G := G) db f th
  unfold conflictAt
  repeat' first | with_reducible exact h _ _ | puts_step

theorem getMergeConflicts_puts (db : Db SVal) (m : Msg) (th : Bytes) : (D.getMergeConflicts db m th).Puts G := by
  have h := fun t k => D.conflictAt_puts (G := G) db t k m th
  unfold getMergeConflicts removeConflicts
  repeat' first | with_reducible exact h _ _ | puts_step

theorem putMessage_puts {m : Msg} (hm : G m) : (D.putMessage m).Puts G := by
  unfold putMessage
  exact SM.puts_bind (SM.puts_lift _) (fun _ => SM.puts_put (fun x hx => by cases hx; exact hm))

theorem deleteMessage_puts (m : Msg) : (D.deleteMessage m).Puts G := by unfold deleteMessage; repeat' puts_step

variable {D}

theorem putRows_puts {l : List (Bytes × SVal)} (h : ∀ r ∈ l, ∀ x, r.2 ≠ .msg x) : (SM.forEach (fun r => SM.put r.1 r.2) l).Puts G :=
  SM.puts_forEach_mem l (fun r hr => SM.puts_put (fun x hx => absurd hx (h r hr x)))

theorem putAdd_puts (hD : D.RawRows) (ctx : MergeCtx) (th : Bytes) {m : Msg} (hm : G m) : (D.putAdd ctx th m).Puts G := by
  unfold putAdd
  refine SM.puts_bind (D.putMessage_puts hm) (fun _ => SM.puts_bind (SM.puts_lift _) (fun _ =>
    SM.puts_bind (SM.puts_raw _ _) (fun _ => ?_)))
  have h2 : (SM.forEach (fun r => SM.put r.1 r.2) (if ctx.follows then D.followRows m else [])).Puts G := by
    refine putRows_puts ?_
    split
    · exact hD.follow m
    · simp
  intro s hs
  show (SM.bind (SM.lift (D.indexRows th m)) _ s).2.From G
  unfold SM.bind SM.lift
  cases hr : D.indexRows th m with
  | error e => exact hs
  | ok rows => exact SM.puts_bind (putRows_puts (hD.index th m rows hr)) (fun _ => h2) s hs

variable (D)

theorem deleteAdd_puts (th : Bytes) (m : Msg) : (D.deleteAdd th m).Puts G := by
  have h := D.deleteMessage_puts (G := G) m
  unfold deleteAdd; repeat' puts_step

theorem putRemove_puts (th : Bytes) {m : Msg} (hm : G m) : (D.putRemove th m).Puts G := by
  have h := D.putMessage_puts (G := G) hm
  unfold putRemove; repeat' puts_step

theorem deleteRemove_puts (m : Msg) : (D.deleteRemove m).Puts G := by
  have h := D.deleteMessage_puts (G := G) m
  unfold deleteRemove; repeat' puts_step

theorem putCompact_puts {m : Msg} (hm : G m) : (D.putCompact m).Puts G := by
  have h : ∀ k, (SM.put k (.msg m)).Puts G := fun k => SM.puts_put (fun x hx => by cases hx; exact hm)
  unfold putCompact
  split
  · exact SM.puts_fail _
  · exact SM.puts_bind (SM.puts_lift _) (fun _ => h _)

theorem deleteCompact_puts (m : Msg) : (D.deleteCompact m).Puts G := by
  unfold deleteCompact; repeat' puts_step

theorem deleteMany_puts (ms : List Msg) : (D.deleteMany ms).Puts G := by
  have h1 := fun m => D.deleteCompact_puts (G := G) m
  have h2 := fun th m => D.deleteAdd_puts (G := G) th m
  have h3 := fun m => D.deleteRemove_puts (G := G) m
  unfold deleteMany
  refine SM.puts_forEach (fun m => ?_) _
  unfold deleteOne deleteCompactOrAdd deleteIfRemove
  repeat' first | with_reducible exact h1 _ | with_reducible exact h2 _ _ | with_reducible exact h3 _ | puts_step

variable {D}

theorem merge_puts (hD : D.RawRows) (db : Db SVal) (ctx : MergeCtx) {m : Msg} (hm : G m) : (D.merge db ctx m).Puts G := by
  have h1 := fun th => D.getMergeConflicts_puts (G := G) db m th
  have h2 := fun l => D.deleteMany_puts (G := G) l
  have h3 := fun th => putAdd_puts hD ctx th hm
  have h4 := fun th => D.putRemove_puts th hm
  have h5 := D.putCompact_puts hm
  have h6 : (D.storedCompact db m).Puts G := by unfold storedCompact; repeat' puts_step
  have h7 : ∀ x, (D.checkCompactAdd m x).Puts G := fun x => by unfold checkCompactAdd; repeat' puts_step
  have h8 : ∀ x, (checkCompactRemove m x).Puts G := fun x => by unfold checkCompactRemove; repeat' puts_step
  have h9 : ∀ x, (olderCompact m x).Puts G := fun x => by unfold olderCompact; repeat' puts_step
  unfold merge mergeAdd mergeRemove mergeCompact mergeAddWithConflicts mergeRemoveWithConflicts
  repeat' first | with_reducible exact h1 _ | with_reducible exact h2 _ | with_reducible exact h3 _ | with_reducible exact h4 _ | with_reducible exact h7 _ | with_reducible exact h8 _ | with_reducible exact h9 _ | puts_step

theorem mergeForce_puts (hD : D.RawRows) (db : Db SVal) (ctx : MergeCtx) {m : Msg} (hm : G m) : (D.mergeForce db ctx m).Puts G := by
  have h0 := fun f th => D.getMessage_puts (G := G) db f th
  have h1 : ∀ k, (D.resolveSelector db m.fid k).Puts G := fun k => by
    unfold resolveSelector
    repeat' first | with_reducible exact h0 _ _ | puts_step
  have h2 := fun l => D.deleteMany_puts (G := G) l
  have h3 := fun th => putAdd_puts hD ctx th hm
  have h4 := fun th => D.putRemove_puts th hm
  unfold mergeForce existingConflicts existingRemove mergeAddWithConflicts mergeRemoveWithConflicts
  repeat' first | with_reducible exact h1 _ | with_reducible exact h2 _ | with_reducible exact h3 _ | with_reducible exact h4 _ | puts_step

variable (D)

theorem revoke_puts (m : Msg) : (D.revoke m).Puts G := by
  have h1 := D.deleteCompact_puts (G := G) m
  have h2 := fun th => D.deleteAdd_puts (G := G) th m
  have h3 := D.deleteRemove_puts (G := G) m
  unfold revoke revokeDelete
  repeat' first | with_reducible exact h2 _ | puts_step

theorem pruneMessage_puts (m : Msg) : (D.pruneMessage m).Puts G := by
  have h2 := fun th => D.deleteAdd_puts (G := G) th m
  have h3 := D.deleteRemove_puts (G := G) m
  unfold pruneMessage pruneDelete
  repeat' first | with_reducible exact h2 _ | puts_step

theorem pruneLoop_puts (n : Nat) : ∀ (l : List (Bytes × SVal)) (c : Nat), (D.pruneLoop n l c).Puts G
  | [], _ => by unfold pruneLoop; repeat' puts_step
  | x :: l, c => by
    have ih := fun c => pruneLoop_puts n l c
    have h := fun m => D.pruneMessage_puts (G := G) m
    unfold pruneLoop
    repeat' first | with_reducible exact ih _ | with_reducible exact h _ | puts_step

theorem pruneMessages_puts (db : Db SVal) (f a b : Nat) : (D.pruneMessages db f a b).Puts G := by
  have h := fun l c => D.pruneLoop_puts (G := G) b l c
  unfold pruneMessages
  repeat' first | with_reducible exact h _ _ | puts_step

theorem revokeLoop_puts (k : Bytes) : ∀ (l : List (Bytes × SVal)), (D.revokeLoop k l).Puts G
  | [] => by unfold revokeLoop; repeat' puts_step
  | (_, .raw _) :: l => fun s hs => hs
  | (_, .event _ _) :: l => fun s hs => hs
  | (x, .msg m) :: l => by
    have ih := revokeLoop_puts k l
    by_cases hb : bytesCompare m.signer k = 0
    · intro s hs
      have h := D.revoke_puts (G := G) m s hs
      rw [revokeLoop_hit hb]
      split <;> rename_i hr <;> rw [hr] at h
      · exact SM.puts_bind ih (fun _ => SM.puts_pure' _) _ h
      · exact ih _ h
    · intro s hs
      rw [revokeLoop_miss hb]; exact ih s hs

theorem revokeBySigner_puts (db : Db SVal) (f : Nat) (k : Bytes) : (D.revokeBySigner db f k).Puts G := D.revokeLoop_puts k _

theorem removeOne_puts (p : Bool) (m : Msg) (s : SSt) (hs : s.From G) : (D.removeOne p m s).2.From G := by
  have h1 := D.revoke_puts (G := G) m s hs
  have h2 := D.pruneMessage_puts (G := G) m s hs
  unfold removeOne
  split <;> split <;> rename_i hr
  · rw [hr] at h2; exact h2
  · rw [hr] at h2; exact h2
  · rw [hr] at h1; exact h1
  · rw [hr] at h1; exact h1

end StoreDef

/-- The six stores index without messages. -/
theorem kind_rawRows (kind : StoreKind) (channelOf : Bytes → Option Bytes) : (kind.store channelOf).RawRows := by
  cases kind
  · refine ⟨?_, by simp [StoreKind.store, castStore]⟩
    intro th m rows h r hr x
    simp only [StoreKind.store, castStore, Except.ok.injEq] at h
    subst h
    obtain ⟨k, _, rfl⟩ := List.mem_map.1 hr
    simp [trueValue]
  · refine ⟨?_, ?_⟩
    · intro th m rows h r hr x
      simp only [StoreKind.store, reactionStore] at h
      cases hl : reactionIndex th m <;> rw [hl] at h <;> cases h
      simp at hr; subst hr; simp
    · intro m r hr x
      simp only [StoreKind.store, reactionStore] at hr
      split at hr
      · simp at hr; rcases hr with rfl | rfl <;> simp
      · simp at hr
  · refine ⟨?_, by simp [StoreKind.store, linkStore]⟩
    intro th m rows h r hr x
    simp only [StoreKind.store, linkStore] at h
    cases hl : linkIndex th m <;> rw [hl] at h <;> cases h
    simp at hr; subst hr; simp
  · refine ⟨?_, by simp [StoreKind.store, verificationStore]⟩
    intro th m rows h r hr x
    simp only [StoreKind.store, verificationStore] at h
    cases hl : verificationIndexKey m <;> rw [hl] at h <;> cases h
    simp at hr; subst hr; simp
  · exact ⟨by simp [StoreKind.store, userDataStore], by simp [StoreKind.store, userDataStore]⟩
  · refine ⟨?_, by simp [StoreKind.store, lendStore]⟩
    intro th m rows h r hr x
    simp only [StoreKind.store, lendStore] at h
    split at h <;> cases h
    · simp at hr; subst hr; simp [trueValue]
    · simp at hr

/-- Every message in the database and in the batch satisfies `G`. -/
structure StoreState.From (G : Msg → Prop) (st : StoreState) : Prop where
  db : ∀ k m, st.db.get k = some (.msg m) → G m
  pend : st.pend.From G

namespace StoreState
variable {G : Msg → Prop} {st : StoreState}

theorem From.empty : ({} : StoreState).From G := ⟨fun k m h => by simp [OMap.get_empty] at h, fun k m h => by simp [OMap.get_empty] at h⟩

theorem From.view (h : st.From G) {k : Bytes} {m : Msg} (hv : st.view k = some (.msg m)) : G m := by
  unfold StoreState.view getFromDbOrTxn at hv
  split at hv
  · rename_i hk; exact h.pend k m (hk.trans (congrArg some hv))
  · exact h.db k m hv

theorem From.after (h : st.From G) {α : Type} {r : Except HubErr α × SSt} (hr : r.2.From G) : (st.after r).From G := ⟨h.db, hr⟩

theorem From.exec (h : st.From G) {D : StoreDef} (hD : D.RawRows) {ctx : Nat → MergeCtx} {o : StoreOp}
    (ho : ∀ m, o = .merge m ∨ o = .force m → G m) : (st.exec D ctx o).From G := by
  cases o with
  | merge m => exact h.after (StoreDef.merge_puts hD _ _ (ho m (.inl rfl)) _ h.pend)
  | force m => exact h.after (StoreDef.mergeForce_puts hD _ _ (ho m (.inr rfl)) _ h.pend)
  | revokeAdd item =>
    simp only [StoreState.exec]
    split
    · exact h.after (D.revoke_puts _ _ h.pend)
    · exact h
  | prune f a b => exact h.after (D.pruneMessages_puts _ _ _ _ _ h.pend)
  | revokeSigner f k => exact h.after (D.revokeBySigner_puts _ _ _ _ h.pend)
  | commit =>
    refine ⟨?_, fun k m hk => by simp [StoreState.exec, OMap.get_empty] at hk⟩
    intro k m hk
    simp only [StoreState.exec, Db.get_commit] at hk
    exact h.view hk
  | drop => exact ⟨h.db, fun k m hk => by simp [StoreState.exec, OMap.get_empty] at hk⟩
  | block n => exact ⟨h.db, h.pend⟩

end StoreState
end Verif
