import Verif.Lemmas.Engine
import Verif.Lemmas.StoreDelete
import Verif.Spec.Provenance
import Verif.Spec.ShardTurn
/-! Which messages the events of a transaction report, and in which order. -/
namespace Verif
open StoreDef Spec

/-- What an action returns when it succeeds. -/
def SM.Returns {α : Type} (x : SM α) (P : α → Prop) : Prop := ∀ s a, (x s).1 = .ok a → P a

section
variable {α β : Type} {P : α → Prop}

theorem returns_bind {x : SM β} {f : β → SM α} (h : ∀ b, (f b).Returns P) : (x >>= f).Returns P := by
  intro s a ha
  simp only [Bind.bind, SM.bind] at ha
  split at ha
  · exact h _ _ _ ha
  · cases ha

theorem returns_fail {e : HubErr} : (SM.fail e : SM α).Returns P := by
  intro s a h; cases h

theorem returns_pure {a : α} (h : P a) : (pure a : SM α).Returns P := by
  intro s b hb
  simp only [Pure.pure, SM.pure, Except.ok.injEq] at hb
  exact hb ▸ h

end

theorem returns_event (e : StoreEvent) : (SM.event e).Returns (· = e) := by
  intro s a h
  simp only [SM.event] at h
  split at h
  · simp only [Except.ok.injEq] at h; exact h.symm
  · cases h

namespace StoreDef
variable (D : StoreDef) (db : Db SVal) (ctx : MergeCtx) (m : Msg)

theorem merge_returns : (D.merge db ctx m).Returns (fun e => ∃ old, e = .merge m old) := by
  have ev : ∀ old, (SM.event (.merge m old)).Returns (fun e => ∃ old, e = .merge m old) :=
    fun old s a h => ⟨old, returns_event _ s a h⟩
  unfold merge
  split
  · exact returns_fail
  · refine returns_bind fun th => ?_
    split
    · unfold mergeCompact
      exact returns_bind fun _ => returns_bind fun _ => returns_bind fun _ => returns_bind fun _ => returns_bind fun _ =>
        returns_bind fun _ => ev _
    · split
      · unfold mergeAdd mergeAddWithConflicts
        exact returns_bind fun _ => returns_bind fun _ => returns_bind fun _ => returns_bind fun _ => returns_bind fun _ => ev _
      · unfold mergeRemove mergeRemoveWithConflicts
        exact returns_bind fun _ => returns_bind fun _ => returns_bind fun _ => returns_bind fun _ => returns_bind fun _ => ev _

theorem mergeForce_returns : (D.mergeForce db ctx m).Returns (fun e => ∃ old, e = .merge m old) := by
  have ev : ∀ old, (SM.event (.merge m old)).Returns (fun e => ∃ old, e = .merge m old) :=
    fun old s a h => ⟨old, returns_event _ s a h⟩
  unfold mergeForce
  split
  · exact returns_fail
  · split
    · exact returns_fail
    · refine returns_bind fun th => returns_bind fun _ => returns_bind fun _ => ?_
      split
      · exact returns_bind fun _ => ev _
      · exact returns_bind fun _ => ev _

/-- An event that is not a merge. -/
def Silent (e : StoreEvent) : Prop := (∃ m, e = .prune m) ∨ ∃ m, e = .revoke m

theorem revoke_returns : (D.revoke m).Returns Silent := by
  unfold revoke
  exact returns_bind fun _ => returns_bind fun _ s a h => .inr ⟨m, returns_event _ s a h⟩

theorem pruneMessage_returns : (D.pruneMessage m).Returns (fun o => ∀ e ∈ o, Silent e) := by
  unfold pruneMessage
  split
  · exact returns_pure (by simp)
  · refine returns_bind fun _ s a h => ?_
    simp only [Bind.bind, SM.bind] at h
    split at h
    · rename_i e s' he
      simp only [Pure.pure, SM.pure, Except.ok.injEq] at h
      subst h
      have := returns_event _ s e (by rw [he])
      rintro x ⟨⟩
      exact .inl ⟨m, this⟩
    · cases h

theorem pruneLoop_returns (max : Nat) : ∀ (rows : List (Bytes × SVal)) (n : Nat), (D.pruneLoop max rows n).Returns (fun es => ∀ e ∈ es, Silent e)
  | [], n => returns_pure (by simp)
  | (k, v) :: rest, n => by
    unfold pruneLoop
    split
    · exact returns_pure (by simp)
    · split
      · exact returns_fail
      · rename_i m _
        intro s a h
        simp only [Bind.bind, SM.bind] at h
        split at h
        · rename_i o s1 ho
          have h1 := pruneMessage_returns D m s o (by rw [ho])
          split at h
          · rename_i e
            simp only [SM.bind] at h
            split at h
            · rename_i es s2 hes
              simp only [Pure.pure, SM.pure, Except.ok.injEq] at h
              subst h
              have h2 := pruneLoop_returns max rest (n - 1) s1 es (by rw [hes])
              intro x hx
              rcases List.mem_cons.1 hx with rfl | hx
              · exact h1 _ rfl
              · exact h2 x hx
            · cases h
          · exact pruneLoop_returns max rest n _ _ h
        · cases h

theorem pruneMessages_returns (fid cur max : Nat) : (D.pruneMessages db fid cur max).Returns (fun es => ∀ e ∈ es, Silent e) := by
  unfold pruneMessages
  split
  · exact returns_pure (by simp)
  · exact pruneLoop_returns D _ _ _

theorem revokeLoop_returns (signer : Bytes) : ∀ (rows : List (Bytes × SVal)), (D.revokeLoop signer rows).Returns (fun es => ∀ e ∈ es, Silent e)
  | [] => returns_pure (by simp)
  | (k, .msg m) :: rest => by
    by_cases hsg : bytesCompare m.signer signer = 0
    · intro s a h
      rw [revokeLoop_hit hsg] at h
      split at h
      · rename_i e s1 he
        have h1 := revoke_returns D m s e (by rw [he])
        simp only [Bind.bind, SM.bind] at h
        split at h
        · rename_i es s2 hes
          simp only [Pure.pure, SM.pure, Except.ok.injEq] at h
          subst h
          have h2 := revokeLoop_returns signer rest s1 es (by rw [hes])
          intro x hx
          rcases List.mem_cons.1 hx with rfl | hx
          · exact h1
          · exact h2 x hx
        · cases h
      · exact revokeLoop_returns signer rest _ _ h
    · rw [revokeLoop_miss hsg]
      exact revokeLoop_returns signer rest
  | (k, .raw _) :: rest => by unfold revokeLoop; exact returns_fail
  | (k, .event _ _) :: rest => by unfold revokeLoop; exact returns_fail

end StoreDef

theorem quiet_reported {es : List StoreEvent} (h : ∀ e ∈ es, StoreDef.Silent e) : (es.map ShardHub.store).filterMap reported = [] := by
  rw [List.filterMap_eq_nil_iff]
  intro x hx
  obtain ⟨e, he, rfl⟩ := List.mem_map.1 hx
  rcases h e he with ⟨m, rfl⟩ | ⟨m, rfl⟩ <;> rfl

namespace ShardCfg
variable {R F : Type} {c : ShardCfg R F}

/-- A call of a store that merges nothing. -/
def QuietOp : ShardTrieOp → Prop
  | .step (.call _ (.prune _ _ _)) => True
  | .step (.call _ (.revokeSigner _ _)) => True
  | .remove _ _ _ => True
  | _ => False

theorem storeAct_quiet {st : StoreState} {o : ShardTrieOp} (ho : QuietOp o) {es : List StoreEvent} {st' : StoreState}
    (h : c.storeAct st o = (.ok es, st')) : ∀ e ∈ es, StoreDef.Silent e := by
  unfold storeAct at h
  split at h
  · rename_i kind x
    simp only [Prod.mk.injEq] at h
    cases x <;> simp only [QuietOp] at ho
    · exact pruneMessages_returns _ _ _ _ _ _ _ h.1
    · exact revokeLoop_returns _ _ _ _ _ h.1
  · rename_i kind p m
    simp only [Prod.mk.injEq] at h
    have h1 := h.1
    unfold removeOne at h1
    split at h1
    · split at h1
      · rename_i e s he
        simp only [Except.ok.injEq] at h1
        subst h1
        have := pruneMessage_returns _ m _ e (by rw [he])
        simpa using this
      · cases h1
    · split at h1
      · rename_i e s he
        simp only [Except.ok.injEq] at h1
        subst h1
        have := revoke_returns _ m _ e (by rw [he])
        simpa using this
      · cases h1
  · simp only [Prod.mk.injEq, Except.ok.injEq] at h
    rw [← h.1]; simp

theorem act_quiet {a : Acted} {o : ShardTrieOp} (ho : QuietOp o) (ha : ∀ e ∈ a.events, StoreDef.Silent e) :
    ∀ e ∈ (c.act a o).1.events, StoreDef.Silent e := by
  unfold act
  split
  · rename_i es st h
    intro e he
    rcases List.mem_append.1 he with he | he
    · exact ha e he
    · exact storeAct_quiet ho h e he
  · exact ha

theorem acts_quiet : ∀ (os : List ShardTrieOp) (a : Acted), (∀ o ∈ os, QuietOp o) → (∀ e ∈ a.events, StoreDef.Silent e) →
    ∀ e ∈ (c.acts os a).1.events, StoreDef.Silent e
  | [], a, _, h => h
  | o :: os, a, hos, h => by
    have := act_quiet (c := c) (o := o) (hos o (by simp)) h
    simp only [acts]
    split
    · rename_i a' ha
      rw [ha] at this
      exact acts_quiet os a' (fun o ho => hos o (by simp [ho])) this
    · rename_i a' err ha
      rw [ha] at this
      exact this

theorem settle_quiet {w w' : ShardWork R} {a : Acted} {err : Option HubErr} {hs : List ShardHub} (ha : ∀ e ∈ a.events, StoreDef.Silent e)
    (h : c.settle w a err = .ok (w', hs)) : hs.filterMap reported = [] := by
  unfold settle at h
  split at h
  · simp only [Except.ok.injEq, Prod.mk.injEq] at h
    rw [← h.2]; rfl
  · split at h
    · cases h
    · simp only [Except.ok.injEq, Prod.mk.injEq] at h
      rw [← h.2]; exact quiet_reported ha

theorem others_reported : ∀ (es : List TrieEvent) (w w' : ShardWork R) (hs hs' : List ShardHub), c.others es w hs = .ok (w', hs') →
    hs'.filterMap reported = hs.filterMap reported
  | [], w, w', hs, hs', h => by
    simp only [others, Except.ok.injEq, Prod.mk.injEq] at h
    rw [h.2]
  | e :: es, w, w', hs, hs', h => by
    simp only [others] at h
    split at h
    · cases h
    · rename_i w1 hs1 h1
      rw [others_reported es _ _ _ _ h, List.filterMap_append]
      unfold other at h1
      split at h1
      · cases h1
      · simp only [Except.ok.injEq, Prod.mk.injEq] at h1
        rw [← h1.2]; simp [reported]

theorem doOnchain_reported {w w' : ShardWork R} {e : OEvent} {x : ShardHub} (h : c.doOnchain w e = .ok (w', some x)) : reported x = none := by
  unfold doOnchain at h
  split at h
  · simp at h
  · split at h
    · cases h
    · simp only [Except.ok.injEq, Prod.mk.injEq, Option.some.injEq] at h
      rw [← h.2]; rfl

theorem doFname_reported {w w' : ShardWork R} {f : F} {hs : List ShardHub} (h : c.doFname w f = .ok (w', hs)) : hs.filterMap reported = [] := by
  unfold doFname at h
  split at h
  · simp only [Except.ok.injEq, Prod.mk.injEq] at h
    rw [← h.2]; rfl
  · split at h
    · cases h
    · rename_i w1 hs1 h1
      have := others_reported _ _ _ _ _ h1
      split at h
      · cases h
      · rename_i w2 hs2 h2
        simp only [Except.ok.injEq, Prod.mk.injEq] at h
        rw [← h.2, List.filterMap_append, this]
        unfold revokeName at h2
        split at h2
        · split at h2
          · rename_i u _
            rw [settle_quiet (act_quiet (o := .remove .userData false u) trivial (by simp)) h2]; rfl
          · simp only [Except.ok.injEq, Prod.mk.injEq] at h2
            rw [← h2.2]; rfl
        · simp only [Except.ok.injEq, Prod.mk.injEq] at h2
          rw [← h2.2]; rfl

theorem doRevoke_reported {w w' : ShardWork R} {fid : Nat} {key : Bytes} {hs : List ShardHub} (h : c.doRevoke w fid key = .ok (w', hs)) :
    hs.filterMap reported = [] := by
  unfold doRevoke at h
  refine settle_quiet (acts_quiet _ _ ?_ (by simp)) h
  intro o ho
  obtain ⟨k, _, rfl⟩ := List.mem_map.1 ho
  trivial

theorem doPrune_reported {clock : Nat} {v : EngineVersion} {w w' : ShardWork R} {fid : Nat} {ty : MessageType} {hs : List ShardHub}
    (h : c.doPrune clock v w fid ty = .ok (w', hs)) : hs.filterMap reported = [] := by
  unfold doPrune at h
  split at h
  · simp only [Except.ok.injEq, Prod.mk.injEq] at h
    rw [← h.2]; rfl
  · simp only at h
    split at h
    · rename_i kind _
      refine settle_quiet (act_quiet (o := .step (.call kind (.prune fid _ _))) trivial ?_) h
      simp
    · split at h
      · rw [others_reported _ _ _ _ _ h]; rfl
      · simp only [Except.ok.injEq, Prod.mk.injEq] at h
        rw [← h.2]; rfl

theorem doSideEffects_reported {v : EngineVersion} {w w' : ShardWork R} {es hs : List ShardHub} (h : c.doSideEffects v w es = .ok (w', hs)) :
    hs.filterMap reported = [] := by
  unfold doSideEffects at h
  split at h
  · refine settle_quiet (acts_quiet _ _ ?_ (by simp)) h
    intro o ho
    obtain ⟨k, _, rfl⟩ := List.mem_map.1 ho
    trivial
  · simp only [Except.ok.injEq, Prod.mk.injEq] at h
    rw [← h.2]; rfl

/-- The events of a merge: one merge of the message, or none if it is of no message store. -/
theorem mergeMessage_reported {w w' : ShardWork R} {b : Bool} {m : Msg} {hs : List ShardHub} (h : c.mergeMessage w b m = .ok (w', .ok hs)) :
    hs.filterMap reported = if (mergeTarget m.ty).isSome then [m] else [] := by
  unfold mergeMessage at h
  split at h
  · rename_i kind hk
    rw [hk]
    simp only [Option.isSome_some, if_true]
    split at h
    · split at h
      · cases h
      · simp at h
    · rename_i a ha
      have h1 : ∃ old, a.events = [.merge m old] := by
        unfold act at ha
        split at ha
        · rename_i es st hs1
          simp only [Prod.mk.injEq] at ha
          rw [← ha.1]
          simp only [List.nil_append]
          simp only [storeAct, StoreState.returned, Prod.mk.injEq] at hs1
          have h2 := hs1.1
          split at h2
          · rename_i e he
            obtain ⟨old, rfl⟩ := merge_returns _ _ _ _ _ _ he
            simp only [Except.ok.injEq] at h2
            exact ⟨old, h2.symm⟩
          · cases h2
        · simp at ha
      obtain ⟨old, h1⟩ := h1
      have key : ∀ a' : Acted, (∃ es, a'.events = [.merge m old] ++ es ∧ ∀ e ∈ es, StoreDef.Silent e) → ∀ w1 hs1,
          c.settle w a' none = .ok (w1, hs1) → hs1.filterMap reported = [m] := by
        rintro a' ⟨es, he, hq⟩ w1 hs1 hs
        unfold settle at hs
        simp only at hs
        split at hs
        · cases hs
        · simp only [Except.ok.injEq, Prod.mk.injEq] at hs
          rw [← hs.2, he, List.map_append, List.filterMap_append, quiet_reported hq]; rfl
      simp only at h
      split at h
      · cases h
      · rename_i w1 hs1 hst
        simp only [Except.ok.injEq, Prod.mk.injEq] at h
        rw [← h.2]
        refine key _ ?_ _ _ hst
        split
        · unfold act
          split
          · rename_i es st h2
            exact ⟨es, by simp [h1], storeAct_quiet (o := .remove .lends true m) trivial h2⟩
          · exact ⟨[], by simp [h1], by simp⟩
        · exact ⟨[], by simp [h1], by simp⟩
  · rename_i hk
    rw [hk]
    split at h
    · simp at h
    · split at h
      · cases h
      · rename_i w1 hs1 h1
        simp only [Except.ok.injEq, Prod.mk.injEq] at h
        rw [← h.2, others_reported _ _ _ _ _ h1]; rfl

theorem target_isSome (m : Msg) : (mergeTarget m.ty).isSome = decide (OfStore m) := by
  have h : ∀ t : MessageType, (mergeTarget t).isSome = decide (t ∈ [.castAdd, .castRemove, .reactionAdd, .reactionRemove, .linkAdd,
      .linkRemove, .linkCompactState, .verificationAdd, .verificationRemove, .userDataAdd, .lendStorage]) := by
    intro t; cases t <;> rfl
  rw [h, decide_eq_decide]
  rfl

/-- A user message of a store is reported, merged or failed; others are only when they failed. -/
theorem doUser_reported {v : EngineVersion} {ts : Nat} {w w' : ShardWork R} {m : Msg} {hs : List ShardHub} {err : Option HubErr}
    (h : c.doUser v ts w m = .ok (w', hs, err)) :
    (hs.filterMap reported).filter (fun m => decide (OfStore m)) = [m].filter (fun m => decide (OfStore m)) := by
  unfold doUser at h
  split at h
  · simp only [Except.ok.injEq, Prod.mk.injEq] at h
    rw [← h.2.1]; rfl
  · split at h
    · cases h
    · simp only [Except.ok.injEq, Prod.mk.injEq] at h
      rw [← h.2.1]; rfl
    · rename_i h1
      simp only [Except.ok.injEq, Prod.mk.injEq] at h
      rw [← h.2.1, mergeMessage_reported h1, target_isSome]
      by_cases hm : OfStore m <;> simp [hm]

theorem doBlockEvent_reported {w w' : ShardWork R} {b : BEvent} {hs : List ShardHub} {t : Option MessageType}
    (h : c.doBlockEvent w b = .ok (w', some (hs, t))) : ∀ m ∈ hs.filterMap reported, b.Brings m := by
  unfold doBlockEvent at h
  split at h
  · simp at h
  · rename_i d hd
    split at h
    · rename_i m hb
      have hbr : b.Brings m := ⟨d, hd, hb⟩
      unfold replayMessage at h
      split at h
      · simp at h
      · split at h
        · simp only at h
          split at h
          · cases h
          · rename_i w1 hs1 h1
            simp only [Except.ok.injEq, Prod.mk.injEq] at h
            have h2 := h.2
            split at h2
            · cases h2
            · rename_i hn
              simp only [Option.some.injEq, Prod.mk.injEq] at h2
              rw [← h2.1]
              unfold settle at h1
              split at h1
              · simp_all
              · split at h1
                · cases h1
                · simp only [Except.ok.injEq, Prod.mk.injEq] at h1
                  rw [← h1.2]
                  intro x hx
                  simp only [act, storeAct, StoreState.returned] at hx
                  revert hx
                  split
                  · rename_i es st he
                    simp only [Prod.mk.injEq] at he
                    have he1 := he.1
                    split at he1
                    · rename_i e he2
                      obtain ⟨old, rfl⟩ := mergeForce_returns _ _ _ _ _ _ he2
                      simp only [Except.ok.injEq] at he1
                      subst he1
                      simp only [List.nil_append, List.map_cons, List.map_nil, List.filterMap_cons, reported, List.filterMap_nil, List.mem_singleton]
                      rintro rfl
                      exact hbr
                    · cases he1
                  · simp
        · split at h
          · cases h
          · simp at h
          · rename_i h1
            simp only [Except.ok.injEq, Prod.mk.injEq, Option.some.injEq] at h
            rw [← h.2.1, mergeMessage_reported h1]
            intro x hx
            split at hx
            · simp only [List.mem_singleton] at hx; exact hx ▸ hbr
            · cases hx
    all_goals
      repeat' split at h
      all_goals simp only [Except.ok.injEq, Prod.mk.injEq, Option.some.injEq, reduceCtorEq, and_false] at h
      all_goals (rw [← h.2.1]; simp)

end ShardCfg

section sort
variable {α : Type} {le : α → α → Bool}

theorem stableInsert_perm (a : α) : ∀ l : List α, (stableInsert le a l).Perm (a :: l)
  | [] => .refl _
  | b :: l => by
    simp only [stableInsert]
    split
    · exact .refl _
    · exact ((stableInsert_perm a l).cons b).trans (List.Perm.swap a b l)

theorem stableSort_perm : ∀ l : List α, (stableSort le l).Perm l
  | [] => .refl _
  | a :: l => (stableInsert_perm a _).trans ((stableSort_perm l).cons a)

theorem stableInsert_pairwise (tot : ∀ a b, le a b = true ∨ le b a = true) (tr : ∀ a b c, le a b = true → le b c = true → le a c = true) (a : α) :
    ∀ l : List α, l.Pairwise (fun x y => le x y = true) → (stableInsert le a l).Pairwise (fun x y => le x y = true)
  | [], _ => by simp [stableInsert]
  | b :: l, h => by
    obtain ⟨h1, h2⟩ := List.pairwise_cons.1 h
    simp only [stableInsert]
    split
    · rename_i hle
      refine List.pairwise_cons.2 ⟨fun x hx => ?_, h⟩
      rcases List.mem_cons.1 hx with rfl | hx
      · exact hle
      · exact tr _ _ _ hle (h1 x hx)
    · rename_i hle
      refine List.pairwise_cons.2 ⟨fun x hx => ?_, stableInsert_pairwise tot tr a l h2⟩
      rcases mem_stableInsert.1 hx with rfl | hx
      · exact (tot x b).resolve_left hle
      · exact h1 x hx

theorem stableSort_pairwise (tot : ∀ a b, le a b = true ∨ le b a = true) (tr : ∀ a b c, le a b = true → le b c = true → le a c = true) :
    ∀ l : List α, (stableSort le l).Pairwise (fun x y => le x y = true)
  | [] => .nil
  | a :: l => stableInsert_pairwise tot tr a _ (stableSort_pairwise tot tr l)

theorem stableSort_filter {p : α → Bool} {l : List α} (h : ∀ a ∈ l, ∀ b ∈ l, p a = true → p b = true → le a b = true) :
    (stableSort le l).filter p = l.filter p := by
  have := stableSort_filterMap (le := le) (f := Option.guard p) (l := l) (by
    intro a ha b hb h1 h2
    refine h a ha b hb ?_ ?_
    · simpa [Option.guard] using h1
    · simpa [Option.guard] using h2)
  rwa [List.filterMap_eq_filter] at this

end sort

theorem msgPriority_turn (m : Msg) : ShardCfg.msgPriority m = turn m := by
  unfold ShardCfg.msgPriority turn field
  cases h : m.ty <;> simp
  cases hb : m.body <;> simp
  all_goals (split <;> simp_all)

section
variable {R F : Type} {c : ShardCfg R F}

/-- The reports of the system messages. -/
theorem sys_reported {v : EngineVersion} {d : ShardWork R} {s s' : RLoop (ShardWork R) ShardHub} {x : SysMsg F}
    (h : sysStep c.ops v d s x = .ok s') :
    ∃ l, s'.events.filterMap reported = s.events.filterMap reported ++ l ∧ ∀ m ∈ l, ∃ b, x.block = some b ∧ b.Brings m := by
  unfold sysStep at h
  split at h
  · simp only [Except.ok.injEq] at h
    exact ⟨[], by simp [h], by simp⟩
  · split at h
    · cases h
    · rename_i s1 h1
      split at h
      · cases h
      · rename_i s2 h2
        have e1 : s1.events.filterMap reported = s.events.filterMap reported := by
          unfold sysOnchain at h1
          split at h1
          · simp only [Except.ok.injEq] at h1; rw [h1]
          · split at h1
            · cases h1
            · simp only [Except.ok.injEq] at h1; rw [← h1]
            · rename_i ho
              simp only [Except.ok.injEq] at h1
              rw [← h1, List.filterMap_append]
              simp [ShardCfg.doOnchain_reported ho]
        have e2 : s2.events.filterMap reported = s1.events.filterMap reported := by
          unfold sysFname at h2
          split at h2
          · simp only [Except.ok.injEq] at h2; rw [h2]
          · split at h2
            · cases h2
            · rename_i ho
              simp only [Except.ok.injEq] at h2
              rw [← h2, List.filterMap_append, ShardCfg.doFname_reported ho]
              simp
        rw [← e1, ← e2]
        unfold sysBlock at h
        split at h
        · simp only [Except.ok.injEq] at h
          exact ⟨[], by simp [h], by simp⟩
        · rename_i b hb
          split at h
          · simp only [Except.ok.injEq] at h
            exact ⟨[], by simp [h], by simp⟩
          · split at h
            · cases h
            · split at h
              · simp only at h
                split at h
                · cases h
                · simp only [Except.ok.injEq] at h
                  exact ⟨[], by simp [← h], by simp⟩
                · rename_i es t ho
                  simp only [Except.ok.injEq] at h
                  exact ⟨es.filterMap reported, by simp [← h, List.filterMap_append], fun m hm => ⟨b, hb, ShardCfg.doBlockEvent_reported ho m hm⟩⟩
              · simp only [Except.ok.injEq] at h
                exact ⟨[], by simp [h], by simp⟩

theorem user_reported {v : EngineVersion} {ts : Nat} {d : ShardWork R} : ∀ (l : List Msg) (s s' : RLoop (ShardWork R) ShardHub),
    foldE (userStep c.ops v ts d) s l = .ok s' →
    (s'.events.filterMap reported).filter (fun m => decide (OfStore m)) =
      (s.events.filterMap reported).filter (fun m => decide (OfStore m)) ++ l.filter (fun m => decide (OfStore m))
  | [], s, s', h => by
    simp only [foldE, Except.ok.injEq] at h
    simp [h]
  | m :: l, s, s', h => by
    simp only [foldE] at h
    split at h
    · cases h
    · rename_i s1 h1
      rw [user_reported l _ _ h]
      have : ∃ hs err w, c.doUser v ts s.w m = .ok (w, hs, err) ∧ s1.events = s.events ++ hs := by
        unfold userStep at h1
        split at h1
        · cases h1
        · rename_i w es ho
          simp only [Except.ok.injEq] at h1
          exact ⟨es, none, w, ho, by rw [← h1]⟩
        · rename_i w es e ho
          simp only [Except.ok.injEq] at h1
          exact ⟨es, some e, w, ho, by rw [← h1]⟩
      obtain ⟨hs, err, w, h2, h3⟩ := this
      rw [h3, List.filterMap_append, List.filter_append, ShardCfg.doUser_reported h2, List.append_assoc, ← List.filter_append]
      rfl

end
end Verif
