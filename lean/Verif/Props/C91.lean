import Verif.Lemmas.ShardTurn
import Verif.Lemmas.ShardReport
import Verif.Props.C90
/-!
C91: what the messages of a transaction do to a shard.  The engine is the one of C89; `Worked` are its states, committed
or in the middle of a transaction, as long as the record is one C84 covers.
-/
namespace Verif
open Spec StoreDef

section
variable {R F : Type} {c : ShardCfg R F} {U : Msg → Prop} {E : TrieEntry → Prop}

/-- The states of nodes are such states. -/
theorem C91_node_worked (HB : Bytes → Bytes) (ver : Nat → EngineVersion) (r : R) (bs : List (NodeBlock F))
    (st : EngineState (ShardWork R) (ShardWork R) ShardHub F) (hrun : nodeRun c.ops HB ver bs (ShardCfg.fresh r) = some st)
    (ops : List ShardTrieOp) (hd : st.d.done = some ops)
    (hok : ({} : StoreState).ShardStepsOK c.env.channelOf c.env.ctx U c.sha256 E {} ops) : c.Worked U E st.d :=
  ⟨ops, hd, keep_nodeRun (ShardCfg.told_keeps c) bs _ _ (ShardCfg.told_fresh r) (fun b _ => fine_true b) hrun ops hd, hok⟩

/-- A user message that is accepted passed validation and beats every message held about its item; it takes their place,
the event names exactly those, and nothing else changes in any store.  (The withdrawal of a loan does not stay itself.) -/
theorem C91_accepted (S : ShardSetting c.env.channelOf U c.ord c.sha256 E) (hH : ∀ x, c.H x ≠ []) (w : ShardWork R)
    (hw : c.Worked U E w) (kind : StoreKind) (m : Msg) (hv : kind.Valid m) (hu : U m) (v : EngineVersion) (ts : Nat)
    (w' : ShardWork R) (hs : List ShardHub) (h : c.doUser v ts w m = .ok (w', hs, none)) :
    (c.rest.validate v ts w.st.store w.rest m).2 = none ∧
    (∀ x, w.st.store.Has (kind.store c.env.channelOf) x → x.Rivals m → kind.beats m x) ∧
    Replaces c.env.channelOf w.st.store w'.st.store kind m (¬ Withdrawal m) ∧
    (∃ old hs', hs = .store (.merge m old) :: hs' ∧ hs'.filterMap reported = [] ∧
      ∀ x, x ∈ old ↔ w.st.store.Has (kind.store c.env.channelOf) x ∧ x.Rivals m) ∧
    (¬ Withdrawal m → c.Worked U E w') := by
  unfold ShardCfg.doUser at h
  split at h
  · simp at h
  · rename_i r hr
    have hw1 : c.Worked U E { w with rest := r } := hw
    refine ⟨by rw [hr], ?_⟩
    rcases ShardCfg.mergeMessage_effect S hH hw1 hv hu (v.isEnabled .channelMessages) with
      ⟨e, x, w1, _, _, _, h1, _⟩ | ⟨hb, ⟨w1, h1, _⟩ | ⟨w1, old, hs', h1, h2, h3, h4, h5, _⟩⟩
    · rw [h1] at h; simp at h
    · rw [h1] at h; simp at h
    · rw [h1] at h
      simp only [Except.ok.injEq, Prod.mk.injEq] at h
      obtain ⟨rfl, rfl, _⟩ := h
      exact ⟨hb, h4, ⟨old, hs', rfl, h2, h3⟩, h5⟩

/-- A user message that is not accepted is reported as failed, for one of these reasons: validation, and then no store
changes; a message about the same item that beats it, or the message itself, is held, and then no store changes; or the
numbers for events of the block ran out.  In this last case the message is written nevertheless, although reported
failed, and without an entry in the trie. -/
theorem C91_rejected (S : ShardSetting c.env.channelOf U c.ord c.sha256 E) (hH : ∀ x, c.H x ≠ []) (w : ShardWork R)
    (hw : c.Worked U E w) (kind : StoreKind) (m : Msg) (hv : kind.Valid m) (hu : U m) (v : EngineVersion) (ts : Nat)
    (w' : ShardWork R) (hs : List ShardHub) (err : HubErr) (h : c.doUser v ts w m = .ok (w', hs, some err)) :
    hs = [.failed m] ∧
    (((c.rest.validate v ts w.st.store w.rest m).2 = some err ∧ w'.st = w.st ∧ c.Worked U E w') ∨
     ((∃ x, w.st.store.Has (kind.store c.env.channelOf) x ∧ x.Rivals m ∧
         (err = .conflict ∧ kind.beats x m ∨ err = .duplicate ∧ x = m)) ∧ w'.st = w.st ∧ c.Worked U E w') ∨
     (err = .invalidParameter ∧ Replaces c.env.channelOf w.st.store w'.st.store kind m True)) := by
  unfold ShardCfg.doUser at h
  split at h
  · rename_i r e hr
    simp only [Except.ok.injEq, Prod.mk.injEq, Option.some.injEq] at h
    obtain ⟨rfl, rfl, rfl⟩ := h
    exact ⟨rfl, .inl ⟨by rw [hr], rfl, hw⟩⟩
  · rename_i r hr
    have hw1 : c.Worked U E { w with rest := r } := hw
    rcases ShardCfg.mergeMessage_effect S hH hw1 hv hu (v.isEnabled .channelMessages) with
      ⟨e, x, w1, he, hx, hxr, h1, h2, _, h3⟩ | ⟨hb, ⟨w1, h1, h2, _⟩ | ⟨w1, old, hs', h1, _⟩⟩
    · rw [h1] at h
      simp only [Except.ok.injEq, Prod.mk.injEq, Option.some.injEq] at h
      obtain ⟨rfl, rfl, rfl⟩ := h
      exact ⟨rfl, .inr (.inl ⟨⟨x, hx, hxr, he⟩, h2, h3⟩)⟩
    · rw [h1] at h
      simp only [Except.ok.injEq, Prod.mk.injEq, Option.some.injEq] at h
      obtain ⟨rfl, rfl, rfl⟩ := h
      exact ⟨rfl, .inr (.inr ⟨rfl, h2⟩)⟩
    · rw [h1] at h; simp at h

/-- No user message of a store stops the transaction. -/
theorem C91_never_stuck (S : ShardSetting c.env.channelOf U c.ord c.sha256 E) (hH : ∀ x, c.H x ≠ []) (w : ShardWork R)
    (hw : c.Worked U E w) (kind : StoreKind) (m : Msg) (hv : kind.Valid m) (hu : U m) (v : EngineVersion) (ts : Nat) :
    ∃ w' hs err, c.doUser v ts w m = .ok (w', hs, err) := by
  unfold ShardCfg.doUser
  split
  · exact ⟨_, _, _, rfl⟩
  · rename_i r hr
    have hw1 : c.Worked U E { w with rest := r } := hw
    rcases ShardCfg.mergeMessage_effect S hH hw1 hv hu (v.isEnabled .channelMessages) with
      ⟨e, x, w1, _, _, _, h1, _⟩ | ⟨_, ⟨w1, h1, _⟩ | ⟨w1, old, hs', h1, _⟩⟩
    · rw [h1]; exact ⟨_, _, _, rfl⟩
    · rw [h1]; exact ⟨_, _, _, rfl⟩
    · rw [h1]; exact ⟨_, _, _, rfl⟩

/-- When a key is removed on chain, the user's casts, links, reactions, user data and verifications that it signed and
that are committed are deleted; everything else stays, loans included.  Each is reported. -/
theorem C91_revoked (S : ShardSetting c.env.channelOf U c.ord c.sha256 E) (hH : ∀ x, c.H x ≠ []) (w : ShardWork R)
    (hw : c.Worked U E w) (fid : Nat) (key : Bytes) (hf : fid < 2 ^ 32)
    (hsig : ∀ kind ∈ [StoreKind.casts, .links, .reactions, .userData, .verifications], w.st.store.OfSigner (kind.store c.env.channelOf) fid key)
    (w' : ShardWork R) (hs : List ShardHub) (h : c.doRevoke w fid key = .ok (w', hs)) :
    (∀ (j : StoreKind) x, w'.st.store.Has (j.store c.env.channelOf) x ↔ w.st.store.Has (j.store c.env.channelOf) x ∧
      ¬ (j ≠ .lends ∧ x ∈ storedMessages (j.store c.env.channelOf) w.st.store.db fid ∧ x.signer = key)) ∧
    ∀ e ∈ hs, ∃ (j : StoreKind) (m : Msg), j ≠ .lends ∧ m ∈ storedMessages (j.store c.env.channelOf) w.st.store.db fid ∧ m.signer = key ∧
      e = .store (.revoke m) := by
  have hch := S.naming
  have hU := S.hashes.identify
  obtain ⟨L0, L, hi⟩ := worked_inv S hH hw
  obtain ⟨a', L', es, h1, h2, h3, h4, h5, h6⟩ := ShardCfg.revoke_acts (key := key) hch hU hf ShardCfg.sweptStores ⟨w.st.store, [], []⟩ L0 L
    (by decide) hi hsig
  have hl : ∀ j : StoreKind, j ∈ ShardCfg.sweptStores ↔ j ≠ .lends := by intro j; cases j <;> decide
  unfold ShardCfg.doRevoke at h
  simp only [h1, ShardCfg.settle] at h
  split at h
  · cases h
  · simp only [Except.ok.injEq, Prod.mk.injEq] at h
    obtain ⟨rfl, rfl⟩ := h
    refine ⟨fun j x => ?_, ?_⟩
    · rw [shardInv_has hch hU h2 j x, h4, shardInv_has hch hU hi j x, hl]
    · intro e he
      obtain ⟨e', he', rfl⟩ := List.mem_map.1 he
      rw [h5] at he'
      obtain ⟨j, hj, m, hm, hsg, rfl⟩ := h6 e' (by simpa using he')
      exact ⟨j, m, (hl j).1 hj, hm, hsg, rfl⟩

/-- A verification that shard 0 sends in a block event takes the place of whatever is held about its address, newer or
older, once the feature is on; before, nothing happens.  The event names what it replaced, and the entries in the trie
follow.  Only when the numbers for events of the block run out is it written without either. -/
theorem C91_replayed_verification (S : ShardSetting c.env.channelOf U c.ord c.sha256 E) (hH : ∀ x, c.H x ≠ []) (w : ShardWork R)
    (hw : c.Worked U E w) (m : Msg) (hv : StoreKind.verifications.Valid m) (hu : U m)
    (hx : ∀ x, w.st.store.Has verificationStore x → x.fid = m.fid → x.hash = m.hash → x = m)
    (b : BEvent) (d : BData) (hb : b.data = some d) (hm : d.body = some (.message (some m))) :
    ∃ w' r, c.doBlockEvent w b = .ok (w', r) ∧
      (((c.ver d.ts).isEnabled .verificationsOnShardZero = false ∧ w' = w ∧ r = none) ∨
       ((c.ver d.ts).isEnabled .verificationsOnShardZero = true ∧ Replaces c.env.channelOf w.st.store w'.st.store .verifications m True ∧
        (r = none ∨ ∃ old, r = some ([.store (.merge m old)], some m.ty) ∧
          (∀ x, x ∈ old ↔ w.st.store.Has verificationStore x ∧ x.Rivals m ∧ x ≠ m) ∧ c.Worked U E w'))) := by
  have : c.doBlockEvent w b = c.replayMessage w d.ts m := by simp only [ShardCfg.doBlockEvent, hb, hm]
  rw [this]
  rcases ShardCfg.replay_effect S hH hw hv hu hx d.ts with ⟨h1, h2⟩ | ⟨h1, w1, h2, _, h3 | ⟨old, h3, h4, h5⟩⟩
  · exact ⟨w, none, h1, .inl ⟨h2, rfl, rfl⟩⟩
  · exact ⟨w1, none, h3, .inr ⟨h1, h2, .inl rfl⟩⟩
  · exact ⟨w1, _, h3, .inr ⟨h1, h2, .inr ⟨old, rfl, h4, h5⟩⟩⟩

/-- The events of a transaction report each of its user messages once, as merged or as failed, after the messages its
block events brought, and in this order: by turn, then by timestamp, and as they came if both are the same. -/
theorem C91_order (env : NodeEnv) (v : EngineVersion) (ts : Nat) (d w : ShardWork R) (ev : Txn BEvent) (seq : Nat) (t : ETxn F)
    (r : TxnResult (ShardWork R) ShardHub) (h : replayTxn c.ops env v ts d w ev seq t = .ok r) :
    ∃ (pre l : List Msg), (r.events.filterMap reported).filter (fun m => decide (OfStore m)) = pre ++ l.filter (fun m => decide (OfStore m)) ∧
      (∀ m ∈ pre, ∃ s ∈ t.sys, ∃ b, s.block = some b ∧ b.Brings m) ∧
      l.Perm t.user ∧ l.Pairwise (fun a b => turn a < turn b ∨ (turn a = turn b ∧ a.ts ≤ b.ts)) ∧
      ∀ n k, l.filter (fun m => turn m = n ∧ m.ts = k) = t.user.filter (fun m => turn m = n ∧ m.ts = k) := by
  unfold replayTxn at h
  split at h
  · cases h
  · rename_i s0 h0
    have i0 : ∀ m ∈ s0.events.filterMap reported, ∃ s ∈ t.sys, ∃ b, s.block = some b ∧ b.Brings m := by
      refine foldE_inv (fun x : RLoop (ShardWork R) ShardHub => ∀ m ∈ x.events.filterMap reported, ∃ s ∈ t.sys, ∃ b, s.block = some b ∧ b.Brings m)
        _ _ (by simp) ?_ _ h0
      intro x k x' hk hx hstep m hm
      obtain ⟨l, h1, h2⟩ := sys_reported hstep
      rw [h1] at hm
      rcases List.mem_append.1 hm with hm | hm
      · exact hx m hm
      · obtain ⟨b, hb⟩ := h2 m hm
        exact ⟨k, mem_sysSort.1 hk, b, hb⟩
    split at h
    · cases h
    · rename_i s1 h1
      have i1 := foldE_inv (fun x : RLoop (ShardWork R) ShardHub => x.events.filterMap reported = s0.events.filterMap reported) _ _ rfl
        (by
          intro x k x' _ hx hstep
          unfold revokeStep at hstep
          split at hstep
          · cases hstep
          · rename_i ho
            simp only [Except.ok.injEq] at hstep
            rw [← hstep, List.filterMap_append, hx, ShardCfg.doRevoke_reported ho]; simp) _ h1
      split at h
      · cases h
      · rename_i s2 h2
        have i2 := user_reported _ _ _ h2
        split at h
        · cases h
        · rename_i s3 h3
          have i3 := foldE_inv (fun x : RLoop (ShardWork R) ShardHub => x.events.filterMap reported = s2.events.filterMap reported) _ _ rfl
            (by
              intro x k x' _ hx hstep
              unfold pruneStep at hstep
              split at hstep
              · cases hstep
              · rename_i ho
                simp only [Except.ok.injEq] at hstep
                rw [← hstep, List.filterMap_append, hx, ShardCfg.doPrune_reported ho]; simp) _ h3
          split at h
          · cases h
          · rename_i w1 es ho
            split at h
            · cases h
            · simp only [Except.ok.injEq] at h
              subst h
              have i4 := ShardCfg.doSideEffects_reported ho
              refine ⟨(s0.events.filterMap reported).filter (fun m => decide (OfStore m)), userSort c.ops t.user, ?_, ?_, stableSort_perm _, ?_, ?_⟩
              · simp only [List.filterMap_append]
                rw [i4, List.append_nil, i3, i2, i1]
              · intro m hm
                exact i0 m (List.mem_filter.1 hm).1
              · have hp : c.ops.priority = turn := funext msgPriority_turn
                unfold userSort
                rw [hp]
                refine (stableSort_pairwise ?_ ?_ t.user).imp ?_
                · intro a b; simp only [Bool.or_eq_true, Bool.and_eq_true, decide_eq_true_eq]; omega
                · intro a b c; simp only [Bool.or_eq_true, Bool.and_eq_true, decide_eq_true_eq]; omega
                · intro a b; simp
              · intro n k
                have hp : c.ops.priority = turn := funext msgPriority_turn
                unfold userSort
                rw [hp]
                refine stableSort_filter ?_
                intro a _ b _ ha hb
                simp only [decide_eq_true_eq] at ha hb
                simp [ha.1, hb.1, ha.2, hb.2]

end

namespace Case91
open Case89 (cfg chain steps)

abbrev WorkedHere (w : ShardWork Unit) : Prop := cfg.Worked (· ∈ msgs84) TrieEntry.Valid w

/-- The node of C89 after its two chunks, which holds a cast (signed by one key) and an unfollow (by another). -/
theorem of_chain {P : ShardWork Unit → Bool} (h : (chain.bind fun x => if P x.2.d then x.2.d.done else none) = some steps) :
    ∃ w, WorkedHere w ∧ P w = true ∧ w.st.store = steps.foldl (StoreState.shardFollow Case.noChannels Case.allOn) {} := by
  obtain ⟨⟨bs, st⟩, hc, hp⟩ := Option.bind_eq_some_iff.mp h
  simp only [chain, Option.bind_eq_bind, Option.bind_eq_some_iff, Option.pure_def, Option.some.injEq, Prod.mk.injEq] at hc
  obtain ⟨b1, _, st1, _, b2, _, st2, h2, _, rfl⟩ := hc
  split at hp
  · rename_i hP
    have := C91_node_worked (c := cfg) (U := (· ∈ msgs84)) (E := TrieEntry.Valid) _ _ () _ _ h2 steps hp Case89.steps_ok
    obtain ⟨ops, h3, h4, _⟩ := id this
    obtain rfl : steps = ops := by rw [hp] at h3; exact Option.some.inj h3
    exact ⟨_, this, hP, shardRun_store steps {} _ h4⟩
  · cases hp

/-- Following again is accepted, and the unfollow goes. -/
example : ∃ w w' hs, WorkedHere w ∧ cfg.doUser .v21 200 w Case.refollow8 = .ok (w', hs, none) ∧
    Replaces Case.noChannels w.st.store w'.st.store .links Case.refollow8 (¬ Withdrawal Case.refollow8) := by
  obtain ⟨w, hw, hp, _⟩ := of_chain (P := fun w => match cfg.doUser .v21 200 w Case.refollow8 with
    | .ok (_, _, none) => true
    | _ => false) (by decide +kernel)
  split at hp
  · rename_i w' hs h
    exact ⟨w, w', hs, hw, h, (C91_accepted (c := cfg) setting84 toyHash_ne w hw .links _ (Case.links_valid _ (by decide)) (by decide) _ _ _ _ h).2.2.1⟩
  · cases hp

/-- The first follow is refused now, because of the unfollow. -/
example : ∃ w w' hs, WorkedHere w ∧ cfg.doUser .v21 200 w Case.follow8 = .ok (w', hs, some .conflict) ∧ w'.st = w.st := by
  obtain ⟨w, hw, hp, _⟩ := of_chain (P := fun w => match cfg.doUser .v21 200 w Case.follow8 with
    | .ok (_, _, some .conflict) => true
    | _ => false) (by decide +kernel)
  split at hp
  · rename_i w' hs h
    refine ⟨w, w', hs, hw, h, ?_⟩
    rcases (C91_rejected (c := cfg) setting84 toyHash_ne w hw .links _ (Case.links_valid _ (by decide)) (by decide) _ _ _ _ _ h).2 with h | h | h
    · exact h.2.1
    · exact h.2.1
    · exact absurd h.1 (by decide)
  · cases hp

/-- The cast's key is removed: the cast goes. -/
example : ∃ w w' hs, WorkedHere w ∧ cfg.doRevoke w 7 [2] = .ok (w', hs) ∧ w.st.store.Has castStore castB84 ∧ ¬ w'.st.store.Has castStore castB84 := by
  obtain ⟨w, hw, hp, hst⟩ := of_chain (P := fun w => match cfg.doRevoke w 7 [2] with
    | .ok _ => true
    | _ => false) (by decide +kernel)
  split at hp
  · rename_i x h
    obtain ⟨w', hs⟩ := x
    refine ⟨w, w', hs, hw, h, by rw [hst]; simp only [StoreState.Has]; decide +kernel, ?_⟩
    intro hh
    refine (((C91_revoked (c := cfg) setting84 toyHash_ne w hw 7 [2] (by decide) ?_ w' hs h).1 .casts castB84).1 hh).2 ⟨by decide, ?_⟩
    · rw [hst]; simp only [StoreState.OfSigner, StoreState.Has]; decide +kernel
    · rw [hst]; decide +kernel
  · cases hp

/-- Two verifications of an address. -/
def verify : Msg := { Case87.verify with hash := Case.h20 21 }
def verifyAgain : Msg := { Case87.verifyAgain with hash := Case.h20 23 }

theorem verify_valid : ∀ m ∈ [verify, verifyAgain], StoreKind.verifications.Valid m := by
  intro m hm
  simp only [List.mem_cons, List.not_mem_nil, or_false] at hm
  rcases hm with rfl | rfl <;> exact ⟨by decide, by decide, by decide, by decide, .inl ⟨rfl, _, rfl, by decide⟩⟩

theorem setting91 : ShardSetting Case.noChannels (· ∈ [verify, verifyAgain]) id zeroSha TrieEntry.Valid := by
  refine ⟨Case.noChannels_naming, ?_, fun l => List.Perm.refl l, zeroSha_fit, ?_⟩
  · have h : ∀ a ∈ [verify, verifyAgain], ∀ b ∈ [verify, verifyAgain], a.hash = b.hash → a = b := by decide
    exact fun a b ha hb => h a ha b hb
  · intro kind m _ hm x hx
    simp only [List.mem_cons, List.not_mem_nil, or_false] at hm
    rcases hm with rfl | rfl <;>
      (simp only [Msg.entries, verify, verifyAgain, Case87.verify, Case87.verifyAgain, List.map_cons, List.map_nil, List.mem_singleton] at hx
       subst hx
       exact ⟨by decide, by decide, by decide, by decide⟩)

def sent (m : Msg) : BEvent := ⟨[], some ⟨1, 0, 0, 0, 200, some (.message (some m))⟩⟩

/-- The newer one is replayed first, then the older one: the older one is held. -/
example : ∃ w w', cfg.Worked (· ∈ [verify, verifyAgain]) TrieEntry.Valid w ∧ w.st.store.Has verificationStore verifyAgain ∧
    (∃ r, cfg.doBlockEvent w (sent verify) = .ok (w', r)) ∧
    w'.st.store.Has verificationStore verify ∧ ¬ w'.st.store.Has verificationStore verifyAgain := by
  have hU : ∀ m ∈ [verify, verifyAgain], ∀ x, StoreState.Has ({} : StoreState) verificationStore x → x.fid = m.fid → x.hash = m.hash → x = m := by
    intro m _ x hx
    exact absurd (show (none : Option SVal) = _ from hx) (by simp)
  obtain ⟨w, r, h1, h2 | ⟨_, h2, h3⟩⟩ := C91_replayed_verification (c := cfg) setting91 toyHash_ne { rest := () } ⟨[], rfl, rfl, trivial⟩ verifyAgain
    (verify_valid _ (by decide)) (by decide) (hU _ (by decide)) (sent verifyAgain) _ rfl rfl
  · exact absurd h2.1 (by decide)
  · have hr : (match cfg.doBlockEvent { rest := () } (sent verifyAgain) with | .ok (_, none) => false | _ => true) = true := by decide +kernel
    rw [h1] at hr
    rcases h3 with rfl | ⟨old, rfl, _, hw⟩
    · cases hr
    have has : w.st.store.Has verificationStore verifyAgain := (h2 .verifications verifyAgain).2 (.inl ⟨rfl, rfl, trivial⟩)
    obtain ⟨w', r', h4, h5 | ⟨_, h5, _⟩⟩ := C91_replayed_verification (c := cfg) setting91 toyHash_ne w hw verify (verify_valid _ (by decide)) (by decide)
      (by
        intro x hx _ hh
        rcases (h2 .verifications x).1 hx with ⟨_, rfl, _⟩ | ⟨hx, _⟩
        · exact absurd hh (by decide)
        · exact hU verify (by decide) x hx (by assumption) hh) (sent verify) _ rfl rfl
    · exact absurd h5.1 (by decide)
    · refine ⟨w, w', hw, has, ⟨r', h4⟩, (h5 .verifications verify).2 (.inl ⟨rfl, rfl, trivial⟩), ?_⟩
      intro h
      rcases (h5 .verifications verifyAgain).1 h with ⟨_, h, _⟩ | ⟨_, h⟩
      · exact absurd h (by decide)
      · exact h ⟨rfl, by decide, by decide⟩

/-- The order: a verification and a profile field go before casts and links that came earlier. -/
def txn : ETxn Unit := ⟨7, [Case89.signer], [castB84, Case.follow8, { Case87.setEth with hash := Case.h20 22 }, verify], []⟩

example : ((match replayTxn cfg.ops EngineCase.env .v21 200 { rest := () } { rest := () } OMap.empty 0 txn with
    | .ok r => r.events.filterMap reported
    | .error _ => [])) = [verify, { Case87.setEth with hash := Case.h20 22 }, Case.follow8, castB84] := by decide +kernel

end Case91
end Verif
