import Verif.Lemmas.ShardEffect
import Verif.Spec.ShardTurn
/-! Engine steps on the messages a shard holds, and the order of user messages. -/
namespace Verif
open StoreDef Spec

section
variable {R F : Type} {c : ShardCfg R F} {U : Msg → Prop} {E : TrieEntry → Prop}

theorem worked_inv (S : ShardSetting c.env.channelOf U c.ord c.sha256 E) (hH : ∀ x, c.H x ≠ []) {w : ShardWork R} (hw : c.Worked U E w) :
    ∃ L0 L, ShardInv c.env.channelOf c.env.ctx U L0 L w.st.store := by
  obtain ⟨ops, _, h1, h2⟩ := hw
  exact history_inv S hH h2 h1

theorem shardStepsOK_snoc {channelOf : Bytes → Option Bytes} {ctx : Nat → MergeCtx} {sha256 : Bytes → Bytes} {x : ShardTrieOp} :
    ∀ (a : List ShardTrieOp) (st : StoreState) (o : KeySets), st.ShardStepsOK channelOf ctx U sha256 E o a →
      (a.foldl (StoreState.shardFollow channelOf ctx) st).ShardStepOK channelOf ctx U sha256 E (a.foldl (shardOthersStep sha256) o) x →
      st.ShardStepsOK channelOf ctx U sha256 E o (a ++ [x])
  | [], _, _, _, h => ⟨h, trivial⟩
  | _ :: a, _, _, h, hx => ⟨h.1, shardStepsOK_snoc a _ _ h.2 hx⟩

/-- The store's part of a history is what the steps do to the stores. -/
theorem shardRun_store {H sha256 : Bytes → Bytes} {ord : List UInt8 → List UInt8} {channelOf : Bytes → Option Bytes} {ctx : Nat → MergeCtx} :
    ∀ (ops : List ShardTrieOp) (s s' : StoreTrie), StoreTrie.shardRun H ord sha256 channelOf ctx ops s = .ok s' →
      s'.store = ops.foldl (StoreState.shardFollow channelOf ctx) s.store
  | [], s, s', h => by simp only [StoreTrie.shardRun, Except.ok.injEq] at h; rw [← h]; rfl
  | o :: ops, s, s', h => by
    simp only [StoreTrie.shardRun] at h
    split at h
    · exact absurd h (by simp)
    · rename_i s1 h1
      rw [shardRun_store ops s1 s' h, List.foldl_cons]
      congr 1
      cases o with
      | other e =>
        simp only [StoreTrie.shardExec] at h1
        split at h1
        · exact absurd h1 (by simp)
        · simp only [Except.ok.injEq] at h1; rw [← h1]; rfl
      | remove kind p m =>
        simp only [StoreTrie.shardExec] at h1
        split at h1
        · exact absurd h1 (by simp)
        · simp only [Except.ok.injEq] at h1; rw [← h1]; rfl
      | step x =>
        cases x with
        | put k v => simp only [StoreTrie.shardExec, Except.ok.injEq] at h1; rw [← h1]; rfl
        | del k => simp only [StoreTrie.shardExec, Except.ok.injEq] at h1; rw [← h1]; rfl
        | call kind x =>
          cases x
          all_goals
            simp only [StoreTrie.shardExec, StoreTrie.exec] at h1
            first
              | (split at h1
                 · exact absurd h1 (by simp)
                 · simp only [Except.ok.injEq] at h1; rw [← h1]; rfl)
              | (simp only [Except.ok.injEq] at h1; rw [← h1]; rfl)

/-- One more covered step is carried out. -/
theorem worked_step (S : ShardSetting c.env.channelOf U c.ord c.sha256 E) (hH : ∀ x, c.H x ≠ []) {s : StoreTrie} {ops : List ShardTrieOp}
    (h1 : StoreTrie.shardRun c.H c.ord c.sha256 c.env.channelOf c.env.ctx ops {} = .ok s)
    (h2 : ({} : StoreState).ShardStepsOK c.env.channelOf c.env.ctx U c.sha256 E {} ops) {x : ShardTrieOp}
    (hx : ∀ o, s.store.ShardStepOK c.env.channelOf c.env.ctx U c.sha256 E o x) :
    ({} : StoreState).ShardStepsOK c.env.channelOf c.env.ctx U c.sha256 E {} (ops ++ [x]) ∧
      ∃ s', s.shardExec c.H c.ord c.sha256 c.env.channelOf c.env.ctx x = .ok s' ∧
        StoreTrie.shardRun c.H c.ord c.sha256 c.env.channelOf c.env.ctx (ops ++ [x]) {} = .ok s' := by
  have hs : ({} : StoreState).ShardStepsOK c.env.channelOf c.env.ctx U c.sha256 E {} (ops ++ [x]) := by
    refine shardStepsOK_snoc ops _ _ h2 ?_
    rw [← shardRun_store ops {} s h1]
    exact hx _
  refine ⟨hs, ?_⟩
  obtain ⟨hch, hU, hord, hE, hmE⟩ := S
  obtain ⟨_, _, _, t, h3, _, _⟩ := shardMirror_run hH hord hch hU hE hmE _
    (shardMirror_init (H := c.H) (channelOf := c.env.channelOf) (ctx := c.env.ctx) (U := U) (sha256 := c.sha256) (E := E)) hs
  refine ⟨t, ?_, h3⟩
  rw [shardTrieRun_append, h1] at h3
  simp only [StoreTrie.shardRun] at h3
  split at h3
  · exact absurd h3 (by simp)
  · rename_i h4
    simp only [Except.ok.injEq] at h3
    rw [h4, h3]

theorem target_of_valid {kind : StoreKind} {m : Msg} (h : kind.Valid m) : ShardCfg.mergeTarget m.ty = some kind := by
  obtain ⟨_, _, _, _, h⟩ := h
  cases kind <;> simp only at h
  · rcases h with h | h <;> (rw [h.1]; rfl)
  · rcases h.1 with h | h <;> (rw [h]; rfl)
  · rcases h.1 with h | h <;> (rw [h]; rfl)
  · rcases h with h | h <;> (rw [h.1]; rfl)
  · rw [h.1]; rfl
  · rw [h.1]; rfl

theorem withdraws_iff (m : Msg) : (m.ty = .lendStorage ∧ ShardCfg.withdraws m = true) ↔ Withdrawal m := by
  unfold Withdrawal ShardCfg.withdraws
  refine and_congr_right (fun _ => ?_)
  cases m.body <;> simp

/-- Removing a message from a store. -/
theorem remove_effect {channelOf : Bytes → Option Bytes} {ctx : Nat → MergeCtx} (hch : ChannelNaming channelOf) (hU : HashesIdentify U)
    {L0 L : StoreKind → List Msg} {st : StoreState} (h : ShardInv channelOf ctx U L0 L st) {kind : StoreKind} {m : Msg} (hm : m ∈ L kind)
    (prune : Bool) :
    (((kind.store channelOf).removeOne prune m st.pend).1 = .ok [if prune then .prune m else .revoke m] ∨
      ((kind.store channelOf).removeOne prune m st.pend).1 = .error .invalidParameter) ∧
    ∃ L', ShardInv channelOf ctx U L0 L' (st.after ((kind.store channelOf).removeOne prune m st.pend)) ∧
      ∀ j x, x ∈ L' j ↔ x ∈ L j ∧ ¬ (j = kind ∧ x = m) := by
  have H := kind_lawful (channelOf := channelOf) kind hch hU
  have key : ∃ s', (((kind.store channelOf).removeOne prune m st.pend) = (.ok [if prune then .prune m else .revoke m], s') ∨
      ((kind.store channelOf).removeOne prune m st.pend) = (.error .invalidParameter, s')) ∧
      (kind.store channelOf).Holds (okIn kind U) ctx ((L kind).filter (fun x => x ≠ m)) (viewOf st.db s'.txn) ∧
      Frame (kind.store channelOf) (okIn kind U) st.view (viewOf st.db s'.txn) := by
    cases prune with
    | true =>
      obtain ⟨s', hr, hh, hf⟩ := pruneMessage_spec H (h kind).holds hm
      exact ⟨s', by rcases hr with hr | hr <;> simp [removeOne, hr], hh, hf⟩
    | false =>
      obtain ⟨s', hr, hh, hf⟩ := revoke_spec H (h kind).holds hm
      exact ⟨s', by rcases hr with hr | hr <;> simp [removeOne, hr], hh, hf⟩
  obtain ⟨s', hr, hh, hf⟩ := key
  have hex : st.after ((kind.store channelOf).removeOne prune m st.pend) = { st with pend := s' } := by
    simp only [StoreState.after]
    rcases hr with hr | hr <;> rw [hr]
  refine ⟨by rcases hr with hr | hr <;> rw [hr] <;> simp, ?_⟩
  rw [hex]
  refine ⟨_, shardInv_pend h kind hh hf, ?_⟩
  intro j x
  by_cases e : j = kind
  · subst e
    simp only [if_true, true_and, List.mem_filter, decide_eq_true_eq, ne_eq]
  · simp [e]

namespace ShardCfg

/-- Everything `merge_message` can do with a well-formed message of the six stores. -/
theorem mergeMessage_effect (S : ShardSetting c.env.channelOf U c.ord c.sha256 E) (hH : ∀ x, c.H x ≠ []) {w : ShardWork R}
    (hw : c.Worked U E w) {kind : StoreKind} {m : Msg} (hv : kind.Valid m) (hu : U m) (b : Bool) :
    (∃ e x w1, (e = .conflict ∧ kind.beats x m ∨ e = .duplicate ∧ x = m) ∧ w.st.store.Has (kind.store c.env.channelOf) x ∧ x.Rivals m ∧
      c.mergeMessage w b m = .ok (w1, .error e) ∧ w1.st = w.st ∧ w1.rest = w.rest ∧ c.Worked U E w1) ∨
    ((∀ x, w.st.store.Has (kind.store c.env.channelOf) x → x.Rivals m → kind.beats m x) ∧
      ((∃ w1, c.mergeMessage w b m = .ok (w1, .error .invalidParameter) ∧ Replaces c.env.channelOf w.st.store w1.st.store kind m True ∧ w1.rest = w.rest) ∨
        ∃ w1 old hs, c.mergeMessage w b m = .ok (w1, .ok (.store (.merge m old) :: hs)) ∧ hs.filterMap reported = [] ∧
          (∀ x, x ∈ old ↔ w.st.store.Has (kind.store c.env.channelOf) x ∧ x.Rivals m) ∧
          Replaces c.env.channelOf w.st.store w1.st.store kind m (¬ Withdrawal m) ∧ (¬ Withdrawal m → c.Worked U E w1) ∧ w1.rest = w.rest)) := by
  have hch := S.naming
  have hU := S.hashes.identify
  obtain ⟨L0, L, hi⟩ := worked_inv S hH hw
  have has := shardInv_has hch hU hi
  obtain ⟨ops, hd, h1, h2⟩ := hw
  have hactE : ∀ e, w.st.store.returned (kind.store c.env.channelOf) c.env.ctx (.merge m) = .error e →
      c.act ⟨w.st.store, [], []⟩ (.step (.call kind (.merge m))) =
        (⟨w.st.store.exec (kind.store c.env.channelOf) c.env.ctx (.merge m), [], [.step (.call kind (.merge m))]⟩, some e) := by
    intro e he; simp [act, storeAct, he]
  have hactO : ∀ es, w.st.store.returned (kind.store c.env.channelOf) c.env.ctx (.merge m) = .ok es →
      c.act ⟨w.st.store, [], []⟩ (.step (.call kind (.merge m))) =
        (⟨w.st.store.exec (kind.store c.env.channelOf) c.env.ctx (.merge m), es, [.step (.call kind (.merge m))]⟩, none) := by
    intro e he; simp [act, storeAct, he]
  rcases merge_effect hch hU hi hv hu with ⟨e, x, hr, hx, hxr, hret, hex⟩ | ⟨hb, hret, L', hi', hL'⟩
  · left
    refine ⟨e, x, { w with st := { w.st with store := w.st.store }, done := w.done.map (· ++ [.step (.call kind (.merge m))]) }, hr, hx, hxr, ?_, rfl, rfl, ?_⟩
    · simp only [mergeMessage, target_of_valid hv, hactE e hret, hex]
      rfl
    · have hok : ∀ o, w.st.store.ShardStepOK c.env.channelOf c.env.ctx U c.sha256 E o (.step (.call kind (.merge m))) := by
        intro o
        refine ⟨⟨hv, hu⟩, ?_⟩
        show w.st.store.returned (kind.store c.env.channelOf) c.env.ctx (.merge m) ≠ _
        rw [hret]
        rcases hr with h | h <;> (rw [h.1]; simp)
      obtain ⟨h3, s', h4, h5⟩ := worked_step S hH h1 h2 hok
      refine ⟨_, by rw [hd]; rfl, ?_, h3⟩
      rw [h5]
      simp only [StoreTrie.shardExec, StoreTrie.exec, hret, hex] at h4
      simp only [eventsOf, List.map_nil, TrieState.updateForEvents, Except.ok.injEq] at h4
      rw [← h4]
  · right
    have hrep : ∀ stays, (stays ↔ True) → Replaces c.env.channelOf w.st.store (w.st.store.exec (kind.store c.env.channelOf) c.env.ctx (.merge m)) kind m stays := by
      intro stays hst j x
      rw [shardInv_has hch hU hi' j x, hL', has j x, hst]
      simp
    refine ⟨hb, ?_⟩
    rcases hret with ⟨old, hret, hold⟩ | hret
    · right
      have hok : ∀ o, w.st.store.ShardStepOK c.env.channelOf c.env.ctx U c.sha256 E o (.step (.call kind (.merge m))) := by
        intro o
        refine ⟨⟨hv, hu⟩, ?_⟩
        show w.st.store.returned (kind.store c.env.channelOf) c.env.ctx (.merge m) ≠ _
        rw [hret]; simp
      obtain ⟨h3, s1, h4, h5⟩ := worked_step S hH h1 h2 hok
      have h4' := h4
      simp only [StoreTrie.shardExec, StoreTrie.exec, hret, eventsOf, List.map_cons, List.map_nil] at h4'
      split at h4'
      · exact absurd h4' (by simp)
      · rename_i t1 ht1
        simp only [Except.ok.injEq] at h4'
        by_cases hwd : m.ty = .lendStorage ∧ withdraws m = true
        · have hkl : kind = .lends := by
            have := target_of_valid hv
            rw [hwd.1] at this
            simpa [mergeTarget] using this.symm
          subst hkl
          have hW := (withdraws_iff m).1 hwd
          have hmL : m ∈ L' .lends := (hL' _ _).2 (.inl ⟨rfl, rfl⟩)
          obtain ⟨hpr, L2, hi2, hL2⟩ := remove_effect hch hU hi' hmL true
          have hrep2 : Replaces c.env.channelOf w.st.store ((w.st.store.exec (StoreKind.lends.store c.env.channelOf) c.env.ctx (.merge m)).after
              ((StoreKind.lends.store c.env.channelOf).removeOne true m (w.st.store.exec (StoreKind.lends.store c.env.channelOf) c.env.ctx (.merge m)).pend))
              .lends m (¬ Withdrawal m) := by
            intro j x
            rw [shardInv_has hch hU hi2 j x, hL2, hL', has j x]
            constructor
            · rintro ⟨h | h, hn⟩
              · exact absurd h hn
              · exact .inr h
            · rintro (⟨_, _, h⟩ | h)
              · exact absurd hW h
              · refine ⟨.inr h, ?_⟩
                rintro ⟨rfl, rfl⟩
                exact h.2 ⟨rfl, rfl, rfl⟩
          have hs1 : s1.store = w.st.store.exec (StoreKind.lends.store c.env.channelOf) c.env.ctx (.merge m) := by rw [← h4']
          rcases hpr with hpr | hpr
          · have hok2 : ∀ o, s1.store.ShardStepOK c.env.channelOf c.env.ctx U c.sha256 E o (.remove .lends true m) := by
              intro o
              rw [hs1]
              refine ⟨(shardInv_has hch hU hi' .lends m).2 hmL, ?_⟩
              rw [hpr]; simp
            obtain ⟨_, s2, h6, _⟩ := worked_step S hH h5 h3 hok2
            simp only [StoreTrie.shardExec, hs1, hpr, eventsOf, if_true, List.map_cons, List.map_nil] at h6
            split at h6
            · exact absurd h6 (by simp)
            · rename_i t2 ht2
              rw [← h4'] at ht2
              refine ⟨{ w with st := ⟨_, t2⟩, done := w.done.map (· ++ [.step (.call .lends (.merge m)), .remove .lends true m]) }, old, [.store (.prune m)], ?_,
                rfl, hold, hrep2, fun h => absurd hW h, rfl⟩
              simp only [mergeMessage, target_of_valid hv, hactO _ hret, if_pos hwd]
              simp only [act, storeAct, hpr]
              unfold settle
              have hu2 : w.st.trie.updateForEvents c.H c.ord c.sha256 ([StoreEvent.merge m old, .prune m].map StoreEvent.hub) = .ok t2 := by
                rw [show [StoreEvent.merge m old, .prune m].map StoreEvent.hub = [StoreEvent.hub (.merge m old)] ++ [StoreEvent.hub (.prune m)] from rfl,
                  updateForEvents_append, ht1]
                exact ht2
              simp only [List.nil_append, List.cons_append, if_true]
              rw [hu2]
              rfl
          · refine ⟨{ w with st := ⟨_, t1⟩, done := w.done.map (· ++ [.step (.call .lends (.merge m)), .remove .lends true m]) }, old, [], ?_,
              rfl, hold, hrep2, fun h => absurd hW h, rfl⟩
            simp only [mergeMessage, target_of_valid hv, hactO _ hret, if_pos hwd]
            simp only [act, storeAct, hpr]
            unfold settle
            simp only [List.nil_append, List.map_cons, List.map_nil]
            rw [ht1]
            rfl
        · refine ⟨{ w with st := ⟨_, t1⟩, done := w.done.map (· ++ [.step (.call kind (.merge m))]) }, old, [], ?_, rfl, hold,
            hrep _ (by rw [← withdraws_iff m]; simp [hwd]), fun _ => ⟨_, by rw [hd]; rfl, h5.trans (congrArg Except.ok h4'.symm), h3⟩, rfl⟩
          simp only [mergeMessage, target_of_valid hv, hactO _ hret, if_neg hwd]
          unfold settle
          simp only [List.nil_append, List.map_cons, List.map_nil]
          rw [ht1]
          rfl
    · left
      refine ⟨{ w with st := ⟨w.st.store.exec (kind.store c.env.channelOf) c.env.ctx (.merge m), w.st.trie⟩, done := w.done.map (· ++ [.step (.call kind (.merge m))]) }, ?_, hrep True Iff.rfl, rfl⟩
      simp only [mergeMessage, target_of_valid hv, hactE _ hret]
      rfl

/-- Revoking a key's messages in several stores. -/
theorem revoke_acts (hch : ChannelNaming c.env.channelOf) (hU : HashesIdentify U) {fid : Nat} {key : Bytes} (hf : fid < 2 ^ 32) :
    ∀ (kinds : List StoreKind) (a : Acted) (L0 L : StoreKind → List Msg), kinds.Nodup → ShardInv c.env.channelOf c.env.ctx U L0 L a.st →
      (∀ k ∈ kinds, a.st.OfSigner (k.store c.env.channelOf) fid key) →
      ∃ a' L' es, c.acts (kinds.map (fun kind => .step (.call kind (.revokeSigner fid key)))) a = (a', none) ∧
        ShardInv c.env.channelOf c.env.ctx U L0 L' a'.st ∧ a'.st.db = a.st.db ∧
        (∀ j x, x ∈ L' j ↔ x ∈ L j ∧ ¬ (j ∈ kinds ∧ x ∈ storedMessages (j.store c.env.channelOf) a.st.db fid ∧ x.signer = key)) ∧
        a'.events = a.events ++ es ∧
        ∀ e ∈ es, ∃ j ∈ kinds, ∃ m ∈ storedMessages (j.store c.env.channelOf) a.st.db fid, m.signer = key ∧ e = .revoke m
  | [], a, L0, L, _, h, _ => ⟨a, L, [], rfl, h, rfl, by simp, by simp, by simp⟩
  | k :: ks, a, L0, L, hnd, h, hs => by
    obtain ⟨⟨es, hret, hes⟩, hdb, L1, h1, hL1⟩ := revokeSigner_effect hch hU h k hf (hs k (by simp))
    have hnd := List.nodup_cons.1 hnd
    have hact : c.act a (.step (.call k (.revokeSigner fid key))) =
        (⟨a.st.exec (k.store c.env.channelOf) c.env.ctx (.revokeSigner fid key), a.events ++ es, a.ops ++ [.step (.call k (.revokeSigner fid key))]⟩, none) := by
      simp [act, storeAct, hret]
    obtain ⟨a', L', es', h2, h3, h4, h5, h6, h7⟩ := revoke_acts (fid := fid) (key := key) hch hU hf ks
        ⟨a.st.exec (k.store c.env.channelOf) c.env.ctx (.revokeSigner fid key), a.events ++ es, a.ops ++ [.step (.call k (.revokeSigner fid key))]⟩ L0 L1 hnd.2 h1 (by
      intro j hj m hm hsg
      refine (shardInv_has hch hU h1 j m).2 ((hL1 j m).2 ?_)
      refine ⟨(shardInv_has hch hU h j m).1 (hs j (by simp [hj]) m hm hsg), ?_⟩
      rintro ⟨rfl, _⟩
      exact hnd.1 hj)
    refine ⟨a', L', es ++ es', ?_, h3, h4, ?_, by rw [h6, List.append_assoc], ?_⟩
    · simp only [List.map_cons, acts, hact]
      exact h2
    · intro j x
      have h5' := h5 j x
      rw [show (a.st.exec (k.store c.env.channelOf) c.env.ctx (.revokeSigner fid key)).db = a.st.db from hdb] at h5'
      rw [h5', hL1]
      by_cases e : j = k
      · subst e
        simp [hnd.1]
      · simp [e]
    · intro e he
      rcases List.mem_append.1 he with he | he
      · obtain ⟨m, hm⟩ := hes e he
        exact ⟨k, by simp, m, hm⟩
      · obtain ⟨j, hj, hm⟩ := h7 e he
        exact ⟨j, by simp [hj], hm⟩

/-- What replaying a verification does. -/
theorem replay_effect (S : ShardSetting c.env.channelOf U c.ord c.sha256 E) (hH : ∀ x, c.H x ≠ []) {w : ShardWork R}
    (hw : c.Worked U E w) {m : Msg} (hv : StoreKind.verifications.Valid m) (hu : U m)
    (hx : ∀ x, w.st.store.Has verificationStore x → x.fid = m.fid → x.hash = m.hash → x = m) (ts : Nat) :
    (c.replayMessage w ts m = .ok (w, none) ∧ (c.ver ts).isEnabled .verificationsOnShardZero = false) ∨
    ((c.ver ts).isEnabled .verificationsOnShardZero = true ∧ ∃ w1, Replaces c.env.channelOf w.st.store w1.st.store .verifications m True ∧ w1.rest = w.rest ∧
      (c.replayMessage w ts m = .ok (w1, none) ∨
        ∃ old, c.replayMessage w ts m = .ok (w1, some ([.store (.merge m old)], some m.ty)) ∧
          (∀ x, x ∈ old ↔ w.st.store.Has verificationStore x ∧ x.Rivals m ∧ x ≠ m) ∧ c.Worked U E w1)) := by
  have hch := S.naming
  have hU := S.hashes.identify
  obtain ⟨L0, L, hi⟩ := worked_inv S hH hw
  have has := shardInv_has hch hU hi
  obtain ⟨ops, hd, h1, h2⟩ := hw
  have hty : m.ty = .verificationAdd ∨ m.ty = .verificationRemove := hv.2.2.2.2.imp And.left And.left
  have hg : replayGate m.ty = some .verificationsOnShardZero := by rcases hty with h | h <;> rw [h] <;> rfl
  have hf : replaysForced m.ty = true := by rcases hty with h | h <;> rw [h] <;> rfl
  by_cases hen : (c.ver ts).isEnabled .verificationsOnShardZero = true
  · right
    refine ⟨hen, ?_⟩
    obtain ⟨hret, L', hi', hL'⟩ := force_effect hch hU hi hv hu hx
    have hrep : Replaces c.env.channelOf w.st.store (w.st.store.exec verificationStore c.env.ctx (.force m)) .verifications m True := by
      intro j x
      rw [shardInv_has hch hU hi' j x, hL', has j x]
      simp
    rcases hret with ⟨old, hret, hold⟩ | hret
    · have hok : ∀ o, w.st.store.ShardStepOK c.env.channelOf c.env.ctx U c.sha256 E o (.step (.call .verifications (.force m))) := by
        intro o
        refine ⟨⟨hv, hu, hx⟩, ?_⟩
        show w.st.store.returned verificationStore c.env.ctx (.force m) ≠ _
        rw [hret]; simp
      obtain ⟨h3, s1, h4, h5⟩ := worked_step S hH h1 h2 hok
      have h4' := h4
      simp only [StoreTrie.shardExec, StoreTrie.exec, StoreKind.store, hret, eventsOf, List.map_cons, List.map_nil] at h4'
      split at h4'
      · exact absurd h4' (by simp)
      · rename_i t1 ht1
        simp only [Except.ok.injEq] at h4'
        refine ⟨{ w with st := ⟨_, t1⟩, done := w.done.map (· ++ [.step (.call .verifications (.force m))]) }, hrep, rfl, .inr ⟨old, ?_, hold,
          _, by rw [hd]; rfl, h5.trans (congrArg Except.ok h4'.symm), h3⟩⟩
        unfold replayMessage
        rw [if_neg (by simp [hg, hen]), if_pos hf]
        simp only [act, storeAct, StoreKind.store, hret]
        unfold settle
        simp only [List.nil_append, List.map_cons, List.map_nil]
        rw [ht1]
        rfl
    · refine ⟨{ w with st := ⟨w.st.store.exec verificationStore c.env.ctx (.force m), w.st.trie⟩, done := w.done.map (· ++ [.step (.call .verifications (.force m))]) },
        hrep, rfl, .inl ?_⟩
      unfold replayMessage
      rw [if_neg (by simp [hg, hen]), if_pos hf]
      simp only [act, storeAct, StoreKind.store, hret]
      rfl
  · left
    refine ⟨?_, by simpa using hen⟩
    unfold replayMessage
    rw [if_pos (by simp [hg, hen])]

end ShardCfg

end
end Verif
