import Verif.Model.ShardEngine
import Verif.Lemmas.EngineKeep
import Verif.Lemmas.ShardTrie
/-! What the engine does to the stores and the trie is a history of `Model/ShardTrie`. -/
namespace Verif
open Spec

section
variable {H : Bytes → Bytes} {ord : List UInt8 → List UInt8} {sha256 : Bytes → Bytes} {channelOf : Bytes → Option Bytes} {ctx : Nat → MergeCtx}

theorem shardTrieRun_append : ∀ (a b : List ShardTrieOp) (s : StoreTrie),
    StoreTrie.shardRun H ord sha256 channelOf ctx (a ++ b) s =
      match StoreTrie.shardRun H ord sha256 channelOf ctx a s with
      | .error e => .error e
      | .ok s' => StoreTrie.shardRun H ord sha256 channelOf ctx b s'
  | [], b, s => rfl
  | o :: a, b, s => by
    simp only [List.cons_append, StoreTrie.shardRun]
    split
    · rfl
    · exact shardTrieRun_append a b _

theorem shardTrieRun_snoc {a : List ShardTrieOp} {b : ShardTrieOp} {s s1 s2 : StoreTrie}
    (h1 : StoreTrie.shardRun H ord sha256 channelOf ctx a s = .ok s1) (h2 : s1.shardExec H ord sha256 channelOf ctx b = .ok s2) :
    StoreTrie.shardRun H ord sha256 channelOf ctx (a ++ [b]) s = .ok s2 := by
  rw [shardTrieRun_append, h1]
  simp only [StoreTrie.shardRun, h2]

theorem updateForEvents_append : ∀ (a b : List TrieEvent) (t : TrieState),
    TrieState.updateForEvents H ord sha256 (a ++ b) t =
      match TrieState.updateForEvents H ord sha256 a t with
      | .error e => .error e
      | .ok t' => TrieState.updateForEvents H ord sha256 b t'
  | [], b, t => rfl
  | e :: a, b, t => by
    simp only [List.cons_append, TrieState.updateForEvents]
    split
    · rfl
    · exact updateForEvents_append a b _
end

namespace ShardCfg
variable {R F : Type} {c : ShardCfg R F}

/-- The record says what happened. -/
def Told (c : ShardCfg R F) (w : ShardWork R) : Prop :=
  ∀ ops, w.done = some ops → StoreTrie.shardRun c.H c.ord c.sha256 c.env.channelOf c.env.ctx ops {} = .ok w.st

/-- A call to a store. -/
def IsCall : ShardTrieOp → Bool
  | .step (.call _ .commit) | .step (.call _ .drop) => false
  | .step (.call _ _) => true
  | .remove _ _ _ => true
  | _ => false

/-- The calls made so far, as steps. -/
def Follows (c : ShardCfg R F) (s : StoreTrie) (a : Acted) : Prop :=
  ∀ t, s.trie.updateForEvents c.H c.ord c.sha256 (a.events.map StoreEvent.hub) = .ok t →
    StoreTrie.shardRun c.H c.ord c.sha256 c.env.channelOf c.env.ctx a.ops s = .ok ⟨a.st, t⟩

theorem follows_none (s : StoreTrie) : Follows c s ⟨s.store, [], []⟩ := by
  intro t h
  simp only [List.map_nil, TrieState.updateForEvents, Except.ok.injEq] at h
  subst h; rfl

theorem exec_storeAct {s : StoreTrie} {o : ShardTrieOp} (ho : IsCall o = true) {t : TrieState}
    (h : s.trie.updateForEvents c.H c.ord c.sha256 ((eventsOf (c.storeAct s.store o).1).map StoreEvent.hub) = .ok t) :
    s.shardExec c.H c.ord c.sha256 c.env.channelOf c.env.ctx o = .ok ⟨(c.storeAct s.store o).2, t⟩ := by
  cases o with
  | other e => simp [IsCall] at ho
  | remove kind prune m =>
    simp only [storeAct] at h ⊢
    simp only [StoreTrie.shardExec, h]
  | step x =>
    cases x with
    | put k v => simp [IsCall] at ho
    | del k => simp [IsCall] at ho
    | call kind o =>
      simp only [storeAct] at h ⊢
      cases o with
      | commit => simp [IsCall] at ho
      | drop => simp [IsCall] at ho
      | _ => simp only [StoreTrie.shardExec, StoreTrie.exec, h]

theorem follows_act {s : StoreTrie} {a : Acted} {o : ShardTrieOp} (ho : IsCall o = true) (ha : Follows c s a) :
    Follows c s (c.act a o).1 := by
  intro t h
  unfold act at h ⊢
  split at h <;> rename_i st hr
  · simp only [List.map_append] at h
    rw [updateForEvents_append] at h
    split at h
    · exact absurd h (by simp)
    · rename_i t1 h1
      exact shardTrieRun_snoc (ha t1 h1) (by
        have := exec_storeAct (c := c) (o := o) ho (s := ⟨a.st, t1⟩) (t := t) (by rw [hr]; exact h)
        rw [this, hr])
  · exact shardTrieRun_snoc (ha t h) (by
      have := exec_storeAct (c := c) (o := o) ho (s := ⟨a.st, t⟩) (t := t) (by rw [hr]; rfl)
      rw [this, hr])

theorem follows_acts {s : StoreTrie} : ∀ (os : List ShardTrieOp) (a : Acted), (∀ o ∈ os, IsCall o = true) → Follows c s a →
    Follows c s (c.acts os a).1
  | [], a, _, ha => ha
  | o :: os, a, ho, ha => by
    have h1 := follows_act (ho o (by simp)) ha
    simp only [acts]
    split <;> rename_i hr
    · rw [hr] at h1; exact follows_acts os _ (fun o h => ho o (by simp [h])) h1
    · rw [hr] at h1; exact h1

theorem told_settle {w w' : ShardWork R} {a : Acted} {err : Option HubErr} {hs : List ShardHub} (hw : Told c w)
    (ha : Follows c w.st a) (h : c.settle w a err = .ok (w', hs)) : Told c w' := by
  unfold settle at h
  split at h
  · simp only [Except.ok.injEq, Prod.mk.injEq] at h
    obtain ⟨h, _⟩ := h
    subst h
    intro ops hops
    simp only at hops ⊢
    split at hops
    · rename_i he
      simp only [Option.map_eq_some_iff] at hops
      obtain ⟨l, hl, rfl⟩ := hops
      rw [shardTrieRun_append, hw l hl]
      simp only
      refine ha w.st.trie ?_
      rw [List.isEmpty_iff.1 he]; rfl
    · exact absurd hops (by simp)
  · split at h
    · exact absurd h (by simp)
    · rename_i t ht
      simp only [Except.ok.injEq, Prod.mk.injEq] at h
      obtain ⟨h, _⟩ := h
      subst h
      intro ops hops
      simp only [Option.map_eq_some_iff] at hops ⊢
      obtain ⟨l, hl, rfl⟩ := hops
      rw [shardTrieRun_append, hw l hl]
      exact ha t ht

theorem told_rest {w : ShardWork R} (hw : Told c w) (r : R) : Told c { w with rest := r } := hw

theorem told_other {w w' : ShardWork R} {e : TrieEvent} {hs : List ShardHub} (hw : Told c w) (h : c.other w e = .ok (w', hs)) :
    Told c w' := by
  unfold other at h
  split at h
  · exact absurd h (by simp)
  · rename_i t ht
    simp only [Except.ok.injEq, Prod.mk.injEq] at h
    obtain ⟨h, _⟩ := h
    subst h
    intro ops hops
    simp only [Option.map_eq_some_iff] at hops ⊢
    obtain ⟨l, hl, rfl⟩ := hops
    exact shardTrieRun_snoc (hw l hl) (by simp only [StoreTrie.shardExec, ht])

theorem told_others : ∀ (es : List TrieEvent) (w w' : ShardWork R) (hs hs' : List ShardHub), Told c w →
    c.others es w hs = .ok (w', hs') → Told c w'
  | [], w, w', hs, hs', hw, h => by
    simp only [others, Except.ok.injEq, Prod.mk.injEq] at h
    exact h.1 ▸ hw
  | e :: es, w, w', hs, hs', hw, h => by
    simp only [others] at h
    split at h
    · exact absurd h (by simp)
    · rename_i w1 hs1 h1
      exact told_others es w1 w' _ hs' (told_other hw h1) h

theorem told_onchain {w w' : ShardWork R} {e : OEvent} {r : Option ShardHub} (hw : Told c w) (h : c.doOnchain w e = .ok (w', r)) :
    Told c w' := by
  unfold doOnchain at h
  split at h
  · simp only [Except.ok.injEq, Prod.mk.injEq] at h
    exact h.1 ▸ told_rest hw _
  · split at h
    · exact absurd h (by simp)
    · rename_i h1
      simp only [Except.ok.injEq, Prod.mk.injEq] at h
      exact h.1 ▸ told_other (told_rest hw _) h1

theorem told_revokeName {w w' : ShardWork R} {n : Nat} {r : List ShardHub} (hw : Told c w) (h : c.revokeName w n = .ok (w', r)) :
    Told c w' := by
  unfold revokeName at h
  split at h
  · split at h
    · exact told_settle hw (follows_act rfl (follows_none _)) h
    · simp only [Except.ok.injEq, Prod.mk.injEq] at h
      exact h.1 ▸ hw
  · simp only [Except.ok.injEq, Prod.mk.injEq] at h
    exact h.1 ▸ hw

theorem told_fname {w w' : ShardWork R} {f : F} {r : List ShardHub} (hw : Told c w) (h : c.doFname w f = .ok (w', r)) : Told c w' := by
  unfold doFname at h
  split at h
  · simp only [Except.ok.injEq, Prod.mk.injEq] at h
    exact h.1 ▸ told_rest hw _
  · split at h
    · exact absurd h (by simp)
    · rename_i h1
      have t1 := told_others _ _ _ _ _ (told_rest hw _) h1
      split at h
      · exact absurd h (by simp)
      · rename_i h2
        simp only [Except.ok.injEq, Prod.mk.injEq] at h
        exact h.1 ▸ told_revokeName t1 h2

theorem told_merge {w w' : ShardWork R} {b : Bool} {m : Msg} {r : Except HubErr (List ShardHub)} (hw : Told c w)
    (h : c.mergeMessage w b m = .ok (w', r)) : Told c w' := by
  unfold mergeMessage at h
  split at h
  · rename_i kind _
    have f1 : Follows c w.st (c.act ⟨w.st.store, [], []⟩ (.step (.call kind (.merge m)))).1 :=
      follows_act rfl (follows_none _)
    split at h <;> rename_i hr
    · rw [hr] at f1
      split at h
      · exact absurd h (by simp)
      · rename_i h1
        simp only [Except.ok.injEq, Prod.mk.injEq] at h
        exact h.1 ▸ told_settle hw f1 h1
    · rw [hr] at f1
      simp only at h
      split at h
      · exact absurd h (by simp)
      · rename_i h1
        simp only [Except.ok.injEq, Prod.mk.injEq] at h
        refine h.1 ▸ told_settle hw ?_ h1
        split
        · exact follows_act rfl f1
        · exact f1
  · split at h
    · simp only [Except.ok.injEq, Prod.mk.injEq] at h
      exact h.1 ▸ told_rest hw _
    · split at h
      · exact absurd h (by simp)
      · rename_i h1
        simp only [Except.ok.injEq, Prod.mk.injEq] at h
        exact h.1 ▸ told_others _ _ _ _ _ (told_rest hw _) h1

theorem told_user {v : EngineVersion} {ts : Nat} {w w' : ShardWork R} {m : Msg} {r : List ShardHub × Option HubErr} (hw : Told c w)
    (h : c.doUser v ts w m = .ok (w', r)) : Told c w' := by
  unfold doUser at h
  split at h
  · simp only [Except.ok.injEq, Prod.mk.injEq] at h
    exact h.1 ▸ told_rest hw _
  · split at h
    · exact absurd h (by simp)
    all_goals
      rename_i h1
      simp only [Except.ok.injEq, Prod.mk.injEq] at h
      exact h.1 ▸ told_merge (told_rest hw _) h1

theorem told_replay {ts : Nat} {w w' : ShardWork R} {m : Msg} {r : Option (List ShardHub × Option MessageType)} (hw : Told c w)
    (h : c.replayMessage w ts m = .ok (w', r)) : Told c w' := by
  unfold replayMessage at h
  split at h
  · simp only [Except.ok.injEq, Prod.mk.injEq] at h
    exact h.1 ▸ hw
  · split at h
    · simp only at h
      split at h
      · exact absurd h (by simp)
      · rename_i h1
        simp only [Except.ok.injEq, Prod.mk.injEq] at h
        exact h.1 ▸ told_settle hw (follows_act rfl (follows_none _)) h1
    · split at h
      · exact absurd h (by simp)
      all_goals
        rename_i h1
        simp only [Except.ok.injEq, Prod.mk.injEq] at h
        exact h.1 ▸ told_merge hw h1

theorem told_blockEvent {w w' : ShardWork R} {b : BEvent} {r : Option (List ShardHub × Option MessageType)} (hw : Told c w)
    (h : c.doBlockEvent w b = .ok (w', r)) : Told c w' := by
  unfold doBlockEvent at h
  split at h
  · simp only [Except.ok.injEq, Prod.mk.injEq] at h
    exact h.1 ▸ hw
  · split at h
    · exact told_replay hw h
    · split at h
      · simp only [Except.ok.injEq, Prod.mk.injEq] at h
        exact h.1 ▸ hw
      · split at h
        · simp only [Except.ok.injEq, Prod.mk.injEq] at h
          exact h.1 ▸ hw
        · split at h
          all_goals
            simp only [Except.ok.injEq, Prod.mk.injEq] at h
            exact h.1 ▸ told_rest hw _
    all_goals
      simp only [Except.ok.injEq, Prod.mk.injEq] at h
      exact h.1 ▸ hw

theorem told_revoke {w w' : ShardWork R} {n : Nat} {k : Bytes} {r : List ShardHub} (hw : Told c w) (h : c.doRevoke w n k = .ok (w', r)) :
    Told c w' := by
  refine told_settle hw (follows_acts _ _ ?_ (follows_none _)) h
  intro o ho
  simp only [List.mem_map] at ho
  obtain ⟨_, _, rfl⟩ := ho
  rfl

theorem told_prune {cl : Nat} {v : EngineVersion} {w w' : ShardWork R} {n : Nat} {ty : MessageType} {r : List ShardHub} (hw : Told c w)
    (h : c.doPrune cl v w n ty = .ok (w', r)) : Told c w' := by
  unfold doPrune at h
  split at h
  · simp only [Except.ok.injEq, Prod.mk.injEq] at h
    exact h.1 ▸ hw
  · simp only at h
    split at h
    · exact told_settle hw (follows_act rfl (follows_none _)) h
    · split at h
      · exact told_others _ _ _ _ _ (told_rest hw _) h
      · simp only [Except.ok.injEq, Prod.mk.injEq] at h
        exact h.1 ▸ hw

theorem told_sideEffects {v : EngineVersion} {w w' : ShardWork R} {hs r : List ShardHub} (hw : Told c w)
    (h : c.doSideEffects v w hs = .ok (w', r)) : Told c w' := by
  unfold doSideEffects at h
  split at h
  · refine told_settle hw (follows_acts _ _ ?_ (follows_none _)) h
    intro o ho
    simp only [List.mem_map] at ho
    obtain ⟨_, _, rfl⟩ := ho
    rfl
  · simp only [Except.ok.injEq, Prod.mk.injEq] at h
    exact h.1 ▸ hw

theorem told_begin {d : ShardWork R} (hd : Told c d) (h : Nat) : Told c (c.begin d h) := by
  intro ops hops
  simp only [begin, Option.map_eq_some_iff] at hops ⊢
  obtain ⟨l, hl, rfl⟩ := hops
  exact shardTrieRun_snoc (hd l hl) rfl

theorem told_finish {w w' : ShardWork R} (hw : Told c w) (h : c.finish w = some w') : Told c w' := by
  unfold finish at h
  split at h
  · exact absurd h (by simp)
  · rename_i t ht
    simp only [Option.some.injEq] at h
    subst h
    intro ops hops
    simp only [Option.map_eq_some_iff] at hops ⊢
    obtain ⟨l, hl, rfl⟩ := hops
    exact shardTrieRun_snoc (hw l hl) (by simp only [StoreTrie.shardExec, StoreTrie.exec, ht]; rfl)

theorem told_keeps (c : ShardCfg R F) : Keeps c.ops (fun _ _ _ => True) (fun _ => True) (fun _ => True) (Told c) (Told c) where
  start := fun _ h hd => told_begin hd h
  onchain := fun _ _ _ _ _ _ _ hw h => told_onchain hw h
  fname := fun _ _ _ _ _ hw h => told_fname hw h
  blockEvent := fun _ _ _ _ _ _ _ hw h => told_blockEvent hw h
  revoke := fun _ _ _ _ _ _ hw h => told_revoke hw h
  user := fun _ _ _ _ _ _ _ _ hw h => told_user hw h
  prune := fun _ _ _ _ _ _ _ _ hw h => told_prune hw h
  sideEffects := fun _ _ _ _ _ _ hw h => told_sideEffects hw h
  write := fun _ _ _ _ _ _ hw h => told_finish hw h

theorem told_fresh (r : R) : Told c (fresh r : EngineState (ShardWork R) (ShardWork R) ShardHub F).d := by
  intro ops h
  simp only [fresh, Option.some.injEq] at h
  subst h; rfl

end ShardCfg
end Verif
