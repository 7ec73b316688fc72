import Verif.Lemmas.StoreRowsOf
import Verif.Case.Store
/-!
C12: pruning removes the oldest messages down to the limit.
-/
namespace Verif
open StoreDef

/-- The messages of a user are listed oldest first. -/
theorem C12_oldest_first (kind : StoreKind) (channelOf : Bytes → Option Bytes) (hch : ChannelNaming channelOf)
    (ctx : Nat → MergeCtx) (U : Msg → Prop) (hU : HashesIdentify U) (ops : List StoreOp)
    (hr : kind.ProperRun channelOf ctx U {} ops) (fid : Nat) (hf : fid < 2 ^ 32) :
    let st := ({} : StoreState).run (kind.store channelOf) ctx ops
    (storedMessages (kind.store channelOf) st.db fid).Pairwise (fun a b => b.newer a) := by
  intro st
  have H := kind_lawful (channelOf := channelOf) kind hch hU
  obtain ⟨L0, L, h⟩ := kind_run kind hch hU ops (kind_init kind) hr
  have hv : ∀ m ∈ storedMessages (kind.store channelOf) st.db fid, okIn kind U m ∧ m.fid = fid := by
    intro m hm
    have := (mem_stored H h.committed hf m).1 hm
    exact ⟨h.committed.valid m this.1, this.2⟩
  refine (stored_sorted H h.committed hf).imp_of_mem ?_
  intro a b ha hb hlt
  obtain ⟨hao, haf⟩ := hv a ha
  obtain ⟨hbo, hbf⟩ := hv b hb
  have hlt' : Bytes.blt (tsh a) (tsh b) = true := by
    simp only [prim, makeMessagePrimaryKey, haf, hbf] at hlt
    rw [Bytes.blt_append_left] at hlt
    simpa [Bytes.blt] using hlt
  unfold tsh at hlt'
  have ha4 : a.ts < 256 ^ 4 := by have := hao.1.2.2.1; omega
  have hb4 : b.ts < 256 ^ 4 := by have := hbo.1.2.2.1; omega
  unfold Msg.newer
  by_cases e : a.ts = b.ts
  · right
    refine ⟨e, ?_⟩
    rw [e, Bytes.blt_append_left] at hlt'
    exact hlt'
  · left
    rcases Bytes.blt_of_append (by simp) hlt' with h | ⟨h, _⟩
    · exact (be_blt_iff ha4 hb4).1 h
    · exact absurd (be_inj ha4 hb4 h) e

/-- Pruning to a limit, when nothing pending touches the messages to go: the events and the
visible messages say that exactly the `count - limit` oldest were removed. -/
theorem C12_prune_oldest (kind : StoreKind) (channelOf : Bytes → Option Bytes) (hch : ChannelNaming channelOf)
    (ctx : Nat → MergeCtx) (U : Msg → Prop) (hU : HashesIdentify U) (ops : List StoreOp)
    (hr : kind.ProperRun channelOf ctx U {} ops) (fid count limit : Nat) (hf : fid < 2 ^ 32)
    (hs : (({} : StoreState).run (kind.store channelOf) ctx ops).Oldest (kind.store channelOf) fid (count - limit))
    (es : List StoreEvent) :
    let D := kind.store channelOf
    let st := ({} : StoreState).run D ctx ops
    (D.pruneMessages st.db fid count limit st.pend).1 = .ok es →
      es = ((storedMessages D st.db fid).take (count - limit)).map .prune ∧
      ∀ m, (st.exec D ctx (.prune fid count limit)).Has D m ↔
        st.Has D m ∧ m ∉ (storedMessages D st.db fid).take (count - limit) := by
  intro D st hes
  have H : D.Lawful (okIn kind U) := kind_lawful kind hch hU
  obtain ⟨L0, L, h⟩ := kind_run kind hch hU ops (kind_init kind) hr
  obtain ⟨n, s', _, hh, hfr, hres⟩ := prune_spec (cur := count) (max := limit) H (kind_set kind).1 h.toPairInv hf hs
  rcases hres with ⟨hres, hn⟩ | hres
  · have hes' : (D.pruneMessages st.db fid count limit st.pend).1 = _ := congrArg Prod.fst hres
    rw [hes'] at hes
    have htake : (storedMessages D st.db fid).take n = (storedMessages D st.db fid).take (count - limit) := by
      have hn' : n = min (storedMessages D st.db fid).length (count - limit) := hn
      by_cases hle : (storedMessages D st.db fid).length ≤ count - limit
      · rw [hn', Nat.min_eq_left hle, List.take_length, List.take_of_length_le hle]
      · rw [hn', Nat.min_eq_right (by omega)]
    have h' := safe_pend h hh hfr
    have hex : st.exec D ctx (.prune fid count limit) = { st with pend := s' } := by
      simp only [StoreState.exec, StoreState.after]
      exact congrArg (fun r : Except HubErr (List StoreEvent) × SSt => { st with pend := r.2 }) hres
    rw [← htake]
    refine ⟨(Except.ok.inj hes).symm, ?_⟩
    intro m
    rw [hex, h'.has_iff H m, List.mem_filter, h.has_iff H m]
    simp
    exact fun _ => Iff.rfl
  · have hes' : (D.pruneMessages st.db fid count limit st.pend).1 = _ := congrArg Prod.fst hres
    rw [hes'] at hes; cases hes

/-- Pruning only fails when the block has run out of event numbers. -/
theorem C12_prune_fails_only (kind : StoreKind) (channelOf : Bytes → Option Bytes) (hch : ChannelNaming channelOf)
    (ctx : Nat → MergeCtx) (U : Msg → Prop) (hU : HashesIdentify U) (ops : List StoreOp)
    (hr : kind.ProperRun channelOf ctx U {} ops) (fid count limit : Nat) (hf : fid < 2 ^ 32)
    (hs : (({} : StoreState).run (kind.store channelOf) ctx ops).Oldest (kind.store channelOf) fid (count - limit)) :
    let D := kind.store channelOf
    let st := ({} : StoreState).run D ctx ops
    (∃ es, (D.pruneMessages st.db fid count limit st.pend).1 = .ok es) ∨
      (D.pruneMessages st.db fid count limit st.pend).1 = .error .invalidParameter := by
  intro D st
  have H : D.Lawful (okIn kind U) := kind_lawful kind hch hU
  obtain ⟨L0, L, h⟩ := kind_run kind hch hU ops (kind_init kind) hr
  obtain ⟨n, s', _, _, _, hres⟩ := prune_spec (cur := count) (max := limit) H (kind_set kind).1 h.toPairInv hf hs
  rcases hres with ⟨hres, _⟩ | hres
  · exact .inl ⟨_, congrArg Prod.fst hres⟩
  · exact .inr (congrArg Prod.fst hres)

/-- From a committed store, pruning to a limit and committing keeps exactly the newest `limit` messages of
the user (all of them when there are fewer) and every message of the other users. -/
theorem C12_committed (kind : StoreKind) (channelOf : Bytes → Option Bytes) (hch : ChannelNaming channelOf)
    (ctx : Nat → MergeCtx) (U : Msg → Prop) (hU : HashesIdentify U) (ops : List StoreOp)
    (hr : kind.ProperRun channelOf ctx U {} ops) (fid limit : Nat) (hf : fid < 2 ^ 32) (es : List StoreEvent) :
    let D := kind.store channelOf
    let st := (({} : StoreState).run D ctx ops).exec D ctx .commit
    let count := (storedMessages D st.db fid).length
    let st' := (st.exec D ctx (.prune fid count limit)).exec D ctx .commit
    (D.pruneMessages st.db fid count limit st.pend).1 = .ok es →
      storedMessages D st'.db fid = (storedMessages D st.db fid).drop (count - limit) ∧
      (storedMessages D st'.db fid).length = min count limit ∧
      ∀ fid' < 2 ^ 32, fid' ≠ fid → storedMessages D st'.db fid' = storedMessages D st.db fid' := by
  intro D st count st' hes
  have H : D.Lawful (okIn kind U) := kind_lawful kind hch hU
  have hproper : kind.ProperRun channelOf ctx U {} (ops ++ [.commit]) := by
    have : ∀ (ops : List StoreOp) (st : StoreState), kind.ProperRun channelOf ctx U st ops →
        kind.ProperRun channelOf ctx U st (ops ++ [.commit]) := by
      intro ops
      induction ops with
      | nil => intro st _; exact ⟨trivial, trivial⟩
      | cons o ops ih => intro st h; exact ⟨h.1, ih _ h.2⟩
    exact this ops {} hr
  have hrun : ({} : StoreState).run D ctx (ops ++ [.commit]) = st := by rw [run_append]; rfl
  have hview : ∀ k, st.view k = st.db.get k := by
    intro k; simp [st, StoreState.exec, StoreState.view, getFromDbOrTxn]
  obtain ⟨L0, L, h⟩ := kind_run kind hch hU ops (kind_init kind) hr
  obtain ⟨L0', L', h1⟩ := kind_step (o := .commit) kind hch hU h trivial
  have hcom : D.Holds (okIn kind U) ctx L' (viewOf st.db OMap.empty) :=
    h1.holds.congr (fun k _ => by
      rw [hview]
      simp [viewOf, getFromDbOrTxn])
  have hmem : ∀ f < 2 ^ 32, ∀ m, m ∈ storedMessages D st.db f ↔ m ∈ L' ∧ m.fid = f :=
    fun f hf m => mem_stored H hcom hf m
  have hset : st.Oldest D fid (count - limit) := by
    intro m hm
    have hm := List.mem_of_mem_take hm
    exact (h1.has_iff H m).2 ((hmem fid hf m).1 hm).1
  have hp := C12_prune_oldest kind channelOf hch ctx U hU (ops ++ [.commit]) hproper fid count limit hf
    (by rw [hrun]; exact hset) es
  simp only at hp
  rw [hrun] at hp
  obtain ⟨_, hhas⟩ := hp hes
  have hst1 : kind.Proper channelOf U st (.prune fid count limit) := ⟨hf, hset⟩
  obtain ⟨L2', L2, h2⟩ := kind_step (o := .prune fid count limit) kind hch hU h1 hst1
  obtain ⟨L3', L3, h3⟩ := kind_step (o := .commit) kind hch hU h2 trivial
  have hview' : ∀ k, st'.view k = st'.db.get k := by
    intro k; simp [st', StoreState.exec, StoreState.view, getFromDbOrTxn]
  have hcom' : D.Holds (okIn kind U) ctx L3 (viewOf st'.db OMap.empty) :=
    h3.holds.congr (fun k _ => by
      rw [hview']
      simp [viewOf, getFromDbOrTxn])
  have hL3 : ∀ m, m ∈ L3 ↔ m ∈ L' ∧ m ∉ (storedMessages D st.db fid).take (count - limit) := by
    intro m
    rw [← h3.has_iff H m, ← h1.has_iff H m]
    have : st'.Has D m ↔ (st.exec D ctx (.prune fid count limit)).Has D m := by
      unfold StoreState.Has
      rw [view_commit]
    exact this.trans (hhas m)
  have hmem' : ∀ f < 2 ^ 32, ∀ m, m ∈ storedMessages D st'.db f ↔ m ∈ L3 ∧ m.fid = f :=
    fun f hf m => mem_stored H hcom' hf m
  have heq : ∀ {l l' : List Msg}, l.Pairwise (fun a b => Bytes.blt (D.prim a) (D.prim b) = true) →
      l'.Pairwise (fun a b => Bytes.blt (D.prim a) (D.prim b) = true) → (∀ m, m ∈ l ↔ m ∈ l') → l = l' := by
    intro l l' hl hl' hm
    have nd : ∀ {l : List Msg}, l.Pairwise (fun a b => Bytes.blt (D.prim a) (D.prim b) = true) → l.Nodup := by
      intro l hl
      refine hl.imp ?_
      intro a b hab e
      rw [e, Bytes.blt_irrefl] at hab; cases hab
    have hp := (List.perm_ext_iff_of_nodup (nd hl) (nd hl')).2 hm
    refine hp.eq_of_pairwise (fun a b _ _ h1 h2 => ?_) hl hl'
    have := Bytes.blt_trans h1 h2
    rw [Bytes.blt_irrefl] at this; cases this
  have hsorted := stored_sorted H hcom hf
  have hnd := stored_nodup H hcom hf
  have hdrop : storedMessages D st'.db fid = (storedMessages D st.db fid).drop (count - limit) := by
    refine heq (stored_sorted H hcom' hf) (hsorted.sublist (List.drop_sublist _ _)) ?_
    intro m
    rw [hmem' fid hf, hL3]
    have hsplit := List.take_append_drop (count - limit) (storedMessages D st.db fid)
    have hnd' := hnd
    rw [← hsplit, List.nodup_append] at hnd'
    constructor
    · rintro ⟨⟨a, b⟩, c⟩
      have : m ∈ storedMessages D st.db fid := (hmem fid hf m).2 ⟨a, c⟩
      rw [← hsplit, List.mem_append] at this
      exact this.resolve_left b
    · intro hm
      have hm' := (hmem fid hf m).1 (List.drop_subset _ _ hm)
      exact ⟨⟨hm'.1, fun ht => hnd'.2.2 m ht m hm rfl⟩, hm'.2⟩
  refine ⟨hdrop, ?_, ?_⟩
  · rw [hdrop, List.length_drop]
    show count - (count - limit) = min count limit
    omega
  · intro f' hf' hne
    refine heq (stored_sorted H hcom' hf') (stored_sorted H hcom hf') ?_
    intro m
    rw [hmem' f' hf', hmem f' hf', hL3]
    constructor
    · rintro ⟨⟨a, _⟩, c⟩; exact ⟨a, c⟩
    · rintro ⟨a, c⟩
      refine ⟨⟨a, fun ht => hne ?_⟩, c⟩
      rw [← c]
      exact ((hmem fid hf m).1 (List.take_subset _ _ ht)).2

/-- Three links, limit 2: the oldest goes. -/
example :
    let st := ({} : StoreState).run linkStore Case.allOn [.merge Case.follow8, .merge Case.follow9, .commit]
    StoreKind.links.ProperRun Case.noChannels Case.allOn (· ∈ Case.links) {} [.merge Case.follow8, .merge Case.follow9] ∧
    storedMessages linkStore st.db 7 = [Case.follow8, Case.follow9] ∧
    (linkStore.pruneMessages st.db 7 2 1 st.pend).1 = .ok [.prune Case.follow8] := by
  have v := Case.links_valid
  exact ⟨⟨⟨v _ (by decide), by decide⟩, ⟨v _ (by decide), by decide⟩, trivial⟩, by decide +kernel, by decide +kernel⟩

/-- Pruning in the same block as a replacement.  Follows of 8 and 9 are committed.  A block then replaces
the follow of 8 and prunes to one message.  Pruning meets the replaced message: it counts it as pruned, so
two messages remain although the limit is one, and it deletes the item row of its replacement, so the new
follow of 8 is stored but no longer found.  The old follow of 8 is then accepted again. -/
theorem C12_same_block_replacement :
    let st := ({} : StoreState).run linkStore Case.allOn
      [.merge Case.follow8, .merge Case.follow9, .commit, .merge Case.refollow8, .prune 7 2 1, .commit]
    storedMessages linkStore st.db 7 = [Case.follow9, Case.refollow8] ∧
    linkStore.getAdd st.db st.pend.txn Case.follow8 = .ok none ∧
    (linkStore.merge st.db {} Case.follow8 st.pend).1 = .ok (.merge Case.follow8 []) := by
  refine ⟨?_, ?_, ?_⟩ <;> decide +kernel

end Verif
