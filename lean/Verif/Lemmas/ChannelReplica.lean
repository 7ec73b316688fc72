import Verif.Lemmas.ChannelReplay
import Verif.Spec.ChannelReplica
/-!
A data shard that follows the events of shard 0 merges every channel message.
-/
namespace Verif

variable {U : Msg → Prop} {caps : SlotCaps}

/-- Each of these messages was merged somewhere after those before it. -/
def Chain (U : Msg → Prop) (caps : SlotCaps) (base l : List Msg) : Prop :=
  ∀ pre m post, l = pre ++ m :: post → U m ∧ m.ts < 2 ^ 32 ∧ ∃ (db : Db SVal) (st : SSt) (w : Bool) (K : ChanKind) (e : StoreEvent) (q : SSt),
    ChanInv U caps (pre.reverse ++ base) (viewOf db st.txn) ∧ mergeSlot K caps db w m st = (.ok e, q)

theorem chain_cons {base l : List Msg} {m : Msg} (hm : U m) (ht : m.ts < 2 ^ 32) {db : Db SVal} {st q : SSt} {w : Bool} {K : ChanKind}
    {e : StoreEvent} (hi : ChanInv U caps base (viewOf db st.txn)) (h : mergeSlot K caps db w m st = (.ok e, q))
    (hl : Chain U caps (m :: base) l) : Chain U caps base (m :: l) := by
  intro pre x post he
  cases pre with
  | nil =>
    simp only [List.nil_append, List.cons.injEq] at he
    obtain ⟨rfl, rfl⟩ := he
    exact ⟨hm, ht, db, st, w, K, e, q, hi, h⟩
  | cons y pre =>
    simp only [List.cons_append, List.cons.injEq] at he
    obtain ⟨rfl, rfl⟩ := he
    obtain ⟨h1, h2, db', st', w', K', e', q', h3, h4⟩ := hl pre x post rfl
    exact ⟨h1, h2, db', st', w', K', e', q', by simpa using h3, h4⟩

/-- The messages admitted by a node of shard 0. -/
theorem chain_run (hU : HashesIdentify U) : ∀ (ops : List ChanOp) (n : ChanNode), NodeInv U caps n →
    (∀ o ∈ ops, o.Fair U ∧ o.OnShardZero ∧ o ≠ .drop) →
    ∃ told, (n.run caps ops).log = told.reverse ++ n.log ∧ Chain U caps n.log told
  | [], n, _, _ => ⟨[], rfl, fun pre m post h => by simp at h⟩
  | o :: l, n, hi, hf => by
    have ho := hf o (by simp)
    obtain ⟨told, h1, h2⟩ := chain_run hU l (n.exec caps o) (node_step hU hi ho.1) (fun x hx => hf x (by simp [hx]))
    have hsame : (n.exec caps o).log = n.log → ∃ told, (n.run caps (o :: l)).log = told.reverse ++ n.log ∧ Chain U caps n.log told := by
      intro e
      rw [e] at h1 h2
      exact ⟨told, h1, h2⟩
    cases o with
    | submit owner m =>
      cases hr : submitChannel caps n.st.db owner m n.st.pend with
      | mk r q =>
        have hex : n.exec caps (.submit owner m) = n.after m (r, q) := by
          show n.after m (submitChannel caps n.st.db owner m n.st.pend) = _
          rw [hr]
        cases r with
        | error e => exact hsame (by rw [hex]; rfl)
        | ok e =>
          have hlog : (n.exec caps (.submit owner m)).log = m :: n.log := by rw [hex]; rfl
          rw [hlog] at h1 h2
          rcases submit_cases (caps := caps) (db := n.st.db) (owner := owner) (m := m) (st := n.st.pend) with ⟨K, _, h'⟩ | ⟨e', h'⟩
          · rw [hr] at h'
            exact ⟨m :: told, by rw [List.reverse_cons, List.append_assoc]; exact h1, chain_cons ho.1.1 ho.1.2 hi.now h'.symm h2⟩
          · rw [hr] at h'; cases h'
    | merge K w m => exact ho.2.1.elim
    | drop => exact absurd rfl ho.2.2
    | other k v => exact hsame rfl
    | commit => exact hsame rfl
    | block h => exact hsame rfl
    | numbers g => exact hsame rfl

theorem ofType_good {m : Msg} {s : ChanSlot} (h : ChanGood m s) : ChanKind.ofType m.ty = some s.kind := by
  rw [h.ty]; cases s <;> rfl

/-- The channel messages of some events. -/
def chanMsgs (es : List BEvent) : List Msg := es.filterMap BEvent.channelMessage

theorem ofType_iff {t : MessageType} : (∃ K, ChanKind.ofType t = some K) ↔
    (t = .channelUpdate ∨ t = .channelMember ∨ t = .channelPin ∨ t = .channelModerate) := by
  cases t <;> simp [ChanKind.ofType]

/-- An event reaches the channel stores exactly if it carries a channel message and the feature is on. -/
theorem chanReplay_message {ver : Nat → EngineVersion} {db : Db SVal} {e : BEvent} {s : SSt} {m : Msg} {d : BData} (hm : e.channelMessage = some m)
    (hd : e.data = some d) (hv : (ver d.ts).isEnabled .channelMessages = true) {K : ChanKind} (hK : ChanKind.ofType m.ty = some K) :
    replayChannelEvent ver caps db e s = some (m, mergeSlot K caps db true m s) := by
  unfold BEvent.channelMessage at hm
  rw [hd] at hm
  simp only [Option.bind_some] at hm
  unfold replayChannelEvent
  rw [hd]
  simp only
  split at hm
  · rename_i m' hb
    split at hm
    · cases hm
      rw [hb]
      simp only [hK, hv, if_true]
    · cases hm
  · cases hm

theorem chanReplay_none {ver : Nat → EngineVersion} {db : Db SVal} {e : BEvent} {s : SSt} (hm : e.channelMessage = none) :
    replayChannelEvent ver caps db e s = none := by
  unfold replayChannelEvent
  split
  · rfl
  · rename_i d hd
    split
    · rename_i m hb
      split
      · rfl
      · rename_i K hK
        exfalso
        unfold BEvent.channelMessage at hm
        rw [hd] at hm
        simp only [Option.bind_some, hb] at hm
        rw [if_pos (ofType_iff.1 ⟨K, hK⟩)] at hm
        cases hm
    · rfl

/-- The state of a data shard that follows. -/
structure ReplicaInv (U : Msg → Prop) (caps : SlotCaps) (all : List BEvent) (r : ChanReplica) : Prop where
  inv : NodeInv U caps r.node
  log : r.node.log = (chanMsgs r.heard).reverse
  saved : r.node.saved = (chanMsgs r.kept).reverse
  heard : r.heard <+: all
  kept : r.kept <+: all
  refused : r.refused = []

theorem chanReplica_init {all : List BEvent} : ReplicaInv U caps all {} :=
  ⟨node_init, rfl, rfl, List.nil_prefix, List.nil_prefix, rfl⟩

theorem prefix_next {α : Type} {l all : List α} {e : α} (h : l <+: all) (he : all[l.length]? = some e) : ∃ post, all = l ++ e :: post := by
  obtain ⟨t, rfl⟩ := h
  cases t with
  | nil => simp at he
  | cons x t => simp at he; exact ⟨t, by rw [he]⟩

theorem replica_event {ver : Nat → EngineVersion} {all : List BEvent} (hU : HashesIdentify U) (hc : Chain U caps [] (chanMsgs all))
    (hg : ∀ e ∈ all, ∀ m, e.channelMessage = some m → ∃ d, e.data = some d ∧ (ver d.ts).isEnabled .channelMessages = true)
    {r : ChanReplica} (h : ReplicaInv U caps all r) {e : BEvent} (he : all[r.heard.length]? = some e) (hn : r.node.st.pend.gen.HasNext) :
    ReplicaInv U caps all (r.exec ver caps (.event e)) := by
  obtain ⟨post, hall⟩ := prefix_next h.heard he
  have hpre : r.heard ++ [e] <+: all := ⟨post, by rw [hall]; simp⟩
  cases hm : e.channelMessage with
  | none =>
    have hch : chanMsgs (r.heard ++ [e]) = chanMsgs r.heard := by simp [chanMsgs, hm]
    unfold ChanReplica.exec
    simp only [chanReplay_none hm]
    exact ⟨h.inv, by rw [h.log]; exact congrArg List.reverse hch.symm, h.saved, hpre, h.kept, h.refused⟩
  | some m =>
    have hch : chanMsgs (r.heard ++ [e]) = chanMsgs r.heard ++ [m] := by simp [chanMsgs, hm]
    obtain ⟨d, hd, hv⟩ := hg e (by rw [hall]; simp) m hm
    obtain ⟨h1, h2, db, st, w, K, ev, q, h3, h4⟩ := hc (chanMsgs r.heard) m (chanMsgs post) (by rw [hall]; simp [chanMsgs, hm])
    rw [List.append_nil, ← h.log] at h3
    obtain ⟨s, hgood, rfl, _⟩ := mergeSlot_ok h3 h2 h4
    obtain ⟨ev', q', h5⟩ := mergeSlot_replays (w' := true) h3 h.inv.now h2 h4 hn
    unfold ChanReplica.exec
    simp only [chanReplay_message hm hd hv (ofType_good hgood), h5]
    refine ⟨⟨?_, h.inv.saved⟩, ?_, h.saved, hpre, h.kept, h.refused⟩
    · exact chan_merge hU h.inv.now h1 h2 h5
    · show m :: r.node.log = _
      rw [hch, h.log]; simp

theorem replica_run {ver : Nat → EngineVersion} {all : List BEvent} (hU : HashesIdentify U) (hc : Chain U caps [] (chanMsgs all))
    (hg : ∀ e ∈ all, ∀ m, e.channelMessage = some m → ∃ d, e.data = some d ∧ (ver d.ts).isEnabled .channelMessages = true) :
    ∀ (ops : List ReplicaOp) (r : ChanReplica), ReplicaInv U caps all r → ChanReplica.Follows ver caps all r ops →
      ReplicaInv U caps all (r.run ver caps ops)
  | [], r, h, _ => h
  | o :: l, r, h, hf => by
    cases o with
    | event e => exact replica_run hU hc hg l _ (replica_event hU hc hg h hf.1 hf.2.1) hf.2.2
    | other k v =>
      have hi := node_step (op := .other k v) hU h.inv hf.1
      exact replica_run hU hc hg l _ ⟨hi, h.log, h.saved, h.heard, h.kept, h.refused⟩ hf.2
    | commit =>
      have hi := node_step (op := .commit) hU h.inv trivial
      exact replica_run hU hc hg l _ ⟨hi, h.log, h.log, h.heard, h.heard, h.refused⟩ hf
    | drop =>
      have hi := node_step (op := .drop) hU h.inv trivial
      exact replica_run hU hc hg l _ ⟨hi, h.saved, h.saved, h.kept, h.kept, h.refused⟩ hf
    | block x =>
      have hi := node_step (op := .block x) hU h.inv trivial
      exact replica_run hU hc hg l _ ⟨hi, h.log, h.saved, h.heard, h.kept, h.refused⟩ hf
    | numbers g =>
      have hi := node_step (op := .numbers g) hU h.inv trivial
      exact replica_run hU hc hg l _ ⟨hi, h.log, h.saved, h.heard, h.kept, h.refused⟩ hf

end Verif
