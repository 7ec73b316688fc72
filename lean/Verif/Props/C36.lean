import Verif.Lemmas.ChannelHist
import Verif.Lemmas.TrieGood
import Verif.Case.Channel
/-!
C36: on shard 0 the moderator counter of a channel is the number of users whose role is moderator, and it
never exceeds ten.
-/
namespace Verif

variable {U : Msg → Prop}

/-- The moderator counter is the number of moderators, whoever merges. -/
theorem C36_counted_exactly (caps : SlotCaps) (hU : HashesIdentify U) (ops : List ChanOp)
    (hf : ∀ o ∈ ops, o.Fair U) (c : Bytes) (hc : c.length = 32) :
    let n := ChanNode.run caps {} ops
    ∃ l : List Nat, l.Nodup ∧ (∀ f, f ∈ l ↔ f < 2 ^ 32 ∧ n.role c f = .ok (some .moderator)) ∧
      n.moderatorCounter c = .ok l.length := by
  intro n
  have hi : NodeInv U caps n := node_run hU ops hf node_init
  obtain ⟨h1, h2, h3⟩ := liveSlots_spec (slots_of_log hi.now) (isMod c)
  have hform : ∀ s ∈ liveSlots n.log (isMod c), ∃ f, s = .member c f ∧ f < 2 ^ 32 := by
    intro s hs
    obtain ⟨m, hm, hp⟩ := (h3 s).1 hs
    have hg := newest_good hi.now hm
    unfold isMod at hp
    rw [inChan_slot hg.slot] at hp
    simp only [Bool.and_eq_true, decide_eq_true_eq] at hp
    have hw := hg.wf
    cases s <;> simp [ChanSlot.kind, ChanSlot.channel] at hp
    obtain ⟨⟨rfl⟩, _⟩ := hp
    exact ⟨_, rfl, hw.2⟩
  let fid : ChanSlot → Nat := fun s => match s with | .member _ f => f | _ => 0
  refine ⟨(liveSlots n.log (isMod c)).map fid, ?_, ?_, by rw [List.length_map, h2]; exact node_mods hi hc⟩
  · unfold List.Nodup
    rw [List.pairwise_map]
    refine h1.imp_of_mem ?_
    intro a b ha hb hne e
    obtain ⟨f, rfl, _⟩ := hform a ha
    obtain ⟨g, rfl, _⟩ := hform b hb
    simp only [fid] at e
    exact hne (by rw [e])
  · intro f
    simp only [List.mem_map]
    constructor
    · rintro ⟨s, hs, rfl⟩
      obtain ⟨f, rfl, hf⟩ := hform s hs
      obtain ⟨m, hm, hp⟩ := (h3 _).1 hs
      refine ⟨hf, ?_⟩
      simp only [fid]
      rw [node_role hi hc hf, hm]
      exact congrArg Except.ok ((isMod_iff (newestFor_mem hm).2).1 hp)
    · rintro ⟨hf, hr⟩
      rw [node_role hi hc hf] at hr
      have hr := Except.ok.inj hr
      cases hm : newestFor n.log (.member c f) with
      | none => rw [hm] at hr; cases hr
      | some m =>
        rw [hm] at hr
        exact ⟨.member c f, (h3 _).2 ⟨m, hm, (isMod_iff (newestFor_mem hm).2).2 hr⟩, rfl⟩

/-- On shard 0 there are never more than ten. -/
theorem C36_at_most_ten (caps : SlotCaps) (hU : HashesIdentify U) (ops : List ChanOp)
    (hf : ∀ o ∈ ops, o.Fair U ∧ o.OnShardZero) (c : Bytes) (hc : c.length = 32) :
    (∃ k, (ChanNode.run caps {} ops).moderatorCounter c = .ok k ∧ k ≤ 10) ∧
    ∀ l : List Nat, l.Nodup →
      (∀ f ∈ l, f < 2 ^ 32 ∧ (ChanNode.run caps {} ops).role c f = .ok (some .moderator)) → l.length ≤ 10 := by
  have hf1 : ∀ o ∈ ops, o.Fair U := fun o ho => (hf o ho).1
  have hi := node_run (caps := caps) hU ops hf1 node_init
  have hb := modBound_run hU ops hf (caps := caps) node_init modBound_init
  obtain ⟨l, h1, h2, h3⟩ := C36_counted_exactly caps hU ops hf1 c hc
  have hle : l.length ≤ 10 := by
    rw [node_mods hi hc] at h3
    have := (hb c hc).1
    rw [Except.ok.inj h3] at this
    exact this
  refine ⟨⟨_, h3, hle⟩, ?_⟩
  intro l' hn hl'
  have : l'.length ≤ l.length := Tree.Good.length_le_of_subset hn (fun f hf => (h2 f).2 (hl' f hf))
  omega

namespace ChanCase

/-- The owner appoints a user. -/
def nominate (i : Nat) : Msg := ⟨1, .channelMember, 100 + i, List.replicate 20 9, [], .channelMember chan (50 + i) 3⟩

/-- Twelve nominations: ten get through. -/
example : ((ChanNode.run {} {} (submits ((List.range 12).map nominate))).moderatorCounter chan).toOption = some 10 ∧
    ((ChanNode.run {} {} (submits ((List.range 12).map nominate))).role chan 59).toOption = some (some .moderator) ∧
    ((ChanNode.run {} {} (submits ((List.range 12).map nominate))).role chan 60).toOption = some none := by
  decide +kernel

/-- They are fair steps of shard 0. -/
example : ∃ U : Msg → Prop, HashesIdentify U ∧
    ∀ o ∈ submits ((List.range 12).map nominate), o.Fair U ∧ o.OnShardZero := by
  refine ⟨fun m => m ∈ (List.range 12).map nominate, ?_, ?_⟩
  · intro a b ha hb _ ht _
    simp only [List.mem_map] at ha hb
    obtain ⟨i, _, rfl⟩ := ha
    obtain ⟨j, _, rfl⟩ := hb
    have : i = j := by simpa [nominate] using ht
    rw [this]
  · intro o ho
    simp only [submits, List.mem_cons, List.mem_map] at ho
    rcases ho with rfl | ⟨m, ⟨i, hi, rfl⟩, rfl⟩
    · exact ⟨trivial, trivial⟩
    · have : i < 12 := List.mem_range.1 hi
      exact ⟨⟨List.mem_map.2 ⟨i, hi, rfl⟩, by simp [nominate]; omega⟩, trivial⟩

end ChanCase
end Verif
