import Verif.Spec.Channel
import Verif.Spec.Store
/-! A concrete channel history used by the examples beside the channel theorems. -/
namespace Verif.ChanCase

/-- A channel id. -/
def chan : Bytes := List.replicate 32 7
/-- User 1 owns the channel, other channels are unknown. -/
def owner (c : Bytes) : Option (Option Nat) := if c = chan then some (some 1) else none
/-- The owner's registration is not resolved yet. -/
def parked (c : Bytes) : Option (Option Nat) := if c = chan then some none else none
/-- A membership message. -/
def member (author : Nat) (ts : Nat) (h : UInt8) (target : Nat) (action : Int) : Msg :=
  ⟨author, .channelMember, ts, List.replicate 20 h, [], .channelMember chan target action⟩
/-- The owner opens the channel. -/
def openUp : Msg := ⟨1, .channelUpdate, 10, List.replicate 20 1, [], .channelUpdate chan none (some 1)⟩
/-- User 1 appoints user 2. -/
def appoint : Msg := member 1 11 2 2 3
/-- User 1 dismisses user 2. -/
def dismiss : Msg := member 1 12 3 2 4
/-- Moderator 2 bans user 5. -/
def ban : Msg := member 2 13 4 5 5
/-- User 5 tries to join. -/
def rejoin : Msg := member 5 14 5 5 1
/-- User 6 joins. -/
def join : Msg := member 6 9 6 6 1
/-- The owner unbans user 5. -/
def unban : Msg := member 1 16 7 5 6

/-- The messages of the case. -/
def all : List Msg := [openUp, appoint, dismiss, ban, rejoin, join, unban]
/-- A message of the case. -/
def known (m : Msg) : Prop := m ∈ all

theorem known_ids : HashesIdentify known := by
  intro a b ha hb h1 h2 h3
  simp only [known, all, List.mem_cons, List.not_mem_nil, or_false] at ha hb
  rcases ha with rfl | rfl | rfl | rfl | rfl | rfl | rfl <;>
    rcases hb with rfl | rfl | rfl | rfl | rfl | rfl | rfl <;> first | rfl | (exact absurd h2 (by decide))

/-- Shard 0 admits messages of the case. -/
def submits (l : List Msg) : List ChanOp := .block 1 :: l.map (.submit owner)

theorem submits_fair (l : List Msg) (h : ∀ m ∈ l, m ∈ all) : ∀ o ∈ submits l, o.Fair known ∧ o.OnShardZero := by
  intro o ho
  simp only [submits, List.mem_cons, List.mem_map] at ho
  rcases ho with rfl | ⟨m, hm, rfl⟩
  · exact ⟨trivial, trivial⟩
  · have := h m hm
    refine ⟨⟨this, ?_⟩, trivial⟩
    simp only [all, List.mem_cons, List.not_mem_nil, or_false] at this
    rcases this with rfl | rfl | rfl | rfl | rfl | rfl | rfl <;> decide

/-- Roles after a history. -/
def roles (l : List Msg) (fids : List Nat) : List (Option (Option MemberState)) :=
  fids.map fun f => ((ChanNode.run {} {} (submits l)).role chan f).toOption

example : roles [openUp, appoint, ban, rejoin, join] [2, 5, 6] = [some (some .moderator), some (some .banned), some (some .member)] := by
  decide +kernel

end Verif.ChanCase
