import Verif.Model.Routing
/-!
# C27: every message has exactly one home shard
-/
namespace Verif

/-- Message types whose authority state lives on shard 0 at every version. -/
def isAuthorityType (ty : MessageType) : Prop :=
  ty = .lendStorage ∨ ty = .keyAdd ∨ ty = .keyRemove ∨ ty = .channelUpdate ∨ ty = .channelMember ∨
  ty = .channelPin ∨ ty = .channelModerate

def isVerificationType (ty : MessageType) : Prop := ty = .verificationAdd ∨ ty = .verificationRemove

/-- **C27 (range).** With at least one shard every message is routed, to a shard between 0 and the
shard count, and shard 0 is used exactly for authority messages and (from V21 on) verifications. -/
theorem C27_one_home (sha : Bytes → Bytes) (ty : MessageType) (fid n : Nat) (v : EngineVersion) (hn : 1 ≤ n) :
    ∃ s, routeMessage sha ty fid n v = some s ∧ s ≤ n ∧
      (s = 0 ↔ isAuthorityType ty ∨ (isVerificationType ty ∧ v = .v21)) := by
  have hr : ∃ s, routeFid sha fid n = some s ∧ s ≤ n ∧ s ≠ 0 := by
    unfold routeFid
    refine ⟨_, if_neg (by omega), ?_, by omega⟩
    have := Nat.mod_lt (fromBe ((sha (be 4 (fid % 2 ^ 32))).take 4)) (show 0 < n by omega)
    omega
  obtain ⟨s, h1, h2, h3⟩ := hr
  cases ty <;> simp only [routeMessage, isAuthorityType, isVerificationType] <;>
    first
    | (refine ⟨0, rfl, by omega, by simp⟩)
    | (refine ⟨s, h1, h2, by simp [h3]⟩)
    | (cases v <;> simp [EngineVersion.isEnabled, EngineVersion.atLeast, EngineVersion.num] <;>
        refine ⟨s, h1, h2, h3⟩)

/-- **C27 (by fid).** User data is routed by the fid alone: two messages of one user that are not routed
to shard 0 share a shard, at every pair of versions. -/
theorem C27_by_fid (sha : Bytes → Bytes) (ty ty' : MessageType) (fid n : Nat) (v v' : EngineVersion)
    (s s' : Nat) (h : routeMessage sha ty fid n v = some s) (h' : routeMessage sha ty' fid n v' = some s')
    (h0 : s ≠ 0) (h0' : s' ≠ 0) : s = s' := by
  have key : ∀ ty v s, routeMessage sha ty fid n v = some s → s ≠ 0 → routeFid sha fid n = some s := by
    intro ty v s h h0
    cases ty <;> simp only [routeMessage] at h <;> first
      | exact h
      | (injection h with h; omega)
      | (split at h
         · injection h with h; omega
         · exact h)
  have a := key ty v s h h0
  have b := key ty' v' s' h' h0'
  rw [a] at b; exact Option.some.inj b

/-- Fids that agree modulo 2^32 share a shard: only 32 bits of the fid are hashed. -/
theorem C27_fid_mod (sha : Bytes → Bytes) (fid n : Nat) :
    routeFid sha (fid + 2 ^ 32) n = routeFid sha fid n := by
  unfold routeFid
  rw [Nat.add_mod_right]

/-- Routing fails only with zero shards. -/
theorem C27_zero_shards (sha : Bytes → Bytes) (fid n : Nat) : routeFid sha fid n = none ↔ n = 0 := by
  unfold routeFid; simp

/-- The trie's virtual shard is the 256-way routing shifted to start at zero. -/
theorem C27_virtual_shard (sha : Bytes → Bytes) (fid : Nat) :
    routeFid sha fid 256 = some ((fidShard sha fid).toNat + 1) := by
  unfold fidShard routeFid trieShardSize
  simp only [if_neg (show ¬ (256 = 0) by decide)]
  have := Nat.mod_lt (fromBe ((sha (be 4 (fid % 2 ^ 32))).take 4)) (show 0 < 256 by decide)
  simp

/-- Non-vacuity: with a toy hash, fid 5 of three shards lives on shard 3, its key messages on 0. -/
example : routeMessage id .castAdd 5 3 .v21 = some 3 ∧ routeMessage id .keyAdd 5 3 .v0 = some 0 ∧
    routeMessage id .verificationAdd 5 3 .v20 = some 3 ∧ routeMessage id .verificationAdd 5 3 .v21 = some 0 := by
  decide

end Verif
