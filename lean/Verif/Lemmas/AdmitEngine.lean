import Verif.Lemmas.AdmissionUse
import Verif.Spec.AdmitEngine
/-! The on-chain and key tables of a node hold what was offered to it. -/
namespace Verif
open Spec

/-- On-chain events on record were merged. -/
theorem admit_log_mem (env : VEnv) (c : KeyCrypto) (net : Network) : ∀ (ops : List AdmitOp) (n : AdmitNode) e,
    e ∈ (ops.foldl (fun n o => (n.exec env c net o).2) n).chain.log →
      AdmitOp.chain e ∈ ops ∨ e ∈ n.chain.log ∨ e ∈ n.chain.saved
  | [], n, e, h => .inr (.inl h)
  | o :: ops, n, e, h => by
    have key : ∀ m : WMsg, (n.mergeKey c net m).2.chain = n.chain := by
      intro m
      unfold AdmitNode.mergeKey
      split
      · rfl
      · simp only
        split <;> rfl
    have hstep : ∀ e, (e ∈ (n.exec env c net o).2.chain.log ∨ e ∈ (n.exec env c net o).2.chain.saved) →
        AdmitOp.chain e = o ∨ e ∈ n.chain.log ∨ e ∈ n.chain.saved := by
      intro e he
      cases o with
      | chain x =>
        simp only [AdmitNode.exec, ChainNode.step] at he
        split at he
        · simp only [List.mem_append, List.mem_singleton] at he
          grind
        · grind
      | replay m =>
        simp only [AdmitNode.exec, key] at he
        exact .inr he
      | user p v now m =>
        simp only [AdmitNode.exec] at he
        split at he
        · exact .inr he
        · split at he
          · exact .inr he
          · rename_i t _ _ _ _
            split at he
            · have k2 : (AdmitNode.mergeKey c net { n with keys := { n.keys with txn := t } } m).2.chain = n.chain := by
                unfold AdmitNode.mergeKey
                split
                · rfl
                · simp only
                  split <;> rfl
              rw [k2] at he
              exact .inr he
            · exact .inr he
      | commit =>
        simp only [AdmitNode.exec, ChainNode.step] at he
        grind
      | drop =>
        simp only [AdmitNode.exec, ChainNode.step] at he
        grind
    rcases admit_log_mem env c net ops _ e h with h | h | h
    · exact .inl (by simp [h])
    · rcases hstep e (.inl h) with h | h
      · exact .inl (by simp [h])
      · exact .inr h
    · rcases hstep e (.inr h) with h | h
      · exact .inl (by simp [h])
      · exact .inr h

namespace AdmitCfg
variable {X F : Type} {a : AdmitCfg X F} {ver : Nat → EngineVersion} {bs : List (NodeBlock F)}

theorem Offered.fits {ops : List AdmitOp} (h : a.Offered ver bs ops) (s : a.Sound bs) : AdmitFits ops where
  chain e he := s.chain e (h.chain e he)
  replay w d he hd := by
    obtain ⟨m, rfl, _, ⟨ts, ho⟩ | ⟨e, ho, hb⟩⟩ := h.replay w he
    · obtain ⟨⟨d', h1, h2, _⟩, h3⟩ := s.user ts m ho
      rw [hd] at h1; cases h1; omega
    · obtain ⟨⟨d', h1, h2, _⟩, h3⟩ := s.block e m ho hb
      rw [hd] at h1; cases h1; omega
  user p v now w d he hd := by
    obtain ⟨m, rfl, ho, _⟩ := h.user p v now w he
    obtain ⟨⟨d', h1, h2, _⟩, h3⟩ := s.user now m ho
    rw [hd] at h1; cases h1; omega

theorem known_step {n : AdmitNode} (h : a.Known ver bs n) {o : AdmitOp} (ho : a.Offered ver bs [o]) :
    a.Known ver bs (n.exec a.env a.crypto a.net o).2 := by
  obtain ⟨ops, h1, rfl⟩ := h
  refine ⟨ops ++ [o], ⟨?_, ?_, ?_⟩, by simp [AdmitNode.run]⟩
  · intro e he
    rcases List.mem_append.1 he with he | he
    · exact h1.chain e he
    · exact ho.chain e he
  · intro e he
    rcases List.mem_append.1 he with he | he
    · exact h1.replay e he
    · exact ho.replay e he
  · intro p v now e he
    rcases List.mem_append.1 he with he | he
    · exact h1.user p v now e he
    · exact ho.user p v now e he

theorem known_new : a.Known ver bs {} := ⟨[], ⟨by simp, by simp, by simp⟩, rfl⟩

/-- Everything the rest of a node does keeps its tables known. -/
theorem known_keeps {c : ShardCfg (AdmitNode × X) F} (hc : c.rest = a.rest) (s : a.Sound bs) :
    ShardCfg.RestKeeps c (fun v ts m => v = ver ts ∧ OfferedUser bs ts m) (OfferedBlockEvent bs) (OfferedOnchain bs)
      (fun r => a.Known ver bs r.1) where
  fresh r h k := by
    rw [hc]; exact known_step k ⟨by simp, by simp, by simp⟩
  commit r k := by
    rw [hc]; exact known_step k ⟨by simp, by simp, by simp⟩
  onchain r e he k := by
    rw [hc]
    exact known_step k ⟨by simp only [List.mem_singleton, AdmitOp.chain.injEq]; rintro _ rfl; exact he, by simp, by simp⟩
  fname r f k := by rw [hc]; exact k
  validate v ts st r m hm k := by
    rw [hc]
    show a.Known ver bs (a.validate v ts st r m).1.1
    unfold validate
    split
    · exact k
    · rename_i t ht
      split
      · exact k
      · rename_i d hd
        simp only
        by_cases hk : d.type.isKey = true
        · rw [if_pos hk]
          obtain ⟨pro, e, ttl, _, _, _, h1, _, _, h2⟩ := admitted_cases hd ht
          unfold checkSigner at h1
          rw [if_pos hk] at h1
          have : ttl = none := by
            split at h1
            · simp only [Except.ok.injEq] at h1; exact h1.symm
            · cases h1
          subst this
          simp only [bumpKey, Except.ok.injEq] at h2
          rw [← h2]
          exact k
        · rw [if_neg hk]
          have h3 := known_step (o := .user (a.view st r.2) v ts (a.wire m)) k ⟨by simp, by simp, by
            simp only [List.mem_singleton, AdmitOp.user.injEq]
            rintro _ _ _ _ ⟨rfl, rfl, rfl, rfl⟩
            exact ⟨m, rfl, hm.2, hm.1⟩⟩
          simp only [AdmitNode.exec, ht, hd, if_neg hk] at h3
          exact h3
  merge b r m hm ht k := by
    rw [hc]
    show a.Known ver bs (a.mergeOther b r m).1.1
    unfold mergeOther
    split
    · rename_i hk
      have h3 := known_step (o := .replay (a.wire m)) k ⟨by simp, by
        simp only [List.mem_singleton, AdmitOp.replay.injEq]
        rintro _ rfl
        refine ⟨m, rfl, hk, hm.imp ?_ id⟩
        rintro ⟨v, ts, h⟩
        exact ⟨ts, h.2⟩, by simp⟩
      simp only [AdmitNode.exec] at h3
      split
      · rename_i n hn; rw [hn] at h3; exact h3
      · rename_i n hn; rw [hn] at h3; exact h3
    · exact k
  replica r e k := by rw [hc]; exact k
  pruneNames r f n l k := by rw [hc]; exact k

end AdmitCfg
end Verif
