import Verif.Spec.Crash
import Verif.Lemmas.Replay
/-! Committing a chunk again. -/
namespace Verif
open Spec

theorem continuing_last (n : Nat) (es : List BEvent) (h : 0 < (continuing n es).length) :
    n + (continuing n es).length ∈ es.filterMap BEvent.number := by
  induction es generalizing n with
  | nil => simp [continuing] at h
  | cons e es ih =>
    simp only [continuing] at h ⊢
    split
    · rename_i he
      by_cases hk : 0 < (continuing (n + 1) es).length
      · have := ih (n + 1) hk
        rw [List.filterMap_cons_some he]
        simp only [List.length_cons, List.mem_cons]
        right
        rw [show n + ((continuing (n + 1) es).length + 1) = n + 1 + (continuing (n + 1) es).length by omega]
        exact this
      · rw [List.filterMap_cons_some he]
        simp only [List.length_cons, List.mem_cons]
        left; omega
    · rename_i he
      rw [if_neg he] at h
      have := ih n h
      rw [List.filterMap_cons]
      split
      · exact this
      · exact List.mem_cons_of_mem _ this

/-- A second pass over ascending events finds nothing new. -/
theorem continuing_again : ∀ (es : List BEvent) (n : Nat), Ascending es →
    continuing (n + (continuing n es).length) es = []
  | [], n, _ => rfl
  | e :: es, n, h => by
    have hasc : Ascending es := by
      unfold Ascending at h ⊢
      rw [List.filterMap_cons] at h
      split at h
      · exact h
      · exact h.tail
    by_cases he : BEvent.number e = some (n + 1)
    · have e1 : continuing n (e :: es) = e :: continuing (n + 1) es := by simp [continuing, he]
      rw [e1]
      simp only [List.length_cons, continuing]
      rw [if_neg (by rw [he]; simp only [Option.some.injEq]; omega)]
      have := continuing_again es (n + 1) hasc
      rw [show n + ((continuing (n + 1) es).length + 1) = n + 1 + (continuing (n + 1) es).length by omega]
      exact this
    · have e1 : continuing n (e :: es) = continuing n es := by simp [continuing, he]
      rw [e1]
      simp only [continuing]
      rw [if_neg ?_]
      · exact continuing_again es n hasc
      · intro hn
        by_cases hk : 0 < (continuing n es).length
        · have hm := continuing_last n es hk
          unfold Ascending at h
          rw [List.filterMap_cons_some hn, List.pairwise_cons] at h
          have := h.1 _ hm
          omega
        · have : (continuing n es).length = 0 := by omega
          rw [this] at hn
          exact he hn

theorem commit_empty_txn {V : Type} (db : Db V) : db.commit OMap.empty = db := by
  apply OMap.ext
  intro k
  rw [Db.get_commit]
  simp [getFromDbOrTxn]

end Verif
