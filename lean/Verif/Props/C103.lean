import Verif.Lemmas.EventMigration
/-! C103: on-chain events of a data shard reach shard 0 or are there. -/
namespace Verif
namespace EvMig
open Spec

/-- Once the job has come to its end, however often it was stopped, started again or lost its place, and however both
databases changed, an event that the shard had all along was sent to the mempool or shard 0 had it when it was looked at. -/
theorem C103_settled (keccak : Bytes → Bytes) (h : List Turn) (e : OEvent)
    (hsrc : ∀ a ∈ h, ∃ events, Holds keccak a.src events ∧ e ∈ events)
    (hzero : ∀ a ∈ h, ∃ events, Holds keccak (a.zero e) events)
    (hf : 0 < (Job.run keccak {} h).finished) :
    e ∈ (Job.run keccak {} h).sent ∨ ∃ a ∈ h, Has keccak (a.zero e) e := by
  suffices Covered (e ∈ (Job.run keccak {} h).sent ∨ ∃ a ∈ h, Has keccak (a.zero e) e) e (Job.run keccak {} h) from this.finished hf
  clear hf
  revert hsrc hzero
  refine snoc_ind (p := fun h => (∀ a ∈ h, ∃ events, Holds keccak a.src events ∧ e ∈ events) →
    (∀ a ∈ h, ∃ events, Holds keccak (a.zero e) events) →
    Covered (e ∈ (Job.run keccak {} h).sent ∨ ∃ a ∈ h, Has keccak (a.zero e) e) e (Job.run keccak {} h)) ?_ ?_ h
  · intro _ _
    exact ⟨fun h => absurd h (Nat.lt_irrefl 0), fun t ht => by cases ht⟩
  · intro h a ih hsrc hzero
    obtain ⟨events, h1, h2⟩ := hsrc a (by simp)
    obtain ⟨zs, h3⟩ := hzero a (by simp)
    have ih' := ih (fun b hb => hsrc b (by simp [hb])) (fun b hb => hzero b (by simp [hb]))
    rw [run_append]
    have hmono : (e ∈ (Job.run keccak {} h).sent ∨ ∃ a ∈ h, Has keccak (a.zero e) e) →
        (e ∈ ((Job.run keccak {} h).turn keccak a).sent ∨ ∃ b ∈ h ++ [a], Has keccak (b.zero e) e) := by
      rintro (hm | ⟨b, hb, hh⟩)
      · exact .inl ((sent_mono keccak _ a).subset hm)
      · exact .inr ⟨b, by simp [hb], hh⟩
    refine covered_turn ⟨fun hx => hmono (ih'.finished hx), fun t ht hx => hmono (ih'.token t ht hx)⟩ h1 h2 ?_
    rintro (hm | hw)
    · exact .inl hm
    · right
      refine ⟨a, by simp, zs, h3, ?_⟩
      apply Classical.byContradiction
      intro hn
      rw [(wanted_iff h3 ((rows_inv h1).2 e h2)).2 hn] at hw
      cases hw

/-- Only events are sent that the shard has and that shard 0 did not have when they were looked at. -/
theorem C103_sends_what_is_missing (keccak : Bytes → Bytes) (h : List Turn) (e : OEvent)
    (hsrc : ∀ a ∈ h, ∃ events, Holds keccak a.src events)
    (hzero : ∀ a ∈ h, ∃ events, Holds keccak (a.zero e) events)
    (he : e ∈ (Job.run keccak {} h).sent) :
    ∃ a ∈ h, (∃ events, Holds keccak a.src events ∧ e ∈ events) ∧
      ∀ events, Holds keccak (a.zero e) events → ¬ ∃ x ∈ events, SamePlace x e := by
  revert hsrc hzero he
  refine snoc_ind (p := fun h => (∀ a ∈ h, ∃ events, Holds keccak a.src events) →
    (∀ a ∈ h, ∃ events, Holds keccak (a.zero e) events) → e ∈ (Job.run keccak {} h).sent →
    ∃ a ∈ h, (∃ events, Holds keccak a.src events ∧ e ∈ events) ∧
      ∀ events, Holds keccak (a.zero e) events → ¬ ∃ x ∈ events, SamePlace x e) ?_ ?_ h
  · intro _ _ he
    cases he
  · intro h a ih hsrc hzero he
    rw [run_append] at he
    obtain ⟨events, h1⟩ := hsrc a (by simp)
    rcases sent_turn h1 (goodToken_run h fun b hb => hsrc b (by simp [hb])) he with hm | ⟨hm, hw⟩
    · obtain ⟨b, hb, hh⟩ := ih (fun b hb => hsrc b (by simp [hb])) (fun b hb => hzero b (by simp [hb])) hm
      exact ⟨b, by simp [hb], hh⟩
    · exact ⟨a, by simp, ⟨events, h1, hm⟩, fun zs hz => (wanted_iff hz ((rows_inv h1).2 e hm)).1 hw⟩

/-- If shard 0 has all the events of the shard, nothing is sent, however often the job is started. -/
theorem C103_nothing_twice (keccak : Bytes → Bytes) (h : List Turn)
    (hsrc : ∀ a ∈ h, ∃ events, Holds keccak a.src events)
    (hhas : ∀ a ∈ h, ∀ events, Holds keccak a.src events → ∀ e ∈ events, Has keccak (a.zero e) e)
    (hzero : ∀ a ∈ h, ∀ e, ∃ events, Holds keccak (a.zero e) events) :
    (Job.run keccak {} h).sent = [] := by
  apply List.eq_nil_iff_forall_not_mem.2
  intro e he
  obtain ⟨a, ha, ⟨events, h1, h2⟩, h3⟩ := C103_sends_what_is_missing keccak h e hsrc (fun a ha => hzero a ha e) he
  obtain ⟨zs, h4, h5⟩ := hhas a ha events h1 e h2
  exact h3 zs h4 h5

/-- Left alone with a shard that does not change, the job comes to its end, within one page more than the rows fill. -/
theorem C103_comes_to_an_end (keccak : Bytes → Bytes) (db : Db OVal) (events : List OEvent) (hs : Holds keccak db events)
    (h : List Turn) (hh : ∀ a ∈ h, a.src = db ∧ a.forget = false ∧ a.stop = none) (hl : db.rows.length < 100 * h.length) :
    0 < (Job.run keccak {} h).finished := by
  refine finishes_aux hs h {} hh (fun t ht => by cases ht) (.inr ?_)
  refine Nat.lt_of_le_of_lt ?_ hl
  unfold left scanRows
  exact List.length_filter_le _ _

/-- Up to its end, a job that is not stopped sends no event twice: one that the mempool lost is not sent again before
the job is started anew. -/
theorem C103_once_in_a_pass (keccak : Bytes → Bytes) (h : List Turn) (a : Turn)
    (hh : ∀ b ∈ h ++ [a], (∃ events, Holds keccak b.src events) ∧ b.forget = false ∧ b.stop = none)
    (h0 : (Job.run keccak {} h).finished = 0) : (Job.run keccak {} (h ++ [a])).sent.Nodup := by
  have key : OncePass (Job.run keccak {} h) := by
    have hh' : ∀ b ∈ h, (∃ events, Holds keccak b.src events) ∧ b.forget = false ∧ b.stop = none :=
      fun b hb => hh b (by simp [hb])
    clear hh
    revert hh' h0
    refine snoc_ind (p := fun h => (Job.run keccak {} h).finished = 0 →
      (∀ b ∈ h, (∃ events, Holds keccak b.src events) ∧ b.forget = false ∧ b.stop = none) → OncePass (Job.run keccak {} h)) ?_ ?_ h
    · intro _ _
      exact ⟨List.nodup_nil, fun _ e he => by cases he⟩
    · intro h b ih h0 hh
      rw [run_append] at h0 ⊢
      have h1 : (Job.run keccak {} h).finished = 0 := by
        have := finished_mono keccak (Job.run keccak {} h) b
        omega
      obtain ⟨⟨events, he⟩, h2, h3⟩ := hh b (by simp)
      exact oncePass_turn he (goodToken_run h fun c hc => (hh c (by simp [hc])).1)
        (ih h1 fun c hc => hh c (by simp [hc])) h1 h2 h3
  rw [run_append]
  obtain ⟨⟨events, he⟩, h2, h3⟩ := hh a (by simp)
  exact (oncePass_turn he (goodToken_run h fun c hc => (hh c (by simp [hc])).1) key h0 h2 h3).nodup

/-- Storage of three users. -/
def rentOf (fid : Nat) : OEvent := ⟨4, fid, 9, 0, fid, 1760000000, .storageRent 1⟩

def shardOps : List ChainOp := [.merge (rentOf 7), .merge (rentOf 8), .commit, .merge (rentOf 9), .commit]
def zeroOps : List ChainOp := [.merge (rentOf 8), .commit]

theorem shard_holds : Holds (fun _ => []) (ChainNode.run (fun _ => []) shardOps).db [rentOf 7, rentOf 8, rentOf 9] := by
  refine ⟨shardOps, ?_, rfl, by decide⟩
  intro e he
  simp only [shardOps, List.mem_cons, ChainOp.merge.injEq, List.not_mem_nil, or_false] at he
  rcases he with rfl | rfl | h | rfl | h <;> first | contradiction | (unfold Spec.OEvent.Fits; decide)

theorem zero_holds : Holds (fun _ => []) (ChainNode.run (fun _ => []) zeroOps).db [rentOf 8] := by
  refine ⟨zeroOps, ?_, rfl, by decide⟩
  intro e he
  simp only [zeroOps, List.mem_cons, ChainOp.merge.injEq, List.not_mem_nil, or_false] at he
  rcases he with rfl | h <;> first | contradiction | (unfold Spec.OEvent.Fits; decide)

/-- A turn that stops after one event, and one that ends the job. -/
def twoTurns : List Turn :=
  let src := (ChainNode.run (fun _ => []) shardOps).db
  let zero := fun _ => (ChainNode.run (fun _ => []) zeroOps).db
  [{ src, zero, stop := some 1 }, { src, zero }]

/-- The job is stopped and started again; the storage of user 8 is in shard 0, that of users 7 and 9 is sent. -/
example : (Job.run (fun _ => []) {} twoTurns).sent = [rentOf 7, rentOf 7, rentOf 9] ∧
    (Job.run (fun _ => []) {} twoTurns).finished = 1 ∧ (Job.run (fun _ => []) {} (twoTurns.take 1)).finished = 0 := by decide

/-- The conditions of `C103_settled` and of `C103_sends_what_is_missing` hold of it. -/
example : (∀ a ∈ twoTurns, ∃ events, Holds (fun _ => []) a.src events ∧ rentOf 9 ∈ events) ∧
    (∀ a ∈ twoTurns, ∀ e, ∃ events, Holds (fun _ => []) (a.zero e) events) := by
  refine ⟨fun a ha => ⟨[rentOf 7, rentOf 8, rentOf 9], ?_, by decide⟩, fun a ha e => ⟨[rentOf 8], ?_⟩⟩
  · simp only [twoTurns, List.mem_cons, List.not_mem_nil, or_false] at ha
    rcases ha with rfl | rfl <;> exact shard_holds
  · simp only [twoTurns, List.mem_cons, List.not_mem_nil, or_false] at ha
    rcases ha with rfl | rfl <;> exact zero_holds

/-- The shard of `C103_comes_to_an_end` is read within one turn. -/
example : (ChainNode.run (fun _ => []) shardOps).db.rows.length < 100 * (twoTurns.drop 1).length ∧
    (twoTurns.drop 1).length = 1 := by decide

/-- The condition of `C103_nothing_twice` holds where shard 0 is as the shard. -/
example : Has (fun _ => []) (ChainNode.run (fun _ => []) shardOps).db (rentOf 8) :=
  ⟨_, shard_holds, rentOf 8, by decide, by unfold SamePlace; decide⟩

end EvMig
end Verif
