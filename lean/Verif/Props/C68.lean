import Verif.Props.C57
import Verif.Case.Engine
/-!
C68.  The transactions of a proposal carry exactly the pulled messages.
-/
namespace Verif
open Spec
variable {F : Type}

theorem systemMessages_eq (ps : List (PMsg F)) : systemMessages ps = ps.filterMap PMsg.system? := by
  unfold systemMessages
  rfl

theorem userMessages_eq (ps : List (PMsg F)) : userMessages ps = ps.filterMap PMsg.user? := by
  unfold userMessages
  rfl

theorem groups_perm (order : List Nat) : ∀ (ps : List (PMsg F)), order.Nodup → (∀ p ∈ ps, p.fid ∈ order) →
    (order.flatMap (fun fid => ps.filter (fun p => p.fid == fid))).Perm ps := by
  induction order with
  | nil =>
    intro ps _ h
    cases ps with
    | nil => exact List.Perm.nil
    | cons p ps => exact absurd (h p List.mem_cons_self) (by simp)
  | cons f order ih =>
    intro ps hn h
    obtain ⟨hf, hn⟩ := List.nodup_cons.1 hn
    rw [List.flatMap_cons]
    have h2 := ih (ps.filter (fun p => !(p.fid == f))) hn (by
      intro p hp
      rw [List.mem_filter] at hp
      rcases List.mem_cons.1 (h p hp.1) with g | g
      · simp [g] at hp
      · exact g)
    have e : order.flatMap (fun fid => (ps.filter (fun p => !(p.fid == f))).filter (fun p => p.fid == fid)) =
        order.flatMap (fun fid => ps.filter (fun p => p.fid == fid)) := by
      rw [List.flatMap_def, List.flatMap_def]
      congr 1
      apply List.map_congr_left
      intro fid hfid
      rw [List.filter_filter]
      apply List.filter_congr
      intro p _
      by_cases g : p.fid = fid
      · have : ¬ p.fid = f := fun e => hf (by rw [← e, g]; exact hfid)
        simp [g]
        intro e; rw [← g] at e; exact this e
      · simp [g]
    rw [e] at h2
    exact (List.Perm.append_left _ h2).trans (List.filter_append_perm _ ps)

theorem flatMap_filter_empty {α β : Type} (f : α → List β) (keep : α → Bool) (l : List α)
    (h : ∀ a ∈ l, keep a = false → f a = []) : (l.filter keep).flatMap f = l.flatMap f := by
  induction l with
  | nil => rfl
  | cons a l ih =>
    have ih := ih (fun x hx => h x (List.mem_cons_of_mem _ hx))
    cases hk : keep a with
    | true => rw [List.filter_cons_of_pos hk, List.flatMap_cons, List.flatMap_cons, ih]
    | false =>
      rw [List.filter_cons_of_neg (by simp [hk]), List.flatMap_cons, ih, h a List.mem_cons_self hk, List.nil_append]

theorem flatMap_groups {β : Type} (g : PMsg F → Option β) (order : List Nat) (ps : List (PMsg F)) :
    order.flatMap (fun fid => (ps.filter (fun p => p.fid == fid)).filterMap g) =
      (order.flatMap (fun fid => ps.filter (fun p => p.fid == fid))).filterMap g := by
  induction order with
  | nil => rfl
  | cons f order ih => rw [List.flatMap_cons, List.flatMap_cons, List.filterMap_append, ih]

theorem fid_eq_aboutUser (p : PMsg F) : p.fid = aboutUser p := by
  unfold PMsg.fid aboutUser
  cases p <;> rfl

/-- Whatever the order of the hash map: the system messages of the transactions are the pulled system messages, each
as often as it was pulled, and likewise the user messages. -/
theorem C68_every_message_once {order : List Nat} {ps : List (PMsg F)} (h : ListsUsers order ps) :
    ((transactionsOf order ps).flatMap (·.sys)).Perm (systemMessages ps) ∧
    ((transactionsOf order ps).flatMap (·.user)).Perm (userMessages ps) := by
  have hp := groups_perm order ps h.1 (fun p hp => (h.2 _).2 ⟨p, hp, (fid_eq_aboutUser p).symm⟩)
  rw [systemMessages_eq, userMessages_eq]
  unfold transactionsOf
  constructor
  · rw [flatMap_filter_empty]
    · rw [List.flatMap_map, flatMap_groups]
      exact hp.filterMap _
    · intro t _ ht
      simp only [Bool.or_eq_false_iff, Bool.not_eq_false', List.isEmpty_iff] at ht
      exact ht.2
  · rw [flatMap_filter_empty]
    · rw [List.flatMap_map, flatMap_groups]
      exact hp.filterMap _
    · intro t _ ht
      simp only [Bool.or_eq_false_iff, Bool.not_eq_false', List.isEmpty_iff] at ht
      exact ht.1

/-- Each transaction has a user id of its own and something in it; its messages are exactly that user's, in the order
they were pulled. -/
theorem C68_one_transaction_per_user {order : List Nat} {ps : List (PMsg F)} (h : ListsUsers order ps) :
    ((transactionsOf order ps).map (·.fid)).Nodup ∧
    (∀ p ∈ ps, aboutUser p ∈ (transactionsOf order ps).map (·.fid)) ∧
    ∀ t ∈ transactionsOf order ps, (t.sys ≠ [] ∨ t.user ≠ []) ∧
      t.sys = systemMessages (ps.filter (fun p => aboutUser p == t.fid)) ∧
      t.user = userMessages (ps.filter (fun p => aboutUser p == t.fid)) := by
  simp only [← fid_eq_aboutUser]
  refine ⟨?_, ?_, ?_⟩
  · unfold transactionsOf
    have : ((order.map fun fid => (⟨fid, (ps.filter (fun p => p.fid == fid)).filterMap PMsg.system?,
        (ps.filter (fun p => p.fid == fid)).filterMap PMsg.user?, []⟩ : ETxn F)).map (·.fid)) = order := by
      rw [List.map_map]
      exact List.map_id _
    exact (List.filter_sublist.map _).nodup (by rw [this]; exact h.1)
  · intro p hp
    refine List.mem_map.2 ⟨⟨p.fid, (ps.filter (fun p' => p'.fid == p.fid)).filterMap PMsg.system?,
      (ps.filter (fun p' => p'.fid == p.fid)).filterMap PMsg.user?, []⟩, ?_, rfl⟩
    unfold transactionsOf
    rw [List.mem_filter]
    refine ⟨List.mem_map.2 ⟨p.fid, (h.2 _).2 ⟨p, hp, (fid_eq_aboutUser p).symm⟩, rfl⟩, ?_⟩
    have hmem : p ∈ ps.filter (fun p' => p'.fid == p.fid) := by simp [hp]
    have : (∃ x, p.system? = some x) ∨ ∃ x, p.user? = some x := by
      cases p
      · exact .inr ⟨_, rfl⟩
      all_goals exact .inl ⟨_, rfl⟩
    rcases this with ⟨x, hx⟩ | ⟨x, hx⟩
    · have : x ∈ (ps.filter (fun p' => p'.fid == p.fid)).filterMap PMsg.system? :=
        List.mem_filterMap.2 ⟨p, hmem, hx⟩
      have := List.ne_nil_of_mem this
      simp only [Bool.or_eq_true, Bool.not_eq_true', List.isEmpty_eq_false_iff]
      exact .inr this
    · have : x ∈ (ps.filter (fun p' => p'.fid == p.fid)).filterMap PMsg.user? :=
        List.mem_filterMap.2 ⟨p, hmem, hx⟩
      have := List.ne_nil_of_mem this
      simp only [Bool.or_eq_true, Bool.not_eq_true', List.isEmpty_eq_false_iff]
      exact .inl this
  · intro t ht
    unfold transactionsOf at ht
    rw [List.mem_filter] at ht
    obtain ⟨ht, hne⟩ := ht
    obtain ⟨fid, _, rfl⟩ := List.mem_map.1 ht
    simp only [Bool.or_eq_true, Bool.not_eq_true', List.isEmpty_eq_false_iff] at hne
    refine ⟨hne.symm, ?_, ?_⟩
    · rw [systemMessages_eq]
    · rw [userMessages_eq]

set_option synthInstance.maxSize 1000 in
/-- From the queue to the stores, the numbers 9 and 10 of one block: the mempool hands out 10 before 9, the transaction
has them in this order, the proposal contains both, and the shard that commits it has handled 9 and not 10. -/
theorem C68_block_event_ten_lost :
    ∃ (q : Queue Unit) (env : PoolEnv) (st : EngineState EngineCase.Db0 EngineCase.Work EngineCase.Hub Unit),
      maxSeqnum some st.ev = .ok 8 ∧
      ((poolRun 1 noMessages [.offer env false (.blockEvent 1 [9] ⟨9, 1, 40, 0, 100, some .heartbeat⟩),
        .offer env false (.blockEvent 1 [10] ⟨10, 1, 40, 1, 100, some .heartbeat⟩)]).map (fun q => q.msgs.rows)) =
          some q.msgs.rows ∧
      ((pullShard env 1 q 100).toOption.bind fun (got, q') =>
        (propose EngineCase.ops EngineCase.hash0 EngineCase.ver EngineCase.env st 50 200 (transactionsOf [0] got)).bind
          fun (p, st') =>
            (commit EngineCase.ops EngineCase.hash0 EngineCase.ver EngineCase.env st'
              ⟨50, 200, p.root, p.txns, [50]⟩).map fun st'' =>
              (got.map origin, q'.msgs.rows.length,
                p.txns.flatMap (fun t => t.sys.filterMap (fun s => s.block.map (·.hash))),
                (maxSeqnum some st''.ev).toOption, st''.d.told.map (·.hash)) :
          Option (List Origin × Nat × List Bytes × Option Nat × List Bytes)) =
      some ([.event 100 10, .event 100 9], 0, [[10], [9]], some 9, [[9]]) := by
  let nine : PMsg Unit := .blockEvent 1 [9] ⟨9, 1, 40, 0, 100, some .heartbeat⟩
  let ten : PMsg Unit := .blockEvent 1 [10] ⟨10, 1, 40, 1, 100, some .heartbeat⟩
  refine ⟨⟨OMap.ofRows [(ten.key, ten), (nine.key, nine)], OMap.empty⟩,
    ⟨.v21, fun _ => some (some 8), fun _ => none⟩,
    ⟨⟨[], [], []⟩, OMap.ofRows [(blockEventKey 8, ⟨[8], some ⟨8, 1, 39, 0, 99, some .heartbeat⟩⟩)], OMap.empty, none⟩,
    by rfl, by decide +kernel, by decide +kernel⟩

section Examples

private def c (fid ts : Nat) (h : UInt8) : Msg :=
  { fid := fid, ty := .castAdd, ts := ts, hash := List.replicate 20 h, body := .castAdd none [] }
private def pulled : List (PMsg Unit) :=
  [.onchain [1] ⟨3, 5, 1000, 0, 12, 17, .storageRent 2⟩, .user (c 6 1 1), .user (c 5 2 2), .user (c 6 3 3)]

example : ListsUsers [6, 5] pulled := by
  refine ⟨by decide, ?_⟩
  intro fid
  simp only [pulled, List.mem_cons, List.not_mem_nil, or_false]
  constructor
  · rintro (rfl | rfl)
    · exact ⟨_, .inr (.inl rfl), rfl⟩
    · exact ⟨_, .inl rfl, rfl⟩
  · rintro ⟨p, rfl | rfl | rfl | rfl, rfl⟩ <;> simp [aboutUser, c]

example : (transactionsOf [6, 5] pulled).map (fun t => (t.fid, t.sys.length, t.user)) =
    [(6, 0, [c 6 1 1, c 6 3 3]), (5, 1, [c 5 2 2])] := by decide +kernel

end Examples

end Verif
