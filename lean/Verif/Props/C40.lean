import Verif.Lemmas.Storage
import Verif.Lemmas.OnChainChan
/-!
C40: the storage allowance of a user is what it bought and has not expired, minus what it lent, plus what it
borrowed; the order of events does not matter; message limits are units times the limit per unit.
-/
namespace Verif
open Spec

/-- **C40**: purchased minus lent plus borrowed, for every unit type, when nothing overflows 32 bits and no more is lent
than is still owned. -/
theorem C40_allowance {now : UInt32} (hn : now.toNat < 4294967295) {mainnet ext : Bool} {rents pending : List OEvent}
    {fid : Nat} {lent borrowed : List (UnitType × Nat)}
    (hr : ∀ e ∈ countedRents rents pending fid, Rental mainnet ext e)
    (hl : ∀ ty, lendTotal ty lent ≤ purchased mainnet ext now.toNat ty (countedRents rents pending fid))
    (hb : ∀ ty, purchased mainnet ext now.toNat ty (countedRents rents pending fid) + lendTotal ty borrowed < 2 ^ 32) :
    ∃ s, slotOf now mainnet ext rents pending fid (mergeLends now lent) (mergeLends now borrowed) = .ok s ∧
      ∀ ty, (s.units ty).toNat =
        purchased mainnet ext now.toNat ty (countedRents rents pending fid) - lendTotal ty lent + lendTotal ty borrowed := by
  have mem_le : ∀ (l : List (UnitType × Nat)) x, x ∈ l → x.2 ≤ lendTotal x.1 l := by
    intro l
    induction l with
    | nil => simp
    | cons a l ih =>
      intro x hx
      unfold lendTotal at *
      simp only [List.map_cons, List.sum_cons]
      rcases List.mem_cons.mp hx with rfl | hx
      · simp
      · have := ih x hx; omega
  have hl32 : ∀ x ∈ lent, x.2 < 2 ^ 32 := fun x hx => by have := mem_le _ x hx; have := hl x.1; have := hb x.1; omega
  have hb32 : ∀ x ∈ borrowed, x.2 < 2 ^ 32 := fun x hx => by have := mem_le _ x hx; have := hb x.1; omega
  unfold slotOf
  rw [mergeRents_eq]
  unfold countedRents at *
  rw [if_pos (rents_ok hr)]
  refine ⟨_, rfl, fun ty => ?_⟩
  generalize hP : (rentSlots mainnet ext (rents ++ List.filter (fun e => e.fid = fid && e.ty = 4) pending)).foldl
    (Slot.merge now) {} = P
  have tP : P.Tidy now := hP ▸ foldl_merge_tidy _ (empty_tidy now)
  have uP : ∀ ty, (P.units ty).toNat = purchased mainnet ext now.toNat ty
      (rents ++ List.filter (fun e => e.fid = fid && e.ty = 4) pending) := by
    intro ty
    rw [← hP, foldl_merge_units _ (empty_tidy now), rentSlots_live now hr, empty_units]
    have := hb ty
    simp only [UInt32.toNat_zero, Nat.zero_add]
    exact Nat.mod_eq_of_lt (by omega)
  have uL : ∀ ty, ((mergeLends now lent).units ty).toNat = lendTotal ty lent := by
    intro ty
    rw [mergeLends_units hn hl32]
    have := hl ty; have := hb ty
    exact Nat.mod_eq_of_lt (by omega)
  have uB : ∀ ty, ((mergeLends now borrowed).units ty).toNat = lendTotal ty borrowed := by
    intro ty
    rw [mergeLends_units hn hb32]
    have := hb ty
    exact Nat.mod_eq_of_lt (by omega)
  have hle : ∀ ty, ((mergeLends now lent).units ty).toNat ≤ (P.units ty).toNat := fun ty => by rw [uL, uP]; exact hl ty
  have tL := mergeLends_tidy now lent
  rw [Slot.merge_units (sub_tidy tP tL hle), sub_units tL ty (hle ty), uP, uL]
  have live : (mergeLends now borrowed).live now ty = lendTotal ty borrowed := by
    unfold Slot.live
    split
    · exact uB ty
    · rename_i h
      rw [← uB ty, tidy_inactive (mergeLends_tidy now borrowed) (by simpa using h) ty]; rfl
  rw [live]
  have := hb ty
  exact Nat.mod_eq_of_lt (by omega)

/-- **C40**: neither the order of the rentals nor the order of the lends matters, whatever they are. -/
theorem C40_order_independent (now : UInt32) (mainnet ext : Bool) {rents rents' pending pending' : List OEvent} (fid : Nat)
    {lent lent' borrowed borrowed' : List (UnitType × Nat)} (h1 : rents.Perm rents') (h2 : pending.Perm pending')
    (h3 : lent.Perm lent') (h4 : borrowed.Perm borrowed') :
    slotOf now mainnet ext rents pending fid (mergeLends now lent) (mergeLends now borrowed) =
      slotOf now mainnet ext rents' pending' fid (mergeLends now lent') (mergeLends now borrowed') := by
  have hm : ∀ {l l' : List (UnitType × Nat)}, l.Perm l' → mergeLends now l = mergeLends now l' := by
    intro l l' h
    have := foldl_merge_perm (now := now) (h.map (fun l => Slot.fromLend l.1 l.2)) {}
    rwa [List.foldl_map, List.foldl_map] at this
  unfold slotOf
  rw [mergeRents_perm now mainnet ext (h1.append (h2.filter _)), hm h3, hm h4]

theorem limitOf_toNat (ty k) : (limitOf ty k).toNat = perUnit ty k := by cases ty <;> cases k <;> rfl

/-- **C40**: the limit of a kind of message is the units of each type times the limit per unit. -/
theorem C40_limit (s : Slot) (k : LimitKind) (h : allowance k (fun ty => (s.units ty).toNat) < 2 ^ 32) :
    (maxMessages s k).toNat = allowance k (fun ty => (s.units ty).toNat) := by
  unfold maxMessages
  unfold allowance at *
  simp only [UInt32.toNat_add, UInt32.toNat_mul, limitOf_toNat]
  simp only at h
  generalize perUnit .y2025 k * _ = a at *
  generalize perUnit .y2024 k * _ = b at *
  generalize perUnit .legacy k * _ = c at *
  omega

/-- **C40**: limits are additive in the units. -/
theorem C40_limit_additive (k : LimitKind) (f g : UnitType → Nat) :
    allowance k (fun ty => f ty + g ty) = allowance k f + allowance k g := by
  unfold allowance
  simp only [Nat.mul_add]
  omega

/-- **C40**: more units never mean a lower limit, short of overflow. -/
theorem C40_limit_monotone {s t : Slot} (k : LimitKind) (hst : ∀ ty, (s.units ty).toNat ≤ (t.units ty).toNat)
    (h : allowance k (fun ty => (t.units ty).toNat) < 2 ^ 32) : maxMessages s k ≤ maxMessages t k := by
  have : allowance k (fun ty => (s.units ty).toNat) ≤ allowance k (fun ty => (t.units ty).toNat) := by
    unfold allowance
    have a := Nat.mul_le_mul_left (perUnit .legacy k) (hst .legacy)
    have b := Nat.mul_le_mul_left (perUnit .y2024 k) (hst .y2024)
    have c := Nat.mul_le_mul_left (perUnit .y2025 k) (hst .y2025)
    simp only
    omega
  rw [UInt32.le_iff_toNat_le, C40_limit _ _ h, C40_limit _ _ (by omega)]
  exact this

/-- A rental of `n` units at a time. -/
def rentAt (n : UInt32) (ts : Nat) : OEvent := ⟨4, 7, ts, 0, 0, ts, .storageRent n⟩

/-- The hypotheses of `C40_allowance` are met by a user with expired, legacy and 2025 units that lends and borrows. -/
example : let rents := [rentAt 5 1600000000, rentAt 3 1720000000, rentAt 900 1760000000]
    let lent := [(UnitType.y2025, 100), (.y2025, 50)]
    let borrowed := [(UnitType.y2024, 4)]
    (∀ e ∈ countedRents rents [rentAt 2 1770000000] 7, Rental true false e) ∧
    (∀ ty, lendTotal ty lent ≤ purchased true false 1780000000 ty (countedRents rents [rentAt 2 1770000000] 7)) ∧
    (∀ ty, purchased true false 1780000000 ty (countedRents rents [rentAt 2 1770000000] 7) + lendTotal ty borrowed < 2 ^ 32) ∧
    slotOf 1780000000 true false rents [rentAt 2 1770000000] 7 (mergeLends 1780000000 lent) (mergeLends 1780000000 borrowed) =
      .ok ⟨3, 4, 752, 1791536000⟩ := by
  refine ⟨?_, ?_, ?_, by decide⟩
  · intro e he
    simp only [countedRents, List.mem_append, List.mem_cons, List.not_mem_nil, or_false] at he
    have : e ∈ [rentAt 5 1600000000, rentAt 3 1720000000, rentAt 900 1760000000, rentAt 2 1770000000] := by
      rcases he with he | he
      · simp only [List.mem_cons, List.not_mem_nil, or_false]; grind
      · have := (List.mem_filter.mp he).1; simp at this; simp [this]
    simp only [List.mem_cons, List.not_mem_nil, or_false] at this
    rcases this with rfl | rfl | rfl | rfl <;> exact ⟨⟨_, rfl⟩, by decide⟩
  · intro ty; cases ty <;> decide
  · intro ty; cases ty <;> decide

/-- What fails, 1: when rentals expire while units are lent, the subtraction wraps around and the user gets more than
four billion units.  Here 600 units are owned and 900, lent when 1100 were owned, are still out. -/
theorem C40_lent_beyond_owned_wraps :
    slotOf 1785000000 true false [rentAt 500 1753000000, rentAt 600 1760000000] [] 7
      (mergeLends 1785000000 [(.y2025, 900)]) (mergeLends 1785000000 []) = .ok ⟨0, 0, 4294966996, 1791536000⟩ ∧
    purchased true false 1785000000 .y2025 [rentAt 500 1753000000, rentAt 600 1760000000] = 600 := by decide

/-- What fails, 2: the limit itself wraps around: 858994 legacy units allow fewer casts than one. -/
theorem C40_limit_wraps : maxMessages ⟨858994, 0, 0, 1⟩ .casts < maxMessages ⟨1, 0, 0, 1⟩ .casts := by decide

/-- What fails, 3: a rental that is stored and also pending is counted twice. -/
theorem C40_pending_counted_twice :
    slotOf 1780000000 true false [rentAt 5 1760000000] [rentAt 5 1760000000] 7 (mergeLends 1780000000 [])
      (mergeLends 1780000000 []) = .ok ⟨0, 0, 10, 1791536000⟩ := by decide

/-- **C40**: on the database after any run, the allowance is computed from exactly the committed rentals of the user, each
once; so it does not depend on the order in which they were merged, on repetitions or on dropped batches. -/
theorem C40_from_committed_rentals {keccak : Bytes → Bytes} {ops : List ChainOp} (ho : OpsFit ops) {fid : Nat} (hf : fid < 2 ^ 32)
    (now : UInt32) (mainnet ext : Bool) (pending : List OEvent) (lent borrowed : List (UnitType × Nat)) :
    let n := ChainNode.run keccak ops
    slotForFid now mainnet ext n.db pending fid (mergeLends now lent) (mergeLends now borrowed) =
      slotOf now mainnet ext (n.saved.filter (fun e => e.ty = 4 ∧ e.fid = fid)) pending fid (mergeLends now lent) (mergeLends now borrowed) := by
  intro n
  have hi : ChainInv keccak n := chainInv_run ho
  have hls := hi.log.prefix hi.sub
  obtain ⟨es, h1, h2, h3⟩ := onchainEvents_spec hi.disk hls (ty := 4) (by decide) hf
  unfold slotForFid
  rw [h1]
  refine C40_order_independent now mainnet ext fid ?_ (List.Perm.refl _) (List.Perm.refl _) (List.Perm.refl _)
  have hn1 : es.Nodup := h3.imp (fun {a b} h hc => by subst hc; unfold placeLt at h; omega)
  have hn2 : n.saved.Nodup := hls.apart.imp (fun {a b} h hc => h (by subst hc; exact ⟨rfl, rfl, rfl, rfl⟩))
  refine (List.perm_ext_iff_of_nodup hn1 (hn2.sublist List.filter_sublist)).mpr ?_
  intro e
  rw [h2, List.mem_filter]
  simp

/-- A run that repeats a rental, drops a batch and rents for someone else. -/
def rentRun : List ChainOp :=
  [.merge (rentAt 5 1760000000), .drop, .merge (rentAt 5 1760000000), .merge { rentAt 9 1760000000 with fid := 8 },
   .commit, .merge (rentAt 5 1760000000), .merge { rentAt 3 1760000001 with block := 2 }, .commit]

/-- The hypothesis is met, and eight units are counted. -/
example : OpsFit rentRun ∧ slotForFid 1780000000 true false (ChainNode.run (fun _ => []) rentRun).db [] 7
    (mergeLends 1780000000 []) (mergeLends 1780000000 []) = .ok ⟨0, 0, 8, 1791536000⟩ := by
  refine ⟨?_, by decide +kernel⟩
  intro e he
  simp only [rentRun, List.mem_cons, ChainOp.merge.injEq, List.not_mem_nil, or_false] at he
  rcases he with rfl | h | rfl | rfl | h | rfl | rfl | h <;> first | contradiction | (unfold Spec.OEvent.Fits; decide)

end Verif
