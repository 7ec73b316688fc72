import Verif.Model.Version
/-!
# C26: protocol upgrades are monotone in time
-/
namespace Verif
open EngineVersion

/-- A schedule is well formed: it starts at time zero, times never go down and versions go up. -/
def ScheduleWF (l : List VersionSchedule) : Prop :=
  (∃ s rest, l = s :: rest ∧ s.activeAt = 0) ∧
  l.Pairwise (fun a b => a.activeAt ≤ b.activeAt ∧ a.version.num < b.version.num)

theorem schedules_wf (n : Network) : ScheduleWF (scheduleOf n) := by
  cases n <;> exact ⟨⟨_, _, rfl, rfl⟩, by decide⟩

theorem filter_le_mono {l : List VersionSchedule}
    (h : l.Pairwise (fun a b => a.activeAt ≤ b.activeAt ∧ a.version.num < b.version.num)) (t : Nat) :
    ∃ A B, l = A ++ B ∧ l.filter (fun s => decide (s.activeAt ≤ t)) = A ∧
      l.find? (fun s => decide (s.activeAt > t)) = B.head? ∧ (∀ s ∈ A, s.activeAt ≤ t) ∧ (∀ s ∈ B, t < s.activeAt) := by
  induction l with
  | nil => exact ⟨[], [], rfl, rfl, rfl, by simp, by simp⟩
  | cons s l ih =>
    obtain ⟨h1, h2⟩ := List.pairwise_cons.1 h
    by_cases hs : s.activeAt ≤ t
    · obtain ⟨A, B, e1, e2, e3, e4, e5⟩ := ih h2
      refine ⟨s :: A, B, by simp [e1], ?_, ?_, ?_, e5⟩
      · rw [List.filter_cons, if_pos (by simpa using hs), e2]
      · rw [List.find?_cons]
        have : decide (s.activeAt > t) = false := by simpa using hs
        rw [this]; exact e3
      · intro x hx
        rcases List.mem_cons.1 hx with rfl | hx
        · exact hs
        · exact e4 x hx
    · refine ⟨[], s :: l, rfl, ?_, ?_, by simp, ?_⟩
      · rw [List.filter_eq_nil_iff]
        intro x hx
        rcases List.mem_cons.1 hx with rfl | hx
        · simpa using hs
        · have := (h1 x hx).1
          simp; omega
      · rw [List.find?_cons]
        have : decide (s.activeAt > t) = true := by simp; omega
        rw [this]; rfl
      · intro x hx
        rcases List.mem_cons.1 hx with rfl | hx
        · omega
        · have := (h1 x hx).1; omega

theorem split_unique {l A B A' B' : List VersionSchedule} {t : Nat} (e : l = A ++ B) (e' : l = A' ++ B')
    (hA : ∀ s ∈ A, s.activeAt ≤ t) (hB : ∀ s ∈ B, t < s.activeAt)
    (hA' : ∀ s ∈ A', s.activeAt ≤ t) (hB' : ∀ s ∈ B', t < s.activeAt) : A = A' ∧ B = B' := by
  have h1 : l.filter (fun s => decide (s.activeAt ≤ t)) = A := by
    rw [e, List.filter_append, List.filter_eq_self.2 (by simpa using hA),
      List.filter_eq_nil_iff.2 (by intro x hx; have := hB x hx; simp; omega)]
    simp
  have h2 : l.filter (fun s => decide (s.activeAt ≤ t)) = A' := by
    rw [e', List.filter_append, List.filter_eq_self.2 (by simpa using hA'),
      List.filter_eq_nil_iff.2 (by intro x hx; have := hB' x hx; simp; omega)]
    simp
  have : A = A' := h1.symm.trans h2
  subst this
  exact ⟨rfl, List.append_cancel_left (e.symm.trans e')⟩

/-- Some version is active at every time: the panic branch is unreachable. -/
theorem C26_total (t : Nat) (n : Network) : ∃ v, versionFor t n = some v := by
  obtain ⟨⟨s, rest, e, h0⟩, _⟩ := schedules_wf n
  unfold versionFor
  rw [e, List.filter_cons, if_pos (by simp [h0])]
  rw [List.getLast?_cons]
  exact ⟨_, rfl⟩

/-- **C26 (monotone).** The active version never goes down. -/
theorem C26_version_monotone (n : Network) (t t' : Nat) (h : t ≤ t') (v v' : EngineVersion)
    (hv : versionFor t n = some v) (hv' : versionFor t' n = some v') : v.num ≤ v'.num := by
  have hw := (schedules_wf n).2
  obtain ⟨A, B, e1, e2, _, e4, e5⟩ := filter_le_mono hw t
  obtain ⟨A', B', f1, f2, _, f4, f5⟩ := filter_le_mono hw t'
  unfold versionFor at hv hv'
  rw [e2] at hv
  rw [f2] at hv'
  obtain ⟨s, hs, rfl⟩ := Option.map_eq_some_iff.1 hv
  obtain ⟨s', hs', rfl⟩ := Option.map_eq_some_iff.1 hv'
  obtain ⟨ys, hA⟩ := List.getLast?_eq_some_iff.1 hs
  obtain ⟨ys', hA'⟩ := List.getLast?_eq_some_iff.1 hs'
  -- s is in A', whose last element is s'
  have hsmem : s ∈ A' := by
    have : s ∈ scheduleOf n := by rw [e1, hA]; simp
    rw [f1] at this
    rcases List.mem_append.1 this with h' | h'
    · exact h'
    · have h1 := f5 s h'
      have h2 := e4 s (by simp [hA])
      omega
  rw [hA'] at hsmem
  rcases List.mem_append.1 hsmem with h' | h'
  · rw [f1, hA', List.append_assoc, List.pairwise_append] at hw
    exact Nat.le_of_lt (hw.2.2 s h' s' (by simp)).2
  · have : s = s' := by simpa using h'
    rw [this]; exact Nat.le_refl _

/-- **C26 (features).** Every feature other than the signer-revoke bug stays enabled once enabled. -/
theorem C26_features_stay (f : ProtocolFeature) (hf : f ≠ .signerRevokeBug) (n : Network) (t t' : Nat)
    (h : t ≤ t') (v v' : EngineVersion) (hv : versionFor t n = some v) (hv' : versionFor t' n = some v')
    (he : v.isEnabled f = true) : v'.isEnabled f = true := by
  have hm := C26_version_monotone n t t' h v v' hv hv'
  cases f <;> simp_all [isEnabled, atLeast] <;> omega

/-- Protocol versions never go down. -/
theorem C26_protocol_version_monotone (n : Network) (t t' : Nat) (h : t ≤ t') (v v' : EngineVersion)
    (hv : versionFor t n = some v) (hv' : versionFor t' n = some v') :
    v.protocolVersion ≤ v'.protocolVersion := by
  have hm := C26_version_monotone n t t' h v v' hv hv'
  revert hm
  generalize v = a
  generalize v' = b
  intro hm
  cases a <;> cases b <;> first | decide | (exfalso; revert hm; decide)

/-- **C26 (announced upgrade).** The announced next upgrade time lies in the future, nothing changes
before it, and at it the version goes up. -/
theorem C26_next_upgrade (n : Network) (t u : Nat) (h : nextVersionTimestampFor t n = some u) :
    t < u ∧ (∀ t', t ≤ t' → t' < u → versionFor t' n = versionFor t n) ∧
      ∀ v v', versionFor t n = some v → versionFor u n = some v' → v.num < v'.num := by
  have hw := (schedules_wf n).2
  obtain ⟨A, B, e1, e2, e3, e4, e5⟩ := filter_le_mono hw t
  unfold nextVersionTimestampFor at h
  rw [e3] at h
  obtain ⟨s, hs, rfl⟩ := Option.map_eq_some_iff.1 h
  obtain ⟨B', rfl⟩ : ∃ B', B = s :: B' := by
    cases B with
    | nil => simp at hs
    | cons b B' => simp at hs; exact ⟨B', by rw [hs]⟩
  have hpw := hw
  rw [e1, List.pairwise_append] at hpw
  obtain ⟨_, hB, hAB⟩ := hpw
  refine ⟨e5 s (by simp), ?_, ?_⟩
  · intro t' h1 h2
    obtain ⟨A', B'', f1, f2, _, f4, f5⟩ := filter_le_mono hw t'
    have hBt' : ∀ x ∈ s :: B', t' < x.activeAt := by
      intro x hx
      rcases List.mem_cons.1 hx with rfl | hx
      · exact h2
      · have := ((List.pairwise_cons.1 hB).1 x hx).1; omega
    have := split_unique e1 f1 (fun x hx => Nat.le_trans (e4 x hx) h1) hBt' f4 f5
    unfold versionFor
    rw [f2, e2, this.1]
  · intro v v' hv hv'
    unfold versionFor at hv hv'
    rw [e2] at hv
    obtain ⟨a, ha, rfl⟩ := Option.map_eq_some_iff.1 hv
    obtain ⟨A', B'', f1, f2, _, f4, f5⟩ := filter_le_mono hw s.activeAt
    rw [f2] at hv'
    obtain ⟨b, hb, rfl⟩ := Option.map_eq_some_iff.1 hv'
    have haA : a ∈ A := List.mem_of_getLast? ha
    have hsA' : s ∈ A' := by
      have : s ∈ scheduleOf n := by rw [e1]; simp
      rw [f1] at this
      rcases List.mem_append.1 this with h' | h'
      · exact h'
      · have := f5 s h'; omega
    have hlt := (hAB a haA s (by simp)).2
    obtain ⟨ys, hys⟩ := List.getLast?_eq_some_iff.1 hb
    rw [hys] at hsA'
    rcases List.mem_append.1 hsA' with h' | h'
    · have hw' := hw
      rw [f1, hys, List.append_assoc, List.pairwise_append] at hw'
      have := (hw'.2.2 s h' b (by simp)).2
      omega
    · have : s = b := by simpa using h'
      rw [← this]; exact hlt

/-- When no upgrade is announced, the version never changes again. -/
theorem C26_no_next_upgrade (n : Network) (t t' : Nat) (h : nextVersionTimestampFor t n = none)
    (ht : t ≤ t') : versionFor t' n = versionFor t n := by
  have hw := (schedules_wf n).2
  obtain ⟨A, B, e1, e2, e3, e4, e5⟩ := filter_le_mono hw t
  obtain ⟨A', B', f1, f2, _, f4, f5⟩ := filter_le_mono hw t'
  unfold nextVersionTimestampFor at h
  rw [e3] at h
  have hB : B = [] := by
    cases B with
    | nil => rfl
    | cons b B => simp at h
  subst hB
  have := split_unique e1 f1 (fun x hx => Nat.le_trans (e4 x hx) ht) (by simp) f4 f5
  unfold versionFor
  rw [e2, f2, this.1]

/-- Devnet (and an unset network) always runs the newest version. -/
theorem C26_devnet_latest (t : Nat) (n : Network) (h : n = .devnet ∨ n = .none) :
    versionFor t n = some latest ∧ ∀ v : EngineVersion, v.num ≤ latest.num := by
  refine ⟨?_, by intro v; cases v <;> decide⟩
  rcases h with rfl | rfl <;> simp [versionFor, scheduleOf, scheduleDevnet, latest]

theorem range_split (t : Nat) :
    t < 1747333800 ∨ (1747333800 ≤ t ∧ t < 1747352400) ∨ (1747352400 ≤ t ∧ t < 1747356000) ∨
      (1747356000 ≤ t ∧ t < 1747417200) ∨ 1747417200 ≤ t := by omega

/-- The signer-revoke bug was active on mainnet in exactly two windows, and nowhere else. -/
theorem C26_signer_revoke_bug_windows (t : Nat) (n : Network) (v : EngineVersion)
    (hv : versionFor t n = some v) :
    v.isEnabled .signerRevokeBug = true ↔
      n = .mainnet ∧ ((1747333800 ≤ t ∧ t < 1747352400) ∨ (1747356000 ≤ t ∧ t < 1747417200)) := by
  cases n with
  | none => simp [versionFor, scheduleOf, scheduleDevnet] at hv; subst hv; simp [isEnabled]
  | devnet => simp [versionFor, scheduleOf, scheduleDevnet] at hv; subst hv; simp [isEnabled]
  | testnet =>
    have hm : v ≠ .v1 ∧ v ≠ .v3 := by
      unfold versionFor at hv
      obtain ⟨s, hs, rfl⟩ := Option.map_eq_some_iff.1 hv
      have hmem := (List.mem_filter.1 (List.mem_of_getLast? hs)).1
      have : ∀ s ∈ scheduleTestnet, s.version ≠ .v1 ∧ s.version ≠ .v3 := by decide
      exact this s hmem
    simp [isEnabled, hm.1, hm.2]
  | mainnet =>
    have key : ∀ lo w, versionFor lo .mainnet = some w → lo ≤ t →
        (∀ u, nextVersionTimestampFor lo .mainnet = some u → t < u) → v = w := by
      intro lo w hw hlo hu
      cases hn : nextVersionTimestampFor lo .mainnet with
      | none =>
        have := C26_no_next_upgrade .mainnet lo t hn hlo
        rw [this, hw] at hv; exact (Option.some.inj hv).symm
      | some u =>
        have := (C26_next_upgrade .mainnet lo u hn).2.1 t hlo (hu u hn)
        rw [this, hw] at hv; exact (Option.some.inj hv).symm
    rcases range_split t with h | h | h | h | h
    · have := key 0 .v0 (by decide) (by omega)
        (by intro u hu; have e : nextVersionTimestampFor 0 .mainnet = some 1747333800 := by decide
            rw [e] at hu; injection hu with hu; omega)
      subst this; simp [isEnabled]; omega
    · have := key 1747333800 .v1 (by decide) (by omega)
        (by intro u hu; have e : nextVersionTimestampFor 1747333800 .mainnet = some 1747352400 := by decide
            rw [e] at hu; injection hu with hu; omega)
      subst this; simp [isEnabled]; omega
    · have := key 1747352400 .v2 (by decide) (by omega)
        (by intro u hu; have e : nextVersionTimestampFor 1747352400 .mainnet = some 1747356000 := by decide
            rw [e] at hu; injection hu with hu; omega)
      subst this; simp [isEnabled]; omega
    · have := key 1747356000 .v3 (by decide) (by omega)
        (by intro u hu; have e : nextVersionTimestampFor 1747356000 .mainnet = some 1747417200 := by decide
            rw [e] at hu; injection hu with hu; omega)
      subst this; simp [isEnabled]; omega
    · have h4 : versionFor 1747417200 .mainnet = some .v4 := by decide
      have hm := C26_version_monotone .mainnet 1747417200 t h .v4 v h4 hv
      have h1 : v ≠ .v1 := by intro e; subst e; revert hm; decide
      have h3 : v ≠ .v3 := by intro e; subst e; revert hm; decide
      simp [isEnabled, h1, h3]; omega

/-- The five consensus-coupled channel features are enabled together or not at all. -/
theorem C26_channel_features_together (v : EngineVersion) :
    v.isEnabled .channelRegistrations = v.isEnabled .sortedBlockEngineEvents ∧
    v.isEnabled .channelRegistrations = v.isEnabled .channelOwnershipEvents ∧
    v.isEnabled .channelRegistrations = v.isEnabled .channelMessages ∧
    v.isEnabled .channelRegistrations = v.isEnabled .verificationsOnShardZero := by
  cases v <;> decide

/-- Non-vacuity. -/
example : versionFor 1759942800 .mainnet = some .v13 ∧
    nextVersionTimestampFor 1758733200 .mainnet = some 1759942800 ∧
    versionFor 1759942799 .mainnet = some .v10 := by decide

end Verif
