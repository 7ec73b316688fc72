import Verif.Spec.FanOut
import Verif.Spec.Scan
/-!
Lemmas about listings over all shards.
-/
namespace Verif

theorem FollowTokens.pages {M : Type} {page : Option Bytes → Except HubErr (MessagesPage M)} {t : Option Bytes}
    {ms : List M} (h : FollowTokens page t ms) : ∃ k, PagesTo page t k ms := by
  induction h with
  | last e => exact ⟨1, .last e⟩
  | next e _ ih => obtain ⟨k, hk⟩ := ih; exact ⟨k + 1, .next e hk⟩

/-- A shard together with its scan and what remains of its listing. -/
structure ShardPart (S M : Type) where
  shard : Nat
  store : S
  scan : ShardScan
  rest : List M

namespace ShardPart
variable {S M : Type} (page : S → Option Bytes → Except HubErr (MessagesPage M))

def cursor (z : ShardPart S M) : ShardCursor := ⟨z.shard, z.scan⟩
def entry (z : ShardPart S M) : Nat × ShardScan := (z.shard, z.scan)
def home (z : ShardPart S M) : Nat × S := (z.shard, z.store)

/-- The scan of the part has at most `K` pages to go, which give `rest`. -/
def Left (K : Nat) (z : ShardPart S M) : Prop :=
  match z.scan with
  | .exhausted => z.rest = []
  | .fresh => ∃ k, k ≤ K ∧ PagesTo (page z.store) none k z.rest
  | .resume t => ∃ k, k ≤ K ∧ PagesTo (page z.store) (some t) k z.rest

end ShardPart

section
variable {S M : Type} {page : S → Option Bytes → Except HubErr (MessagesPage M)}

theorem PagesTo.step {p : Option Bytes → Except HubErr (MessagesPage M)} {t : Option Bytes} {k : Nat} {L : List M}
    (h : PagesTo p t k L) :
    ∃ pg rest, p t = .ok pg ∧ L = pg.messages ++ rest ∧
      ((pg.nextPageToken = none ∧ rest = [] ∧ k = 1) ∨
       ∃ t', pg.nextPageToken = some t' ∧ PagesTo p (some t') (k - 1) rest ∧ 2 ≤ k) := by
  cases h with
  | last e => exact ⟨_, [], e, by simp, .inl ⟨rfl, rfl, rfl⟩⟩
  | next e h' =>
    rename_i k rest
    refine ⟨_, rest, e, rfl, .inr ⟨_, rfl, by simpa using h', ?_⟩⟩
    cases h' <;> omega

theorem loop_exhausted {s : Nat} {st : S} {rest : List (Nat × S)} {scans : List (Nat × ShardScan)}
    {r : List M × List ShardCursor}
    (hf : scans.find? (fun p => p.1 = s) = some (s, .exhausted)) (hr : fanOutLoop page rest scans = .ok r) :
    fanOutLoop page ((s, st) :: rest) scans = .ok (r.1, ⟨s, .exhausted⟩ :: r.2) := by
  rw [fanOutLoop, hf]
  simp [hr]

theorem loop_read {s : Nat} {st : S} {rest : List (Nat × S)} {scans : List (Nat × ShardScan)} {scan : ShardScan}
    {r : List M × List ShardCursor} {pg : MessagesPage M}
    (hf : scans.find? (fun p => p.1 = s) = some (s, scan)) (hs : scan ≠ .exhausted)
    (hr : fanOutLoop page rest scans = .ok r) (hp : page st scan.token = .ok pg) :
    fanOutLoop page ((s, st) :: rest) scans = .ok (pg.messages ++ r.1, ⟨s, .after pg.nextPageToken⟩ :: r.2) := by
  rw [fanOutLoop, hf]
  cases scan with
  | exhausted => exact absurd rfl hs
  | fresh => simp [hr, hp]
  | resume t => simp [hr, hp]

theorem loop_step (K : Nat) (scans : List (Nat × ShardScan)) (zs : List (ShardPart S M))
    (hfind : ∀ z ∈ zs, scans.find? (fun p => p.1 = z.shard) = some z.entry)
    (hz : ∀ z ∈ zs, z.Left page (K + 1)) :
    ∃ (ms : List M) (zs' : List (ShardPart S M)), fanOutLoop page (zs.map ShardPart.home) scans = .ok (ms, zs'.map ShardPart.cursor) ∧
      zs'.map ShardPart.home = zs.map ShardPart.home ∧ (∀ z ∈ zs', z.Left page K) ∧
      (ms ++ zs'.flatMap ShardPart.rest).Perm (zs.flatMap ShardPart.rest) ∧
      (K = 0 → ∀ z ∈ zs', z.scan = .exhausted) := by
  induction zs with
  | nil => exact ⟨[], [], by simp [fanOutLoop], rfl, by simp, by simp, by simp⟩
  | cons z zs ih =>
    obtain ⟨ms, zs', h1, h2, h3, h4, h5⟩ := ih (fun z hz' => hfind z (by simp [hz'])) (fun z hz' => hz z (by simp [hz']))
    have hl := hz z (by simp)
    have hfz := hfind z (by simp)
    obtain ⟨s, st, scan, L⟩ := z
    have hread : ∀ t, (∃ k, k ≤ K + 1 ∧ PagesTo (page st) t k L) →
        ∃ pg L', page st t = .ok pg ∧ L = pg.messages ++ L' ∧
          ShardPart.Left page K ⟨s, st, .after pg.nextPageToken, L'⟩ ∧
          (K = 0 → pg.nextPageToken = none) := by
      rintro t ⟨k, hk, hp⟩
      obtain ⟨pg, L', e1, e2, ⟨e3, e4, _⟩ | ⟨t', e3, e4, e5⟩⟩ := hp.step
      · exact ⟨pg, L', e1, e2, by simp [e3, ShardPart.Left, e4, ShardScan.after], fun _ => e3⟩
      · exact ⟨pg, L', e1, e2, by simp only [e3, ShardPart.Left, ShardScan.after]; exact ⟨_, by omega, e4⟩, by omega⟩
    have hcont : ∀ (_ : scan ≠ .exhausted) (_ : ∃ k, k ≤ K + 1 ∧ PagesTo (page st) scan.token k L),
        ∃ (ms : List M) (zs' : List (ShardPart S M)), fanOutLoop page (((⟨s, st, scan, L⟩ : ShardPart S M) :: zs).map ShardPart.home) scans = .ok (ms, zs'.map ShardPart.cursor) ∧
          zs'.map ShardPart.home = ((⟨s, st, scan, L⟩ : ShardPart S M) :: zs).map ShardPart.home ∧ (∀ z ∈ zs', z.Left page K) ∧
          (ms ++ zs'.flatMap ShardPart.rest).Perm (((⟨s, st, scan, L⟩ : ShardPart S M) :: zs).flatMap ShardPart.rest) ∧
          (K = 0 → ∀ z ∈ zs', z.scan = .exhausted) := by
      intro hs hk
      obtain ⟨pg, L', e1, e2, e3, e4⟩ := hread _ hk
      have hl := loop_read hfz hs h1 e1
      refine ⟨_, ⟨s, st, .after pg.nextPageToken, L'⟩ :: zs', hl, ?_, ?_, ?_, ?_⟩
      · simp [ShardPart.home, h2]
      · intro z hz'
        rcases List.mem_cons.1 hz' with rfl | hz'
        · exact e3
        · exact h3 z hz'
      · simp only [List.flatMap_cons, e2, List.append_assoc]
        apply List.Perm.append_left
        refine List.Perm.trans ?_ (List.Perm.append_left _ h4)
        rw [← List.append_assoc, ← List.append_assoc]
        exact List.Perm.append_right _ List.perm_append_comm
      · intro hK z hz'
        rcases List.mem_cons.1 hz' with rfl | hz'
        · simp [e4 hK, ShardScan.after]
        · exact h5 hK z hz'
    cases scan with
    | exhausted =>
      have hL : L = [] := hl
      subst hL
      refine ⟨ms, ⟨s, st, .exhausted, []⟩ :: zs', ?_, ?_, ?_, ?_, ?_⟩
      · show fanOutLoop page ((s, st) :: zs.map ShardPart.home) scans = _
        rw [loop_exhausted hfz h1]; rfl
      · simp [ShardPart.home, h2]
      · intro z hz'
        rcases List.mem_cons.1 hz' with rfl | hz'
        · rfl
        · exact h3 z hz'
      · simpa using h4
      · intro hK z hz'
        rcases List.mem_cons.1 hz' with rfl | hz'
        · rfl
        · exact h5 hK z hz'
    | fresh =>
      exact hcont (by simp) hl
    | resume t =>
      exact hcont (by simp) hl

theorem insertCursors_ok (cs : List ShardCursor) (acc : List (Nat × ShardScan))
    (h : (acc.map Prod.fst ++ cs.map ShardCursor.shard).Nodup) :
    insertCursors cs acc = .ok (acc ++ cs.map (fun c => (c.shard, c.scan))) := by
  induction cs generalizing acc with
  | nil => simp [insertCursors]
  | cons c cs ih =>
    have hn : ¬ acc.any (fun p => p.1 = c.shard) = true := by
      simp only [List.any_eq_true, decide_eq_true_eq, not_exists, not_and]
      intro p hp e
      have := (List.nodup_append.1 h).2.2 p.1 (List.mem_map_of_mem hp) c.shard (by simp)
      exact this e
    rw [insertCursors, if_neg hn, ih]
    · simp
    · simpa using h

theorem insertCursors_nodup (cs : List ShardCursor) (acc : List (Nat × ShardScan)) (r : List (Nat × ShardScan))
    (ha : (acc.map Prod.fst).Nodup) (h : insertCursors cs acc = .ok r) :
    (acc.map Prod.fst ++ cs.map ShardCursor.shard).Nodup := by
  induction cs generalizing acc with
  | nil => simpa using ha
  | cons c cs ih =>
    rw [insertCursors] at h
    split at h
    · cases h
    · rename_i hn
      simp only [List.any_eq_true, decide_eq_true_eq, not_exists, not_and] at hn
      have := ih (acc ++ [(c.shard, c.scan)]) ?_ h
      · simpa using this
      · simp only [List.map_append, List.map_cons, List.map_nil, List.nodup_append, ha, List.nodup_cons,
          List.not_mem_nil, not_false_eq_true, List.nodup_nil, and_self, true_and, List.mem_map, List.mem_singleton]
        rintro a ⟨p, hp, rfl⟩ b rfl e
        exact hn p hp e

theorem perm_of_subset_length (a b : List Nat) (hb : b.Nodup) (h : b ⊆ a) (hl : a.length = b.length) : a.Perm b := by
  induction b generalizing a with
  | nil => simp at hl; simp [hl]
  | cons x b ih =>
    have hx : x ∈ a := h (by simp)
    have hp := List.perm_cons_erase hx
    refine hp.trans (List.Perm.cons x (ih (a.erase x) (List.nodup_cons.1 hb).2 ?_ ?_))
    · intro y hy
      have hne : y ≠ x := fun e => (List.nodup_cons.1 hb).1 (e ▸ hy)
      exact (List.mem_erase_of_ne hne).2 (h (by simp [hy]))
    · have := List.length_erase_of_mem hx
      simp only [List.length_cons] at hl
      omega

/-- A token is accepted exactly if it names each hosted shard once and no other. -/
theorem decode_given (cs : List ShardCursor) (shards : List Nat) (hs : shards.Nodup) :
    (cs.map ShardCursor.shard).Perm shards ∧
        decodeShardCursors (.given cs) shards = .ok (cs.map (fun c => (c.shard, c.scan))) ∨
    ¬ (cs.map ShardCursor.shard).Perm shards ∧ decodeShardCursors (.given cs) shards = .error .invalidParameter := by
  have hdec : decodeShardCursors (.given cs) shards =
      match insertCursors cs [] with
      | .error e => .error e
      | .ok scans =>
        if scans.length ≠ shards.length || shards.any (fun s => !scans.any (fun p => p.1 = s))
        then .error .invalidParameter
        else .ok scans := rfl
  rw [hdec]
  have herr : ∀ cs acc e, insertCursors cs acc = .error e → e = .invalidParameter := by
    intro cs
    induction cs with
    | nil => intro acc e h; simp [insertCursors] at h
    | cons c cs ih =>
      intro acc e h
      rw [insertCursors] at h
      split at h
      · cases h; rfl
      · exact ih _ _ h
  cases h : insertCursors cs [] with
  | error e =>
    refine .inr ⟨fun hp => ?_, by simp only [herr cs [] e h]⟩
    rw [insertCursors_ok cs [] (by simpa using hp.nodup_iff.2 hs)] at h
    cases h
  | ok r =>
    have hn := insertCursors_nodup cs [] r (by simp) h
    have hr := insertCursors_ok cs [] hn
    rw [h] at hr
    injection hr with hr
    subst hr
    simp only [List.map_nil, List.nil_append] at hn
    simp only [List.nil_append]
    split
    · rename_i hbad
      refine .inr ⟨fun hp => ?_, rfl⟩
      simp only [List.length_map, ne_eq, decide_not, Bool.or_eq_true, Bool.not_eq_true', decide_eq_false_iff_not,
        List.any_eq_true] at hbad
      rcases hbad with hl | ⟨s, hs', hb⟩
      · exact hl (by simpa using hp.length_eq)
      · obtain ⟨c, hc, rfl⟩ := List.mem_map.1 (hp.mem_iff.2 hs')
        have : (List.map (fun c => (c.shard, c.scan)) cs).any (fun p => p.1 = c.shard) = true :=
          List.any_eq_true.2 ⟨(c.shard, c.scan), List.mem_map.2 ⟨c, hc, rfl⟩, by simp⟩
        rw [this] at hb; cases hb
    · rename_i hgood
      refine .inl ⟨?_, rfl⟩
      simp only [List.length_map, ne_eq, decide_not, Bool.or_eq_true, Bool.not_eq_true', decide_eq_false_iff_not,
        List.any_eq_true, not_or, Decidable.not_not, not_exists, not_and, Bool.not_eq_false] at hgood
      obtain ⟨hl, hm⟩ := hgood
      have hsub : shards ⊆ cs.map ShardCursor.shard := by
        intro s hs'
        obtain ⟨p, hp, e⟩ := hm s hs'
        obtain ⟨c, hc, rfl⟩ := List.mem_map.1 hp
        exact List.mem_map.2 ⟨c, hc, by simpa using e⟩
      exact perm_of_subset_length _ _ hs hsub (by simp [hl])

theorem find_entry (zs : List (ShardPart S M)) (hn : (zs.map ShardPart.shard).Nodup) (z : ShardPart S M) (hz : z ∈ zs) :
    (zs.map ShardPart.entry).find? (fun p => p.1 = z.shard) = some z.entry := by
  induction zs with
  | nil => simp at hz
  | cons y ys ih =>
    simp only [List.map_cons, List.nodup_cons] at hn
    rcases List.mem_cons.1 hz with rfl | hz
    · simp [ShardPart.entry]
    · have hne : y.shard ≠ z.shard := fun e => hn.1 (e ▸ List.mem_map_of_mem hz)
      simp only [List.map_cons, List.find?_cons, ShardPart.entry, hne, decide_false]
      exact ih hn.2 hz

theorem FollowsTo.congr_head {T : Type} {F : TokenIn T → Except HubErr (List M × Option T)} {t t' : TokenIn T}
    {ms : List M} (e : F t = F t') (h : FollowsTo F t ms) : FollowsTo F t' ms := by
  cases h with
  | last h => exact .last (e ▸ h)
  | next h h' => exact .next (e ▸ h) h'

theorem fan_follow (K : Nat) (zs : List (ShardPart S M)) (hn : (zs.map ShardPart.shard).Nodup)
    (hz : ∀ z ∈ zs, z.Left page (K + 1)) :
    ∃ ms, FollowsTo (fanOutPage page (zs.map ShardPart.home)) (.given (zs.map ShardPart.cursor)) ms ∧
      ms.Perm (zs.flatMap ShardPart.rest) := by
  induction K generalizing zs with
  | zero =>
    obtain ⟨ms, zs', h1, h2, h3, h4, h5⟩ := loop_step 0 (zs.map ShardPart.entry) zs (find_entry zs hn) hz
    refine ⟨ms, .last ?_, ?_⟩
    · have hs : (zs.map ShardPart.home).map Prod.fst = zs.map ShardPart.shard := by simp [ShardPart.home]
      have hd : decodeShardCursors (.given (zs.map ShardPart.cursor)) ((zs.map ShardPart.home).map Prod.fst) = .ok (zs.map ShardPart.entry) := by
        rw [hs]
        rcases decode_given (zs.map ShardPart.cursor) _ hn with ⟨_, h⟩ | ⟨h, _⟩
        · rw [h]; simp [ShardPart.cursor, ShardPart.entry]
        · exact absurd (by simp [ShardPart.cursor, Function.comp_def]) h
      unfold fanOutPage
      rw [hd]
      simp only [h1]
      have : encodeShardCursors (zs'.map ShardPart.cursor) = none := by
        unfold encodeShardCursors
        rw [if_pos]
        simp only [List.all_map, List.all_eq_true]
        intro z hz'
        simp [ShardPart.cursor, h5 rfl z hz']
      rw [this]
    · have : zs'.flatMap ShardPart.rest = [] := by
        simp only [List.flatMap_eq_nil_iff]
        intro z hz'
        have := h3 z hz'
        unfold ShardPart.Left at this
        rw [h5 rfl z hz'] at this
        exact this
      simpa [this] using h4
  | succ K ih =>
    obtain ⟨ms, zs', h1, h2, h3, h4, h5⟩ := loop_step (K + 1) (zs.map ShardPart.entry) zs (find_entry zs hn) hz
    have hs : (zs.map ShardPart.home).map Prod.fst = zs.map ShardPart.shard := by simp [ShardPart.home]
    have hd : decodeShardCursors (.given (zs.map ShardPart.cursor)) ((zs.map ShardPart.home).map Prod.fst) = .ok (zs.map ShardPart.entry) := by
      rw [hs]
      rcases decode_given (zs.map ShardPart.cursor) _ hn with ⟨_, h⟩ | ⟨h, _⟩
      · rw [h]; simp [ShardPart.cursor, ShardPart.entry]
      · exact absurd (by simp [ShardPart.cursor, Function.comp_def]) h
    have hpage : fanOutPage page (zs.map ShardPart.home) (.given (zs.map ShardPart.cursor)) =
        .ok (ms, encodeShardCursors (zs'.map ShardPart.cursor)) := by
      unfold fanOutPage
      rw [hd]
      simp only [h1]
    cases he : encodeShardCursors (zs'.map ShardPart.cursor) with
    | none =>
      rw [he] at hpage
      refine ⟨ms, .last hpage, ?_⟩
      have : zs'.flatMap ShardPart.rest = [] := by
        simp only [List.flatMap_eq_nil_iff]
        intro z hz'
        have h := h3 z hz'
        unfold encodeShardCursors at he
        split at he
        · rename_i hall
          simp only [List.all_map, List.all_eq_true] at hall
          have hx := hall z hz'
          have hx : z.scan = .exhausted := of_decide_eq_true hx
          unfold ShardPart.Left at h
          rw [hx] at h
          exact h
        · cases he
      simpa [this] using h4
    | some cs =>
      rw [he] at hpage
      have hcs : cs = zs'.map ShardPart.cursor := by
        unfold encodeShardCursors at he
        split at he
        · cases he
        · cases he; rfl
      subst hcs
      have hn' : (zs'.map ShardPart.shard).Nodup := by
        have := congrArg (List.map Prod.fst) h2
        simp only [List.map_map] at this
        have e : zs'.map ShardPart.shard = zs.map ShardPart.shard := this
        rw [e]; exact hn
      obtain ⟨rest, hf, hp⟩ := ih zs' hn' h3
      rw [h2] at hf
      exact ⟨ms ++ rest, .next hpage hf, (List.Perm.append_left ms hp).trans h4⟩

/-- From the first page on: every shard listing `L` is followed to its end. -/
theorem fan_start (xs : List (Nat × S)) (L : Nat × S → List M) (hn : (xs.map Prod.fst).Nodup)
    (h : ∀ x ∈ xs, FollowTokens (page x.2) none (L x)) :
    ∃ ms, FollowsTo (fanOutPage page xs) .absent ms ∧ ms.Perm (xs.flatMap L) := by
  have hK : ∃ K, ∀ x ∈ xs, ∃ k, k ≤ K + 1 ∧ PagesTo (page x.2) none k (L x) := by
    clear hn
    induction xs with
    | nil => exact ⟨0, by simp⟩
    | cons x xs ih =>
      obtain ⟨K, hK⟩ := ih (fun y hy => h y (by simp [hy]))
      obtain ⟨k, hk⟩ := (h x (by simp)).pages
      refine ⟨max K k, ?_⟩
      intro y hy
      rcases List.mem_cons.1 hy with rfl | hy
      · exact ⟨k, by omega, hk⟩
      · obtain ⟨k', h1, h2⟩ := hK y hy
        exact ⟨k', by omega, h2⟩
  obtain ⟨K, hK⟩ := hK
  let zs : List (ShardPart S M) := xs.map (fun x => ⟨x.1, x.2, .fresh, L x⟩)
  have hhome : zs.map ShardPart.home = xs := by simp [zs, ShardPart.home, Function.comp_def]
  have hshard : zs.map ShardPart.shard = xs.map Prod.fst := by simp [zs]
  obtain ⟨ms, hf, hp⟩ := fan_follow (page := page) K zs (by rw [hshard]; exact hn) (by
    intro z hz
    obtain ⟨x, hx, rfl⟩ := List.mem_map.1 hz
    exact hK x hx)
  rw [hhome] at hf
  refine ⟨ms, hf.congr_head ?_, ?_⟩
  · have hd : decodeShardCursors (.given (zs.map ShardPart.cursor)) (xs.map Prod.fst) = decodeShardCursors .absent (xs.map Prod.fst) := by
      rcases decode_given (zs.map ShardPart.cursor) _ hn with ⟨_, h⟩ | ⟨h, _⟩
      · rw [h]; simp [decodeShardCursors, zs, ShardPart.cursor]
      · exact absurd (by simp [zs, ShardPart.cursor, Function.comp_def]) h
    unfold fanOutPage
    rw [hd]
  · simpa [zs, List.flatMap_map] using hp

theorem allShardStores_ok (hosted : Nat → Option S) (n : Nat) (xs : Nat → S)
    (h : ∀ s, 1 ≤ s → s ≤ n → hosted s = some (xs s)) :
    allShardStores hosted n = .ok ((List.range' 1 n).map (fun s => (s, xs s))) := by
  unfold allShardStores
  have h' : ∀ s ∈ List.range' 1 n, hosted s = some (xs s) := by
    intro s hs
    rw [List.mem_range'_1] at hs
    exact h s hs.1 (by omega)
  generalize List.range' 1 n = l at h'
  induction l with
  | nil => rfl
  | cons s l ih =>
    rw [List.foldr_cons, ih (fun y hy => h' y (by simp [hy])), h' s (by simp)]
    rfl

theorem allShardStores_missing (hosted : Nat → Option S) (n s : Nat) (h1 : 1 ≤ s) (h2 : s ≤ n) (h : hosted s = none) :
    allShardStores hosted n = .error .invalidInternalState := by
  unfold allShardStores
  have hm : s ∈ List.range' 1 n := by rw [List.mem_range'_1]; omega
  generalize List.range' 1 n = l at hm
  induction l with
  | nil => simp at hm
  | cons a l ih =>
    rw [List.foldr_cons]
    rcases List.mem_cons.1 hm with rfl | hm
    · rw [h]
    · rw [ih hm]
      cases hosted a <;> rfl

theorem FollowTokens.unique {page : Option Bytes → Except HubErr (MessagesPage M)} {t : Option Bytes} {a b : List M}
    (ha : FollowTokens page t a) (hb : FollowTokens page t b) : a = b := by
  induction ha generalizing b with
  | last e =>
    cases hb with
    | last e' => rw [e] at e'; injection e' with e'; injection e'
    | next e' _ => rw [e] at e'; injection e' with e'; injection e' with _ e'; cases e'
  | next e _ ih =>
    cases hb with
    | last e' => rw [e] at e'; injection e' with e'; injection e' with _ e'; cases e'
    | next e' h' =>
      rw [e] at e'
      injection e' with e'
      injection e' with e1 e2
      cases e2
      rw [e1, ih h']

theorem FollowsTo.unique {T : Type} {F : TokenIn T → Except HubErr (List M × Option T)} {t : TokenIn T} {a b : List M}
    (ha : FollowsTo F t a) (hb : FollowsTo F t b) : a = b := by
  induction ha generalizing b with
  | last e =>
    cases hb with
    | last e' => rw [e] at e'; injection e' with e'; injection e'
    | next e' _ => rw [e] at e'; injection e' with e'; injection e' with _ e'; cases e'
  | next e _ ih =>
    cases hb with
    | last e' => rw [e] at e'; injection e' with e'; injection e' with _ e'; cases e'
    | next e' h' =>
      rw [e] at e'
      injection e' with e'
      injection e' with e1 e2
      cases e2
      rw [e1, ih h']

/-- Treating an empty token as absent changes nothing for a listing that refuses empty tokens. -/
theorem FollowTokens.nonempty {page page' : Option Bytes → Except HubErr (MessagesPage M)}
    (h : ∀ t, t ≠ some [] → page' t = page t) (he : ∀ p, page (some []) ≠ .ok p) {t : Option Bytes} {ms : List M}
    (ht : t ≠ some []) (hf : FollowTokens page t ms) : FollowTokens page' t ms := by
  induction hf with
  | last e => exact .last (by rw [h _ ht]; exact e)
  | next e h' ih =>
    refine .next (by rw [h _ ht]; exact e) (ih ?_)
    intro e'
    rw [e'] at h'
    cases h' with
    | last e => exact he _ e
    | next e _ => exact he _ e

end

end Verif
