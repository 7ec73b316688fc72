import Verif.Lemmas.ListingKinds
/-! The channel follow index. -/
namespace Verif
variable {U : Msg → Prop} {channelOf : Bytes → Option Bytes} {ctx : Nat → MergeCtx} {db : Db SVal}

/-- What the follow step makes of a row. -/
def followDec (plen : Nat) (entry : Bytes → Nat → Except HubErr FollowEntry) (k : Bytes) (v : SVal) :
    Except HubErr FollowEntry :=
  if k.length ≠ plen + (38 - plen) then .error .invalidInternalState
  else match followedAtOf v with
    | .error e => .error e
    | .ok t => entry (k.drop plen) t

theorem followStep_of_keyed (plen : Nat) (entry : Bytes → Nat → Except HubErr FollowEntry) (lim : Nat)
    (rows : List (Bytes × SVal)) (c : Nat) (acc : List FollowEntry) (lk0 : Option Bytes)
    (x : List FollowEntry × Bytes) (d : Bool)
    (h : iterate none (keyedStep (followDec plen entry) lim) rows c (acc, []) = .ok (x, d)) :
    ∃ lk, iterate none (followStep plen entry lim) rows c (acc, lk0) = .ok ((x.1, lk), d) ∧
      (d = true → x.2 = []) ∧ (d = false → lk = some x.2 ∧ ∃ v, (x.2, v) ∈ rows) := by
  induction rows generalizing c acc lk0 with
  | nil =>
    simp only [iterate, Except.ok.injEq, Prod.mk.injEq] at h
    refine ⟨lk0, ?_, ?_, ?_⟩
    · simp [iterate, ← h.1, ← h.2]
    · intro _; rw [← h.1]
    · intro hd; rw [← h.2] at hd; cases hd
  | cons a rows ih =>
    obtain ⟨k, v⟩ := a
    simp only [iterate, keyedStep, followDec] at h
    simp only [iterate, followStep]
    by_cases hl : k.length ≠ plen + (38 - plen)
    · simp only [if_pos hl] at h; cases h
    · simp only [if_neg hl] at h ⊢
      cases hf : followedAtOf v with
      | error e => simp only [hf] at h; cases h
      | ok t =>
        simp only [hf] at h ⊢
        cases he : entry (k.drop plen) t with
        | error e => simp only [he] at h; cases h
        | ok m =>
          simp only [he] at h ⊢
          by_cases hm : (acc ++ [m]).length ≥ lim
          · simp only [if_pos hm] at h
            simp only [decide_eq_true hm]
            simp only [Except.ok.injEq, Prod.mk.injEq] at h
            refine ⟨some k, ?_, ?_, ?_⟩
            · simp [← h.1, ← h.2]
            · intro hd; rw [← h.2] at hd; cases hd
            · intro _; rw [← h.1]; exact ⟨rfl, v, by simp⟩
          · simp only [if_neg hm] at h
            simp only [decide_eq_false hm]
            obtain ⟨lk, h1, h2, h3⟩ := ih c (acc ++ [m]) (some k) h
            refine ⟨lk, h1, h2, ?_⟩
            intro hd
            obtain ⟨e, v', hv'⟩ := h3 hd
            exact ⟨e, v', by simp [hv']⟩

theorem FollowTokens.congrOn {M : Type} {page page' : Option Bytes → Except HubErr (MessagesPage M)}
    {T : Option Bytes → Prop}
    (h : ∀ t p, T t → page t = .ok p → page' t = .ok p ∧ (p.nextPageToken ≠ none → T p.nextPageToken))
    {t : Option Bytes} {ms : List M} (ht : T t) (hf : FollowTokens page t ms) : FollowTokens page' t ms := by
  induction hf with
  | last e => exact .last (h _ _ ht e).1
  | next e _ ih =>
    have := h _ _ ht e
    exact .next this.1 (ih (this.2 (by simp)))

/-- Paging through a follow index lists its rows in order. -/
theorem follow_follows (db : Db SVal) (p : Bytes) (entry : Bytes → Nat → Except HubErr FollowEntry)
    (hp : ∃ b ∈ p, b ≠ 255) (hs : NoShortKey db p)
    (hd : ∀ r ∈ rowsStartingWith db p, ∃ e, followDec p.length entry r.1 r.2 = .ok e) (n : Option Nat) (rev : Bool) :
    FollowTokens (fun t => followPage db p entry { pageSize := n, pageToken := t, reverse := rev }) none
      (inDirection rev ((rowsStartingWith db p).filterMap (fun r => (followDec p.length entry r.1 r.2).toOption))) := by
  have hne : p ≠ [] := by rintro rfl; simp at hp
  have hscan := scan_prefix_eq db p hp hs rev
  have h := follow_keyed false (followDec p.length entry) db p (incrementVec p) hne rev
    (by
      intro r hr
      rw [hscan] at hr
      apply hd
      cases rev <;> simpa [inDirection] using hr) n pageSizeMax
  rw [hscan] at h
  have e : (inDirection rev (rowsStartingWith db p)).filterMap (fun r => (followDec p.length entry r.1 r.2).toOption) =
      inDirection rev ((rowsStartingWith db p).filterMap (fun r => (followDec p.length entry r.1 r.2).toOption)) := by
    cases rev <;> simp [inDirection, List.filterMap_reverse]
  rw [e] at h
  refine h.congrOn (T := fun t => ∀ k, t = some k → p <+: k) ?_ (by simp)
  intro t pg ht hpg
  unfold keyedPage at hpg
  unfold followPage forEachByPrefix forEachPaged
  have hreq : requirePageTokenInPrefix p { pageSize := n, pageToken := t, reverse := rev } = .ok () := by
    unfold requirePageTokenInPrefix
    cases t with
    | none => rfl
    | some k => simp [List.isPrefixOf_iff_prefix, ht k rfl]
  rw [hreq]
  simp only [Bool.false_eq_true, if_false] at hpg ⊢
  have ei : iterBounds (some p) (some (incrementVec p)) { pageSize := none, pageToken := t, reverse := rev } =
    iterBounds (some p) (some (incrementVec p)) { pageSize := n, pageToken := t, reverse := rev } := rfl
  rw [ei]
  have hsub : ∀ r ∈ scanRows db (iterBounds (some p) (some (incrementVec p)) { pageSize := n, pageToken := t, reverse := rev }).1
      (iterBounds (some p) (some (incrementVec p)) { pageSize := n, pageToken := t, reverse := rev }).2 rev,
      p <+: r.1 := by
    intro r hr
    have h1 : r ∈ scanRows db p (incrementVec p) rev := by
      cases t with
      | none => cases rev <;> simpa [iterBounds] using hr
      | some k =>
        have hk := ht k rfl
        have hrange : Bytes.blt k p = false ∧ Bytes.blt k (incrementVec p) = true := (mem_range_iff hp).2 (.inl hk)
        have := scan_with_token db p (incrementVec p) k rev n hrange.1 hrange.2
        simp only at this
        rw [this] at hr
        exact (List.mem_filter.1 hr).1
    rw [hscan] at h1
    have h2 : r ∈ rowsStartingWith db p := by cases rev <;> simpa [inDirection] using h1
    exact List.isPrefixOf_iff_prefix.1 (List.mem_filter.1 h2).2
  generalize hrows : scanRows db _ _ _ = rows at hpg hsub ⊢
  cases hx : iterate none (keyedStep (followDec p.length entry) (n.getD pageSizeMax)) rows 0 ([], []) with
  | error e => simp [hx] at hpg
  | ok y =>
    obtain ⟨⟨ms, lk⟩, d⟩ := y
    simp only [hx, Except.ok.injEq] at hpg
    obtain ⟨lk', h1, h2, h3⟩ := followStep_of_keyed _ _ _ _ _ _ none _ _ hx
    rw [h1]
    cases d with
    | true =>
      have := h2 rfl
      simp only at this
      subst this
      subst hpg
      simp
    | false =>
      obtain ⟨e1, v, hv⟩ := h3 rfl
      have hpre := hsub _ hv
      have hlk : lk.isEmpty = false := by
        simp only at hpre
        cases lk with
        | nil => simp at hpre; exact absurd hpre hne
        | cons => rfl
      subst hpg
      simp only [hlk, e1, Bool.false_eq_true, if_false]
      refine ⟨trivial, ?_⟩
      intro _ k hk
      cases hk
      exact hpre

theorem followDec_ok {plen : Nat} {entry : Bytes → Nat → Except HubErr FollowEntry} {k : Bytes} {ts : Nat}
    {e : FollowEntry} (hk : k.length = plen + (38 - plen)) (ht : ts < 2 ^ 32) (he : entry (k.drop plen) ts = .ok e) :
    followDec plen entry k (.raw (be 4 ts)) = .ok e := by
  unfold followDec followedAtOf
  rw [if_neg (by simp [hk])]
  simp only [be_length, if_true]
  rw [fromBe_be_of_lt (by simpa using ht)]
  exact he

section
variable (h : CommittedRows .reactions channelOf ctx U db) (hch : ChannelNaming channelOf)
include h hch

theorem follow_rows {k : Bytes} {v : SVal} (hg : db.get (25 :: k) = some v) :
    ∃ fid c t, FollowsSince channelOf ctx db fid c t ∧ fid < 2 ^ 32 ∧ t < 2 ^ 32 ∧ c.length = 32 ∧ v = .raw (be 4 t) ∧
      (25 :: k = followByFidKey fid c ∨ 25 :: k = followByChannelKey c fid) := by
  obtain ⟨m, hv, _, hc, r, hr, e⟩ := (h _ (fun id => ne_eventKey (by decide) id) v).1 hg
  have hs := valid_sizes hv
  rcases reaction_row_cases hr with ⟨k', e'⟩ | ⟨ty', p, hx, e', ev⟩ | ⟨u, c, hx, hfo, huc, ev, e'⟩
  · rw [e'] at e; simp at e
  · rw [e'] at e; simp at e
  · rw [← e] at e'
    exact ⟨m.fid, c, m.ts, ⟨m, u, hc, rfl, rfl, hx, huc, hfo⟩, hs.1, hs.2.1, hch.1 u c huc, ev, e'⟩

theorem follows_row {fid : Nat} {c : Bytes} {t : Nat} (hf : FollowsSince channelOf ctx db fid c t) :
    fid < 2 ^ 32 ∧ t < 2 ^ 32 ∧ c.length = 32 ∧ db.get (followByFidKey fid c) = some (.raw (be 4 t)) ∧
      db.get (followByChannelKey c fid) = some (.raw (be 4 t)) := by
  obtain ⟨m, u, hc, rfl, rfl, hx, huc, hfo⟩ := hf
  obtain ⟨hv, hu⟩ := h.valid hc
  have hs := valid_sizes hv
  refine ⟨hs.1, hs.2.1, hch.1 u c huc, ?_, ?_⟩
  · refine (h _ (fun id => ne_eventKey (by decide) id) _).2 ⟨m, hv, hu, hc, .followByFid m.fid c, ?_, rfl⟩
    obtain ⟨ht, hb⟩ := hx
    unfold StoreKind.rows
    rw [ht, hb]
    simp [hfo, huc]
  · refine (h _ (fun id => ne_eventKey (by decide) id) _).2 ⟨m, hv, hu, hc, .followByChannel c m.fid, ?_, rfl⟩
    obtain ⟨ht, hb⟩ := hx
    unfold StoreKind.rows
    rw [ht, hb]
    simp [hfo, huc]

theorem noShort_follow {x : UInt8} {q : Bytes} (hq : q.length ≤ 36) : NoShortKey db (25 :: x :: q) := by
  apply noShortKey_of_head _ (by decide)
  intro y k v hg hy
  rcases hy with rfl | hy
  · obtain ⟨fid, c, t, _, _, _, hl, _, e | e⟩ := follow_rows h hch hg
    · simp only [followByFidKey, List.cons.injEq, true_and] at e
      rw [e]; simp [makeFidKey, hl]; omega
    · simp only [followByChannelKey, List.cons.injEq, true_and] at e
      rw [e]; simp [makeFidKey, hl]; omega
  · exfalso
    obtain ⟨m, hv, _, hc, r, hr, e⟩ := (h _ (by
      apply ne_eventKey; rintro rfl; exact absurd hy (by decide)) v).1 hg
    rcases reaction_row_cases hr with ⟨k', e'⟩ | ⟨ty', p, _, e', _⟩ | ⟨u, c, _, _, _, _, e' | e'⟩
    · rw [e'] at e; simp only [List.cons.injEq] at e; rw [e.1] at hy; exact absurd hy (by decide)
    · rw [e'] at e; simp only [List.cons.injEq] at e; rw [e.1] at hy; exact absurd hy (by decide)
    · rw [e'] at e; simp only [followByFidKey, List.cons.injEq] at e; rw [e.1] at hy; exact absurd hy (by decide)
    · rw [e'] at e; simp only [followByChannelKey, List.cons.injEq] at e; rw [e.1] at hy; exact absurd hy (by decide)

theorem isFollowing_iff {fid : Nat} {c : Bytes} (hf : fid < 2 ^ 32) (t : Nat) :
    isFollowing db fid c = .ok (some t) ↔ FollowsSince channelOf ctx db fid c t := by
  constructor
  · intro hi
    unfold isFollowing at hi
    cases hg : db.get (followByFidKey fid c) with
    | none => simp [hg] at hi
    | some v =>
      obtain ⟨fid', c', t', hfs, hf', ht', hl, ev, e | e⟩ := follow_rows h hch hg
      · simp only [List.cons.injEq, followByFidKey, true_and] at e
        obtain ⟨e1, e2⟩ := List.append_inj e (by simp [makeFidKey])
        have : fid = fid' := be_inj (w := 4) (by omega) (by omega) e1
        subst this; subst e2; subst ev
        rw [hg] at hi
        simp only [followedAtOf, be_length, if_true] at hi
        rw [fromBe_be_of_lt (by simpa using ht')] at hi
        simp only [Except.ok.injEq, Option.some.injEq] at hi
        rw [← hi]
        exact hfs
      · simp [followByChannelKey] at e
  · intro hfs
    obtain ⟨_, ht, _, hg, _⟩ := follows_row h hch hfs
    unfold isFollowing
    rw [hg]
    simp only [followedAtOf, be_length, if_true]
    rw [fromBe_be_of_lt (by simpa using ht)]

theorem isFollowing_total {fid : Nat} {c : Bytes} : ∃ o, isFollowing db fid c = .ok o := by
  unfold isFollowing
  cases hg : db.get (followByFidKey fid c) with
  | none => exact ⟨_, rfl⟩
  | some v =>
    obtain ⟨fid', c', t', _, _, _, _, ev, _⟩ := follow_rows h hch hg
    subst ev
    simp only [followedAtOf, be_length, if_true]
    exact ⟨_, rfl⟩

/-- The rows of a channel. -/
theorem channel_rows {c : Bytes} (hc : c.length = 32) {r : Bytes × SVal}
    (hr : r ∈ rowsStartingWith db (25 :: 2 :: c)) :
    ∃ fid t, FollowsSince channelOf ctx db fid c t ∧ fid < 2 ^ 32 ∧ r = (followByChannelKey c fid, .raw (be 4 t)) ∧
      followDec (25 :: 2 :: c).length (followerEntry c) r.1 r.2 = .ok ⟨fid, c, t⟩ := by
  obtain ⟨hr1, hr2⟩ := List.mem_filter.1 hr
  obtain ⟨s, hs⟩ := List.isPrefixOf_iff_prefix.1 hr2
  obtain ⟨k, v⟩ := r
  simp only at hs
  subst hs
  obtain ⟨fid, c', t, hfs, hf, ht, hl, ev, e | e⟩ := follow_rows h hch ((OMap.get_eq_some_iff db).2 hr1)
  · simp [followByFidKey] at e
  · have e : c ++ s = c' ++ makeFidKey fid := by simpa [followByChannelKey] using e
    obtain ⟨e1, e2⟩ := List.append_inj e (by rw [hc, hl])
    subst e1; subst e2; subst ev
    refine ⟨fid, t, hfs, hf, rfl, ?_⟩
    apply followDec_ok _ ht
    · have : (25 :: 2 :: c ++ makeFidKey fid).drop (25 :: 2 :: c).length = makeFidKey fid := List.drop_left
      simp only [this]
      have hrf : readFidKey (makeFidKey fid) 0 = some fid := by
        simp only [readFidKey, makeFidKey, be_length, List.drop_zero]
        rw [if_pos (by omega), List.take_of_length_le (by simp), fromBe_be_of_lt (by simpa using hf)]
      unfold followerEntry
      rw [hrf]
    · simp [makeFidKey, hc]

theorem list_followers {c : Bytes} (hc : c.length = 32) :
    ∃ es : List FollowEntry, es.Pairwise (fun a b => a.fid < b.fid) ∧
      (∀ e, e ∈ es ↔ e.channel = c ∧ FollowsSince channelOf ctx db e.fid c e.followedAt) ∧
      followerCount db c = .ok es.length ∧
      ∀ n rev, FollowTokens (fun t => followersByChannel db c { pageSize := n, pageToken := t, reverse := rev }) none
        (inDirection rev es) := by
  have hrows := fun r => channel_rows h hch hc (r := r)
  have hns := noShort_follow h hch (x := 2) (q := c) (by omega)
  have hp : ∃ b ∈ (25 :: 2 :: c : Bytes), b ≠ 255 := ⟨25, by simp, by decide⟩
  refine ⟨_, ?_, ?_, ?_, fun n rev => follow_follows db _ _ hp hns ?_ n rev⟩
  · rw [List.pairwise_filterMap]
    have hsorted : (rowsStartingWith db (25 :: 2 :: c)).Pairwise (fun a b => Bytes.blt a.1 b.1 = true) := by
      have := db.sorted
      unfold OMapL.Sorted at this
      exact this.filter _
    refine hsorted.imp_of_mem ?_
    intro a b ha hb hab x hx y hy
    obtain ⟨fa, ta, _, hfa, ea, da⟩ := hrows a ha
    obtain ⟨fb, tb, _, hfb, eb, db'⟩ := hrows b hb
    rw [da] at hx; rw [db'] at hy
    cases hx; cases hy
    rw [ea, eb] at hab
    simp only [followByChannelKey] at hab
    have : ∀ f, (25 :: 2 :: (c ++ makeFidKey f) : Bytes) = (25 :: 2 :: c) ++ makeFidKey f := fun _ => rfl
    rw [this, this, Bytes.blt_append_left] at hab
    exact (be_blt_iff (w := 4) (by omega) (by omega)).1 hab
  · intro e
    rw [List.mem_filterMap]
    constructor
    · rintro ⟨r, hr, he⟩
      obtain ⟨f, t, hfs, _, _, dr⟩ := hrows r hr
      rw [dr] at he
      cases he
      exact ⟨rfl, hfs⟩
    · rintro ⟨e1, hfs⟩
      obtain ⟨hf, ht, hl, _, hg⟩ := follows_row h hch hfs
      have hr : (followByChannelKey c e.fid, SVal.raw (be 4 e.followedAt)) ∈ rowsStartingWith db (25 :: 2 :: c) := by
        unfold rowsStartingWith
        rw [List.mem_filter]
        exact ⟨(OMap.get_eq_some_iff db).1 hg, List.isPrefixOf_iff_prefix.2 ⟨makeFidKey e.fid, rfl⟩⟩
      refine ⟨_, hr, ?_⟩
      obtain ⟨f, t, hfs', hf', er, dr⟩ := hrows _ hr
      rw [dr]
      simp only [Prod.mk.injEq, SVal.raw.injEq, followByChannelKey, List.cons.injEq, true_and] at er
      obtain ⟨er1, er2⟩ := er
      have e3 := be_inj (w := 4) (by omega) (by omega) (List.append_inj er1 rfl).2
      obtain ⟨_, ht', _⟩ := follows_row h hch hfs'
      have e4 := be_inj (w := 4) (by omega) (by omega) er2
      obtain ⟨a, b, d⟩ := e
      simp only at e3 e4 e1
      subst e3; subst e4; subst e1
      rfl
  · unfold followerCount forEachByPrefix forEachPaged
    have hc' : ∀ (rows : List (Bytes × SVal)) (n c : Nat),
        iterate none (fun (c : Nat) _ _ => .ok (c + 1, false)) rows n c = .ok (c + rows.length, true) := by
      intro rows
      induction rows with
      | nil => intros; rfl
      | cons a rows ih => intro n c; simp only [iterate, ih, List.length_cons]; congr 2; omega
    simp only [hc']
    have hb : iterBounds (some (25 :: 2 :: c)) (some (incrementVec (25 :: 2 :: c))) {} =
      (25 :: 2 :: c, incrementVec (25 :: 2 :: c)) := rfl
    rw [hb]
    have := scan_prefix_eq db (25 :: 2 :: c) hp hns false
    simp only [inDirection, Bool.false_eq_true, if_false] at this
    simp only [this]
    rw [Nat.zero_add]
    congr 1
    have : ∀ rows : List (Bytes × SVal), (∀ r ∈ rows, ∃ e, followDec (25 :: 2 :: c).length (followerEntry c) r.1 r.2 = .ok e) →
        rows.length = (rows.filterMap (fun r => (followDec (25 :: 2 :: c).length (followerEntry c) r.1 r.2).toOption)).length := by
      intro rows hr
      induction rows with
      | nil => rfl
      | cons a rows ih =>
        obtain ⟨e, he⟩ := hr a (by simp)
        have ho : (followDec (25 :: 2 :: c).length (followerEntry c) a.1 a.2).toOption = some e := by rw [he]; rfl
        rw [List.filterMap_cons_some (f := fun r : Bytes × SVal => (followDec (25 :: 2 :: c).length (followerEntry c) r.1 r.2).toOption) ho,
          List.length_cons, List.length_cons, ← ih (fun r h => hr r (by simp [h]))]
    exact this _ (fun r hr => by obtain ⟨f, t, _, _, _, d⟩ := hrows r hr; exact ⟨_, d⟩)
  · intro r hr
    obtain ⟨f, t, _, _, _, d⟩ := hrows r hr
    exact ⟨_, d⟩

/-- The rows of a user. -/
theorem user_rows {fid : Nat} (hf : fid < 2 ^ 32) {r : Bytes × SVal}
    (hr : r ∈ rowsStartingWith db (25 :: 1 :: makeFidKey fid)) :
    ∃ c t, FollowsSince channelOf ctx db fid c t ∧ c.length = 32 ∧ r = (followByFidKey fid c, .raw (be 4 t)) ∧
      followDec (25 :: 1 :: makeFidKey fid).length (followEntry fid) r.1 r.2 = .ok ⟨fid, c, t⟩ := by
  obtain ⟨hr1, hr2⟩ := List.mem_filter.1 hr
  obtain ⟨s, hs⟩ := List.isPrefixOf_iff_prefix.1 hr2
  obtain ⟨k, v⟩ := r
  simp only at hs
  subst hs
  obtain ⟨fid', c, t, hfs, hf', ht, hl, ev, e | e⟩ := follow_rows h hch ((OMap.get_eq_some_iff db).2 hr1)
  · have e : makeFidKey fid ++ s = makeFidKey fid' ++ c := by simpa [followByFidKey] using e
    obtain ⟨e1, e2⟩ := List.append_inj e (by simp [makeFidKey])
    have : fid = fid' := be_inj (w := 4) (by omega) (by omega) e1
    subst this; subst e2; subst ev
    refine ⟨s, t, hfs, hl, rfl, ?_⟩
    apply followDec_ok _ ht
    · have : (25 :: 1 :: makeFidKey fid ++ s).drop (25 :: 1 :: makeFidKey fid).length = s := List.drop_left
      simp only [this, followEntry, hl, if_true]
    · simp [makeFidKey, hl]
  · simp [followByChannelKey] at e

theorem list_follows {fid : Nat} (hf : fid < 2 ^ 32) :
    ∃ es : List FollowEntry, es.Pairwise (fun a b => Bytes.blt a.channel b.channel = true) ∧
      (∀ e, e ∈ es ↔ e.fid = fid ∧ FollowsSince channelOf ctx db fid e.channel e.followedAt) ∧
      ∀ n rev, FollowTokens (fun t => followsByFid db fid { pageSize := n, pageToken := t, reverse := rev }) none
        (inDirection rev es) := by
  have hrows := fun r => user_rows h hch hf (r := r)
  have hns := noShort_follow h hch (x := 1) (q := makeFidKey fid) (by simp [makeFidKey])
  have hp : ∃ b ∈ (25 :: 1 :: makeFidKey fid : Bytes), b ≠ 255 := ⟨25, by simp, by decide⟩
  refine ⟨_, ?_, ?_, fun n rev => follow_follows db _ _ hp hns ?_ n rev⟩
  · rw [List.pairwise_filterMap]
    have hsorted : (rowsStartingWith db (25 :: 1 :: makeFidKey fid)).Pairwise (fun a b => Bytes.blt a.1 b.1 = true) := by
      have := db.sorted
      unfold OMapL.Sorted at this
      exact this.filter _
    refine hsorted.imp_of_mem ?_
    intro a b ha hb hab x hx y hy
    obtain ⟨ca, ta, _, _, ea, da⟩ := hrows a ha
    obtain ⟨cb, tb, _, _, eb, db'⟩ := hrows b hb
    rw [da] at hx; rw [db'] at hy
    cases hx; cases hy
    rw [ea, eb] at hab
    simp only [followByFidKey] at hab
    have : ∀ c, (25 :: 1 :: (makeFidKey fid ++ c) : Bytes) = (25 :: 1 :: makeFidKey fid) ++ c := fun _ => rfl
    rw [this, this, Bytes.blt_append_left] at hab
    exact hab
  · intro e
    rw [List.mem_filterMap]
    constructor
    · rintro ⟨r, hr, he⟩
      obtain ⟨c, t, hfs, _, _, dr⟩ := hrows r hr
      rw [dr] at he
      cases he
      exact ⟨rfl, hfs⟩
    · rintro ⟨e1, hfs⟩
      obtain ⟨_, ht, hl, hg, _⟩ := follows_row h hch hfs
      have hr : (followByFidKey fid e.channel, SVal.raw (be 4 e.followedAt)) ∈ rowsStartingWith db (25 :: 1 :: makeFidKey fid) := by
        unfold rowsStartingWith
        rw [List.mem_filter]
        exact ⟨(OMap.get_eq_some_iff db).1 hg, List.isPrefixOf_iff_prefix.2 ⟨e.channel, rfl⟩⟩
      refine ⟨_, hr, ?_⟩
      obtain ⟨c, t, hfs', hl', er, dr⟩ := hrows _ hr
      rw [dr]
      simp only [Prod.mk.injEq, SVal.raw.injEq, followByFidKey, List.cons.injEq, true_and] at er
      obtain ⟨er1, er2⟩ := er
      have e3 := (List.append_inj er1 rfl).2
      obtain ⟨_, ht', _⟩ := follows_row h hch hfs'
      have e4 := be_inj (w := 4) (by omega) (by omega) er2
      subst e1
      obtain ⟨a, b, d⟩ := e
      simp only at e3 e4
      subst e3; subst e4
      rfl
  · intro r hr
    obtain ⟨c, t, _, _, _, d⟩ := hrows r hr
    exact ⟨_, d⟩

end

end Verif
