import Verif.Lemmas.Replicate
import Verif.Lemmas.TrieBinding
/-! An import from arbitrary peers. -/
namespace Verif
open StoreDef

/-! ### A replayed message is never a duplicate -/

/-- The result is not the error `duplicate`. -/
def NotDup {α : Type} (r : Except HubErr α) : Prop := r ≠ .error .duplicate

def NeverDup {α : Type} (x : SM α) : Prop := ∀ s, NotDup (x s).1

section never
variable {α β : Type}

theorem never_pure (a : α) : NeverDup (pure a : SM α) := fun _ h => by cases h
theorem never_lift {r : Except HubErr α} (h : NotDup r) : NeverDup (SM.lift r) := fun _ => h
theorem never_put (k : Bytes) (v : SVal) : NeverDup (SM.put k v) := fun _ h => by cases h
theorem never_del (k : Bytes) : NeverDup (SM.del k) := fun _ h => by cases h
theorem never_fail {e : HubErr} (h : e ≠ .duplicate) : NeverDup (SM.fail e : SM α) := fun _ h' => h (by injection h')

theorem never_bind {x : SM α} {f : α → SM β} (hx : NeverDup x) (hf : ∀ a, NeverDup (f a)) : NeverDup (x >>= f) := by
  intro s
  show NotDup (SM.bind x f s).1
  unfold SM.bind
  have := hx s
  split
  · exact hf _ _
  · next e s' heq =>
    rw [heq] at this
    intro h; exact this (by simpa [NotDup] using h)

theorem never_forEach {f : α → SM Unit} (hf : ∀ a, NeverDup (f a)) (l : List α) : NeverDup (SM.forEach f l) := by
  induction l with
  | nil => exact never_pure ()
  | cons a l ih => exact never_bind (hf a) (fun _ => ih)

theorem never_event (e : StoreEvent) : NeverDup (SM.event e) := by
  intro s
  have hg : NotDup (s.gen.generateId false).1 := by
    unfold IdGen.generateId NotDup
    repeat' split
    all_goals simp
  unfold SM.event commitEvent
  cases h : s.gen.generateId false with
  | mk r g =>
    rw [h] at hg
    cases r with
    | error err => simpa [NotDup] using hg
    | ok id => simp [NotDup]
end never

/-- The store's keys are never refused as duplicates. -/
structure KeysNotDup (D : StoreDef) : Prop where
  add : ∀ m, NotDup (D.addKey m)
  remove : ∀ m, NotDup (D.removeKey m)
  compact : ∀ m, NotDup (D.compactKey m)
  rows : ∀ th m, NotDup (D.indexRows th m)
  keys : ∀ th m, NotDup (D.indexKeys th m)

theorem notDup_bind {α β : Type} {r : Except HubErr α} {f : α → Except HubErr β} (h : NotDup r) (hf : ∀ a, NotDup (f a)) : NotDup (r >>= f) := by
  cases r with
  | error e => intro h'; exact h (by simpa [bind, Except.bind, NotDup] using h')
  | ok a => exact hf a

theorem notDup_ok {α : Type} (a : α) : NotDup (.ok a) := fun h => by cases h

macro "notdup" : tactic => `(tactic| (intro h; repeat' split at h) <;> cases h)

theorem cast_notDup (m : Msg) : NotDup (castItem m) := by unfold castItem; notdup
theorem parts_notDup (m : Msg) : NotDup (reactionParts m) := by unfold reactionParts; notdup
theorem reaction_notDup (post : UInt8) (f ty : Nat) (t : Option Target) : NotDup (reactionKey post f ty t) := by unfold reactionKey; notdup
theorem reactionIndex_notDup (th : Bytes) (m : Msg) : NotDup (reactionIndex th m) := by unfold reactionIndex; notdup
theorem link_notDup (post : UInt8) (m : Msg) : NotDup (linkKey post m) := by unfold linkKey; notdup
theorem linkIndex_notDup (th : Bytes) (m : Msg) : NotDup (linkIndex th m) := by unfold linkIndex; notdup
theorem linkCompact_notDup (m : Msg) : NotDup (linkCompactKey m) := by unfold linkCompactKey; notdup
theorem address_notDup (m : Msg) : NotDup (verificationAddress m) := by unfold verificationAddress; notdup
theorem addressIndex_notDup (m : Msg) : NotDup (verificationIndexKey m) := by unfold verificationIndexKey; notdup

theorem kind_keys (kind : StoreKind) (channelOf : Bytes → Option Bytes) : KeysNotDup (kind.store channelOf) := by
  have ok : ∀ {α : Type} (a : α), NotDup (pure a : Except HubErr α) := fun a h => by cases h
  cases kind
  · exact ⟨fun m => notDup_bind (cast_notDup m) (fun _ => ok _), fun m => notDup_bind (cast_notDup m) (fun _ => ok _),
      fun m h => (by cases h), fun _ _ => notDup_ok _, fun _ _ => notDup_ok _⟩
  · exact ⟨fun m => notDup_bind (parts_notDup m) (fun _ => reaction_notDup _ _ _ _), fun m => notDup_bind (parts_notDup m) (fun _ => reaction_notDup _ _ _ _),
      fun m h => (by cases h), fun th m => notDup_bind (reactionIndex_notDup th m) (fun _ => ok _),
      fun th m => notDup_bind (reactionIndex_notDup th m) (fun _ => ok _)⟩
  · exact ⟨link_notDup 89, link_notDup 90, linkCompact_notDup, fun th m => notDup_bind (linkIndex_notDup th m) (fun _ => ok _),
      fun th m => notDup_bind (linkIndex_notDup th m) (fun _ => ok _)⟩
  · exact ⟨fun m => notDup_bind (address_notDup m) (fun _ => ok _), fun m => notDup_bind (address_notDup m) (fun _ => ok _),
      fun m h => (by cases h), fun th m => notDup_bind (addressIndex_notDup m) (fun _ => ok _),
      fun th m => notDup_bind (addressIndex_notDup m) (fun _ => ok _)⟩
  · refine ⟨fun m => ?_, fun m h => (by cases h), fun m h => (by cases h), fun _ _ => notDup_ok _, fun _ _ => notDup_ok _⟩
    simp only [StoreKind.store, userDataStore]
    notdup
  · refine ⟨fun m => ?_, fun m h => (by cases h), fun m h => (by cases h), fun _ m => ?_, fun _ m => ?_⟩ <;>
      (simp only [StoreKind.store, lendStore]; notdup)

theorem scan_notDup (D : StoreDef) (db : Db SVal) (ctx : MergeCtx) (m : Msg) : NotDup (D.compactionScan db ctx m) := by
  have h : ∀ (rows : List (Bytes × SVal)) (n : Nat) (acc : List Msg), NotDup (iterate none (D.compactionStep ctx m) rows n acc) := by
    intro rows
    induction rows with
    | nil => intro n acc; exact notDup_ok _
    | cons r rows ih =>
      intro n acc
      simp only [iterate, compactionStep]
      repeat' split
      all_goals first
        | exact ih _ _
        | (rename_i h; repeat' split at h)
      all_goals first
        | (cases h; notdup)
        | simp_all [NotDup]
  unfold compactionScan forEachByPrefix forEachPaged
  simp only
  have := h (scanRows db (iterBounds (some (makeMessagePrimaryKey m.fid D.set none)) (some (incrementVec (makeMessagePrimaryKey m.fid D.set none)))
    { pageSize := none }).1 (iterBounds (some (makeMessagePrimaryKey m.fid D.set none)) (some (incrementVec (makeMessagePrimaryKey m.fid D.set none)))
    { pageSize := none }).2 false) 0 []
  split
  · next e heq => intro h'; injection h' with h'; exact this (by rw [heq, h'])
  · exact notDup_ok _

theorem ts_notDup (ts : Nat) (hash : Bytes) : NotDup (makeTsHash ts hash) := by unfold makeTsHash; notdup

section free
variable {D : StoreDef}

theorem putMessage_never (m : Msg) : NeverDup (D.putMessage m) :=
  never_bind (never_lift (ts_notDup _ _)) (fun _ => never_put _ _)

theorem deleteMessage_never (m : Msg) : NeverDup (D.deleteMessage m) :=
  never_bind (never_lift (ts_notDup _ _)) (fun _ => never_del _)

theorem deleteOne_never (hD : KeysNotDup D) (m : Msg) : NeverDup (D.deleteOne m) := by
  refine never_bind ?_ (fun _ => ?_)
  · unfold deleteCompactOrAdd
    split
    · unfold deleteCompact
      split
      · exact never_fail (by decide)
      · exact never_bind (never_lift (hD.compact m)) (fun _ => never_del _)
    · split
      · exact never_bind (never_lift (ts_notDup _ _)) (fun th => never_bind (never_lift (hD.keys th m)) (fun _ =>
          never_bind (never_forEach never_del _) (fun _ => never_bind (never_forEach never_del _) (fun _ =>
          never_bind (never_lift (hD.add m)) (fun _ => never_bind (never_del _) (fun _ => deleteMessage_never m))))))
      · exact never_pure ()
  · unfold deleteIfRemove
    split
    · unfold deleteRemove
      split
      · exact never_fail (by decide)
      · exact never_bind (never_lift (hD.remove m)) (fun _ => never_bind (never_del _) (fun _ => deleteMessage_never m))
    · exact never_pure ()

theorem mergeFree_never (hD : KeysNotDup D) (db : Db SVal) (ctx : MergeCtx) (m : Msg) : NeverDup (D.mergeFree db ctx m) := by
  unfold mergeFree
  split
  · exact never_fail (by decide)
  · refine never_bind (never_lift (ts_notDup _ _)) (fun th => ?_)
    split
    · refine never_bind (never_lift (hD.compact m)) (fun _ => never_bind (never_lift (scan_notDup D db ctx m)) (fun l =>
        never_bind (never_forEach (deleteOne_never hD) _) (fun _ => never_bind ?_ (fun _ => never_event _))))
      unfold putCompact
      split
      · exact never_fail (by decide)
      · exact never_bind (never_lift (hD.compact m)) (fun _ => never_put _ _)
    · split
      · refine never_bind ?_ (fun _ => never_pure _)
        exact never_bind (putMessage_never m) (fun _ => never_bind (never_lift (hD.add m)) (fun _ => never_bind (never_put _ _) (fun _ =>
          never_bind (never_lift (hD.rows th m)) (fun _ => never_bind (never_forEach (fun _ => never_put _ _) _) (fun _ =>
          never_forEach (fun _ => never_put _ _) _)))))
      · refine never_bind ?_ (fun _ => never_pure _)
        unfold putRemove
        split
        · exact never_fail (by decide)
        · exact never_bind (putMessage_never m) (fun _ => never_bind (never_lift (hD.remove m)) (fun _ => never_put _ _))

/-- What the operation returns. -/
def Yields {α : Type} (P : α → Prop) (x : SM α) : Prop := ∀ s a s', x s = (.ok a, s') → P a

theorem yields_bind {α β : Type} {P : β → Prop} {x : SM α} {f : α → SM β} (hf : ∀ a, Yields P (f a)) : Yields P (x >>= f) := by
  intro s b s' h
  have h : SM.bind x f s = (.ok b, s') := h
  unfold SM.bind at h
  split at h
  · exact hf _ _ _ _ h
  · cases h

theorem yields_pure {α : Type} {P : α → Prop} {a : α} (h : P a) : Yields P (pure a : SM α) := by
  intro s b s' e
  have e : ((Except.ok a : Except HubErr α), s) = (.ok b, s') := e
  cases e; exact h

theorem yields_event {P : StoreEvent → Prop} {e : StoreEvent} (h : P e) : Yields P (SM.event e) := by
  intro s b s' h'
  unfold SM.event at h'
  split at h'
  · cases h'; exact h
  · cases h'

theorem mergeFree_yields (db : Db SVal) (ctx : MergeCtx) (m : Msg) : Yields (fun ev => ∃ l, ev = .merge m l) (D.mergeFree db ctx m) := by
  unfold mergeFree
  split
  · intro s a s' h; cases h
  · refine yields_bind (fun th => ?_)
    split
    · exact yields_bind (fun _ => yields_bind (fun _ => yields_bind (fun _ => yields_bind (fun _ => yields_event ⟨_, rfl⟩))))
    · split
      · exact yields_bind (fun _ => yields_pure ⟨_, rfl⟩)
      · exact yields_bind (fun _ => yields_pure ⟨_, rfl⟩)

theorem mergeFree_type {db : Db SVal} {ctx : MergeCtx} {m : Msg} {s s' : SSt} {ev : StoreEvent}
    (h : D.mergeFree db ctx m s = (.ok ev, s')) : D.hasType m.ty.num = true := by
  unfold mergeFree at h
  split at h
  · cases h
  · next hn =>
    simp only [Bool.and_eq_true, Bool.not_eq_true', not_and, Bool.not_eq_false] at hn
    unfold hasType
    cases h1 : D.isAdd m with
    | true => simp only [isAdd, decide_eq_true_eq] at h1; simp [h1]
    | false =>
      cases h2 : D.isRemove m with
      | true =>
        simp only [isRemove, Bool.and_eq_true, decide_eq_true_eq] at h2
        simp [h2.1, h2.2]
      | false =>
        have := hn ⟨h1, h2⟩
        simp only [isCompact, Bool.and_eq_true, decide_eq_true_eq] at this
        simp [this.1, this.2]

end free

/-! ### A page from anyone -/

section
variable {kind : StoreKind} {channelOf : Bytes → Option Bytes} {U : Msg → Prop} {E : TrieEntry → Prop} {c : ReplCfg}
variable {src : StoreTrie} {L : List Msg} {K F : List Bytes}

/-- The keys a replayed item must have are those of the sent message. -/
theorem replay_message {dup : Bytes → Bool} {st st' : StoreState} {e : ReplEntry} {m : Msg} {keys : List Bytes} (hi : e.item = .message m)
    (h : replayItem c dup st e = (.ok keys, st')) : keys = trieKeysForMessage c.sha256 m ∧ c.D.hasType m.ty.num = true := by
  simp only [replayItem, hi] at h
  split at h
  · cases h
  · next ev p heq =>
    obtain ⟨l, e⟩ := mergeFree_yields st.db (c.ctx m.ts) m _ _ _ heq
    have ht := mergeFree_type heq
    subst e
    split at h
    · cases h
    · simp only [StoreEvent.hub, trieKeysForEvent, Prod.mk.injEq, Except.ok.injEq] at h
      exact ⟨by simpa using h.1.symm, ht⟩

/-- A message accepted under a key of the source is the source's. -/
theorem accepted_message (S : Setting c kind channelOf U E) (hs : Held c kind channelOf U E src L K F) {e : ReplEntry} {m : Msg}
    (hp : e.Plausible c kind U E) (hK : e.key ∈ K) (hi : e.item = .message m) (hk : e.key ∈ trieKeysForMessage c.sha256 m)
    (ht : c.D.hasType m.ty.num = true) : m ∈ L := by
  obtain ⟨⟨x, hx, hkey⟩, hp⟩ := hp
  rw [hi] at hp
  obtain ⟨hu, hval⟩ := hp
  have hxv := S.fit.valid x hx
  rw [keys_entries, List.mem_map] at hk
  obtain ⟨y, hy, e1⟩ := hk
  have := C25_distinct c.sha256 y x (hval y hy) hxv (e1.trans hkey)
  subst this
  obtain ⟨z, hz, e2, h⟩ := hs.entry S hK
  have := C25_distinct c.sha256 y z hxv (S.fit.valid z hz) (hkey.symm.trans e2)
  subst this
  obtain ⟨f, e3, _⟩ := entry_fid hy
  rcases h with ⟨m', hm', hy'⟩ | ⟨_, hn⟩
  · obtain ⟨f', e4, _⟩ := entry_fid hy'
    rw [e3] at e4
    injection e4 with _ _ e5
    rw [S.hashes m m' hu (hs.store.holds.valid m' hm').2 e5]
    exact hm'
  · subst e3
    obtain ⟨h1, _, h3⟩ := S.served _ _ _ hx
    rw [S.D] at ht
    obtain ⟨m', hm', hy'⟩ := owned_type channelOf hxv h1 h3 ht
    exact absurd hy' (hn m' hm')

theorem replay_peer (S : Setting c kind channelOf U E) (hs : Held c kind channelOf U E src L K F) {v : UInt8} (dup : Bytes → Bool)
    {LR : List Msg} (es : List ReplEntry) (hes : ∀ e ∈ es, e.Plausible c kind U E ∧ e.key ∈ K) :
    ∀ {r r' : PageRun} {LV : List Msg}, KindInv kind channelOf c.ctx U LR LV r.store → (∀ m ∈ LV, m ∈ L) →
    replayLoop c dup v es r = .ok r' →
    ∃ LV', KindInv kind channelOf c.ctx U LR LV' r'.store ∧ (∀ m ∈ LV', m ∈ L) ∧ (∀ m ∈ LV, m ∈ LV') ∧
      ∀ e ∈ es, dup e.key = false → ∀ m ∈ L, e.key ∈ trieKeysForMessage c.sha256 m → m ∈ LV' := by
  have law := kind_lawful (channelOf := channelOf) kind S.naming S.hashes.identify
  induction es with
  | nil => intro r r' LV h hsub hr; cases hr; exact ⟨LV, h, hsub, fun m h => h, by simp⟩
  | cons e es ih =>
    intro r r' LV h hsub hr
    have ih := @ih (fun e he => hes e (List.mem_cons_of_mem _ he))
    obtain ⟨hp, hK⟩ := hes e List.mem_cons_self
    unfold replayLoop at hr
    split at hr
    · cases hr
    · next d hd =>
      split at hr
      · -- refused
        next err st heq =>
        split at hr
        · next hdup =>
          subst hdup
          cases hi : e.item with
          | message m =>
            exfalso
            simp only [replayItem, hi] at heq
            split at heq
            · next er p hm =>
              injection heq with h1 h2
              injection h1 with h1
              injection h1 with h1
              subst h1
              exact mergeFree_never (D := c.D) (by rw [S.D]; exact kind_keys kind channelOf) r.store.db (c.ctx m.ts) m r.store.pend (by rw [hm])
            · split at heq <;> simp at heq
          | other keys =>
            simp only [replayItem, hi] at heq
            split at heq
            · next hde =>
              injection heq with _ h2
              subst h2
              obtain ⟨LV', g1, g2, g3, g4⟩ := ih (r := { r with store := r.store }) h hsub hr
              refine ⟨LV', g1, g2, g3, ?_⟩
              intro e' he' hd' m hm hk
              rcases List.mem_cons.1 he' with rfl | he'
              · rw [hde] at hd'; cases hd'
              · exact g4 e' he' hd' m hm hk
            · cases heq
        · cases hr
      · -- accepted
        next keys st heq =>
        have hmem : e.key ∈ keys := by
          split at hr
          · cases hr
          · next hn => exact Classical.not_not.1 hn
        have hstep : ∃ LV1, KindInv kind channelOf c.ctx U LR LV1 st ∧ (∀ m ∈ LV1, m ∈ L) ∧ (∀ m ∈ LV, m ∈ LV1) ∧
            ∀ m ∈ L, e.key ∈ trieKeysForMessage c.sha256 m → m ∈ LV1 := by
          cases hi : e.item with
          | message m =>
            obtain ⟨e1, ht⟩ := replay_message hi heq
            subst e1
            have hm := accepted_message S hs hp hK hi hmem ht
            have hmo := hs.store.holds.valid m hm
            have huniq : ∀ y ∈ LV, (kind.store channelOf).ak y = (kind.store channelOf).ak m → y = m := fun y hy e =>
              hs.store.holds.unique (hsub y hy) hm e
            obtain ⟨s', h1, h2, h3⟩ := free_spec law h.holds hmo huniq
            simp only [replayItem, hi, S.D, h1, S.lends m hmo.1 hmo.2] at heq
            injection heq with _ heq
            subst heq
            refine ⟨_, safe_pend h h2 h3, ?_, ?_, ?_⟩
            · intro y hy
              rcases List.mem_cons.1 hy with rfl | hy
              · exact hm
              · exact hsub y (List.mem_filter.1 hy).1
            · intro y hy
              by_cases e : y = m
              · exact List.mem_cons.2 (.inl e)
              · exact List.mem_cons.2 (.inr (List.mem_filter.2 ⟨hy, by simpa using fun e' => e (huniq y hy e')⟩))
            · intro m' hm' hk
              rw [keys_identify S.hashes S.fit S.entries (hs.store.holds.valid m' hm') hmo hk hmem]
              exact List.mem_cons_self
          | other ks =>
            simp only [replayItem, hi] at heq
            split at heq
            · cases heq
            · injection heq with h1 h2
              injection h1 with h1
              subst h1; subst h2
              refine ⟨LV, h, hsub, fun m h => h, ?_⟩
              intro m hm hk
              have := hp.2
              rw [hi] at this
              exact absurd (this _ hmem) (foreign_keys S.fit S.entries (hs.store.holds.valid m hm) hk)
        obtain ⟨LV1, k1, k2, k3, k4⟩ := hstep
        have hnext : ∃ r1 : PageRun, r1.store = st ∧ replayLoop c dup v es r1 = .ok r' := by
          split at hr
          · cases hr
          · split at hr
            · cases hr
            · split at hr
              · exact ⟨_, rfl, hr⟩
              · exact ⟨_, rfl, hr⟩
        obtain ⟨r1, e1, hr1⟩ := hnext
        obtain ⟨LV', g1, g2, g3, g4⟩ := ih (r := r1) (by rw [e1]; exact k1) k2 hr1
        refine ⟨LV', g1, g2, fun m hm => g3 m (k3 m hm), ?_⟩
        intro e' he' hd' m hm hk
        rcases List.mem_cons.1 he' with rfl | he'
        · exact g3 m (k4 m hm hk)
        · exact g4 e' he' hd' m hm hk

/-! ### The replica -/

/-- What is known of a replica fed by anyone: if all its keys are the source's, so are its messages; and if nothing was
taken for a duplicate (`P`), no message of a key is missing. -/
structure PeerInv (c : ReplCfg) (kind : StoreKind) (channelOf : Bytes → Option Bytes) (U : Msg → Prop) (E : TrieEntry → Prop)
    (L : List Msg) (K : List Bytes) (P : Prop) (r : Replica) (KR : List Bytes) : Prop where
  trie : CacheInv c.H r.trie ⟨KR, KR⟩
  keys : ∀ k ∈ KR, ∃ x, E x ∧ k = x.key c.sha256
  store : (∀ k ∈ KR, k ∈ K) → ∃ LR, KindInv kind channelOf c.ctx U LR LR r.store ∧ (∀ m ∈ LR, m ∈ L) ∧
    (P → ∀ m ∈ L, ∀ k ∈ trieKeysForMessage c.sha256 m, k ∈ KR → m ∈ LR)

theorem PeerInv.restart {P : Prop} {r : Replica} {KR : List Bytes} (h : PeerInv c kind channelOf U E L K P r KR) :
    PeerInv c kind channelOf U E L K P (r.restart c) KR := by
  refine ⟨cache_restart h.trie, h.keys, fun hK => ?_⟩
  obtain ⟨LR, h1, h2⟩ := h.store hK
  exact ⟨LR, kind_drop h1 c.D c.ctx, h2⟩

theorem peer_page (S : Setting c kind channelOf U E) (hs : Held c kind channelOf U E src L K F) {P : Prop} {r r' : Replica} {KR : List Bytes}
    (h : PeerInv c kind channelOf U E L K P r KR) {v : UInt8} {dup : Bytes → Bool} {page : ReplPage}
    (hp : ∀ e ∈ page.entries, e.Plausible c kind U E)
    (hP : P → ∀ e ∈ page.entries, dup e.key = true → ∀ m, kind.Valid m → e.key ∉ trieKeysForMessage c.sha256 m)
    (hr : r.importPage c dup v page = .ok r') : ∃ KR', PeerInv c kind channelOf U E L K P r' KR' := by
  have hkeys : ∀ k ∈ c.hashSet (page.entries.map (·.key)), ∃ x, E x ∧ k = x.key c.sha256 := by
    intro k hk
    rw [S.set, List.mem_map] at hk
    obtain ⟨e, he, rfl⟩ := hk
    exact (hp e he).1
  obtain ⟨t, res, t1, t2, _⟩ := cache_insert S.H S.ord (entries_keysFit S.fit) (entries_clear S.fit) h.trie h.keys hkeys
  simp only [Replica.importPage] at hr
  split at hr
  · cases hr
  · next run hrun =>
    rw [t1] at hr
    simp only at hr
    split at hr
    · cases hr
    · injection hr with hr
      subst hr
      have hmem : ∀ k, k ∈ addKeys KR (c.hashSet (page.entries.map (·.key))) ↔ k ∈ KR ∨ ∃ e ∈ page.entries, e.key = k := by
        intro k; rw [mem_addKeys, S.set, List.mem_map]
      refine ⟨addKeys KR (c.hashSet (page.entries.map (·.key))), cache_commit t2, ?_, ?_⟩
      · intro k hk
        rw [mem_addKeys] at hk
        exact hk.elim (h.keys k) (hkeys k)
      · intro hK
        obtain ⟨LR, g1, g2, g3⟩ := h.store (fun k hk => hK k ((hmem k).2 (.inl hk)))
        obtain ⟨LV, k1, k2, k3, k4⟩ := replay_peer S hs dup page.entries
          (fun e he => ⟨hp e he, hK _ ((hmem _).2 (.inr ⟨e, he, rfl⟩))⟩) (kind_block (kind_drop g1 c.D c.ctx) c.D c.ctx 0) g2 hrun
        refine ⟨LV, kind_commit k1 c.D c.ctx, k2, ?_⟩
        intro hPp m hm k hk hkr
        rcases (hmem k).1 hkr with h1 | ⟨e, he, rfl⟩
        · exact k3 m (g3 hPp m hm k hk h1)
        · refine k4 e he ?_ m hm hk
          cases hd : dup e.key with
          | false => rfl
          | true => exact absurd hk (hP hPp e he hd m (hs.store.holds.valid m hm).1)

theorem peer_finish {P : Prop} {r r' : Replica} {KR : List Bytes} (h : PeerInv c kind channelOf U E L K P r KR) {v : UInt8}
    (hr : r.finish c v = .ok r') : PeerInv c kind channelOf U E L K P r' KR := by
  unfold Replica.finish at hr
  split at hr
  · cases hr
  · injection hr with hr
    subst hr
    exact ⟨h.trie, h.keys, h.store⟩

theorem peer_step (S : Setting c kind channelOf U E) (hs : Held c kind channelOf U E src L K F) {P : Prop} {r : Replica} {KR : List Bytes}
    (h : PeerInv c kind channelOf U E L K P r KR) {op : PeerOp} (hp : ∀ e ∈ op.entries, e.Plausible c kind U E)
    (hP : P → op.NoFalseDuplicate c kind) : ∃ KR', PeerInv c kind channelOf U E L K P (r.peerStep c op) KR' := by
  cases op with
  | restart => exact ⟨KR, h.restart⟩
  | lost v answer dup =>
    simp only [Replica.peerStep]
    split
    · exact ⟨KR, h⟩
    · split
      · exact ⟨KR, h.restart⟩
      · next r' hr =>
        obtain ⟨KR', h'⟩ := peer_page S hs h hp hP hr
        exact ⟨KR', h'.restart⟩
  | page v answer dup =>
    simp only [Replica.peerStep]
    split
    · exact ⟨KR, h⟩
    · split
      · exact ⟨KR, h.restart⟩
      · next r' hr =>
        obtain ⟨KR', h'⟩ := peer_page S hs h hp hP hr
        split
        · split
          · exact ⟨KR', h'.restart⟩
          · next r'' hf => exact ⟨KR', peer_finish h' hf⟩
        · exact ⟨KR', h'⟩

theorem peer_run (S : Setting c kind channelOf U E) (hs : Held c kind channelOf U E src L K F) {P : Prop} (ops : List PeerOp)
    (hp : ∀ op ∈ ops, ∀ e ∈ op.entries, e.Plausible c kind U E) (hP : P → ∀ op ∈ ops, op.NoFalseDuplicate c kind) :
    ∀ {r : Replica} {KR : List Bytes}, PeerInv c kind channelOf U E L K P r KR →
    ∃ KR', PeerInv c kind channelOf U E L K P (ops.foldl (Replica.peerStep c) r) KR' := by
  induction ops with
  | nil => intro r KR h; exact ⟨KR, h⟩
  | cons op ops ih =>
    intro r KR h
    obtain ⟨KR1, h1⟩ := peer_step S hs h (hp op List.mem_cons_self) (fun q => hP q op List.mem_cons_self)
    exact ih (fun o ho => hp o (List.mem_cons_of_mem _ ho)) (fun q o ho => hP q o (List.mem_cons_of_mem _ ho)) h1

theorem peer_init (L : List Msg) (K : List Bytes) (P : Prop) : PeerInv c kind channelOf U E L K P {} [] :=
  ⟨cacheInv_new, by simp, fun _ => ⟨[], kind_init kind, by simp, by simp⟩⟩

end
end Verif
