import Verif.Spec.NameTrie
import Verif.Lemmas.Fnames
import Verif.Lemmas.StoreTrie
/-! The trie follows the names. -/
namespace Verif
namespace Fnames

variable {H : Bytes → Bytes} {ord : List UInt8 → List UInt8} {sha256 : Bytes → Bytes} {U : FProof → Prop} {E : TrieEntry → Prop}

/-- The keys are those of held names and of others. -/
def NameKeys (sha256 : Bytes → Bytes) (keys : List Bytes) (own : Bytes → Option FProof) (others : List Bytes) : Prop :=
  ∀ k, k ∈ keys ↔ (∃ n q, own n = some q ∧ q.fid ≠ 0 ∧ k = (TrieEntry.fname q.fid n).key sha256) ∨ k ∈ others

/-- A key of an entry that is no name. -/
def Apart (sha256 : Bytes → Bytes) (E : TrieEntry → Prop) (k : Bytes) : Prop :=
  ∃ x, E x ∧ k = x.key sha256 ∧ ∀ f n, x ≠ .fname f n

structure NameMirror (H sha256 : Bytes → Bytes) (U : FProof → Prop) (E : TrieEntry → Prop) (own0 own : Bytes → Option FProof)
    (idx0 idx : Nat → Option Bytes) (ks o : KeySets) (s : NameTrie) : Prop where
  names : Inv s.names own0 own idx0 idx
  known : ∀ n q, own n = some q → U q
  known0 : ∀ n q, own0 n = some q → U q
  trie : CacheInv H s.trie ks
  current : NameKeys sha256 ks.current own o.current
  committed : NameKeys sha256 ks.committed own0 o.committed
  apart : ∀ k ∈ o.current, Apart sha256 E k
  apart0 : ∀ k ∈ o.committed, Apart sha256 E k

theorem name_keys_inj (hE : EntriesFit sha256 E) {f g : Nat} {n m : Bytes} (h1 : E (.fname f n)) (h2 : E (.fname g m)) :
    (TrieEntry.fname f n).key sha256 = (TrieEntry.fname g m).key sha256 ↔ f = g ∧ n = m := by
  constructor
  · intro h
    have := C25_distinct sha256 _ _ (hE.valid _ h1) (hE.valid _ h2) h
    rw [TrieEntry.fname.injEq] at this
    exact this
  · rintro ⟨rfl, rfl⟩; rfl

theorem apart_name (hE : EntriesFit sha256 E) {f : Nat} {n : Bytes} (h : E (.fname f n)) :
    ¬ Apart sha256 E ((TrieEntry.fname f n).key sha256) := by
  rintro ⟨x, hx, e, hn⟩
  exact hn f n (C25_distinct sha256 _ _ (hE.valid _ h) (hE.valid x hx) e).symm

theorem NameMirror.entry (hU : ∀ p, U p → E (.fname p.fid p.name)) {own0 own idx0 idx ks o s}
    (h : NameMirror H sha256 U E own0 own idx0 idx ks o s) {n : Bytes} {q : FProof} (hq : own n = some q) : E (.fname q.fid n) := by
  have := hU q (h.known n q hq)
  rwa [(h.names.good.names n q hq).1] at this

theorem NameMirror.keys_in (hU : ∀ p, U p → E (.fname p.fid p.name)) {own0 own idx0 idx ks o s}
    (h : NameMirror H sha256 U E own0 own idx0 idx ks o s) : ∀ k ∈ ks.current, ∃ x, E x ∧ k = x.key sha256 := by
  intro k hk
  rcases (h.current k).1 hk with ⟨n, q, hq, _, e⟩ | hk
  · exact ⟨_, h.entry hU hq, e⟩
  · obtain ⟨x, hx, e, _⟩ := h.apart k hk
    exact ⟨x, hx, e⟩

theorem fnameEvent_keys (p : FProof) (r : Option FProof) :
    (∀ k, k ∈ (trieKeysForEvent sha256 (fnameEvent p r)).1 ↔ p.fid ≠ 0 ∧ k = (TrieEntry.fname p.fid p.name).key sha256) ∧
    (∀ k, k ∈ (trieKeysForEvent sha256 (fnameEvent p r)).2 ↔ ∃ q, r = some q ∧ k = (TrieEntry.fname q.fid q.name).key sha256) := by
  constructor
  · intro k
    by_cases h : p.fid = 0 <;> simp [trieKeysForEvent, fnameEvent, TrieEntry.key, h]
  · intro k
    cases r with
    | none => simp [trieKeysForEvent, fnameEvent]
    | some q => simp [trieKeysForEvent, fnameEvent, TrieEntry.key]

/-- What a merge answers. -/
theorem merge_answer {st : FState} {own idx} (h : Rep (fview st) own idx) (p : FProof) :
    match fnameAdmit p (own p.name) with
    | .error e => (mergeFname st p).1 = .error e ∧ e ≠ .invalidParameter
    | .ok _ => (mergeFname st p).1 = .ok (own p.name) ∨ (mergeFname st p).1 = .error .invalidParameter := by
  have hg : getFname st.db st.txn p.name = .ok (own p.name) := getFname_iff h p.name
  unfold mergeFname
  rw [hg]
  simp only
  cases ha : fnameAdmit p (own p.name) with
  | error e =>
    refine ⟨rfl, ?_⟩
    unfold fnameAdmit at ha
    split at ha
    · split at ha
      · cases ha; decide
      · split at ha <;> cases ha; decide
    · split at ha <;> cases ha; decide
  | ok old =>
    simp only
    unfold commitEvent
    cases hg : st.gen.generateId false with
    | mk r g =>
      cases r with
      | ok id => left; rfl
      | error e =>
        right
        unfold IdGen.generateId at hg
        split at hg
        · cases hg; rfl
        · split at hg
          · cases hg; rfl
          · simp at hg

theorem admit_later {p q : FProof} {old : Option Nat} (h : fnameAdmit p (some q) = .ok old) : p.later q := by
  simp only [fnameAdmit] at h
  split at h
  · cases h
  · split at h
    · cases h
    · rename_i h1 h2
      rcases compare_cases q p with ⟨_, h⟩ | ⟨h, _⟩ | ⟨h, _⟩
      · exact h
      · exact absurd h h1
      · exact absurd h h2

/-- An admitted transfer, and the trie keys after it. -/
theorem merge_mirror (hH : ∀ x, H x ≠ []) (hord : ∀ l, (ord l).Perm l) (hE : EntriesFit sha256 E)
    (hU : ∀ p, U p → E (.fname p.fid p.name)) {own0 own idx0 idx ks o s}
    (h : NameMirror H sha256 U E own0 own idx0 idx ks o s) {p : FProof} (hp : U p) {old : Option Nat}
    (ha : fnameAdmit p (own p.name) = .ok old) (hr : (mergeFname s.names p).1 = .ok (own p.name)) :
    ∃ t cur, s.exec H ord sha256 (.call (.merge p)) = .ok ⟨s.names.exec (.merge p), t⟩ ∧ CacheInv H t { ks with current := cur } ∧
      Inv (s.names.exec (.merge p)) own0 (fun n => if n = p.name then some p else own n) idx0 (idx' own idx p) ∧
      ∀ k, k ∈ cur ↔ (k ∈ ks.current ∨ (p.fid ≠ 0 ∧ k = (TrieEntry.fname p.fid p.name).key sha256)) ∧
        ¬ ∃ q, own p.name = some q ∧ k = (TrieEntry.fname q.fid p.name).key sha256 := by
  have hfit := entries_keysFit hE
  have hclear := entries_clear hE
  obtain ⟨k1, k2⟩ := fnameEvent_keys (sha256 := sha256) p (own p.name)
  have hn : ∀ q, own p.name = some q → q.name = p.name := fun q hq => (h.names.good.names _ q hq).1
  obtain ⟨t, cur, h1, h2, h3⟩ := updateForEvent_spec (sha256 := sha256) hH hord hfit hclear (fnameEvent p (own p.name)) h.trie (h.keys_in hU)
    (fun k hk => by
      rcases List.mem_append.1 hk with hk | hk
      · exact ⟨_, hU p hp, ((k1 k).1 hk).2⟩
      · obtain ⟨q, hq, e⟩ := (k2 k).1 hk
        rw [hn q hq] at e
        exact ⟨_, h.entry hU hq, e⟩)
  refine ⟨t, cur, ?_, h2, ?_, ?_⟩
  · simp only [NameTrie.exec, hr, h1]
  · have hv := hE.valid _ (hU p hp)
    have := h.names.merge (p := p) hv.1
    have e : own' own p = fun n => if n = p.name then some p else own n := by simp only [own', ha]
    rw [e] at this; exact this
  · intro k
    rw [h3, k1, k2]
    refine and_congr_right (fun _ => not_congr ⟨?_, ?_⟩)
    · rintro ⟨q, hq, e⟩; rw [hn q hq] at e; exact ⟨q, hq, e⟩
    · rintro ⟨q, hq, e⟩; rw [← hn q hq] at e; exact ⟨q, hq, e⟩

theorem nameMirror_step (hH : ∀ x, H x ≠ []) (hord : ∀ l, (ord l).Perm l) (hE : EntriesFit sha256 E)
    (hU : ∀ p, U p → E (.fname p.fid p.name)) {own0 own idx0 idx ks o s}
    (h : NameMirror H sha256 U E own0 own idx0 idx ks o s) {c : NameTrieOp} (hc : NameStepOK U sha256 E s.names o c) :
    ∃ own0' own' idx0' idx' ks' s', s.exec H ord sha256 c = .ok s' ∧
      NameMirror H sha256 U E own0' own' idx0' idx' ks' (othersOfNames sha256 o c) s' ∧ s'.names = s.names.follow c := by
  have hfit := entries_keysFit hE
  have hclear := entries_clear hE
  cases c with
  | other e =>
    obtain ⟨t, cur, h1, h2, h3⟩ := updateForEvent_spec (sha256 := sha256) hH hord hfit hclear e h.trie (h.keys_in hU)
      (fun k hk => by obtain ⟨x, hx, e, _⟩ := hc k hk; exact ⟨x, hx, e⟩)
    refine ⟨own0, own, idx0, idx, _, { s with trie := t }, by simp only [NameTrie.exec, h1],
      ⟨h.names, h.known, h.known0, h2, ?_, h.committed, ?_, h.apart0⟩, rfl⟩
    · intro k
      simp only [othersOfNames]
      rw [h3, h.current, mem_removeKeys, mem_addKeys]
      constructor
      · rintro ⟨(h1 | h1) | h1, h2⟩
        · exact .inl h1
        · exact .inr ⟨.inl h1, h2⟩
        · exact .inr ⟨.inr h1, h2⟩
      · rintro (⟨n, q, hq, h0, rfl⟩ | ⟨h1 | h1, h2⟩)
        · refine ⟨.inl (.inl ⟨n, q, hq, h0, rfl⟩), fun hd => ?_⟩
          exact apart_name hE (h.entry hU hq) (hc _ (List.mem_append_right _ hd))
        · exact ⟨.inl (.inr h1), h2⟩
        · exact ⟨.inr h1, h2⟩
    · intro k hk
      simp only [othersOfNames] at hk
      rw [mem_removeKeys, mem_addKeys] at hk
      rcases hk.1 with h1 | h1
      · exact h.apart k h1
      · exact hc k (List.mem_append_left _ h1)
  | call c =>
    cases c with
    | merge p =>
      obtain ⟨hp, hrec, hre⟩ := hc
      have hv := hE.valid _ (hU p hp)
      have hans := merge_answer h.names.rep p
      have hgf := getFname_iff (show Rep (getFromDbOrTxn s.names.db s.names.txn) own idx from h.names.rep) p.name
      cases ha : fnameAdmit p (own p.name) with
      | error e =>
        rw [ha] at hans
        have hi := h.names.merge (p := p) hv.1
        have e1 : own' own p = own := by simp only [own', ha]
        rw [e1] at hi
        exact ⟨_, _, _, _, ks, { s with names := s.names.exec (.merge p) }, by simp only [NameTrie.exec, hans.1],
          ⟨hi, h.known, h.known0, h.trie, h.current, h.committed, h.apart, h.apart0⟩, rfl⟩
      | ok old =>
        rw [ha] at hans
        rcases hans with hr | hr
        · obtain ⟨t, cur, h1, h2, h3, h4⟩ := merge_mirror hH hord hE hU h hp ha hr
          refine ⟨_, _, _, _, _, _, h1, ⟨h3, ?_, h.known0, h2, ?_, h.committed, h.apart, h.apart0⟩, rfl⟩
          · intro n q hq
            split at hq
            · cases hq; exact hp
            · exact h.known n q hq
          · intro k
            simp only [othersOfNames]
            rw [h4, h.current]
            constructor
            · rintro ⟨(⟨n, q, hq, h0, rfl⟩ | hk) | ⟨h0, rfl⟩, hd⟩
              · refine .inl ⟨n, q, ?_, h0, rfl⟩
                rw [if_neg]
                · exact hq
                · rintro rfl; exact hd ⟨q, hq, rfl⟩
              · exact .inr hk
              · exact .inl ⟨p.name, p, by simp, h0, rfl⟩
            · rintro (⟨n, q, hq, h0, rfl⟩ | hk)
              · split at hq
                · rename_i hn
                  cases hq
                  subst hn
                  refine ⟨.inr ⟨h0, rfl⟩, ?_⟩
                  rintro ⟨q, hq, e⟩
                  have := ((name_keys_inj hE (hU p hp) (h.entry hU hq)).1 e).1
                  rw [hq] at ha hgf
                  exact hre ⟨h0, q, hgf, this.symm, admit_later ha⟩
                · rename_i hn
                  refine ⟨.inl (.inl ⟨n, q, hq, h0, rfl⟩), ?_⟩
                  rintro ⟨q', hq', e⟩
                  exact hn ((name_keys_inj hE (h.entry hU hq) (h.entry hU hq')).1 e).2
              · refine ⟨.inl (.inr hk), ?_⟩
                rintro ⟨q', hq', rfl⟩
                exact apart_name hE (h.entry hU hq') (h.apart _ hk)
        · exact absurd hr hrec
    | commit =>
      have hne : ks.current ≠ [] := by
        obtain ⟨k, hk⟩ := List.exists_mem_of_ne_nil _ hc
        exact List.ne_nil_of_mem ((h.current k).2 (.inr hk))
      obtain ⟨t, h1, h2⟩ := cache_reload (cache_commit h.trie) hne
      exact ⟨own, own, idx, idx, _, ⟨s.names.exec .commit, t⟩, by simp only [NameTrie.exec, h1],
        ⟨h.names.commit, h.known, h.known, h2, h.current, h.current, h.apart, h.apart⟩, rfl⟩
    | drop =>
      have hne : ks.committed ≠ [] := by
        obtain ⟨k, hk⟩ := List.exists_mem_of_ne_nil _ hc
        exact List.ne_nil_of_mem ((h.committed k).2 (.inr hk))
      obtain ⟨t, h1, h2⟩ := cache_reload h.trie hne
      exact ⟨own0, own0, idx0, idx0, _, ⟨s.names.exec .drop, t⟩, by simp only [NameTrie.exec, h1],
        ⟨⟨h.names.rep0, h.names.good0, h.names.rep0, h.names.good0⟩, h.known0, h.known0, h2, h.committed, h.committed, h.apart0, h.apart0⟩, rfl⟩
    | block n =>
      exact ⟨own0, own, idx0, idx, ks, { s with names := s.names.exec (.block n) }, rfl,
        ⟨⟨h.names.rep0, h.names.good0, h.names.rep, h.names.good⟩, h.known, h.known0, h.trie, h.current, h.committed, h.apart, h.apart0⟩, rfl⟩

theorem nameMirror_run (hH : ∀ x, H x ≠ []) (hord : ∀ l, (ord l).Perm l) (hE : EntriesFit sha256 E)
    (hU : ∀ p, U p → E (.fname p.fid p.name)) (ops : List NameTrieOp) : ∀ {own0 own idx0 idx ks o s},
    NameMirror H sha256 U E own0 own idx0 idx ks o s → NameStepsOK U sha256 E s.names o ops →
    ∃ own0' own' idx0' idx' ks' s', NameTrie.run H ord sha256 ops s = .ok s' ∧
      NameMirror H sha256 U E own0' own' idx0' idx' ks' (ops.foldl (othersOfNames sha256) o) s' ∧
      s'.names = ops.foldl FState.follow s.names := by
  induction ops with
  | nil => intro own0 own idx0 idx ks o s h _; exact ⟨own0, own, idx0, idx, ks, s, rfl, h, rfl⟩
  | cons c ops ih =>
    intro own0 own idx0 idx ks o s h hc
    obtain ⟨_, _, _, _, _, s1, h1, h2, h3⟩ := nameMirror_step hH hord hE hU h hc.1
    obtain ⟨_, _, _, _, _, s2, h4, h5, h6⟩ := ih h2 (by rw [h3]; exact hc.2)
    refine ⟨_, _, _, _, _, s2, ?_, h5, by rw [h6, h3]; rfl⟩
    simp only [NameTrie.run, h1, h4]

theorem nameMirror_init : NameMirror H sha256 U E (fun _ => none) (fun _ => none) (fun _ => none) (fun _ => none) {} {} {} :=
  ⟨Inv.init, by simp, by simp, cacheInv_new, fun k => by simp, fun k => by simp, by simp, by simp⟩

end Fnames
end Verif
