import Verif.Lemmas.NameTrie
import Verif.Props.C16
import Verif.Props.C64
/-!
C77: the trie holds exactly the entries of the names somebody holds.  The name rows and the trie start empty; transfers,
commits, dropped proposals, new blocks and events of others follow in any order.  The histories covered are those in
which no transfer proves a name anew for the user who already holds it; the second theorem says what happens then.
-/
namespace Verif
open Fnames

theorem C77_trie_holds_names (U : FProof → Prop) (H : Bytes → Bytes) (hH : ∀ x, H x ≠ [])
    (ord : List UInt8 → List UInt8) (hord : ∀ l, (ord l).Perm l) (sha256 : Bytes → Bytes) (E : TrieEntry → Prop)
    (hE : EntriesFit sha256 E) (hU : ∀ p, U p → E (.fname p.fid p.name)) (ops : List NameTrieOp)
    (hr : NameStepsOK U sha256 E {} {} ops) :
    let others := ops.foldl (othersOfNames sha256) {}
    ∃ s, NameTrie.run H ord sha256 ops {} = .ok s ∧ s.names = ops.foldl FState.follow {} ∧
      (∀ k, k ≠ [] → ∃ b, s.trie.contains k = .ok b ∧ (b = true ↔
        (∃ name fid, s.names.HeldBy name fid ∧ k = (TrieEntry.fname fid name).key sha256) ∨ k ∈ others.current)) ∧
      (∀ fid name, E (.fname fid name) → ∃ b, s.trie.contains ((TrieEntry.fname fid name).key sha256) = .ok b ∧
        (b = true ↔ s.names.HeldBy name fid)) := by
  intro others
  obtain ⟨own0, own, idx0, idx, ks, s, h1, h2, h3⟩ := nameMirror_run hH hord hE hU ops
    (nameMirror_init (H := H) (sha256 := sha256) (U := U) (E := E)) hr
  have hheld : ∀ name fid, s.names.HeldBy name fid ↔ fid ≠ 0 ∧ ∃ q, own name = some q ∧ q.fid = fid := by
    intro name fid
    unfold FState.HeldBy
    rw [getFname_iff (show Rep (getFromDbOrTxn s.names.db s.names.txn) own idx from h2.names.rep) name]
    simp only [Except.ok.injEq]
  obtain ⟨_, _, _, _, _, hc⟩ := cache_reads h2.trie
  refine ⟨s, h1, h3, ?_, ?_⟩
  · intro k hk
    refine ⟨_, hc k hk, ?_⟩
    rw [decide_eq_true_eq, h2.current k]
    refine or_congr ⟨?_, ?_⟩ Iff.rfl
    · rintro ⟨n, q, hq, h0, rfl⟩
      exact ⟨n, q.fid, (hheld n q.fid).2 ⟨h0, q, hq, rfl⟩, rfl⟩
    · rintro ⟨n, f, hh, rfl⟩
      obtain ⟨h0, q, hq, rfl⟩ := (hheld n f).1 hh
      exact ⟨n, q, hq, h0, rfl⟩
  · intro fid name he
    have hl := C25_key_length sha256 _ (hE.valid _ he)
    refine ⟨_, hc _ (by intro e; rw [e] at hl; simp at hl), ?_⟩
    rw [decide_eq_true_eq, h2.current, hheld]
    constructor
    · rintro (⟨n, q, hq, h0, e⟩ | hk)
      · obtain ⟨rfl, rfl⟩ := (name_keys_inj hE he (h2.entry hU hq)).1 e
        exact ⟨h0, q, hq, rfl⟩
      · exact absurd (h2.apart _ hk) (apart_name hE he)
    · rintro ⟨h0, q, hq, rfl⟩
      exact .inl ⟨name, q, hq, h0, rfl⟩

/-- **C77, limit.** After any such history, a later proof of a name for its holder takes the entry out of the trie,
although the user still holds the name. -/
theorem C77_reproof_drops_entry (U : FProof → Prop) (H : Bytes → Bytes) (hH : ∀ x, H x ≠ [])
    (ord : List UInt8 → List UInt8) (hord : ∀ l, (ord l).Perm l) (sha256 : Bytes → Bytes) (E : TrieEntry → Prop)
    (hE : EntriesFit sha256 E) (hU : ∀ p, U p → E (.fname p.fid p.name)) (ops : List NameTrieOp)
    (hr : NameStepsOK U sha256 E {} {} ops) (p : FProof) (hp : U p)
    (hrec : (mergeFname (ops.foldl FState.follow {}) p).1 ≠ .error .invalidParameter)
    (hre : (ops.foldl FState.follow {}).Reproof p) :
    ∃ s, NameTrie.run H ord sha256 (ops ++ [.call (.merge p)]) {} = .ok s ∧ s.names.HeldBy p.name p.fid ∧
      s.trie.contains ((TrieEntry.fname p.fid p.name).key sha256) = .ok false := by
  obtain ⟨own0, own, idx0, idx, ks, s, h1, h2, h3⟩ := nameMirror_run hH hord hE hU ops
    (nameMirror_init (H := H) (sha256 := sha256) (U := U) (E := E)) hr
  change s.names = ops.foldl FState.follow {} at h3
  rw [← h3] at hrec hre
  obtain ⟨h0, q, hq, hf, hl⟩ := hre
  rw [getFname_iff (show Rep (getFromDbOrTxn s.names.db s.names.txn) own idx from h2.names.rep) p.name, Except.ok.injEq] at hq
  have ha : fnameAdmit p (own p.name) = .ok (some q.fid) := by
    rw [hq]
    simp only [fnameAdmit]
    rcases compare_cases q p with ⟨h, _⟩ | ⟨_, _, h⟩ | ⟨_, _, h⟩
    · rw [if_neg (by omega), if_neg (by omega)]
    · exact absurd hl h
    · exact absurd hl h
  have hans := merge_answer h2.names.rep p
  rw [ha] at hans
  have hr' : (mergeFname s.names p).1 = .ok (own p.name) := hans.resolve_right hrec
  obtain ⟨t, cur, h4, h5, h6, h7⟩ := merge_mirror hH hord hE hU h2 hp ha hr'
  refine ⟨⟨s.names.exec (.merge p), t⟩, ?_, ?_, ?_⟩
  · have happ : ∀ (ops : List NameTrieOp) (x : NameTrie) (y : NameTrie), NameTrie.run H ord sha256 ops x = .ok y →
        NameTrie.run H ord sha256 (ops ++ [.call (.merge p)]) x = NameTrie.run H ord sha256 [.call (.merge p)] y := by
      intro ops
      induction ops with
      | nil => intro x y h; cases h; rfl
      | cons c ops ih =>
        intro x y h
        simp only [NameTrie.run, List.cons_append] at h ⊢
        split at h
        · cases h
        · exact ih _ _ h
    rw [happ ops _ _ h1]
    simp only [NameTrie.run, h4]
  · refine ⟨h0, p, ?_, rfl⟩
    rw [getFname_iff (idx := idx' own idx p) h6.rep p.name]
    simp
  · obtain ⟨_, _, _, _, _, hc⟩ := cache_reads h5
    have hl := C25_key_length sha256 _ (hE.valid _ (hU p hp))
    rw [hc _ (by intro e; rw [e] at hl; simp at hl)]
    congr 1
    rw [decide_eq_false_iff_not, h7]
    rintro ⟨_, hn⟩
    exact hn ⟨q, hq, by rw [hf]⟩

/-- The hypotheses can be met: user 7 gets a signer on chain and the name "a", passes it on to user 8, who releases
it; user 7 gets "b". -/
def case77 : List NameTrieOp :=
  [.other (.onchain (some (7, 1, List.replicate 32 5, 0))), .call (.merge (fnA 7 10 1)), .call .commit,
    .call (.merge (fnA 8 20 1)), .call (.merge (fnB 7 21 1)), .call (.merge (fnA 9 15 1)), .call .commit, .call (.merge (fnA 0 30 1)), .call .drop,
    .call (.block 9), .call (.merge (fnA 0 31 1)), .call .commit]

def names77 : List FProof := [fnA 7 10 1, fnA 8 20 1, fnB 7 21 1, fnA 9 15 1, fnA 0 30 1, fnA 0 31 1, fnB 7 40 1]

theorem names77_entries : ∀ p, p ∈ names77 → (TrieEntry.fname p.fid p.name).Valid := by
  have h : ∀ p ∈ names77, p.fid < 2 ^ 32 ∧ p.name.length ≤ 20 ∧ 0 ∉ p.name := by decide
  exact h

theorem noReproof_of {st : FState} {p : FProof} (r : Option FProof) (h : getFname st.db st.txn p.name = .ok r)
    (hr : ∀ q ∈ r, q.fid ≠ p.fid) : ¬ st.Reproof p := by
  rintro ⟨h0, q, hq, hf, hl⟩
  rw [hq, Except.ok.injEq] at h
  subst h
  exact hr q rfl hf

theorem case77_ok : NameStepsOK (· ∈ names77) zeroSha TrieEntry.Valid {} {} case77 := by
  refine ⟨?_, ⟨by decide, by decide +kernel, noReproof_of none (by decide +kernel) (by decide)⟩, ?_,
    ⟨by decide, by decide +kernel, noReproof_of (some (fnA 7 10 1)) (by decide +kernel) (by decide)⟩,
    ⟨by decide, by decide +kernel, noReproof_of none (by decide +kernel) (by decide)⟩,
    ⟨by decide, by decide +kernel, noReproof_of (some (fnA 8 20 1)) (by decide +kernel) (by decide)⟩, ?_,
    ⟨by decide, by decide +kernel, noReproof_of (some (fnA 8 20 1)) (by decide +kernel) (by decide)⟩, ?_, trivial,
    ⟨by decide, by decide +kernel, noReproof_of (some (fnA 8 20 1)) (by decide +kernel) (by decide)⟩, ?_, trivial⟩
  · intro k hk
    simp only [trieKeysForEvent, Option.toList, List.map_cons, List.map_nil, List.append_nil, List.mem_singleton] at hk
    exact ⟨.onchain 7 1 (List.replicate 32 5) 0, ⟨by decide, by decide, by decide, by decide, by decide⟩, hk, by simp⟩
  all_goals (intro h; revert h; decide +kernel)
example : ∃ q, getFname (case77.foldl FState.follow {}).db OMap.empty [98] = .ok (some q) := ⟨fnB 7 21 1, by decide +kernel⟩
example : (case77.foldl FState.follow {}).Reproof (fnB 7 40 1) := by
  refine ⟨by decide, fnB 7 21 1, by decide +kernel, rfl, .inl (by decide)⟩
end Verif
