import Verif.Lemmas.Snapshot
/-!
**C101**: a snapshot of a shard's database can be downloaded and is the database, whatever happened to later uploads.
-/
namespace Verif
namespace Snap

/-- **C101**: the backup holds the rows of the database and no others. -/
theorem C101_backup_is_database {V : Type} (db : Db V) : backup true db = db := backup_eq db

/-- **C101**: if the database is closed or was opened read-only, the backup is empty, and no error. -/
theorem C101_read_only_is_empty {V : Type} (db : Db V) : backup false db = OMap.empty := rfl

/-- **C101**: the writer takes any archive if the encoder takes at least a byte of what it is given; its chunks one after the
other are the archive, and none is longer than the limit or the longest buffer. -/
theorem C101_chunks (max : Nat) {takes : Bytes → Nat} (ht : ∀ b, b ≠ [] → 1 ≤ takes b) (archive : List Bytes) :
    ∃ ps, parts max takes {} archive = some ps ∧ ps.flatten = archive.flatten ∧
      ∀ N, max ≤ N → (∀ b ∈ archive, b.length ≤ N) → ∀ p ∈ ps, p.length ≤ N := by
  obtain ⟨ps, h⟩ := parts_some max ht archive {}
  refine ⟨ps, h, by simpa [Writer.all] using parts_flatten max takes archive {} ps h, fun N hN hb => ?_⟩
  exact parts_sizes hN archive {} ps hb (by simp [Writer.all]) h

/-- **C101**: whatever uploads there were, each ended at any step, a download of a shard gets the chunks of the last upload
that came as far as its description. -/
theorem C101_latest_downloads {net : Bytes} {H : History} (hp : Proper net H) (hd : Distinct H) (ha : Apart H) {shard : Nat}
    {u : Upload} (h : H.latest shard = some u) : download net (bucket (H.acts net)) shard = some u.content := by
  have hh := holds_history H [] (fun _ => none) (by simpa using hp) (by simpa using hd) (by simpa using ha)
    (fun s v hv => by cases hv) shard u (by simpa using h)
  obtain ⟨_, _, hs, _⟩ := latest_mem h
  subst hs
  exact download_of hh

/-- **C101**: a download while uploads go on reads the description at some time and each chunk at some time: if it succeeds,
what it gets is one upload of that shard, not a mixture. -/
theorem C101_no_mixture {net : Bytes} {H : History} (hp : Proper net H) (hd : Distinct H) {shard : Nat} (hs : shard < 2 ^ 32)
    {i : Nat} {t : Bytes → Nat} {m : Info} {b : Bytes}
    (hm : bucket ((H.acts net).take i) (metaPath net shard) = some (.info m))
    (hb : fetch (fun k => bucket ((H.acts net).take (t k)) k) m.base m.chunks = some b) :
    ∃ x ∈ H, published shard x = true ∧ b = x.1.content := by
  have gen : ∀ i, Genuine net H (bucket ((H.acts net).take i)) := fun i =>
    genuine_run _ _ (fun a h => List.mem_of_mem_take h) ⟨(fun _ _ e => by cases e), (fun _ _ e => by cases e)⟩
  obtain ⟨x, hx, hl, hk, rfl⟩ := (gen i).2 _ _ hm
  have hs' := meta_inj hp.net hs (hp.shard x hx) hk
  exact ⟨x, hx, by simp [published, hs', hl], fetch_genuine hp hd hx (fun k b e => (gen (t k)).1 k b e) x.1.files (fun _ h => h) b hb⟩

/-- **C101**: a node that restores the last complete snapshot of a shard has the database of which it was taken, if the
directory of the chunks was listed in the order of their numbers. -/
theorem C101_restored {V : Type} {tar : Db V → List Bytes} {untar : Bytes → Option (Db V)} {db : Db V}
    (tarred : untar (tar (backup true db)).flatten = some (backup true db)) {net : Bytes} {H : History} (hp : Proper net H) (hd : Distinct H)
    (ha : Apart H) {shard : Nat} {u : Upload} (h : H.latest shard = some u) {max : Nat} {takes : Bytes → Nat}
    {ps : List Bytes} (hps : parts max takes {} (tar (backup true db)) = some ps) (hf : u.files = chunkFiles ps) :
    (download net (bucket (H.acts net)) shard).bind untar = some db := by
  rw [C101_latest_downloads hp hd ha h, Option.bind_some]
  have e : u.content = (tar (backup true db)).flatten := by
    unfold Upload.content chunkFiles at *
    rw [hf, filesFrom_contents]
    simpa [Writer.all] using parts_flatten max takes _ {} ps hps
  rw [e, tarred, C101_backup_is_database]

/-- **C101**: that is so if the listing is by name and there are less than ten thousand chunks. -/
theorem C101_sorted_listing {files : List (Bytes × Bytes)} {ps : List Bytes} (hl : ps.length < 10000)
    (hp : files.Perm (chunkFiles ps)) (hs : files.Pairwise fun f g => f.1 ≺ g.1) : files = chunkFiles ps :=
  sorted_listing hl hp hs

/-- **C101**: the names of the chunks are as `Proper` asks. -/
theorem C101_chunk_names {ps : List Bytes} (hl : ps.length < 2 ^ 63) :
    ((chunkFiles ps).map (·.1)).Nodup ∧ ∀ f ∈ chunkFiles ps, 47 ∉ f.1 := by
  refine ⟨filesFrom_nodup 1 ps (by omega), fun f hf => ?_⟩
  obtain ⟨i, _, h2, h3⟩ := filesFrom_names 1 ps f hf
  rw [h3]
  exact chunkName_no_slash (by omega)

/-- **C101**: when an upload is complete, the chunks of all uploads of the shard before it are gone that the listing showed,
if stamps are of the same length. -/
theorem C101_cleared {net : Bytes} {H : History} {u : Upload} {n : Nat} (hp : Proper net (H ++ [(u, n)])) (hd : Distinct (H ++ [(u, n)]))
    (hc : u.files.length + 1 < n) {x : Upload × Nat} (hx : x ∈ H) (hs : x.1.shard = u.shard)
    (hl : x.1.stamp.length = u.stamp.length) {f : Bytes × Bytes} (hf : f ∈ x.1.files) (hk : u.listed (x.1.key net f.1) = true) :
    bucket (History.acts net (H ++ [(u, n)])) (x.1.key net f.1) = none := by
  have hu : (u, n) ∈ H ++ [(u, n)] := by simp
  have hx' : x ∈ H ++ [(u, n)] := List.mem_append_left _ hx
  have hne : x.1.stamp ≠ u.stamp := by
    rcases (List.pairwise_append.1 hd).2.2 x hx (u, n) (by simp) with h | h
    · exact absurd hs h
    · exact h
  have e : History.acts net (H ++ [(u, n)]) = History.acts net H ++ (u.acts net).take n := by simp [History.acts]
  unfold bucket
  rw [e, List.foldl_append]
  exact cleared hp.net (hp.shard _ hu) (hp.stamp _ hu) (hp.stamp _ hx') (hp.file _ hx' f hf) (hp.names _ hu) hs hne hl.symm hk hc

/-! ### What fails -/

namespace Case101

def up (shard : Nat) (stamp : Bytes) (files : List (Bytes × Bytes)) : Upload := ⟨shard, stamp, files, fun _ => true⟩

def net : Bytes := [78]

/-- **C101**: the directory is not sorted: two chunks listed the other way round are restored the other way round. -/
theorem C101_listing_order_matters : ∃ (ps : List Bytes) (u : Upload), parts 2 List.length {} [[1, 2], [3]] = some ps ∧
    u.files.Perm (chunkFiles ps) ∧ download net (bucket (History.acts net [(u, 4)])) u.shard = some [3, 1, 2] :=
  ⟨[[1, 2], [3]], up 1 [49] (chunkFiles [[1, 2], [3]]).reverse, by decide, List.reverse_perm _, by decide +kernel⟩

/-- **C101**: the clean-up of shard 1 deletes the snapshots of shard 10, whose path begins with that of shard 1. -/
theorem C101_clear_deletes_other_shards :
    download net (bucket (History.acts net [(up 10 [49] [([97], [5])], 3)])) 10 = some [5] ∧
    download net (bucket (History.acts net [(up 10 [49] [([97], [5])], 3), (up 1 [50] [([97], [6])], 3)])) 10 = none := by
  decide +kernel

/-- Three uploads for shards 1 and 2, the last one of shard 1 ended by a crash after its first chunk. -/
def H : History := [(up 1 [49] (chunkFiles [[1, 2], [3]]), 4), (up 2 [50] (chunkFiles [[9]]), 3), (up 1 [51] (chunkFiles [[7], [8]]), 1)]

theorem proper : Proper net H := by
  refine ⟨by decide, ?_, ?_, ?_, ?_⟩ <;> decide +kernel

theorem distinct : Distinct H := by unfold Distinct; decide +kernel

theorem apart : Apart H := by unfold Apart; decide +kernel

/-- The hypotheses hold of it; the snapshot of shard 1 is the one before the crash. -/
example : download net (bucket (H.acts net)) 1 = some [1, 2, 3] ∧ download net (bucket (H.acts net)) 2 = some [9] :=
  ⟨C101_latest_downloads (u := up 1 [49] (chunkFiles [[1, 2], [3]])) proper distinct apart rfl,
    C101_latest_downloads (u := up 2 [50] (chunkFiles [[9]])) proper distinct apart rfl⟩

/-- A database of one row, archived in two buffers. -/
def db : Db Nat := OMap.empty.put [1] 5

example : (download net (bucket (H.acts net)) 1).bind (fun b => if b = [1, 2, 3] then some db else none) = some db := by
  refine C101_restored (tar := fun _ => [[1, 2], [3]]) (max := 2) (takes := List.length) (ps := [[1, 2], [3]]) ?_ proper distinct apart
    (u := up 1 [49] (chunkFiles [[1, 2], [3]])) rfl (by decide) rfl
  rw [C101_backup_is_database]
  rfl

/-- The hypotheses of the clean-up hold of a fourth one, and the first chunk of the first is gone. -/
example : bucket (History.acts net (H ++ [(up 1 [52] (chunkFiles [[4]]), 3)])) ((up 1 [49] []).key net (chunkName 1)) = none := by
  refine C101_cleared (u := up 1 [52] (chunkFiles [[4]])) (n := 3) (H := H) (x := (up 1 [49] (chunkFiles [[1, 2], [3]]), 4)) (f := (chunkName 1, [1, 2])) ?_ ?_ (by decide) (by simp [H]) rfl rfl
    (by simp [up, chunkFiles, filesFrom]) rfl
  · refine ⟨by decide, ?_, ?_, ?_, ?_⟩ <;> decide +kernel
  · unfold Distinct; decide +kernel

/-- A reader who has the first description and reads a chunk while the third upload goes on. -/
example : ∃ x ∈ H, published 1 x = true ∧ [1, 2, 3] = x.1.content := by
  refine C101_no_mixture proper distinct (i := 4) (t := fun _ => 6) (m := ⟨(up 1 [49] []).base net, [chunkName 1, chunkName 2]⟩) (by decide) ?_ ?_
  · decide +kernel
  · decide +kernel

/-- An archive of three buffers in chunks of at most two bytes, with an encoder that takes a byte at a time. -/
example : parts 2 (fun _ => 1) {} [[1], [2, 3], [4]] = some [[1], [2, 3], [4]] := by decide +kernel

end Case101
end Snap
end Verif
