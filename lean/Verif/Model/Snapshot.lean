import Verif.Model.KV
import Verif.Model.Text
/-!
Snapshots of a shard's database: backup, chunks, upload, clean-up and download.  `backup`, `writer` and `snapshot` in
citations are /repo/src/storage/db/backup.rs, multi_chunk_writer.rs and snapshot.rs.  Compression is left out (a chunk is what
it unpacks to), as are retries, logs and progress.  `tar` is external.
-/
namespace Verif
namespace Snap

/-! ### Backup -/

/-- A batch written to the backup. -/
def writeRows {V : Type} (d : Db V) (rows : List (Bytes × V)) : Db V := rows.foldl (fun d r => d.put r.1 r.2) d

/-- The loop of `backup_db` over the rows of the snapshot, backup 114-134: a batch of `limit` rows is written and emptied,
what is left is written at the end.  `limit` is 10000. -/
def copyRows {V : Type} (limit : Nat) (d : Db V) (batch : List (Bytes × V)) : List (Bytes × V) → Db V
  | [] => writeRows d batch
  | r :: rows =>
    if (batch ++ [r]).length ≥ limit then copyRows limit (writeRows d (batch ++ [r])) [] rows
    else copyRows limit d (batch ++ [r]) rows

/-- `backup_db`, backup 58-148, on a new directory; `writable` says that the database is open and not read-only.  If it is not,
the thread ends with a warning, and the backup goes on with what is in the directory. -/
def backup {V : Type} (writable : Bool) (db : Db V) : Db V := if writable then copyRows 10000 OMap.empty [] db.rows else OMap.empty

/-! ### Chunks -/

/-- `MultiChunkWriter`, writer 16-22: the finished parts and the current one, whose length is `current_size`. -/
structure Writer where
  done : List Bytes := []
  cur : Option Bytes := none
  deriving DecidableEq, Repr

/-- `next_part`, writer 42-63. -/
def Writer.next (w : Writer) : Writer := ⟨w.done ++ w.cur.toList, some []⟩

/-- `write`, writer 86-99: `n` is how many bytes the encoder takes. -/
def Writer.write (max : Nat) (w : Writer) (buf : Bytes) (n : Nat) : Writer :=
  let w := match w.cur with
    | none => w.next
    | some c => if c.length + buf.length > max then w.next else w
  ⟨w.done, w.cur.map (· ++ buf.take n)⟩

/-- `Write::write_all` of std: again with what was not taken; nothing is an error.  The first argument bounds the rounds and
is never reached if it is the length. -/
def Writer.writeAll (max : Nat) (takes : Bytes → Nat) : Nat → Writer → Bytes → Option Writer
  | _, w, [] => some w
  | 0, _, _ :: _ => none
  | f + 1, w, b :: l =>
    let n := takes (b :: l)
    if n = 0 then none else writeAll max takes f (w.write max (b :: l) n) ((b :: l).drop n)

/-- All buffers of the archive, then `finish`, backup 39-43: the parts. -/
def parts (max : Nat) (takes : Bytes → Nat) : Writer → List Bytes → Option (List Bytes)
  | w, [] => some (w.done ++ w.cur.toList)
  | w, b :: bs =>
    match w.writeAll max takes b.length b with
    | none => none
    | some w => parts max takes w bs

/-- `format!("chunk_{:04}.bin", n)`, writer 49-51. -/
def chunkName (n : Nat) : Bytes :=
  [99, 104, 117, 110, 107, 95] ++ (List.replicate (4 - (decimal n).length) 48 ++ decimal n) ++ [46, 98, 105, 110]

/-- The files of the parts, numbered from `n`. -/
def filesFrom : Nat → List Bytes → List (Bytes × Bytes)
  | _, [] => []
  | n, p :: ps => (chunkName n, p) :: filesFrom (n + 1) ps

/-- The files in the directory of the backup, in the order in which they were written. -/
def chunkFiles (ps : List Bytes) : List (Bytes × Bytes) := filesFrom 1 ps

/-! ### The bucket -/

/-- `SnapshotMetadata`, snapshot 147-152, without its time. -/
structure Info where
  base : Bytes
  chunks : List Bytes
  deriving DecidableEq, Repr

inductive Obj where
  | chunk (b : Bytes)
  | info (m : Info)
  deriving DecidableEq, Repr

/-- The objects of the S3 bucket by key. -/
abbrev Bucket := Bytes → Option Obj

/-- `snapshot_directory`, snapshot 86-88; `net` is the name of the network. -/
def dir (net : Bytes) (shard : Nat) : Bytes := net ++ 47 :: decimal shard

/-- `metadata_path`, snapshot 239-245: `latest.json`. -/
def metaPath (net : Bytes) (shard : Nat) : Bytes := dir net shard ++ [47, 108, 97, 116, 101, 115, 116, 46, 106, 115, 111, 110]

/-- A snapshot to upload: the date and the second of its start, the files in the order in which `read_dir` lists them, and
the keys that the listing of the bucket shows afterwards (S3 lists a thousand). -/
structure Upload where
  shard : Nat
  stamp : Bytes
  files : List (Bytes × Bytes)
  listed : Bytes → Bool

/-- `upload_dir`, snapshot 546-551: `/snapshot-`, the stamp, `.tar.gz`. -/
def Upload.base (net : Bytes) (u : Upload) : Bytes :=
  dir net u.shard ++ [47, 115, 110, 97, 112, 115, 104, 111, 116, 45] ++ u.stamp ++ [46, 116, 97, 114, 46, 103, 122]

def Upload.key (net : Bytes) (u : Upload) (name : Bytes) : Bytes := u.base net ++ 47 :: name

/-- `str::contains`. -/
def hasInfix (p : Bytes) : Bytes → Bool
  | [] => p.isPrefixOf []
  | c :: s => p.isPrefixOf (c :: s) || hasInfix p s

inductive Act where
  | put (key : Bytes) (o : Obj)
  | clear (net : Bytes) (shard : Nat) (listed : Bytes → Bool)

/-- `put_object`, and `clear_old_snapshots`, snapshot 196-237: what is listed under the directory, and is neither of the
current snapshot nor its description, is deleted.  Without a description it fails. -/
def Act.run (s : Bucket) : Act → Bucket
  | .put k o => fun k' => if k' = k then some o else s k'
  | .clear net shard listed =>
    match s (metaPath net shard) with
    | some (.info m) => fun k =>
      if (dir net shard).isPrefixOf k && listed k && !hasInfix m.base k && !hasInfix (metaPath net shard) k then none else s k
    | _ => s

/-- `upload_to_s3`, snapshot 534-645, and the clean-up after it, /repo/src/jobs/snapshot_upload.rs:28-41: the chunks in the
order of the directory listing, the description, the clean-up. -/
def Upload.acts (net : Bytes) (u : Upload) : List Act :=
  u.files.map (fun f => .put (u.key net f.1) (.chunk f.2)) ++
    [.put (metaPath net u.shard) (.info ⟨u.base net, u.files.map (·.1)⟩), .clear net u.shard u.listed]

/-! ### Download -/

/-- The chunks of a description, unpacked one after the other into one file, snapshot 322-416; nothing is an error. -/
def fetch (get : Bytes → Option Obj) (base : Bytes) : List Bytes → Option Bytes
  | [] => some []
  | c :: cs =>
    match get (base ++ 47 :: c) with
    | some (.chunk b) => (fetch get base cs).map (b ++ ·)
    | _ => none

/-- `download_snapshots`, snapshot 265-430, for one shard, up to the archive it unpacks. -/
def download (net : Bytes) (s : Bucket) (shard : Nat) : Option Bytes :=
  match s (metaPath net shard) with
  | some (.info m) => fetch s m.base m.chunks
  | _ => none

end Snap
end Verif
