import Verif.Model.Cli
import Verif.Model.Unpack

/-!
# Reading a directory of the host as a source

`StdFilesystem`, `/repo/xdvdfs-core/src/write/fs/stdfs.rs`, on the host of `Verif.Model.Host`.
-/

namespace Xdvdfs

/-- What reading the host depends on, apart from its files and directories: the names a directory yields and
their order; the length reported for directories; what is there but is neither a file nor a directory, or has a
name that is not Unicode; and how `std::io::copy` cuts what it copies. For
`/repo/xdvdfs-core/src/write/fs/stdfs.rs:31-68`. -/
structure DirReader where
  names : HostPath → List Str
  dirLen : HostPath → Nat
  special : HostPath → Bool
  split : Bytes → List Bytes

/-- One entry of `read_dir`, `/repo/xdvdfs-core/src/write/fs/stdfs.rs:40-63`.  The metadata is that of the entry
itself, also if it is a symbolic link. -/
def stdEntry (r : DirReader) (fs : HostFs) (dir : HostPath) (name : Str) : Res FileEntry :=
  if r.special (dir ++ [name]) then .err .io
  else match fs (dir ++ [name]) with
    | some .dir => .ok ⟨name, true, r.dirLen (dir ++ [name])⟩
    | some (.file data) => .ok ⟨name, false, data.length⟩
    | none => .err .io

/-- The entries of a listing; the first failure is the outcome,
`/repo/xdvdfs-core/src/write/fs/stdfs.rs:37-67`. -/
def stdEntries (r : DirReader) (fs : HostFs) (dir : HostPath) : List Str → Res (List FileEntry)
  | [] => .ok []
  | n :: ns => do
    let e ← stdEntry r fs dir n
    let es ← stdEntries r fs dir ns
    pure (e :: es)

/-- `read_dir`, `/repo/xdvdfs-core/src/write/fs/stdfs.rs:31-68`; `as_path_buf`,
`/repo/xdvdfs-core/src/write/fs/mod.rs:56-59`, appends the components to the root. -/
def stdReadDir (r : DirReader) (fs : HostFs) (root : HostPath) (p : Path) : Res (List FileEntry) :=
  match fs (root ++ p) with
  | some .dir => stdEntries r fs (root ++ p) (r.names (root ++ p))
  | _ => .err .io

/-- `copy_file_in`, `/repo/xdvdfs-core/src/write/fs/stdfs.rs:83-101`. -/
def stdCopy (r : DirReader) (fs : HostFs) (root : HostPath) (p : Path) (off size : Nat) : List Bytes × Res Nat :=
  match fs (root ++ p) with
  | some (.file data) => (r.split ((data.drop off).take size), .ok ((data.drop off).take size).length)
  | _ => ([], .err .io)

/-- `StdFilesystem`, `/repo/xdvdfs-core/src/write/fs/stdfs.rs:15-102`.  `path_to_string` (lines 70-73) escapes special
characters, which is left out here. -/
def stdFs (r : DirReader) (fs : HostFs) (root : HostPath) : SourceFs where
  readDir := stdReadDir r fs root
  pathToString := fun p => '"' :: (pathAsString (root ++ p) ++ ['"'])
  copy := stdCopy r fs root

end Xdvdfs
