import Verif.Model.Read

/-!
# The host file system

What the commands of `xdvdfs-cli` do to the files of the host, through `std::path` and `std::fs`.
This is a model of a Unix file system without symbolic links, mount points or permissions, used by a
single process; refused and interrupted operations are given by a fault oracle.  Windows paths are not
modelled.
-/

namespace Xdvdfs

/-- What exists at a path of the host. Not code of the repository: the file system behind the calls at
`/repo/xdvdfs-cli/src/cmd_unpack.rs:33-54`, `/repo/xdvdfs-core/src/write/fs/stdfs.rs:31-68`. -/
inductive HostNode where
  | dir
  | file (data : Bytes)
  deriving DecidableEq, Repr

/-- A host path: the components from the root, none of them empty, `.` or `..`. Not code of the repository: the
file system behind the calls at `/repo/xdvdfs-cli/src/cmd_unpack.rs:33-54`,
`/repo/xdvdfs-core/src/write/fs/stdfs.rs:31-68`. -/
abbrev HostPath := List Str

/-- The files and directories of the host. Not code of the repository: the file system behind the calls at
`/repo/xdvdfs-cli/src/cmd_unpack.rs:33-54`, `/repo/xdvdfs-core/src/write/fs/stdfs.rs:31-68`. -/
abbrev HostFs := HostPath → Option HostNode

/-- Create or replace what exists at a path. Not code of the repository: the file system behind the calls at
`/repo/xdvdfs-cli/src/cmd_unpack.rs:33-54`, `/repo/xdvdfs-core/src/write/fs/stdfs.rs:31-68`. -/
def HostFs.set (fs : HostFs) (p : HostPath) (n : HostNode) : HostFs := fun q => if q = p then some n else fs q

/-- How the host treats an operation on a path. Not code of the repository: the file system behind the calls at
`/repo/xdvdfs-cli/src/cmd_unpack.rs:33-54`, `/repo/xdvdfs-core/src/write/fs/stdfs.rs:31-68`. -/
inductive HostFault where
  | none               -- the operation is carried out
  | refuse             -- it fails without effect (permissions, a full disk, a name that is too long)
  | cut (k : Nat)      -- a file is created, and writing stops with an error after `k` bytes
  deriving DecidableEq, Repr

/-- The host as seen by one process: its working directory and the faults of the host. Not code of the
repository: the file system behind the calls at `/repo/xdvdfs-cli/src/cmd_unpack.rs:33-54`,
`/repo/xdvdfs-core/src/write/fs/stdfs.rs:31-68`. -/
structure Host where
  cwd : HostPath
  faults : HostPath → HostFault

/-- `Path::join` on Unix, used at `/repo/xdvdfs-cli/src/cmd_unpack.rs:22-24`: an absolute second path
replaces the first. -/
def pathJoin (a b : Str) : Str :=
  if b.head? = some '/' then b
  else if a = [] ∨ a.getLast? = some '/' then a ++ b
  else a ++ '/' :: b

/-- The components of a path string, as the kernel and `Path::components` see them: repeated slashes count once.
(`Path::components` also drops `.`; the walk below treats it as the kernel does.) Not code of the repository:
the file system behind the calls at `/repo/xdvdfs-cli/src/cmd_unpack.rs:33-54`,
`/repo/xdvdfs-core/src/write/fs/stdfs.rs:31-68`. -/
def hostComps (s : Str) : List Str := (splitSlash s).filter (fun c => decide (c ≠ []))

/-- Path resolution: every directory that is passed must exist; `..` leads to the parent, which for the root is
the root. There are no symbolic links. Not code of the repository: the file system behind the calls at
`/repo/xdvdfs-cli/src/cmd_unpack.rs:33-54`, `/repo/xdvdfs-core/src/write/fs/stdfs.rs:31-68`. -/
def hostWalk (fs : HostFs) : HostPath → List Str → Res HostPath
  | cur, [] => .ok cur
  | cur, c :: cs =>
    if fs cur ≠ some .dir then .err .io
    else if c = ['.'] then hostWalk fs cur cs
    else if c = ['.', '.'] then hostWalk fs cur.dropLast cs
    else hostWalk fs (cur ++ [c]) cs

/-- Where the resolution of a path string starts. Not code of the repository: the file system behind the calls
at `/repo/xdvdfs-cli/src/cmd_unpack.rs:33-54`, `/repo/xdvdfs-core/src/write/fs/stdfs.rs:31-68`. -/
def Host.start (h : Host) (path : Str) : HostPath := if path.head? = some '/' then [] else h.cwd

/-- Resolution of a path string; a string that is empty or contains a NUL is rejected. Not code of the
repository: the file system behind the calls at `/repo/xdvdfs-cli/src/cmd_unpack.rs:33-54`,
`/repo/xdvdfs-core/src/write/fs/stdfs.rs:31-68`. -/
def Host.resolve (h : Host) (fs : HostFs) (path : Str) : Res HostPath :=
  if path = [] ∨ Char.ofNat 0 ∈ path then .err .io
  else hostWalk fs (h.start path) (hostComps path)

/-- `std::fs::create_dir`, used at `/repo/xdvdfs-cli/src/cmd_unpack.rs:35`: fails if anything exists
there. -/
def Host.createDir (h : Host) (path : Str) (fs : HostFs) : Res Unit × HostFs :=
  match h.resolve fs path with
  | .ok p =>
    match fs p with
    | some _ => (.err .io, fs)
    | none => if h.faults p = .none then (.ok (), fs.set p .dir) else (.err .io, fs)
  | .err e => (.err e, fs)
  | .panic => (.panic, fs)
  | .hang => (.hang, fs)

/-- The effect of `create_dir_all` on the components of its path: every directory that is missing is created, in
order. (The library starts from the whole path and works upwards to the first ancestor that exists, then
downwards; a path with a component `..` that follows a missing directory is treated like the others here.)
Called at `/repo/xdvdfs-cli/src/cmd_unpack.rs:33`. -/
def Host.makeDirs (h : Host) : List Str → HostPath → HostFs → Res Unit × HostFs
  | [], cur, fs => if fs cur = some .dir then (.ok (), fs) else (.err .io, fs)
  | c :: cs, cur, fs =>
    if fs cur ≠ some .dir then (.err .io, fs)
    else if c = ['.'] then h.makeDirs cs cur fs
    else if c = ['.', '.'] then h.makeDirs cs cur.dropLast fs
    else match fs (cur ++ [c]) with
      | some _ => h.makeDirs cs (cur ++ [c]) fs
      | none =>
        if h.faults (cur ++ [c]) = .none then h.makeDirs cs (cur ++ [c]) (fs.set (cur ++ [c]) .dir)
        else (.err .io, fs)

/-- `std::fs::create_dir_all`, used at `/repo/xdvdfs-cli/src/cmd_unpack.rs:33`.  The empty path is
accepted. -/
def Host.createDirAll (h : Host) (path : Str) (fs : HostFs) : Res Unit × HostFs :=
  if path = [] then (.ok (), fs)
  else if Char.ofNat 0 ∈ path then (.err .io, fs)
  else h.makeDirs (hostComps path) (h.start path) fs

/-- Opening a file for writing with `truncate` and `create`, then writing `data` to it
(`/repo/xdvdfs-cli/src/cmd_unpack.rs:44-66`).  A directory cannot be opened for writing, and a path
that ends in a slash or in `.` or `..` cannot name a file. -/
def Host.writeFile (h : Host) (path : Str) (data : Res Bytes) (fs : HostFs) : Res Unit × HostFs :=
  match h.resolve fs path with
  | .ok p =>
    if fs p = some .dir ∨ (splitSlash path).getLast? = some [] ∨ (splitSlash path).getLast? = some ['.'] ∨
        (splitSlash path).getLast? = some ['.', '.'] then (.err .io, fs)
    else match h.faults p with
      | .refuse => (.err .io, fs)
      | .cut k =>
        match data with
        | .ok b => (.err .io, fs.set p (.file (b.take k)))
        | _ => (.err .io, fs.set p (.file []))
      | .none =>
        match data with
        | .ok b => (.ok (), fs.set p (.file b))
        | .err e => (.err e, fs.set p (.file []))
        | .panic => (.panic, fs.set p (.file []))
        | .hang => (.hang, fs.set p (.file []))
  | .err e => (.err e, fs)
  | .panic => (.panic, fs)
  | .hang => (.hang, fs)

end Xdvdfs
