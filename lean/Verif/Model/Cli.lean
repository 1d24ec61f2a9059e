import Verif.Model.BufWriter
import Verif.Model.ImgFs
import Verif.Model.Host

/-!
# The command line tool

Output paths, the checks before an image is created, `pack`, the extract-xiso compatible modes `-c` and `-r`, and the
commands that print: `ls`, `tree` and `info`.  Host paths are absolute and resolved, as `absolute_path`
(`/repo/xdvdfs-cli/src/img.rs:83-88`) makes them; there are no symbolic links.
-/

namespace Xdvdfs

/-! ## File names -/

/-- `Path::file_stem` and `Path::extension` of the standard library, on a file name: the parts before and after
the last dot, unless there is none or the only one is the first character. Used at
`/repo/xdvdfs-cli/src/img.rs:98`. -/
def splitExt (name : Str) : Str × Option Str :=
  if name = ['.', '.'] then (name, none)
  else
    match name.reverse.dropWhile (fun c => c ≠ '.') with
    | [] => (name, none)
    | _ :: before =>
      if before = [] then (name, none)
      else (before.reverse, some (name.reverse.takeWhile (fun c => c ≠ '.')).reverse)

/-- `Path::with_extension` of the standard library, on a file name. Called at `/repo/xdvdfs-cli/src/img.rs:95`,
`/repo/xdvdfs-cli/src/img.rs:106`. -/
def stdWithExtension (name ext : Str) : Str :=
  if ext = [] then (splitExt name).1 else (splitExt name).1 ++ '.' :: ext

/-- `with_extension`, `/repo/xdvdfs-cli/src/img.rs:93-107`, on a file name. -/
def withExtension (name ext : Str) (isDir : Bool) : Str :=
  if isDir then
    match (splitExt name).2 with
    | none => stdWithExtension name ext
    | some e => stdWithExtension name (e ++ '.' :: ext)
  else stdWithExtension name ext

/-- A path with its last component changed; the root has none. As `with_extension` does at
`/repo/xdvdfs-cli/src/img.rs:93-107`. -/
def onFileName (f : Str → Str) (p : HostPath) : HostPath :=
  match p.getLast? with
  | none => p
  | some name => p.dropLast ++ [f name]

/-! ## Packing to a path -/

/-- `get_default_image_path`, `/repo/xdvdfs-cli/src/cmd_pack.rs:20-35`; the result is relative to the working
directory. -/
def defaultImagePath (cwd : HostPath) (fs : HostFs) (src : HostPath) (isDir : Bool) : Res HostPath :=
  match src.getLast? with
  | none => .err .other
  | some name =>
    let output := cwd ++ [withExtension name ['i', 's', 'o'] isDir]
    if (fs output).isSome ∧ output = src then
      .ok (cwd ++ [withExtension name ['x', 'i', 's', 'o', '.', 'i', 's', 'o'] isDir])
    else .ok output

/-- The checks of `cmd_pack_path` and the creation of its output,
`/repo/xdvdfs-cli/src/cmd_pack.rs:55-71`.  The output is truncated if it exists; its directory must exist. -/
def packOpen (fs : HostFs) (src dst : HostPath) : Res HostFs :=
  match fs src with
  | none => .err .io
  | some _ =>
    if (fs dst).isSome ∧ dst = src then .err .other
    else if src.isPrefixOf dst then .err .other
    else if fs dst = some .dir ∨ fs dst.dropLast ≠ some .dir then .err .io
    else .ok (fs.set dst (.file []))

/-- What decides how a run of the tool goes, apart from the files: when the output buffer is flushed early, how
`std::io::copy` cuts the data, and the bounds on the loops that walk tables and trees. For
`/repo/xdvdfs-cli/src/cmd_pack.rs:54-103`. -/
structure Tool where
  early : BufFile → Bytes → Bool
  split : Bytes → List Bytes
  wfuel : Nat
  fuel : Nat

/-- `create_xdvdfs_image` from an image to the buffered output file, `/repo/xdvdfs-cli/src/cmd_pack.rs:93-97`: `repackImage` with the buffered file as device. -/
def repackBuffered (copier : Copier) (pol : BufPolicy) (faults : Faults) (wfuel fuel : Nat) (fs : ImgFs) :
    PM BufFile Unit := do
  let (dirtree, fs) ← imgTreeLoop wfuel fuel fs [[]] []
  createFrom (bufEnv (fs.source (fun _ => .err .other) copier) pol faults) dirtree

/-- `cmd_pack_path` on an image with the given bytes, after the output was created,
`/repo/xdvdfs-cli/src/cmd_pack.rs:92-97`: open the image at the first offset that has a volume, and pack it into the
new file.  The result is the reported one, and the output file before it is closed. -/
def packImageOpen (t : Tool) (img : Bytes) (faults : Faults) : Res Unit × BufFile :=
  match offsetNew (fileDev img) with
  | .ok base =>
    match ImgFs.new (offsetDev (fileDev img) base) with
    | .ok (some fs) =>
      let r := repackBuffered (stdIoCopier img base t.split) (cliPolicy t.early) faults t.wfuel t.fuel fs
        ⟨⟨[], 0, [], 0⟩, []⟩
      (r.1, r.2.dev)
    | .ok none => (.err .other, ⟨[], 0, [], 0⟩)
    | .err e => (.err e, ⟨[], 0, [], 0⟩)
    | .panic => (.panic, ⟨[], 0, [], 0⟩)
    | .hang => (.hang, ⟨[], 0, [], 0⟩)
  | .err e => (.err e, ⟨[], 0, [], 0⟩)
  | .panic => (.panic, ⟨[], 0, [], 0⟩)
  | .hang => (.hang, ⟨[], 0, [], 0⟩)

/-- The same with the output file closed, at the end of `cmd_pack_path`, `/repo/xdvdfs-cli/src/cmd_pack.rs:102-103`. -/
def packImage (t : Tool) (img : Bytes) (faults : Faults) : Res Unit × BufFile :=
  ((packImageOpen t img faults).1, dropBuf faults (packImageOpen t img faults).2)

/-- `cmd_pack_path`, `/repo/xdvdfs-cli/src/cmd_pack.rs:54-103`, on an image: the states of the host that can be seen
while it runs, in order, and the outcome.  What is seen while the output is written is its state when writing stopped;
the states before that are those of runs whose writes fail earlier. -/
def packPathImage (t : Tool) (faults : Faults) (fs : HostFs) (src dst : HostPath) : List HostFs × Res HostFs :=
  match packOpen fs src dst with
  | .ok fs1 =>
    match fs1 src with
    | some (.file img) =>
      let seen := [fs1, fs1.set dst (.file (packImageOpen t img faults).2.img),
        fs1.set dst (.file (packImage t img faults).2.img)]
      match (packImage t img faults).1 with
      | .ok _ => (seen, .ok (fs1.set dst (.file (packImage t img faults).2.img)))
      | .err e => (seen, .err e)
      | .panic => (seen, .panic)
      | .hang => (seen, .hang)
    | _ => ([fs1], .err .other)
  | .err e => ([], .err e)
  | .panic => ([], .panic)
  | .hang => ([], .hang)

/-- `cmd_pack_path` on a directory that is read as the source `sfs`,
`/repo/xdvdfs-cli/src/cmd_pack.rs:54-103`. -/
def packPathDir (t : Tool) (sfs : SourceFs) (faults : Faults) (fs : HostFs) (src dst : HostPath) :
    List HostFs × Res HostFs :=
  match packOpen fs src dst with
  | .ok fs1 =>
    let killed := (createImage (bufEnv sfs (cliPolicy t.early) faults) t.fuel ⟨⟨[], 0, [], 0⟩, []⟩).2.dev.img
    let closed := packFile sfs (cliPolicy t.early) faults t.fuel
    let seen := [fs1, fs1.set dst (.file killed), fs1.set dst (.file closed.2.img)]
    match closed.1 with
    | .ok _ => (seen, .ok (fs1.set dst (.file closed.2.img)))
    | .err e => (seen, .err e)
    | .panic => (seen, .panic)
    | .hang => (seen, .hang)
  | .err e => ([], .err e)
  | .panic => ([], .panic)
  | .hang => ([], .hang)

/-- `cmd_pack`, `/repo/xdvdfs-cli/src/cmd_pack.rs:38-51`, with `read` the way a directory is read as a source. -/
def cmdPack (t : Tool) (read : HostFs → HostPath → SourceFs) (faults : Faults) (cwd : HostPath) (fs : HostFs)
    (src : HostPath) (dst : Option HostPath) : List HostFs × Res HostFs :=
  match fs src with
  | none => ([], .err .io)
  | some node =>
    let dest : Res HostPath := match dst with
      | some d => .ok d
      | none => defaultImagePath cwd fs src (node = .dir)
    match dest with
    | .ok d => if node = .dir then packPathDir t (read fs src) faults fs src d else packPathImage t faults fs src d
    | .err e => ([], .err e)
    | .panic => ([], .panic)
    | .hang => ([], .hang)

/-! ## extract-xiso modes -/

/-- The loop of `exiso_create` over the remaining arguments, `/repo/xdvdfs-cli/src/exiso_compat.rs:103-125`.  Both
branches advance by two. -/
def createTasksLoop : List Str → List (Str × Option Str) → Res (List (Str × Option Str))
  | [], tasks => .ok tasks
  | [_], _ => .err .other
  | c :: d :: rest, tasks =>
    if c ≠ ['-', 'c'] then .err .other
    else match rest with
      | [] => createTasksLoop rest (tasks ++ [(d, none)])
      | f :: _ =>
        if f ≠ ['-', 'c'] then createTasksLoop rest (tasks ++ [(d, some f)])
        else createTasksLoop rest (tasks ++ [(d, none)])

/-- The argument handling of `exiso_create`, `/repo/xdvdfs-cli/src/exiso_compat.rs:98-125`. -/
def createTasks (dir : Str) (file : Option Str) (rest : List Str) : Res (List (Str × Option Str)) :=
  createTasksLoop rest [(dir, file)]

/-- `std::fs::rename` of a file: replaces a file at the new path, not a directory; the new path's directory must
exist.  Used at `/repo/xdvdfs-cli/src/exiso_compat.rs:178`. -/
def HostFs.rename (fs : HostFs) (a b : HostPath) : Res HostFs :=
  match fs a with
  | some n =>
    if fs b = some .dir ∨ fs b.dropLast ≠ some .dir then .err .io
    else .ok (fun q => if q = b then some n else if q = a then none else fs q)
  | none => .err .io

/-- `std::fs::remove_file`, as `/repo/xdvdfs-cli/src/exiso_compat.rs:191` uses it. -/
def HostFs.remove (fs : HostFs) (a : HostPath) : HostFs := fun q => if q = a then none else fs q

/-- Where `exiso_repack` moves its input, `/repo/xdvdfs-cli/src/exiso_compat.rs:177`. -/
def oldPath (src : HostPath) : HostPath := onFileName (fun n => withExtension n ['o', 'l', 'd'] false) src

/-- Where `exiso_repack` writes, `/repo/xdvdfs-cli/src/exiso_compat.rs:181-186`: `with_file_name` replaces the last
component of the directory given with `-d`, if it has one. -/
def rewriteDest (dir : Option HostPath) (src : HostPath) : HostPath :=
  match dir with
  | some d => match src.getLast? with
    | some name => d.dropLast ++ [name]
    | none => d
  | none => src

/-- The body of the loop of `exiso_repack`, `/repo/xdvdfs-cli/src/exiso_compat.rs:169-193`: the states that can be seen
and the outcome. -/
def rewriteOne (t : Tool) (dir : Option HostPath) (delete : Bool) (faults : Faults) (fs : HostFs) (src : HostPath) :
    List HostFs × Res HostFs :=
  match fs src with
  | some (.file _) =>
    match fs.rename src (oldPath src) with
    | .ok fs1 =>
      let r := packPathImage t faults fs1 (oldPath src) (rewriteDest dir src)
      match r.2 with
      | .ok fs2 =>
        if delete then (fs1 :: r.1 ++ [fs2.remove (oldPath src)], .ok (fs2.remove (oldPath src)))
        else (fs1 :: r.1, .ok fs2)
      | .err e => (fs1 :: r.1, .err e)
      | .panic => (fs1 :: r.1, .panic)
      | .hang => (fs1 :: r.1, .hang)
    | .err e => ([], .err e)
    | .panic => ([], .panic)
    | .hang => ([], .hang)
  | _ => ([], .err .io)

/-- `exiso_repack`, `/repo/xdvdfs-cli/src/exiso_compat.rs:162-196`.  Each image has its own write failures. -/
def rewriteAll (t : Tool) (dir : Option HostPath) (delete : Bool) :
    List (HostPath × Faults) → HostFs → List HostFs × Res HostFs
  | [], fs => ([], .ok fs)
  | (src, faults) :: rest, fs =>
    let r := rewriteOne t dir delete faults fs src
    match r.2 with
    | .ok fs' => (r.1 ++ (rewriteAll t dir delete rest fs').1, (rewriteAll t dir delete rest fs').2)
    | .err e => (r.1, .err e)
    | .panic => (r.1, .panic)
    | .hang => (r.1, .hang)

end Xdvdfs
