import Verif.Model.StdFs

/-!
# The command line tool, from its arguments

`Verif.Model.Cli` and `Verif.Model.Unpack` start from resolved paths.  Here the arguments are strings, as the user types
them: `absolute_path` and the checks made with it, the default output paths, `pack`, `unpack` and the modes `-c` and
`-x` of extract-xiso.  Unix paths, no symbolic links.
-/

namespace Xdvdfs

/-! ## Paths -/

/-- `std::fs::metadata`, `Path::exists`: what a path string names. A file cannot be named with a slash at the
end. Called at `/repo/xdvdfs-cli/src/cmd_pack.rs:55`, `/repo/xdvdfs-cli/src/cmd_pack.rs:58`. -/
def Host.stat (h : Host) (fs : HostFs) (path : Str) : Option (HostPath × HostNode) :=
  match h.resolve fs path with
  | .ok p =>
    match fs p with
    | some .dir => some (p, .dir)
    | some (.file d) => if path.getLast? = some '/' then none else some (p, .file d)
    | none => none
  | _ => none

/-- `std::path::absolute`: nothing is looked up; `.` is dropped and `..` is kept. The result is given by its
components. Called at `/repo/xdvdfs-cli/src/img.rs:85`. -/
def lexAbsolute (h : Host) (path : Str) : Res (List Str) :=
  if path = [] then .err .io else .ok (h.start path ++ (hostComps path).filter (fun c => decide (c ≠ ['.'])))

/-- `absolute_path`, `/repo/xdvdfs-cli/src/img.rs:83-88`. -/
def absolutePath (h : Host) (fs : HostFs) (path : Str) : Res (List Str) :=
  match h.stat fs path with
  | some (p, _) => .ok p
  | none => lexAbsolute h path

/-- `Path::file_name` of a path string: the last component, unless that is `..` or there is none. Called at
`/repo/xdvdfs-cli/src/cmd_pack.rs:21-22`. -/
def fileName (path : Str) : Option Str :=
  match ((hostComps path).filter (fun c => decide (c ≠ ['.']))).getLast? with
  | some c => if c = ['.', '.'] then none else some c
  | none => none

/-- The string of a resolved path. The result of `absolute_path`, `/repo/xdvdfs-cli/src/img.rs:83-88`. -/
def pathStr (p : HostPath) : Str := if p = [] then ['/'] else p.flatMap (fun c => '/' :: c)

/-! ## pack -/

/-- `File::options().write(true).truncate(true).create(true).open`: the file that is opened, and the host with
this file empty. The host may refuse. `/repo/xdvdfs-cli/src/cmd_pack.rs:66-70`. -/
def Host.openOutput (h : Host) (path : Str) (fs : HostFs) : Res (HostPath × HostFs) :=
  match h.resolve fs path with
  | .ok p =>
    if fs p = some .dir ∨ (splitSlash path).getLast? = some [] ∨ (splitSlash path).getLast? = some ['.'] ∨
        (splitSlash path).getLast? = some ['.', '.'] ∨ h.faults p = .refuse then .err .io
    else .ok (p, fs.set p (.file []))
  | .err e => .err e
  | .panic => .panic
  | .hang => .hang

/-- The checks of `cmd_pack_path` and the opening of its output, `/repo/xdvdfs-cli/src/cmd_pack.rs:58-71`.  The second
check is made with a path that still contains `..` if the output does not exist.  The result is the file that was
opened, and the host with this file empty. -/
def packOpenArg (h : Host) (fs : HostFs) (src : HostPath) (image : Str) : Res (HostPath × HostFs) :=
  match absolutePath h fs image with
  | .ok abs =>
    if (h.stat fs image).isSome ∧ abs = src then .err .other
    else if src.isPrefixOf abs then .err .other
    else h.openOutput image fs
  | .err e => .err e
  | .panic => .panic
  | .hang => .hang

/-- `cmd_pack_path`, `/repo/xdvdfs-cli/src/cmd_pack.rs:54-103`, for a source given by its resolved path: the states of
the host that can be seen, and the outcome, as in `packPathDir` and `packPathImage`.  `read` is the way a directory is
read as a source. -/
def packPathArg (h : Host) (t : Tool) (read : HostFs → HostPath → SourceFs) (faults : Faults) (fs : HostFs)
    (src : HostPath) (image : Str) : List HostFs × Res HostFs :=
  match fs src with
  | none => ([], .err .io)
  | some node =>
    match packOpenArg h fs src image with
    | .ok (out, fs1) =>
      match node with
      | .dir =>
        let killed := (createImage (bufEnv (read fs1 src) (cliPolicy t.early) faults) t.fuel ⟨⟨[], 0, [], 0⟩, []⟩).2.dev.img
        let closed := packFile (read fs1 src) (cliPolicy t.early) faults t.fuel
        let seen := [fs1, fs1.set out (.file killed), fs1.set out (.file closed.2.img)]
        match closed.1 with
        | .ok _ => (seen, .ok (fs1.set out (.file closed.2.img)))
        | .err e => (seen, .err e)
        | .panic => (seen, .panic)
        | .hang => (seen, .hang)
      | .file img =>
        let seen := [fs1, fs1.set out (.file (packImageOpen t img faults).2.img),
          fs1.set out (.file (packImage t img faults).2.img)]
        match (packImage t img faults).1 with
        | .ok _ => (seen, .ok (fs1.set out (.file (packImage t img faults).2.img)))
        | .err e => (seen, .err e)
        | .panic => (seen, .panic)
        | .hang => (seen, .hang)
    | .err e => ([], .err e)
    | .panic => ([], .panic)
    | .hang => ([], .hang)

/-- `get_default_image_path`, `/repo/xdvdfs-cli/src/cmd_pack.rs:20-35`. -/
def defaultImageArg (h : Host) (fs : HostFs) (src : HostPath) (isDir : Bool) : Res Str :=
  match src.getLast? with
  | none => .err .other
  | some name =>
    let output := withExtension name ['i', 's', 'o'] isDir
    if (h.stat fs output).isSome ∧ absolutePath h fs output = .ok src then
      .ok (withExtension name ['x', 'i', 's', 'o', '.', 'i', 's', 'o'] isDir)
    else .ok output

/-- `cmd_pack`, `/repo/xdvdfs-cli/src/cmd_pack.rs:38-51`.  Simplified: a source that does not resolve is refused, also
if it is a file followed by `/.`, which the tool accepts. -/
def cmdPackArgs (h : Host) (t : Tool) (read : HostFs → HostPath → SourceFs) (faults : Faults) (fs : HostFs)
    (source : Str) (image : Option Str) : List HostFs × Res HostFs :=
  match h.stat fs source with
  | none => ([], .err .io)
  | some (src, node) =>
    let dest : Res Str := match image with
      | some s => .ok s
      | none => defaultImageArg h fs src (node = .dir)
    match dest with
    | .ok s => packPathArg h t read faults fs src s
    | .err e => ([], .err e)
    | .panic => ([], .panic)
    | .hang => ([], .hang)

/-! ## extract-xiso: create -/

/-- `exiso_create_single`, `/repo/xdvdfs-cli/src/exiso_compat.rs:80-95`. -/
def exisoCreateSingle (h : Host) (t : Tool) (read : HostFs → HostPath → SourceFs) (faults : Faults) (fs : HostFs)
    (dir : Str) (file : Option Str) : List HostFs × Res HostFs :=
  match h.stat fs dir with
  | some (src, .dir) =>
    let image := match file with
      | some s => s
      | none => pathStr (onFileName (fun n => stdWithExtension n ['i', 's', 'o']) src)
    packPathArg h t read faults fs src image
  | some (_, .file _) => ([], .err .other)
  | none => ([], .err .io)

/-- The tasks of `exiso_create` in order, `/repo/xdvdfs-cli/src/exiso_compat.rs:127-129`.  Each has its own write
failures. -/
def exisoCreateTasks (h : Host) (t : Tool) (read : HostFs → HostPath → SourceFs) :
    List ((Str × Option Str) × Faults) → HostFs → List HostFs × Res HostFs
  | [], fs => ([], .ok fs)
  | (task, faults) :: rest, fs =>
    let r := exisoCreateSingle h t read faults fs task.1 task.2
    match r.2 with
    | .ok fs' => (r.1 ++ (exisoCreateTasks h t read rest fs').1, (exisoCreateTasks h t read rest fs').2)
    | .err e => (r.1, .err e)
    | .panic => (r.1, .panic)
    | .hang => (r.1, .hang)

/-! ## unpack -/

/-- What the handle of the image reads: the bytes that are now in its file. The handle is read at
`/repo/xdvdfs-cli/src/cmd_unpack.rs:50-66`. -/
def imageNow (fs : HostFs) (image : HostPath) : Bytes :=
  match fs image with
  | some (.file b) => b
  | _ => []

/-- One turn of the loop of `copyout_directory`, `/repo/xdvdfs-cli/src/cmd_unpack.rs:20-67`, where the image is a file
of the host that the loop may change: the output is opened, and truncated, before the data is read. -/
def copyoutEntryAt (h : Host) (image : HostPath) (base : Nat) (clones : Bool) (dest : Str) (x : Str × DirEnt)
    (fs : HostFs) : Res Unit × HostFs :=
  let dirname := pathJoin dest (trimSlashes x.1)
  let filePath := pathJoin dirname x.2.nameStr
  match h.createDirAll dirname fs with
  | (.ok (), fs) =>
    if x.2.node.dirent.isDirectory then h.createDir filePath fs
    else if x.2.node.dirent.nameLen = 0 then (.ok (), fs)
    else
      let bytes := if h.resolve fs filePath = .ok image then [] else imageNow fs image
      h.writeFile filePath (RawImage.extract ⟨bytes, base, clones⟩ x.2.node.dirent) fs
  | failed => failed

/-- The loop of `copyout_directory`, `/repo/xdvdfs-cli/src/cmd_unpack.rs:20-68`, on an image in the host. -/
def copyoutLoopAt (h : Host) (image : HostPath) (base : Nat) (clones : Bool) (dest : Str) :
    List (Str × DirEnt) → HostFs → Res Unit × HostFs
  | [], fs => (.ok (), fs)
  | x :: xs, fs =>
    match copyoutEntryAt h image base clones dest x fs with
    | (.ok (), fs) => copyoutLoopAt h image base clones dest xs fs
    | failed => failed

/-- `cmd_unpack`, `/repo/xdvdfs-cli/src/cmd_unpack.rs:83-97`.  The default destination is computed before the image is
opened; a path without a file name is a panic (`unwrap`). -/
def cmdUnpackArgs (h : Host) (clones : Bool) (fuel : Nat) (fs : HostFs) (image : Str) (path : Option Str) :
    Res Unit × HostFs :=
  let target : Res Str := match path with
    | some s => .ok s
    | none => match fileName image with
      | some n => .ok (stdWithExtension n [])
      | none => .panic
  match target with
  | .ok dest =>
    match h.stat fs image with
    | some (p, .file img) =>
      match offsetNew (fileDev img) with
      | .ok base =>
        match readVolume (offsetDev (fileDev img) base) with
        | .ok vol =>
          match fileTree (offsetDev (fileDev img) base) vol.root fuel with
          | .ok tree => copyoutLoopAt h p base clones dest tree fs
          | .err e => (.err e, fs)
          | .panic => (.panic, fs)
          | .hang => (.hang, fs)
        | .err e => (.err e, fs)
        | .panic => (.panic, fs)
        | .hang => (.hang, fs)
      | .err e => (.err e, fs)
      | .panic => (.panic, fs)
      | .hang => (.hang, fs)
    | _ => (.err .io, fs)
  | .err e => (.err e, fs)
  | .panic => (.panic, fs)
  | .hang => (.hang, fs)

/-- `exiso_extract`, `/repo/xdvdfs-cli/src/exiso_compat.rs:148-159`. -/
def exisoExtract (h : Host) (clones : Bool) (fuel : Nat) (directory : Option Str) :
    List Str → HostFs → Res Unit × HostFs
  | [], fs => (.ok (), fs)
  | x :: xs, fs =>
    match cmdUnpackArgs h clones fuel fs x directory with
    | (.ok (), fs) => exisoExtract h clones fuel directory xs fs
    | failed => failed

end Xdvdfs
