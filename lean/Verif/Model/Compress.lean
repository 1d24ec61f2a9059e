import Verif.Model.CliPaths
import Verif.Model.SectorLinear
import Verif.Model.ImgFs

/-!
# `compress`, from its arguments, and opening compressed images

The CISO encoder and decoder are in the crate `ciso`, which is not part of the repository; what the commands need of
them is a parameter here.  Unix paths, no symbolic links.
-/

namespace Xdvdfs

/-! ## Paths -/

/-- `Path::components`, as path comparisons see them: whether the path is absolute, and its components. A dot is
kept only at the start of a relative path. Used at `/repo/xdvdfs-cli/src/cmd_compress.rs:71`. -/
def pathComps (path : Str) : Bool × List Str :=
  if path.head? = some '/' then (true, (hostComps path).filter (fun c => decide (c ≠ ['.'])))
  else match hostComps path with
    | [] => (false, [])
    | c :: cs => (false, c :: cs.filter (fun c => decide (c ≠ ['.'])))

/-- `Path::starts_with`. Called at `/repo/xdvdfs-cli/src/cmd_compress.rs:71`. -/
def pathStartsWith (path pre : Str) : Bool :=
  (pathComps path).1 == (pathComps pre).1 && (pathComps pre).2.isPrefixOf (pathComps path).2

/-- A path string read backwards, without the slashes and dots at its end that name nothing. Used for
`/repo/xdvdfs-cli/src/img.rs:43-50`. -/
def trimTail : Str → Str
  | [] => []
  | c :: cs =>
    if c = '/' then trimTail cs
    else if c = '.' ∧ cs.head? = some '/' then trimTail cs
    else c :: cs

/-- `Path::with_extension` on a path string: unchanged if it has no file name. Called at
`/repo/xdvdfs-cli/src/img.rs:44`, `/repo/xdvdfs-cli/src/img.rs:50`. -/
def pathWithExtension (path ext : Str) : Str :=
  match fileName path with
  | none => path
  | some name =>
    let trimmed := (trimTail path.reverse).reverse
    trimmed.take (trimmed.length - name.length) ++ stdWithExtension name ext

/-- `Path::extension` on a path string. Called at `/repo/xdvdfs-cli/src/img.rs:43`,
`/repo/xdvdfs-cli/src/img.rs:45`. -/
def pathExtension (path : Str) : Option Str :=
  match fileName path with
  | none => none
  | some name => (splitExt name).2

/-! ## The encoder -/

/-- The crate `ciso`: the name of the part number `i` (from 0) of an image that is written to a path, the
contents of the parts when the given sectors out of `total` were encoded, their contents at the end, and what
opening some parts gives. Not code of the repository; called at `/repo/xdvdfs-cli/src/cmd_compress.rs:112-114`,
`/repo/xdvdfs-cli/src/img.rs:40-76`. -/
structure Ciso where
  partName : Str → Nat → Str
  partial_ : (total : Nat) → List Bytes → List Bytes
  final : (total : Nat) → List Bytes → List Bytes
  openParts : List Bytes → Res Dev

/-- Parts are created and written in order, `SplitStdFs::create_file`,
`/repo/xdvdfs-cli/src/cmd_compress.rs:36-44`.  Simplified: the content a part has at the moment is written at once, and
a part that could be created before is created again.  `i` is the number of the first part. -/
def writeParts (h : Host) (c : Ciso) (image : Str) : Nat → List Bytes → HostFs → Res Unit × HostFs
  | _, [], fs => (.ok (), fs)
  | i, b :: bs, fs =>
    match h.writeFile (c.partName image i) (.ok b) fs with
    | (.ok (), fs) => writeParts h c image (i + 1) bs fs
    | failed => failed

/-- `write_ciso_image` as `/repo/xdvdfs-cli/src/cmd_compress.rs:112-114` and `:126-128` use it: the sectors are asked
for in order, and parts are written in between.  `n` sectors are left, `secs` are done.  `copy` reads from the source as
the host is at the time. -/
def encodeLoop (h : Host) (c : Ciso) (image : Str) (copy : HostFs → BufCopier) (m : SecMap) :
    Nat → List Bytes → HostFs → Res Unit × HostFs
  | 0, secs, fs => writeParts h c image 0 (c.final secs.length secs) fs
  | n + 1, secs, fs =>
    match writeParts h c image 0 (c.partial_ (secs.length + n + 1) secs) fs with
    | (.ok (), fs) =>
      match readSector (copy fs) m secs.length 2048 with
      | .ok sec => encodeLoop h c image copy m n (secs ++ [sec]) fs
      | .err e => (.err e, fs)
      | .panic => (.panic, fs)
      | .hang => (.hang, fs)
    | failed => failed

/-! ## compress -/

/-- One `Read::read` of `n` bytes at `off` from a file below the directory `root`, after opening it
(`/repo/xdvdfs-core/src/write/fs/stdfs.rs:147-156`); `most` is how many bytes it delivers at most. -/
def hostRead (most : Path → (off n : Nat) → Nat) (fs : HostFs) (root : HostPath) (p : Path) (off n : Nat) : Res Bytes :=
  match fs (root ++ p) with
  | some (.file data) => .ok ((slice data off n).take (most p off n))
  | _ => .err .io

/-- `get_default_image_path`, `/repo/xdvdfs-cli/src/cmd_compress.rs:46-51`, and the `unwrap` of its result in line
63. -/
def defaultCompressArg (source : Str) (isDir : Bool) : Res Str :=
  match fileName source with
  | some name => .ok (withExtension name ['c', 's', 'o'] isDir)
  | none => .panic

/-- The checks of `cmd_compress`, `/repo/xdvdfs-cli/src/cmd_compress.rs:65-75`: the absolute path of the image is
compared with the source as it was typed, and so are the components of the image as it was typed. -/
def compressRefused (h : Host) (fs : HostFs) (source image : Str) : Bool :=
  ((h.stat fs image).isSome && decide (absolutePath h fs image = .ok (pathComps source).2) && (pathComps source).1) ||
    pathStartsWith image source

/-- `cmd_compress` on a directory, `/repo/xdvdfs-cli/src/cmd_compress.rs:104-114`. -/
def compressDir (h : Host) (t : Tool) (r : DirReader) (most : Path → (off n : Nat) → Nat) (c : Ciso) (fs : HostFs)
    (src : HostPath) (image : Str) : Res Unit × HostFs :=
  match createImage (linearEnv (stdFs r fs src).readDir (stdFs r fs src).pathToString) t.fuel ⟨[], []⟩ with
  | (.ok (), s) =>
    encodeLoop h c image (fun fs => stdBufCopy (hostRead most fs src)) s.dev (linLen s.dev / 2048) [] fs
  | (.err e, _) => (.err e, fs)
  | (.panic, _) => (.panic, fs)
  | (.hang, _) => (.hang, fs)

/-- `cmd_compress` on an image with the given bytes, `/repo/xdvdfs-cli/src/cmd_compress.rs:115-128`. -/
def compressImage (h : Host) (t : Tool) (c : Ciso) (fs : HostFs) (src : HostPath) (img : Bytes) (image : Str) :
    Res Unit × HostFs :=
  match offsetNew (fileDev img) with
  | .ok base =>
    match ImgFs.new (offsetDev (fileDev img) base) with
    | .ok (some ifs) =>
      match repackLinear (defaultCopier (offsetDev (fileDev img) base)) t.wfuel t.fuel ifs ⟨[], []⟩ with
      | (.ok ifs', s) =>
        encodeLoop h c image (fun fs => imgBufCopy (defaultCopier (offsetDev (fileDev (imageNow fs src)) base)) ifs')
          s.dev (linLen s.dev / 2048) [] fs
      | (.err e, _) => (.err e, fs)
      | (.panic, _) => (.panic, fs)
      | (.hang, _) => (.hang, fs)
    | .ok none => (.err .other, fs)
    | .err e => (.err e, fs)
    | .panic => (.panic, fs)
    | .hang => (.hang, fs)
  | .err e => (.err e, fs)
  | .panic => (.panic, fs)
  | .hang => (.hang, fs)

/-- `cmd_compress`, `/repo/xdvdfs-cli/src/cmd_compress.rs:54-134`: the outcome, and the host afterwards. -/
def cmdCompressArgs (h : Host) (t : Tool) (r : DirReader) (most : Path → (off n : Nat) → Nat) (c : Ciso) (fs : HostFs)
    (source : Str) (image : Option Str) : Res Unit × HostFs :=
  match h.stat fs source with
  | none => (.err .io, fs)
  | some (src, node) =>
    let dest : Res Str := match image with
      | some s => .ok s
      | none => defaultCompressArg source (node = .dir)
    match dest with
    | .ok s =>
      if compressRefused h fs source s then (.err .other, fs)
      else match node with
        | .dir => compressDir h t r most c fs src s
        | .file img => compressImage h t c fs src img s
    | .err e => (.err e, fs)
    | .panic => (.panic, fs)
    | .hang => (.hang, fs)

/-! ## Opening images -/

/-- The extension of part `i` of a split image, `/repo/xdvdfs-cli/src/img.rs:50`. -/
def partExt (i : Nat) : Str := Nat.toDigits 10 i ++ ['.', 'c', 's', 'o']

/-- The loop over the parts of a split image, `/repo/xdvdfs-cli/src/img.rs:49-57`: from part `i` on, until one does not
exist.  A directory cannot be read. -/
def collectParts (h : Host) (fs : HostFs) (base : Str) : Nat → Nat → Res (List Bytes)
  | 0, _ => .hang
  | fuel + 1, i =>
    match h.stat fs (pathWithExtension base (partExt i)) with
    | none => .ok []
    | some (_, .dir) => .err .io
    | some (_, .file b) => do
      let bs ← collectParts h fs base fuel (i + 1)
      pure (b :: bs)

/-- `open_image`, `/repo/xdvdfs-cli/src/img.rs:40-77`, and `open_image_raw`, lines 33-37. -/
def openPath (h : Host) (c : Ciso) (fuel : Nat) (fs : HostFs) (path : Str) : Res Dev :=
  if pathExtension path = some ['c', 's', 'o'] then
    let base := pathWithExtension path []
    if pathExtension base = some ['1'] then do
      let parts ← collectParts h fs base fuel 1
      if parts = [] then .err .other else c.openParts parts
    else match h.stat fs path with
      | some (_, .file b) => c.openParts [b]
      | _ => .err .io
  else match h.stat fs path with
    | some (_, .file b) => do
      let base ← offsetNew (fileDev b)
      pure (offsetDev (fileDev b) base)
    | _ => .err .io

end Xdvdfs
