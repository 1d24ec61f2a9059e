import Verif.Model.Compress
import Verif.Model.WebUi

/-!
# The operations of the browser version

`/repo/xdvdfs-web/src/fs/` and `/repo/xdvdfs-web/src/ops/browser.rs`.  Handles of files and directories are paths of the
host.  What the browser does with them is that of the File System Standard (<https://fs.spec.whatwg.org/>): a stream
opened for a file starts with an empty copy, a write beyond the end of the copy first fills the gap with zeros, and the
copy replaces the file when the stream is closed; before that, and if a write fails, the file is not changed.  Nothing
else changes the files meanwhile.  Positions are `f64` in JavaScript; those of the program are below `2^53` and exact.
-/

namespace Xdvdfs

open PM

/-- What decides how the browser answers, apart from the files: the order in which a directory is listed, what
it refuses, which write to a stream fails, and the texts of errors. The calls are those of
`/repo/xdvdfs-web/src/fs/util.rs:39-130`. -/
structure Browser where
  names : HostPath → List Str
  noList : HostPath → Bool
  noRead : HostPath → Bool
  noCreate : HostPath → Bool
  noWrite : HostPath → Bool
  noClose : HostPath → Bool
  faults : Nat → Bool
  text : Err → Str

/-! ## Reading a folder -/

/-- `FSTree`, `/repo/xdvdfs-web/src/fs/mod.rs:91-94`, with the `BTreeMap` as its entries in the order of the names. -/
inductive WebTree where
  | file
  | dir (entries : List (Str × WebTree))

/-- `BTreeMap::insert` for names. Called at `/repo/xdvdfs-web/src/fs/mod.rs:113`. -/
def nameInsert (n : Str) (x : α) : List (Str × α) → List (Str × α)
  | [] => [(n, x)]
  | (m, y) :: rest =>
    match cmpStr n m with
    | .lt => (n, x) :: (m, y) :: rest
    | .eq => (n, x) :: rest
    | .gt => (m, y) :: nameInsert n x rest

/-- `BTreeMap::get` for names. Called at `/repo/xdvdfs-web/src/fs/mod.rs:276`. -/
def nameGet (n : Str) : List (Str × α) → Option α
  | [] => none
  | (m, y) :: rest => if n = m then some y else nameGet n rest

/-- The loop of `populate`, `/repo/xdvdfs-web/src/fs/mod.rs:106-114`. -/
def populateLoop (below : HostPath → Res WebTree) (p : HostPath) : List Str → List (Str × WebTree) → Res WebTree
  | [], acc => .ok (.dir acc)
  | n :: ns, acc =>
    match below (p ++ [n]) with
    | .ok t => populateLoop below p ns (nameInsert n t acc)
    | .err e => .err e
    | .panic => .panic
    | .hang => .hang

/-- `populate`, `/repo/xdvdfs-web/src/fs/mod.rs:98-118`, with `entry_list`, `/repo/xdvdfs-web/src/fs/util.rs:59-108`.
`fuel` bounds the depth. -/
def populate (b : Browser) (fs : HostFs) : Nat → HostPath → Res WebTree
  | 0, _ => .hang
  | fuel + 1, p =>
    match fs p with
    | some (.file _) => .ok .file
    | some .dir => if b.noList p then .err .io else populateLoop (populate b fs fuel) p (b.names p) []
    | none => .err .io

/-- `WebFileSystem::new`, `/repo/xdvdfs-web/src/fs/mod.rs:262-270`: the `unwrap` panics. -/
def webFsNew (b : Browser) (fs : HostFs) (fuel : Nat) (root : HostPath) : Res WebTree :=
  match populate b fs fuel root with
  | .ok t => .ok t
  | .err _ => .panic
  | .panic => .panic
  | .hang => .hang

/-- `walk`, `/repo/xdvdfs-web/src/fs/mod.rs:272-280`. -/
def WebTree.walk : WebTree → Path → Option WebTree
  | t, [] => some t
  | .file, _ :: _ => none
  | .dir es, n :: p =>
    match nameGet n es with
    | some t => t.walk p
    | none => none

/-- `to_file`, `/repo/xdvdfs-web/src/fs/util.rs:48-55`: the bytes of a file. -/
def getFile (b : Browser) (fs : HostFs) (p : HostPath) : Option Bytes :=
  if b.noRead p then none
  else match fs p with
    | some (.file d) => some d
    | _ => none

/-- One turn of the loop of `read_dir`, `/repo/xdvdfs-web/src/fs/mod.rs:141-155`. -/
def webEntry (b : Browser) (fs : HostFs) (dir : HostPath) (x : Str × WebTree) : Res FileEntry :=
  match x.2 with
  | .file =>
    match getFile b fs (dir ++ [x.1]) with
    | some d => .ok ⟨x.1, false, d.length⟩
    | none => .err .io
  | .dir _ => .ok ⟨x.1, true, 0⟩

/-- The loop of `read_dir`, `/repo/xdvdfs-web/src/fs/mod.rs:140-158`. -/
def webEntries (b : Browser) (fs : HostFs) (dir : HostPath) : List (Str × WebTree) → Res (List FileEntry)
  | [] => .ok []
  | x :: xs => do
    let e ← webEntry b fs dir x
    let es ← webEntries b fs dir xs
    pure (e :: es)

/-- `read_dir`, `/repo/xdvdfs-web/src/fs/mod.rs:130-161`, with `entries`, lines 282-296. -/
def webReadDir (b : Browser) (fs : HostFs) (root : HostPath) (t : WebTree) (p : Path) : Res (List FileEntry) :=
  match t.walk p with
  | none => .panic
  | some .file => .err .io
  | some (.dir es) => webEntries b fs (root ++ p) es

/-- `copy_file_in` to an output stream, `/repo/xdvdfs-web/src/fs/mod.rs:168-206`: what is written, as one piece, and the
outcome; the `assert_eq!` is in line 198. -/
def webCopy (b : Browser) (fs : HostFs) (root : HostPath) (t : WebTree) (p : Path) (off size : Nat) :
    List Bytes × Res Nat :=
  match t.walk p with
  | some .file =>
    match getFile b fs (root ++ p) with
    | some d =>
      if ((d.drop off).take size).length = size then ([(d.drop off).take size], .ok size) else ([], .panic)
    | none => ([], .err .io)
  | _ => ([], .err .io)

/-- `WebFileSystem`, `/repo/xdvdfs-web/src/fs/mod.rs:121-297`; `path_to_string` is the default one. -/
def webFs (b : Browser) (fs : HostFs) (root : HostPath) (t : WebTree) : SourceFs where
  readDir := webReadDir b fs root t
  pathToString := pathAsString
  copy := webCopy b fs root t

/-- `copy_file_in` to memory, `/repo/xdvdfs-web/src/fs/mod.rs:213-258`.  The subtraction, the slice and `copy_to` panic
when the lengths do not match. -/
def webBufCopy (b : Browser) (fs : HostFs) (root : HostPath) (t : WebTree) : BufCopier :=
  fun p dest inOff outOff size =>
    match t.walk p with
    | some .file =>
      match getFile b fs (root ++ p) with
      | some d =>
        let got := (d.drop inOff).take (min d.length (min size dest.length))
        if outOff > dest.length then .panic
        else if dest.length - outOff < got.length then .panic
        else .ok (dest.length, dest.take outOff ++ got ++ List.replicate (dest.length - outOff - got.length) 0)
      | none => .err .io
    | _ => .err .io

/-! ## Writing to a stream -/

/-- Writing to the copy behind a stream. `/repo/xdvdfs-web/src/fs/mod.rs:38-52`. -/
def streamWrite (buf : Bytes) (off : Nat) (data : Bytes) : Bytes :=
  buf.take off ++ (List.replicate (off - buf.length) 0 ++ (data ++ buf.drop (off + data.length)))

/-- `FSWriteWrapper`, `/repo/xdvdfs-web/src/fs/mod.rs:15-18`: the copy behind the stream, the length the wrapper keeps,
and the number of writes made so far. -/
structure WebFile where
  buf : Bytes
  len : Nat
  writes : Nat

/-- `write`, `/repo/xdvdfs-web/src/fs/mod.rs:38-52`, and the same steps of `copy_file_in`, lines 181-203.  Simplified:
seeking and writing are one step. -/
def webWrite (b : Browser) (off : Nat) (data : Bytes) (f : WebFile) : Res Unit × WebFile :=
  if b.faults f.writes then (.err .io, { f with writes := f.writes + 1 })
  else (.ok (), ⟨streamWrite f.buf off data, max f.len (off + data.length), f.writes + 1⟩)

/-- The pieces a source delivers, written one after the other. `/repo/xdvdfs-web/src/fs/mod.rs:181-206`. -/
def webChunks (b : Browser) : Nat → List Bytes → WebFile → Res Unit × WebFile
  | _, [], f => (.ok (), f)
  | off, c :: cs, f =>
    match webWrite b off c f with
    | (.ok (), f) => webChunks b (off + c.length) cs f
    | (e, f) => (e, f)

/-- Packing a source into a stream; `len` is `/repo/xdvdfs-web/src/fs/mod.rs:54-56`. -/
def webEnv (b : Browser) (fs : SourceFs) : PackEnv WebFile where
  readDir := fs.readDir
  pathToString := fs.pathToString
  write := webWrite b
  copyIn := fun path inOff outOff size f =>
    match webChunks b outOff (fs.copy path inOff size).1 f with
    | (.ok (), f) => ((fs.copy path inOff size).2, f)
    | (.err e, f) => (.err e, f)
    | (.panic, f) => (.panic, f)
    | (.hang, f) => (.hang, f)
  len := fun f => .ok f.len

/-- A stream that was just opened, `/repo/xdvdfs-web/src/fs/mod.rs:24-27`. -/
def newStream : PackState WebFile := ⟨⟨[], 0, 0⟩, []⟩

/-- A stream can be opened for the file. `/repo/xdvdfs-web/src/fs/util.rs:40-46`. -/
def canWrite (b : Browser) (fs : HostFs) (p : HostPath) : Bool :=
  !b.noWrite p && match fs p with
    | some (.file _) => true
    | _ => false

/-! ## pack_image -/

/-- What an operation tells the page while it runs: progress, or the stage it is in.
`/repo/xdvdfs-web/src/ops/browser.rs:30-37`. -/
inductive WebMsg where
  | progress (p : Progress)
  | stage (s : ImgStage)
  deriving DecidableEq, Repr

/-- What an operation leaves behind: its result, what it told the page, and the host.
`/repo/xdvdfs-web/src/ops/browser.rs:22-41`. -/
structure WebRun where
  reply : Res Unit
  sent : List WebMsg
  host : HostFs

/-- `pack_image_impl`, `/repo/xdvdfs-web/src/ops/browser.rs:22-41`, where `pack` is `create_xdvdfs_image`: opening and
closing the stream panics on failure, `/repo/xdvdfs-web/src/fs/mod.rs:25` and `:30`. -/
def webPackImpl (b : Browser) (fs : HostFs) (dest : HostPath) (pack : PM WebFile Unit) : WebRun :=
  if canWrite b fs dest then
    match pack newStream with
    | (.ok (), s) =>
      let sent := .stage .packingImage :: s.log.map .progress ++ [.stage .waitingForFlush]
      if b.noClose dest then ⟨.panic, sent, fs⟩ else ⟨.ok (), sent, fs.set dest (.file s.dev.buf)⟩
    | (failed, s) => ⟨failed, .stage .packingImage :: s.log.map .progress, fs⟩
  else ⟨.panic, [.stage .packingImage], fs⟩

/-- `BlockDeviceRead for FileSystemFileHandle`, `/repo/xdvdfs-web/src/fs/mod.rs:60-89`: the file is opened for each
read. -/
def webDev (b : Browser) (fs : HostFs) (p : HostPath) : Dev :=
  match getFile b fs p with
  | some d => fileDev d
  | none => ⟨fun _ _ => .err .io, by intro _ _ _ h; cases h⟩

/-- `create_xdvdfs_image` from an image to a stream. Called at `/repo/xdvdfs-web/src/ops/browser.rs:33`. -/
def repackWeb (b : Browser) (copier : Copier) (wfuel fuel : Nat) (fs : ImgFs) : PM WebFile Unit := do
  let (dirtree, fs) ← imgTreeLoop wfuel fuel fs [[]] []
  createFrom (webEnv b (fs.source (fun _ => .err .other) copier)) dirtree

/-- What `PickerResult` holds, `/repo/xdvdfs-web/src/picker/mod.rs`: the handle of a folder or of a file. -/
inductive WebSource where
  | folder (p : HostPath)
  | image (p : HostPath)

/-- `pack_image`, `/repo/xdvdfs-web/src/ops/browser.rs:95-114`. -/
def browserPack (b : Browser) (t : Tool) (fs : HostFs) (src : WebSource) (dest : HostPath) : WebRun :=
  match src with
  | .folder p =>
    match webFsNew b fs t.fuel p with
    | .ok tree => webPackImpl b fs dest (createImage (webEnv b (webFs b fs p tree)) t.fuel)
    | .err e => ⟨.err e, [], fs⟩
    | .panic => ⟨.panic, [], fs⟩
    | .hang => ⟨.hang, [], fs⟩
  | .image p =>
    match offsetNew (webDev b fs p) with
    | .ok base =>
      match ImgFs.new (offsetDev (webDev b fs p) base) with
      | .ok (some ifs) =>
        webPackImpl b fs dest (repackWeb b (defaultCopier (offsetDev (webDev b fs p) base)) t.wfuel t.fuel ifs)
      | .ok none => ⟨.err .other, [], fs⟩
      | .err e => ⟨.err e, [], fs⟩
      | .panic => ⟨.panic, [], fs⟩
      | .hang => ⟨.hang, [], fs⟩
    | .err e => ⟨.err e, [], fs⟩
    | .panic => ⟨.panic, [], fs⟩
    | .hang => ⟨.hang, [], fs⟩

/-! ## unpack_image -/

/-- A name a handle can be asked for, by the standard; others are refused. The handles are asked at
`/repo/xdvdfs-web/src/fs/util.rs:110-125`. -/
def webName (n : Str) : Bool := n != [] && n != ['.'] && n != ['.', '.'] && !n.contains '/'

/-- `create_directory`, `/repo/xdvdfs-web/src/fs/util.rs:117-125`: a directory that exists is used. -/
def webCreateDir (b : Browser) (fs : HostFs) (p : HostPath) (n : Str) : Res HostFs :=
  if webName n then
    match fs (p ++ [n]) with
    | some .dir => .ok fs
    | some (.file _) => .err .io
    | none => if b.noCreate (p ++ [n]) ∨ fs p ≠ some .dir then .err .io else .ok (fs.set (p ++ [n]) .dir)
  else .err .io

/-- `create_file`, `/repo/xdvdfs-web/src/fs/util.rs:110-115`: a file that exists is used as it is. -/
def webCreateFile (b : Browser) (fs : HostFs) (p : HostPath) (n : Str) : Res HostFs :=
  if webName n then
    match fs (p ++ [n]) with
    | some .dir => .err .io
    | some (.file _) => .ok fs
    | none => if b.noCreate (p ++ [n]) ∨ fs p ≠ some .dir then .err .io else .ok (fs.set (p ++ [n]) (.file []))
  else .err .io

/-- Opening a stream, one write and closing it, `/repo/xdvdfs-web/src/ops/browser.rs:171-177`.  `k` is the number of
writes made before. -/
def webWriteWhole (b : Browser) (fs : HostFs) (k : Nat) (p : HostPath) (data : Bytes) : Res HostFs :=
  if canWrite b fs p && !b.faults k && !b.noClose p then .ok (fs.set p (.file (streamWrite [] 0 data))) else .err .io

/-- The data of a file of the image, `/repo/xdvdfs-web/src/ops/browser.rs:158-170`.  `img` are the bytes of the image
when the operation started: a `File` cannot be read once the file was changed.  A slice ends where the file ends. -/
def webSlice (fs : HostFs) (src : HostPath) (img : Bytes) (base : Nat) (d : DiskData) : Res Bytes :=
  match d.data.offset 0 with
  | .ok off => if fs src = some (.file img) then .ok (slice img (base + off) d.data.size.toNat) else .err .io
  | .err e => .err e
  | .panic => .panic
  | .hang => .hang

/-- A file of the image, `/repo/xdvdfs-web/src/ops/browser.rs:150-177`; whether it is reported afterwards: the `continue`
of line 155 skips that. -/
def webUnpackFile (b : Browser) (src : HostPath) (img : Bytes) (base k : Nat) (parent : HostPath) (d : DirEnt)
    (fs : HostFs) : Res Bool × HostFs :=
  match webCreateFile b fs parent d.nameStr with
  | .ok fs =>
    if d.node.dirent.data.size = 0 then (.ok false, fs)
    else
      match webSlice fs src img base d.node.dirent with
      | .ok data =>
        match webWriteWhole b fs k (parent ++ [d.nameStr]) data with
        | .ok fs => (.ok true, fs)
        | .err e => (.err e, fs)
        | .panic => (.panic, fs)
        | .hang => (.hang, fs)
      | .err e => (.err e, fs)
      | .panic => (.panic, fs)
      | .hang => (.hang, fs)
  | .err e => (.err e, fs)
  | .panic => (.panic, fs)
  | .hang => (.hang, fs)

/-- The loop of `unpack_image`, `/repo/xdvdfs-web/src/ops/browser.rs:135-184`.  The head of the stack is its end in the
program; `count` is `file_count`, `k` the number of writes made so far. -/
def webUnpackLoop (b : Browser) (src : HostPath) (img : Bytes) (base wfuel : Nat) :
    Nat → List (HostPath × DirEnt) → (count k : Nat) → HostFs → Res Unit × List Progress × HostFs
  | _, [], _, _, fs => (.ok (), [], fs)
  | 0, _ :: _, _, _, fs => (.hang, [], fs)
  | fuel + 1, (parent, d) :: stack, count, k, fs =>
    let added := Progress.fileAdded d.nameStr d.node.dirent.data.size.toNat
    match d.node.dirent.direntTable with
    | some tab =>
      match webCreateDir b fs parent d.nameStr with
      | .ok fs =>
        match walkDirentTree (offsetDev (webDev b fs src) base) tab wfuel with
        | .ok entries =>
          let r := webUnpackLoop b src img base wfuel fuel
            ((entries.map (fun e => (parent ++ [d.nameStr], e))).reverse ++ stack) (count + entries.length) k fs
          (r.1, .fileCount (count + entries.length) :: added :: r.2.1, r.2.2)
        | .err e => (.err e, [], fs)
        | .panic => (.panic, [], fs)
        | .hang => (.hang, [], fs)
      | .err e => (.err e, [], fs)
      | .panic => (.panic, [], fs)
      | .hang => (.hang, [], fs)
    | none =>
      match webUnpackFile b src img base k parent d fs with
      | (.ok true, fs) =>
        let r := webUnpackLoop b src img base wfuel fuel stack count (k + 1) fs
        (r.1, added :: r.2.1, r.2.2)
      | (.ok false, fs) => webUnpackLoop b src img base wfuel fuel stack count k fs
      | (.err e, fs) => (.err e, [], fs)
      | (.panic, fs) => (.panic, [], fs)
      | (.hang, fs) => (.hang, [], fs)

/-- `unpack_image`, `/repo/xdvdfs-web/src/ops/browser.rs:116-187`. -/
def browserUnpack (b : Browser) (t : Tool) (fs : HostFs) (src dest : HostPath) : WebRun :=
  match getFile b fs src with
  | some img =>
    match offsetNew (webDev b fs src) with
    | .ok base =>
      match readVolume (offsetDev (webDev b fs src) base) with
      | .ok vol =>
        match walkDirentTree (offsetDev (webDev b fs src) base) vol.root t.wfuel with
        | .ok entries =>
          let r := webUnpackLoop b src img base t.wfuel t.fuel (entries.map (fun e => (dest, e))).reverse
            entries.length 0 fs
          ⟨r.1, .progress (.fileCount entries.length) :: r.2.1.map .progress, r.2.2⟩
        | .err e => ⟨.err e, [], fs⟩
        | .panic => ⟨.panic, [], fs⟩
        | .hang => ⟨.hang, [], fs⟩
      | .err e => ⟨.err e, [], fs⟩
      | .panic => ⟨.panic, [], fs⟩
      | .hang => ⟨.hang, [], fs⟩
    | .err e => ⟨.err e, [], fs⟩
    | .panic => ⟨.panic, [], fs⟩
    | .hang => ⟨.hang, [], fs⟩
  | none => ⟨.err .io, [], fs⟩

/-! ## compress_image -/

/-- `create_file` of `CisoOutputDirectory`, `/repo/xdvdfs-web/src/fs/ciso.rs:21-30`, for the parts `i` to `i + n - 1` of
the output; a part that was created before is not asked for again, which makes no difference.  Opening its stream
panics on failure. -/
def webCreateParts (b : Browser) (c : Ciso) (dest : HostPath) (name : Str) : Nat → Nat → HostFs → Res Unit × HostFs
  | 0, _, fs => (.ok (), fs)
  | n + 1, i, fs =>
    match webCreateFile b fs dest (c.partName name i) with
    | .ok fs =>
      if canWrite b fs (dest ++ [c.partName name i]) then webCreateParts b c dest name n (i + 1) fs else (.panic, fs)
    | .err e => (.err e, fs)
    | .panic => (.panic, fs)
    | .hang => (.hang, fs)

/-- Closing the streams of the parts, `/repo/xdvdfs-web/src/ops/browser.rs:88` and `/repo/xdvdfs-web/src/fs/ciso.rs:32-34`:
each part gets its content when its stream is closed. -/
def webCloseParts (b : Browser) (c : Ciso) (dest : HostPath) (name : Str) : Nat → List Bytes → HostFs → Res Unit × HostFs
  | _, [], fs => (.ok (), fs)
  | i, x :: xs, fs =>
    if b.noClose (dest ++ [c.partName name i]) then (.panic, fs)
    else webCloseParts b c dest name (i + 1) xs (fs.set (dest ++ [c.partName name i]) (.file x))

/-- `write_ciso_image` and closing the output, `/repo/xdvdfs-web/src/ops/browser.rs:67-88`: the sectors are asked for in
order, and parts are created in between.  The crate `ciso` is taken to close the parts only at the end.  `n` sectors are
left, `secs` are done; the writes of one sector fail together. -/
def webEncodeLoop (b : Browser) (c : Ciso) (dest : HostPath) (name : Str) (copy : HostFs → BufCopier) (m : SecMap) :
    Nat → List Bytes → HostFs → Res Unit × HostFs
  | 0, secs, fs =>
    match webCreateParts b c dest name (c.final secs.length secs).length 0 fs with
    | (.ok (), fs) =>
      if b.faults secs.length then (.err .io, fs)
      else webCloseParts b c dest name 0 (c.final secs.length secs) fs
    | failed => failed
  | n + 1, secs, fs =>
    match webCreateParts b c dest name (c.partial_ (secs.length + n + 1) secs).length 0 fs with
    | (.ok (), fs) =>
      if b.faults secs.length then (.err .io, fs)
      else
        match readSector (copy fs) m secs.length 2048 with
        | .ok sec => webEncodeLoop b c dest name copy m n (secs ++ [sec]) fs
        | .err e => (.err e, fs)
        | .panic => (.panic, fs)
        | .hang => (.hang, fs)
    | failed => failed

/-- `FileSystemHandle.name`. Used at `/repo/xdvdfs-web/src/ops/browser.rs:198`,
`/repo/xdvdfs-web/src/ops/browser.rs:211`. -/
def handleName (p : HostPath) : Str := p.getLast?.getD []

/-- `compress_image`, `/repo/xdvdfs-web/src/ops/browser.rs:189-227`, with `compress_image_impl`, lines 43-91.  Simplified:
the reports are not modelled. -/
def browserCompress (b : Browser) (t : Tool) (c : Ciso) (fs : HostFs) (src : WebSource) (dest : HostPath) :
    Res Unit × HostFs :=
  match src with
  | .folder p =>
    match webFsNew b fs t.fuel p with
    | .ok tree =>
      match createImage (linearEnv (webFs b fs p tree).readDir (webFs b fs p tree).pathToString) t.fuel ⟨[], []⟩ with
      | (.ok (), s) =>
        webEncodeLoop b c dest (handleName p) (fun fs => webBufCopy b fs p tree) s.dev (linLen s.dev / 2048) [] fs
      | (.err e, _) => (.err e, fs)
      | (.panic, _) => (.panic, fs)
      | (.hang, _) => (.hang, fs)
    | .err e => (.err e, fs)
    | .panic => (.panic, fs)
    | .hang => (.hang, fs)
  | .image p =>
    match offsetNew (webDev b fs p) with
    | .ok base =>
      match ImgFs.new (offsetDev (webDev b fs p) base) with
      | .ok (some ifs) =>
        match repackLinear (defaultCopier (offsetDev (webDev b fs p) base)) t.wfuel t.fuel ifs ⟨[], []⟩ with
        | (.ok ifs', s) =>
          webEncodeLoop b c dest (handleName p)
            (fun fs => imgBufCopy (defaultCopier (offsetDev (webDev b fs p) base)) ifs') s.dev (linLen s.dev / 2048) [] fs
        | (.err e, _) => (.err e, fs)
        | (.panic, _) => (.panic, fs)
        | (.hang, _) => (.hang, fs)
      | .ok none => (.err .other, fs)
      | .err e => (.err e, fs)
      | .panic => (.panic, fs)
      | .hang => (.hang, fs)
    | .err e => (.err e, fs)
    | .panic => (.panic, fs)
    | .hang => (.hang, fs)

/-! ## What the page is told -/

/-- The state a page is told at the end, `/repo/xdvdfs-web/src/packing.rs:376-382` and the same lines of the other pages.
An operation that panics or does not end tells nothing. -/
def webEndState {α : Type} (text : Err → Str) (finished : α) (error : Str → α) : Res Unit → Option α
  | .ok () => some finished
  | .err e => some (error (text e))
  | _ => none

/-- The messages of the callbacks, `/repo/xdvdfs-web/src/packing.rs:340-341`, and of `pack_image_impl`,
`/repo/xdvdfs-web/src/ops/browser.rs:30-37`. -/
def webPackMsg : WebMsg → PackMsg F D
  | .progress p => .updateProgress p
  | .stage s => .changeState (.packing s)

/-- What happens on the page "Pack" while `pack_image` is its only job, `/repo/xdvdfs-web/src/packing.rs:370-383`. -/
def webPackEvents (text : Err → Str) (r : WebRun) : List (UiEvent (PackMsg F D) F D) :=
  (r.sent.map webPackMsg).map (.report 0) ++
    ((webEndState text PackStage.finished .error r.reply).map (fun s => UiEvent.ends 0 (.changeState s))).toList

/-- What happens on the page "Unpack" while `unpack_image` is its only job, `/repo/xdvdfs-web/src/unpacking.rs:223-236`.
It reports progress only; the stage was set when the job was started. -/
def webUnpackEvents (text : Err → Str) (r : WebRun) : List (UiEvent (UnpackMsg F D) F D) :=
  r.sent.map (fun m => .report 0 (match m with
    | .progress p => .updateProgress p
    | .stage _ => .doNothing)) ++
    ((webEndState text UnpackStage.finished .error r.reply).map (fun s => UiEvent.ends 0 (.changeState s))).toList

/-- What happens on the page "Compress" while `compress_image` with the given reports is its only job,
`/repo/xdvdfs-web/src/compress.rs:358-379`. -/
def webCompEvents (text : Err → Str) (reports : List (CompMsg F D)) (reply : Res Unit) :
    List (UiEvent (CompMsg F D) F D) :=
  reports.map (fun m => .report 0 m) ++
    ((webEndState text CompStage.finished .error reply).map (fun s => UiEvent.ends 0 (.changeState s))).toList

end Xdvdfs
