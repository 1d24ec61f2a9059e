import Verif.Model.Compress
import Verif.Model.WebUi

/-!
# The commands of the desktop application

`/repo/xdvdfs-desktop/src/`: the pages (`Model/WebUi`) call these commands through `/repo/xdvdfs-web/src/ops/tauri.rs`.
A command answers with the text of an error, or with nothing.  Unix paths, no symbolic links; sending a progress report
to the page does not fail.
-/

namespace Xdvdfs

/-- What a command of the desktop application leaves behind: its answer, the progress it reported, and the host.
`/repo/xdvdfs-desktop/src/pack.rs:5-51`, `/repo/xdvdfs-desktop/src/unpack.rs:8-78`. -/
structure DeskRun where
  reply : Res (Option Str)
  sent : List Progress
  host : HostFs

/-- `.ok()?` in a function that returns `Option<String>`, and `None` at its end: on failure and on success alike
the answer is `None`. As in `/repo/xdvdfs-desktop/src/unpack.rs:20-78`. -/
def quiet {α : Type} : Res α → Res (Option Str)
  | .ok _ => .ok none
  | .err _ => .ok none
  | .panic => .panic
  | .hang => .hang

/-! ## pack_image -/

/-- The image branch of `pack_image`, `/repo/xdvdfs-desktop/src/pack.rs:33-45`: the outcome, the reports, and the output
file before it is closed. -/
def deskImageOpen (t : Tool) (img : Bytes) (faults : Faults) : Res Unit × PackState BufFile :=
  match offsetNew (fileDev img) with
  | .ok base =>
    match ImgFs.new (offsetDev (fileDev img) base) with
    | .ok (some fs) =>
      repackBuffered (stdIoCopier img base t.split) (cliPolicy t.early) faults t.wfuel t.fuel fs ⟨⟨[], 0, [], 0⟩, []⟩
    | .ok none => (.err .other, ⟨⟨[], 0, [], 0⟩, []⟩)
    | .err e => (.err e, ⟨⟨[], 0, [], 0⟩, []⟩)
    | .panic => (.panic, ⟨⟨[], 0, [], 0⟩, []⟩)
    | .hang => (.hang, ⟨⟨[], 0, [], 0⟩, []⟩)
  | .err e => (.err e, ⟨⟨[], 0, [], 0⟩, []⟩)
  | .panic => (.panic, ⟨⟨[], 0, [], 0⟩, []⟩)
  | .hang => (.hang, ⟨⟨[], 0, [], 0⟩, []⟩)

/-- `pack_image`, `/repo/xdvdfs-desktop/src/pack.rs:5-51`.  The output is opened, and emptied, before the source is
looked at.  `read` is the way a directory is read as a source.  The buffer is that of the command line tool (line 17).
The output is closed when the function returns. -/
def desktopPack (h : Host) (t : Tool) (read : HostFs → HostPath → SourceFs) (faults : Faults) (fs : HostFs)
    (source dest : Str) : DeskRun :=
  match h.openOutput dest fs with
  | .ok (out, fs1) =>
    match h.stat fs1 source with
    | none => ⟨.ok none, [], fs1⟩
    | some (src, .dir) =>
      let r := createImage (bufEnv (read fs1 src) (cliPolicy t.early) faults) t.fuel ⟨⟨[], 0, [], 0⟩, []⟩
      ⟨quiet r.1, r.2.log, fs1.set out (.file (dropBuf faults r.2.dev).img)⟩
    | some (_, .file img) =>
      let r := deskImageOpen t img faults
      ⟨quiet r.1, r.2.log, fs1.set out (.file (dropBuf faults r.2.dev).img)⟩
  | .err _ => ⟨.ok none, [], fs⟩
  | .panic => ⟨.panic, [], fs⟩
  | .hang => ⟨.hang, [], fs⟩

/-! ## unpack_image -/

/-- The loop of `unpack_image`, `/repo/xdvdfs-desktop/src/unpack.rs:27-75`: each entry is reported, then extracted like
in the command line tool (the lines are those of `copyout_directory`). -/
def deskUnpackLoop (h : Host) (image : HostPath) (base : Nat) (clones : Bool) (dest : Str) :
    List (Str × DirEnt) → HostFs → Res Unit × List Progress × HostFs
  | [], fs => (.ok (), [], fs)
  | x :: xs, fs =>
    let report := Progress.fileAdded (pathJoin (pathJoin dest (trimSlashes x.1)) x.2.nameStr) 0
    match copyoutEntryAt h image base clones dest x fs with
    | (.ok (), fs) =>
      let r := deskUnpackLoop h image base clones dest xs fs
      (r.1, report :: r.2.1, r.2.2)
    | (failed, fs) => (failed, [report], fs)

/-- `unpack_image`, `/repo/xdvdfs-desktop/src/unpack.rs:8-78`. -/
def desktopUnpack (h : Host) (clones : Bool) (fuel : Nat) (fs : HostFs) (source dest : Str) : DeskRun :=
  match h.stat fs source with
  | some (p, .file img) =>
    match offsetNew (fileDev img) with
    | .ok base =>
      match readVolume (offsetDev (fileDev img) base) with
      | .ok vol =>
        match fileTree (offsetDev (fileDev img) base) vol.root fuel with
        | .ok tree =>
          let r := deskUnpackLoop h p base clones dest tree fs
          ⟨quiet r.1, .fileCount tree.length :: r.2.1, r.2.2⟩
        | .err _ => ⟨.ok none, [], fs⟩
        | .panic => ⟨.panic, [], fs⟩
        | .hang => ⟨.hang, [], fs⟩
      | .err _ => ⟨.ok none, [], fs⟩
      | .panic => ⟨.panic, [], fs⟩
      | .hang => ⟨.hang, [], fs⟩
    | .err _ => ⟨.ok none, [], fs⟩
    | .panic => ⟨.panic, [], fs⟩
    | .hang => ⟨.hang, [], fs⟩
  | _ => ⟨.ok none, [], fs⟩

/-! ## compress_image -/

/-- `compress_image`, `/repo/xdvdfs-desktop/src/compress.rs:43-122`: the branches are those of `cmd_compress`, without
its checks.  Simplified: the reports are not modelled. -/
def desktopCompress (h : Host) (t : Tool) (r : DirReader) (most : Path → (off n : Nat) → Nat) (c : Ciso) (fs : HostFs)
    (source dest : Str) : Res (Option Str) × HostFs :=
  match h.stat fs source with
  | none => (.ok none, fs)
  | some (src, .dir) =>
    let o := compressDir h t r most c fs src dest
    (quiet o.1, o.2)
  | some (src, .file img) =>
    let o := compressImage h t c fs src img dest
    (quiet o.1, o.2)

/-! ## What the page is told -/

/-- The result of an operation, from the answer of the command, `/repo/xdvdfs-web/src/ops/tauri.rs:57-65`, `:84-90`
and `:127-133`, and the state a page is told, `/repo/xdvdfs-web/src/packing.rs:376-382` and the same lines of the other
pages.  A command that panics or does not end gives no answer. -/
def endState {α : Type} (finished : α) (error : Str → α) : Res (Option Str) → Option α
  | .ok none => some finished
  | .ok (some e) => some (error e)
  | _ => none

/-- What happens on the page "Pack" while a run of `pack_image` is its only job, `/repo/xdvdfs-web/src/ops/tauri.rs:38-66`
and `/repo/xdvdfs-web/src/packing.rs:370-383`. -/
def packEvents (r : DeskRun) : List (UiEvent (PackMsg F D) F D) :=
  .report 0 (.changeState (.packing .packingImage)) :: r.sent.map (fun p => .report 0 (.updateProgress p)) ++
    ((endState PackStage.finished .error r.reply).map (fun s => UiEvent.ends 0 (.changeState s))).toList

/-- What happens on the page "Unpack" while a run of `unpack_image` is its only job,
`/repo/xdvdfs-web/src/ops/tauri.rs:68-91` and `/repo/xdvdfs-web/src/unpacking.rs:223-236`. -/
def unpackEvents (r : DeskRun) : List (UiEvent (UnpackMsg F D) F D) :=
  .report 0 (.changeState .unpacking) :: r.sent.map (fun p => .report 0 (.updateProgress p)) ++
    ((endState UnpackStage.finished .error r.reply).map (fun s => UiEvent.ends 0 (.changeState s))).toList

/-- What happens on the page "Compress" while a run of `compress_image` with the given reports is its only job,
`/repo/xdvdfs-web/src/ops/tauri.rs:93-135` and `/repo/xdvdfs-web/src/compress.rs:358-379`. -/
def compEvents (reports : List (CompMsg F D)) (reply : Res (Option Str)) : List (UiEvent (CompMsg F D) F D) :=
  .report 0 (.changeState (.packing .packingImage)) :: reports.map (fun m => .report 0 m) ++
    ((endState CompStage.finished .error reply).map (fun s => UiEvent.ends 0 (.changeState s))).toList

end Xdvdfs
