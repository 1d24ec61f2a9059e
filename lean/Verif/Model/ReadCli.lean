import Verif.Model.Checksum
import Verif.Model.Compress
import Verif.Model.Show

/-!
# The commands that read an image, from their arguments

`/repo/xdvdfs-cli/src/cmd_read.rs`, `/repo/xdvdfs-cli/src/cmd_md5.rs`, `/repo/xdvdfs-cli/src/cmd_info.rs`, the mode `-l`
of `/repo/xdvdfs-cli/src/exiso_compat.rs`, and the exit status of `/repo/xdvdfs-cli/src/main.rs`.  The image is given as
the user types it: a plain image, a whole disc, or the first part of a compressed image.
-/

namespace Xdvdfs

/-- A command that reads one image; `checksum` is given one of its images. For
`/repo/xdvdfs-cli/src/cmd_read.rs:24-141`, `/repo/xdvdfs-cli/src/cmd_md5.rs:11-93`,
`/repo/xdvdfs-cli/src/cmd_info.rs:10-111`. -/
inductive ReadCmd where
  | ls (path : Str) (scan : Bool)
  | tree
  | info (path : Option Str)
  | md5 (path : Option Str)
  | checksum
  deriving DecidableEq, Repr

/-- A line on the screen, or, for `info`, what it prints. Simplified: digests are not written out. For
`/repo/xdvdfs-cli/src/cmd_read.rs:24-141`, `/repo/xdvdfs-cli/src/cmd_md5.rs:11-93`,
`/repo/xdvdfs-cli/src/cmd_info.rs:10-111`. -/
inductive Line (H : Type) where
  | text (s : Str)
  | info (i : InfoOut)
  | digest (d : H) (name : Str)
  deriving DecidableEq, Repr

/-- What a command has printed and how it ended. For `/repo/xdvdfs-cli/src/cmd_read.rs:24-141`,
`/repo/xdvdfs-cli/src/cmd_md5.rs:11-93`, `/repo/xdvdfs-cli/src/cmd_info.rs:10-111`. -/
structure Printed (H : Type) where
  lines : List (Line H)
  outcome : Res Unit
  deriving DecidableEq, Repr

/-- Lines that are printed when all is known. For `/repo/xdvdfs-cli/src/cmd_read.rs:24-141`,
`/repo/xdvdfs-cli/src/cmd_md5.rs:11-93`, `/repo/xdvdfs-cli/src/cmd_info.rs:10-111`. -/
def Printed.ofRes {H : Type} (f : α → List (Line H)) : Res α → Printed H
  | .ok a => ⟨f a, .ok ()⟩
  | .err e => ⟨[], .err e⟩
  | .panic => ⟨[], .panic⟩
  | .hang => ⟨[], .hang⟩

/-- What decides how the reading commands run, apart from the files: whether overflows are checked, the decoder
of compressed images, the hash function, and the bound on the loops. For
`/repo/xdvdfs-cli/src/cmd_read.rs:24-141`, `/repo/xdvdfs-cli/src/cmd_md5.rs:11-93`,
`/repo/xdvdfs-cli/src/cmd_info.rs:10-111`. -/
structure Reader (H : Type) where
  checked : Bool
  ciso : Ciso
  hash : Bytes → H
  fuel : Nat

/-- `cmd_md5` after the image was opened, `/repo/xdvdfs-cli/src/cmd_md5.rs:84-92`. -/
def md5On {H : Type} (r : Reader H) (dev : Dev) (path : Option Str) : Printed H :=
  match readVolume dev with
  | .ok vol =>
    let p := cmdMd5 r.hash dev vol path r.fuel
    ⟨p.2.map (fun x => .digest x.1 x.2), p.1⟩
  | .err e => ⟨[], .err e⟩
  | .panic => ⟨[], .panic⟩
  | .hang => ⟨[], .hang⟩

/-- `checksum_single` after the image was opened, `/repo/xdvdfs-cli/src/cmd_read.rs:112-120`. -/
def checksumOn {H : Type} (r : Reader H) (dev : Dev) (image : Str) : Printed H :=
  match readVolume dev with
  | .ok vol => Printed.ofRes (fun d => [.digest d image]) (checksum r.hash dev vol r.fuel)
  | .err e => ⟨[], .err e⟩
  | .panic => ⟨[], .panic⟩
  | .hang => ⟨[], .hang⟩

/-- The loop of `cmd_ls` with `--scan`, `/repo/xdvdfs-cli/src/cmd_read.rs:44-47`: each name is printed before the next
entry is read.  `out` is what has been printed. -/
def lsScanLoop (dev : Dev) : Nat → Scan → List Str → List Str × Res Unit
  | 0, _, out => (out, .hang)
  | fuel + 1, s, out =>
    match s.next dev (fuel + 1) with
    | .ok (none, _) => (out, .ok ())
    | .ok (some d, s) => lsScanLoop dev fuel s (out ++ [d.nameStr])
    | .err e => (out, .err e)
    | .panic => (out, .panic)
    | .hang => (out, .hang)

/-- `cmd_ls` with `--scan` up to its loop, `/repo/xdvdfs-cli/src/cmd_read.rs:26-42`. -/
def lsScanInit (dev : Dev) (path : Str) (fuel : Nat) : Res Scan := do
  let vol ← readVolume dev
  let tab ← (if path = ['/'] then (pure vol.root : Res Region)
    else do
      let d ← walkPath dev vol.root path fuel
      Res.ofOption .other d.node.dirent.direntTable)
  scanInit dev tab

/-- `cmd_ls` after the image was opened, `/repo/xdvdfs-cli/src/cmd_read.rs:26-60`. -/
def lsOn {H : Type} (r : Reader H) (dev : Dev) (path : Str) (scan : Bool) : Printed H :=
  if scan then
    match lsScanInit dev path r.fuel with
    | .ok s => ⟨(lsScanLoop dev r.fuel s []).1.map .text, (lsScanLoop dev r.fuel s []).2⟩
    | .err e => ⟨[], .err e⟩
    | .panic => ⟨[], .panic⟩
    | .hang => ⟨[], .hang⟩
  else Printed.ofRes (fun l => l.map .text) (cmdLs true dev path false r.fuel)

/-- A command on an opened image: `cmd_ls` and `cmd_tree`, `/repo/xdvdfs-cli/src/cmd_read.rs:25-60, 72-97`, `cmd_info`,
`/repo/xdvdfs-cli/src/cmd_info.rs:90-111`, and the above.  `image` is the path as it is printed.  Simplified: for
`tree` and `info`, lines printed before an overflow panics are not modelled. -/
def readOn {H : Type} (r : Reader H) (dev : Dev) (image : Str) : ReadCmd → Printed H
  | .ls path scan => lsOn r dev path scan
  | .tree => Printed.ofRes (fun l => l.map .text) (cmdTree r.checked true dev image r.fuel)
  | .info path => Printed.ofRes (fun i => [.info i]) (cmdInfo r.checked true dev path r.fuel)
  | .md5 path => md5On r dev path
  | .checksum => checksumOn r dev image

/-- A reading command: `open_image`, then the command.  `/repo/xdvdfs-cli/src/cmd_read.rs:25, 71, 111`,
`/repo/xdvdfs-cli/src/cmd_md5.rs:83`, `/repo/xdvdfs-cli/src/cmd_info.rs:89`.  `shown` is the path as it is printed. -/
def readCommand {H : Type} (h : Host) (r : Reader H) (fs : HostFs) (image shown : Str) (cmd : ReadCmd) : Printed H :=
  match openPath h r.ciso r.fuel fs image with
  | .ok dev => readOn r dev shown cmd
  | .err e => ⟨[], .err e⟩
  | .panic => ⟨[], .panic⟩
  | .hang => ⟨[], .hang⟩

/-- A command for each of several images in order, until one fails: `cmd_checksum`,
`/repo/xdvdfs-cli/src/cmd_read.rs:136-138`, and `exiso_list`, `/repo/xdvdfs-cli/src/exiso_compat.rs:137-142`. -/
def readEach {H : Type} (h : Host) (r : Reader H) (fs : HostFs) (cmd : ReadCmd) : List Str → Printed H
  | [] => ⟨[], .ok ()⟩
  | image :: rest =>
    let p := readCommand h r fs image image cmd
    match p.outcome with
    | .ok () => ⟨p.lines ++ (readEach h r fs cmd rest).lines, (readEach h r fs cmd rest).outcome⟩
    | _ => p

/-- `cmd_checksum`, `/repo/xdvdfs-cli/src/cmd_read.rs:125-141`.  The warning goes to another stream. -/
def cmdChecksum {H : Type} (h : Host) (r : Reader H) (fs : HostFs) (images : List Str) : Printed H :=
  readEach h r fs .checksum images

/-- `exiso_list`, `/repo/xdvdfs-cli/src/exiso_compat.rs:135-145`. -/
def exisoList {H : Type} (h : Host) (r : Reader H) (fs : HostFs) (images : List Str) : Printed H :=
  readEach h r fs .tree images

/-- The exit status, `/repo/xdvdfs-cli/src/main.rs:77-88`, `/repo/xdvdfs-cli/src/exiso_compat.rs:209-218`; 101 is the
status of a panic. -/
def exitStatus : Res Unit → Option Nat
  | .ok () => some 0
  | .err _ => some 1
  | .panic => some 101
  | .hang => none

end Xdvdfs
