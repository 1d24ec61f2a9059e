import Verif.Model.Host

/-!
# Copying files out of an image (`xdvdfs unpack`, `xdvdfs copy-out`)

The image is a file `img` whose volume starts at `base`; reading it never fails except past its end.
-/

namespace Xdvdfs

/-- The image as opened by `open_image_raw`, `/repo/xdvdfs-cli/src/img.rs:32-37`, and whether its file
handle can be duplicated (`try_clone`). -/
structure RawImage where
  img : Bytes
  base : Nat
  clones : Bool

/-- The block device `OffsetWrapper<BufReader<File>>`. Opened at `/repo/xdvdfs-cli/src/img.rs:32-37`. -/
def RawImage.dev (r : RawImage) : Dev := offsetDev (fileDev r.img) r.base

/-- What is written to the output file for an entry, `/repo/xdvdfs-cli/src/cmd_unpack.rs:50-66`: the
duplicated handle is read from the start of the data, at most `size` bytes and without noticing that the
image ends; otherwise the data is read through the block device.
Simplified: the seek position is a natural number. -/
def RawImage.extract (r : RawImage) (d : DiskData) : Res Bytes :=
  if d.data.isEmpty then .ok []
  else do
    let off ← d.data.offset 0
    if r.clones then .ok (slice r.img (off + r.base) d.data.size.toNat) else readDataAll r.dev d

/-- One turn of the loop of `copyout_directory`, `/repo/xdvdfs-cli/src/cmd_unpack.rs:20-67`. -/
def copyoutEntry (h : Host) (r : RawImage) (dest : Str) (x : Str × DirEnt) (fs : HostFs) : Res Unit × HostFs :=
  let dirname := pathJoin dest (trimSlashes x.1)
  let filePath := pathJoin dirname x.2.nameStr
  match h.createDirAll dirname fs with
  | (.ok (), fs) =>
    if x.2.node.dirent.isDirectory then h.createDir filePath fs
    else if x.2.node.dirent.nameLen = 0 then (.ok (), fs)
    else h.writeFile filePath (r.extract x.2.node.dirent) fs
  | failed => failed

/-- The loop of `copyout_directory`, `/repo/xdvdfs-cli/src/cmd_unpack.rs:20-68`. -/
def copyoutLoop (h : Host) (r : RawImage) (dest : Str) : List (Str × DirEnt) → HostFs → Res Unit × HostFs
  | [], fs => (.ok (), fs)
  | x :: xs, fs =>
    match copyoutEntry h r dest x fs with
    | (.ok (), fs) => copyoutLoop h r dest xs fs
    | failed => failed

/-- `copyout_directory`, `/repo/xdvdfs-cli/src/cmd_unpack.rs:12-71`. -/
def copyoutDirectory (h : Host) (r : RawImage) (dest : Str) (tab : Region) (fuel : Nat) (fs : HostFs) :
    Res Unit × HostFs :=
  match fileTree r.dev tab fuel with
  | .ok tree => copyoutLoop h r dest tree fs
  | .err e => (.err e, fs)
  | .panic => (.panic, fs)
  | .hang => (.hang, fs)

/-- `cmd_unpack`, `/repo/xdvdfs-cli/src/cmd_unpack.rs:83-97`, with the destination given; `img` is the
content of the image file. -/
def cmdUnpack (h : Host) (img : Bytes) (clones : Bool) (dest : Str) (fuel : Nat) (fs : HostFs) :
    Res Unit × HostFs :=
  match offsetNew (fileDev img) with
  | .ok base =>
    match readVolume (offsetDev (fileDev img) base) with
    | .ok vol => copyoutDirectory h ⟨img, base, clones⟩ dest vol.root fuel fs
    | .err e => (.err e, fs)
    | .panic => (.panic, fs)
    | .hang => (.hang, fs)
  | .err e => (.err e, fs)
  | .panic => (.panic, fs)
  | .hang => (.hang, fs)

/-- `cmd_copyout`, `/repo/xdvdfs-cli/src/cmd_unpack.rs:112-156`. -/
def cmdCopyout (h : Host) (img : Bytes) (clones : Bool) (src dest : Str) (fuel : Nat) (fs : HostFs) :
    Res Unit × HostFs :=
  match offsetNew (fileDev img) with
  | .ok base =>
    let r : RawImage := ⟨img, base, clones⟩
    match readVolume r.dev with
    | .ok vol =>
      if src = ['/'] then copyoutDirectory h r dest vol.root fuel fs
      else match walkPath r.dev vol.root src fuel with
        | .ok d =>
          match d.node.dirent.direntTable with
          | some tab => copyoutDirectory h r dest tab fuel fs
          | none => h.writeFile dest (r.extract d.node.dirent) fs
        | .err e => (.err e, fs)
        | .panic => (.panic, fs)
        | .hang => (.hang, fs)
    | .err e => (.err e, fs)
    | .panic => (.panic, fs)
    | .hang => (.hang, fs)
  | .err e => (.err e, fs)
  | .panic => (.panic, fs)
  | .hang => (.hang, fs)

end Xdvdfs
