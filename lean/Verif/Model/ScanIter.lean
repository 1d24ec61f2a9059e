import Verif.Model.Read

/-!
# Iterating over a directory

`/repo/xdvdfs-core/src/read.rs:37-89`: `next_entry`, with the state it leaves behind when it fails, and the iterator that
is made of it.  `ok k` says whether the `k`-th read of the iterator succeeds; a read that fails leaves the buffer as it is,
like that of a slice does.
-/

namespace Xdvdfs

/-- `DirentScanIter`, `/repo/xdvdfs-core/src/read.rs:8-14`, and the number of reads it has made. -/
structure ScanIter where
  scan : Scan
  reads : Nat
  deriving DecidableEq

/-- `next_sector`, `/repo/xdvdfs-core/src/read.rs:18-35`: the position is moved before the sector is read. -/
def iterSector (ok : Nat → Bool) (dev : Dev) (it : ScanIter) : Res Unit × ScanIter :=
  let s := { it.scan with offset := 0, sector := it.scan.sector + 1 }
  if s.sector ≥ s.endSector then (.ok (), ⟨s, it.reads⟩)
  else if ok it.reads then
    match dev.read (s.sector * sectorSize) 2048 with
    | .ok buf => (.ok (), ⟨{ s with buf := buf }, it.reads + 1⟩)
    | .err e => (.err e, ⟨s, it.reads + 1⟩)
    | .panic => (.panic, ⟨s, it.reads + 1⟩)
    | .hang => (.hang, ⟨s, it.reads + 1⟩)
  else (.err .io, ⟨s, it.reads + 1⟩)

/-- One iteration of the loop of `next_entry`, `/repo/xdvdfs-core/src/read.rs:45-78`: `none` is a `continue`, otherwise what
is returned. -/
def iterStep (ok : Nat → Bool) (dev : Dev) (it : ScanIter) : Res (Option (Option DirEnt)) × ScanIter :=
  let s := it.scan
  if s.offset + 0xe < 2048 then
    match deserDirentNode (slice s.buf s.offset 0xe) with
    | none =>
      if s.sector + 1 < s.endSector then
        match iterSector ok dev it with
        | (.ok (), it) => (.ok none, it)
        | (.err e, it) => (.err e, it)
        | (.panic, it) => (.panic, it)
        | (.hang, it) => (.hang, it)
      else (.ok (some none), it)
    | some node =>
      let nameLen := node.dirent.nameLen.toNat
      if s.offset + 0xe + nameLen ≤ 2048 then
        let d : DirEnt := { node, name := slice s.buf (s.offset + 0xe) nameLen, offset := s.offset }
        let o := s.offset + 0xe + nameLen
        let o := o + (4 - o % 4) % 4
        let it : ScanIter := ⟨{ s with offset := o }, it.reads⟩
        if o + 0xe ≥ 2048 then
          match iterSector ok dev it with
          | (.ok (), it) => (.ok (some (some d)), it)
          | (.err e, it) => (.err e, it)
          | (.panic, it) => (.panic, it)
          | (.hang, it) => (.hang, it)
        else (.ok (some (some d)), it)
      else (.panic, it)
  else (.panic, it)

/-- The loop of `next_entry`. `/repo/xdvdfs-core/src/read.rs:45-78`. -/
def iterLoop (ok : Nat → Bool) (dev : Dev) : Nat → ScanIter → Res (Option DirEnt) × ScanIter
  | 0, it => (.hang, it)
  | fuel + 1, it =>
    match iterStep ok dev it with
    | (.ok none, it) => iterLoop ok dev fuel it
    | (.ok (some r), it) => (.ok r, it)
    | (.err e, it) => (.err e, it)
    | (.panic, it) => (.panic, it)
    | (.hang, it) => (.hang, it)

/-- `next_entry`, `/repo/xdvdfs-core/src/read.rs:38-79`. -/
def iterEntry (ok : Nat → Bool) (dev : Dev) (fuel : Nat) (it : ScanIter) : Res (Option DirEnt) × ScanIter :=
  if it.scan.sector ≥ it.scan.endSector then (.ok none, it) else iterLoop ok dev fuel it

/-- `Iterator::next`, `/repo/xdvdfs-core/src/read.rs:86-88`: `.ok().flatten()`. -/
def iterNext (ok : Nat → Bool) (dev : Dev) (fuel : Nat) (it : ScanIter) : Res (Option DirEnt) × ScanIter :=
  match iterEntry ok dev fuel it with
  | (.err _, it) => (.ok none, it)
  | r => r

/-- A loop over the iterator, or `collect`: what was delivered before the first `None`, and the iterator then.  (`Iterator`,
`/repo/xdvdfs-core/src/read.rs:82-89`.) -/
def iterCollect (ok : Nat → Bool) (dev : Dev) : Nat → ScanIter → List DirEnt → Res (List DirEnt) × ScanIter
  | 0, it, _ => (.hang, it)
  | fuel + 1, it, acc =>
    match iterNext ok dev (fuel + 1) it with
    | (.ok none, it) => (.ok acc.reverse, it)
    | (.ok (some d), it) => iterCollect ok dev fuel it (d :: acc)
    | (.err e, it) => (.err e, it)
    | (.panic, it) => (.panic, it)
    | (.hang, it) => (.hang, it)

end Xdvdfs
