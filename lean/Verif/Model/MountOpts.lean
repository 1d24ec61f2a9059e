import Verif.Basic

/-!
# Mount options: `/repo/xdvdfs-fsd/src/main.rs:34-97`

The path of the source is a string here (`to_string_lossy`, line 86).
-/

namespace Xdvdfs

/-- The `fuser::MountOption`s that can be given, `/repo/xdvdfs-fsd/src/main.rs:52-72`. -/
inductive MountOpt where
  | autoUnmount | allowOther | allowRoot | defaultPermissions | suid | noSuid | ro | rw | exec | noExec | dev | noDev
  | fsName (s : Str)
  | subtype (s : Str)
  deriving DecidableEq, Repr

/-- `str::split(",")`, `/repo/xdvdfs-fsd/src/main.rs:51`: always at least one (possibly empty) piece. -/
def splitComma : Str → List Str
  | [] => [[]]
  | c :: cs =>
    if c = ',' then [] :: splitComma cs
    else match splitComma cs with
      | seg :: segs => (c :: seg) :: segs
      | [] => [[c]]  -- unreachable: `splitComma` is never empty

/-- One arm of the `match`, `/repo/xdvdfs-fsd/src/main.rs:52-82`: a mount option, a choice of `fork`, or
neither. -/
def parseMountOpt (x : Str) : Option (MountOpt ⊕ Bool) :=
  if x = "auto_unmount".toList then some (.inl .autoUnmount)
  else if x = "allow_other".toList then some (.inl .allowOther)
  else if x = "allow_root".toList then some (.inl .allowRoot)
  else if x = "default_permissions".toList then some (.inl .defaultPermissions)
  else if x = "suid".toList then some (.inl .suid)
  else if x = "nosuid".toList then some (.inl .noSuid)
  else if x = "ro".toList then some (.inl .ro)
  else if x = "rw".toList then some (.inl .rw)
  else if x = "exec".toList then some (.inl .exec)
  else if x = "noexec".toList then some (.inl .noExec)
  else if x = "dev".toList then some (.inl .dev)
  else if x = "nodev".toList then some (.inl .noDev)
  else if x.take 7 = "fsname=".toList then some (.inl (.fsName (x.drop 7)))
  else if x.take 8 = "subtype=".toList then some (.inl (.subtype (x.drop 8)))
  else if x = "fork".toList then some (.inr true)
  else if x = "nofork".toList then some (.inr false)
  else none

/-- The variables of the loop: `mount_opts`, `has_fsname`, `has_subtype` and `tlo.fork`,
`/repo/xdvdfs-fsd/src/main.rs:43-48`. -/
structure MountOptState where
  opts : List MountOpt
  hasFsname : Bool
  hasSubtype : Bool
  fork : Bool
  deriving DecidableEq, Repr

/-- The inner loop, `/repo/xdvdfs-fsd/src/main.rs:51-85`; `none` is the `bail!` of line 78. -/
def parsePieces : MountOptState → List Str → Option MountOptState
  | s, [] => some s
  | s, x :: xs =>
    match parseMountOpt x with
    | none => none
    | some (.inr b) => parsePieces { s with fork := b } xs
    | some (.inl o) =>
      parsePieces { s with
        opts := s.opts ++ [o]
        hasFsname := s.hasFsname || (match o with | .fsName _ => true | _ => false)
        hasSubtype := s.hasSubtype || (match o with | .subtype _ => true | _ => false) } xs

/-- The outer loop, `/repo/xdvdfs-fsd/src/main.rs:50-86`. -/
def parseOptArgs : MountOptState → List Str → Option MountOptState
  | s, [] => some s
  | s, a :: as =>
    match parsePieces s (splitComma a) with
    | none => none
    | some s => parseOptArgs s as

/-- `convert_fuse_mount_opts`, `/repo/xdvdfs-fsd/src/main.rs:39-97`: whether to fork, and the options;
`none` is an error. -/
def convertMountOpts (src : Str) (args : List Str) : Option (Bool × List MountOpt) :=
  match parseOptArgs ⟨[], false, false, true⟩ args with
  | none => none
  | some s =>
    let opts := if s.hasFsname then s.opts else s.opts ++ [.fsName src]
    some (s.fork, if s.hasSubtype then opts else opts ++ [.subtype "xdvdfs".toList])

end Xdvdfs
