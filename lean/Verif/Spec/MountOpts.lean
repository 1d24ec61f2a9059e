import Verif.Model.MountOpts

/-!
# What mount options mean

The documented options and how they are written.  Independent of the parser.
-/

namespace Xdvdfs.Spec

/-- What a user asks for with one option. -/
inductive MountArg where
  | mount (o : MountOpt)
  | fork
  | noFork
  deriving DecidableEq, Repr

/-- How the option is written. -/
def MountArg.text : MountArg → Str
  | .mount .autoUnmount => "auto_unmount".toList
  | .mount .allowOther => "allow_other".toList
  | .mount .allowRoot => "allow_root".toList
  | .mount .defaultPermissions => "default_permissions".toList
  | .mount .suid => "suid".toList
  | .mount .noSuid => "nosuid".toList
  | .mount .ro => "ro".toList
  | .mount .rw => "rw".toList
  | .mount .exec => "exec".toList
  | .mount .noExec => "noexec".toList
  | .mount .dev => "dev".toList
  | .mount .noDev => "nodev".toList
  | .mount (.fsName s) => "fsname=".toList ++ s
  | .mount (.subtype s) => "subtype=".toList ++ s
  | .fork => "fork".toList
  | .noFork => "nofork".toList

/-- The options given with one `-o`, separated by commas. -/
def optText : List MountArg → Str
  | [] => []
  | [a] => a.text
  | a :: b :: as => a.text ++ ',' :: optText (b :: as)

/-- The mount options among the arguments, in order. -/
def mountsOf (as : List MountArg) : List MountOpt :=
  as.filterMap (fun a => match a with | .mount o => some o | _ => none)

/-- The last of `fork` and `nofork` counts; the default is to fork. -/
def forks (as : List MountArg) : Bool :=
  match as.reverse.find? (fun a => a = .fork ∨ a = .noFork) with
  | some a => decide (a = .fork)
  | none => true

/-- The names that are added when the user gives none. -/
def defaultNames (src : Str) (as : List MountArg) : List MountOpt :=
  (if as.any (fun a => match a with | .mount (.fsName _) => true | _ => false) then [] else [.fsName src]) ++
  (if as.any (fun a => match a with | .mount (.subtype _) => true | _ => false) then [] else [.subtype "xdvdfs".toList])

end Xdvdfs.Spec
