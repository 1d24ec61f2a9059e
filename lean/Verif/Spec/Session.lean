import Verif.Spec.CliPaths
import Verif.Model.BuildArgs
import Verif.Model.Compress
import Verif.Model.SpecCmd
import Verif.Model.Cli

/-!
# Histories: what is done on a host, one command after the other
-/

namespace Xdvdfs.Spec

open Xdvdfs

/-- What can be done on a host: run one of the commands that write something, with the output given, or run another
program, which changes places of its own.  (Without an output the commands choose one: see C88, C94 and C114.  The
commands that only read do not appear: they have no effect on the host.  The extract mode of the extract-xiso interface
is a sequence of `unpack`, until one of them fails.) -/
inductive Command
  | pack (source image : Str)
  | unpack (image dest : Str)
  | copyOut (image path dest : Str)
  | buildImage (a : BuildStrings) (image : Str)
  | compress (source image : Str)
  | imageSpec (rules : Option (List Str)) (output : Option Str) (file : Str)
  | exisoCreate (tasks : List (Str × Str))
  | exisoRewrite (dir : Option HostPath) (delete : Bool) (images : List HostPath)
  | other (places : HostPath → Prop)

/-- The places that a command was told to write: its output, what is in its destination, or the parts of its output.  The
rewrite mode of the extract-xiso interface also moves each image to its name with `.old`. -/
def ToldToWrite (c : Ciso) (h : Host) : Command → HostPath → Prop
  | .pack _ image, q => q = placeOf h image
  | .unpack _ dest, q => placeOf h dest <+: q
  | .copyOut _ _ dest, q => placeOf h dest <+: q
  | .buildImage _ image, q => q = placeOf h image
  | .compress _ image, q => ∃ i, q = placeOf h (c.partName image i)
  | .imageSpec _ _ file, q => q = placeOf h file
  | .exisoCreate tasks, q => ∃ x ∈ tasks, q = placeOf h x.2
  | .exisoRewrite dir _ images, q => ∃ src ∈ images, q = src ∨ q = oldPath src ∨ q = rewriteDest dir src
  | .other places, q => places q

/-- The names in the directory `path` of the image, and below it, have no slash in them. -/
def NoSlashBelow (img : Bytes) (path : Str) (fuel : Nat) : Prop :=
  ∀ base vol d tab tree, offsetNew (fileDev img) = .ok base → readVolume (offsetDev (fileDev img) base) = .ok vol →
    walkPath (offsetDev (fileDev img) base) vol.root path fuel = .ok d → d.node.dirent.direntTable = some tab →
    fileTree (offsetDev (fileDev img) base) tab fuel = .ok tree → ∀ x ∈ tree, '/' ∉ x.2.nameStr

/-- Running a command on the host `fs` can leave the host as `fs'`: it may succeed, fail because of its arguments or of
faults, or be killed.  It is assumed that what is unpacked or copied out comes from images that have no slash in a name. -/
inductive Ran (c : Ciso) (h : Host) : Command → HostFs → HostFs → Prop
  | nothing (cmd : Command) (fs : HostFs) : Ran c h cmd fs fs
  | pack {source image : Str} {t : Tool} {R : HostFs → DirReader} {faults : Faults} {fs st : HostFs} :
      (st ∈ (cmdPackArgs h t (fun fs src => stdFs (R fs) fs src) faults fs source (some image)).1 ∨
        (cmdPackArgs h t (fun fs src => stdFs (R fs) fs src) faults fs source (some image)).2 = .ok st) →
      Ran c h (.pack source image) fs st
  | unpack {image dest : Str} {clones : Bool} {fuel : Nat} {fs : HostFs} :
      (∀ p img, h.stat fs image = some (p, .file img) → NoSlashNames img fuel) →
      Ran c h (.unpack image dest) fs (cmdUnpackArgs h clones fuel fs image (some dest)).2
  | copyOut {image path dest : Str} {clones : Bool} {fuel : Nat} {fs : HostFs} {p : HostPath} {img : Bytes} :
      h.stat fs image = some (p, .file img) → NoSlashNames img fuel → NoSlashBelow img path fuel →
      Ran c h (.copyOut image path dest) fs (cmdCopyout h img clones path dest fuel fs).2
  | buildImage {a : BuildStrings} {image : Str} {t : Tool} {G : GlobEngine} {parse : Bytes → Option ImageSpec}
      {r : DirReader} {self : Bytes} {faults : Faults} {fs st : HostFs} {lines} : a.image = some image →
      (st ∈ (cmdBuildStrings h t G parse r self faults fs a).1 ∨
        (cmdBuildStrings h t G parse r self faults fs a).2 = .ok ⟨st, lines⟩) →
      Ran c h (.buildImage a image) fs st
  | compress {source image : Str} {t : Tool} {r : DirReader} {most : Path → (off n : Nat) → Nat} {fs : HostFs} :
      Ran c h (.compress source image) fs (cmdCompressArgs h t r most c fs source (some image)).2
  | imageSpec {rules : Option (List Str)} {output : Option Str} {file : Str} {print : ImageSpec → Bytes} {cut : Option Nat}
      {fs st : HostFs} {out : Bytes} :
      (st ∈ (cmdImageSpec h print cut fs rules output (some file)).1 ∨
        (cmdImageSpec h print cut fs rules output (some file)).2 = .ok (st, out)) →
      Ran c h (.imageSpec rules output file) fs st
  | exisoCreate {tasks : List (Str × Str)} {t : Tool} {R : HostFs → DirReader} {runs : List ((Str × Option Str) × Faults)}
      {fs st : HostFs} : runs.map Prod.fst = tasks.map (fun x => (x.1, some x.2)) →
      (st ∈ (exisoCreateTasks h t (fun fs src => stdFs (R fs) fs src) runs fs).1 ∨
        (exisoCreateTasks h t (fun fs src => stdFs (R fs) fs src) runs fs).2 = .ok st) →
      Ran c h (.exisoCreate tasks) fs st
  | exisoRewrite {dir : Option HostPath} {delete : Bool} {images : List HostPath} {t : Tool}
      {runs : List (HostPath × Faults)} {fs st : HostFs} : runs.map Prod.fst = images →
      (st ∈ (rewriteAll t dir delete runs fs).1 ∨ (rewriteAll t dir delete runs fs).2 = .ok st) →
      Ran c h (.exisoRewrite dir delete images) fs st
  | other {places : HostPath → Prop} {fs fs' : HostFs} : (∀ q, fs' q ≠ fs q → places q) → WellFormedHost fs' →
      Ran c h (.other places) fs fs'

/-- A history: commands, each run in some working directory that exists, turn the host `fs` into `fs'`. -/
inductive History (c : Ciso) : List (Host × Command) → HostFs → HostFs → Prop
  | nil (fs : HostFs) : History c [] fs fs
  | cons {h : Host} {cmd : Command} {rest : List (Host × Command)} {fs fs1 fs2 : HostFs} : fs h.cwd = some .dir →
      Ran c h cmd fs fs1 → History c rest fs1 fs2 → History c ((h, cmd) :: rest) fs fs2

end Xdvdfs.Spec
