import Verif.Model.Desktop
import Verif.Spec.CompressArgs
import Verif.Spec.WebUi
import Verif.Spec.Cli

/-!
# What users expect of the desktop application
-/

namespace Xdvdfs.Spec

open Xdvdfs

/-- The path string names the place `name` in the directory `d`; there is no directory at that place, and the host lets
a file be written there. -/
def OutputIn (h : Host) (fs : HostFs) (path name : Str) (d : HostPath) : Prop :=
  (∃ dir, path = dir ++ name ∧ HostName name ∧ PrefixNames h fs dir d) ∧
  fs (d ++ [name]) ≠ some .dir ∧ h.faults (d ++ [name]) ≠ .refuse

/-- The source has `n` entries: files and directories, at any depth, without the root. -/
def HasEntries (readDir : Path → Res (List FileEntry)) (n : Nat) : Prop :=
  ∃ dirs, TreeOf readDir dirs ∧ (∀ p, DirOf readDir p → p ∈ dirs.map Prod.fst) ∧ (entryPaths dirs).length = n

/-- The bar of the page is full: as many things are done as there are. -/
def ShowsAll (v : Shown) (n : Nat) : Prop :=
  v.done.toNat = n ∧ v.total.toNat = n ∧ v.percent.toNat = (if n = 0 then 0 else 100) ∧ v.error = none

/-- The bar of the page makes sense: not more is done than there is. -/
def ShowsSense (v : Shown) : Prop := v.done.toNat ≤ v.total.toNat ∧ v.percent.toNat ≤ 100

end Xdvdfs.Spec
