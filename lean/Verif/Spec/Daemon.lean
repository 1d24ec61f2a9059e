import Verif.Model.Daemon

/-!
# Vocabulary for the mount program
-/

namespace Xdvdfs.Spec

/-- The history `es` is possible, from the start of the program on, and leads to `s`. -/
def MountRun (j : MountJob) (es : List MountEvent) (s : MountState) : Prop := runMount j es j.start = some s

/-- The status the shell sees when the command has ended by itself: that of the parent, or that of the only process. -/
def commandStatus (s : MountState) : Option Nat :=
  match s.parent with
  | .absent => match s.server with
    | .exited n => some n
    | _ => none
  | .exited n => some n
  | _ => none

/-- The image is mounted. -/
def IsMounted (s : MountState) : Prop := ∃ m c, s.server = .serving m c

/-- The image was mounted at some moment of the history. -/
def WasMounted (j : MountJob) (es : List MountEvent) : Prop :=
  ∃ es1 es2 s, es = es1 ++ es2 ∧ MountRun j es1 s ∧ IsMounted s

/-- The image file can be opened as an image. -/
def CanOpen (j : MountJob) : Prop := j.runtime = true ∧ ∃ m c, mountImage (fileDev j.image) j.fuel = .ok (m, c)

/-- Nobody kills a process. -/
def NoKill (es : List MountEvent) : Prop := .killParent ∉ es ∧ .killServer ∉ es

/-- The steps the processes take by themselves. -/
def ownSteps (es : List MountEvent) : Nat :=
  (es.filter (fun e => match e with | .parent => true | .server => true | _ => false)).length

/-- The serving process has not reported to its parent yet. -/
def NotReported (s : MountState) : Prop :=
  s.server = .forked ∨ s.server = .started ∨ (∃ m c, s.server = .opened m c) ∨ ∃ n, s.server = .failing n

/-- The requests in a history. -/
def requests (es : List MountEvent) : List FuseOp :=
  es.filterMap (fun e => match e with | .request op => some op | _ => none)

/-- A request as the kernel makes them: a name to look up has no slash in it. -/
def KernelRequest (op : FuseOp) : Prop := ∀ parent n, op = .lookup parent (some n) → '/' ∉ n

end Xdvdfs.Spec
