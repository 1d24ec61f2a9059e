import Verif.Model.Tabs
import Verif.Spec.WebUi

/-!
# Histories of the application
-/

namespace Xdvdfs.Spec

/-- From the first state of the application, in its desktop or browser version, the events `es` can happen, and they lead
to `r`. -/
def AppHappens (desktop : Bool) (fname : F → Str) (dname : D → Str) (es : List (AppEvent F D)) (r : Res (App F D)) : Prop :=
  runApp desktop fname dname es (App.init fname dname) = some r

/-- What happens on the page "Pack" and what its own jobs report. -/
def ownPack (es : List (AppEvent F D)) : List (UiEvent (PackMsg F D) F D) :=
  es.flatMap fun e => match e with
    | .pack e => [e]
    | .progress .pack k p => [.report k (.updateProgress p)]
    | _ => []

/-- The same for the page "Unpack". -/
def ownUnpack (es : List (AppEvent F D)) : List (UiEvent (UnpackMsg F D) F D) :=
  es.flatMap fun e => match e with
    | .unpack e => [e]
    | .progress .unpack k p => [.report k (.updateProgress p)]
    | _ => []

/-- The same for the page "Compress". -/
def ownComp (es : List (AppEvent F D)) : List (UiEvent (CompMsg F D) F D) :=
  es.flatMap fun e => match e with
    | .comp e => [e]
    | .progress .compress k p => [.report k (.updateProgress p)]
    | .sectors k p => [.report k (.changeState .compressing), .report k (.updateCompression p)]
    | _ => []

/-- The history `full` is the history `own`, with reports of progress (`heard`) added. -/
inductive HearsMore (heard : M → Bool) : List (UiEvent M F D) → List (UiEvent M F D) → Prop
  | nil : HearsMore heard [] []
  | own (e : UiEvent M F D) {es full : List (UiEvent M F D)} : HearsMore heard es full → HearsMore heard (e :: es) (e :: full)
  | added (k : Nat) {m : M} {es full : List (UiEvent M F D)} : heard m = true → HearsMore heard es full →
    HearsMore heard es (.report k m :: full)

/-- Whenever a job reports to the window, it is the only job that listens. -/
def ReportsAlone (fname : F → Str) (dname : D → Str) (es : List (AppEvent F D)) : Prop :=
  ∀ before e after a, es = before ++ e :: after → AppHappens true fname dname before (.ok a) →
    (∀ t k p, e = .progress t k p → a.jobsOf .pack + a.jobsOf .unpack + a.jobsOf .compress = 1) ∧
    ∀ k p, e = .sectors k p → a.jobsOf .compress = 1

end Xdvdfs.Spec
