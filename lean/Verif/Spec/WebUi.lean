import Verif.Model.WebUi

/-!
# Histories of a page
-/

namespace Xdvdfs.Spec

/-- From the first state of the page, the events `es` can happen, and they lead to `r`. -/
def Happens (d : PageDef S M J F D) (es : List (UiEvent M F D)) (r : Res (UiSys S J)) : Prop :=
  runUi d es (UiSys.init d) = some r

/-- What a page shows. -/
def Shows (d : PageDef S M J F D) (s : UiSys S J) (v : Shown) : Prop := d.view s.page = .ok v

/-- In the history `es` the user clicks a button only in states with the property `P`. -/
def ClicksWhen (d : PageDef S M J F D) (P : Button → UiSys S J → Prop) (es : List (UiEvent M F D)) : Prop :=
  ∀ before b after s, es = before ++ .click b :: after → Happens d before (.ok s) → P b s

/-- No job dies without a message in the history. -/
def NoneDies (es : List (UiEvent M F D)) : Prop := ∀ k, UiEvent.dies k ∉ es

end Xdvdfs.Spec
