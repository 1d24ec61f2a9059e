import Verif.Spec.Tabs

/-!
# What can happen in the application
-/

namespace Xdvdfs.Spec

/-- No dialog is open on any of the pages. -/
def NoDialogOpen (a : App F D) : Prop := a.pack.dialog = none ∧ a.unpack.dialog = none ∧ a.comp.dialog = none

/-- The application does not stand in the way of `e` on the page of tab `t`: a button can be clicked if the tab is
selected and no dialog is open; the messages `heard`, which in the desktop version come with the events of the window, come
in no other way; everything else can happen at any time. -/
def Unhindered (desktop : Bool) (a : App F D) (t : AppTab) (heard : M → Prop) (e : UiEvent M F D) : Prop :=
  (∀ b, e = .click b → a.shown = t ∧ NoDialogOpen a) ∧ ∀ k m, e = .report k m → desktop = true → ¬ heard m

end Xdvdfs.Spec
