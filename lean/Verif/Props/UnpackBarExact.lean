import Verif.Props.BrowserUnpack

/-!
# C109, exactly: what the page shows after an image has been unpacked
-/

namespace Xdvdfs.Spec

/-- `empties` are the empty files of the tree, each once. -/
def EmptyFiles (readDir : Path → Res (List FileEntry)) (content : Path → Bytes) (empties : List Path) : Prop :=
  empties.Nodup ∧ ∀ q, q ∈ empties ↔ ∃ p e, EntryIn readDir p e ∧ q = p ++ [e.name] ∧ e.isDir = false ∧ content q = []

end Xdvdfs.Spec

namespace Xdvdfs.Props

open Xdvdfs Spec

variable {b : Browser} {t : Tool} {fs : HostFs} {src dest : HostPath} {img : Bytes} {S : SourceFs} {content : Path → Bytes}
variable {F D : Type} {text : Err → Str}

/-- C109, success, exactly.  When an image that was packed has been unpacked, the page shows the number of its entries, and
as done all of them but the empty files; the bar shows what part of the entries this is, rounded down.  So the bar is full if
and only if there are entries and none of them is an empty file. -/
theorem C109_exactly {es : List (UiEvent (UnpackMsg F D) F D)} {x : Picked F D} {s : UiSys (UnpackPage F D) (F × D)}
    {f : F} {d : D} (h : Happens unpackDef (es ++ [.choose x]) (.ok s)) (hj : s.jobs = [(f, d)])
    (hP : PackedFrom img S content) (hsrc : IsFile fs src img)
    (hself : ∀ p e, EntryIn S.readDir p e → src ≠ dest ++ p ++ [e.name])
    (hok : (browserUnpack b t fs src dest).reply = .ok ()) :
    ∃ all empties, AllEntries S.readDir all ∧ EmptyFiles S.readDir content empties ∧ (100 * all.length < 2 ^ 32 →
      ∃ s' v, Happens unpackDef (es ++ [.choose x] ++ webUnpackEvents text (browserUnpack b t fs src dest)) (.ok s') ∧
        Shows unpackDef s' v ∧ s'.page.stage = .finished ∧ v.error = none ∧ v.total.toNat = all.length ∧
        v.done.toNat + empties.length = all.length ∧
        v.percent.toNat = 100 * (all.length - empties.length) / all.length ∧
        (v.percent.toNat = 100 ↔ all ≠ [] ∧ empties = [])) := by
  obtain ⟨R, hR⟩ := exists_reported S.readDir content (packedFrom_unique hP)
  obtain ⟨all, h1, h2⟩ := unpacked_bar (text := text) h hj hP hsrc hself hok hR
  refine ⟨all, all.filter (fun q => !R q), h1, ⟨h1.1.filter _, fun q => ?_⟩, fun hsmall => ?_⟩
  · rw [List.mem_filter]
    constructor
    · rintro ⟨hq, hr⟩
      obtain ⟨p, e, he, rfl⟩ := (h1.2 q).1 hq
      have hn : ¬ (e.isDir = true ∨ content (p ++ [e.name]) ≠ []) := by
        rw [← hR p e he]
        intro k
        rw [k] at hr
        cases hr
      refine ⟨p, e, he, rfl, ?_, ?_⟩
      · cases hd : e.isDir with
        | true => exact absurd (.inl hd) hn
        | false => rfl
      · exact Classical.byContradiction fun k => hn (.inr k)
    · rintro ⟨p, e, he, rfl, hd, hc⟩
      refine ⟨(h1.2 _).2 ⟨p, e, he, rfl⟩, ?_⟩
      cases hr : R (p ++ [e.name]) with
      | false => rfl
      | true =>
        rcases (hR p e he).1 hr with k | k
        · rw [hd] at k; cases k
        · exact absurd hc k
  · obtain ⟨s', k1, k2, k3, k4⟩ := h2 hsmall
    have hcount : all.countP R + (all.filter (fun q => !R q)).length = all.length := by
      have := List.length_eq_countP_add_countP R (l := all)
      rw [← List.countP_eq_length_filter]
      simp only [Bool.not_eq_true, Bool.decide_eq_false] at this
      omega
    have hpc : (percent s'.page.progress s'.page.count).toNat =
        100 * (all.length - (all.filter (fun q => !R q)).length) / all.length := by
      have hp : s'.page.progress.toNat = all.length - (all.filter (fun q => !R q)).length := by rw [k3]; omega
      rw [← hp]
      unfold percent
      by_cases h0 : s'.page.count = 0
      · rw [if_neg (by simp [h0])]
        rw [h0] at k4
        rw [← k4]
        simp
      · rw [if_pos h0, UInt32.toNat_div, UInt32.toNat_mul, k4]
        have : (100 : UInt32).toNat = 100 := rfl
        rw [this, Nat.mod_eq_of_lt (by omega)]
    refine ⟨s', _, k1, rfl, k2, ?_, k4, ?_, hpc, ?_⟩
    · show s'.page.stage.errorText = none
      rw [k2]
      rfl
    · show s'.page.progress.toNat + _ = _
      rw [k3]
      exact hcount
    · show (percent s'.page.progress s'.page.count).toNat = 100 ↔ _
      rw [hpc]
      generalize hE : all.filter (fun q => !R q) = E at hcount
      constructor
      · intro hx
        have hne : all ≠ [] := by
          rintro rfl
          simp at hx
        refine ⟨hne, ?_⟩
        have hpos := List.length_pos_iff.2 hne
        have := Nat.div_mul_le_self (100 * (all.length - E.length)) all.length
        rw [hx] at this
        exact List.eq_nil_of_length_eq_zero (by omega)
      · rintro ⟨hne, rfl⟩
        have hpos := List.length_pos_iff.2 hne
        simp only [List.length_nil, Nat.sub_zero]
        exact Nat.mul_div_cancel _ hpos

/-- The hypotheses of `C109_exactly` hold for an image with one file in it, which is empty: the page shows that nothing is
done. -/
example : ∃ img n, PackedFrom img (flatFs [(['o'], [])]) (flatContent [(['o'], [])]) ∧
    ∀ t : Tool, n < t.wfuel → n < t.fuel → ∃ all empties, AllEntries (flatFs [(['o'], [])]).readDir all ∧
      EmptyFiles (flatFs [(['o'], [])]).readDir (flatContent [(['o'], [])]) empties ∧ [['o']] ∈ empties ∧
      (100 * all.length < 2 ^ 32 →
        ∃ s' v, Happens unpackDef (unpackSession.take 4 ++ webUnpackEvents (fun _ => ['e'])
          (browserUnpack (pairBrowser true) t (emptyFolderHost img) [['i']] [['d']])) (.ok s') ∧
          Shows unpackDef s' v ∧ v.percent.toNat ≠ 100) := by
  obtain ⟨s', hpk⟩ := flat_packs o_ok []
  have hP := single_from o_ok (by unfold HostName; decide) hpk
  have hsrc : IsFile (emptyFolderHost s'.dev.img) [['i']] s'.dev.img := rfl
  have hd := emptyFolderHost_empty s'.dev.img
  obtain ⟨n, hn⟩ := C108_succeeds (pairBrowser_grants true) hP hsrc (empty_room hsrc hd _)
  refine ⟨_, n, hP, fun t h1 h2 => ?_⟩
  obtain ⟨all, empties, k1, k2, k3⟩ := C109_exactly (F := Str) (D := Str) (text := fun _ => ['e'])
    (es := unpackSession.take 3) (x := .dir ['o'])
    (s := ⟨⟨.unpacking, none, some ['o'], 0, 0, none⟩, none, [(['i'], ['o'])]⟩) rfl rfl hP hsrc
    (fun p e _ => empty_self hsrc hd p e.name) (hn t h1 h2)
  have hm : [['o']] ∈ empties :=
    (k2.2 _).2 ⟨[], ⟨['o'], false, 0⟩, (flat_entries _ _).2 ⟨rfl, _, List.mem_singleton.2 rfl, rfl⟩, rfl, rfl, rfl⟩
  refine ⟨all, empties, k1, k2, hm, fun hs => ?_⟩
  obtain ⟨s', v, g1, g2, _, _, _, _, _, g8⟩ := k3 hs
  refine ⟨s', v, g1, g2, fun hx => ?_⟩
  rw [(g8.1 hx).2] at hm
  cases hm

end Xdvdfs.Props
