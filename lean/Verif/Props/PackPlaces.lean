import Verif.Props.CliPaths

/-!
# C74 exactly, for the arguments as they are typed
-/

namespace Xdvdfs.Props

open Spec

/-- The output is a file in every state that can be seen. -/
theorem PackPlaces.seen_file {h : Host} {t : Tool} {read : HostFs → HostPath → SourceFs} {faults : Faults}
    {fs st : HostFs} {src : HostPath} {image : Str}
    (hs : st ∈ (packPathArg h t read faults fs src image).1 ∨ (packPathArg h t read faults fs src image).2 = .ok st) :
    ∃ out, packOpenArg h fs src image = .ok (out, fs.set out (.file [])) ∧ ∃ b, st = fs.set out (.file b) := by
  unfold packPathArg at hs
  split at hs
  · simp at hs
  · next node hnode =>
    split at hs
    · next out fs1 ho =>
      obtain ⟨_, _, _, h1, _⟩ := packOpenArg_ok ho
      refine ⟨out, h1 ▸ ho, ?_⟩
      have hset : ∀ b, fs1.set out (.file b) = fs.set out (.file b) := by
        intro b; rw [h1]; funext q; unfold HostFs.set; split <;> rfl
      have hfst : ∃ b, fs1 = fs.set out (.file b) := ⟨_, h1⟩
      split at hs
      all_goals
        simp only at hs
        split at hs
        all_goals
          simp only [List.mem_cons, List.not_mem_nil, or_false, Res.ok.injEq, reduceCtorEq] at hs
          first
          | (rcases hs with (rfl | rfl | rfl) | rfl <;> first | exact hfst | exact ⟨_, hset _⟩)
          | (rcases hs with rfl | rfl | rfl <;> first | exact hfst | exact ⟨_, hset _⟩)
    all_goals simp at hs

/-- C74, exactly, for an output that is given: at every moment from when the output is opened, whatever fails, the source
is as it was if and only if the output is not in it; and an output in the source is a file that did not exist, which is
the only thing that was added. -/
theorem C74_arguments_exactly (h : Host) (t : Tool) (read : HostFs → HostPath → SourceFs) (faults : Faults)
    {fs st : HostFs} (source image : Str)
    (hs : st ∈ (cmdPackArgs h t read faults fs source (some image)).1 ∨
      (cmdPackArgs h t read faults fs source (some image)).2 = .ok st) :
    ((∀ q, placeOf h source <+: q → st q = fs q) ↔ ¬ placeOf h source <+: placeOf h image) ∧
    (placeOf h source <+: placeOf h image → fs (placeOf h image) = none ∧
      (∃ b, IsFile st (placeOf h image) b) ∧ ∀ q, q ≠ placeOf h image → st q = fs q) := by
  unfold cmdPackArgs at hs
  cases hst : h.stat fs source with
  | none => rw [hst] at hs; simp at hs
  | some x =>
    obtain ⟨src, node⟩ := x
    obtain ⟨_, rfl, _⟩ := stat_some hst
    rw [hst] at hs
    obtain ⟨out, ho, b, rfl⟩ := PackPlaces.seen_file hs
    obtain ⟨rfl, _, _, _, h2, _⟩ := packOpenArg_ok ho
    have hnone : placeOf h source <+: placeOf h image → fs (placeOf h image) = none := fun hin =>
      Classical.byContradiction fun hne => h2 hne hin
    have hat : (fs.set (placeOf h image) (.file b)) (placeOf h image) = some (.file b) := by simp [HostFs.set]
    have hother : ∀ q, q ≠ placeOf h image → (fs.set (placeOf h image) (.file b)) q = fs q := fun q hq => by
      simp [HostFs.set, hq]
    refine ⟨⟨fun hk hin => ?_, fun hout q hq => hother q (fun he => hout (he ▸ hq))⟩, fun hin => ⟨hnone hin, ⟨b, hat⟩, hother⟩⟩
    have := hk _ hin
    rw [hat, hnone hin] at this
    cases this

/-- Both cases occur: `pack /s ../s/o` in the directory `/w`, see `C74_dotdot_false`, and `pack /s o`. -/
example : (∃ t st, (cmdPackArgs ⟨[['w']], fun _ => .none⟩ t (fun fs src => stdFs (listReader emptyDom fs) fs src)
      (fun _ => none) emptySource ['/', 's'] (some ['.', '.', '/', 's', '/', 'o'])).2 = .ok st) ∧
    placeOf ⟨[['w']], fun _ => .none⟩ ['/', 's'] <+: placeOf ⟨[['w']], fun _ => .none⟩ ['.', '.', '/', 's', '/', 'o'] ∧
    ¬ placeOf ⟨[['w']], fun _ => .none⟩ ['/', 's'] <+: placeOf ⟨[['w']], fun _ => .none⟩ ['o'] := by
  obtain ⟨t, st, _, _, k, _⟩ := C74_dotdot_false
  exact ⟨⟨t, st, k⟩, by decide, by decide⟩

end Xdvdfs.Props
