import Verif.Props.Repack

/-!
# Property C44: exactly which images can be repacked
-/

namespace Xdvdfs.Props

open Xdvdfs Spec TabWriter

/-- C44, exactly: an image packed from a representable source tree opens, and repacking it to a device
that works succeeds if and only if all names are made of characters below `U+0100`. -/
theorem C44_repack_iff {src : SourceFs} {content : Path → Bytes} (hb : Bounded src)
    (hf : FaithfulTo src content) {faults : Faults} {fuel : Nat} {img0 : Bytes} {s1 : PackState ImgFile}
    (h1 : createImage (fileEnv src faults) fuel ⟨⟨img0, []⟩, []⟩ = (.ok (), s1))
    {tree : List (Path × List FileEntry)} (ht : TreeOf src.readDir tree) (hF : Fits tree)
    (hS : ∀ x ∈ tree, StorableListing x.2) (hK : ∀ x ∈ tree, FewEntries x.2) :
    ∃ fs, ImgFs.new (fileDev s1.dev.img) = .ok (some fs) ∧
      ∀ copier wf fuel' s, CopierWorks (fileDev s1.dev.img) copier → ScanFuel src.readDir wf →
        tree.length ≤ fuel' →
        ((repackImage copier (fun _ => none) wf fuel' fs s).1 = .ok () ↔
          ∀ p e, EntryIn src.readDir p e → ∀ c ∈ e.name, c.toNat < 256) := by
  obtain ⟨fs, n1, n2⟩ := packed_same hb hf h1
  refine ⟨fs, n1, fun copier wf fuel' s hcop hwf hfu => ⟨fun hr p e he => ?_, fun hlat => ?_⟩⟩
  · refine Classical.byContradiction fun hw => ?_
    obtain ⟨e', he', k1, _⟩ := (n2 wf hwf).1.entry he
    exact C44_wide_name_fails n1 copier (fun _ => none) fuel' s he' (by rw [k1]; exact hw) () hr
  · obtain ⟨fs', m1, m2⟩ := C44_repack_succeeds_partial hb hf h1 ht hF hS hK (fun x hx e he => by
      obtain ⟨g1, g2⟩ := (ht.2 x.1 x.2).1 hx
      exact hlat x.1 e ⟨g1, x.2, g2, he⟩)
    rw [n1] at m1
    cases m1
    exact m2 copier wf fuel' s hcop hwf hfu

/-- Both sides occur: the image of a file named `€` cannot be repacked, that of a file named `é` can. -/
example : (∃ c ∈ ['€'], ¬ c.toNat < 256) ∧ (∀ c ∈ ['é'], c.toNat < 256) := by decide

theorem eacute_ok : FlatOk [(['é'], [1])] := by
  refine ⟨List.pairwise_singleton _ _, ?_, ?_, by decide⟩
  · intro x hx
    rw [List.mem_singleton] at hx
    subst hx
    refine ⟨by decide, ?_⟩
    intro c hc
    rw [List.mem_singleton] at hc
    subst hc
    exact ⟨0xe9, by decide⟩
  · intro x hx
    rw [List.mem_singleton] at hx
    subst hx
    decide

/-- The hypotheses are met by both. -/
example (files : List (Str × Bytes)) (h : files = [(['€'], [1])] ∨ files = [(['é'], [1])]) : ∃ s1,
    Bounded (flatFs files) ∧ FaithfulTo (flatFs files) (flatContent files) ∧
    createImage (fileEnv (flatFs files) (fun _ => none)) 1 ⟨⟨[], []⟩, []⟩ = (.ok (), s1) ∧
    TreeOf (flatFs files).readDir (flatTree files) ∧ Fits (flatTree files) ∧
    (∀ x ∈ flatTree files, StorableListing x.2) ∧ (∀ x ∈ flatTree files, FewEntries x.2) ∧
    CopierWorks (fileDev s1.dev.img) (defaultCopier (fileDev s1.dev.img)) ∧ ScanFuel (flatFs files).readDir 2 := by
  have hok : FlatOk files := by
    rcases h with rfl | rfl
    · exact euro_ok
    · exact eacute_ok
  obtain ⟨s1, h1⟩ := flat_packs hok []
  refine ⟨s1, flat_bounded _, flat_faithful hok.distinct, h1, flat_tree _, flat_fits hok, flat_storable hok, flat_few hok,
    defaultCopier_works (fileDev_parts _), flat_scanFuel ?_⟩
  rcases h with rfl | rfl <;> decide

end Xdvdfs.Props
