import Verif.Props.CompressArgs

/-!
# C91 for paths typed in any way
-/

namespace Xdvdfs.Props

open Spec

variable {h : Host} {t : Tool} {r : DirReader} {most : Path → (off n : Nat) → Nat} {c : Ciso} {fs fs' : HostFs}
  {source image name stem : Str} {src d : HostPath}

/-- C91 for an output outside of the source (partial), however the paths are typed, with dots or without, relative or
absolute.  Missing: an output in a directory at or below the source, see `C91_source_kept_false`, and a source that is
itself called like a part of the output.  Whatever the outcome, `compress` changes nothing at the source or below it. -/
theorem C91_output_outside_partial (hn : NumberedParts c) {n : HostNode} (hst : h.stat fs source = some (src, n))
    (ho : OutputAt h fs image name stem d) (hout : ¬ src <+: d)
    (hpart : ∀ b i, n = .file b → src ≠ d ++ [partFile stem (i + 1)]) {res}
    (hw : cmdCompressArgs h t r most c fs source (some image) = (res, fs')) :
    ∀ q, src <+: q → fs' q = fs q := by
  rcases cmdCompressArgs_changes hw with rfl | ⟨_, _, s, k1, k2, _, k4⟩
  · exact fun _ _ => rfl
  rw [hst] at k1; cases k1; cases k2
  intro q hq
  rcases k4 q with j | ⟨j1, _, i, j2⟩
  · exact j
  exfalso
  obtain ⟨dir, rfl, hname, hstem, hd⟩ := ho
  have hpf := partFile_name (stem_ok hname hstem) (i + 1)
  simp only [hn dir name stem i hd.1 hname hstem, place_append hd hpf] at j2
  rw [j2] at hq
  obtain ⟨rest, hrest⟩ := hq
  rcases List.eq_nil_or_concat rest with rfl | ⟨init, x, rfl⟩
  · rw [List.append_nil] at hrest
    cases n with
    | dir =>
      have := (stat_some hst).2.2
      rw [j2, ← hrest] at j1
      exact j1 this
    | file b => exact hpart b i rfl hrest
  · rw [List.concat_eq_append, ← List.append_assoc] at hrest
    exact hout ⟨init, (List.append_inj' hrest rfl).1⟩

/-- The hypotheses hold for `compress ../s o.cso` in the directory `/w`; the paths are not typed alike. -/
example : ∃ h : Host, h.stat emptySource ['.', '.', '/', 's'] = some ([['s']], .dir) ∧
    OutputAt h emptySource ['o', '.', 'c', 's', 'o'] ['o', '.', 'c', 's', 'o'] ['o'] [['w']] ∧
    ¬ ([['s']] : HostPath) <+: [['w']] := by
  refine ⟨⟨[['w']], fun _ => .none⟩, rfl, ⟨[], rfl, by unfold HostName; decide,
    .inl ⟨['c', 's', 'o'], rfl, by decide, by decide⟩, .inl rfl, by decide, .inl ⟨rfl, rfl⟩⟩, by decide⟩

/-- C91, exactly, for a directory that is compressed with success to an output that is new: the source is kept if and
only if the output is not in the source, however both are typed. -/
theorem C91_directory_exactly (hs : ∀ b, (r.split b).flatten = b) (hm : WholeReads most) (hc : CisoWorks c)
    (hn : NumberedParts c) (hst : h.stat fs source = some (src, .dir)) (ho : OutputAt h fs image name stem d)
    (hfresh : ∀ i, fs (d ++ [partFile stem (i + 1)]) = none)
    (hw : cmdCompressArgs h t r most c fs source (some image) = (.ok (), fs')) :
    (∀ q, src <+: q → fs' q = fs q) ↔ ¬ src <+: d := by
  refine ⟨fun hk hin => ?_, fun hout => C91_output_outside_partial hn hst ho hout (fun _ _ hb => by cases hb) hw⟩
  have hno : NoPartInSource fs src d stem := fun i x hx => by rw [hfresh i] at hx; cases hx
  obtain ⟨img, _, h2, _⟩ := C92_compressed_image hs hm hc hn hst ho hno hw
  obtain ⟨_, w2, _⟩ := hc (sectorsOf img) (fun s hs => sectorsOf_mem hs)
  have w3 : partsOf c img ≠ [] := w2
  obtain ⟨b, bs, hb⟩ := List.exists_cons_of_ne_nil w3
  have h3 := h2 0 b (by rw [hb]; rfl)
  rw [hk _ (hin.trans (List.prefix_append _ _)), hfresh 0] at h3
  cases h3

/-- Compressing `../s` in the directory `/s`, as in `C91_source_kept_false`, meets the hypotheses. -/
example : inS.stat emptySource ['.', '.', '/', 's'] = some ([['s']], .dir) ∧
    OutputAt inS emptySource ['s', '.', 'c', 's', 'o'] ['s', '.', 'c', 's', 'o'] ['s'] [['s']] ∧
    (∀ i, emptySource ([['s']] ++ [partFile ['s'] (i + 1)]) = none) ∧
    ∃ fs', cmdCompressArgs inS sampleTool (listReader emptyDom emptySource) wholeReads
      plainCiso emptySource ['.', '.', '/', 's'] (some ['s', '.', 'c', 's', 'o']) = (.ok (), fs') := by
  have hst : inS.stat emptySource ['.', '.', '/', 's'] = some ([['s']], .dir) := rfl
  refine ⟨hst, ⟨[], rfl, by unfold HostName; decide, .inl ⟨['c', 's', 'o'], rfl, by decide, by decide⟩, .inl rfl,
    by decide, .inl ⟨rfl, rfl⟩⟩, fun i => emptySource_deep (by simp), ?_⟩
  obtain ⟨fs', hw, _⟩ := C91_source_kept_false
  rw [(C94_default_output_partial (name := ['s']) hst ⟨[['.', '.']], rfl⟩ (by decide)).1 rfl] at hw
  exact ⟨fs', hw⟩

end Xdvdfs.Props
