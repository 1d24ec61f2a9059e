import Verif.Proof.Patch

/-!
# Images with other bytes between the parts of the tree
-/

namespace Xdvdfs

open Spec Props TabWriter

/-- What matters of an image that was packed over whatever was in the file before. -/
theorem pack_slack {fs : SourceFs} {faults : Faults} {fuel : Nat} {img0 : Bytes} {s : PackState ImgFile}
    {content : Path → Bytes} (hb : Bounded fs) (hf : FaithfulTo fs content)
    (h : createImage (fileEnv fs faults) fuel ⟨⟨img0, []⟩, []⟩ = (.ok (), s)) :
    ∃ D M rootW rootSize next recs n', PlanShape fs.readDir fs.pathToString D M rootW rootSize next recs n' [] ∧
      ∀ img', (∀ i b, (65536 ≤ i ∧ i < 67584) ∨ (∃ x ∈ (placedAll rootSize recs).map Props.placeOf, x.first ≤ i ∧ i < x.stop) →
          s.dev.img[i]? = some b → img'[i]? = some b) →
        HoldsTree (fileDev img') fs.readDir content ∧
        Packed fs content img' M (fun p l => (p, l) ∈ placedAll rootSize recs) (rootListing rootSize) := by
  obtain ⟨h1, h2⟩ := pack_end fs faults fuel img0 h
  cases h2 with
  | early h2 _ => exact absurd rfl h2
  | data _ h2 _ => exact absurd rfl h2
  | desc _ h2 _ _ _ => exact absurd rfl h2
  | @pad D M rootW rootSize next recs n' P hS hD hok htr hP hend =>
    have hat : ∀ w ∈ (planOps fs.pathToString D recs).flatMap (opWrites fs) ++
      [(32 * 2048, rootDesc 33 rootSize)], At s.dev.img w.1 w.2 := by
      rw [h1, htr]
      exact pad_at hS hb (torn_pad hP)
    refine ⟨D, M, rootW, rootSize, next, recs, n', hS, ?_⟩
    intro img' hi
    have hat' : ∀ w ∈ (planOps fs.pathToString D recs).flatMap (opWrites fs) ++
      [(32 * 2048, rootDesc 33 rootSize)], At img' w.1 w.2 := by
      intro w hw j hj
      have hb' := hat w hw j hj
      rw [List.getElem?_eq_getElem hj] at hb' ⊢
      refine hi _ _ ?_ hb'
      rcases List.mem_append.1 hw with hw | hw
      · obtain ⟨x, hx, k1, k2⟩ := write_in_place hS hb hw
        exact .inr ⟨x, hx, by omega, by omega⟩
      · rw [List.mem_singleton] at hw
        subst hw
        rw [rootDesc_length] at hj
        simp only
        left
        omega
    refine ⟨holdsTree_of_at hS hf hok hat', hS.img hf hok (im := img') (fun w hw => hat' w (by simp [hw])),
      hS.allDistinct, by simp [placedAll], rfl, ?_, ?_, ⟨_, (tables_ok hS.walked hS.tables).2.2.1,
        fun q => hS.walked.mem_iff q⟩⟩
    · refine readVolume_holds ?_
      have := (hat' (32 * 2048, rootDesc 33 rootSize) (by simp)).holds
      rw [Nat.mul_comm]
      exact this
    · intro p hp
      obtain ⟨x, hx, rfl⟩ := List.mem_map.1 ((hS.walked.mem_iff p).2 hp)
      exact ⟨x.2, hS.walked.readDir hx⟩

/-! ## Listings -/

theorem eq_of_names {l l' : List FileEntry} (hn : l.map FileEntry.name = l'.map FileEntry.name)
    (h : ∀ e ∈ l, ∀ e' ∈ l', e.name = e'.name → e = e') : l = l' := by
  have hl : l.length = l'.length := by simpa using congrArg List.length hn
  apply List.ext_getElem hl
  intro i h1 h2
  refine h _ (List.getElem_mem _) _ (List.getElem_mem _) ?_
  have : (l.map FileEntry.name)[i]? = (l'.map FileEntry.name)[i]? := by rw [hn]
  simpa [h1, h2] using this

/-- Two images that hold the tree at the same places list it in the same way. -/
theorem packed_listed_same {fs : SourceFs} {content : Path → Bytes} {img img' : Bytes} {M : PathMap TabWriter}
    {D : List (Path × List FileEntry)} {pts : Path → Str} {rootW : TabWriter} {rootSize next : Nat} {recs : List Rec}
    {n' : Nat} (hS : PlanShape fs.readDir pts D M rootW rootSize next recs n' [])
    (h : Packed fs content img M (fun p l => (p, l) ∈ placedAll rootSize recs) (rootListing rootSize))
    (h' : Packed fs content img' M (fun p l => (p, l) ∈ placedAll rootSize recs) (rootListing rootSize)) {wf wf' : Nat}
    (hwf : ScanFuel fs.readDir wf) (hwf' : ScanFuel fs.readDir wf') {p : Path} (hp : DirOf fs.readDir p) :
    imgReadDir (fileDev img) wf (regionOf (rootListing rootSize)) p =
      imgReadDir (fileDev img') wf' (regionOf (rootListing rootSize)) p := by
  obtain ⟨w, hw⟩ := Option.isSome_iff_exists.1 (((tables_ok hS.walked hS.tables).2.2.2 p).2 hp)
  obtain ⟨_, _, _, hbt⟩ := hS.tabs.built p w hw
  obtain ⟨t, ht, _⟩ := tab_of hbt
  obtain ⟨l, k1, k2⟩ := h.stored hS.tabs hwf hp hw ht
  obtain ⟨l', k1', k2'⟩ := h'.stored hS.tabs hwf' hp hw ht
  rw [k1, k1']
  congr 1
  obtain ⟨_, key⟩ := h.image.sameTree h.distinct h.root h.rootDir hwf h.listable
  obtain ⟨_, key'⟩ := h'.image.sameTree h'.distinct h'.root h'.rootDir hwf' h'.listable
  obtain ⟨_, ds, _, d2, _, d4⟩ := key p hp
  obtain ⟨_, ds', _, d2', _, d4'⟩ := key' p hp
  simp only [imgReadDir, d2, Res.ok_bind, Res.pure_eq] at k1
  simp only [imgReadDir, d2', Res.ok_bind, Res.pure_eq] at k1'
  cases k1
  cases k1'
  refine eq_of_names (k2.trans k2'.symm) ?_
  intro e he e' he' hn
  obtain ⟨d, hd, rfl⟩ := List.mem_map.1 he
  obtain ⟨d', hd', rfl⟩ := List.mem_map.1 he'
  have q := d4 d hd
  have q' := d4' d' hd'
  have hn' : d.nameStr = d'.nameStr := hn
  rw [← hn'] at q'
  have hs := nodup_fst_inj hS.paths_nodup q q'
  simp only [summary, Listing.mk.injEq] at hs
  simp only [fileEntryOf, FileEntry.mk.injEq]
  refine ⟨hn', hs.2.2.2, ?_⟩
  exact hs.2.2.1

theorem walked_agree {rd rd' : ReadDir} {ds : List Path} {D : List (Path × List FileEntry)} (h : Walked rd ds D)
    (hr : ∀ x ∈ D, rd x.1 = rd' x.1) : Walked rd' ds D := by
  induction h with
  | nil => exact .nil
  | cons k _ ih =>
    refine .cons ?_ (ih (fun x hx => hr x (List.mem_cons_of_mem _ hx)))
    rw [← hr _ List.mem_cons_self]
    exact k

end Xdvdfs
