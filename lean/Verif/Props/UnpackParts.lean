import Verif.Proof.UnpackParts
import Verif.Spec.UnpackParts
import Verif.Props.Unpack

/-!
# Properties C129, C130: unpacking on a host that fails, and into places that are not empty
-/

namespace Xdvdfs.Props

open Xdvdfs Spec

theorem dirOf_prefix {rd : Path → Res (List FileEntry)} {p : Path} (hp : DirOf rd p) : ∀ {q : Path}, q <+: p → DirOf rd q := by
  induction hp with
  | root => intro q hq; rw [List.prefix_nil.1 hq]; exact .root
  | sub hp hl he hd ih =>
    intro q hq
    rcases List.prefix_concat_iff.1 hq with e | e
    · rw [e]; exact .sub hp hl he hd
    · exact ih e

/-- The changes in terms of the tree. -/
theorem parts_of_changes {h : Host} {dest : Str} {r : RawImage} {tab : Region} {rd : Path → Res (List FileEntry)}
    {content : Path → Bytes} {listed : List (Str × DirEnt)} (hL : ListedTree r tab rd content listed) {fs fs' : HostFs}
    (hc : EntryChanges h dest r listed fs fs') : PartsOfTree h dest rd content fs fs' := by
  intro q
  rcases hc q with e | ⟨e1, e2, e3 | ⟨x, hx, pre, e3, e4, e5⟩ | ⟨x, hx, e3, e4⟩⟩ | ⟨e1, x, hx, e2, e3, b, e4, e5⟩
  · exact Or.inl e
  · exact Or.inr (Or.inl ⟨e1, e2, Or.inl e3⟩)
  · obtain ⟨p, e, he, g1, _⟩ := hL.source x hx
    rw [g1] at e3
    exact Or.inr (Or.inl ⟨e1, e2, Or.inr ⟨pre, dirOf_prefix he.1 e3, e5⟩⟩)
  · obtain ⟨p, e, he, g1, g2, g3, _⟩ := hL.source x hx
    refine Or.inr (Or.inl ⟨e1, e2, Or.inr ⟨p ++ [e.name], ?_, by rw [e4, entryRel, g1, g2]⟩⟩)
    obtain ⟨hp, l, hl, hel⟩ := he
    exact .sub hp hl hel (by rw [← g3]; exact e3)
  · obtain ⟨p, e, he, g1, g2, g3, _, g4⟩ := hL.source x hx
    have hf : e.isDir = false := by rw [← g3]; exact e2
    exact Or.inr (Or.inr ⟨e1, p, e, b, he, hf, by rw [e3, entryRel, g1, g2, List.append_assoc], e4, e5 _ (g4 hf)⟩)

/-- The listing of a packed image. -/
theorem packed_listed {fs : SourceFs} {content : Path → Bytes} (hb : Bounded fs)
    (hf : FaithfulTo fs content) {faults : Faults} {fuel : Nat} {img0 : Bytes} {s' : PackState ImgFile}
    (hpack : createImage (fileEnv fs faults) fuel ⟨⟨img0, []⟩, []⟩ = (.ok (), s'))
    (hnames : ∀ p e, EntryIn fs.readDir p e → HostName e.name) (clones : Bool) :
    ∃ (vol : VolDesc) (n : Nat) (listed : List (Str × DirEnt)), ListedTree ⟨s'.dev.img, 0, clones⟩ vol.root fs.readDir content listed ∧
      ∀ (h : Host) (dest : Str) (host : HostFs) (ufuel : Nat), n < ufuel →
        cmdUnpack h s'.dev.img clones dest ufuel host = copyoutLoop h ⟨s'.dev.img, 0, clones⟩ dest listed host := by
  obtain ⟨M, Loc, l0, hP⟩ := pack_packed hb hf hpack
  obtain ⟨vol, h1, _, _, _, h2⟩ := pack_success hb hf hpack
  have hag := offsetDev_zero (fileDev s'.dev.img)
  have hl : ListsFrom (RawImage.dev ⟨s'.dev.img, 0, clones⟩) vol.root fs.readDir content :=
    (ListsTree.from h2).agree hag
  obtain ⟨n, listed, g1, g2⟩ := listedTree (r := ⟨s'.dev.img, 0, clones⟩) hl hP.distinct hnames
  refine ⟨vol, n, listed, g2, fun h dest host ufuel hu => ?_⟩
  unfold cmdUnpack
  rw [offsetNew_zero h1]
  simp only
  rw [hag.readVolume, h1]
  simp only [copyoutDirectory]
  rw [g1 ufuel hu]

/-! ## C129 -/

/-- C129: whatever the host refuses and wherever a write stops, and whatever the destination contains, unpacking a
packed image changes nothing but this: it creates directories of the tree and files of the tree with a part of their
content; and if it reports success, the whole tree is there. -/
theorem C129_unpack_failing_host {fs : SourceFs} {content : Path → Bytes} (hb : Bounded fs)
    (hf : FaithfulTo fs content) {faults : Faults} {fuel : Nat} {img0 : Bytes} {s' : PackState ImgFile}
    (hpack : createImage (fileEnv fs faults) fuel ⟨⟨img0, []⟩, []⟩ = (.ok (), s'))
    (hnames : ∀ p e, EntryIn fs.readDir p e → HostName e.name) (clones : Bool) :
    ∃ n, ∀ (h : Host) (dest : Str) (host : HostFs) (ufuel : Nat) (res : Res Unit) (host' : HostFs), n < ufuel →
      cmdUnpack h s'.dev.img clones dest ufuel host = (res, host') →
      PartsOfTree h dest fs.readDir content host host' ∧
      (res = .ok () → HasTree host' (placeOf h dest) fs.readDir content) := by
  obtain ⟨vol, n, listed, hL, hrun⟩ := packed_listed hb hf hpack hnames clones
  refine ⟨n, fun h dest host ufuel res host' hu hr => ?_⟩
  rw [hrun h dest host ufuel hu] at hr
  obtain ⟨h1, h2⟩ := copyoutLoop_parts listed host hr (fun x hx => ⟨hL.entry x hx, (hL.source x hx).choose_spec.choose_spec.2.2.2.2.1⟩)
  refine ⟨parts_of_changes hL h1, fun hok p e he => ?_⟩
  obtain ⟨x, hx, g1, g2, g3⟩ := hL.all p e he
  have hrel : entryRel x = p ++ [e.name] := by rw [entryRel, g1, g2]
  have := h2 hok hL.places x hx
  rw [hrel, ← List.append_assoc] at this
  rw [g3] at this
  split at this
  · next hd => rw [if_pos hd]; exact this
  · next hd =>
    rw [if_neg hd]
    obtain ⟨p', e', he', k1, k2, k3, _, k4⟩ := hL.source x hx
    obtain ⟨b, b1, b2⟩ := this
    rw [k4 (by rw [← k3, g3]; simpa using hd)] at b1
    rw [b2]
    cases b1
    rw [← k1, ← k2, g1, g2]

/-! ## C130 -/

theorem _root_.Xdvdfs.ListedTree.free_iff {h : Host} {dest : Str} {r : RawImage} {tab : Region} {rd : Path → Res (List FileEntry)}
    {content : Path → Bytes} {listed : List (Str × DirEnt)} (hL : ListedTree r tab rd content listed) {fs : HostFs} :
    (∀ x ∈ listed, FreeFor h dest fs x) ↔ RoomForTree fs (placeOf h dest) rd := by
  constructor
  · intro hx p e he
    obtain ⟨x, hm, g1, g2, g3⟩ := hL.all p e he
    have := hx x hm
    unfold FreeFor at this
    rw [g3, entryRel, g1, g2, ← List.append_assoc] at this
    exact this
  · intro hR x hx
    obtain ⟨p, e, he, g1, g2, g3, _⟩ := hL.source x hx
    have := hR p e he
    unfold FreeFor
    rw [g3, entryRel, g1, g2, ← List.append_assoc]
    exact this

/-- C130: unpacking a packed image succeeds only where nothing stands in the way of the tree. -/
theorem C130_success_needs_room {fs : SourceFs} {content : Path → Bytes} (hb : Bounded fs)
    (hf : FaithfulTo fs content) {faults : Faults} {fuel : Nat} {img0 : Bytes} {s' : PackState ImgFile}
    (hpack : createImage (fileEnv fs faults) fuel ⟨⟨img0, []⟩, []⟩ = (.ok (), s'))
    (hnames : ∀ p e, EntryIn fs.readDir p e → HostName e.name) (clones : Bool) :
    ∃ n, ∀ (h : Host) (dest : Str) (host : HostFs) (ufuel : Nat), n < ufuel →
      (cmdUnpack h s'.dev.img clones dest ufuel host).1 = .ok () → RoomForTree host (placeOf h dest) fs.readDir := by
  obtain ⟨vol, n, listed, hL, hrun⟩ := packed_listed hb hf hpack hnames clones
  refine ⟨n, fun h dest host ufuel hu hr => ?_⟩
  rcases hcu : cmdUnpack h s'.dev.img clones dest ufuel host with ⟨res, host'⟩
  rw [hcu] at hr
  simp only at hr
  subst hr
  rw [hrun h dest host ufuel hu] at hcu
  exact hL.free_iff.1 (copyoutLoop_free listed host hcu (fun x hx =>
    ⟨hL.entry x hx, (hL.source x hx).choose_spec.choose_spec.2.2.2.2.1⟩))

/-- C130: unpacking a packed image into a place that can be reached succeeds exactly when nothing stands in the way of
the tree.  Then the whole tree is there, files of the tree have been replaced, and all other files have been kept.
Missing for the full property: places that contain a directory of the tree. -/
theorem C130_unpack_over_existing_partial {fs : SourceFs} {content : Path → Bytes} (hb : Bounded fs)
    (hf : FaithfulTo fs content) {faults : Faults} {fuel : Nat} {img0 : Bytes} {s' : PackState ImgFile}
    (hpack : createImage (fileEnv fs faults) fuel ⟨⟨img0, []⟩, []⟩ = (.ok (), s'))
    (hnames : ∀ p e, EntryIn fs.readDir p e → HostName e.name) (clones : Bool) :
    ∃ n, ∀ (h : Host) (dest : Str) (host : HostFs) (ufuel : Nat), n < ufuel → (∀ p, h.faults p = .none) →
      ClearWay h dest host →
      ((cmdUnpack h s'.dev.img clones dest ufuel host).1 = .ok () ↔ RoomForTree host (placeOf h dest) fs.readDir) ∧
      (RoomForTree host (placeOf h dest) fs.readDir →
        HasTree (cmdUnpack h s'.dev.img clones dest ufuel host).2 (placeOf h dest) fs.readDir content ∧
        PartsOfTree h dest fs.readDir content host (cmdUnpack h s'.dev.img clones dest ufuel host).2) := by
  obtain ⟨n1, hC⟩ := C129_unpack_failing_host hb hf hpack hnames clones
  obtain ⟨n2, hD⟩ := C130_success_needs_room hb hf hpack hnames clones
  obtain ⟨vol, n, listed, hL, hrun⟩ := packed_listed hb hf hpack hnames clones
  refine ⟨max n (max n1 n2), fun h dest host ufuel hu hfaults hway => ?_⟩
  have hlen : ∀ x ∈ listed, x.2.node.dirent.nameLen ≠ 0 := fun x hx =>
    (hL.source x hx).choose_spec.choose_spec.2.2.2.2.1
  have hok : RoomForTree host (placeOf h dest) fs.readDir →
      (cmdUnpack h s'.dev.img clones dest ufuel host).1 = .ok () := by
    intro hR
    rw [hrun h dest host ufuel (by omega)]
    let nodeOf : Str × DirEnt → HostNode := fun x =>
      if x.2.node.dirent.isDirectory then .dir else .file (content (entryRel x))
    have hnode : ∀ x ∈ listed, if x.2.node.dirent.isDirectory then nodeOf x = .dir
        else x.2.node.dirent.nameLen ≠ 0 ∧
          ∃ b, RawImage.extract ⟨s'.dev.img, 0, clones⟩ x.2.node.dirent = .ok b ∧ nodeOf x = .file b := by
      intro x hx
      obtain ⟨p, e, he, h1, h2, h3, h4, h5⟩ := hL.source x hx
      by_cases hdir : x.2.node.dirent.isDirectory = true
      · rw [if_pos hdir]; exact if_pos hdir
      · rw [if_neg hdir]
        refine ⟨h4, content (entryRel x), ?_, if_neg hdir⟩
        rw [entryRel, h1, h2]
        exact h5 (by rw [← h3]; simpa using hdir)
    obtain ⟨fs', g, _⟩ := copyoutLoop_restores hfaults hway (r := ⟨s'.dev.img, 0, clones⟩) (nodeOf := nodeOf) listed [] host
      ⟨by simp, by simp, by simp, fun q _ _ => rfl⟩ (by simpa using hL.parents) (by simpa using hL.entry)
      (by simpa using hL.places) (by simpa using hL.free_iff.2 hR) (by simpa using hnode)
    rw [g]
  refine ⟨⟨hD h dest host ufuel (by omega), hok⟩, fun hR => ?_⟩
  obtain ⟨g1, g2⟩ := hC h dest host ufuel _ _ (by omega) rfl
  exact ⟨g2 (hok hR), g1⟩

/-- C130 is false: unpacking an image a second time into the same place, which then holds exactly the tree, fails when
the tree contains a directory. -/
theorem C130_unpack_again_false (img0 : Bytes) (clones : Bool) : ∃ s' n host',
    createImage (fileEnv sampleFs' (fun _ => none)) 2 ⟨⟨img0, []⟩, []⟩ = (.ok (), s') ∧
    TreeAt host' (placeOf sampleHost ['o', 'u', 't']) sampleFs'.readDir sampleContent ∧
    ∀ fuel, n < fuel → cmdUnpack sampleHost s'.dev.img clones ['o', 'u', 't'] fuel sampleHostFs = (.ok (), host') ∧
      (cmdUnpack sampleHost s'.dev.img clones ['o', 'u', 't'] fuel host').1 ≠ .ok () := by
  obtain ⟨s', h⟩ := sample_packs img0
  obtain ⟨n, host', h1, h2, _⟩ := C45_unpack_restores sample'_bounded sample'_faithful h sample_hostNames
    sampleHost (fun _ => rfl) ['o', 'u', 't'] sampleHostFs sample_fresh clones
  obtain ⟨n2, hD⟩ := C130_success_needs_room sample'_bounded sample'_faithful h sample_hostNames clones
  refine ⟨s', n + n2, host', h, h2, fun fuel hu => ⟨h1 fuel (by omega), fun hok => ?_⟩⟩
  have he : EntryIn sampleFs'.readDir [] ⟨['A'], true, 0⟩ := (sample_entries _ _).2 (.inl ⟨rfl, rfl⟩)
  have g1 := hD sampleHost ['o', 'u', 't'] host' fuel (by omega) hok _ _ he
  rw [if_pos rfl, h2.1 _ _ he rfl] at g1
  cases g1

/-- C129 on a host that stops every write after two bytes: whatever happens, what existed elsewhere is as it was. -/
theorem sample_parts (img0 : Bytes) (clones : Bool) : ∃ s' n,
    createImage (fileEnv sampleFs' (fun _ => none)) 2 ⟨⟨img0, []⟩, []⟩ = (.ok (), s') ∧
    ∀ fuel, n < fuel →
      (∀ q, q ≠ [['w'], ['o', 'u', 't'], ['A']] → q ≠ [['w'], ['o', 'u', 't'], ['A'], ['c']] →
        q ≠ [['w'], ['o', 'u', 't'], ['b', '.', 't', 'x', 't']] → sampleHostFs q ≠ none →
        (cmdUnpack { sampleHost with faults := fun _ => .cut 2 } s'.dev.img clones ['o', 'u', 't'] fuel sampleHostFs).2 q =
          sampleHostFs q) := by
  obtain ⟨s', h⟩ := sample_packs img0
  obtain ⟨n, hC⟩ := C129_unpack_failing_host sample'_bounded sample'_faithful h sample_hostNames clones
  refine ⟨s', n, h, fun fuel hu q q1 q2 q3 q4 => ?_⟩
  obtain ⟨g1, _⟩ := hC { sampleHost with faults := fun _ => .cut 2 } ['o', 'u', 't'] sampleHostFs fuel _ _ hu rfl
  rcases g1 q with e | ⟨e, _⟩ | ⟨_, p, e, b, he, _, e2, _⟩
  · exact e
  · exact absurd e q4
  · have hp : placeOf { sampleHost with faults := fun _ => .cut 2 } ['o', 'u', 't'] = [['w'], ['o', 'u', 't']] := by decide
    rw [hp] at e2
    rcases (sample_entries p e).1 he with ⟨rfl, rfl⟩ | ⟨rfl, rfl⟩ | ⟨rfl, rfl⟩
    · exact absurd e2 q1
    · exact absurd e2 q3
    · exact absurd e2 q2

/-- The hypotheses of C130 hold for a destination that contains an older `b.txt` and a file of the user: the first is
replaced, the second kept. -/
example (img0 : Bytes) (clones : Bool) : ∃ s' n, ∃ host' : Nat → HostFs,
    createImage (fileEnv sampleFs' (fun _ => none)) 2 ⟨⟨img0, []⟩, []⟩ = (.ok (), s') ∧
    ∀ fuel, n < fuel →
      let old := (sampleHostFs.set [['w'], ['o', 'u', 't'], ['b', '.', 't', 'x', 't']] (.file [9])).set
        [['w'], ['o', 'u', 't'], ['m', 'y']] (.file [8])
      cmdUnpack sampleHost s'.dev.img clones ['o', 'u', 't'] fuel old = (.ok (), host' fuel) ∧
      host' fuel [['w'], ['o', 'u', 't'], ['A'], ['c']] = some (.file [1, 2, 3]) ∧
      host' fuel [['w'], ['o', 'u', 't'], ['b', '.', 't', 'x', 't']] = some (.file (sampleContent [['b', '.', 't', 'x', 't']])) ∧
      host' fuel [['w'], ['o', 'u', 't'], ['m', 'y']] = some (.file [8]) := by
  obtain ⟨s', h⟩ := sample_packs img0
  obtain ⟨n, hC⟩ := C130_unpack_over_existing_partial sample'_bounded sample'_faithful h sample_hostNames clones
  refine ⟨s', n, fun fuel => (cmdUnpack sampleHost s'.dev.img clones ['o', 'u', 't'] fuel
    ((sampleHostFs.set [['w'], ['o', 'u', 't'], ['b', '.', 't', 'x', 't']] (.file [9])).set
        [['w'], ['o', 'u', 't'], ['m', 'y']] (.file [8]))).2, h, fun fuel hu => ?_⟩
  simp only
  have hp : placeOf sampleHost ['o', 'u', 't'] = [['w'], ['o', 'u', 't']] := by decide
  have hway : ClearWay sampleHost ['o', 'u', 't'] ((sampleHostFs.set [['w'], ['o', 'u', 't'], ['b', '.', 't', 'x', 't']] (.file [9])).set
        [['w'], ['o', 'u', 't'], ['m', 'y']] (.file [8])) := by
    refine ⟨by decide, by decide, by decide, ?_⟩
    rintro q ⟨k, rfl⟩
    right
    match k with
    | 0 => decide
    | k + 1 =>
      have : (hostComps ['o', 'u', 't']).take (k + 1) = [['o', 'u', 't']] := by
        rw [show hostComps ['o', 'u', 't'] = [['o', 'u', 't']] by decide]; simp
      rw [this]; decide
  have hroom : RoomForTree ((sampleHostFs.set [['w'], ['o', 'u', 't'], ['b', '.', 't', 'x', 't']] (.file [9])).set
        [['w'], ['o', 'u', 't'], ['m', 'y']] (.file [8])) (placeOf sampleHost ['o', 'u', 't']) sampleFs'.readDir := by
    rw [hp]
    intro p e he
    rcases (sample_entries p e).1 he with ⟨rfl, rfl⟩ | ⟨rfl, rfl⟩ | ⟨rfl, rfl⟩ <;> decide
  obtain ⟨g1, g2⟩ := hC sampleHost ['o', 'u', 't'] _ fuel hu (fun _ => rfl) hway
  obtain ⟨g3, g4⟩ := g2 hroom
  have g5 := g1.2 hroom
  rw [hp] at g3
  refine ⟨Prod.ext g5 rfl, g3 [['A']] ⟨['c'], false, 3⟩ ((sample_entries _ _).2 (.inr (.inr ⟨rfl, rfl⟩))),
    g3 [] ⟨['b', '.', 't', 'x', 't'], false, 5⟩ ((sample_entries _ _).2 (.inr (.inl ⟨rfl, rfl⟩))), ?_⟩
  rcases g4 [['w'], ['o', 'u', 't'], ['m', 'y']] with e | ⟨e, _⟩ | ⟨_, p, e, b, he, _, e2, _⟩
  · rw [e]; decide
  · exact absurd e (by decide)
  · rw [hp] at e2
    rcases (sample_entries p e).1 he with ⟨rfl, rfl⟩ | ⟨rfl, rfl⟩ | ⟨rfl, rfl⟩ <;> exact absurd e2 (by decide)

end Xdvdfs.Props
