import Verif.Proof.BrowserCompress
import Verif.Props.Browser

/-!
# C110: compressing in the browser
-/

namespace Xdvdfs.Props

open Xdvdfs Xdvdfs.Spec

variable {b : Browser} {t : Tool} {c : Ciso} {fs : HostFs} {p dest : HostPath} {stem : Str}

theorem named_part (hn : NumberedParts c) (hp : NamedAs p stem) (i : Nat) :
    c.partName (handleName p) i = partFile stem (i + 1) := by
  obtain ⟨d, name, rfl, h1, h2⟩ := hp
  have : handleName (d ++ [name]) = name := by simp [handleName]
  rw [this]
  exact hn [] name stem i (.inl rfl) h1 h2

theorem named_inj (hn : NumberedParts c) (hp : NamedAs p stem) (i j : Nat)
    (h : c.partName (handleName p) i = c.partName (handleName p) j) : i = j := by
  rw [named_part hn hp, named_part hn hp] at h
  have := partFile_inj h
  omega

theorem named_web (hn : NumberedParts c) (hp : NamedAs p stem) (i : Nat) :
    webName (c.partName (handleName p) i) = true := by
  rw [named_part hn hp]
  obtain ⟨d, name, rfl, h1, h2⟩ := hp
  exact webName_host (partFile_name (stem_ok h1 h2) _)

theorem browserCompress_folder (h : (browserCompress b t c fs (.folder p) dest).1 = .ok ()) :
    ∃ tree s, populate b fs t.fuel p = .ok tree ∧
      createImage (linearEnv (webFs b fs p tree).readDir (webFs b fs p tree).pathToString) t.fuel ⟨[], []⟩ = (.ok (), s) ∧
      browserCompress b t c fs (.folder p) dest =
        webEncodeLoop b c dest (handleName p) (fun fs => webBufCopy b fs p tree) s.dev (linLen s.dev / 2048) [] fs := by
  unfold browserCompress webFsNew at h ⊢
  simp only at h ⊢
  cases ht : populate b fs t.fuel p with
  | ok tree =>
    rw [ht] at h
    simp only at h ⊢
    rcases hs : createImage (linearEnv (webFs b fs p tree).readDir (webFs b fs p tree).pathToString) t.fuel ⟨[], []⟩ with
      ⟨res, s⟩
    rw [hs] at h
    cases res with
    | ok u => exact ⟨tree, s, rfl, hs, rfl⟩
    | _ => cases h
  | _ => rw [ht] at h; cases h

theorem browserCompress_image {img : Bytes} (hp : IsFile fs p img) (hr : b.noRead p = false) {base : Nat} {vol : VolDesc}
    (h1 : offsetNew (fileDev img) = .ok base) (h2 : readVolume (offsetDev (fileDev img) base) = .ok vol) {ifs' : ImgFs}
    {s : PackState SecMap}
    (h3 : repackLinear (defaultCopier (offsetDev (fileDev img) base)) t.wfuel t.fuel
      ⟨offsetDev (fileDev img) base, vol, Trie.empty⟩ ⟨[], []⟩ = (.ok ifs', s)) :
    browserCompress b t c fs (.image p) dest = webEncodeLoop b c dest (handleName p)
      (fun fs => imgBufCopy (defaultCopier (offsetDev (webDev b fs p) base)) ifs') s.dev (linLen s.dev / 2048) [] fs := by
  have hdev : webDev b fs p = fileDev img := webDev_file hp hr
  have hnew : ImgFs.new (offsetDev (fileDev img) base) = .ok (some ⟨offsetDev (fileDev img) base, vol, Trie.empty⟩) := by
    unfold ImgFs.new; rw [h2]
  unfold browserCompress
  simp only [hdev, h1, hnew, h3]

/-- Unless it is repacked, nothing is compressed. -/
theorem browserCompress_repacked {img : Bytes} (hp : IsFile fs p img) (hr : b.noRead p = false) {base : Nat}
    {vol : VolDesc} (h1 : offsetNew (fileDev img) = .ok base) (h2 : readVolume (offsetDev (fileDev img) base) = .ok vol)
    (h : (browserCompress b t c fs (.image p) dest).1 = .ok ()) :
    ∃ ifs' s, repackLinear (defaultCopier (offsetDev (fileDev img) base)) t.wfuel t.fuel
      ⟨offsetDev (fileDev img) base, vol, Trie.empty⟩ ⟨[], []⟩ = (.ok ifs', s) := by
  have hdev : webDev b fs p = fileDev img := webDev_file hp hr
  have hnew : ImgFs.new (offsetDev (fileDev img) base) = .ok (some ⟨offsetDev (fileDev img) base, vol, Trie.empty⟩) := by
    unfold ImgFs.new; rw [h2]
  unfold browserCompress at h
  simp only [hdev, h1, hnew] at h
  rcases hr : repackLinear (defaultCopier (offsetDev (fileDev img) base)) t.wfuel t.fuel
      ⟨offsetDev (fileDev img) base, vol, Trie.empty⟩ ⟨[], []⟩ with ⟨res, s⟩
  rw [hr] at h
  cases res with
  | ok ifs' => exact ⟨ifs', s, rfl⟩
  | _ => cases h

theorem browserCompress_readable (h : (browserCompress b t c fs (.image p) dest).1 = .ok ()) : b.noRead p = false := by
  cases hx : b.noRead p with
  | false => rfl
  | true =>
    unfold browserCompress at h
    simp only at h
    cases hb : offsetNew (webDev b fs p) with
    | ok base => exact absurd hb (web_unreadable hx base)
    | _ => rw [hb] at h; cases h

/-! ## C110: the parts -/

/-- **C110, folders.**  If the browser lists folders completely and compressing a folder succeeds, then the parts in the
chosen folder are those of an image of the folder as it was, and nothing else has changed.  The chosen folder may be the
folder itself, and the folder may hold parts of an earlier run. -/
theorem C110_folder (hc : CisoWorks c) (hnum : NumberedParts c) (hl : ListsAll b fs) (hw : WellFormedHost fs)
    (hn : ProperNames fs) (hdir : fs p = some .dir) (hnam : NamedAs p stem)
    (h : (browserCompress b t c fs (.folder p) dest).1 = .ok ()) :
    ∃ img, ImageOf img fs p ∧ img.length % 65536 = 0 ∧
      StoredParts (browserCompress b t c fs (.folder p) dest).2 dest stem (partsOf c img) ∧
      ∀ q, (∀ i, i < (partsOf c img).length → q ≠ partAt dest stem i) →
        (browserCompress b t c fs (.folder p) dest).2 q = fs q := by
  obtain ⟨tree, s, h1, h2, h3⟩ := browserCompress_folder h
  rw [h3] at h ⊢
  obtain ⟨s', g1⟩ := web_linear_packs h1 hdir h2
  obtain ⟨m, k1, _, _, k4⟩ := web_view h1 hdir g1
  rw [h2] at k1
  cases k1
  obtain ⟨img, v1, _, v3, v4⟩ := web_encode_stored (b := b) (dest := dest) hc (named_inj hnum hnam) webBufCopy_keeps
    (web_stable h1 hdir h2) h
  rw [k4] at v1
  cases v1
  refine ⟨s'.dev.img, web_imageOf hl hw hn h1 g1, (C35_length_multiple g1).2, ?_, ?_⟩
  · intro i x hx
    have := v3 i x hx
    rwa [named_part hnum hnam] at this
  · intro q hq
    refine v4 q fun i hi => ?_
    rw [named_part hnum hnam]
    exact hq i hi

/-- **C110, compared with the tool.**  If nothing is refused, no write fails and no part would replace a folder, then a
folder that the tool packs on a host that lists directories in the order of their names is compressed in the browser, too,
and the parts are those of the tool's image. -/
theorem C110_like_tool (hc : CisoWorks c) (hnum : NumberedParts c) (hl : ListsAll b fs) (hg : Grants b)
    {names : HostPath → List Str} (ho : InOrder fs names) (hdir : fs p = some .dir) (hd : Depth fs p t.fuel)
    (hnam : NamedAs p stem) (hdest : fs dest = some .dir) (hfree : ∀ i, fs (partAt dest stem i) ≠ some .dir)
    {img : Bytes} (hp : HostPacksTo t (listedAs names) fs p img) :
    (browserCompress b t c fs (.folder p) dest).1 = .ok () ∧
    StoredParts (browserCompress b t c fs (.folder p) dest).2 dest stem (partsOf c img) := by
  obtain ⟨s, h1, rfl⟩ := hp
  rw [← nameOrder_eq hl ho] at h1
  obtain ⟨tree, ht⟩ := populate_total (b := b) (fs := fs) (root := p) (fun q _ => (hg.1 _).1)
    (fun d n hm => (hl d n).1 hm) t.fuel (p := []) (by simp [hdir]) (fun q hq => hd q (by simpa using hq))
  rw [List.append_nil] at ht
  obtain ⟨s1, h2, h3⟩ := web_tool_pack ht hdir (fun q d _ => (hg.1 _).2.1) h1
  obtain ⟨m, k1, k2, k3, k4⟩ := web_view ht hdir h2
  have hrun : browserCompress b t c fs (.folder p) dest =
      webEncodeLoop b c dest (handleName p) (fun fs => webBufCopy b fs p tree) m (linLen m / 2048) [] fs := by
    unfold browserCompress webFsNew
    simp only [ht, k1]
  have hst := web_stable (c := c) (dest := dest) (name := handleName p) ht hdir k1
  have hok : (browserCompress b t c fs (.folder p) dest).1 = .ok () := by
    rw [hrun]
    refine webEncodeLoop_works hg (named_web hnum hnam) hst hdest (fun j => ?_) _ [] (.refl _ _) ?_
    · rw [named_part hnum hnam]; exact hfree j
    · intro k _ hk
      simp only [List.length_nil, Nat.zero_add] at hk
      exact ⟨_, k3 k (by rw [← k2]; omega)⟩
  refine ⟨hok, ?_⟩
  rw [hrun] at hok ⊢
  obtain ⟨img, v1, _, v3, _⟩ := web_encode_stored (b := b) (dest := dest) hc (named_inj hnum hnam) webBufCopy_keeps hst hok
  rw [k4] at v1
  cases v1
  rw [← h3]
  intro i x hx
  have := v3 i x hx
  rwa [named_part hnum hnam] at this

/-- C110 is false: an image with a file that is not empty and smaller than a sector is never compressed. -/
theorem C110_small_file_false {img : Bytes} (hp : IsFile fs p img)
    {tree : Path → Res (List FileEntry)} {content : Path → Bytes} (hi : ImageHolds img t.wfuel tree content)
    {q : Path} {e : FileEntry} (he : EntryIn tree q e) (hd : e.isDir = false) (h0 : 0 < e.len) (h1 : e.len < 2048) :
    (browserCompress b t c fs (.image p) dest).1 ≠ .ok () := by
  intro h
  have hr := browserCompress_readable h
  obtain ⟨base, vol, i1, i2, rfl, i4⟩ := hi
  have hnew : ImgFs.new (offsetDev (fileDev img) base) = .ok (some ⟨offsetDev (fileDev img) base, vol, Trie.empty⟩) := by
    unfold ImgFs.new; rw [i2]
  obtain ⟨ifs', ⟨m, log⟩, h3⟩ := browserCompress_repacked hp hr i1 i2 h
  rw [browserCompress_image hp hr i1 i2 h3] at h
  obtain ⟨k, k1, k2⟩ := C40_small_file_panics hnew i4 he hd h0 h1 h3
  obtain ⟨rest, j1, j2, _⟩ := webEncodeLoop_ok (web_image_stable hp) _ _ (.refl _ _) h
  have := j2 k rest[k] (List.getElem?_eq_getElem (by simp only at j1 k1 ⊢; omega))
  simp only [List.length_nil, Nat.zero_add, webDev_file hp hr] at this
  rw [k2] at this
  cases this

/-- C110 is false: an image that ends within the last sector of one of its files is never compressed. -/
theorem C110_cut_file_false {img : Bytes} (hp : IsFile fs p img) (h64 : img.length < 2 ^ 64)
    {tree : Path → Res (List FileEntry)} {content : Path → Bytes} (hi : ImageHolds img t.wfuel tree content)
    (hcut : ¬ FileSectorsIn img t.wfuel) : (browserCompress b t c fs (.image p) dest).1 ≠ .ok () := by
  intro h
  have hr := browserCompress_readable h
  obtain ⟨base, vol, i1, i2, rfl, i4⟩ := hi
  have hnew : ImgFs.new (offsetDev (fileDev img) base) = .ok (some ⟨offsetDev (fileDev img) base, vol, Trie.empty⟩) := by
    unfold ImgFs.new; rw [i2]
  have hcut' : ¬ CompleteSectors (offsetDev (fileDev img) base) t.wfuel vol.root := by
    intro hx
    refine hcut fun base' vol' k1 k2 => ?_
    rw [i1] at k1; cases k1
    rw [i2] at k2; cases k2
    exact hx
  obtain ⟨ifs', ⟨m, log⟩, h3⟩ := browserCompress_repacked hp hr i1 i2 h
  rw [browserCompress_image hp hr i1 i2 h3] at h
  obtain ⟨k, k1, k2⟩ := C40_cut_file_false hnew (offsetDev_parts h64 base) (offsetDev_joins (fileDev_joins img) base) i4
    hcut' h3
  obtain ⟨rest, j1, j2, _⟩ := webEncodeLoop_ok (web_image_stable hp) _ _ (.refl _ _) h
  have := j2 k rest[k] (List.getElem?_eq_getElem (by simp only at j1 k1 ⊢; omega))
  simp only [List.length_nil, Nat.zero_add, webDev_file hp hr] at this
  exact k2 _ this

/-- The hypotheses of `C110_cut_file_false` hold for the image `cutImage`, whose file can be read. -/
example (b : Browser) (c : Ciso) (dest : HostPath) :
    (browserCompress b ⟨fun _ _ => false, fun b => [b], 2, 9⟩ c (oneImage cutImage) (.image [['i']]) dest).1 ≠ .ok () :=
  C110_cut_file_false (img := cutImage) rfl (by rw [cut_length]; decide) cut_holds cut_notIn

/-- C110 for images whose files are empty, or at least a sector long and in the image to the end of their last sector
(partial).  Missing: smaller files, see `C110_small_file_false`, and images that end within the last sector of a file, see
`C110_cut_file_false`.  If compressing such an image succeeds,
the parts hold an encoded image that holds the tree and the contents of the source; nothing else has changed. -/
theorem C110_image_partial (hc : CisoWorks c) (hnum : NumberedParts c) {img : Bytes} (hp : IsFile fs p img)
    (hnam : NamedAs p stem) (hsec : FileSectorsIn img t.wfuel) (h64 : img.length < 2 ^ 64)
    {tree : Path → Res (List FileEntry)} {content : Path → Bytes} (hi : ImageHolds img t.wfuel tree content)
    (hbig : ∀ q e, EntryIn tree q e → e.isDir = false → e.len = 0 ∨ 2048 ≤ e.len)
    (h : (browserCompress b t c fs (.image p) dest).1 = .ok ()) :
    ∃ out, HoldsTree (fileDev out) tree content ∧
      StoredParts (browserCompress b t c fs (.image p) dest).2 dest stem (partsOf c out) ∧
      ∀ q, (∀ i, i < (partsOf c out).length → q ≠ partAt dest stem i) →
        (browserCompress b t c fs (.image p) dest).2 q = fs q := by
  have hr := browserCompress_readable h
  obtain ⟨base, vol, i1, i2, rfl, i4⟩ := hi
  have hnew : ImgFs.new (offsetDev (fileDev img) base) = .ok (some ⟨offsetDev (fileDev img) base, vol, Trie.empty⟩) := by
    unfold ImgFs.new; rw [i2]
  obtain ⟨ifs', ⟨m, log⟩, h3⟩ := browserCompress_repacked hp hr i1 i2 h
  rw [browserCompress_image hp hr i1 i2 h3] at h ⊢
  obtain ⟨out, v1, v2⟩ := C40_compress_from_image_partial hnew (offsetDev_parts h64 base)
    (hsec _ _ i1 i2) i4 hbig h3
  obtain ⟨out', j1, _, j3, j4⟩ := web_encode_stored (b := b) (dest := dest) hc (named_inj hnum hnam)
    (imgBufCopy_keeps _ _) (web_image_stable hp) h
  simp only [webDev_file hp hr] at j1
  rw [v1] at j1
  cases j1
  refine ⟨out, v2, ?_, ?_⟩
  · intro i x hx
    have := j3 i x hx
    rwa [named_part hnum hnam] at this
  · intro q hq
    refine j4 q fun i hi => ?_
    rw [named_part hnum hnam]
    exact hq i hi

/-- C110, success (partial): such an image is compressed, if its names and tables can be written again, nothing is
refused, no write fails and no part would replace a folder. -/
theorem C110_image_succeeds_partial (hnum : NumberedParts c) (hg : Grants b) {img : Bytes} (hp : IsFile fs p img)
    (hnam : NamedAs p stem) (hdest : fs dest = some .dir) (hfree : ∀ i, fs (partAt dest stem i) ≠ some .dir)
    (hsec : FileSectorsIn img t.wfuel) (h64 : img.length < 2 ^ 64)
    {tree : Path → Res (List FileEntry)} {content : Path → Bytes} (hi : ImageHolds img t.wfuel tree content)
    (hbig : ∀ q e, EntryIn tree q e → e.isDir = false → e.len = 0 ∨ 2048 ≤ e.len)
    {all : List (Path × List FileEntry)} (hL : Listable tree) (ht : TreeOf tree all) (hF : Fits all)
    (hS : ∀ x ∈ all, StorableListing x.2) (hK : ∀ x ∈ all, TableWithin256K x.2)
    (hlat : ∀ x ∈ all, ∀ e ∈ x.2, Latin1 e.name) (hfu : all.length ≤ t.fuel) :
    (browserCompress b t c fs (.image p) dest).1 = .ok () := by
  have hr := (hg.1 p).2.1
  obtain ⟨base, vol, i1, i2, rfl, i4⟩ := hi
  have hnew : ImgFs.new (offsetDev (fileDev img) base) = .ok (some ⟨offsetDev (fileDev img) base, vol, Trie.empty⟩) := by
    unfold ImgFs.new; rw [i2]
  obtain ⟨ifs', m, log, h3⟩ := repackLinear_works (copier := defaultCopier (offsetDev (fileDev img) base)) (wf := t.wfuel)
    (fs := ⟨offsetDev (fileDev img) base, vol, Trie.empty⟩) rfl hL ht hF hS hK hlat hfu
  obtain ⟨out, v1, _⟩ := C40_compress_from_image_partial hnew (offsetDev_parts h64 base)
    (hsec _ _ i1 i2) i4 hbig h3
  rw [browserCompress_image hp hr i1 i2 h3]
  refine webEncodeLoop_works hg (named_web hnum hnam) (web_image_stable hp) hdest (fun j => ?_) _ [] (.refl _ _) ?_
  · rw [named_part hnum hnam]; exact hfree j
  · intro k _ hk
    simp only [webDev_file hp hr]
    exact view_reads _ v1 k (by simpa using hk)

/-- C110, exactly: an image whose names and tables can be written again is compressed, if nothing is refused, no write
fails and no part would replace a folder, if and only if each of its files is empty, or is at least a sector long and in
the image to the end of its last sector. -/
theorem C110_image_iff (hnum : NumberedParts c) (hg : Grants b) {img : Bytes} (hp : IsFile fs p img)
    (hnam : NamedAs p stem) (hdest : fs dest = some .dir) (hfree : ∀ i, fs (partAt dest stem i) ≠ some .dir)
    (h64 : img.length < 2 ^ 64)
    {tree : Path → Res (List FileEntry)} {content : Path → Bytes} (hi : ImageHolds img t.wfuel tree content)
    {all : List (Path × List FileEntry)} (hL : Listable tree) (ht : TreeOf tree all) (hF : Fits all)
    (hS : ∀ x ∈ all, StorableListing x.2) (hK : ∀ x ∈ all, TableWithin256K x.2)
    (hlat : ∀ x ∈ all, ∀ e ∈ x.2, Latin1 e.name) (hfu : all.length ≤ t.fuel) :
    (browserCompress b t c fs (.image p) dest).1 = .ok () ↔
      FileSectorsIn img t.wfuel ∧ ∀ q e, EntryIn tree q e → e.isDir = false → e.len = 0 ∨ 2048 ≤ e.len := by
  constructor
  · intro h
    refine ⟨Classical.byContradiction fun hcut => ?_, fun q e he hd => Classical.byContradiction fun hbig => ?_⟩
    · exact C110_cut_file_false hp h64 hi hcut h
    · exact C110_small_file_false hp hi he hd (by omega) (by omega) h
  · rintro ⟨hsec, hbig⟩
    exact C110_image_succeeds_partial hnum hg hp hnam hdest hfree hsec h64 hi hbig hL ht hF hS hK hlat hfu

/-! ## C110: what happens otherwise -/

theorem browserCompress_before (b : Browser) (t : Tool) (c : Ciso) (fs : HostFs) (src : WebSource) (dest : HostPath) :
    ∃ p, (src = .folder p ∨ src = .image p) ∧
    ∃ fs1, Creates (fun q => ∃ j, q = dest ++ [c.partName (handleName p) j]) fs fs1 ∧
      ((browserCompress b t c fs src dest).2 = fs1 ∧ (browserCompress b t c fs src dest).1 ≠ .ok () ∨
       ∃ xs, browserCompress b t c fs src dest = webCloseParts b c dest (handleName p) 0 xs fs1 ∧
        ∀ j, j < xs.length → ∃ x, fs1 (dest ++ [c.partName (handleName p) j]) = some (.file x)) := by
  unfold browserCompress
  cases src with
  | folder p =>
    refine ⟨p, .inl rfl, ?_⟩
    simp only
    cases webFsNew b fs t.fuel p with
    | ok tree =>
      simp only
      rcases createImage (linearEnv (webFs b fs p tree).readDir (webFs b fs p tree).pathToString) t.fuel ⟨[], []⟩ with
        ⟨res, s⟩
      cases res with
      | ok u => exact webEncodeLoop_before _ _ _
      | _ => exact ⟨fs, .refl _ _, .inl ⟨rfl, nofun⟩⟩
    | _ => exact ⟨fs, .refl _ _, .inl ⟨rfl, nofun⟩⟩
  | image p =>
    refine ⟨p, .inr rfl, ?_⟩
    simp only
    cases offsetNew (webDev b fs p) with
    | ok base =>
      simp only
      cases ImgFs.new (offsetDev (webDev b fs p) base) with
      | ok x =>
        cases x with
        | some ifs =>
          simp only
          rcases repackLinear (defaultCopier (offsetDev (webDev b fs p) base)) t.wfuel t.fuel ifs ⟨[], []⟩ with ⟨res, s⟩
          cases res with
          | ok u => exact webEncodeLoop_before _ _ _
          | _ => exact ⟨fs, .refl _ _, .inl ⟨rfl, nofun⟩⟩
        | none => exact ⟨fs, .refl _ _, .inl ⟨rfl, nofun⟩⟩
      | _ => exact ⟨fs, .refl _ _, .inl ⟨rfl, nofun⟩⟩
    | _ => exact ⟨fs, .refl _ _, .inl ⟨rfl, nofun⟩⟩

/-- **C110, contained.**  However compressing ends, whatever the browser refuses and whichever write fails, nothing has
changed but files that are parts in the chosen folder, and no folder has become a file. -/
theorem C110_contained (hnum : NumberedParts c) {src : WebSource} (hs : src = .folder p ∨ src = .image p)
    (hnam : NamedAs p stem) (q : HostPath) :
    (browserCompress b t c fs src dest).2 q = fs q ∨
    (∃ i, q = partAt dest stem i) ∧ fs q ≠ some .dir ∧ ∃ x, IsFile (browserCompress b t c fs src dest).2 q x := by
  obtain ⟨p', hp', fs1, h1, h2⟩ := browserCompress_before b t c fs src dest
  obtain rfl : p' = p := by
    rcases hs with rfl | rfl <;> rcases hp' with h | h <;> cases h <;> rfl
  have hmade : fs1 q = fs q ∨ (∃ i, q = partAt dest stem i) ∧ fs q ≠ some .dir ∧ ∃ x, fs1 q = some (.file x) := by
    rcases h1 q with k | ⟨k1, k2, j, hj⟩
    · exact .inl k
    · exact .inr ⟨⟨j, by rw [hj, named_part hnum hnam]; rfl⟩, by rw [k1]; nofun, [], k2⟩
  rcases h2 with ⟨h2, _⟩ | ⟨xs, h2, h3⟩
  · rw [h2]; exact hmade
  · rw [h2]
    rcases webCloseParts_changes (b := b) (c := c) (dest := dest) (name := handleName p') xs 0 fs1 q with
      k | ⟨⟨j, _, j2, rfl⟩, x, k⟩
    · unfold IsFile
      rw [k]; exact hmade
    · refine .inr ⟨⟨j, by rw [named_part hnum hnam]; rfl⟩, ?_, x, k⟩
      intro hd
      obtain ⟨y, hy⟩ := h3 j (by omega)
      rw [h1.keeps hd] at hy
      cases hy

/-- C110 is all or nothing, for what was there before (partial).  Missing: after an error, new empty parts may be left
behind, see `C110_leftover_false`.  If compressing ends with an error, everything that was there is unchanged, parts of an
earlier run included, and what is new are empty parts. -/
theorem C110_error_partial (hnum : NumberedParts c) {src : WebSource} (hs : src = .folder p ∨ src = .image p)
    (hnam : NamedAs p stem) {e : Err} (h : (browserCompress b t c fs src dest).1 = .err e) (q : HostPath) :
    (browserCompress b t c fs src dest).2 q = fs q ∨
    (∃ i, q = partAt dest stem i) ∧ fs q = none ∧ IsFile (browserCompress b t c fs src dest).2 q [] := by
  obtain ⟨p', hp', fs1, h1, h2⟩ := browserCompress_before b t c fs src dest
  obtain rfl : p' = p := by
    rcases hs with rfl | rfl <;> rcases hp' with h | h <;> cases h <;> rfl
  rcases h2 with ⟨h2, _⟩ | ⟨xs, h2, _⟩
  · unfold IsFile
    rw [h2]
    rcases h1 q with k | ⟨k1, k2, j, hj⟩
    · exact .inl k
    · exact .inr ⟨⟨j, by rw [hj, named_part hnum hnam]; rfl⟩, k1, k2⟩
  · rw [h2] at h
    exact absurd h (webCloseParts_no_err _ _ _ _)

/-- **C110, all or nothing is false.**  When the device is full, compressing ends with an error, and an empty part is
left behind. -/
theorem C110_leftover_false : ∃ b fs, ListsAll b fs ∧
    (browserCompress b sampleTool plainCiso fs (.folder [['s']]) []).1 = .err .io ∧
    fs (partAt [] ['s'] 0) = none ∧
    IsFile (browserCompress b sampleTool plainCiso fs (.folder [['s']]) []).2 (partAt [] ['s'] 0) [] := by
  refine ⟨{ pairBrowser true with faults := fun _ => true }, pairHost, pairBrowser_lists true, ?_, ?_, ?_⟩
  · decide +kernel
  · decide +kernel
  · unfold IsFile; decide +kernel

/-! ## The hypotheses can be met -/

theorem pair_named : NamedAs [['s']] ['s'] := ⟨[], ['s'], rfl, by unfold HostName; decide, .inr ⟨rfl, by decide⟩⟩

theorem pair_free (d : HostPath) (i : Nat) : pairHost (partAt d ['s'] i) ≠ some .dir := by
  unfold partAt pairHost
  have : partFile ['s'] (i + 1) ≠ ['s'] := by simp [partFile]
  rw [if_neg]
  · split
    · nofun
    · split <;> nofun
  · rintro (h | h)
    · simp at h
    · have h' := congrArg List.getLast? h
      rw [List.getLast?_append] at h'
      simp only [List.getLast?_singleton, Option.some_or, Option.some.injEq] at h'
      exact this h'

/-- The hypotheses of `C110_folder` and `C110_like_tool` hold for a folder of two files, compressed into itself. -/
example (swap : Bool) : ∃ img, HostPacksTo sampleTool (listedAs (pairBrowser false).names) pairHost [['s']] img ∧
    (browserCompress (pairBrowser swap) sampleTool splitCiso pairHost (.folder [['s']]) [['s']]).1 = .ok () ∧
    StoredParts (browserCompress (pairBrowser swap) sampleTool splitCiso pairHost (.folder [['s']]) [['s']]).2 [['s']] ['s']
      (partsOf splitCiso img) := by
  obtain ⟨img, hp⟩ := flat_hostPacks (t := sampleTool) (r := listedAs (pairBrowser false).names) (fs := pairHost)
    (src := [['s']]) (pair_ok false) rfl (by decide)
  exact ⟨img, hp, C110_like_tool split_works split_numbered (pairBrowser_lists swap) (pairBrowser_grants swap) pair_inOrder
    rfl pair_depth pair_named rfl (pair_free _) hp⟩

/-- The hypotheses of `C110_small_file_false` hold for the image of the sample. -/
example : ∃ img, (∃ tree, ImageHolds img sampleTool.wfuel tree sampleContent) ∧
    ∀ b c dest, (browserCompress b sampleTool c (oneImage img) (.image [['i']]) dest).1 ≠ .ok () := by
  obtain ⟨s1, h1⟩ := sample_packs []
  obtain ⟨vol, k1, k2, k3⟩ := packed_open sample'_bounded sample'_faithful h1
  obtain ⟨k4, k5⟩ := k3 3 sample_scanFuel
  have hi : ImageHolds s1.dev.img sampleTool.wfuel _ sampleContent := ⟨0, vol, k1, k2, rfl, k5⟩
  refine ⟨s1.dev.img, ⟨_, hi⟩, fun b c dest => ?_⟩
  obtain ⟨e, he, e1, e2, e3⟩ := k4.entry ((sample_entries [['A']] ⟨['c'], false, 3⟩).2 (.inr (.inr ⟨rfl, rfl⟩)))
  have hl := e3 rfl
  exact C110_small_file_false (img := s1.dev.img) rfl hi he e2 (by rw [hl]; decide) (by rw [hl]; decide)

theorem one_named : NamedAs [['i']] ['i'] := ⟨[], ['i'], rfl, by unfold HostName; decide, .inr ⟨rfl, by decide⟩⟩

theorem one_free (img : Bytes) (i : Nat) : oneImage img (partAt [] ['i'] i) ≠ some .dir := by
  unfold oneImage partAt
  rw [if_neg (by simp), if_neg (by simp [partFile])]
  nofun

/-- The hypotheses of `C110_image_partial` and `C110_image_succeeds_partial` hold for the image of a directory with one
file of 2 KiB to 1 MiB; that it is shorter than 2^64 bytes is clear for a file. -/
example {x : Bytes} (hx : x.length < 2 ^ 20) (hx' : 2048 ≤ x.length) :
    ∃ s1, createImage (fileEnv (flatFs [(['b'], x)]) (fun _ => none)) 1 ⟨⟨[], []⟩, []⟩ = (.ok (), s1) ∧
    (s1.dev.img.length < 2 ^ 64 → ∃ img,
      (browserCompress (pairBrowser true) sampleTool splitCiso (oneImage s1.dev.img) (.image [['i']]) []).1 = .ok () ∧
      StoredParts (browserCompress (pairBrowser true) sampleTool splitCiso (oneImage s1.dev.img) (.image [['i']]) []).2
        [] ['i'] (partsOf splitCiso img)) := by
  have hok := big_ok hx
  obtain ⟨s1, h1⟩ := flat_packs hok []
  refine ⟨s1, h1, fun h64 => ?_⟩
  obtain ⟨vol, k1, k2, k3⟩ := packed_open (flat_bounded _) (flat_faithful hok.distinct) h1
  obtain ⟨hs, k5⟩ := k3 3 (flat_scanFuel (by simp))
  obtain ⟨M, Loc, l0, hP⟩ := pack_packed (flat_bounded _) (flat_faithful hok.distinct) h1
  obtain ⟨tree', t1, t2, t3, t4⟩ := hs.tree hP.listable (flat_tree _)
  have hi : ImageHolds s1.dev.img sampleTool.wfuel _ (flatContent [(['b'], x)]) := ⟨0, vol, k1, k2, rfl, k5⟩
  have hlen := (C35_length_multiple h1).2
  have hbig : ∀ q e, EntryIn (imgReadDir (offsetDev (fileDev s1.dev.img) 0) 3 vol.root) q e → e.isDir = false →
      e.len = 0 ∨ 2048 ≤ e.len := by
    intro q e he hd
    obtain ⟨e', he', j1, j2, j3⟩ := (hs.symm (flat_listable _)).entry he
    obtain ⟨_, y, hy, rfl⟩ := (flat_entries _ _).1 he'
    simp only [List.mem_singleton] at hy
    subst hy
    have := j3 hd
    simp only at this
    omega
  have hw := C110_image_succeeds_partial (b := pairBrowser true) (c := splitCiso) (t := sampleTool)
    (fs := oneImage s1.dev.img) (p := [['i']]) (dest := []) (img := s1.dev.img)
    split_numbered (pairBrowser_grants true) rfl one_named rfl (one_free _) (whole_sectorsIn (by omega) hi) h64 hi hbig (all := tree') (by
      intro p hp
      obtain ⟨l, h1⟩ := hP.listable p ((hs.dirs p).2 hp)
      obtain ⟨l', h2, _⟩ := hs.lists p l ((hs.dirs p).2 hp) h1
      exact ⟨l', h2⟩) t1 ⟨by rw [t3]; exact (flat_fits hok).1, by
        intro y hy
        obtain ⟨z, hz, hp⟩ := t4 y hy
        have := hp.length_eq
        simp only [List.length_map] at this
        rw [← this]
        exact (flat_fits hok).2 z hz⟩ (by
        intro y hy
        obtain ⟨z, hz, hp⟩ := t4 y hy
        exact sig_storable hp (flat_storable hok z hz)) (by
        intro y hy
        obtain ⟨z, hz, hp⟩ := t4 y hy
        exact few_within (sig_few hp (flat_few hok z hz))) (by
        intro y hy e he
        obtain ⟨z, hz, hp⟩ := t4 y hy
        obtain ⟨e', he', hn, _⟩ := sig_mem hp.symm he
        rw [← hn]
        simp only [flatTree, List.mem_singleton] at hz
        subst hz
        simp only [List.map_cons, List.map_nil, List.mem_singleton] at he'
        subst he'
        intro c hc
        simp only [List.mem_singleton] at hc
        subst hc
        decide) (by rw [t2]; simp [flatTree, sampleTool])
  obtain ⟨img, _, g2, _⟩ := C110_image_partial split_works split_numbered (img := s1.dev.img) (fs := oneImage s1.dev.img)
    (p := [['i']]) rfl one_named (whole_sectorsIn (by omega) hi) h64 hi
    hbig hw
  exact ⟨img, hw, g2⟩

end Xdvdfs.Props
