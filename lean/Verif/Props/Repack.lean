import Verif.Proof.LinearImg
import Verif.Props.Flat
import Verif.Proof.HandImg

/-! # C40, C44, C56, C64: an image as the source of a pack

`ImgFs.new dev = .ok (some fs)` opens the image on the device `dev`; `fs.vol.root` is its root
directory table.  `repackImage copier faults wf fuel fs` packs it into a file, `repackLinear` into the
sector map used for compression.  `wf` bounds the scan of each directory and `fuel` the number of
directories. -/

namespace Xdvdfs.Props

open TabWriter Spec

theorem new_spec {dev : Dev} {fs : ImgFs} (h : ImgFs.new dev = .ok (some fs)) :
    fs.dev = dev ∧ fs.cache = Trie.empty ∧ readVolume dev = .ok fs.vol := by
  unfold ImgFs.new at h
  cases hv : readVolume dev with
  | ok v => rw [hv] at h; simp only [Res.ok.injEq, Option.some.injEq] at h; subst h; exact ⟨rfl, rfl, rfl⟩
  | err e => rw [hv] at h; simp at h
  | panic => rw [hv] at h; simp at h
  | hang => rw [hv] at h; simp at h

/-! ## C56: chunked copying -/

theorem writeAt_writeAt (img : Bytes) (off : Nat) (c d : Bytes) :
    writeAt (writeAt img off c) (off + c.length) d = writeAt img off (c ++ d) := by
  apply List.ext_getElem?
  intro i
  rw [writeAt_get, writeAt_get, writeAt_get, writeAt_length]
  by_cases hc : c = []
  · subst hc; simp
  by_cases hd : d = []
  · subst hd; simp
  have hc' : 0 < c.length := List.length_pos_iff.2 hc
  have hd' : 0 < d.length := List.length_pos_iff.2 hd
  simp only [hc, hd, if_false, List.append_eq_nil_iff, false_and, List.length_append]
  by_cases h1 : i < off
  · simp only [if_pos h1, if_pos (show i < off + c.length by omega)]
    rw [if_pos (by omega)]
  · simp only [if_neg h1]
    by_cases h2 : i < off + c.length
    · simp only [if_pos h2, if_pos (show i < off + (c.length + d.length) by omega)]
      rw [if_pos (by omega), List.getElem?_append_left (by omega)]
    · simp only [if_neg h2]
      by_cases h3 : i < off + c.length + d.length
      · rw [if_pos h3, if_pos (by omega), List.getElem?_append_right (by omega)]
        congr 1; omega
      · rw [if_neg h3, if_neg (by omega)]

theorem writeChunks_flatten : ∀ (cs : List Bytes) (out : Nat) (f : ImgFile),
    (writeChunks (fun _ => none) out cs f).1 = .ok () ∧
    (writeChunks (fun _ => none) out cs f).2.img = writeAt f.img out cs.flatten := by
  intro cs
  induction cs with
  | nil => intro out f; exact ⟨rfl, by simp [writeChunks, writeAt]⟩
  | cons c cs ih =>
    intro out f
    obtain ⟨h1, h2⟩ := ih (out + c.length) ⟨writeAt f.img out c, f.trace ++ [(out, c)]⟩
    refine ⟨h1, ?_⟩
    show (writeChunks _ _ cs _).2.img = _
    rw [h2, List.flatten_cons, ← writeAt_writeAt]

/-- C56: copying a range that the source device can read succeeds with the number of bytes asked for,
puts exactly these bytes at the destination range, changes no other byte of the destination, and
extends the destination no further than the range; a gap before the range reads as zeros. -/
theorem C56_chunked_copy_exact {src : Dev} (hp : PartsReadable src) {inOff size : Nat} {b : Bytes}
    (h : src.read inOff size = .ok b) (outOff : Nat) (f : ImgFile) :
    ∃ f', copyRange (defaultCopier src) (fun _ => none) inOff outOff size f = (.ok size, f') ∧
      (∀ i, i < size → f'.img[outOff + i]? = b[i]?) ∧
      (∀ x, x < outOff ∨ outOff + size ≤ x → x < f.img.length → f'.img[x]? = f.img[x]?) ∧
      (∀ x, f.img.length ≤ x → x < outOff → x < f'.img.length → f'.img[x]? = some 0) ∧
      f'.img.length = if size = 0 then f.img.length else max f.img.length (outOff + size) := by
  obtain ⟨h1, h2⟩ := defaultCopier_ok hp h
  have hl := src.read_len _ _ _ h
  obtain ⟨w1, w2⟩ := writeChunks_flatten (defaultCopier src inOff size).1 outOff f
  rcases hw : writeChunks (fun _ => none) outOff (defaultCopier src inOff size).1 f with ⟨r, f'⟩
  rw [hw] at w1 w2
  simp only at w1 w2
  subst w1
  rw [h1] at w2
  have hb : b = [] ↔ size = 0 := by rw [← hl]; exact List.length_eq_zero_iff.symm
  refine ⟨f', by simp only [copyRange, hw, h2], ?_, ?_, ?_, ?_⟩
  · intro i hi
    rw [w2, writeAt_get, if_neg (by rw [hb]; omega), if_neg (by omega), if_pos (by omega)]
    congr 1; omega
  · intro x hx hx2
    rw [w2, writeAt_get]
    split
    · rfl
    · split
      · rfl
      · rw [if_neg (by omega)]
  · intro x h1 h2 h3
    rw [w2, writeAt_get]
    rw [w2, writeAt_length] at h3
    split
    · next he => rw [if_pos he] at h3; omega
    · rw [if_neg (by omega)]
  · rw [w2, writeAt_length, hl]
    simp only [hb]

/-- The hypothesis holds for every range of a file, and of a file behind an offset. -/
example (img : Bytes) (off n : Nat) (hn : off + n ≤ img.length) (out : Nat) (f : ImgFile) :
    ∃ f', copyRange (defaultCopier (fileDev img)) (fun _ => none) off out n f = (.ok n, f') ∧
      ∀ i, i < n → f'.img[out + i]? = img[off + i]? := by
  have hr : (fileDev img).read off n = .ok (slice img off n) := by
    rw [fileDev_read, fileRead]
    split
    · next h0 => simp [slice, h0]
    · rfl
  obtain ⟨f', h1, h2, _⟩ := C56_chunked_copy_exact (fileDev_parts img) hr out f
  refine ⟨f', h1, fun i hi => ?_⟩
  rw [h2 i hi]
  simp only [slice, List.getElem?_take, List.getElem?_drop, hi, if_true]

example (img : Bytes) (h : img.length < 2 ^ 64) : PartsReadable (offsetDev (fileDev img) 405798912) :=
  offsetDev_parts h _

theorem applyTrace_outside {lo hi : Nat} : ∀ {W : List (Nat × Bytes)} {img : Bytes} {x : Nat},
    (∀ w ∈ W, lo ≤ w.1 ∧ w.1 + w.2.length ≤ hi) → x < lo ∨ hi ≤ x → x < img.length →
    (applyTrace img W)[x]? = img[x]? := by
  intro W
  induction W with
  | nil => intro img x _ _ _; rfl
  | cons w W ih =>
    intro img x hW hx hl
    have hw := hW w List.mem_cons_self
    have hg : (writeAt img w.1 w.2)[x]? = img[x]? := by
      rw [writeAt_get]
      split
      · rfl
      · split
        · rfl
        · rw [if_neg (by omega)]
    have hl' : x < (writeAt img w.1 w.2).length := by
      rw [writeAt_length]; split
      · exact hl
      · omega
    show (applyTrace (writeAt img w.1 w.2) W)[x]? = _
    rw [ih (fun v hv => hW v (List.mem_cons_of_mem _ hv)) hx hl', hg]

/-- C56, failures: whatever fails during a copy, on either device, bytes of the destination outside
the range keep their values. -/
theorem C56_failed_copy_contained (src : Dev) (faults : Faults) (inOff outOff size : Nat) (f : ImgFile)
    {res : Res Nat} {f' : ImgFile}
    (h : copyRange (defaultCopier src) faults inOff outOff size f = (res, f')) (x : Nat)
    (hx : x < outOff ∨ outOff + size ≤ x) (hl : x < f.img.length) : f'.img[x]? = f.img[x]? := by
  have hlen : (defaultCopier src inOff size).1.flatten.length ≤ size := by
    simpa [defaultCopier] using chunkLoop_len src inOff size (size + 1) 0 (by omega)
  obtain ⟨W', _, h2, h3, _⟩ := writeChunks_spec faults (defaultCopier src inOff size).1 outOff f
  have hf' : f' = (writeChunks faults outOff (defaultCopier src inOff size).1 f).2 := by
    unfold copyRange at h
    rcases hw : writeChunks faults outOff (defaultCopier src inOff size).1 f with ⟨r, g⟩
    rw [hw] at h
    cases r <;> cases h <;> rfl
  rw [hf', h2]
  refine applyTrace_outside (lo := outOff) (hi := outOff + size) ?_ hx hl
  intro w hw
  obtain ⟨m, hm1, hm2⟩ := h3.mem hw
  have := chunksAt_range hm1
  simp only at this
  omega

example : (copyRange (defaultCopier (fileDev [1, 2, 3])) (fun _ => none) 1 2 5 ⟨[9, 9, 9], []⟩).1 = .err .io := by
  decide

theorem applyTrace_chunksAt : ∀ (cs : List Bytes) (out : Nat) (im : Bytes),
    applyTrace im (chunksAt out cs) = writeAt im out cs.flatten := by
  intro cs
  induction cs with
  | nil => intro out im; simp [chunksAt, applyTrace, writeAt]
  | cons c cs ih =>
    intro out im
    show applyTrace (writeAt im out c) (chunksAt (out + c.length) cs) = _
    rw [ih, List.flatten_cons, writeAt_writeAt]

/-- C56, success: a copy from a file that returns a number has copied the whole range. -/
theorem C56_success_is_complete {img : Bytes} {faults : Faults} {inOff outOff size : Nat} {f f' : ImgFile}
    {k : Nat} (h : copyRange (defaultCopier (fileDev img)) faults inOff outOff size f = (.ok k, f')) :
    k = size ∧ (size = 0 ∨ inOff + size ≤ img.length) ∧
      ∀ i, i < size → f'.img[outOff + i]? = img[inOff + i]? := by
  unfold copyRange at h
  obtain ⟨W', _, h2, h3, h4, _⟩ := writeChunks_spec faults (defaultCopier (fileDev img) inOff size).1 outOff f
  rcases hw : writeChunks faults outOff (defaultCopier (fileDev img) inOff size).1 f with ⟨r, g⟩
  rw [hw] at h h2 h4
  cases r with
  | ok u =>
    simp only [Prod.mk.injEq] at h
    obtain ⟨h5, rfl⟩ := h
    have hr := defaultCopier_file h5
    obtain ⟨d1, d2⟩ := defaultCopier_ok (fileDev_parts img) hr
    rw [d2] at h5
    have hs : size = 0 ∨ inOff + size ≤ img.length := by
      rw [fileDev_read, fileRead] at hr
      split at hr
      · left; assumption
      · split at hr
        · right; assumption
        · cases hr
    refine ⟨by simpa using h5.symm, hs, ?_⟩
    intro i hi
    simp only at h2 h4
    rw [h4 trivial] at h2
    have hwr : g.img = writeAt f.img outOff (slice img inOff size) := by
      rw [h2, applyTrace_chunksAt, d1]
    have hl : (slice img inOff size).length = size := slice_length _ _ _ (by omega)
    rw [hwr, writeAt_get, if_neg (by intro he; rw [he] at hl; simp at hl; omega), if_neg (by omega),
      if_pos (by omega)]
    simp only [slice, List.getElem?_take, List.getElem?_drop]
    rw [if_pos (by omega)]
    congr 1; omega
  | err e => cases h
  | panic => cases h
  | hang => cases h

example : ∃ f', copyRange (defaultCopier (fileDev [1, 2, 3, 4])) (fun _ => none) 1 2 3 ⟨[9, 9, 9], []⟩ = (.ok 3, f') ∧
    f'.img = [9, 9, 2, 3, 4] := ⟨_, rfl, by decide⟩

/-- C56, `std::io::copy`: the number returned by a copy between files is the number of bytes that
arrived; it is smaller than asked for exactly when the source ends before the end of the range, which
is not an error. -/
theorem C56_std_copy_count {img : Bytes} {base : Nat} {split : Bytes → List Bytes}
    (hs : ∀ b, (split b).flatten = b) {faults : Faults} {inOff outOff size : Nat} {f f' : ImgFile} {k : Nat}
    (h : copyRange (stdIoCopier img base split) faults inOff outOff size f = (.ok k, f')) :
    (k < size ↔ img.length < base + inOff + size ∧ 0 < size) ∧
      (0 < k → base + inOff + k ≤ img.length) ∧
      (∀ i, i < k → f'.img[outOff + i]? = img[base + inOff + i]?) ∧
      f'.img.length = if k = 0 then f.img.length else max f.img.length (outOff + k) := by
  unfold copyRange at h
  obtain ⟨W', _, h2, h3, h4, _⟩ := writeChunks_spec faults (stdIoCopier img base split inOff size).1 outOff f
  rcases hw : writeChunks faults outOff (stdIoCopier img base split inOff size).1 f with ⟨r, g⟩
  rw [hw] at h h2 h4
  cases r with
  | ok u =>
    simp only [stdIoCopier, Prod.mk.injEq, Res.ok.injEq] at h
    obtain ⟨hk, rfl⟩ := h
    simp only at h2 h4
    rw [h4 trivial, applyTrace_chunksAt] at h2
    simp only [stdIoCopier, hs] at h2
    have hl : (slice img (base + inOff) size).length = min size (img.length - (base + inOff)) := by
      simp [slice]
    have he : slice img (base + inOff) size = [] ↔ k = 0 := by
      rw [← hk]; exact List.length_eq_zero_iff.symm
    refine ⟨by omega, by omega, ?_, ?_⟩
    · intro i hi
      rw [h2, writeAt_get, if_neg (by rw [he]; omega), if_neg (by omega), if_pos (by omega)]
      simp only [slice, List.getElem?_take, List.getElem?_drop]
      rw [if_pos (by omega)]
      congr 1; omega
    · rw [h2, writeAt_length]
      by_cases h0 : k = 0
      · rw [if_pos h0, if_pos (he.2 h0)]
      · rw [if_neg h0, if_neg (fun hh => h0 (he.1 hh)), hk]
  | err e => cases h
  | panic => cases h
  | hang => cases h

/-- A copy past the end of the source: two of five bytes arrive, and two is what is returned. -/
example : ∃ f', copyRange (stdIoCopier [1, 2, 3] 0 (fun b => [b])) (fun _ => none) 1 2 5 ⟨[9, 9, 9], []⟩ = (.ok 2, f') ∧
    f'.img = [9, 9, 2, 3] := ⟨_, rfl, by decide⟩

/-! ## C44: repacking preserves the tree -/

/-- C44, any source image: if the files of an image can be read and repacking it succeeds, the new
image holds exactly the tree and the contents of the old one. -/
theorem C44_repack_preserves {dev : Dev} {fs : ImgFs} (hn : ImgFs.new dev = .ok (some fs)) {copier : Copier}
    (hcop : CopiesFrom dev copier) {wf : Nat} {content : Path → Bytes}
    (hcont : ImgContent dev wf fs.vol.root content) {faults : Faults} {fuel : Nat} {img0 : Bytes}
    {s' : PackState ImgFile}
    (h : repackImage copier faults wf fuel fs ⟨⟨img0, []⟩, []⟩ = (.ok (), s')) :
    HoldsTree (fileDev s'.dev.img) (imgReadDir dev wf fs.vol.root) content := by
  obtain ⟨rfl, h2, _⟩ := new_spec hn
  exact repack_success h2 hcop hcont h

/-- The copiers in use meet the condition: the chunked copier on files, also behind an offset, and
`std::io::copy`. -/
example (img : Bytes) : CopiesFrom (fileDev img) (defaultCopier (fileDev img)) :=
  defaultCopier_copies (fileDev_parts img)

example (img : Bytes) (h : img.length < 2 ^ 64) (base : Nat) :
    CopiesFrom (offsetDev (fileDev img) base) (defaultCopier (offsetDev (fileDev img) base)) :=
  defaultCopier_copies (offsetDev_parts h base)

example (img : Bytes) (base : Nat) :
    CopiesFrom (offsetDev (fileDev img) base) (stdIoCopier img base (fun b => [b.take 1, b.drop 1])) :=
  stdIoCopier_copies_offset (fun b => by simp [List.take_append_drop, -List.drop_one])

/-- C44, crash: an interrupted repack, whatever failed, leaves a file that does not open as a volume
or one that holds the complete tree of the source. -/
theorem C44_repack_crash {dev : Dev} {fs : ImgFs} (hn : ImgFs.new dev = .ok (some fs)) {copier : Copier}
    (hcop : CopiesFrom dev copier) {wf : Nat} {content : Path → Bytes}
    (hcont : ImgContent dev wf fs.vol.root content) {faults : Faults} {fuel : Nat}
    {s' : PackState ImgFile} {res : Res Unit}
    (h : repackImage copier faults wf fuel fs ⟨⟨[], []⟩, []⟩ = (res, s')) :
    (∀ v, readVolume (fileDev s'.dev.img) ≠ .ok v) ∨
    HoldsTree (fileDev s'.dev.img) (imgReadDir dev wf fs.vol.root) content := by
  obtain ⟨rfl, h2, _⟩ := new_spec hn
  exact repack_crash h2 hcop hcont h

theorem Packed.new {src : SourceFs} {content : Path → Bytes} {img : Bytes} {M : PathMap TabWriter}
    {Loc : Path → Listing → Prop} {l0 : Listing} (h : Packed src content img M Loc l0) :
    ImgFs.new (fileDev img) = .ok (some ⟨fileDev img, VolDesc.new (regionOf l0), Trie.empty⟩) := by
  unfold ImgFs.new
  rw [h.volume]

/-- C44: a source tree is packed to an image, and that image is repacked.  Then the image opens, and
the final image holds the original source tree with the original contents. -/
theorem C44_repack_of_packed {src : SourceFs} {content : Path → Bytes} (hb : Bounded src)
    (hf : FaithfulTo src content) {faults : Faults} {fuel : Nat} {img0 : Bytes} {s1 : PackState ImgFile}
    (h1 : createImage (fileEnv src faults) fuel ⟨⟨img0, []⟩, []⟩ = (.ok (), s1)) :
    ∃ fs, ImgFs.new (fileDev s1.dev.img) = .ok (some fs) ∧
      ∀ copier faults wf fuel img1 s2, CopiesFrom (fileDev s1.dev.img) copier → ScanFuel src.readDir wf →
        repackImage copier faults wf fuel fs ⟨⟨img1, []⟩, []⟩ = (.ok (), s2) →
        HoldsTree (fileDev s2.dev.img) src.readDir content := by
  obtain ⟨M, Loc, l0, hP⟩ := pack_packed hb hf h1
  refine ⟨_, Packed.new hP, ?_⟩
  intro copier faults wf fuel img1 s2 hcop hwf h2
  have hT := C44_repack_preserves (Packed.new hP) hcop (hP.content_eq hwf) h2
  obtain ⟨hs, _⟩ := hP.image.sameTree hP.distinct hP.root hP.rootDir hwf hP.listable
  obtain ⟨vol, _, _, _, _, all, a1, a2, _⟩ := pack_success hb hf h1
  exact HoldsTree.transfer hs hP.listable hP.distinct a1 a2 hT

/-- An image that holds a packed source: the same tree, and everything that makes it repackable. -/
theorem Packed.repackable {src : SourceFs} {content : Path → Bytes} {img : Bytes} {M : PathMap TabWriter}
    {Loc : Path → Listing → Prop} {l0 : Listing} (hP : Packed src content img M Loc l0)
    {tree : List (Path × List FileEntry)} (ht : TreeOf src.readDir tree) (hF : Fits tree)
    (hS : ∀ x ∈ tree, StorableListing x.2) (hK : ∀ x ∈ tree, FewEntries x.2)
    (hlat : ∀ x ∈ tree, ∀ e ∈ x.2, Latin1 e.name) :
    ∃ fs, ImgFs.new (fileDev img) = .ok (some fs) ∧ ∀ wf, ScanFuel src.readDir wf →
      SameTree src.readDir (imgReadDir (fileDev img) wf fs.vol.root) ∧
      ImgContent (fileDev img) wf fs.vol.root content ∧
      Listable (imgReadDir (fileDev img) wf fs.vol.root) ∧
      ∃ tree', TreeOf (imgReadDir (fileDev img) wf fs.vol.root) tree' ∧ tree'.length = tree.length ∧
        Fits tree' ∧ (∀ x ∈ tree', StorableListing x.2) ∧ (∀ x ∈ tree', TableWithin256K x.2) ∧
        ∀ x ∈ tree', ∀ e ∈ x.2, Latin1 e.name := by
  refine ⟨_, Packed.new hP, ?_⟩
  intro wf hwf
  obtain ⟨hs, hl⟩ := hP.image.sameTree hP.distinct hP.root hP.rootDir hwf hP.listable
  obtain ⟨tree', t1, t2, t3, t4⟩ := hs.tree hP.listable ht
  refine ⟨hs, hP.content_eq hwf, ?_, tree', t1, t2, ?_, ?_, ?_, ?_⟩
  · intro p hp
    obtain ⟨l, h1⟩ := hP.listable p ((hs.dirs p).2 hp)
    obtain ⟨l', h2, _⟩ := hs.lists p l ((hs.dirs p).2 hp) h1
    exact ⟨l', h2⟩
  · refine ⟨by rw [t3]; exact hF.1, ?_⟩
    intro x hx
    obtain ⟨y, hy, hp⟩ := t4 x hx
    have := hp.length_eq
    simp only [List.length_map] at this
    rw [← this]
    exact hF.2 y hy
  · intro x hx
    obtain ⟨y, hy, hp⟩ := t4 x hx
    exact sig_storable hp (hS y hy)
  · intro x hx
    obtain ⟨y, hy, hp⟩ := t4 x hx
    exact few_within (sig_few hp (hK y hy))
  · intro x hx e he
    obtain ⟨y, hy, hp⟩ := t4 x hx
    obtain ⟨e', he', hn, _⟩ := sig_mem hp.symm he
    rw [← hn]
    exact hlat y hy e' he'

/-- The image of a packed source: the same tree, and everything that makes it repackable. -/
theorem packed_repackable {src : SourceFs} {content : Path → Bytes} (hb : Bounded src)
    (hf : FaithfulTo src content) {faults : Faults} {fuel : Nat} {img0 : Bytes} {s1 : PackState ImgFile}
    (h1 : createImage (fileEnv src faults) fuel ⟨⟨img0, []⟩, []⟩ = (.ok (), s1))
    {tree : List (Path × List FileEntry)} (ht : TreeOf src.readDir tree) (hF : Fits tree)
    (hS : ∀ x ∈ tree, StorableListing x.2) (hK : ∀ x ∈ tree, FewEntries x.2)
    (hlat : ∀ x ∈ tree, ∀ e ∈ x.2, Latin1 e.name) :
    ∃ fs, ImgFs.new (fileDev s1.dev.img) = .ok (some fs) ∧ ∀ wf, ScanFuel src.readDir wf →
      SameTree src.readDir (imgReadDir (fileDev s1.dev.img) wf fs.vol.root) ∧
      ImgContent (fileDev s1.dev.img) wf fs.vol.root content ∧
      Listable (imgReadDir (fileDev s1.dev.img) wf fs.vol.root) ∧
      ∃ tree', TreeOf (imgReadDir (fileDev s1.dev.img) wf fs.vol.root) tree' ∧ tree'.length = tree.length ∧
        Fits tree' ∧ (∀ x ∈ tree', StorableListing x.2) ∧ (∀ x ∈ tree', TableWithin256K x.2) ∧
        ∀ x ∈ tree', ∀ e ∈ x.2, Latin1 e.name := by
  obtain ⟨M, Loc, l0, hP⟩ := pack_packed hb hf h1
  exact Packed.repackable hP ht hF hS hK hlat

/-- C44, success: an image packed from a representable source tree whose names are made of characters
below `U+0100` repacks successfully.  Missing: other names, see `C44_repack_succeeds_false`. -/
theorem C44_repack_succeeds_partial {src : SourceFs} {content : Path → Bytes} (hb : Bounded src)
    (hf : FaithfulTo src content) {faults : Faults} {fuel : Nat} {img0 : Bytes} {s1 : PackState ImgFile}
    (h1 : createImage (fileEnv src faults) fuel ⟨⟨img0, []⟩, []⟩ = (.ok (), s1))
    {tree : List (Path × List FileEntry)} (ht : TreeOf src.readDir tree) (hF : Fits tree)
    (hS : ∀ x ∈ tree, StorableListing x.2) (hK : ∀ x ∈ tree, FewEntries x.2)
    (hlat : ∀ x ∈ tree, ∀ e ∈ x.2, Latin1 e.name) :
    ∃ fs, ImgFs.new (fileDev s1.dev.img) = .ok (some fs) ∧
      ∀ copier wf fuel' s, CopierWorks (fileDev s1.dev.img) copier → ScanFuel src.readDir wf →
        tree.length ≤ fuel' → (repackImage copier (fun _ => none) wf fuel' fs s).1 = .ok () := by
  obtain ⟨fs, n1, n2⟩ := packed_repackable hb hf h1 ht hF hS hK hlat
  refine ⟨fs, n1, ?_⟩
  intro copier wf fuel' s hcop hwf hfu
  obtain ⟨_, g2, g3, tree', t1, t2, t3, t4, t5, t6⟩ := n2 wf hwf
  obtain ⟨e1, e2, _⟩ := new_spec n1
  rw [← e1] at g2 g3 t1 hcop
  exact repack_works e2 hcop g2 g3 t1 t3 t4 t5 t6 (by rw [t2]; exact hfu) s

theorem sample_latin1 : ∀ x ∈ sampleTree, ∀ e ∈ x.2, Latin1 e.name := by
  intro x hx e he
  simp only [sampleTree, List.mem_cons, List.not_mem_nil, or_false] at hx
  rcases hx with rfl | rfl
  · simp only [List.mem_cons, List.not_mem_nil, or_false] at he
    rcases he with rfl | rfl <;> (unfold Latin1; decide)
  · simp only [List.mem_cons, List.not_mem_nil, or_false] at he
    subst he; unfold Latin1; decide

theorem sample_scanFuel : ScanFuel sampleFs'.readDir 3 := by
  intro p l hp hl
  rcases (sample_dirs p).1 hp with rfl | rfl <;> cases hl <;> decide

/-- The hypotheses of the theorems above hold for the sample: it packs, the image repacks, and the
result holds the sample tree. -/
example : ∃ s1 fs s2, createImage (fileEnv sampleFs' (fun _ => none)) 2 ⟨⟨[], []⟩, []⟩ = (.ok (), s1) ∧
    ImgFs.new (fileDev s1.dev.img) = .ok (some fs) ∧
    repackImage (defaultCopier (fileDev s1.dev.img)) (fun _ => none) 3 2 fs ⟨⟨[], []⟩, []⟩ = (.ok (), s2) ∧
    HoldsTree (fileDev s2.dev.img) sampleFs'.readDir sampleContent := by
  obtain ⟨s1, h1⟩ := sample_packs []
  obtain ⟨fs, n1, g1⟩ := C44_repack_of_packed sample'_bounded sample'_faithful h1
  obtain ⟨fs', n2, g2⟩ := C44_repack_succeeds_partial sample'_bounded sample'_faithful h1 sample_tree sample_fits
    sample_storable sample_few sample_latin1
  rw [n1] at n2; cases n2
  have hk := g2 (defaultCopier (fileDev s1.dev.img)) 3 2 ⟨⟨[], []⟩, []⟩
    (defaultCopier_works (fileDev_parts _)) sample_scanFuel (by decide)
  rcases hr : repackImage (defaultCopier (fileDev s1.dev.img)) (fun _ => none) 3 2 fs ⟨⟨[], []⟩, []⟩ with ⟨r, s2⟩
  rw [hr] at hk
  simp only at hk
  subst hk
  exact ⟨s1, fs, s2, h1, n1, hr, g1 _ _ _ _ _ _ (defaultCopier_copies (fileDev_parts _)) sample_scanFuel hr⟩

/-- C44, failure: an image with a name that contains a character above `U+00FF` never repacks. -/
theorem C44_wide_name_fails {dev : Dev} {fs : ImgFs} (hn : ImgFs.new dev = .ok (some fs)) (copier : Copier)
    (faults : Faults) {wf : Nat} (fuel : Nat) (s : PackState ImgFile) {q : Path} {e : FileEntry}
    (he : EntryIn (imgReadDir dev wf fs.vol.root) q e) (hw : ¬ Latin1 e.name) :
    ∀ u, (repackImage copier faults wf fuel fs s).1 ≠ .ok u := by
  obtain ⟨rfl, h2, _⟩ := new_spec hn
  rcases hr : repackImage copier faults wf fuel fs s with ⟨res, s'⟩
  rcases repack_cases h2 hr with ⟨fs', _, hk, _⟩ | ⟨h1, _⟩
  · exfalso
    obtain ⟨ds, k1, k2, _⟩ := hk q he.1
    obtain ⟨hp, l, hl, hel⟩ := he
    simp only [imgReadDir, k1, Res.ok_bind, Res.pure_eq, Res.ok.injEq] at hl
    subst hl
    obtain ⟨d, hd, rfl⟩ := List.mem_map.1 hel
    exact hw (k2 d hd)
  · exact h1

theorem packed_same {src : SourceFs} {content : Path → Bytes} (hb : Bounded src)
    (hf : FaithfulTo src content) {faults : Faults} {fuel : Nat} {img0 : Bytes} {s1 : PackState ImgFile}
    (h1 : createImage (fileEnv src faults) fuel ⟨⟨img0, []⟩, []⟩ = (.ok (), s1)) :
    ∃ fs, ImgFs.new (fileDev s1.dev.img) = .ok (some fs) ∧ ∀ wf, ScanFuel src.readDir wf →
      SameTree src.readDir (imgReadDir (fileDev s1.dev.img) wf fs.vol.root) ∧
      ImgContent (fileDev s1.dev.img) wf fs.vol.root content := by
  obtain ⟨M, Loc, l0, hP⟩ := pack_packed hb hf h1
  refine ⟨_, Packed.new hP, ?_⟩
  intro wf hwf
  exact ⟨(hP.image.sameTree hP.distinct hP.root hP.rootDir hwf hP.listable).1, hP.content_eq hwf⟩

theorem flat_scanFuel {files : List (Str × Bytes)} {wf : Nat} (h : files.length < wf) :
    ScanFuel (flatFs files).readDir wf := by
  intro p l hp hl
  rw [flat_dirs] at hp
  subst hp
  simp only [flatFs, if_true, Res.ok.injEq] at hl
  subst hl
  simpa using h

theorem euro_ok : FlatOk [(['€'], [1])] := by
  refine ⟨by simp [DistinctNames], ?_, by simp, by decide⟩
  intro x hx
  simp only [List.mem_singleton] at hx
  subst hx
  refine ⟨by decide, ?_⟩
  intro c hc
  simp only [List.mem_singleton] at hc
  subst hc
  exact ⟨0x80, by decide⟩

/-- Without the condition on names C44 is false: the tool itself packs a file named `€`, but cannot
repack the image it wrote. -/
theorem C44_repack_succeeds_false : ∃ s1 fs,
    createImage (fileEnv (flatFs [(['€'], [1])]) (fun _ => none)) 1 ⟨⟨[], []⟩, []⟩ = (.ok (), s1) ∧
    ImgFs.new (fileDev s1.dev.img) = .ok (some fs) ∧
    ∀ copier faults wf fuel s u, ScanFuel (flatFs [(['€'], [1])]).readDir wf →
      (repackImage copier faults wf fuel fs s).1 ≠ .ok u := by
  obtain ⟨s1, h1⟩ := flat_packs euro_ok []
  obtain ⟨fs, n1, n2⟩ := packed_same (flat_bounded _) (flat_faithful euro_ok.distinct) h1
  refine ⟨s1, fs, h1, n1, ?_⟩
  intro copier faults wf fuel s u hwf
  obtain ⟨e, he, k1, _⟩ := (n2 wf hwf).1.entry ((flat_entries [] ⟨['€'], false, 1⟩).2 ⟨rfl, _, List.mem_singleton.2 rfl, rfl⟩)
  refine C44_wide_name_fails n1 copier faults fuel s he ?_ u
  rw [k1]
  intro hl
  exact absurd (hl '€' (by simp)) (by decide)

/-! ## C40: compressing from an image -/

theorem linear_distinct {rd : ReadDir} {pts : Path → Str} {fuel : Nat} {m : SecMap} {log : List Progress}
    (h : createImage (linearEnv rd pts) fuel ⟨[], []⟩ = (.ok (), ⟨m, log⟩)) : AllDistinct rd := by
  obtain ⟨D, M, rootW, rootSize, next, recs, n', hS, _⟩ := linear_map h
  exact PlanShape.allDistinct (fs := ⟨rd, pts, fun _ _ _ => ([], .err .io)⟩) hS

theorem get_below {m : SecMap} (hs : m.Sorted) {k : Nat} {b : Block} (h : m.get k = some b) :
    k < linLen m / 2048 := by
  have hm := (SecMap.get_iff hs k b).1 h
  rcases SecMap.linLen_spec hs with ⟨rfl, _⟩ | ⟨k', b', _, e2, e3⟩
  · cases hm
  · have := e3 _ hm
    simp only at this
    rw [e2]; omega

/-- C40 is false: whenever an image contains a file that is not empty and smaller than a sector, and
the image is packed for compression, reading one of the resulting sectors panics. -/
theorem C40_small_file_panics {dev : Dev} {fs : ImgFs} (hn : ImgFs.new dev = .ok (some fs))
    {wf : Nat} {content : Path → Bytes} (hcont : ImgContent dev wf fs.vol.root content)
    {q : Path} {e : FileEntry} (he : EntryIn (imgReadDir dev wf fs.vol.root) q e) (hd : e.isDir = false)
    (h0 : 0 < e.len) (h1 : e.len < 2048) {fuel : Nat} {fs' : ImgFs} {m : SecMap} {log : List Progress}
    (h : repackLinear (defaultCopier dev) wf fuel fs ⟨[], []⟩ = (.ok fs', ⟨m, log⟩)) :
    ∃ k, k < linLen m / 2048 ∧ readSector (imgBufCopy (defaultCopier dev) fs') m k 2048 = .panic := by
  obtain ⟨rfl, h2, _⟩ := new_spec hn
  obtain ⟨ha, hk, hc⟩ := repackLinear_cases h2 h
  obtain ⟨k, hm⟩ := linear_file_sector hc he hd (i := 0) (by omega)
  obtain ⟨ds, d, k1, k2, rfl, k3⟩ := sector_dirent ha hk (linear_distinct hc) he
  have hr := hcont q ds d he.1 k1 k2 hd
  rw [← ha.dev] at hr
  obtain ⟨sec, hs⟩ := imgBufCopy_small k3 hr h0 h1
  refine ⟨k, ?_, ?_⟩
  · obtain ⟨D, M, rootW, rootSize, next, recs, n', _, hs, _⟩ := linear_map hc
    exact get_below hs hm
  · simp only [readSector, hm, Nat.mul_zero]
    rw [← ha.dev, hs]
    simp only [Res.ok_bind]
    rw [if_neg]
    simp only [fileEntryOf] at h1
    omega

theorem sample_small {s1 : PackState ImgFile}
    (h1 : createImage (fileEnv sampleFs' (fun _ => none)) 2 ⟨⟨[], []⟩, []⟩ = (.ok (), s1)) :
    ∃ fs, ImgFs.new (fileDev s1.dev.img) = .ok (some fs) ∧
      ImgContent (fileDev s1.dev.img) 3 fs.vol.root sampleContent ∧
      EntryIn (imgReadDir (fileDev s1.dev.img) 3 fs.vol.root) [['A']] ⟨['c'], false, 3⟩ ∧
      ∃ fs' m log, repackLinear (defaultCopier (fileDev s1.dev.img)) 3 2 fs ⟨[], []⟩ = (.ok fs', ⟨m, log⟩) := by
  obtain ⟨fs, n1, n2⟩ := packed_repackable sample'_bounded sample'_faithful h1 sample_tree sample_fits
    sample_storable sample_few sample_latin1
  obtain ⟨g1, g2, g3, tree', t1, t2, t3, t4, t5, t6⟩ := n2 3 sample_scanFuel
  obtain ⟨e1, e2, _⟩ := new_spec n1
  refine ⟨fs, n1, g2, ?_, ?_⟩
  · obtain ⟨e, he, hs⟩ := g1.entry ((sample_entries [['A']] ⟨['c'], false, 3⟩).2 (.inr (.inr ⟨rfl, rfl⟩)))
    obtain ⟨n, d, l⟩ := e
    simp at hs
    obtain ⟨rfl, rfl, rfl⟩ := hs
    exact he
  · rw [← e1] at g3 t1 ⊢
    exact repackLinear_works e2 g3 t1 t3 t4 t5 t6 (by rw [t2]; decide)

/-- The hypotheses hold for the sample, so compressing the image of the sample panics. -/
theorem C40_compress_from_image_false : ∃ s1 fs fs' m log k,
    createImage (fileEnv sampleFs' (fun _ => none)) 2 ⟨⟨[], []⟩, []⟩ = (.ok (), s1) ∧
    ImgFs.new (fileDev s1.dev.img) = .ok (some fs) ∧
    repackLinear (defaultCopier (fileDev s1.dev.img)) 3 2 fs ⟨[], []⟩ = (.ok fs', ⟨m, log⟩) ∧
    k < linLen m / 2048 ∧
    readSector (imgBufCopy (defaultCopier (fileDev s1.dev.img)) fs') m k 2048 = .panic := by
  obtain ⟨s1, h1⟩ := sample_packs []
  obtain ⟨fs, n1, n2, n3, fs', m, log, n4⟩ := sample_small h1
  obtain ⟨k, hk, hr⟩ := C40_small_file_panics n1 n2 n3 rfl (by decide) (by decide) n4
  exact ⟨s1, fs, fs', m, log, k, h1, n1, n4, hk, hr⟩

/-- C40 is false: whenever an image ends within the last sector of one of its files, and the image is packed for
compression, one of the resulting sectors cannot be read. -/
theorem C40_cut_file_false {dev : Dev} {fs : ImgFs} (hn : ImgFs.new dev = .ok (some fs)) (hp : PartsReadable dev)
    (hj : JoinsReads dev) {wf : Nat} {content : Path → Bytes} (hcont : ImgContent dev wf fs.vol.root content)
    (hcut : ¬ CompleteSectors dev wf fs.vol.root) {fuel : Nat} {fs' : ImgFs} {m : SecMap} {log : List Progress}
    (h : repackLinear (defaultCopier dev) wf fuel fs ⟨[], []⟩ = (.ok fs', ⟨m, log⟩)) :
    ∃ k, k < linLen m / 2048 ∧ ∀ sec, readSector (imgBufCopy (defaultCopier dev) fs') m k 2048 ≠ .ok sec := by
  refine Classical.byContradiction fun hall => hcut ?_
  intro q ds d hq hds hd hdir h0
  obtain ⟨hnd, h2, _⟩ := new_spec hn
  subst hnd
  have he : EntryIn (imgReadDir fs.dev wf fs.vol.root) q (fileEntryOf d) := by
    refine ⟨hq, ds.map fileEntryOf, ?_, List.mem_map_of_mem hd⟩
    unfold imgReadDir
    rw [hds]; rfl
  by_cases hl : d.node.dirent.data.size.toNat < 2048
  · obtain ⟨k, k1, k2⟩ := C40_small_file_panics hn hcont he hdir h0 hl h
    exact absurd ⟨k, k1, fun sec hs => by rw [k2] at hs; cases hs⟩ hall
  · obtain ⟨ha, hk, hc⟩ := repackLinear_cases h2 h
    have hru := roundUp_spec d.node.dirent.data.size.toNat
    obtain ⟨k, hm⟩ := linear_file_sector hc he hdir (i := (d.node.dirent.data.size.toNat - 1) / 2048) (by
      simp only [fileEntryOf]; omega)
    have k3 := sector_listed ha hk (linear_distinct hc) hq hds hd
    have hr := hcont q ds d hq hds hd hdir
    have hlt : k < linLen m / 2048 := by
      obtain ⟨D, M, rootW, rootSize, next, recs, n', _, hs, _⟩ := linear_map hc
      exact get_below hs hm
    refine Classical.byContradiction fun hno => hall ⟨k, hlt, fun sec hs => hno ?_⟩
    simp only [readSector, hm] at hs
    obtain ⟨r, hr1, _⟩ := Res.bind_eq_ok.1 hs
    rw [← ha.dev] at hr hp hj hr1 ⊢
    exact imgBufCopy_cut hp hj k3 hr (by omega) hr1

theorem readDataAll_len {dev : Dev} {e : DiskData} {c : Bytes} (h : readDataAll dev e = .ok c) :
    c.length = e.data.size.toNat := by
  unfold readDataAll at h
  split at h
  · next h0 => cases h; rw [h0]; rfl
  · obtain ⟨off, _, h⟩ := Res.bind_eq_ok.1 h
    exact dev.read_len _ _ _ h

/-- C40 for images whose files are empty or at least a sector long, and have their last sector in the image to
its end: every sector can be read, and the compressed image holds the tree of the source.
Missing: files smaller than a sector, and images that end within the last sector of a file, for which
`C40_small_file_panics` and `C40_cut_file_false` show the claim to be false. -/
theorem C40_compress_from_image_partial {dev : Dev} {fs : ImgFs} (hn : ImgFs.new dev = .ok (some fs))
    (hp : PartsReadable dev) {wf : Nat} (hw : CompleteSectors dev wf fs.vol.root)
    {content : Path → Bytes} (hcont : ImgContent dev wf fs.vol.root content)
    (hbig : ∀ q e, EntryIn (imgReadDir dev wf fs.vol.root) q e → e.isDir = false → e.len = 0 ∨ 2048 ≤ e.len)
    {fuel : Nat} {fs' : ImgFs} {m : SecMap} {log : List Progress}
    (h : repackLinear (defaultCopier dev) wf fuel fs ⟨[], []⟩ = (.ok fs', ⟨m, log⟩)) :
    ∃ img, viewBytes (imgBufCopy (defaultCopier dev) fs') m (linLen m / 2048) = .ok img ∧
      HoldsTree (fileDev img) (imgReadDir dev wf fs.vol.root) content := by
  obtain ⟨rfl, h2, _⟩ := new_spec hn
  obtain ⟨ha, hk, hc⟩ := repackLinear_cases h2 h
  have hdist := linear_distinct hc
  obtain ⟨D, M, rootW, rootSize, next, recs, n', _, hs, _, hall⟩ := linear_map hc
  have hraw : ∀ k d, m.get k = some (.raw d) → readSector (imgBufCopy (defaultCopier fs.dev) fs') m k 2048 = .ok d ∧
      d.length = 2048 := by
    intro k d hm
    have hd : d.length = 2048 := by
      rcases hall k _ hm with he | ⟨o, ho, hb⟩
      · cases he; exact List.length_replicate
      · cases o with
        | report => exact absurd hb id
        | write off b =>
          obtain ⟨i, _, _, he⟩ := hb
          cases he
          exact padSector_length (by simp [slice]; omega)
        | copy => obtain ⟨_, _, _, he⟩ := hb; cases he
    exact ⟨by simp only [readSector, hm]; rw [if_pos hd], hd⟩
  have hfile : ∀ k p i, m.get k = some (.file p i) →
      ∃ sec, readSector (imgBufCopy (defaultCopier fs.dev) fs') m k 2048 = .ok sec ∧ sec.length = 2048 ∧
        ∀ j, j < 2048 → 2048 * i + j < (content p).length → sec[j]? = (content p)[2048 * i + j]? := by
    intro k p i hm
    obtain ⟨q, e, he, hd, rfl, hi⟩ := linear_files hc hm
    obtain ⟨ds, d, k1, k2, rfl, k3⟩ := sector_dirent ha hk hdist he
    have hr := hcont q ds d he.1 k1 k2 hd
    have hw' := hw q ds d he.1 k1 k2 hd (by simp only [fileEntryOf] at hi; omega)
    rw [← ha.dev] at hr hp hw'
    have hl : 2048 ≤ (fileEntryOf d).len := by
      rcases hbig q _ he hd with h0 | h0
      · omega
      · exact h0
    obtain ⟨sec, s1, s2, s3⟩ := imgBufCopy_large hp hw' k3 hr hl hi
    refine ⟨sec, ?_, s2, s3⟩
    simp only [readSector, hm]
    rw [← ha.dev, s1]
    simp only [Res.ok_bind, if_true]
  obtain ⟨img, v1, v2, v3⟩ := viewBytes_sectors (copy := imgBufCopy (defaultCopier fs.dev) fs') (m := m)
    (linLen m / 2048) (by
      intro k _
      cases hm : m.get k with
      | none => exact ⟨_, by simp only [readSector, hm]; rfl, List.length_replicate⟩
      | some b =>
        cases b with
        | raw d => exact ⟨d, hraw k d hm⟩
        | file p i => obtain ⟨sec, s1, s2, _⟩ := hfile k p i hm; exact ⟨sec, s1, s2⟩)
  refine ⟨img, v1, linear_holds hc ?_ ?_ ?_⟩
  · intro p e he hd
    obtain ⟨ds, d, k1, k2, rfl, k3⟩ := sector_dirent ha hk hdist he
    exact readDataAll_len (hcont p ds d he.1 k1 k2 hd)
  · intro k d hm j hj
    exact v3 k d (get_below hs hm) (hraw k d hm).1 j hj
  · intro k p i hm j hj hc
    obtain ⟨sec, s1, _, s3⟩ := hfile k p i hm
    rw [v3 k sec (get_below hs hm) s1 j hj]
    exact s3 j hj hc

theorem big_ok {c : Bytes} (h : c.length < 2 ^ 20) : FlatOk [(['b'], c)] := by
  refine ⟨by simp [DistinctNames], ?_, ?_, by simp⟩
  · intro x hx
    simp only [List.mem_singleton] at hx
    subst hx
    refine ⟨show utf8Len ['b'] ≤ 255 by decide, ?_⟩
    intro c hc
    simp only [List.mem_singleton] at hc
    subst hc
    exact ⟨0x62, by decide⟩
  · intro x hx
    simp only [List.mem_singleton] at hx
    subst hx
    exact h

/-- The hypotheses hold for the image of a source with one file of 2 KiB to 1 MiB. -/
example {c : Bytes} (hc : c.length < 2 ^ 20) (hc' : 2048 ≤ c.length) : ∃ s1 fs fs' m log img,
    createImage (fileEnv (flatFs [(['b'], c)]) (fun _ => none)) 1 ⟨⟨[], []⟩, []⟩ = (.ok (), s1) ∧
    ImgFs.new (fileDev s1.dev.img) = .ok (some fs) ∧
    repackLinear (defaultCopier (fileDev s1.dev.img)) 2 1 fs ⟨[], []⟩ = (.ok fs', ⟨m, log⟩) ∧
    viewBytes (imgBufCopy (defaultCopier (fileDev s1.dev.img)) fs') m (linLen m / 2048) = .ok img ∧
    HoldsTree (fileDev img) (imgReadDir (fileDev s1.dev.img) 2 fs.vol.root)
      (flatContent [(['b'], c)]) := by
  obtain ⟨s1, h1⟩ := flat_packs (big_ok hc) []
  obtain ⟨fs, n1, n2⟩ := packed_repackable (flat_bounded _) (flat_faithful (big_ok hc).distinct) h1 (flat_tree _)
    (flat_fits (big_ok hc)) (flat_storable (big_ok hc)) (flat_few (big_ok hc)) (by
      intro x hx e he
      simp only [flatTree, List.mem_singleton] at hx
      subst hx
      simp only [List.map_cons, List.map_nil, List.mem_singleton] at he
      subst he
      intro c hc
      simp only [List.mem_singleton] at hc
      subst hc
      decide)
  obtain ⟨g1, g2, g3, tree', t1, t2, t3, t4, t5, t6⟩ := n2 2 (flat_scanFuel (by simp))
  obtain ⟨e1, e2, _⟩ := new_spec n1
  obtain ⟨fs', m, log, hr⟩ : ∃ fs' m log, repackLinear (defaultCopier (fileDev s1.dev.img)) 2 1 fs ⟨[], []⟩ =
      (.ok fs', ⟨m, log⟩) := by
    rw [← e1] at g3 t1 ⊢
    exact repackLinear_works e2 g3 t1 t3 t4 t5 t6 (by rw [t2]; simp [flatTree])
  have hlen := (C35_length_multiple h1).2
  obtain ⟨img, k1, k2⟩ := C40_compress_from_image_partial n1 (fileDev_parts _)
    (whole_complete (fileDev_whole (by omega)) g2) g2 (by
      intro q e he hd
      obtain ⟨e', he', j1, j2, j3⟩ := (g1.symm (flat_listable _)).entry he
      obtain ⟨_, x, hx, rfl⟩ := (flat_entries _ _).1 he'
      simp only [List.mem_singleton] at hx
      subst hx
      have := j3 hd
      simp only at this
      omega) hr
  exact ⟨s1, fs, fs', m, log, img, h1, n1, hr, k1, k2⟩

/-- C40, exactly: when an image is packed for compression, all sectors can be read if and only if each file of the image is
empty, or is at least a sector long and has its last sector in the image to its end. -/
theorem C40_readable_iff {dev : Dev} {fs : ImgFs} (hn : ImgFs.new dev = .ok (some fs)) (hp : PartsReadable dev)
    (hj : JoinsReads dev) {wf : Nat} {content : Path → Bytes} (hcont : ImgContent dev wf fs.vol.root content)
    {fuel : Nat} {fs' : ImgFs} {m : SecMap} {log : List Progress}
    (h : repackLinear (defaultCopier dev) wf fuel fs ⟨[], []⟩ = (.ok fs', ⟨m, log⟩)) :
    (∀ k, k < linLen m / 2048 → ∃ sec, readSector (imgBufCopy (defaultCopier dev) fs') m k 2048 = .ok sec) ↔
      CompleteSectors dev wf fs.vol.root ∧
      ∀ q e, EntryIn (imgReadDir dev wf fs.vol.root) q e → e.isDir = false → e.len = 0 ∨ 2048 ≤ e.len := by
  constructor
  · intro hall
    refine ⟨Classical.byContradiction fun hcut => ?_, fun q e he hd => ?_⟩
    · obtain ⟨k, k1, k2⟩ := C40_cut_file_false hn hp hj hcont hcut h
      obtain ⟨sec, hs⟩ := hall k k1
      exact k2 sec hs
    · refine Classical.byContradiction fun hbig => ?_
      obtain ⟨k, k1, k2⟩ := C40_small_file_panics hn hcont he hd (by omega) (by omega) h
      obtain ⟨sec, hs⟩ := hall k k1
      rw [k2] at hs; cases hs
  · rintro ⟨hw, hbig⟩ k hk
    obtain ⟨img, v1, _⟩ := C40_compress_from_image_partial hn hp hw hcont hbig h
    exact view_reads _ v1 k hk

/-! ## C64: truncated source images -/

/-- C64 for the chunked copier on a file: a repack that succeeds has read every file of the source
completely, so the new image holds the tree and the contents of the source; no assumption that the
files of the source can be read.  Missing: the copier based on `std::io::copy`, which the command
line tool uses and for which `C64_truncated_source_accepted_false` shows the claim to be false. -/
theorem C64_truncated_source_detected_partial {img : Bytes} {fs : ImgFs}
    (hn : ImgFs.new (fileDev img) = .ok (some fs)) {faults : Faults} {wf fuel : Nat} {img0 : Bytes}
    {s' : PackState ImgFile}
    (h : repackImage (defaultCopier (fileDev img)) faults wf fuel fs ⟨⟨img0, []⟩, []⟩ = (.ok (), s')) :
    ∃ content, ImgContent (fileDev img) wf fs.vol.root content ∧
      HoldsTree (fileDev s'.dev.img) (imgReadDir (fileDev img) wf fs.vol.root) content := by
  obtain ⟨e1, e2, _⟩ := new_spec hn
  rcases repack_cases e2 h with ⟨fs', h1, h2, h3⟩ | ⟨h1, _⟩
  · have hrd : (pureSource wf (defaultCopier (fileDev img)) fs').readDir = imgReadDir fs.dev wf fs.vol.root := by
      simp only [pureSource]; rw [h1.dev, h1.vol]
    obtain ⟨_, h4⟩ := pack_end _ _ _ _ h3
    obtain ⟨D, M, rootW, rootSize, next, recs, n', hS, hok⟩ : ∃ D M rootW rootSize next recs n',
        PlanShape (pureSource wf (defaultCopier (fileDev img)) fs').readDir
          (pureSource wf (defaultCopier (fileDev img)) fs').pathToString D M rootW rootSize next recs n' [] ∧
        ∀ o ∈ planOps (pureSource wf (defaultCopier (fileDev img)) fs').pathToString D recs,
          OpOK (pureSource wf (defaultCopier (fileDev img)) fs') o := by
      cases h4 with
      | early h2 _ => exact absurd rfl h2
      | data _ h2 _ => exact absurd rfl h2
      | desc _ h2 _ _ _ => exact absurd rfl h2
      | pad hS _ hok _ _ _ => exact ⟨_, _, _, _, _, _, _, hS, hok⟩
    have hdist := PlanShape.allDistinct (fs := pureSource wf (defaultCopier (fileDev img)) fs') hS
    rw [hrd] at hdist
    have hread : ∀ p ds d, DirOf (imgReadDir fs.dev wf fs.vol.root) p →
        imgDirents fs.dev wf fs.vol.root p = .ok ds → d ∈ ds → d.node.dirent.isDirectory = false →
        ∃ c, readDataAll fs.dev d.node.dirent = .ok c := by
      intro p ds d hp hds hdm hd
      have hl : imgReadDir fs.dev wf fs.vol.root p = .ok (ds.map fileEntryOf) := by
        simp only [imgReadDir, hds, Res.ok_bind, Res.pure_eq]
      have he : EntryIn (pureSource wf (defaultCopier (fileDev img)) fs').readDir p (fileEntryOf d) := by
        rw [hrd]; exact ⟨hp, _, hl, List.mem_map_of_mem hdm⟩
      obtain ⟨out, ho⟩ := hS.entry_copy he hd
      obtain ⟨k, hk⟩ := hok _ ho
      have hget := copy_known h1.inv.1 (h2 p hp) (dirOf_latin1 h2 hp) hds
        (firstNamed_distinct (hdist p _ hp hl) hdm)
      simp only [pureSource, ImgFs.copy, fileEntryOf, hget, Nat.min_self] at hk
      unfold readDataAll
      by_cases hz : d.node.dirent.data.size = 0
      · rw [if_pos hz]; exact ⟨_, rfl⟩
      · have hz' : ¬ d.node.dirent.data.size.toNat = 0 := fun hx => hz (UInt32.toNat_inj.1 hx)
        rw [if_neg hz]
        rw [if_neg hz'] at hk
        cases ho : d.node.dirent.data.offset 0 with
        | ok off =>
          rw [ho] at hk
          simp only at hk
          rw [e1]
          exact ⟨_, defaultCopier_file hk⟩
        | err e => rw [ho] at hk; cases hk
        | panic => rw [ho] at hk; cases hk
        | hang => rw [ho] at hk; cases hk
    have hall : ∀ path : Path, ∃ c, ∀ p ds d, DirOf (imgReadDir fs.dev wf fs.vol.root) p →
        imgDirents fs.dev wf fs.vol.root p = .ok ds → d ∈ ds → d.node.dirent.isDirectory = false →
        path = p ++ [d.nameStr] → readDataAll fs.dev d.node.dirent = .ok c := by
      intro path
      rcases Classical.em (∃ p ds d, DirOf (imgReadDir fs.dev wf fs.vol.root) p ∧
        imgDirents fs.dev wf fs.vol.root p = .ok ds ∧ d ∈ ds ∧ d.node.dirent.isDirectory = false ∧
        path = p ++ [d.nameStr]) with ⟨p, ds, d, k1, k2, k3, k4, rfl⟩ | hno
      · obtain ⟨c, hc⟩ := hread p ds d k1 k2 k3 k4
        refine ⟨c, ?_⟩
        intro p' ds' d' j1 j2 j3 _ j5
        obtain ⟨rfl, j6⟩ := List.append_inj_left' j5 rfl, List.append_inj_right' j5 rfl
        rw [k2] at j2; cases j2
        have hl : imgReadDir fs.dev wf fs.vol.root p = .ok (ds.map fileEntryOf) := by
          simp only [imgReadDir, k2, Res.ok_bind, Res.pure_eq]
        have f1 := firstNamed_distinct (hdist p _ k1 hl) k3
        have f2 := firstNamed_distinct (hdist p _ k1 hl) j3
        simp only [List.cons.injEq, and_true] at j6
        rw [j6, f2] at f1
        cases f1
        exact hc
      · exact ⟨[], fun p ds d k1 k2 k3 k4 k5 => absurd ⟨p, ds, d, k1, k2, k3, k4, k5⟩ hno⟩
    refine ⟨fun p => Classical.choose (hall p), ?_, ?_⟩
    · rw [← e1]
      intro p ds d k1 k2 k3 k4
      exact Classical.choose_spec (hall (p ++ [d.nameStr])) p ds d k1 k2 k3 k4 rfl
    · refine C44_repack_preserves hn (defaultCopier_copies (fileDev_parts img)) ?_ h
      rw [← e1]
      intro p ds d k1 k2 k3 k4
      exact Classical.choose_spec (hall (p ++ [d.nameStr])) p ds d k1 k2 k3 k4 rfl
  · exact absurd rfl (h1 ())

/-- A directory table with one file `a` of 5 bytes at sector 1000. -/
def truncTable : Bytes := DiskNode.ser ⟨0, 0, ⟨⟨1000, 5⟩, 0x20, 1⟩⟩ ++ [0x61]

/-- An image that ends with its directory table: the file is missing. -/
def truncImage : Bytes := List.replicate 65536 0 ++ handImage truncTable

theorem trunc_dev : fileDev truncImage = handDev 65536 (handImage truncTable) := handDev_eq _ _

def truncEntry : DirEnt := ⟨⟨0, 0, ⟨⟨1000, 5⟩, 0x20, 1⟩⟩, [0x61], 0⟩

set_option maxRecDepth 20000 in
theorem trunc_volume : readVolume (fileDev truncImage) = .ok (VolDesc.new ⟨33, 2048⟩) := by
  rw [trunc_dev]; decide +kernel

set_option maxRecDepth 20000 in
theorem trunc_scan : scanAll (fileDev truncImage) ⟨33, 2048⟩ 2 = .ok [truncEntry] := by
  rw [trunc_dev]; decide +kernel

set_option maxRecDepth 20000 in
theorem trunc_data : readDataAll (fileDev truncImage) truncEntry.node.dirent = .err .io := by
  rw [trunc_dev]; decide +kernel

/-- An image whose root directory lists only files. -/
theorem onlyFiles_tree {dev : Dev} {wf : Nat} {root : Region} {ds : List DirEnt}
    (h : scanAll dev root wf = .ok ds) (hd : ∀ d ∈ ds, d.node.dirent.isDirectory = false) :
    (∀ p, DirOf (imgReadDir dev wf root) p ↔ p = []) ∧
    imgReadDir dev wf root [] = .ok (ds.map fileEntryOf) ∧
    Listable (imgReadDir dev wf root) ∧ TreeOf (imgReadDir dev wf root) [([], ds.map fileEntryOf)] := by
  have hr : imgReadDir dev wf root [] = .ok (ds.map fileEntryOf) := by
    simp only [imgReadDir, imgDirents, imgTable, Res.ok_bind, h, Res.pure_eq]
  have hdir : ∀ p, DirOf (imgReadDir dev wf root) p ↔ p = [] := by
    intro p
    constructor
    · intro hp
      induction hp with
      | root => rfl
      | @sub q l e h1 h2 h3 h4 ih =>
        subst ih
        rw [hr] at h2; cases h2
        obtain ⟨d, hdm, rfl⟩ := List.mem_map.1 h3
        have := hd d hdm
        simp only [fileEntryOf] at h4
        rw [this] at h4; cases h4
    · rintro rfl; exact .root
  refine ⟨hdir, hr, ?_, by simp, ?_⟩
  · intro p hp
    rw [hdir] at hp
    subst hp
    exact ⟨_, hr⟩
  · intro p l
    rw [hdir]
    simp only [List.mem_singleton, Prod.mk.injEq]
    constructor
    · rintro ⟨rfl, rfl⟩; exact ⟨rfl, hr⟩
    · rintro ⟨rfl, h⟩
      rw [hr] at h; cases h
      exact ⟨rfl, rfl⟩

/-- A directory table with one file `a` of 2100 bytes at sector 33, where the table is itself. -/
def cutTable : Bytes := DiskNode.ser ⟨0, 0, ⟨⟨33, 2100⟩, 0x20, 1⟩⟩ ++ [0x61]

/-- An image that ends with the last byte of its file, which is not the end of a sector. -/
def cutImage : Bytes := List.replicate 65536 0 ++ (handImage cutTable ++ List.replicate 52 7)

def cutEntry : DirEnt := ⟨⟨0, 0, ⟨⟨33, 2100⟩, 0x20, 1⟩⟩, [0x61], 0⟩

set_option maxRecDepth 20000 in
theorem cut_volume : readVolume (fileDev cutImage) = .ok (VolDesc.new ⟨33, 2048⟩) := by
  rw [cutImage, handDev_eq]; decide +kernel

set_option maxRecDepth 20000 in
theorem cut_scan : scanAll (fileDev cutImage) ⟨33, 2048⟩ 2 = .ok [cutEntry] := by
  rw [cutImage, handDev_eq]; decide +kernel

theorem cut_length : cutImage.length = 69684 := by
  unfold cutImage
  rw [List.length_append, List.length_append, List.length_replicate, List.length_replicate,
    show (handImage cutTable).length = 4096 from by decide +kernel]

theorem cut_data : readDataAll (fileDev cutImage) cutEntry.node.dirent = .ok (slice cutImage 67584 2100) := by
  unfold readDataAll
  rw [if_neg (by decide), show cutEntry.node.dirent.data.offset 0 = .ok 67584 from by decide]
  simp only [Res.ok_bind]
  rw [show cutEntry.node.dirent.data.size.toNat = 2100 from by decide, fileDev_read, fileRead, if_neg (by decide),
    if_pos (by rw [cut_length]; decide)]

theorem cut_cut : (fileDev cutImage).read 67584 4096 = .err .io := by
  rw [fileDev_read, fileRead, if_neg (by decide), if_neg (by rw [cut_length]; decide)]

theorem cut_new : ImgFs.new (fileDev cutImage) = .ok (some ⟨fileDev cutImage, VolDesc.new ⟨33, 2048⟩, Trie.empty⟩) := by
  unfold ImgFs.new; rw [cut_volume]

theorem cut_dirents : imgDirents (fileDev cutImage) 2 ⟨33, 2048⟩ [] = .ok [cutEntry] := by
  simp only [imgDirents, imgTable, Res.ok_bind]
  exact cut_scan

theorem cut_content : ImgContent (fileDev cutImage) 2 ⟨33, 2048⟩ (fun _ => slice cutImage 67584 2100) := by
  intro p ds d hp hds hd _
  rw [(onlyFiles_tree cut_scan (by decide)).1] at hp
  subst hp
  rw [cut_dirents] at hds
  cases hds
  simp only [List.mem_singleton] at hd
  subst hd
  exact cut_data

theorem cut_incomplete : ¬ CompleteSectors (fileDev cutImage) 2 ⟨33, 2048⟩ := by
  intro h
  obtain ⟨b, hb⟩ := h [] [cutEntry] cutEntry .root cut_dirents (by simp) (by decide) (by decide)
  rw [show 2048 * cutEntry.node.dirent.data.sector.toNat = 67584 from by decide,
    show roundUp cutEntry.node.dirent.data.size.toNat = 4096 from by decide, cut_cut] at hb
  cases hb

theorem cut_repacks : ∃ fs' m log, repackLinear (defaultCopier (fileDev cutImage)) 2 1
    ⟨fileDev cutImage, VolDesc.new ⟨33, 2048⟩, Trie.empty⟩ ⟨[], []⟩ = (.ok fs', ⟨m, log⟩) := by
  obtain ⟨t1, t2, t3, t4⟩ := onlyFiles_tree cut_scan (by decide)
  refine repackLinear_works rfl t3 t4 (by unfold Fits; decide) ?_ ?_ ?_ (by decide)
  · intro x hx
    simp only [List.mem_singleton] at hx
    subst hx
    refine ⟨by simp [DistinctNames], ?_⟩
    intro e he
    simp only [List.map_cons, List.map_nil, List.mem_singleton] at he
    subst he
    refine ⟨by decide, ?_, fun _ => by decide⟩
    intro c hc
    have : c = 'a' := by
      have h0 : (fileEntryOf cutEntry).name = ['a'] := by decide
      rw [h0] at hc; simpa using hc
    subst this
    exact ⟨0x61, by decide⟩
  · intro x hx
    simp only [List.mem_singleton] at hx
    subst hx
    exact few_within (by unfold FewEntries; decide)
  · intro x hx e he
    simp only [List.mem_singleton] at hx
    subst hx
    simp only [List.map_cons, List.map_nil, List.mem_singleton] at he
    subst he
    intro c hc
    have : c = 'a' := by
      have h0 : (fileEntryOf cutEntry).name = ['a'] := by decide
      rw [h0] at hc; simpa using hc
    subst this
    decide

/-- The hypotheses of `C40_cut_file_false` hold for the image `cutImage`, whose file can be read. -/
example : ∃ fs' m log k, repackLinear (defaultCopier (fileDev cutImage)) 2 1
      ⟨fileDev cutImage, VolDesc.new ⟨33, 2048⟩, Trie.empty⟩ ⟨[], []⟩ = (.ok fs', ⟨m, log⟩) ∧
    k < linLen m / 2048 ∧ ∀ sec, readSector (imgBufCopy (defaultCopier (fileDev cutImage)) fs') m k 2048 ≠ .ok sec := by
  obtain ⟨fs', m, log, h⟩ := cut_repacks
  obtain ⟨k, k1, k2⟩ := C40_cut_file_false cut_new (fileDev_parts _) (fileDev_joins _) cut_content cut_incomplete h
  exact ⟨fs', m, log, k, h, k1, k2⟩

/-- C64 is false for the copier of the command line tool: an image whose only file lies behind its
end, so that reading the file fails, repacks successfully, whatever the sizes of the pieces in which
`std::io::copy` transfers data. -/
theorem C64_truncated_source_accepted_false : ∃ fs, ImgFs.new (fileDev truncImage) = .ok (some fs) ∧
    imgDirents (fileDev truncImage) 2 fs.vol.root [] = .ok [truncEntry] ∧
    readDataAll (fileDev truncImage) truncEntry.node.dirent = .err .io ∧
    ∀ split s, (repackImage (stdIoCopier truncImage 0 split) (fun _ => none) 2 1 fs s).1 = .ok () := by
  refine ⟨⟨fileDev truncImage, VolDesc.new ⟨33, 2048⟩, Trie.empty⟩, ?_, ?_, trunc_data, ?_⟩
  · unfold ImgFs.new; rw [trunc_volume]
  · simp only [imgDirents, imgTable, Res.ok_bind]
    exact trunc_scan
  · intro split s
    obtain ⟨t1, t2, t3, t4⟩ := onlyFiles_tree trunc_scan (by decide)
    refine repack_works_of rfl ?_ t3 t4 (by unfold Fits; decide) ?_ ?_ ?_ (by decide) s
    · intros; exact ⟨_, rfl⟩
    · intro x hx
      simp only [List.mem_singleton] at hx
      subst hx
      refine ⟨by simp [DistinctNames], ?_⟩
      intro e he
      simp only [List.map_cons, List.map_nil, List.mem_singleton] at he
      subst he
      refine ⟨by decide, ?_, fun _ => by decide⟩
      intro c hc
      have : c = 'a' := by
        have h0 : (fileEntryOf truncEntry).name = ['a'] := by decide
        rw [h0] at hc; simpa using hc
      subst this
      exact ⟨0x61, by decide⟩
    · intro x hx
      simp only [List.mem_singleton] at hx
      subst hx
      exact few_within (by unfold FewEntries; decide)
    · intro x hx e he
      simp only [List.mem_singleton] at hx
      subst hx
      simp only [List.map_cons, List.map_nil, List.mem_singleton] at he
      subst he
      intro c hc
      have : c = 'a' := by
        have h0 : (fileEntryOf truncEntry).name = ['a'] := by decide
        rw [h0] at hc; simpa using hc
      subst this
      decide

/-! ## C61: every valid image repacks -/

theorem decodeByte_inCp1252 (b : UInt8) : InCp1252 (decodeByte b) :=
  ⟨b.toNat, b.toNat_lt, (decodeByte_eq_spec b).symm⟩

/-- C61 for images whose names are made of characters below `U+0100` and take at most 255 bytes in
UTF-8: if the directories can be listed and hold distinct names, the files can be read, and the sizes
are within bounds, repacking succeeds.  Missing: the other names, see `C61_long_name_false` and
`C44_repack_succeeds_false`. -/
theorem C61_valid_image_repacks_partial {dev : Dev} {fs : ImgFs} (hn : ImgFs.new dev = .ok (some fs))
    {copier : Copier} (hcop : CopierWorks dev copier) {wf : Nat} {content : Path → Bytes}
    (hcont : ImgContent dev wf fs.vol.root content)
    {tree : List (Path × List FileEntry)} (hL : Listable (imgReadDir dev wf fs.vol.root))
    (ht : TreeOf (imgReadDir dev wf fs.vol.root) tree) (hF : Fits tree)
    (hdist : ∀ x ∈ tree, DistinctNames (x.2.map FileEntry.name))
    (hshort : ∀ x ∈ tree, ∀ e ∈ x.2, utf8Len e.name ≤ 255 ∧ Latin1 e.name)
    (hK : ∀ x ∈ tree, FewEntries x.2) {fuel : Nat} (hf : tree.length ≤ fuel) (s : PackState ImgFile) :
    (repackImage copier (fun _ => none) wf fuel fs s).1 = .ok () := by
  obtain ⟨rfl, e2, _⟩ := new_spec hn
  refine repack_works e2 hcop hcont hL ht hF ?_ (fun x hx => few_within (hK x hx))
    (fun x hx e he => (hshort x hx e he).2) hf s
  intro x hx
  refine ⟨hdist x hx, fun e he => ⟨(hshort x hx e he).1, ?_⟩⟩
  obtain ⟨_, hl⟩ := (ht.2 x.1 x.2).1 hx
  obtain ⟨ds, _, h2⟩ := Res.bind_eq_ok.1 hl
  simp only [Res.pure_eq, Res.ok.injEq] at h2
  rw [← h2] at he
  obtain ⟨d, _, rfl⟩ := List.mem_map.1 he
  refine ⟨?_, fun _ => d.node.dirent.data.size.toNat_lt⟩
  intro c hc
  simp only [fileEntryOf, DirEnt.nameStr, decodeName] at hc
  obtain ⟨b, _, rfl⟩ := List.mem_map.1 hc
  exact decodeByte_inCp1252 b

/-- The hypotheses hold for the image of the sample. -/
example : ∃ s1 fs, createImage (fileEnv sampleFs' (fun _ => none)) 2 ⟨⟨[], []⟩, []⟩ = (.ok (), s1) ∧
    ImgFs.new (fileDev s1.dev.img) = .ok (some fs) ∧
    (repackImage (stdIoCopier s1.dev.img 0 (fun b => [b])) (fun _ => none) 3 2 fs ⟨⟨[], []⟩, []⟩).1 = .ok () := by
  obtain ⟨s1, h1⟩ := sample_packs []
  obtain ⟨fs, n1, n2⟩ := packed_same sample'_bounded sample'_faithful h1
  obtain ⟨g1, g2⟩ := n2 3 sample_scanFuel
  obtain ⟨tree', t1, t2, t3, t4⟩ := g1.tree sample_listable sample_tree
  refine ⟨s1, fs, h1, n1, C61_valid_image_repacks_partial n1 (stdIoCopier_works _ _ _ _) g2 ?_ t1 ?_ ?_ ?_ ?_
    (by rw [t2]; decide) _⟩
  · intro p hp
    obtain ⟨l, h1⟩ := sample_listable p ((g1.dirs p).2 hp)
    obtain ⟨l', h2, _⟩ := g1.lists p l ((g1.dirs p).2 hp) h1
    exact ⟨l', h2⟩
  · refine ⟨by rw [t3]; exact sample_fits.1, ?_⟩
    intro x hx
    obtain ⟨y, hy, hp⟩ := t4 x hx
    have := hp.length_eq
    simp only [List.length_map] at this
    rw [← this]
    exact sample_fits.2 y hy
  · intro x hx
    obtain ⟨y, hy, hp⟩ := t4 x hx
    exact (sig_storable hp (sample_storable y hy)).1
  · intro x hx e he
    obtain ⟨y, hy, hp⟩ := t4 x hx
    refine ⟨((sig_storable hp (sample_storable y hy)).2 e he).1, ?_⟩
    obtain ⟨e', he', hn, _⟩ := sig_mem hp.symm he
    rw [← hn]
    exact sample_latin1 y hy e' he'
  · intro x hx
    obtain ⟨y, hy, hp⟩ := t4 x hx
    exact sig_few hp (sample_few y hy)

/-- A directory table with one empty file whose name is 200 times `é`. -/
def longTable : Bytes := DiskNode.ser ⟨0, 0, ⟨⟨0, 0⟩, 0x20, 200⟩⟩ ++ List.replicate 200 0xe9

def longImage : Bytes := List.replicate 65536 0 ++ handImage longTable

def longEntry : DirEnt := ⟨⟨0, 0, ⟨⟨0, 0⟩, 0x20, 200⟩⟩, List.replicate 200 0xe9, 0⟩

set_option maxRecDepth 20000 in
theorem long_volume : readVolume (fileDev longImage) = .ok (VolDesc.new ⟨33, 2048⟩) := by
  rw [longImage, handDev_eq]; decide +kernel

set_option maxRecDepth 20000 in
theorem long_scan : scanAll (fileDev longImage) ⟨33, 2048⟩ 2 = .ok [longEntry] := by
  rw [longImage, handDev_eq]; decide +kernel

set_option maxRecDepth 20000 in
theorem long_name_facts : Latin1 longEntry.nameStr ∧ ¬ utf8Len (fileEntryOf longEntry).name ≤ 255 := by
  unfold Latin1
  decide +kernel

/-- C61 is false: an image with one empty file, whose name of 200 characters is legal on disk, opens
and lists, and its file reads as empty, but repacking it fails. -/
theorem C61_long_name_false : ∃ fs, ImgFs.new (fileDev longImage) = .ok (some fs) ∧
    imgDirents (fileDev longImage) 2 fs.vol.root [] = .ok [longEntry] ∧
    longEntry.name.length = 200 ∧ Latin1 longEntry.nameStr ∧
    readDataAll (fileDev longImage) longEntry.node.dirent = .ok [] ∧
    ∀ copier faults fuel s u, (repackImage copier faults 2 fuel fs s).1 ≠ .ok u := by
  refine ⟨⟨fileDev longImage, VolDesc.new ⟨33, 2048⟩, Trie.empty⟩, ?_, ?_, ?_, ?_, rfl, ?_⟩
  · unfold ImgFs.new; rw [long_volume]
  · simp only [imgDirents, imgTable, Res.ok_bind]
    exact long_scan
  · exact List.length_replicate
  · exact long_name_facts.1
  · intro copier faults fuel s u hu
    obtain ⟨t1, t2, t3, t4⟩ := onlyFiles_tree long_scan (by decide)
    rcases hr : repackImage copier faults 2 fuel
      ⟨fileDev longImage, VolDesc.new ⟨33, 2048⟩, Trie.empty⟩ s with ⟨res, s'⟩
    rw [hr] at hu
    simp only at hu
    subst hu
    rcases repack_cases rfl hr with ⟨fs', h1, h2, h3⟩ | ⟨h1, _⟩
    · have hrd : (pureSource 2 copier fs').readDir =
          imgReadDir (fileDev longImage) 2 ⟨33, 2048⟩ := by
        simp only [pureSource]; rw [h1.dev, h1.vol]; rfl
      have := (C32_unrepresentable_rejected h3 (p := []) (e := fileEntryOf longEntry) (by
        show EntryIn (pureSource 2 copier fs').readDir _ _
        rw [hrd]
        exact ⟨.root, _, t2, by simp⟩)).1
      exact absurd this long_name_facts.2
    · exact h1 _ rfl

end Xdvdfs.Props
