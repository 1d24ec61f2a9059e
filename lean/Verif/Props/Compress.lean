import Verif.Proof.LinearMain
import Verif.Proof.PackReport
import Verif.Spec.Compress
import Verif.Props.Pack

/-! # C39, C62: what the CISO encoder is given -/

namespace Xdvdfs.Props

open Spec

/-! ## C39: the sector view is the packed image -/

theorem readSector_shows {fs : SourceFs} {content : Path → Bytes} {read : Path → (off n : Nat) → Res Bytes}
    (hr : ReadsSectors fs.readDir content read) {m : SecMap} {k : Nat} {sec : Bytes} (hl : sec.length = 2048)
    (hfile : ∀ k p i, m.get k = some (.file p i) → ∃ q e, EntryIn fs.readDir q e ∧ e.isDir = false ∧
      p = q ++ [e.name] ∧ 2048 * i < e.len ∧ (content p).length = e.len)
    (h : sec = match m.get k with
      | none => List.replicate 2048 0
      | some (.raw d) => d
      | some (.file p i) => padSector (slice (content p) (2048 * i) 2048)) :
    readSector (stdBufCopy read) m k 2048 = .ok sec := by
  unfold readSector
  cases hg : m.get k with
  | none => rw [hg] at h; rw [h]
  | some b =>
    rw [hg] at h
    cases b with
    | raw d =>
      simp only at h ⊢
      subst h
      rw [if_pos hl]
    | file p i =>
      simp only at h ⊢
      obtain ⟨q, e, h1, h2, rfl, _, _⟩ := hfile k p i hg
      rw [stdBufCopy_sector (hr q e h1 h2 i), Res.ok_bind, ← h]
      simp

/-- C39: if packing a tree into an empty file produces the image `s'.dev.img`, then packing the same
tree for compression succeeds with the same progress reports, announces the same length, and every
sector the encoder asks for is that sector of the image. -/
theorem C39_compress_view {fs : SourceFs} {content : Path → Bytes} {read : Path → (off n : Nat) → Res Bytes}
    (hb : Bounded fs) (hf : FaithfulTo fs content) (hr : ReadsWhole fs.readDir content read)
    {faults : Faults} {fuel : Nat} {s' : PackState ImgFile}
    (h : createImage (fileEnv fs faults) fuel ⟨⟨[], []⟩, []⟩ = (.ok (), s')) :
    ∃ m, createImage (linearEnv fs.readDir fs.pathToString) fuel ⟨[], []⟩ = (.ok (), ⟨m, s'.log⟩) ∧
      linLen m = s'.dev.img.length ∧
      ∀ k, 2048 * k < s'.dev.img.length →
        readSector (stdBufCopy read) m k 2048 = .ok (slice s'.dev.img (2048 * k) 2048) := by
  obtain ⟨m, h1, h2, _, h3, h4⟩ := linear_main hb hf h
  refine ⟨m, h1, h2, fun k hk => ?_⟩
  have hfull : 2048 * k + 2048 ≤ s'.dev.img.length := by
    obtain ⟨_, hp⟩ := C35_length_multiple h
    omega
  exact readSector_shows (fun p e h1 h2 i => hr p e h1 h2 _ _) (slice_length _ _ _ hfull) h3 (h4 k hk)

/-- C39, put together: the concatenation of all sectors is the image. -/
theorem C39_compress_view_whole {fs : SourceFs} {content : Path → Bytes}
    {read : Path → (off n : Nat) → Res Bytes}
    (hb : Bounded fs) (hf : FaithfulTo fs content) (hr : ReadsWhole fs.readDir content read)
    {faults : Faults} {fuel : Nat} {s' : PackState ImgFile}
    (h : createImage (fileEnv fs faults) fuel ⟨⟨[], []⟩, []⟩ = (.ok (), s')) :
    ∃ m, createImage (linearEnv fs.readDir fs.pathToString) fuel ⟨[], []⟩ = (.ok (), ⟨m, s'.log⟩) ∧
      viewBytes (stdBufCopy read) m (linLen m / 2048) = .ok s'.dev.img := by
  obtain ⟨m, h1, h2, h3⟩ := C39_compress_view hb hf hr h
  refine ⟨m, h1, ?_⟩
  have key : ∀ n, 2048 * n ≤ s'.dev.img.length →
      viewBytes (stdBufCopy read) m n = .ok (s'.dev.img.take (2048 * n)) := by
    intro n
    induction n with
    | zero => intro _; rfl
    | succ n ih =>
      intro hn
      simp only [viewBytes, ih (by omega), h3 n (by omega), Res.ok_bind]
      congr 1
      rw [show 2048 * (n + 1) = 2048 * n + 2048 by omega, List.take_add]
      rfl
  obtain ⟨_, hp⟩ := C35_length_multiple h
  rw [h2, key _ (by omega)]
  congr 1
  apply List.take_of_length_le
  omega

/-- Reads of the sample source. -/
def sampleRead (p : Path) (off n : Nat) : Res Bytes := .ok (slice (sampleContent p) off n)

theorem sample_readsWhole : ReadsWhole sampleFs'.readDir sampleContent sampleRead := fun _ _ _ _ _ _ => rfl

/-- The hypotheses hold for the sample, and so does the conclusion. -/
example : ∃ s' m, createImage (fileEnv sampleFs' (fun _ => none)) 2 ⟨⟨[], []⟩, []⟩ = (.ok (), s') ∧
    createImage (linearEnv sampleFs'.readDir sampleFs'.pathToString) 2 ⟨[], []⟩ = (.ok (), ⟨m, s'.log⟩) ∧
    viewBytes (stdBufCopy sampleRead) m (linLen m / 2048) = .ok s'.dev.img := by
  obtain ⟨s', h⟩ := sample_packs []
  obtain ⟨m, h1, h2⟩ := C39_compress_view_whole sample'_bounded sample'_faithful sample_readsWhole h
  exact ⟨s', m, h, h1, h2⟩

/-- C39, totality: packing for compression returns for every finite source; in particular none of
its assertions on overwriting and alignment fails. -/
theorem C39_compress_returns {readDir : Path → Res (List FileEntry)} (pathToString : Path → Str)
    {tree : List (Path × List FileEntry)} (hret : ∀ p, DirOf readDir p → (readDir p).Returns)
    (ht : TreeOf readDir tree) (hF : Fits tree) :
    ∃ n, ∀ fuel, n ≤ fuel →
      (createImage (linearEnv readDir pathToString) fuel ⟨[], []⟩).1.Returns := by
  obtain ⟨n, hn⟩ := plan_cases pathToString hret ht hF
  refine ⟨n, fun fuel hf => (linear_returns ?_).1⟩
  rcases hn fuel hf with h | ⟨e, h⟩ <;> (rw [h]; exact ⟨by simp, by simp⟩)

/-- C39, success: every representable source packs for compression. -/
theorem C39_compress_succeeds {readDir : Path → Res (List FileEntry)} (pathToString : Path → Str)
    {tree : List (Path × List FileEntry)} (hL : Listable readDir) (ht : TreeOf readDir tree) (hF : Fits tree)
    (hS : ∀ x ∈ tree, StorableListing x.2) (hK : ∀ x ∈ tree, TableWithin256K x.2)
    {fuel : Nat} (hf : tree.length ≤ fuel) :
    (createImage (linearEnv readDir pathToString) fuel ⟨[], []⟩).1 = .ok () := by
  have h := plan_succeeds pathToString hL ht hF hS hK hf
  exact (linear_returns (by rw [h]; exact ⟨by simp, by simp⟩)).2 h

example : (createImage (linearEnv sampleFs'.readDir slashPath) 2 ⟨[], []⟩).1 = .ok () :=
  C39_compress_succeeds slashPath sample_listable sample_tree sample_fits sample_storable
    (fun x hx => few_within (sample_few x hx)) (by decide)

example : ∃ n, ∀ fuel, n ≤ fuel → (createImage (linearEnv sampleFs'.readDir slashPath) fuel ⟨[], []⟩).1.Returns :=
  C39_compress_returns slashPath (fun p hp => by
    obtain ⟨l, hl⟩ := sample_listable p hp
    change (sampleFs.readDir p).Returns
    exact ⟨by rw [hl]; simp, by rw [hl]; simp⟩) sample_tree sample_fits

/-! ## C62: short reads -/

set_option maxRecDepth 20000 in
/-- Sector 36 of the sample is the file `A/c`. -/
theorem sample_sector_36 :
    SecMap.get 36 (createImage (linearEnv sampleFs'.readDir sampleFs'.pathToString) 2 ⟨[], []⟩).2.dev =
      some (.file [['A'], ['c']] 0) := by decide +kernel

/-- A file system that delivers one byte per read. -/
def slowRead (p : Path) (off n : Nat) : Res Bytes := .ok ((slice (sampleContent p) off n).take 1)

/-- C62: the property is false.  The sector is filled by a single `read`, and what it did not deliver
is replaced by zeros without an error: with a file system that delivers one byte per read, the sample
file `A/c` with content `1, 2, 3` is compressed as `1, 0, 0`. -/
theorem C62_short_reads_false :
    ∃ (fs : SourceFs) (content : Path → Bytes) (read : Path → (off n : Nat) → Res Bytes) (m : SecMap) (k : Nat)
      (s' : PackState ImgFile),
      Bounded fs ∧ FaithfulTo fs content ∧ ReadsSome fs.readDir content read ∧
      createImage (fileEnv fs (fun _ => none)) 2 ⟨⟨[], []⟩, []⟩ = (.ok (), s') ∧
      createImage (linearEnv fs.readDir fs.pathToString) 2 ⟨[], []⟩ = (.ok (), ⟨m, s'.log⟩) ∧
      2048 * k < s'.dev.img.length ∧
      ∃ sec, readSector (stdBufCopy read) m k 2048 = .ok sec ∧ sec ≠ slice s'.dev.img (2048 * k) 2048 := by
  obtain ⟨s', h⟩ := sample_packs []
  obtain ⟨m, h1, h2, h5, h3, h4⟩ := linear_main sample'_bounded sample'_faithful h
  have hm : m.get 36 = some (.file [['A'], ['c']] 0) := by
    have := sample_sector_36
    rw [h1] at this
    exact this
  have hk : 2048 * 36 < s'.dev.img.length := by
    rcases SecMap.linLen_spec h5 with ⟨rfl, _⟩ | ⟨k, b, _, e2, e3⟩
    · cases hm
    · have := e3 _ ((SecMap.get_iff h5 _ _).1 hm)
      simp only at this
      omega
  refine ⟨sampleFs', sampleContent, slowRead, m, 36, s', sample'_bounded, sample'_faithful,
    fun _ _ _ _ _ _ => ⟨1, fun _ _ => Nat.one_pos, rfl⟩, h, h1, hk, padSector [1], ?_, ?_⟩
  · simp only [readSector, hm]
    rw [stdBufCopy_sector (c := [1]) (by decide)]
    rfl
  · rw [h4 36 hk, hm]
    intro he
    have h1 : (padSector [1])[1]? = some 0 := by
      rw [padSector, List.getElem?_append_right (by decide), List.getElem?_replicate, if_pos (by decide)]
    have h2 : (padSector (slice (sampleContent [['A'], ['c']]) (2048 * 0) 2048))[1]? = some 2 := by
      rw [padSector, List.getElem?_append_left (by decide)]; decide
    rw [he] at h1
    simp only at h1
    rw [h2] at h1
    cases h1

/-- C62, what does hold: if every read of a sector delivers the whole sector (or the rest of the
file), the view is the image.  Missing: reads that deliver less. -/
theorem C62_short_reads_partial {fs : SourceFs} {content : Path → Bytes}
    {read : Path → (off n : Nat) → Res Bytes}
    (hb : Bounded fs) (hf : FaithfulTo fs content) (hr : ReadsSectors fs.readDir content read)
    {faults : Faults} {fuel : Nat} {s' : PackState ImgFile}
    (h : createImage (fileEnv fs faults) fuel ⟨⟨[], []⟩, []⟩ = (.ok (), s')) :
    ∃ m, createImage (linearEnv fs.readDir fs.pathToString) fuel ⟨[], []⟩ = (.ok (), ⟨m, s'.log⟩) ∧
      linLen m = s'.dev.img.length ∧
      ∀ k, 2048 * k < s'.dev.img.length →
        readSector (stdBufCopy read) m k 2048 = .ok (slice s'.dev.img (2048 * k) 2048) := by
  obtain ⟨m, h1, h2, _, h3, h4⟩ := linear_main hb hf h
  refine ⟨m, h1, h2, fun k hk => ?_⟩
  have hfull : 2048 * k + 2048 ≤ s'.dev.img.length := by
    obtain ⟨_, hp⟩ := C35_length_multiple h
    omega
  exact readSector_shows hr (slice_length _ _ _ hfull) h3 (h4 k hk)

example : ReadsSectors sampleFs'.readDir sampleContent sampleRead := fun _ _ _ _ _ => rfl

end Xdvdfs.Props
