import Verif.Spec.CopyRange
import Verif.Props.Repack
import Verif.Props.StdFs
import Verif.Props.MemDev
import Verif.Props.Remap
import Verif.Props.Browser
import Verif.Props.CompressArgs

/-!
# C120: copying a part of a file
-/

namespace Xdvdfs.Props

open Xdvdfs Spec

theorem copiesParts_of {S : SourceFs} {path : Path} {data : Bytes}
    (h : ∀ off size, off + size ≤ data.length →
      (S.copy path off size).2 = .ok size ∧ (S.copy path off size).1.flatten = (data.drop off).take size) :
    CopiesParts S path data := by
  intro inOff outOff size f hle
  obtain ⟨h1, h2⟩ := h inOff size hle
  obtain ⟨w1, w2⟩ := writeChunks_flatten (S.copy path inOff size).1 outOff f
  have hl : ((data.drop inOff).take size).length = size := by simp; omega
  rw [h2] at w2
  have hne : (data.drop inOff).take size = [] ↔ size = 0 := by rw [← List.length_eq_zero_iff, hl]
  refine ⟨(writeChunks (fun _ => none) outOff (S.copy path inOff size).1 f).2, ?_, ?_, ?_, ?_, ?_, ?_⟩
  · simp only [fileEnv]
    cases hw : writeChunks (fun _ => none) outOff (S.copy path inOff size).1 f with
    | mk r f' =>
      rw [hw] at w1
      simp only at w1
      subst w1
      simp only [h1]
  · intro i hi
    rw [w2, writeAt_get, if_neg (by rw [hne]; omega), if_neg (by omega), if_pos (by omega), Nat.add_sub_cancel_left,
      List.getElem?_take, if_pos hi, List.getElem?_drop]
  · intro i hi hlen
    rw [w2, writeAt_get]
    split
    · rfl
    · rcases hi with hi | hi
      · simp only [if_pos hi, if_pos hlen]
      · rw [if_neg (by omega), if_neg (by omega)]
  · intro i hi hlt h0
    rw [w2, writeAt_get, if_neg (by rw [hne]; omega), if_pos hlt, if_neg (by omega)]
  · intro h0
    rw [w2, writeAt_length, if_neg (by rw [hne]; omega), hl]
  · intro h0
    rw [w2, h0]
    simp [writeAt]

/-- C120, a directory of the host: any part of a file can be copied. -/
theorem C120_host {r : DirReader} (hs : ∀ b, (r.split b).flatten = b) {fs : HostFs} {root : HostPath} {p : Path}
    {data : Bytes} (hf : IsFile fs (root ++ p) data) : CopiesParts (stdFs r fs root) p data := by
  apply copiesParts_of
  intro off size hle
  have hf' : fs (root ++ p) = some (.file data) := hf
  simp only [stdFs, stdCopy, hf', hs, List.length_take, List.length_drop]
  exact ⟨by rw [Nat.min_eq_left (by omega)], trivial⟩

/-- C120, a folder in the browser: any part of a file that can be read can be copied. -/
theorem C120_browser {b : Browser} {fs : HostFs} {root : HostPath} {fuel : Nat} {t : WebTree}
    (hn : webFsNew b fs fuel root = .ok t) {p : Path} (ht : t.walk p = some .file) {data : Bytes}
    (hf : IsFile fs (root ++ p) data) (hr : b.noRead (root ++ p) = false) : CopiesParts (webFs b fs root t) p data := by
  apply copiesParts_of
  intro off size hle
  have hf' : fs (root ++ p) = some (.file data) := hf
  have hl : ((data.drop off).take size).length = size := by simp; omega
  simp only [webFs, webCopy, ht, getFile, hr, hf']
  rw [if_neg (by decide)]
  simp only
  rw [if_pos hl]
  simp

/-- C120, an overlay: every file that it lists is a file of the host that the rules map there, and if any part of that file
can be copied from the host, then it can be copied from the overlay. -/
theorem C120_overlay {G : GlobEngine} {rules : List Rule} {host : SourceFs} {fuel : Nat} {t : Trie MapEntry}
    (h : remapNew G rules host.readDir fuel = .ok t) {k : Nat} {d : Path} {e : FileEntry}
    (he : EntryIn (remapFs host t k).readDir d e) (hf : e.isDir = false) :
    ∃ p e', EntryIn host.readDir p e' ∧ MapsTo G rules (p ++ [e'.name]) (d ++ [e.name]) ∧
      ∀ data, CopiesParts host (p ++ [e'.name]) data → CopiesParts (remapFs host t k) (d ++ [e.name]) data := by
  obtain ⟨p, e', h1, _, _, h2, h3, _⟩ := C50_listing_copy_agree h he hf
  refine ⟨p, e', h1, h2, fun data hc inOff outOff size f hle => ?_⟩
  have := hc inOff outOff size f hle
  simp only [fileEnv, h3] at this ⊢
  exact this

theorem lists_inv {wf : Nat} {fs fs' : ImgFs} {dirs : List Path} (h : Lists wf fs dirs fs') (hc : fs.cache = Trie.empty) :
    fs'.dev = fs.dev ∧ fs'.vol = fs.vol ∧ CacheInv fs.dev wf fs.vol.root fs'.cache ∧
      ∀ p ∈ dirs, Known fs.dev wf fs.vol.root fs'.cache p := by
  induction h with
  | none => exact ⟨rfl, rfl, by rw [hc]; exact cacheInv_empty _ _ _, nofun⟩
  | next h1 h2 ih =>
    obtain ⟨i1, i2, i3, i4⟩ := ih
    obtain ⟨_, ha, hk⟩ := readDir_spec (by rw [i1, i2]; exact i3) h2
    refine ⟨ha.dev.trans i1, by rw [ha.vol, i2], by rw [← i1, ← i2]; exact ha.inv, ?_⟩
    intro p hp
    rw [List.mem_append, List.mem_singleton] at hp
    rcases hp with hp | rfl
    · rw [← i1, ← i2]; exact ha.known p (by rw [i1, i2]; exact i4 p hp)
    · rw [← i1, ← i2]; exact hk

theorem cached {wf : Nat} {fs fs' : ImgFs} {dirs : List Path} (hl : Lists wf fs dirs fs') (hc : fs.cache = Trie.empty)
    {p : Path} (hd : p ∈ dirs) {ds : List DirEnt} {d : DirEnt} {name : Str}
    (hds : imgDirents fs.dev wf fs.vol.root p = .ok ds) (he : firstNamed ds name = some d) :
    fs'.cache.get (p ++ [name]) = .ok (some d) := by
  obtain ⟨_, _, i3, i4⟩ := lists_inv hl hc
  obtain ⟨ds', k1, k2, k3⟩ := i4 p hd
  rw [hds] at k1
  cases k1
  have hlook : Trie.look (p ++ [name]) fs'.cache = some d := by rw [k3, he]
  rw [Trie.get_eq i3.1 (Trie.look_latin1 i3.1 hlook) (by simp), hlook]

/-- The data of an entry can be read in parts. -/
theorem data_parts {dev : Dev} (hp : PartsReadable dev) {d : DiskData} {data : Bytes} (hc : readDataAll dev d = .ok data) :
    data.length = d.data.size.toNat ∧ ∀ off size, off + size ≤ data.length → 0 < size →
      dev.read (2048 * d.data.sector.toNat + off) size = .ok ((data.drop off).take size) := by
  have hl := readDataAll_len hc
  refine ⟨hl, fun off size hle h0 => ?_⟩
  unfold readDataAll at hc
  have hz : ¬ d.data.size = 0 := fun hx => by rw [hx] at hl; simp at hl; subst hl; simp at hle; omega
  rw [if_neg hz] at hc
  obtain ⟨o, ho1, ho2⟩ := Res.bind_eq_ok.1 hc
  have hoff : o = 2048 * d.data.sector.toNat := by
    unfold Region.offset at ho1
    rw [if_neg (by omega)] at ho1
    cases ho1; rfl
  subst hoff
  exact hp _ _ _ ho2 off size hle

/-- C120, an image: any part of a file in a directory that has been listed can be copied. -/
theorem C120_image {dev : Dev} {fs fs' : ImgFs} (hn : ImgFs.new dev = .ok (some fs)) (hp : PartsReadable dev) {wf : Nat}
    {dirs : List Path} (hl : Lists wf fs dirs fs') {p : Path} (hd : p ∈ dirs) {ds : List DirEnt} {d : DirEnt} {name : Str}
    (hds : imgDirents dev wf fs.vol.root p = .ok ds) (he : firstNamed ds name = some d) {data : Bytes}
    (hc : readDataAll dev d.node.dirent = .ok data) (rd : Path → Res (List FileEntry)) :
    CopiesParts (fs'.source rd (defaultCopier dev)) (p ++ [name]) data := by
  obtain ⟨rfl, h2, _⟩ := new_spec hn
  have hg := cached hl h2 hd hds he
  apply copiesParts_of
  intro off size hle
  show (fs'.copy _ _ _ _).2 = _ ∧ (fs'.copy _ _ _ _).1.flatten = _
  obtain ⟨hlen, hread⟩ := data_parts hp hc
  unfold ImgFs.copy
  simp only [hg, Nat.min_eq_left (show size ≤ d.node.dirent.data.size.toNat by omega)]
  by_cases h0 : size = 0
  · subst h0; simp
  · rw [if_neg h0]
    simp only [Region.offset]
    rw [if_neg (by omega)]
    simp only [sectorSize]
    obtain ⟨g1, g2⟩ := defaultCopier_ok hp (hread off size hle (by omega))
    exact ⟨g2, g1⟩

/-- C120 is false beyond the end of a file of an image.  If the part asked for begins inside the file and ends after it,
but inside the last sector of the file, then copying succeeds and delivers as many bytes as the file has, although there
are fewer: what follows the file in the image is copied too. -/
theorem C120_beyond_end_false {dev : Dev} {fs fs' : ImgFs} (hn : ImgFs.new dev = .ok (some fs)) (hp : PartsReadable dev)
    (hw : WholeSectors dev) {wf : Nat} {dirs : List Path} (hl : Lists wf fs dirs fs') {p : Path} (hd : p ∈ dirs)
    {ds : List DirEnt} {d : DirEnt} {name : Str} (hds : imgDirents dev wf fs.vol.root p = .ok ds)
    (he : firstNamed ds name = some d) {data : Bytes} (hc : readDataAll dev d.node.dirent = .ok data)
    (rd : Path → Res (List FileEntry)) {off size : Nat} (h0 : 0 < off) (h1 : off < data.length) (h2 : data.length ≤ size)
    (h3 : off + data.length ≤ roundUp data.length) :
    ((fs'.source rd (defaultCopier dev)).copy (p ++ [name]) off size).2 = .ok data.length ∧
    ((fs'.source rd (defaultCopier dev)).copy (p ++ [name]) off size).1.flatten.length = data.length ∧
    data.length > (data.drop off).length := by
  obtain ⟨rfl, k2, _⟩ := new_spec hn
  have hg := cached hl k2 hd hds he
  obtain ⟨hlen, _⟩ := data_parts hp hc
  have hz : ¬ d.node.dirent.data.size = 0 := fun hx => by rw [hx] at hlen; simp at hlen; subst hlen; simp at h1
  unfold readDataAll at hc
  rw [if_neg hz] at hc
  obtain ⟨o, ho1, ho2⟩ := Res.bind_eq_ok.1 hc
  have hoff : o = 2048 * d.node.dirent.data.sector.toNat := by
    unfold Region.offset at ho1
    rw [if_neg (by omega)] at ho1
    cases ho1; rfl
  subst hoff
  obtain ⟨b', hb'⟩ := hw _ _ _ (by omega) ho2
  have hbl := fs.dev.read_len _ _ _ hb'
  have hread := hp _ _ _ hb' off data.length (by rw [hbl, ← hlen]; exact h3)
  obtain ⟨g1, g2⟩ := defaultCopier_ok hp hread
  have e : (fs'.source rd (defaultCopier fs.dev)).copy (p ++ [name]) off size =
      defaultCopier fs.dev (2048 * d.node.dirent.data.sector.toNat + off) data.length := by
    show fs'.copy _ _ _ _ = _
    unfold ImgFs.copy
    simp only [hg, ← hlen, Nat.min_eq_right h2]
    rw [if_neg (by omega)]
    simp only [Region.offset]
    rw [if_neg (by omega)]
  rw [e]
  exact ⟨g2, by rw [g1]; exact slice_length _ _ _ (by rw [hbl, ← hlen]; exact h3), by simp; omega⟩

/-! ## Into memory -/

theorem chunkLoop_nonempty (dev : Dev) (off size : Nat) : ∀ (fuel copied : Nat),
    ∀ c ∈ (chunkLoop dev off size fuel copied).1, c ≠ [] := by
  intro fuel
  induction fuel with
  | zero => intro _ c hc; simp [chunkLoop] at hc
  | succ fuel ih =>
    intro copied c hc
    unfold chunkLoop at hc
    split at hc
    · next hlt =>
      simp only at hc
      split at hc
      · next b hb =>
        rcases List.mem_cons.1 hc with rfl | hc
        · have := dev.read_len _ _ _ hb
          rintro rfl
          simp only [List.length_nil] at this
          omega
        · exact ih _ c hc
      · simp at hc
      · simp at hc
      · simp at hc
    · split at hc <;> simp at hc

theorem memWriteChunks_flatten : ∀ (cs : List Bytes) (off : Nat) (dest : Bytes), (∀ c ∈ cs, c ≠ []) →
    off + cs.flatten.length ≤ dest.length →
    memWriteChunks off cs dest = .ok (dest.take off ++ cs.flatten ++ dest.drop (off + cs.flatten.length)) := by
  intro cs
  induction cs with
  | nil => intro off dest _ _; simp [memWriteChunks]
  | cons c cs ih =>
    intro off dest hne hle
    have hc := hne c (by simp)
    have hc0 : 0 < c.length := List.length_pos_iff.2 hc
    simp only [List.flatten_cons, List.length_append] at hle ⊢
    have hw : memWrite off c dest = .ok (dest.take off ++ c ++ dest.drop (off + c.length)) := by
      unfold memWrite; rw [if_neg (by omega)]
    have ht : (dest.take off ++ c).length = off + c.length := by simp; omega
    simp only [memWriteChunks, hw, Res.ok_bind]
    rw [ih _ _ (fun x hx => hne x (by simp [hx])) (by rw [List.length_append, ht, List.length_drop]; omega)]
    rw [← ht, List.take_left, ht, ← List.drop_drop, ← ht, List.drop_left, ht, List.drop_drop, ← Nat.add_assoc]
    simp only [List.append_assoc]

/-- C120, from an image into memory: any part of a file in a directory that has been listed can be copied to any place in
a buffer, and the rest of the buffer stays as it is. -/
theorem C120_image_buffer {dev : Dev} {fs fs' : ImgFs} (hn : ImgFs.new dev = .ok (some fs)) (hp : PartsReadable dev)
    {wf : Nat} {dirs : List Path} (hl : Lists wf fs dirs fs') {p : Path} (hd : p ∈ dirs) {ds : List DirEnt} {d : DirEnt}
    {name : Str} (hds : imgDirents dev wf fs.vol.root p = .ok ds) (he : firstNamed ds name = some d) {data : Bytes}
    (hc : readDataAll dev d.node.dirent = .ok data) {inOff outOff size : Nat} {buf : Bytes}
    (h1 : inOff + size ≤ data.length) (h2 : outOff + size ≤ buf.length) :
    imgBufCopy (defaultCopier dev) fs' (p ++ [name]) buf inOff outOff size =
      .ok (size, buf.take outOff ++ (data.drop inOff).take size ++ buf.drop (outOff + size)) := by
  obtain ⟨rfl, k2, _⟩ := new_spec hn
  have hg := cached hl k2 hd hds he
  obtain ⟨hlen, hread⟩ := data_parts hp hc
  unfold imgBufCopy ImgFs.copy
  simp only [hg, Nat.min_eq_left (show size ≤ d.node.dirent.data.size.toNat by omega)]
  by_cases h0 : size = 0
  · subst h0; simp [memWriteChunks]
  · rw [if_neg h0]
    simp only [Region.offset]
    rw [if_neg (by omega)]
    simp only [sectorSize]
    obtain ⟨g1, g2⟩ := defaultCopier_ok hp (hread inOff size h1 (by omega))
    have hf : (defaultCopier fs.dev (2048 * d.node.dirent.data.sector.toNat + inOff) size).1.flatten.length = size := by
      rw [g1]; simp; omega
    rw [memWriteChunks_flatten (defaultCopier fs.dev (2048 * d.node.dirent.data.sector.toNat + inOff) size).1 outOff buf
      (chunkLoop_nonempty _ _ _ _ _) (by rw [hf]; exact h2), g2, hf, g1]
    rfl

/-- C120, from a directory of the host into memory. -/
theorem C120_host_buffer {fs : HostFs} {root : HostPath} {p : Path} {data : Bytes} (hf : IsFile fs (root ++ p) data)
    {most : Path → (off n : Nat) → Nat} (hm : WholeReads most) :
    FillsFrom (stdBufCopy (hostRead most fs root)) p data ∧ FillsFrom (stdBufCopy (stdRead fs root)) p data := by
  have hf' : fs (root ++ p) = some (.file data) := hf
  have key : ∀ read : Path → (off n : Nat) → Res Bytes, (∀ off n, read p off n = .ok ((data.drop off).take n)) →
      FillsFrom (stdBufCopy read) p data := by
    intro read hr inOff buf
    unfold stdBufCopy
    rw [if_neg (by omega)]
    simp only [Nat.sub_zero, Nat.min_self, hr, Res.ok_bind, Nat.zero_add, List.take_zero, List.nil_append]
    have hl : ((data.drop inOff).take buf.length).length = min buf.length (data.length - inOff) := by simp
    rw [if_neg (by omega), List.take_left, List.drop_length, List.append_nil, hl,
      show buf.length - min buf.length (data.length - inOff) = buf.length - (data.length - inOff) by omega]
  refine ⟨key _ fun off n => ?_, key _ fun off n => ?_⟩
  · simp only [hostRead, hf', slice]
    rw [List.take_take, Nat.min_eq_right (hm p off n)]
  · simp only [stdRead, hf']

/-- C120, from a folder in the browser into memory. -/
theorem C120_browser_buffer {b : Browser} {fs : HostFs} {root : HostPath} {t : WebTree} {p : Path}
    (ht : t.walk p = some .file) {data : Bytes} (hf : IsFile fs (root ++ p) data) (hr : b.noRead (root ++ p) = false) :
    FillsFrom (webBufCopy b fs root t) p data := by
  have hf' : fs (root ++ p) = some (.file data) := hf
  intro inOff buf
  have e : (data.drop inOff).take (min data.length (min buf.length buf.length)) = (data.drop inOff).take buf.length := by
    rw [Nat.min_self, ← List.take_take, List.take_of_length_le]
    simp; omega
  simp only [webBufCopy, ht, getFile, hr, hf']
  rw [if_neg (by decide)]
  simp only
  have hl : ((data.drop inOff).take buf.length).length = min buf.length (data.length - inOff) := by simp
  rw [e, if_neg (by omega), if_neg (by omega), hl]
  simp only [Nat.sub_zero, List.take_zero, List.nil_append]
  rw [show buf.length - min buf.length (data.length - inOff) = buf.length - (data.length - inOff) by omega]

/-! ## The hypotheses hold -/

/-- For a host directory: the last two bytes of a file of three, written over the end of a file of two. -/
example : ∃ f', (fileEnv (stdFs treeReader treeHost [['s']]) (fun _ => none)).copyIn [['A'], ['c']] 1 1 2 ⟨[7, 8], []⟩ =
    (.ok 2, f') ∧ f'.img = [7, 2, 3] := by
  obtain ⟨f', h1, h2, h3, _, h5, _⟩ := C120_host (r := treeReader) (fun b => by simp [treeReader]) (fs := treeHost)
    (root := [['s']]) (p := [['A'], ['c']]) (data := [1, 2, 3]) rfl 1 1 2 ⟨[7, 8], []⟩ (by decide)
  refine ⟨f', h1, ?_⟩
  have a0 := h3 0 (.inl (by decide)) (by decide)
  have a1 := h2 0 (by decide)
  have a2 := h2 1 (by decide)
  have a3 : f'.img.length = 3 := h5 (by decide)
  match hf : f'.img, a0, a1, a2, a3 with
  | [x, y, z], a0, a1, a2, _ => simp at a0 a1 a2; rw [a0, a1, a2]

/-- For a folder in the browser. -/
example : ∃ t, webFsNew (pairBrowser true) pairHost 5 [['s']] = .ok t ∧ t.walk [['b']] = some .file ∧
    IsFile pairHost ([['s']] ++ [['b']]) [2] := ⟨_, rfl, rfl, rfl⟩

/-- For an image, and for a part that ends beyond the end of the file: a file of three bytes. -/
example : ∃ img fs fs' ds d, ImgFs.new (fileDev img) = .ok (some fs) ∧ WholeSectors (fileDev img) ∧
    Lists 2 fs [[]] fs' ∧ imgDirents (fileDev img) 2 fs.vol.root [] = .ok ds ∧ firstNamed ds ['b'] = some d ∧
    readDataAll (fileDev img) d.node.dirent = .ok [1, 2, 3] ∧ roundUp 3 = 2048 := by
  have hok := big_ok (c := [1, 2, 3]) (by decide)
  obtain ⟨s1, h1⟩ := flat_packs hok []
  obtain ⟨fs, n1, n2⟩ := packed_same (flat_bounded _) (flat_faithful hok.distinct) h1
  obtain ⟨hs, hc⟩ := n2 2 (flat_scanFuel (by simp))
  obtain ⟨e1, e2, _⟩ := new_spec n1
  have hlen := (C35_length_multiple h1).2
  obtain ⟨e', ⟨hp, l, hl, hm⟩, j1, j2, j3⟩ := hs.entry ((flat_entries [] ⟨['b'], false, 3⟩).2
    ⟨rfl, _, List.mem_singleton.2 rfl, rfl⟩)
  obtain ⟨ds, k1, k2⟩ := Res.bind_eq_ok.1 hl
  simp only [Res.pure_eq, Res.ok.injEq] at k2
  subst k2
  obtain ⟨d, hd, rfl⟩ := List.mem_map.1 hm
  obtain ⟨_, _, _, hP⟩ := pack_packed (flat_bounded _) (flat_faithful hok.distinct) h1
  have hdist := hs.distinct (flat_listable _) hP.distinct
  have hfirst := firstNamed_distinct (hdist [] _ hp hl) hd
  rw [show d.nameStr = ['b'] from j1] at hfirst
  obtain ⟨⟨l', fs'⟩, hrd⟩ := readDir_total (wf := 2) (fs := fs) (p := []) (by rw [e2]; exact cacheInv_empty _ _ _) (.inl rfl)
    (by rw [e1]; exact hl) (by
      intro e he
      obtain ⟨x, hx, hxn, _⟩ := (hs.symm (flat_listable _)).entry ⟨hp, _, hl, he⟩
      obtain ⟨_, y, hy, rfl⟩ := (flat_entries _ _).1 hx
      rw [List.mem_singleton.1 hy] at hxn
      rw [← hxn]
      intro c hc
      rw [List.mem_singleton.1 hc]
      decide)
  have hdata := hc [] ds d hp k1 hd j2
  rw [show d.nameStr = ['b'] from j1] at hdata
  exact ⟨s1.dev.img, fs, fs', ds, d, n1, fileDev_whole (by omega), .next (.none fs) hrd, k1, hfirst, hdata, rfl⟩

/-- For an overlay: the file `o/A/c`, which stands for `A/c` of the host. -/
example : ∃ t k, remapNew literalGlobs sampleRules sampleFs'.readDir 10 = .ok t ∧
    EntryIn (remapFs sampleFs' t k).readDir [['o'], ['A']] ⟨['c'], false, 3⟩ := by
  obtain ⟨t, ht⟩ := sample_remaps
  obtain ⟨m, s, r, c, h1, h2, h3, _⟩ := id sample_mapsTo
  obtain ⟨d, n, e1, e2, _⟩ := C69_mapped_files_partial ht sample_noConflicts
    ((sample_entries [['A']] ⟨['c'], false, 3⟩).2 (.inr (.inr ⟨rfl, rfl⟩))) rfl ⟨m, r, h2, h3⟩ (Nat.le_refl _)
  have := List.append_inj' (t₂ := [['c']]) (s₂ := [['o'], ['A']]) (mapsTo_unique e1 sample_mapsTo) rfl
  obtain ⟨rfl, hn⟩ := this
  cases hn
  exact ⟨t, _, ht, e2⟩

end Xdvdfs.Props
