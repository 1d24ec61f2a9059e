import Verif.Props.Injective
import Verif.Proof.Show

/-!
# Which sources can be packed (C144)
-/

namespace Xdvdfs.Props

open Xdvdfs Spec TabWriter

/-- C144.  A source whose directories can all be listed and whose files can all be copied, that fits into an image and has
no very large directory, packs into a working output if and only if its names are at most 255 bytes in characters of
Windows-1252 and differ, ignoring ASCII case, within a directory, and its files are below 4 GiB. -/
theorem C144_packs_iff {σ : Type} (env : PackEnv σ) {tree : List (Path × List FileEntry)} (hL : Listable env.readDir)
    (ht : TreeOf env.readDir tree) (hF : Fits tree) (hK : ∀ x ∈ tree, FewEntries x.2) (hdev : DeviceWorks env) {fuel : Nat}
    (hf : tree.length ≤ fuel) (s : PackState σ) :
    (createImage env fuel s).1 = .ok () ↔ ∀ x ∈ tree, StorableListing x.2 := by
  constructor
  · intro h x hx
    obtain ⟨h1, h2⟩ := (ht.2 x.1 x.2).1 hx
    have h : createImage env fuel s = (.ok (), (createImage env fuel s).2) := by rw [← h]
    refine ⟨?_, fun e he => C32_unrepresentable_rejected h ⟨h1, x.2, h2, he⟩⟩
    unfold DistinctNames
    rw [List.pairwise_map]
    exact C31_duplicates_rejected h h1 h2
  · intro hS
    exact C33_representable_tree_packs_few env hL ht hF hS hK hdev hf s

theorem sum_le_total : ∀ (ls : List Nat) (pos : Nat), pos + ls.sum ≤ total pos ls := by
  intro ls
  induction ls with
  | nil => intro pos; simp [total]
  | cons l ls ih =>
    intro pos
    have h1 := ih (place pos l + l)
    have h2 := le_place pos l
    simp only [total, List.sum_cons]
    omega

theorem buildTable_sum {items : List Item} {w : TabWriter} (hb : buildTable items = .ok w) (hne : items ≠ []) {n : Nat}
    (hn : w.dirtabSize = .ok n) : (items.map (fun it => elen it.name.length)).sum ≤ n := by
  obtain ⟨w0, T, hI, hc, ht⟩ := buildTable_inv hb
  unfold dirtabSize at hn
  split at hn
  · next he =>
    have hd := hI.data
    rw [← ht, he] at hd
    have : items = [] := by simpa using hd.symm
    exact absurd this hne
  · obtain ⟨_, lens, h1, h2, _⟩ := computeSize_ok hI.wf hc
    rw [h2] at hn
    cases hn
    obtain ⟨ns, _, h3⟩ := Rep.nodes hI.wf.zip.rep
    have h4 := h1 ns h3
    have h5 := sum_le_total lens 0
    have h6 : lens.sum = (items.map (fun it => elen it.name.length)).sum := by
      rw [lensOnDisk_sum h4]
      have hp : (ns.map AvlNode.data).Perm (items.map itemData) := by rw [h3]; exact hI.preorder_perm
      have hq := hp.map (fun d => elen d.name.length)
      rw [List.map_map, List.map_map] at hq
      exact List.Perm.sum_nat hq
    omega

/-- C144, very large directories: if a pack succeeds, the entries of a directory take at most 262 408 bytes, 14 bytes and
the name each, rounded up to a multiple of four.  (Up to 227 840 bytes always fit, by `C144_packs_iff`; in between it
depends on the names and their order.) -/
theorem C144_directory_limit {fs : SourceFs} {content : Path → Bytes} {faults : Faults} {fuel : Nat} {img0 : Bytes}
    {s' : PackState ImgFile} (hb : Bounded fs) (hf : FaithfulTo fs content)
    (h : createImage (fileEnv fs faults) fuel ⟨⟨img0, []⟩, []⟩ = (.ok (), s')) {p : Path} {l : List FileEntry}
    (hp : DirOf fs.readDir p) (hl : fs.readDir p = .ok l) :
    (l.map (fun e => (14 + e.name.length + 3) / 4 * 4)).sum ≤ 262408 := by
  by_cases hne : l = []
  · subst hne; simp
  obtain ⟨M, Loc, l0, P⟩ := pack_packed hb hf h
  obtain ⟨wf, hwf⟩ := scanFuel_exists P.listable P.finite.choose_spec.2
  obtain ⟨x, k1, k2, _⟩ := P.image.table_at P.distinct P.root P.rootDir hwf hp
  obtain ⟨_, lst, w, r, n, n', g1, g2, g3, g4, g5, g6⟩ := P.image.dirs p x k1 k2
  rw [hl] at g1
  cases g1
  obtain ⟨sz, hsz, _, _⟩ := g5.2
  have hi : l.map (itemOf M p) ≠ [] := by simpa using hne
  have hsum := buildTable_sum g3 hi hsz
  obtain ⟨t, ht⟩ := placed_tree g3 g4 hi g5 hsz
  obtain ⟨d, hd, hend⟩ := ht.last
  have hoff : d.offset ≤ 2048 * (regionOf x).sector.toNat + 4 * 65534 := by
    rcases rooted_target ht.rooted d hd with k | ⟨c, hc, k⟩
    · omega
    · have two : ∀ lk ∈ [c.node.left, c.node.right], lk.toNat ≤ 65534 := by
        intro lk hlk
        rcases (rooted_links ht.rooted).2 c hc lk hlk with e | ⟨e, _⟩
        · rw [e]; decide
        · have h1 := lk.toNat_lt
          have h2 : lk.toNat ≠ 65535 := fun h => e.2 (UInt16.toNat_inj.1 h)
          omega
      have h1 := two c.node.left (by simp)
      have h2 := two c.node.right (by simp)
      omega
  have hlen : entryLen d ≤ 272 := by
    have k : d.name.length = d.node.dirent.nameLen.toNat := by
      have key : ∀ o y, readDirent (fileDev s'.dev.img) o = .ok (some y) → y.name.length = y.node.dirent.nameLen.toNat := by
        intro o y hy
        unfold readDirent at hy
        obtain ⟨buf, _, hy⟩ := Res.bind_eq_ok.1 hy
        split at hy
        · cases hy
        · obtain ⟨nm, hn, hy⟩ := Res.bind_eq_ok.1 hy
          cases hy
          exact (fileDev s'.dev.img).read_len _ _ _ hn
      exact key _ _ (rooted_read ht.rooted d hd)
    have := d.node.dirent.nameLen.toNat_lt
    unfold entryLen
    omega
  have : (l.map (itemOf M p)).map (fun it => elen it.name.length) = l.map (fun e => (14 + e.name.length + 3) / 4 * 4) := by
    rw [List.map_map]; rfl
  rw [this] at hsum
  omega

/-- The hypotheses hold for the sample source: it packs, and its listings can be stored. -/
example (s : PackState ImgFile) : (createImage (fileEnv sampleFs' (fun _ => none)) 2 s).1 = .ok () :=
  (C144_packs_iff (fileEnv sampleFs' (fun _ => none)) sample_listable sample_tree sample_fits sample_few
    (fileEnv_works (fun _ e _ _ => ⟨e.len, rfl⟩)) (by decide) s).2 sample_storable

/-- The other direction: a directory with files `a` and `A` does not pack. -/
example (s : PackState ImgFile) : (createImage (fileEnv (flatFs [(['a'], []), (['A'], [])]) (fun _ => none)) 2 s).1 ≠ .ok () := by
  rw [ne_eq, C144_packs_iff _ (flat_listable _) (flat_tree _) ?_ ?_
    (fileEnv_works (fun _ e _ _ => ⟨e.len, rfl⟩)) (by decide) s]
  · intro h
    have h1 := (h _ (List.mem_singleton.2 rfl)).1
    unfold DistinctNames at h1
    exact absurd h1 (by decide)
  · exact ⟨by decide, by decide⟩
  · intro x hx
    rw [List.mem_singleton.1 hx]
    show _ ≤ _
    decide

end Xdvdfs.Props
