import Verif.Props.Unpack
import Verif.Proof.Compress

/-!
# Unpacking into a fresh place: exactly when it succeeds and what it writes (C66)
-/

namespace Xdvdfs.Props
open Xdvdfs Spec

namespace UnpackExact

/-- The bytes of a file that the image file holds, from `base` on. -/
def available (img : Bytes) (base : Nat) (d : DiskData) : Bytes :=
  (img.drop (base + 2048 * d.data.sector.toNat)).take d.data.size.toNat

theorem available_length (img : Bytes) (base : Nat) (d : DiskData) :
    (available img base d).length = d.data.size.toNat ↔
      d.data.size = 0 ∨ base + 2048 * d.data.sector.toNat + d.data.size.toNat ≤ img.length := by
  have : d.data.size = 0 ↔ d.data.size.toNat = 0 := by
    constructor
    · intro h; rw [h]; rfl
    · intro h; exact UInt32.toNat_inj.1 h
  rw [this]
  simp [available]
  omega

theorem extract_clone (img : Bytes) (base : Nat) (d : DiskData) :
    RawImage.extract ⟨img, base, true⟩ d = .ok (available img base d) := by
  unfold RawImage.extract available
  by_cases h0 : d.data.size = 0
  · rw [if_pos (by simp [Region.isEmpty, h0]), h0]; simp
  · have hp : 0 < d.data.size.toNat := by
      rcases Nat.eq_zero_or_pos d.data.size.toNat with h' | h'
      · exact absurd (UInt32.toNat_inj.mp h') h0
      · exact h'
    rw [if_neg (by simp [Region.isEmpty, h0]), Region.offset_of_lt hp]
    simp only [Res.ok_bind, if_true, slice, Nat.add_zero]
    rw [Nat.add_comm]

theorem extract_device {img : Bytes} {base : Nat} (hb : base < 2 ^ 62) (d : DiskData) :
    (d.data.size = 0 ∨ base + 2048 * d.data.sector.toNat + d.data.size.toNat ≤ img.length →
      RawImage.extract ⟨img, base, false⟩ d = .ok (available img base d)) ∧
    (¬ (d.data.size = 0 ∨ base + 2048 * d.data.sector.toNat + d.data.size.toNat ≤ img.length) →
      RawImage.extract ⟨img, base, false⟩ d = .err .io) := by
  unfold RawImage.extract available
  by_cases h0 : d.data.size = 0
  · rw [if_pos (by simp [Region.isEmpty, h0]), h0]; simp
  · have hp : 0 < d.data.size.toNat := by
      rcases Nat.eq_zero_or_pos d.data.size.toNat with h' | h'
      · exact absurd (UInt32.toNat_inj.mp h') h0
      · exact h'
    have hs := d.data.sector.toNat_lt
    rw [if_neg (by simp [Region.isEmpty, h0]), Region.offset_of_lt hp]
    simp only [Res.ok_bind, Bool.false_eq_true, if_false, readDataAll, if_neg h0, Region.offset_of_lt hp, Nat.add_zero, h0,
      false_or]
    show (_ → offsetRead (fileRead img) base _ _ = _) ∧ (_ → offsetRead (fileRead img) base _ _ = _)
    unfold offsetRead
    rw [if_pos (by omega)]
    unfold fileRead
    rw [if_neg (by omega)]
    constructor
    · intro h
      rw [if_pos (by omega)]
      simp only [slice]
      congr 3
      omega
    · intro h
      rw [if_neg (by omega)]

theorem base_small {img : Bytes} {base : Nat} (h : offsetNew (fileDev img) = .ok base) : base < 2 ^ 62 := by
  have := offset_listed h
  simp [xdvdOffsets] at this
  omega

end UnpackExact

open UnpackExact in
/-- C66, exactly: unpacking an image whose tree can be listed into a fresh place, without faults of the host, where the listed
names are host names that lead to different places.  If the handle of the image can be duplicated it always succeeds, and every
listed file is written with the bytes that the image file has of it: all of them exactly if it is empty or ends inside the
image file.  If the handle cannot be duplicated it succeeds exactly if every listed file is empty or ends inside the image file,
and writes the same. -/
theorem C66_unpack_exactly {h : Host} (hfaults : ∀ p, h.faults p = .none) {img : Bytes} (clones : Bool) {dest : Str}
    {fuel : Nat} {host : HostFs} (hfresh : FreshDest h dest host)
    {base : Nat} {vol : VolDesc} {tree : List (Str × DirEnt)} (hbase : offsetNew (fileDev img) = .ok base)
    (hvol : readVolume (offsetDev (fileDev img) base) = .ok vol)
    (htree : fileTree (offsetDev (fileDev img) base) vol.root fuel = .ok tree)
    (hnames : ∀ x ∈ tree, HostEntry x) (hplaces : (tree.map entryRel).Nodup) :
    ((∃ host', cmdUnpack h img clones dest fuel host = (.ok (), host')) ↔ clones = true ∨
      ∀ x ∈ tree, x.2.node.dirent.isDirectory = false → x.2.node.dirent.data.size = 0 ∨
        base + 2048 * x.2.node.dirent.data.sector.toNat + x.2.node.dirent.data.size.toNat ≤ img.length) ∧
    (∀ host', cmdUnpack h img clones dest fuel host = (.ok (), host') →
      ∀ x ∈ tree, x.2.node.dirent.isDirectory = false → ∃ b,
        host' (placeOf h dest ++ entryRel x) = some (.file b) ∧
        b = (img.drop (base + 2048 * x.2.node.dirent.data.sector.toNat)).take x.2.node.dirent.data.size.toNat ∧
        (b.length = x.2.node.dirent.data.size.toNat ↔ x.2.node.dirent.data.size = 0 ∨
          base + 2048 * x.2.node.dirent.data.sector.toNat + x.2.node.dirent.data.size.toNat ≤ img.length)) := by
  have hcmd : cmdUnpack h img clones dest fuel host = copyoutLoop h ⟨img, base, clones⟩ dest tree host := by
    unfold cmdUnpack
    rw [hbase]
    simp only
    rw [hvol]
    simp only [copyoutDirectory]
    have hdev : RawImage.dev ⟨img, base, clones⟩ = offsetDev (fileDev img) base := rfl
    rw [hdev, htree]
  rw [hcmd]
  have hlen : ∀ x ∈ tree, x.2.node.dirent.nameLen ≠ 0 := by
    intro x hx e0
    have := fileTree_named htree x hx
    rw [e0] at this
    have hx0 : x.2.name = [] := List.eq_nil_of_length_eq_zero this
    exact (hnames x hx).name.1 (by simp [DirEnt.nameStr, hx0, decodeName])
  let nodeOf : Str × DirEnt → HostNode := fun x =>
    if x.2.node.dirent.isDirectory then .dir else .file (available img base x.2.node.dirent)
  have run : (∀ x ∈ tree, x.2.node.dirent.isDirectory = false →
        RawImage.extract ⟨img, base, clones⟩ x.2.node.dirent = .ok (available img base x.2.node.dirent)) →
      ∃ fs', copyoutLoop h ⟨img, base, clones⟩ dest tree host = (.ok (), fs') ∧
        ∀ x ∈ tree, x.2.node.dirent.isDirectory = false →
          fs' (placeOf h dest ++ entryRel x) = some (.file (available img base x.2.node.dirent)) := by
    intro hex
    obtain ⟨fs', h1, h2⟩ := copyoutLoop_restores hfaults hfresh.clear (r := ⟨img, base, clones⟩) (nodeOf := nodeOf) tree [] host
      ⟨by simp, by simp, by simp, fun q _ _ => rfl⟩ (by simpa using fileTree_parents htree) (by simpa using hnames)
      (by simpa using hplaces) (fun x _ => hfresh.free x) (by
        intro x hx
        have hx : x ∈ tree := by simpa using hx
        by_cases hd : x.2.node.dirent.isDirectory = true
        · rw [if_pos hd]; exact if_pos hd
        · rw [if_neg hd]
          exact ⟨hlen x hx, _, hex x hx (by simpa using hd), if_neg hd⟩)
    refine ⟨fs', h1, fun x hx hd => ?_⟩
    rw [h2.placed x (by simpa using hx)]
    simp only [nodeOf, hd, Bool.false_eq_true, if_false]
  have good : (∃ host', copyoutLoop h ⟨img, base, clones⟩ dest tree host = (.ok (), host')) →
      ∀ x ∈ tree, x.2.node.dirent.isDirectory = false →
        RawImage.extract ⟨img, base, clones⟩ x.2.node.dirent = .ok (available img base x.2.node.dirent) ∧
        (clones = true ∨ (x.2.node.dirent.data.size = 0 ∨
        base + 2048 * x.2.node.dirent.data.sector.toNat + x.2.node.dirent.data.size.toNat ≤ img.length)) := by
    rintro ⟨host', hrun⟩ x hx hd
    obtain ⟨b, hb⟩ := copyoutLoop_extracts tree host hrun x hx hd (hlen x hx)
    cases clones with
    | true => exact ⟨extract_clone _ _ _, .inl rfl⟩
    | false =>
      obtain ⟨e1, e2⟩ := extract_device (base_small hbase) (img := img) x.2.node.dirent
      by_cases hin : x.2.node.dirent.data.size = 0 ∨
        base + 2048 * x.2.node.dirent.data.sector.toNat + x.2.node.dirent.data.size.toNat ≤ img.length
      · exact ⟨e1 hin, .inr hin⟩
      · rw [e2 hin] at hb; cases hb
  refine ⟨⟨fun hok => ?_, fun hor => ?_⟩, fun host' hrun x hx hd => ?_⟩
  · cases clones with
    | true => exact .inl rfl
    | false =>
      refine .inr fun x hx hd => ?_
      rcases (good hok x hx hd).2 with h' | h'
      · cases h'
      · exact h'
  · obtain ⟨fs', h1, _⟩ := run (by
      intro x hx hd
      cases clones with
      | true => exact extract_clone _ _ _
      | false =>
        rcases hor with h' | h'
        · cases h'
        · exact (extract_device (base_small hbase) _).1 (h' x hx hd))
    exact ⟨fs', h1⟩
  · obtain ⟨fs', h1, h2⟩ := run (fun x hx hd => (good ⟨host', hrun⟩ x hx hd).1)
    rw [h1] at hrun
    have he : fs' = host' := congrArg Prod.snd hrun
    subst he
    exact ⟨_, h2 x hx hd, rfl, available_length img base x.2.node.dirent⟩

/-- The image that ends before the data of its only file: it is unpacked if the handle can be duplicated, and not otherwise. -/
example (clones : Bool) : (∃ host', cmdUnpack sampleHost truncImage clones ['o', 'u', 't'] 3 sampleHostFs = (.ok (), host')) ↔
    clones = true := by
  have hag := offsetDev_zero (fileDev truncImage)
  have ht : fileTree (offsetDev (fileDev truncImage) 0) (VolDesc.new ⟨33, 2048⟩).root 3 = .ok [([], truncListed)] := by
    rw [← trunc_tree]; exact hag.fileTree _ _
  rw [(C66_unpack_exactly (fun _ => rfl) clones sample_fresh (offsetNew_zero trunc_volume)
    (by rw [hag.readVolume, trunc_volume]) ht (by
      intro x hx
      rw [List.mem_singleton] at hx
      subst hx
      exact ⟨by unfold HostName; decide, by decide, by decide⟩) (by simp)).1]
  constructor
  · rintro (h | h)
    · exact h
    · have := h _ (List.mem_singleton.2 rfl) (by decide)
      rw [trunc_length] at this
      exact absurd this (by decide)
  · exact .inl

end Xdvdfs.Props
