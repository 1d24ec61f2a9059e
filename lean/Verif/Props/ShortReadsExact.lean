import Verif.Props.Compress

/-!
# C62: what exactly is compressed when reads deliver less
-/

namespace Xdvdfs.Props
open Xdvdfs Spec

/-- A sector of 2048 bytes that begins with the given bytes and has zeros in the rest. -/
def Spec.sectorWith (b : Bytes) : Bytes := b ++ List.replicate (2048 - b.length) 0

/-- C62, for reads that deliver anything: each sector that the encoder gets is either the sector of the image, whatever
reads deliver, or belongs to one file of the source.  Then it is what one single `read` delivered, filled up with zeros, or
the error of this `read`; while the image has the bytes of the file there. -/
theorem C62_exactly {fs : SourceFs} {content : Path → Bytes} (hb : Bounded fs) (hf : FaithfulTo fs content)
    {faults : Faults} {fuel : Nat} {s' : PackState ImgFile}
    (h : createImage (fileEnv fs faults) fuel ⟨⟨[], []⟩, []⟩ = (.ok (), s')) :
    ∃ m, createImage (linearEnv fs.readDir fs.pathToString) fuel ⟨[], []⟩ = (.ok (), ⟨m, s'.log⟩) ∧
      linLen m = s'.dev.img.length ∧
      ∀ k, 2048 * k < s'.dev.img.length →
        (∀ read, readSector (stdBufCopy read) m k 2048 = .ok (slice s'.dev.img (2048 * k) 2048)) ∨
        ∃ p e i, EntryIn fs.readDir p e ∧ e.isDir = false ∧ 2048 * i < e.len ∧
          slice s'.dev.img (2048 * k) 2048 = Spec.sectorWith (slice (content (p ++ [e.name])) (2048 * i) 2048) ∧
          ∀ read : Path → (off n : Nat) → Res Bytes,
            (∀ b, read (p ++ [e.name]) (2048 * i) 2048 = .ok b → b.length ≤ 2048) →
            readSector (stdBufCopy read) m k 2048 =
              (read (p ++ [e.name]) (2048 * i) 2048 >>= fun b => .ok (Spec.sectorWith b)) := by
  obtain ⟨m, h1, h2, _, h3, h4⟩ := linear_main hb hf h
  refine ⟨m, h1, h2, fun k hk => ?_⟩
  have hfull : 2048 * k + 2048 ≤ s'.dev.img.length := by
    obtain ⟨_, hp⟩ := C35_length_multiple h
    omega
  have hlen := slice_length _ _ _ hfull
  have hsl := h4 k hk
  cases hg : m.get k with
  | none =>
    left
    intro read
    rw [hg] at hsl
    rw [hsl]
    simp only [readSector, hg]
  | some x =>
    cases x with
    | raw d =>
      left
      intro read
      rw [hg] at hsl
      simp only at hsl
      rw [hsl] at hlen ⊢
      simp only [readSector, hg, hlen, if_true]
    | file p i =>
      right
      rw [hg] at hsl
      obtain ⟨q, e, k1, k2, rfl, k4, _⟩ := h3 k _ _ hg
      refine ⟨q, e, i, k1, k2, k4, hsl, ?_⟩
      intro read hle
      simp only [readSector, hg, stdBufCopy, List.length_replicate, Nat.not_lt_zero, gt_iff_lt, if_false,
        Nat.sub_zero, Nat.min_self]
      cases hr : read (q ++ [e.name]) (2048 * i) 2048 with
      | ok b =>
        have hb' := hle b hr
        simp only [Res.ok_bind, Nat.zero_add]
        rw [if_neg (by omega)]
        simp only [Res.ok_bind, if_true, Res.ok.injEq]
        rw [List.take_left, List.drop_of_length_le (by rw [List.length_replicate]; omega)]
        simp only [List.take_zero, List.nil_append, List.append_nil, Spec.sectorWith]
      | err e => rfl
      | panic => rfl
      | hang => rfl

/-- The hypotheses of `C62_exactly` hold for the sample. -/
example : ∃ s', createImage (fileEnv sampleFs' (fun _ => none)) 2 ⟨⟨[], []⟩, []⟩ = (.ok (), s') ∧
    Bounded sampleFs' ∧ FaithfulTo sampleFs' sampleContent := by
  obtain ⟨s', h⟩ := sample_packs []
  exact ⟨s', h, sample'_bounded, sample'_faithful⟩

end Xdvdfs.Props
