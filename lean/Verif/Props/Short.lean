import Verif.Proof.Short
import Verif.Props.Checksum

/-!
# C141: packing files that shrink while they are packed
-/

namespace Xdvdfs.Props
open Xdvdfs Spec

/-- What a source delivers when a file of listed length `n` is copied. -/
def delivered (fs : SourceFs) (q : Path) (n : Nat) : Bytes := (fs.copy q 0 n).1.flatten

/-- What was delivered, filled up with zeros to the listed length. -/
def filledUp (fs : SourceFs) (q : Path) (n : Nat) : Bytes :=
  delivered fs q n ++ List.replicate (n - (delivered fs q n).length) 0

theorem filledUp_full {fs : SourceFs} {q : Path} {n : Nat} (h : (delivered fs q n).length = n) :
    filledUp fs q n = delivered fs q n := by
  unfold filledUp
  rw [h, Nat.sub_self]
  simp

theorem filledUp_length {fs : SourceFs} (hb : Bounded fs) (q : Path) (n : Nat) : (filledUp fs q n).length = n := by
  have : (delivered fs q n).length ≤ n := hb q n
  unfold filledUp
  rw [List.length_append, List.length_replicate]
  omega

theorem padded_delivers (fs : SourceFs) (q : Path) (n : Nat) : ((padded fs).copy q 0 n).1.flatten = filledUp fs q n := by
  unfold filledUp delivered padded
  simp

theorem readDataAll_cut {img z : Bytes} {d : DiskData} {l : Listing} (hd : d.data = regionOf l) (h1 : l.sector < 2 ^ 32)
    (h2 : l.size < 2 ^ 32) {b : Bytes} (hb : b.length = l.size) (hat : At (img ++ z) (2048 * l.sector) b) :
    readDataAll (fileDev img) d = .ok b ∨ ∃ e, readDataAll (fileDev img) d = .err e := by
  by_cases hin : 2048 * l.sector + l.size ≤ img.length
  · left
    refine readDataAll_holds hd h1 h2 hb (At.holds ?_)
    intro i hi
    rw [← hat i hi, List.getElem?_append_left (by omega)]
  · have hs : d.data.size.toNat = l.size := by
      rw [hd]; simp only [regionOf]; exact UInt32.toNat_ofNat_of_lt' h2
    have hsec : d.data.sector.toNat = l.sector := by
      rw [hd]; simp only [regionOf]; exact UInt32.toNat_ofNat_of_lt' h1
    unfold readDataAll
    by_cases hz : d.data.size = 0
    · left
      rw [if_pos hz]
      rw [hz] at hs
      have : b = [] := List.length_eq_zero_iff.1 (by rw [hb, ← hs]; rfl)
      rw [this]
    · right
      rw [if_neg hz]
      have hpos : 0 < d.data.size.toNat := by
        rcases Nat.eq_zero_or_pos d.data.size.toNat with h | h
        · exact absurd (UInt32.toNat_inj.1 (by rw [h]; rfl)) hz
        · exact h
      rw [Region.offset_of_lt hpos]
      simp only [Res.ok_bind, hsec]
      refine ⟨.io, ?_⟩
      show fileRead img _ _ = _
      unfold fileRead
      rw [if_neg (by omega), if_neg (by omega)]

/-- C141.  Whatever a source delivers for its files, as long as it is not more than what it listed: an image packed without
an error opens, every directory of the source is found, nothing else is found, and every file is found under its path
with its listed length, and the source reported no error for it.  Reading it gives the delivered bytes followed by zeros, or an error when the image ends before it;
never the bytes of anything else.  A file that was delivered in full reads back exactly, whatever happened to the other
files. -/
theorem C141_short_files {fs : SourceFs} {faults : Faults} {fuel : Nat} {s' : PackState ImgFile} (hb : Bounded fs)
    (h : createImage (fileEnv fs faults) fuel ⟨⟨[], []⟩, []⟩ = (.ok (), s')) :
    ∃ vol, readVolume (fileDev s'.dev.img) = .ok vol ∧ FindsDirs (fileDev s'.dev.img) vol.root fs.readDir ∧
      FindsNothingElse (fileDev s'.dev.img) vol.root fs.readDir ∧
      ∀ p e q n, EntryIn fs.readDir p e → e.isDir = false → SamePath (p ++ [e.name]) q → PlainPath q →
        SearchBudget fs.readDir n →
        ∃ d, walkPath (fileDev s'.dev.img) vol.root (slashPath q) n = .ok d ∧ d.nameStr = e.name ∧
          d.node.dirent.isDirectory = false ∧ d.node.dirent.data.size.toNat = e.len ∧
          (∃ k, (fs.copy (p ++ [e.name]) 0 e.len).2 = .ok k) ∧
          (readDataAll (fileDev s'.dev.img) d.node.dirent = .ok (filledUp fs (p ++ [e.name]) e.len) ∨
            (delivered fs (p ++ [e.name]) e.len).length < e.len ∧
              ∃ err, readDataAll (fileDev s'.dev.img) d.node.dirent = .err err) := by
  obtain ⟨h1, h2⟩ := pack_end fs faults fuel [] h
  cases h2 with
  | early h2 _ => exact absurd rfl h2
  | data _ h2 _ => exact absurd rfl h2
  | desc _ h2 _ _ _ => exact absurd rfl h2
  | @pad D M rootW rootSize next recs n' P hS hD hok htr hP hfin =>
    obtain ⟨hA, m, hA'⟩ := short_image hS hb (hfin rfl).1 (img := s'.dev.img) (by rw [h1, htr])
    have hI := hS.dirImg (im := s'.dev.img) (fun w hw => hA w (by simp [hw]))
    have h0 : ([], rootListing rootSize) ∈ placedAll rootSize recs := by simp [placedAll]
    have hv : readVolume (fileDev s'.dev.img) = .ok (VolDesc.new (regionOf (rootListing rootSize))) := by
      refine readVolume_holds ?_
      have := (hA (32 * 2048, rootDesc 33 rootSize) (by simp)).holds
      rw [Nat.mul_comm]
      exact this
    refine ⟨_, hv, hI.findsDirs hS.allDistinct h0 rfl, hI.findsNothingElse hS.allDistinct h0 rfl, ?_⟩
    intro p e q n he hk hs hp hn
    obtain ⟨d, l', g1, g2, g3, g4, g5, g6⟩ := hI.entry_lookup hS.allDistinct h0 rfl he hs hp hn
    obtain ⟨s1, s2⟩ := hI.small _ _ g5
    have hd' : l'.isDir = false := by rw [g6, hk]
    obtain ⟨f1, f2, q', e', f3, f4, f5, f6⟩ := hS.fileAt (fun w hw => hA w (by simp [hw])) g5 hd'
    have hS' : PlanShape (padded fs).readDir (padded fs).pathToString D M rootW rootSize next recs n' [] := hS
    obtain ⟨_, f2', _⟩ := hS'.fileAt (im := s'.dev.img ++ List.replicate m 0) (fun w hw => hA' w (List.mem_append_left _ hw)) g5 hd'
    have hee : e' = e := by
      have := List.append_inj' f3 rfl
      obtain ⟨a1, a2⟩ := this
      subst a1
      simp only [List.cons.injEq, and_true] at a2
      exact (entry_unique hS.allDistinct f4 he (by rw [a2]; exact rfl)).2
    rw [hee] at f6
    rw [padded_delivers, ← f6, Nat.mul_comm] at f2'
    refine ⟨d, g1, g2, by rw [g4, hk], ?_, by rw [f6]; exact hok _ f1, ?_⟩
    · rw [g3]; simp only [regionOf]; rw [UInt32.toNat_ofNat_of_lt' s2, f6]
    · have hlen : (filledUp fs (p ++ [e.name]) e.len).length = l'.size := by rw [filledUp_length hb, f6]
      by_cases hfull : (delivered fs (p ++ [e.name]) e.len).length < e.len
      · rcases readDataAll_cut g3 s1 s2 hlen f2' with h | h
        · exact .inl h
        · exact .inr ⟨hfull, h⟩
      · left
        have : (delivered fs (p ++ [e.name]) e.len).length ≤ e.len := hb _ _
        rw [filledUp_full (by omega)] at hlen ⊢
        refine readDataAll_holds g3 s1 s2 hlen ?_
        rw [← f6, Nat.mul_comm] at f2
        exact f2.holds

/-- C141, the whole image: followed by enough zeros it is an image of exactly the listed tree in which every file is filled
up with zeros to its listed length.  So recursive listings, and everything else that reads the image, give what this image
gives, or an error (C121). -/
theorem C141_short_tree {fs : SourceFs} {faults : Faults} {fuel : Nat} {s' : PackState ImgFile} (hb : Bounded fs)
    (h : createImage (fileEnv fs faults) fuel ⟨⟨[], []⟩, []⟩ = (.ok (), s')) {content : Path → Bytes}
    (hc : ∀ p e, EntryIn fs.readDir p e → e.isDir = false → content (p ++ [e.name]) = filledUp fs (p ++ [e.name]) e.len) :
    ∃ n, HoldsTree (fileDev (s'.dev.img ++ List.replicate n 0)) fs.readDir content := by
  obtain ⟨h1, h2⟩ := pack_end fs faults fuel [] h
  cases h2 with
  | early h2 _ => exact absurd rfl h2
  | data _ h2 _ => exact absurd rfl h2
  | desc _ h2 _ _ _ => exact absurd rfl h2
  | @pad D M rootW rootSize next recs n' P hS hD hok htr hP hfin =>
    obtain ⟨hA, m, hA'⟩ := short_image hS hb (hfin rfl).1 (img := s'.dev.img) (by rw [h1, htr])
    have hS' : PlanShape (padded fs).readDir (padded fs).pathToString D M rootW rootSize next recs n' [] := hS
    refine ⟨m, holdsTree_of_at hS' (content := content) ?_ ?_ hA'⟩
    · intro p e k he hk _
      rw [padded_delivers, hc p e he hk]
      exact ⟨rfl, filledUp_length hb _ _⟩
    · intro o ho
      have := hok o ho
      cases o with
      | copy p a n => exact this
      | report _ => trivial
      | write _ _ => trivial

/-- A source that lists files as they were and delivers at most their first two bytes. -/
def shrunk (files : List (Str × Bytes)) : SourceFs :=
  { flatFs files with copy := fun p o n => ([((flatFs files).copy p o n).1.flatten.take 2], .ok n) }

theorem shrunk_bounded (files : List (Str × Bytes)) : Bounded (shrunk files) := by
  intro p n
  have := flat_bounded files p n
  simp only [shrunk, List.flatten_cons, List.flatten_nil, List.append_nil, List.length_take]
  omega

theorem shrunk_packs {files : List (Str × Bytes)} (h : FlatOk files) :
    ∃ s', createImage (fileEnv (shrunk files) (fun _ => none)) 1 ⟨⟨[], []⟩, []⟩ = (.ok (), s') := by
  have := C33_representable_tree_packs_few (fileEnv (shrunk files) (fun _ => none)) (flat_listable files)
    (flat_tree files) (flat_fits h) (flat_storable h) (flat_few h)
    (fileEnv_works (fun _ e _ _ => ⟨e.len, rfl⟩)) (fuel := 1) (by simp [flatTree]) ⟨⟨[], []⟩, []⟩
  rcases hc : createImage (fileEnv (shrunk files) (fun _ => none)) 1 ⟨⟨[], []⟩, []⟩ with ⟨r, s'⟩
  rw [hc] at this
  simp only at this
  subst this
  exact ⟨s', rfl⟩

/-- Two files.  The first is shorter when it is copied. -/
def shrinking : List (Str × Bytes) := [(['a'], [1, 2, 3]), (['b'], [5])]

theorem shrinking_ok : FlatOk shrinking := ascii_flatOk (by unfold DistinctNames; decide) (by decide) (by decide) (by decide)

/-- Two files, of three bytes and of one byte, are listed; the first has shrunk to two bytes when it is copied.  Packing
reports no error.  The second file reads back, and the first as its two bytes and a zero, or not at all. -/
example : ∃ s' vol da db, createImage (fileEnv (shrunk shrinking) (fun _ => none)) 1 ⟨⟨[], []⟩, []⟩ = (.ok (), s') ∧
    readVolume (fileDev s'.dev.img) = .ok vol ∧
    walkPath (fileDev s'.dev.img) vol.root ['/', 'A'] 10 = .ok da ∧ da.node.dirent.data.size.toNat = 3 ∧
    (readDataAll (fileDev s'.dev.img) da.node.dirent = .ok [1, 2, 0] ∨
      ∃ err, readDataAll (fileDev s'.dev.img) da.node.dirent = .err err) ∧
    walkPath (fileDev s'.dev.img) vol.root ['/', 'b'] 10 = .ok db ∧
    readDataAll (fileDev s'.dev.img) db.node.dirent = .ok [5] := by
  obtain ⟨s', h⟩ := shrunk_packs shrinking_ok
  obtain ⟨vol, h1, _, _, h4⟩ := C141_short_files (shrunk_bounded _) h
  have hbud : SearchBudget (shrunk shrinking).readDir 10 := by
    intro p l hp hl
    obtain rfl := (flat_dirs p).1 hp
    obtain rfl := Res.ok.inj hl
    decide
  have hin : ∀ x ∈ shrinking, EntryIn (shrunk shrinking).readDir [] ⟨x.1, false, x.2.length⟩ :=
    fun x hx => (flat_entries _ _).2 ⟨rfl, x, hx, rfl⟩
  obtain ⟨da, a1, _, _, a2, _, a3⟩ := h4 [] _ [['A']] 10 (hin (['a'], [1, 2, 3]) (by decide)) rfl (by unfold SamePath; decide)
    (by unfold PlainPath; decide) hbud
  obtain ⟨db, b1, _, _, _, _, b2⟩ := h4 [] _ [['b']] 10 (hin (['b'], [5]) (by decide)) rfl (by unfold SamePath; decide)
    (by unfold PlainPath; decide) hbud
  refine ⟨s', vol, da, db, h, h1, a1, a2, ?_, b1, ?_⟩
  · rcases a3 with a3 | ⟨_, a3⟩
    · exact .inl a3
    · exact .inr a3
  · rcases b2 with b2 | ⟨b2, _⟩
    · exact b2
    · exact absurd b2 (by decide)

/-- It also meets the hypothesis of `C141_short_tree`. -/
example : ∃ content : Path → Bytes, content [['a']] = [1, 2, 0] ∧ ∀ p e, EntryIn (shrunk shrinking).readDir p e → e.isDir = false →
    content (p ++ [e.name]) = filledUp (shrunk shrinking) (p ++ [e.name]) e.len := by
  refine ⟨fun q => filledUp (shrunk shrinking) q (if q = [['a']] then 3 else 1), by decide, ?_⟩
  intro p e he _
  obtain ⟨rfl, x, hx, rfl⟩ := (flat_entries _ _).1 he
  simp only [shrinking, List.mem_cons, List.not_mem_nil, or_false] at hx
  rcases hx with rfl | rfl <;> rfl

end Xdvdfs.Props
