import Verif.Props.Checksum
import Verif.Props.Relist
import Verif.Spec.ChecksumLast

/-!
# C47 for images that list a path twice
-/

namespace Xdvdfs.Props

open Spec

namespace ChecksumLast

theorem insert_again (k : Bytes) (v w : α) (m : List (Bytes × α)) :
    bmapInsert k v (bmapInsert k w m) = bmapInsert k v m := by
  induction m with
  | nil => simp [bmapInsert, cmpBytes_eq.2 rfl]
  | cons x m ih =>
    obtain ⟨k', v'⟩ := x
    cases h : cmpBytes k k' with
    | lt => simp [bmapInsert, h, cmpBytes_eq.2 rfl]
    | eq => simp [bmapInsert, h]
    | gt => simp [bmapInsert, h, ih]

theorem insert_comm_lt {k l : Bytes} (hkl : cmpBytes k l = .lt) (v w : α) (m : List (Bytes × α)) :
    bmapInsert k v (bmapInsert l w m) = bmapInsert l w (bmapInsert k v m) := by
  have hlk : cmpBytes l k = .gt := cmpBytes_swap.2 hkl
  induction m with
  | nil => simp [bmapInsert, hkl, hlk]
  | cons x m ih =>
    obtain ⟨k', v'⟩ := x
    cases h2 : cmpBytes l k' with
    | lt =>
      have h1 := cmpBytes_trans hkl h2
      simp [bmapInsert, h1, h2, hkl, hlk]
    | eq =>
      have := cmpBytes_eq.1 h2
      subst this
      simp [bmapInsert, hkl, hlk, h2]
    | gt =>
      cases h1 : cmpBytes k k' with
      | lt => simp [bmapInsert, h1, h2, hlk]
      | eq => simp [bmapInsert, h1, h2]
      | gt => simp [bmapInsert, h1, h2, ih]

theorem insert_comm {k l : Bytes} (hne : k ≠ l) (v w : α) (m : List (Bytes × α)) :
    bmapInsert k v (bmapInsert l w m) = bmapInsert l w (bmapInsert k v m) := by
  cases h : cmpBytes k l with
  | lt => exact insert_comm_lt h v w m
  | eq => exact absurd (cmpBytes_eq.1 h) hne
  | gt => exact (insert_comm_lt (cmpBytes_swap.1 h) w v m).symm

/-- An entry whose path is listed again leaves no trace. -/
theorem fold_drop {k : Bytes} (d : DirEnt) : ∀ (rest : List (Str × DirEnt)) (m : List (Bytes × DirEnt)),
    (∃ y ∈ rest, utf8Bytes (listedPath y) = k) →
    rest.foldl (fun m x => bmapInsert (utf8Bytes (listedPath x)) x.2 m) (bmapInsert k d m) =
      rest.foldl (fun m x => bmapInsert (utf8Bytes (listedPath x)) x.2 m) m := by
  intro rest
  induction rest with
  | nil => rintro m ⟨y, hy, _⟩; cases hy
  | cons z rest ih =>
    rintro m ⟨y, hy, hk⟩
    simp only [List.foldl_cons]
    by_cases hz : utf8Bytes (listedPath z) = k
    · rw [hz, insert_again]
    · rcases List.mem_cons.1 hy with rfl | hy
      · exact absurd hk hz
      · rw [insert_comm hz, ih _ ⟨y, hy, hk⟩]

theorem map_eq {tree kept : List (Str × DirEnt)} (h : LastOnly tree kept) : checksumMap tree = checksumMap kept := by
  unfold checksumMap
  suffices hs : ∀ m : List (Bytes × DirEnt),
      tree.foldl (fun m x => bmapInsert (utf8Bytes (listedPath x)) x.2 m) m =
        kept.foldl (fun m x => bmapInsert (utf8Bytes (listedPath x)) x.2 m) m from hs []
  induction h with
  | nil => intro m; rfl
  | keep _ _ ih => intro m; simp only [List.foldl_cons]; exact ih _
  | @drop x y rest kept hy hp _ ih =>
    intro m
    simp only [List.foldl_cons]
    have hp' : utf8Bytes (listedPath y) = utf8Bytes (listedPath x) := congrArg utf8Bytes hp
    rw [fold_drop x.2 rest m ⟨y, hy, hp'⟩, ih]

theorem kept_mem {tree kept : List (Str × DirEnt)} (h : LastOnly tree kept) : ∀ x ∈ kept, x ∈ tree := by
  induction h with
  | nil => exact fun _ h => h
  | keep _ _ ih =>
    intro x hx
    rcases List.mem_cons.1 hx with rfl | hx
    · exact List.mem_cons_self
    · exact List.mem_cons_of_mem _ (ih x hx)
  | drop _ _ _ ih => exact fun x hx => List.mem_cons_of_mem _ (ih x hx)

theorem kept_one {tree kept : List (Str × DirEnt)} (h : LastOnly tree kept) : OnePerPath kept := by
  unfold OnePerPath
  induction h with
  | nil => exact List.nodup_nil
  | keep hx hl ih =>
    rw [List.map_cons, List.nodup_cons]
    refine ⟨fun hm => ?_, ih⟩
    obtain ⟨y, hy, he⟩ := List.mem_map.1 hm
    exact hx y (kept_mem hl y hy) he
  | drop _ _ _ ih => exact ih

end ChecksumLast

/-- C47 for images that list a path more than once: only the last entry with a path counts.  If the last entries of one
image are what another image has, which lists each path once, then both have the same checksum, for every hash function;
whether the earlier entries can be read does not matter. -/
theorem C47_last_entry {H : Type} (hash : Bytes → H) {a b : Dev} {va vb : VolDesc} {fa fb : Nat}
    {ta kept tb : List (Str × DirEnt)} (hta : fileTree a va.root fa = .ok ta) (hk : LastOnly ta kept)
    (htb : fileTree b vb.root fb = .ok tb) (hb : OnePerPath tb) (ra : Readable a kept) (rb : Readable b tb)
    (hsame : ∀ path c, HasAt a kept path c ↔ HasAt b tb path c) :
    ∃ c, checksum hash a va fa = .ok c ∧ checksum hash b vb fb = .ok c := by
  have ha := ChecksumLast.kept_one hk
  obtain ⟨L, h1, h2, h3⟩ := checksumInput_eq htb hb rb
  obtain ⟨hs, hp⟩ := checksumMap_spec ha
  have h4 : checksumInput a va.root fa = .ok (L.flatMap (fun x => x.1 ++ x.2)) := by
    have hq : KeySorted ((checksumMap kept).map (fun x => (x.1, fedData a x.2))) := List.pairwise_map.2 hs
    have hr : ((checksumMap kept).map (fun x => (x.1, fedData a x.2))).Perm (fedPairs a kept) := by
      have := hp.map (fun x => (x.1, fedData a x.2))
      rwa [List.map_map] at this
    rw [keySorted_unique h1 hq (h2.trans ((fedPairs_perm ha hb ra rb hsame).symm.trans hr.symm))]
    unfold checksumInput
    rw [hta, Res.ok_bind, ChecksumLast.map_eq hk, checksumLoop_eq]
    · rw [List.nil_append, List.flatMap_map]
    · intro x hx hd
      obtain ⟨y, hy, rfl⟩ := List.mem_map.1 (hp.mem_iff.1 hx)
      exact ra y hy hd
  exact ⟨hash (L.flatMap (fun x => x.1 ++ x.2)), by simp [checksum, h4], by simp [checksum, h3]⟩

/-- An entry `a` of 5 bytes and after it another entry `a`, of 2 bytes; and a table with the second one only. -/
def againTable : Bytes := oneEntry 0 4 34 5 0x80 97 ++ oneEntry 0 0 34 2 0x80 97
def aloneTable : Bytes := oneEntry 0 0 34 2 0x80 97

def againListing : List (Str × DirEnt) := [([], oneDirEnt 0 4 34 5 0x80 97 67584), ([], oneDirEnt 0 0 34 2 0x80 97 67600)]
def aloneListing : List (Str × DirEnt) := [([], oneDirEnt 0 0 34 2 0x80 97 67584)]

set_option maxRecDepth 20000 in
theorem again_listed : fileTree (fileDev (sixImage againTable)) ⟨33, 2048⟩ 4 = .ok againListing := by
  rw [sixImage, handDev_eq]; decide +kernel

set_option maxRecDepth 20000 in
theorem alone_listed : fileTree (fileDev (sixImage aloneTable)) ⟨33, 2048⟩ 4 = .ok aloneListing := by
  rw [sixImage, handDev_eq]; decide +kernel

set_option maxRecDepth 20000 in
theorem again_reads : readDataAll (fileDev (sixImage againTable)) ⟨⟨34, 2⟩, 0x80, 1⟩ = .ok [1, 2] := by
  rw [sixImage, handDev_eq]; decide +kernel

set_option maxRecDepth 20000 in
theorem alone_reads : readDataAll (fileDev (sixImage aloneTable)) ⟨⟨34, 2⟩, 0x80, 1⟩ = .ok [1, 2] := by
  rw [sixImage, handDev_eq]; decide +kernel

theorem one_hasAt {dev : Dev} {off : Nat} (h : readDataAll dev ⟨⟨34, 2⟩, 0x80, 1⟩ = .ok [1, 2]) (path : Str) (c : Content) :
    HasAt dev [([], oneDirEnt 0 0 34 2 0x80 97 off)] path c ↔ path = ['/', 'a'] ∧ c = .file [1, 2] := by
  have hf : (oneDirEnt 0 0 34 2 0x80 97 off).node.dirent.isDirectory = false := by
    show DiskData.isDirectory ⟨⟨34, 2⟩, 0x80, 1⟩ = false
    decide
  have hn : (oneDirEnt 0 0 34 2 0x80 97 off).nameStr = ['a'] := rfl
  have hr : readDataAll dev (oneDirEnt 0 0 34 2 0x80 97 off).node.dirent = .ok [1, 2] := h
  constructor
  · rintro ⟨parent, d, hm, hp, hc⟩
    rw [List.mem_singleton] at hm
    cases hm
    refine ⟨hp, ?_⟩
    cases c with
    | dir => exact absurd hc (by simp [hf])
    | file b => rw [hr] at hc; exact congrArg Content.file (Res.ok.inj hc.2).symm
  · rintro ⟨rfl, rfl⟩
    exact ⟨[], _, List.mem_singleton.2 rfl, by rw [hn]; rfl, hf, hr⟩

/-- The image with two entries `a` has the checksum of the image with the second one only. -/
example : ∃ c, checksum id (fileDev (sixImage againTable)) (VolDesc.new ⟨33, 2048⟩) 4 = .ok c ∧
    checksum id (fileDev (sixImage aloneTable)) (VolDesc.new ⟨33, 2048⟩) 4 = .ok c := by
  refine C47_last_entry id (kept := [([], oneDirEnt 0 0 34 2 0x80 97 67600)]) again_listed ?_ alone_listed ?_ ?_ ?_ ?_
  · exact .drop (List.mem_singleton.2 rfl) rfl (.keep (fun y hy => by cases hy) .nil)
  · exact List.nodup_cons.2 ⟨by simp, List.nodup_nil⟩
  · intro x hx _
    rw [List.mem_singleton] at hx
    subst hx
    exact ⟨_, again_reads⟩
  · intro x hx _
    rw [aloneListing, List.mem_singleton] at hx
    subst hx
    exact ⟨_, alone_reads⟩
  · intro path c
    rw [one_hasAt again_reads, aloneListing, one_hasAt alone_reads]

end Xdvdfs.Props
