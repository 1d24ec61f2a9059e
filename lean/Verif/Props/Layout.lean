import Verif.Props.Pack
import Verif.Proof.LinearMain
import Verif.Spec.Layout

/-!
# Properties C125, C126: what an image is made of
-/

namespace Xdvdfs.Props

open Xdvdfs Spec TabWriter

/-- The place of a listing entry. -/
def placeOf (x : Path × Listing) : Place := ⟨x.1, x.2.sector, x.2.size, x.2.isDir⟩

theorem adjoining_of : ∀ {T : List (Path × Listing)} {s e : Nat}, Consecutive s (T.map Prod.snd) e →
    Adjoining s (T.map placeOf) e := by
  intro T
  induction T with
  | nil => intro s e h; exact h
  | cons x T ih => intro s e h; exact ⟨h.1, ih h.2⟩

theorem place_paths (T : List (Path × Listing)) : (T.map placeOf).map Place.path = T.map Prod.fst := by
  rw [List.map_map]; rfl

/-- A byte of an image written from nothing is zero or was written. -/
theorem applyTrace_byte {i : Nat} {b : UInt8} : ∀ {W : List (Nat × Bytes)} {img : Bytes},
    (applyTrace img W)[i]? = some b →
    img[i]? = some b ∨ b = 0 ∨ ∃ w ∈ W, w.1 ≤ i ∧ i < w.1 + w.2.length ∧ w.2[i - w.1]? = some b := by
  intro W
  induction W with
  | nil => intro img h; exact .inl h
  | cons x W ih =>
    intro img h
    rcases ih (img := writeAt img x.1 x.2) h with h | h | ⟨w, h1, h2⟩
    · rw [writeAt_get] at h
      split at h
      · exact .inl h
      · split at h
        · split at h
          · exact .inl h
          · cases h; exact .inr (.inl rfl)
        · split at h
          · exact .inr (.inr ⟨x, by simp, by omega, by omega, h⟩)
          · exact .inl h
    · exact .inr (.inl h)
    · exact .inr (.inr ⟨w, by simp [h1], h2⟩)

theorem roundUp_between {a b : Nat} (h1 : a ≤ b) (h2 : b ≤ roundUp a) : roundUp b = roundUp a := by
  unfold roundUp at *; omega

/-- Every write of a plan is within a place. -/
theorem write_in_place {rd pts D M rootW rootSize next recs n' rest}
    (h : PlanShape rd pts D M rootW rootSize next recs n' rest) {fs : SourceFs} (hb : Bounded fs)
    {w : Nat × Bytes} (hw : w ∈ (planOps pts D recs).flatMap (opWrites fs)) :
    ∃ x ∈ (placedAll rootSize recs).map placeOf, x.first ≤ w.1 ∧ w.1 + w.2.length ≤ x.stop := by
  rw [planOps_writes] at hw
  obtain ⟨g, hg, hw⟩ := List.mem_flatMap.1 hw
  obtain ⟨x, hx, hg⟩ := List.mem_flatMap.1 hg
  unfold recGroups at hg
  rcases List.mem_cons.1 hg with rfl | hg
  · obtain ⟨l, sz, h1, h2, h3, h4, h5, h6, h7, h8⟩ := h.recPlace hx
    rw [List.mem_singleton] at hw
    subst hw
    refine ⟨_, List.mem_map_of_mem h1, ?_, ?_⟩
    · simp only [Place.first, placeOf, sectorSize]; omega
    · simp only [Place.stop, placeOf, sectorSize, h2, if_true, h8, roundUp_between h5 h6]; omega
  · obtain ⟨l, hl, he⟩ := List.mem_filterMap.1 hg
    split at he
    · cases he
    · next hd =>
      cases he
      have hm : (x.path ++ [l.name], l) ∈ placedAll rootSize recs := by
        simp only [placedAll, List.mem_cons]
        right
        exact List.mem_flatMap.2 ⟨x, hx, List.mem_map.2 ⟨l, hl, rfl⟩⟩
      obtain ⟨k1, k2⟩ := chunksAt_range hw
      have := hb (x.path ++ [l.name]) l.size
      simp only [sectorSize] at k1 k2
      refine ⟨_, List.mem_map_of_mem hm, ?_, ?_⟩
      · simp only [Place.first, placeOf]; omega
      · simp only [Place.stop, placeOf, hd, Bool.false_eq_true, if_false]; omega

theorem holdsAt_fits {img : Bytes} {off : Nat} {d : Bytes} (h : HoldsAt (fileDev img) off d) (hd : d ≠ []) :
    off + d.length ≤ img.length := by
  have h1 := h 0 d.length (by omega)
  change fileRead img (off + 0) d.length = _ at h1
  unfold fileRead at h1
  rw [if_neg (by intro he; exact hd (List.length_eq_zero_iff.1 he))] at h1
  split at h1
  · omega
  · cases h1

theorem holdsAt_byte {img : Bytes} {off : Nat} {d : Bytes} (h : HoldsAt (fileDev img) off d) {i : Nat}
    (hi : i < d.length) : img[off + i]? = d[i]? := by
  have h1 := h i 1 (by omega)
  change fileRead img (off + i) 1 = _ at h1
  unfold fileRead at h1
  rw [if_neg (by decide)] at h1
  split at h1
  · have h2 := congrArg (fun l => l[0]?) (Res.ok.inj h1)
    simpa [slice, List.getElem?_take] using h2
  · cases h1

/-- A byte of a table is padding or in an entry. -/
theorem tabBytes_byte : ∀ (es : List Ent) (pos i : Nat) (b : UInt8), (tabBytes pos es)[i]? = some b →
    b = 0xff ∨ ∃ (k : Nat) (e : Ent) (o : Nat), es[k]? = some e ∧ (offs pos (es.map Ent.len))[k]? = some o ∧
      o ≤ pos + i ∧ pos + i < o + (14 + e.name.length) := by
  intro es
  induction es with
  | nil => intro pos i b h; simp [tabBytes] at h
  | cons e es ih =>
    intro pos i b h
    have hl : e.bytes.length = e.len := entryBytes_length _ _
    have hpl : place pos e.len = pos + pad pos e.len := rfl
    simp only [tabBytes] at h
    by_cases h1 : i < pad pos e.len
    · rw [List.getElem?_append_left (by simpa using h1), List.getElem?_replicate, if_pos h1] at h
      cases h; exact .inl rfl
    · rw [List.getElem?_append_right (by simp; omega), List.length_replicate] at h
      by_cases h2 : i - pad pos e.len < e.len
      · rw [List.getElem?_append_left (by omega)] at h
        by_cases h3 : i - pad pos e.len < 14 + e.name.length
        · right
          exact ⟨0, e, place pos e.len, rfl, rfl, by omega, by omega⟩
        · left
          unfold Ent.bytes TabWriter.entryBytes at h
          have hs : e.node.ser.length = 14 := by simp [DiskNode.ser, natLE]
          rw [List.getElem?_append_right (by simp [hs]; omega)] at h
          split at h
          · rw [List.getElem?_replicate] at h
            split at h
            · cases h; rfl
            · cases h
          · simp at h
      · rw [List.getElem?_append_right (by omega), hl] at h
        rcases ih _ _ b h with h | ⟨k, f, o, g1, g2, g3, g4⟩
        · exact .inl h
        · exact .inr ⟨k + 1, f, o, by rw [List.getElem?_cons_succ]; exact g1,
            by rw [List.map_cons, offs, List.getElem?_cons_succ]; exact g2, by omega, by omega⟩

/-- The bytes of a placed table: entries, or padding. -/
theorem placed_bytes {items : List Item} {w : TabWriter} (hb : buildTable items = .ok w)
    {next next' : Nat} {r : DiskRepr} (hr : w.diskRepr next = .ok (r, next'))
    {dev : Dev} {tab : Region} (hP : Placed dev tab w r) :
    ∃ ds, (∀ fuel, items.length < fuel → walkDirentTree dev tab fuel = .ok ds) ∧
      ∀ i b, r.entryTable[i]? = some b → b = 0xff ∨
        ∃ d ∈ ds, d.offset ≤ 2048 * tab.sector.toNat + i ∧
          2048 * tab.sector.toNat + i < d.offset + (14 + d.name.length) := by
  obtain ⟨_, ⟨h1, h2, h3, h4⟩ | ⟨h1, A', T', lens, es, W, hne', hp, hs, hd⟩⟩ := table_written hb hr
  · subst h1
    obtain ⟨k1, k2, k3⟩ := placed_empty hb hr hP
    refine ⟨[], fun fuel hf => walk_empty k1 k3 (by simpa using hf), ?_⟩
    intro i b hi
    rw [h2] at hi
    simp only [List.getElem?_replicate] at hi
    split at hi
    · cases hi; exact .inl rfl
    · cases hi
  · obtain ⟨hh, sz', e1, e2, e3⟩ := hP
    rw [hd] at e1
    cases e1
    have ht := W.tree (tab := tab) hh hne' hp e2
    refine ⟨_, fun fuel hf => walkDirentTree_rooted ht.rooted (by rw [ht.size]; omega), ?_⟩
    intro i b hi
    obtain ⟨f1, f2, f3, f4, f5, f6⟩ := W.facts
    rw [W.table] at hi
    by_cases hlt : i < (tabBytes 0 (es.map Prod.fst)).length
    · rw [List.getElem?_append_left hlt] at hi
      rcases tabBytes_byte _ _ _ _ hi with h | ⟨k, e, o, g1, g2, g3, g4⟩
      · exact .inl h
      · right
        rw [f3] at g2
        obtain ⟨x, hx, hxe⟩ : ∃ x, es[k]? = some x ∧ x.1 = e := by
          rw [List.getElem?_map] at g1
          cases hek : es[k]? with
          | none => rw [hek] at g1; cases g1
          | some x => rw [hek] at g1; exact ⟨x, rfl, Option.some.inj g1⟩
        have hk : k < es.length := by
          rcases Nat.lt_or_ge k es.length with h | h
          · exact h
          · rw [List.getElem?_eq_none h] at hx; cases hx
        obtain ⟨n, e', l, o', q1, q2, q3, q4, q5, q6, q7⟩ := W.dirent_at (2048 * tab.sector.toNat) hk
        rw [hx] at q2
        rw [g2] at q4
        cases q4
        have he : e' = e := by rw [← hxe, Option.some.inj q2]
        subst he
        refine ⟨direntAt (2048 * tab.sector.toNat) es (offs 0 lens) k, ?_, ?_, ?_⟩
        · rw [(visit_perm _).mem_iff, (W.inorder_perm _).mem_iff]
          exact List.mem_map_of_mem (List.mem_range.2 hk)
        · rw [q6]; simp only; omega
        · rw [q6]; simp only; omega
    · rw [List.getElem?_append_right (by omega), List.getElem?_replicate] at hi
      split at hi
      · cases hi; exact .inl rfl
      · cases hi

/-- The layout of a packed image. -/
theorem pack_layout {fs : SourceFs} {content : Path → Bytes} {faults : Faults} {fuel : Nat} {s' : PackState ImgFile}
    (hb : Bounded fs) (hf : FaithfulTo fs content)
    (h : createImage (fileEnv fs faults) fuel ⟨⟨[], []⟩, []⟩ = (.ok (), s')) :
    ∃ places e, LaidOut fs.readDir s'.dev.img places ∧ Adjoining 33 places e ∧
      (HasRoom places s'.dev.img.length ∧ ∀ n, n % 65536 = 0 → HasRoom places n → s'.dev.img.length ≤ n) ∧
      (∀ i b, s'.dev.img[i]? = some b → b ≠ 0 →
        (65536 ≤ i ∧ i < 67584) ∨ ∃ x ∈ places, x.first ≤ i ∧ i < x.stop) ∧
      (∀ x ∈ places, x.isDir = false → (content x.path).length = x.size ∧
        HoldsAt (fileDev s'.dev.img) x.first (content x.path)) ∧
      (∀ x ∈ places, x.isDir = true → ∃ lst ds, fs.readDir x.path = .ok lst ∧
        (∀ fuel, lst.length < fuel → walkDirentTree (fileDev s'.dev.img)
          ⟨UInt32.ofNat x.sector, UInt32.ofNat x.size⟩ fuel = .ok ds) ∧
        ∀ i b, s'.dev.img[i]? = some b → x.first ≤ i → i < x.stop →
          b = 0xff ∨ ∃ d ∈ ds, d.offset ≤ i ∧ i < d.offset + (14 + d.name.length)) ∧
      ∃ D M rootW rootSize next recs n', PlanShape fs.readDir fs.pathToString D M rootW rootSize next recs n' [] ∧
        places = (placedAll rootSize recs).map placeOf := by
  obtain ⟨h1, h2⟩ := pack_end fs faults fuel [] h
  cases h2 with
  | early h2 _ => exact absurd rfl h2
  | data _ h2 _ => exact absurd rfl h2
  | desc _ h2 _ _ _ => exact absurd rfl h2
  | @pad D M rootW rootSize next recs n' P hS hD hok htr hP hlog =>
    obtain ⟨hP', _⟩ := hlog rfl
    have hat := pad_at hS hb (img0 := []) (torn_pad hP)
    rw [← htr, ← h1] at hat
    have hI := hS.img hf hok (im := s'.dev.img) (fun w hw => hat w (by simp [hw]))
    have hroot : (([] : Path), rootListing rootSize) ∈ placedAll rootSize recs := by simp [placedAll]
    have hvol : readVolume (fileDev s'.dev.img) = .ok (VolDesc.new (regionOf (rootListing rootSize))) := by
      apply readVolume_holds
      have := (hat (32 * 2048, rootDesc 33 rootSize) (by simp)).holds
      rw [Nat.mul_comm]
      exact this
    have hmult := C35_length_multiple h
    have hdne : rootDesc 33 rootSize ≠ [] := by
      intro he; have := congrArg List.length he; rw [rootDesc_length] at this; cases this
    refine ⟨(placedAll rootSize recs).map placeOf, n', ⟨?_, ?_, _, hvol, ?_, ?_⟩, adjoining_of hS.consecutive.1,
      ⟨⟨?_, ?_⟩, ?_⟩, ?_, ?_, ?_, _, _, _, _, _, _, _, hS, rfl⟩
    · rw [place_paths]; exact hS.paths_nodup
    · intro q
      rw [place_paths]
      constructor
      · intro hq
        obtain ⟨⟨q', l⟩, hl, rfl⟩ := List.mem_map.1 hq
        unfold placedAll at hl
        rcases List.mem_cons.1 hl with he | hm
        · exact .inl (congrArg Prod.fst he)
        · obtain ⟨y, hy, hm⟩ := List.mem_flatMap.1 hm
          simp only [tagged, List.mem_map] at hm
          obtain ⟨l', hl', he⟩ := hm
          cases he
          obtain ⟨lst, e, g1, g2, g3, _⟩ := hS.entry hy hl'
          exact .inr ⟨y.path, e, ⟨hS.dirOf hy, lst, g1, g2⟩, by rw [g3]⟩
      · rintro (rfl | ⟨p, e, ⟨hp, lst, g1, g2⟩, rfl⟩)
        · exact List.mem_map.2 ⟨_, hroot, rfl⟩
        · obtain ⟨x, hx, rfl⟩ := hS.recOf hp
          have hk : itemKey (itemOf M x.path e) ∈ x.r.fileListing.map listKey :=
            (hS.listingNames hx g1).mem_iff.2 (List.mem_map_of_mem g2)
          obtain ⟨l, hl, hke⟩ := List.mem_map.1 hk
          have hn : l.name = e.name := congrArg Prod.fst hke
          refine List.mem_map.2 ⟨(x.path ++ [l.name], l), ?_, by rw [← hn]⟩
          simp only [placedAll, List.mem_cons]
          right
          exact List.mem_flatMap.2 ⟨x, hx, List.mem_map.2 ⟨l, hl, rfl⟩⟩
    · intro x hx hxp
      obtain ⟨⟨p, l⟩, hl, rfl⟩ := List.mem_map.1 hx
      have hp : p = [] := hxp
      subst hp
      have := nodup_fst_inj hS.paths_nodup hl hroot
      subst this
      exact ⟨rfl, rfl, UInt32.toNat_ofNat_of_lt' hS.rootLt⟩
    · intro x hx p e fuel he hxp hpl hfu
      obtain ⟨⟨q, l⟩, hl, rfl⟩ := List.mem_map.1 hx
      have hq : q = p ++ [e.name] := hxp
      subst hq
      obtain ⟨d, l', g1, g2, g3, g4, g5, g6⟩ := hI.entry_lookup hS.allDistinct hroot rfl he
        (show SamePath (p ++ [e.name]) (p ++ [e.name]) from rfl) hpl hfu
      have := nodup_fst_inj hS.paths_nodup g5 hl
      subst this
      refine ⟨d, g1, by rw [g4, ← g6]; rfl, g6, ?_, ?_⟩
      · rw [g3]; exact UInt32.toNat_ofNat_of_lt' (hI.small _ _ g5).1
      · rw [g3]; exact UInt32.toNat_ofNat_of_lt' (hI.small _ _ g5).2
    · have := holdsAt_fits (hat (32 * 2048, rootDesc 33 rootSize) (by simp)).holds hdne
      rw [rootDesc_length] at this
      omega
    · intro x hx hne
      obtain ⟨⟨p, l⟩, hl, rfl⟩ := List.mem_map.1 hx
      cases hd : l.isDir with
      | true =>
        obtain ⟨hdir, _⟩ := hI.dirs p l hl hd
        obtain ⟨x, hxr, hxp⟩ := hS.recOf hdir
        subst hxp
        obtain ⟨m, sz, k1, k2, k3, k4, k5, k6, k7, k8⟩ := hS.recPlace hxr
        have := nodup_fst_inj hS.paths_nodup k1 hl
        subst this
        have hpos : m.size ≠ 0 := hne
        have hw : (x.sector * sectorSize, x.r.entryTable) ∈
            (planOps fs.pathToString D recs).flatMap (opWrites fs) := by
          rw [planOps_writes]
          exact List.mem_flatMap.2 ⟨_, List.mem_flatMap.2 ⟨x, hxr, by unfold recGroups; exact List.mem_cons_self⟩,
            List.mem_singleton.2 rfl⟩
        have := holdsAt_fits (hat _ (List.mem_append_left _ hw)).holds (by
          intro he
          have := congrArg List.length he
          rw [k8] at this
          simp at this
          omega)
        simp only [k8, sectorSize] at this
        simp only [Place.stop, placeOf, hd, if_true, roundUp_between k5 k6, k3]
        omega
      | false =>
        obtain ⟨f1, f2⟩ := hI.files p l hl hd
        have hpos : l.size ≠ 0 := hne
        have := holdsAt_fits f2 (by intro he; rw [he] at f1; exact hpos f1.symm)
        simp only [Place.stop, placeOf, hd, Bool.false_eq_true, if_false]
        omega
    · intro n hn hN
      obtain ⟨hN1, hN2⟩ := hN
      rw [h1, htr, List.append_cons, applyTrace_append, hP']
      have hle : (applyTrace [] ((planOps fs.pathToString D recs).flatMap (opWrites fs) ++
          [(32 * 2048, rootDesc 33 rootSize)])).length ≤ n := by
        apply applyTrace_length_le (Nat.zero_le _)
        intro w hw hwne
        rcases List.mem_append.1 hw with hw | hw
        · obtain ⟨x, hx, k1, k2⟩ := write_in_place hS hb hw
          refine Nat.le_trans k2 (hN2 x hx ?_)
          intro hz
          have hwl := List.length_pos_iff.2 hwne
          simp only [Place.first, Place.stop, hz] at k1 k2
          unfold roundUp at k2
          split at k2 <;> omega
        · rw [List.mem_singleton] at hw
          subst hw
          rw [rootDesc_length]
          omega
      generalize applyTrace [] ((planOps fs.pathToString D recs).flatMap (opWrites fs) ++
        [(32 * 2048, rootDesc 33 rootSize)]) = img at hle
      unfold padOf
      split
      · next hpos =>
        simp only [applyTrace, List.foldl_cons, List.foldl_nil]
        rw [writeAt_length, if_neg (by rw [List.replicate_eq_nil_iff]; omega), List.length_replicate]
        omega
      · simp only [applyTrace, List.foldl_nil]; omega
    · intro i b hi hbne
      rw [h1, htr, List.append_cons] at hi
      rcases applyTrace_byte hi with hi | hi | ⟨w, hw, k1, k2, k3⟩
      · simp at hi
      · exact absurd hi hbne
      · rcases List.mem_append.1 hw with hw | hw
        · rcases List.mem_append.1 hw with hw | hw
          · obtain ⟨x, hx, m1, m2⟩ := write_in_place hS hb hw
            exact .inr ⟨x, hx, by omega, by omega⟩
          · rw [List.mem_singleton] at hw
            subst hw
            rw [rootDesc_length] at k2
            exact .inl ⟨by omega, by omega⟩
        · rw [hP'] at hw
          unfold padOf at hw
          split at hw
          · rw [List.mem_singleton] at hw
            subst hw
            rw [List.getElem?_replicate] at k3
            split at k3
            · cases k3; exact absurd rfl hbne
            · cases k3
          · simp at hw
    · intro x hx hd
      obtain ⟨⟨p, l⟩, hl, rfl⟩ := List.mem_map.1 hx
      exact hI.files p l hl hd
    · intro x hx hd
      obtain ⟨⟨p, l⟩, hl, rfl⟩ := List.mem_map.1 hx
      have hd : l.isDir = true := hd
      obtain ⟨hdir, lst, w, r, n1, n2, k1, k2, k3, hr, hPl, _⟩ := hI.dirs p l hl hd
      obtain ⟨ds, d1, d2⟩ := placed_bytes k3 hr hPl
      refine ⟨lst, ds, k1, fun fuel hfu => d1 fuel (by simpa using hfu), ?_⟩
      intro i b hi hge hlt
      obtain ⟨sz, z1, z2, z3, _⟩ := C22_size_agrees k3 hr
      obtain ⟨hh, sz', e1, e2, e3⟩ := hPl
      rw [e1] at z1
      cases z1
      have hs1 : (regionOf l).sector.toNat = l.sector := UInt32.toNat_ofNat_of_lt' (hI.small _ _ hl).1
      have hs2 : (regionOf l).size.toNat = l.size := UInt32.toNat_ofNat_of_lt' (hI.small _ _ hl).2
      rw [hs2] at e2 e3
      simp only [Place.first, placeOf] at hge
      simp only [Place.stop, placeOf, hd, if_true, roundUp_between e2 e3] at hlt
      have hat' : s'.dev.img[i]? = r.entryTable[i - 2048 * l.sector]? := by
        rw [← holdsAt_byte hh (i := i - 2048 * l.sector) (by rw [z3]; omega), hs1]
        congr 1
        omega
      rw [hi] at hat'
      have := d2 _ b hat'.symm
      rw [hs1, show 2048 * l.sector + (i - 2048 * l.sector) = i by omega] at this
      exact this

/-! ## C125: the layout -/

/-- C125: an image packed into an empty file consists of the descriptor and of one place for the root
and for every entry of the tree, one after the other from sector 33 without a gap; and the file is not
longer than it must be to hold them in whole units of 64 KiB. -/
theorem C125_compact_layout {fs : SourceFs} {content : Path → Bytes} {faults : Faults} {fuel : Nat}
    {s' : PackState ImgFile} (hb : Bounded fs) (hf : FaithfulTo fs content)
    (h : createImage (fileEnv fs faults) fuel ⟨⟨[], []⟩, []⟩ = (.ok (), s')) :
    ∃ places e, LaidOut fs.readDir s'.dev.img places ∧ Adjoining 33 places e ∧
      s'.dev.img.length % 65536 = 0 ∧ HasRoom places s'.dev.img.length ∧
      ∀ n, n % 65536 = 0 → HasRoom places n → s'.dev.img.length ≤ n := by
  obtain ⟨places, e, h1, h2, h3, _⟩ := pack_layout hb hf h
  exact ⟨places, e, h1, h2, (C35_length_multiple h).2, h3⟩

/-! ## C126: nothing else -/

/-- C126: in an image packed into an empty file every byte that is neither in the descriptor nor in the
table of a directory nor in the content of a file is zero; what is in the place of a file is its content;
and in the table of a directory every byte that is not in the header or the name of an entry listed
there is `0xff`. -/
theorem C126_nothing_else {fs : SourceFs} {content : Path → Bytes} {faults : Faults} {fuel : Nat}
    {s' : PackState ImgFile} (hb : Bounded fs) (hf : FaithfulTo fs content)
    (h : createImage (fileEnv fs faults) fuel ⟨⟨[], []⟩, []⟩ = (.ok (), s')) :
    ∃ places, LaidOut fs.readDir s'.dev.img places ∧
      (∀ i b, s'.dev.img[i]? = some b → ¬ (65536 ≤ i ∧ i < 67584) →
        (∀ x ∈ places, ¬ (x.first ≤ i ∧ i < x.stop)) → b = 0) ∧
      (∀ x ∈ places, x.isDir = false → (content x.path).length = x.size ∧
        HoldsAt (fileDev s'.dev.img) x.first (content x.path)) ∧
      ∀ x ∈ places, x.isDir = true → ∃ lst ds, fs.readDir x.path = .ok lst ∧
        (∀ fuel, lst.length < fuel → walkDirentTree (fileDev s'.dev.img)
          ⟨UInt32.ofNat x.sector, UInt32.ofNat x.size⟩ fuel = .ok ds) ∧
        ∀ i b, s'.dev.img[i]? = some b → x.first ≤ i → i < x.stop →
          b = 0xff ∨ ∃ d ∈ ds, d.offset ≤ i ∧ i < d.offset + (14 + d.name.length) := by
  obtain ⟨places, e, h1, _, _, h4, h5, h6, _⟩ := pack_layout hb hf h
  refine ⟨places, h1, ?_, h5, h6⟩
  intro i b hi hd hp
  apply Classical.byContradiction
  intro hne
  rcases h4 i b hi hne with h6 | ⟨x, hx, h6⟩
  · exact hd h6
  · exact hp x hx h6

example : Bounded sampleFs' ∧ FaithfulTo sampleFs' sampleContent ∧
    ∃ s', createImage (fileEnv sampleFs' (fun _ => none)) 2 ⟨⟨[], []⟩, []⟩ = (.ok (), s') :=
  ⟨sample'_bounded, sample'_faithful, sample_packs []⟩

end Xdvdfs.Props
