import Verif.Proof.Codec

/-!
# C01, C02, C05: codecs and regions
-/

namespace Xdvdfs

/-- **C01** (round trip).  Serializing a header and deserializing the result gives it back, and
the serialization has exactly 14 bytes. -/
theorem C01_header_roundtrip (n : DiskNode) :
    n.ser.length = 14 ∧ DiskNode.deser n.ser = some n :=
  ⟨DiskNode.ser_length n, DiskNode.deser_ser n⟩

/-- **C01** (all byte strings).  Every 14-byte string is the serialization of the header it
deserializes to. -/
theorem C01_header_roundtrip_bytes (b : Bytes) (h : b.length = 14) :
    ∃ n, DiskNode.deser b = some n ∧ n.ser = b := by
  obtain ⟨n, hn⟩ := Option.isSome_iff_exists.mp (DiskNode.deser_isSome b h)
  exact ⟨n, hn, DiskNode.ser_deser b n hn⟩

/-- **C01** (layout).  The serialized header holds, little-endian, the left link at byte 0, the
right link at 2, the sector at 4, the size at 8, the attributes at 12 and the name length at 13. -/
theorem C01_header_layout (n : DiskNode) :
    Spec.numAt n.ser 0 2 = n.left.toNat ∧ Spec.numAt n.ser 2 2 = n.right.toNat ∧
    Spec.numAt n.ser 4 4 = n.dirent.data.sector.toNat ∧
    Spec.numAt n.ser 8 4 = n.dirent.data.size.toNat ∧
    Spec.numAt n.ser 12 1 = n.dirent.attrs.toNat ∧
    Spec.numAt n.ser 13 1 = n.dirent.nameLen.toNat := by
  have h1 := n.left.toNat_lt
  have h2 := n.right.toNat_lt
  have h3 := n.dirent.data.sector.toNat_lt
  have h4 := n.dirent.data.size.toNat_lt
  have key (c b d : Bytes) (k x : Nat) (hk : b = natLE k x) (hx : x < 256 ^ k)
      (hs : n.ser = c ++ (b ++ d)) : Spec.numAt n.ser c.length k = x := by
    have e := leNat_eq_numAt b c d
    rw [← hs, hk, leNat_natLE, Nat.mod_eq_of_lt hx, natLE_length] at e
    exact e.symm
  refine ⟨key [] _ _ 2 _ rfl (by omega) rfl, key (natLE 2 n.left.toNat) _ _ 2 _ rfl (by omega) rfl,
    key (natLE 2 n.left.toNat ++ natLE 2 n.right.toNat) _ _ 4 _ rfl (by omega) rfl,
    key (natLE 2 n.left.toNat ++ (natLE 2 n.right.toNat ++ natLE 4 n.dirent.data.sector.toNat))
      _ _ 4 _ rfl (by omega) rfl, ?_, ?_⟩
  · simp [DiskNode.ser, natLE, Spec.numAt]
  · simp [DiskNode.ser, natLE, Spec.numAt]

/-- Non-trivial instance of C01. -/
example : DiskNode.deser (DiskNode.ser
    { left := 1, right := 0x1234, dirent := { data := ⟨33, 5000⟩, attrs := 0x20, nameLen := 7 } }) =
    some { left := 1, right := 0x1234,
           dirent := { data := ⟨33, 5000⟩, attrs := 0x20, nameLen := 7 } } := by decide

/-- **C02** (fresh descriptor).  A new descriptor serializes to one sector, which carries the magic
at both ends, is recognised as valid, and gives the root region back. -/
theorem C02_volume_new_roundtrip (root : Region) :
    let b := (VolDesc.new root).ser
    b.length = 2048 ∧ Spec.IsVolume b ∧
    Spec.numAt b 20 4 = root.sector.toNat ∧ Spec.numAt b 24 4 = root.size.toNat ∧
    (VolDesc.deser b).isValid = true ∧ (VolDesc.deser b).root = root := by
  intro b
  have hw := VolDesc.new_wf root
  have hd := VolDesc.deser_ser _ hw
  have hl := VolDesc.ser_length _ hw
  have hm : volumeMagic = Spec.magic := by decide
  refine ⟨hl, ⟨?_, ?_⟩, ?_, ?_, ?_, ?_⟩
  · have : slice b 0 20 = volumeMagic := by
      exact congrArg VolDesc.magic0 hd
    rw [← hm, ← this]; rfl
  · have : slice b 0x7ec 20 = volumeMagic := by
      have e (x : Bytes) : slice x 0x7ec 20 = (VolDesc.deser x).magic1 := rfl
      rw [e]; show (VolDesc.deser (VolDesc.new root).ser).magic1 = volumeMagic
      rw [hd]; rfl
    rw [← hm, ← this]
    have hb : b.length = 2048 := hl
    clear_value b
    simp only [slice]
    rw [List.take_of_length_le]
    simp [hb]
  · have h := root.sector.toNat_lt
    have e := leNat_eq_numAt (natLE 4 root.sector.toNat) volumeMagic
      (natLE 4 root.size.toNat ++ (natLE 8 0 ++ (List.replicate 0x7c8 0 ++ volumeMagic)))
    rw [leNat_natLE, Nat.mod_eq_of_lt (by omega)] at e
    exact e.symm
  · have h := root.size.toNat_lt
    have e := leNat_eq_numAt (natLE 4 root.size.toNat) (volumeMagic ++ natLE 4 root.sector.toNat)
      ((natLE 8 0 ++ (List.replicate 0x7c8 0 ++ volumeMagic)))
    rw [leNat_natLE, Nat.mod_eq_of_lt (by omega), List.append_assoc] at e
    exact e.symm
  · show (VolDesc.deser (VolDesc.new root).ser).isValid = true
    rw [hd]
    show (volumeMagic == volumeMagic && volumeMagic == volumeMagic) = true
    decide
  · show (VolDesc.deser (VolDesc.new root).ser).root = root
    rw [hd]; rfl

/-- **C02** (all sectors).  Any 2048 bytes re-serialize to themselves. -/
theorem C02_volume_roundtrip_bytes (b : Bytes) (h : b.length = 2048) :
    (VolDesc.deser b).ser = b := VolDesc.ser_deser b h

/-- **C02** (validity).  A sector is recognised as valid exactly when it carries both magics. -/
theorem C02_volume_valid_iff (b : Bytes) (h : b.length = 2048) :
    (VolDesc.deser b).isValid = true ↔ Spec.IsVolume b := by
  have hm : volumeMagic = Spec.magic := by decide
  have e2 : slice b 0x7ec 0x14 = b.drop 2028 := by
    simp only [slice]; rw [List.take_of_length_le]; simp [h]
  simp only [VolDesc.isValid, VolDesc.deser, e2, Bool.and_eq_true, beq_iff_eq, Spec.IsVolume, ← hm]
  rfl

example : (VolDesc.deser (VolDesc.new ⟨33, 2048⟩).ser).root = ⟨33, 2048⟩ :=
  (C02_volume_new_roundtrip ⟨33, 2048⟩).2.2.2.2.2

/-- **C05** (bounds).  Resolving an offset succeeds exactly for offsets inside the region, gives
the absolute position `2048·sector + offset`, and that position fits in 64 bits. -/
theorem C05_region_offset (r : Region) (off : Nat) :
    (off < r.size.toNat →
      r.offset off = .ok (2048 * r.sector.toNat + off) ∧ 2048 * r.sector.toNat + off < 2 ^ 64) ∧
    (r.size.toNat ≤ off → r.offset off = .err .sizeOutOfBounds) := by
  have h1 := r.sector.toNat_lt
  have h2 := r.size.toNat_lt
  unfold Region.offset sectorSize
  constructor
  · intro h; rw [if_neg (by omega)]; exact ⟨rfl, by omega⟩
  · intro h; rw [if_pos (by omega)]

example : (Region.mk 33 2048).offset 2047 = .ok (33 * 2048 + 2047) := by decide
example : (Region.mk 33 2048).offset 2048 = .err .sizeOutOfBounds := by decide

end Xdvdfs
