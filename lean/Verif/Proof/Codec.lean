import Verif.Model.Layout
import Verif.Spec.Format

/-! Helper lemmas about the codecs. -/

namespace Xdvdfs

@[simp] theorem natLE_length (k n : Nat) : (natLE k n).length = k := by
  induction k generalizing n with
  | zero => rfl
  | succ k ih => simp [natLE, ih]

theorem leNat_natLE (k n : Nat) : leNat (natLE k n) = n % 256 ^ k := by
  induction k generalizing n with
  | zero => simp [natLE, leNat, Nat.mod_one]
  | succ k ih =>
    simp only [natLE, leNat, ih, UInt8.toNat_ofNat']
    rw [show 256 ^ (k + 1) = 256 * 256 ^ k by rw [Nat.pow_succ, Nat.mul_comm], Nat.mod_mul]

theorem leNat_lt (b : Bytes) : leNat b < 256 ^ b.length := by
  induction b with
  | nil => simp [leNat]
  | cons x xs ih =>
    have := x.toNat_lt
    simp only [leNat, List.length_cons, Nat.pow_succ]
    omega

theorem natLE_leNat (b : Bytes) : natLE b.length (leNat b) = b := by
  induction b with
  | nil => rfl
  | cons x xs ih =>
    have hx := x.toNat_lt
    simp only [List.length_cons, natLE, leNat]
    have h2 : (x.toNat + 256 * leNat xs) / 256 = leNat xs := by omega
    rw [h2, ih]
    congr 1
    apply UInt8.toNat_inj.mp
    simp

theorem natLE_leNat' (k : Nat) (b : Bytes) (h : b.length = k) : natLE k (leNat b) = b := by
  subst h; exact natLE_leNat b

theorem leNat_eq_numAt (b c : Bytes) (d : Bytes) :
    leNat b = Spec.numAt (c ++ (b ++ d)) c.length b.length := by
  induction b generalizing c with
  | nil => rfl
  | cons x xs ih =>
    simp only [leNat, List.length_cons, Spec.numAt]
    have h1 : (c ++ (x :: xs ++ d))[c.length]? = some x := by simp
    rw [h1]
    have h2 := ih (c ++ [x])
    simp only [List.length_append, List.length_cons, List.length_nil] at h2
    have e : c ++ [x] ++ (xs ++ d) = c ++ (x :: xs ++ d) := by simp
    rw [e] at h2
    rw [h2]

theorem toNat_ofNat16 (b : Bytes) (h : b.length = 2) : (UInt16.ofNat (leNat b)).toNat = leNat b := by
  have := leNat_lt b
  rw [h] at this
  simp [UInt16.toNat_ofNat']; omega

theorem toNat_ofNat32 (b : Bytes) (h : b.length = 4) : (UInt32.ofNat (leNat b)).toNat = leNat b := by
  have := leNat_lt b
  rw [h] at this
  simp [UInt32.toNat_ofNat']; omega

theorem toNat_ofNat64 (b : Bytes) (h : b.length = 8) : (UInt64.ofNat (leNat b)).toNat = leNat b := by
  have := leNat_lt b
  rw [h] at this
  simp [UInt64.toNat_ofNat']; omega

theorem ofNat_natLE16 (x : UInt16) : UInt16.ofNat (leNat (natLE 2 x.toNat)) = x := by
  have := x.toNat_lt
  rw [leNat_natLE, Nat.mod_eq_of_lt (by omega)]; simp

theorem ofNat_natLE32 (x : UInt32) : UInt32.ofNat (leNat (natLE 4 x.toNat)) = x := by
  have := x.toNat_lt
  rw [leNat_natLE, Nat.mod_eq_of_lt (by omega)]; simp

theorem ofNat_natLE64 (x : UInt64) : UInt64.ofNat (leNat (natLE 8 x.toNat)) = x := by
  have := x.toNat_lt
  rw [leNat_natLE, Nat.mod_eq_of_lt (by omega)]; simp

@[simp] theorem DiskNode.ser_length (n : DiskNode) : n.ser.length = 14 := by
  simp [DiskNode.ser]

theorem DiskNode.deser_ser (n : DiskNode) : DiskNode.deser n.ser = some n := by
  simp only [DiskNode.ser, natLE, List.cons_append, List.nil_append, DiskNode.deser]
  have h16 := ofNat_natLE16
  have h32 := ofNat_natLE32
  simp only [natLE] at h16 h32
  rw [h16, h16, h32, h32]

theorem DiskNode.ser_deser (b : Bytes) (n : DiskNode) (h : DiskNode.deser b = some n) :
    n.ser = b := by
  unfold DiskNode.deser at h
  split at h
  · cases h
    simp only [DiskNode.ser]
    rw [toNat_ofNat16 _ rfl, toNat_ofNat16 _ rfl, toNat_ofNat32 _ rfl, toNat_ofNat32 _ rfl,
      natLE_leNat' 2 _ rfl, natLE_leNat' 2 _ rfl, natLE_leNat' 4 _ rfl, natLE_leNat' 4 _ rfl]
    rfl
  · cases h

theorem DiskNode.deser_isSome (b : Bytes) (h : b.length = 14) : (DiskNode.deser b).isSome := by
  match b, h with
  | [_, _, _, _, _, _, _, _, _, _, _, _, _, _], _ => rfl

theorem slice_append_left (a b : Bytes) (n : Nat) (h : a.length = n) : slice (a ++ b) 0 n = a := by
  subst h; simp [slice]

theorem slice_append_right (a b : Bytes) (p n : Nat) (h : a.length ≤ p) :
    slice (a ++ b) p n = slice b (p - a.length) n := by
  simp [slice, List.drop_append, List.drop_eq_nil_of_le h]

theorem slice_slice (b : Bytes) (o n o' n' : Nat) (h : o' + n' ≤ n) :
    slice (slice b o n) o' n' = slice b (o + o') n' := by
  simp only [slice, List.drop_take, List.take_take, List.drop_drop]
  congr 1; omega

/-- Well-formed in-memory volume descriptor: the Rust array types fix these lengths. -/
def VolDesc.WF (v : VolDesc) : Prop :=
  v.magic0.length = 20 ∧ v.unused.length = 0x7c8 ∧ v.magic1.length = 20

theorem VolDesc.ser_length (v : VolDesc) (h : v.WF) : v.ser.length = 2048 := by
  obtain ⟨h0, h1, h2⟩ := h
  simp [VolDesc.ser, h0, h1, h2]

theorem VolDesc.deser_ser (v : VolDesc) (h : v.WF) : VolDesc.deser v.ser = v := by
  obtain ⟨h0, h1, h2⟩ := h
  have e0 : slice v.ser 0 0x14 = v.magic0 := slice_append_left _ _ _ h0
  have e1 : slice v.ser 0x14 4 = natLE 4 v.root.sector.toNat := by
    rw [VolDesc.ser, slice_append_right _ _ _ _ (by omega), h0]
    exact slice_append_left _ _ _ (by simp)
  have e2 : slice v.ser 0x18 4 = natLE 4 v.root.size.toNat := by
    rw [VolDesc.ser, slice_append_right _ _ _ _ (by omega), h0,
      slice_append_right _ _ _ _ (by simp), natLE_length]
    exact slice_append_left _ _ _ (by simp)
  have e3 : slice v.ser 0x1c 8 = natLE 8 v.filetime.toNat := by
    rw [VolDesc.ser, slice_append_right _ _ _ _ (by omega), h0,
      slice_append_right _ _ _ _ (by simp), natLE_length,
      slice_append_right _ _ _ _ (by simp), natLE_length]
    exact slice_append_left _ _ _ (by simp)
  have e4 : slice v.ser 0x24 0x7c8 = v.unused := by
    rw [VolDesc.ser, slice_append_right _ _ _ _ (by omega), h0,
      slice_append_right _ _ _ _ (by simp), natLE_length,
      slice_append_right _ _ _ _ (by simp), natLE_length,
      slice_append_right _ _ _ _ (by simp), natLE_length]
    exact slice_append_left _ _ _ h1
  have e5 : slice v.ser 0x7ec 0x14 = v.magic1 := by
    rw [VolDesc.ser, slice_append_right _ _ _ _ (by omega), h0,
      slice_append_right _ _ _ _ (by simp), natLE_length,
      slice_append_right _ _ _ _ (by simp), natLE_length,
      slice_append_right _ _ _ _ (by simp), natLE_length,
      slice_append_right _ _ _ _ (by omega), h1]
    simp [slice, List.take_of_length_le, h2]
  simp only [VolDesc.deser, e0, e1, e2, e3, e4, e5, ofNat_natLE32, ofNat_natLE64]

theorem VolDesc.deser_wf (b : Bytes) (h : b.length = 2048) : (VolDesc.deser b).WF := by
  refine ⟨slice_length _ _ _ (by omega), slice_length _ _ _ (by omega), slice_length _ _ _ (by omega)⟩

theorem slice_add (b : Bytes) (o n m : Nat) : slice b o n ++ slice b (o + n) m = slice b o (n + m) := by
  simp only [slice]
  rw [List.take_add, List.drop_drop]

theorem VolDesc.ser_deser (b : Bytes) (h : b.length = 2048) : (VolDesc.deser b).ser = b := by
  have l (o : Nat) (n : Nat) (ho : o + n ≤ 2048) : (slice b o n).length = n :=
    slice_length _ _ _ (by omega)
  simp only [VolDesc.ser, VolDesc.deser]
  rw [toNat_ofNat32 _ (l _ _ (by omega)), toNat_ofNat32 _ (l _ _ (by omega)),
    toNat_ofNat64 _ (l _ _ (by omega)), natLE_leNat' 4 _ (l _ _ (by omega)),
    natLE_leNat' 4 _ (l _ _ (by omega)), natLE_leNat' 8 _ (l _ _ (by omega))]
  rw [slice_add b 0x24 0x7c8 0x14, slice_add b 0x1c 8, slice_add b 0x18 4, slice_add b 0x14 4,
    slice_add b 0 0x14]
  simp [slice, List.take_of_length_le, h]

theorem VolDesc.new_wf (r : Region) : (VolDesc.new r).WF := by
  refine ⟨rfl, ?_, rfl⟩
  exact List.length_replicate

end Xdvdfs
