/-!
# Outcomes of modelled Rust code

Every fallible Rust function is modelled by a Lean function returning `Res α`.
-/

namespace Xdvdfs

/-- Error values.  Models the variants of `util::Error`
(`/repo/xdvdfs-core/src/util.rs:5-19`) and of `FileStructureError`/`WriteError`
(`/repo/xdvdfs-core/src/write/mod.rs`).  Payloads are dropped: no modelled code branches on them. -/
inductive Err where
  | io                  -- `IOError(E)` / an error returned by the device
  | sizeOutOfBounds
  | invalidVolume
  | directoryEmpty
  | doesNotExist
  | stringEncoding
  | noDirent
  | isNotDirectory
  | fileNameTooLong
  | duplicateFileName
  | tooManyEntries
  | fileTooLarge
  | other
  deriving DecidableEq, Repr

/-- Outcome of a modelled function: normal value, Rust `Err`, Rust panic
(assertion, unwrap, index, overflow in a checked build), or fuel exhausted. -/
inductive Res (α : Type u) where
  | ok (a : α)
  | err (e : Err)
  | panic
  | hang
  deriving DecidableEq, Repr

namespace Res

@[inline] protected def bind {α : Type u} {β : Type v} (x : Res α) (f : α → Res β) : Res β :=
  match x with
  | ok a => f a
  | err e => err e
  | panic => panic
  | hang => hang

instance : Monad Res where
  pure := ok
  bind := Res.bind

@[simp] theorem pure_eq (a : α) : (pure a : Res α) = ok a := rfl
@[simp] theorem ok_bind (a : α) (f : α → Res β) : (ok a >>= f) = f a := rfl
@[simp] theorem err_bind (e : Err) (f : α → Res β) : ((err e : Res α) >>= f) = err e := rfl
@[simp] theorem panic_bind (f : α → Res β) : ((panic : Res α) >>= f) = panic := rfl
@[simp] theorem hang_bind (f : α → Res β) : ((hang : Res α) >>= f) = hang := rfl

@[simp] theorem map_ok (f : α → β) (a : α) : (f <$> (ok a : Res α)) = ok (f a) := rfl
@[simp] theorem map_err (f : α → β) (e : Err) : (f <$> (err e : Res α)) = err e := rfl
@[simp] theorem map_panic (f : α → β) : (f <$> (panic : Res α)) = panic := rfl
@[simp] theorem map_hang (f : α → β) : (f <$> (hang : Res α)) = hang := rfl

theorem bind_eq_ok {x : Res α} {f : α → Res β} {b : β} :
    (x >>= f) = ok b ↔ ∃ a, x = ok a ∧ f a = ok b := by
  cases x <;> simp

theorem bind_eq_panic {x : Res α} {f : α → Res β} :
    (x >>= f) = panic ↔ x = panic ∨ ∃ a, x = ok a ∧ f a = panic := by
  cases x <;> simp

theorem bind_eq_hang {x : Res α} {f : α → Res β} :
    (x >>= f) = hang ↔ x = hang ∨ ∃ a, x = ok a ∧ f a = hang := by
  cases x <;> simp

theorem bind_eq_err {x : Res α} {f : α → Res β} {e : Err} :
    (x >>= f) = err e ↔ x = err e ∨ ∃ a, x = ok a ∧ f a = err e := by
  cases x <;> simp

instance : LawfulMonad Res := LawfulMonad.mk' _
  (id_map := by intro α x; cases x <;> rfl)
  (pure_bind := by intros; rfl)
  (bind_assoc := by intro α β γ x f g; cases x <;> rfl)

/-- Outcome is a normal return: a value or a Rust `Err`. -/
def Returns (x : Res α) : Prop := x ≠ panic ∧ x ≠ hang

/-- Rust `.ok_or(e)` on an `Option`. -/
def ofOption (e : Err) : Option α → Res α
  | some a => ok a
  | none => err e

/-- Rust `.unwrap()`/`.expect()`/indexing on an `Option`: absent means panic. -/
def unwrap : Option α → Res α
  | some a => ok a
  | none => panic

@[simp] theorem unwrap_some (a : α) : unwrap (some a) = ok a := rfl
@[simp] theorem unwrap_none : unwrap (none : Option α) = panic := rfl
@[simp] theorem ofOption_some (e : Err) (a : α) : ofOption e (some a) = ok a := rfl
@[simp] theorem ofOption_none (e : Err) : ofOption e (none : Option α) = err e := rfl

/-- Rust `assert!(c)`. -/
def assert (c : Bool) : Res Unit := if c then ok () else panic

@[simp] theorem assert_true : assert true = ok () := rfl
@[simp] theorem assert_false : assert false = panic := rfl

end Res

/-- Byte strings (Rust `[u8]`). -/
abbrev Bytes := List UInt8

/-- Rust `str`/`String`: a sequence of Unicode scalar values. -/
abbrev Str := List Char

/-- Bytes `off .. off+n` of `b` (Rust `&b[off..off+n]`); shorter if `b` ends before. -/
def slice (b : Bytes) (off n : Nat) : Bytes := (b.drop off).take n

theorem slice_length (b : Bytes) (off n : Nat) (h : off + n ≤ b.length) :
    (slice b off n).length = n := by
  simp [slice]; omega

end Xdvdfs
