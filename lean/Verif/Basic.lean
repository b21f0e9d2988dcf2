/-
Common ground of the model: panics, machine arithmetic, driving an iterator.
-/
set_option autoImplicit false
universe u
namespace Rpds

/-- The ways in which the modelled Rust code can fail to return.  A panic is an explicit error value.
`diverge` is used for running out of fuel where the code recurses without a structural bound. -/
inductive Panic where
  /-- arithmetic overflow/underflow detected in a build with overflow checks -/
  | overflow
  /-- `Option::unwrap`/`expect` on `None` -/
  | unwrapNone
  /-- slice/`Vec` index out of bounds -/
  | indexOutOfBounds
  /-- division or remainder by zero -/
  | divZero
  /-- `unreachable!()` -/
  | unreachable
  /-- `assert!`/`panic!` which is part of the documented behaviour -/
  | assertFailed
  /-- `debug_assert!` (only in debug builds) -/
  | debugAssert
  /-- not a panic: the recursion/loop did not finish within the fuel given -/
  | diverge
  deriving DecidableEq, Repr

/-- Result of running a Rust function. -/
abbrev Res (α : Type u) := Except Panic α

/-- Results can be compared (used in examples only). -/
instance {ε α : Type} [DecidableEq ε] [DecidableEq α] : DecidableEq (Except ε α) := fun a b =>
  match a, b with
  | .ok x, .ok y => if h : x = y then isTrue (by rw [h]) else isFalse (by simpa using h)
  | .error x, .error y => if h : x = y then isTrue (by rw [h]) else isFalse (by simpa using h)
  | .ok _, .error _ => isFalse (by simp)
  | .error _, .ok _ => isFalse (by simp)

/-- Build mode: overflow checks and debug assertions on (`debug`), or wrapping arithmetic and no debug
assertions (`release`). -/
inductive Mode where
  | debug
  | release
  deriving DecidableEq, Repr

/-- Word arithmetic: the build mode and `usize::BITS`. -/
structure Arch where
  mode : Mode
  /-- `usize::BITS` -/
  W : Nat
  deriving DecidableEq, Repr

namespace Arch
variable (A : Arch)

/-- `a + b` on `usize`. -/
def uadd (a b : Nat) : Res Nat :=
  if a + b < 2 ^ A.W then .ok (a + b)
  else match A.mode with
    | .debug => .error .overflow
    | .release => .ok ((a + b) % 2 ^ A.W)

/-- `a - b` on `usize`. -/
def usub (a b : Nat) : Res Nat :=
  if b ≤ a then .ok (a - b)
  else match A.mode with
    | .debug => .error .overflow
    | .release => .ok ((a + 2 ^ A.W - b) % 2 ^ A.W)

/-- `a * b` on `usize`. -/
def umul (a b : Nat) : Res Nat :=
  if a * b < 2 ^ A.W then .ok (a * b)
  else match A.mode with
    | .debug => .error .overflow
    | .release => .ok ((a * b) % 2 ^ A.W)

/-- `a << s` on `usize`.  Debug builds panic when `s ≥ usize::BITS`; release builds use `s % usize::BITS`.
Bits shifted out are lost in both. -/
def ushl (a s : Nat) : Res Nat :=
  if s < A.W then .ok (a * 2 ^ s % 2 ^ A.W)
  else match A.mode with
    | .debug => .error .overflow
    | .release => .ok (a * 2 ^ (s % A.W) % 2 ^ A.W)

/-- `a >> s` on `usize`, same convention for large `s`. -/
def ushr (a s : Nat) : Res Nat :=
  if s < A.W then .ok (a / 2 ^ s)
  else match A.mode with
    | .debug => .error .overflow
    | .release => .ok (a / 2 ^ (s % A.W))

/-- `debug_assert!(b)`. -/
def debugAssert (b : Bool) : Res Unit :=
  match A.mode, b with
  | .debug, false => .error .debugAssert
  | _, _ => .ok ()

end Arch

/-- `a - b` on `usize` where it is claimed that no underflow can happen: an underflow is an error in every build
(a release build would wrap; the theorems show that this case does not arise). -/
def csub (a b : Nat) : Res Nat :=
  if b ≤ a then .ok (a - b) else .error .overflow

/-- `a / b` on `usize`. -/
def udiv (a b : Nat) : Res Nat := if b = 0 then .error .divZero else .ok (a / b)

/-- `a % b` on `usize`. -/
def urem (a b : Nat) : Res Nat := if b = 0 then .error .divZero else .ok (a % b)

/-- Number of binary digits of `u`. -/
def bitLen (u : Nat) : Nat := if u = 0 then 0 else Nat.log2 u + 1

/-- `u.leading_zeros()` on a `usize`. -/
def Arch.leadingZeros (A : Arch) (u : Nat) : Nat := A.W - bitLen u

/-- `assert!(b)`. -/
def assertRt (b : Bool) : Res Unit :=
  if b then .ok () else .error .assertFailed

/-- `Option::unwrap`/`expect`. -/
def unwrap {α : Type u} : Option α → Res α
  | some a => .ok a
  | none => .error .unwrapNone

/-- `v[i]` on a `Vec`/slice. -/
def vecIndex {α : Type u} (l : List α) (i : Nat) : Res α :=
  match l[i]? with
  | some a => .ok a
  | none => .error .indexOutOfBounds

/-- `v[i] = a` on a `Vec`/slice. -/
def vecSet {α : Type u} (l : List α) (i : Nat) (a : α) : Res (List α) :=
  if i < l.length then .ok (l.set i a) else .error .indexOutOfBounds

/-- Calls `next` until it answers `None` and collects what it produced (what `for x in it` sees). `fuel` bounds
the number of calls. -/
def drain {σ α : Type} (next : σ → Res (Option α × σ)) : Nat → σ → Res (List α)
  | 0, _ => .error .diverge
  | fuel + 1, s => do
    let (o, s') ← next s
    match o with
    | none => pure []
    | some a => do
      let rest ← drain next fuel s'
      pure (a :: rest)

/-! ### simp lemmas for the `Res` monad -/

@[simp] theorem Res.ok_bind {α β : Type} (a : α) (f : α → Res β) : (Except.ok a >>= f : Res β) = f a := rfl
@[simp] theorem Res.error_bind {α β : Type} (e : Panic) (f : α → Res β) :
    ((Except.error e : Res α) >>= f : Res β) = .error e := rfl
@[simp] theorem Res.pure_eq {α : Type} (a : α) : (pure a : Res α) = .ok a := rfl
@[simp] theorem Res.map_ok {α β : Type} (a : α) (f : α → β) : (f <$> (Except.ok a : Res α)) = .ok (f a) := rfl
@[simp] theorem Res.map_error {α β : Type} (e : Panic) (f : α → β) :
    (f <$> (Except.error e : Res α)) = .error e := rfl

@[simp] theorem unwrap_some {α : Type u} (a : α) : unwrap (some a) = .ok a := rfl
@[simp] theorem unwrap_none {α : Type u} : unwrap (none : Option α) = .error .unwrapNone := rfl

theorem csub_ok {a b : Nat} (h : b ≤ a) : csub a b = .ok (a - b) := by
  simp [csub, h]
@[simp] theorem csub_succ_one (a : Nat) : csub (a + 1) 1 = .ok a := by
  simp [csub]

theorem Arch.uadd_ok {A : Arch} {a b : Nat} (h : a + b < 2 ^ A.W) : A.uadd a b = .ok (a + b) := by
  simp [Arch.uadd, h]
theorem Arch.usub_ok {A : Arch} {a b : Nat} (h : b ≤ a) : A.usub a b = .ok (a - b) := by
  simp [Arch.usub, h]
theorem Arch.umul_ok {A : Arch} {a b : Nat} (h : a * b < 2 ^ A.W) : A.umul a b = .ok (a * b) := by
  simp [Arch.umul, h]
theorem Arch.ushr_ok {A : Arch} {a s : Nat} (h : s < A.W) : A.ushr a s = .ok (a / 2 ^ s) := by
  simp [Arch.ushr, h]
theorem Arch.ushl_one_ok {A : Arch} {s : Nat} (h : s < A.W) : A.ushl 1 s = .ok (2 ^ s) := by
  have : 2 ^ s < 2 ^ A.W := Nat.pow_lt_pow_right (by decide) h
  simp [Arch.ushl, h, Nat.mod_eq_of_lt this]
@[simp] theorem Arch.debugAssert_true (A : Arch) : A.debugAssert true = .ok () := by
  cases h : A.mode <;> simp [Arch.debugAssert, h]

theorem vecIndex_ok {α : Type u} {l : List α} {i : Nat} {a : α} (h : l[i]? = some a) : vecIndex l i = .ok a := by
  simp [vecIndex, h]
theorem vecSet_ok {α : Type u} {l : List α} {i : Nat} {a : α} (h : i < l.length) :
    vecSet l i a = .ok (l.set i a) := by
  simp [vecSet, h]

end Rpds
