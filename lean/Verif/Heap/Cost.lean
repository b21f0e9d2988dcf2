import Verif.Heap.Tree
import Verif.Heap.ListLemmas
/-
How much of the memory an operation touches.

`Prog.cut x n c` is a program that panics instead of touching more than `n` cells (allocating, reading, opening, closing, taking
or dropping a pointer to one) or cloning more than `c` pointers.  A cell that is read allows as many more clones as it has
pointers, which is what `make_mut` on a shared cell does with them; and a cell with label `l` that is read or opened allows `x l`
more of both, for contents that are themselves collections.  Freeing the cells below a dropped pointer is not counted: every cell that
is freed was allocated before.

`Cost x Q prog n c` says that `prog` stays within these limits, whatever the actions answer, and leaves a result and limits that satisfy
`Q`; such a program is not changed by the cut.
-/
set_option autoImplicit false
namespace Rpds
namespace Heap
variable {L : Type}

/-- `prog`, except that it panics when it touches more than `n` cells or clones more than `c` pointers. -/
def Prog.cut {α : Type} (x : L → Nat) : (n c : Nat) → Prog L α → Prog L α
  | _, _, .ret r => .ret r
  | _, _, .panic => .panic
  | _, 0, .op (.clone _) _ => .panic
  | n, c + 1, .op (.clone p) k => .op (.clone p) fun y => cut x n c (k y)
  | 0, _, .op _ _ => .panic
  | n + 1, c, .op (.read p) k => .op (.read p) fun y => cut x (n + x y.1) (c + y.2.length + x y.1) (k y)
  | n + 1, c, .op (.tryOpen p) k => .op (.tryOpen p) fun y =>
    match y with
    | none => cut x n c (k none)
    | some z => cut x (n + x z.1) (c + x z.1) (k (some z))
  | n + 1, c, .op a k => .op a fun y => cut x n c (k y)
  | 0, _, .drop _ _ => .panic
  | n + 1, c, .drop p k => .drop p (cut x n c k)

/-- `prog` touches at most `n` cells and clones at most `c` pointers, and what is left of these limits satisfies `Q`. -/
def Cost {α : Type} (x : L → Nat) (Q : α → Nat → Nat → Prop) : Prog L α → (n c : Nat) → Prop
  | .ret r, n, c => Q r n c
  | .panic, _, _ => True
  | .op (.clone _) k, n, c => 1 ≤ c ∧ ∀ y, Cost x Q (k y) n (c - 1)
  | .op (.read _) k, n, c => 1 ≤ n ∧ ∀ y, Cost x Q (k y) (n - 1 + x y.1) (c + y.2.length + x y.1)
  | .op (.tryOpen _) k, n, c => 1 ≤ n ∧ Cost x Q (k none) (n - 1) c ∧ ∀ z, Cost x Q (k (some z)) (n - 1 + x z.1) (c + x z.1)
  | .op (.new _ _) k, n, c => 1 ≤ n ∧ ∀ y, Cost x Q (k y) (n - 1) c
  | .op .newOpen k, n, c => 1 ≤ n ∧ ∀ y, Cost x Q (k y) (n - 1) c
  | .op (.close _ _ _) k, n, c => 1 ≤ n ∧ ∀ y, Cost x Q (k y) (n - 1) c
  | .op (.tryTake _) k, n, c => 1 ≤ n ∧ ∀ y, Cost x Q (k y) (n - 1) c
  | .drop _ k, n, c => 1 ≤ n ∧ Cost x Q k (n - 1) c

variable {x : L → Nat} {α β : Type}

theorem Cost.cut {Q : α → Nat → Nat → Prop} {prog : Prog L α} {n c : Nat} (h : Cost x Q prog n c) : prog.cut x n c = prog := by
  induction prog generalizing n c with
  | ret r => simp [Prog.cut]
  | panic => simp [Prog.cut]
  | drop p k ih =>
    obtain ⟨h1, h2⟩ := h
    obtain ⟨n, rfl⟩ : ∃ m, n = m + 1 := ⟨n - 1, by omega⟩
    simp only [Prog.cut]
    congr 1
    exact ih h2
  | op a k ih =>
    cases a with
    | clone p =>
      obtain ⟨h1, h2⟩ := h
      obtain ⟨c, rfl⟩ : ∃ m, c = m + 1 := ⟨c - 1, by omega⟩
      simp only [Prog.cut]
      congr 1
      funext y
      exact ih y (h2 y)
    | read p =>
      obtain ⟨h1, h2⟩ := h
      obtain ⟨n, rfl⟩ : ∃ m, n = m + 1 := ⟨n - 1, by omega⟩
      simp only [Prog.cut]
      congr 1
      funext y
      exact ih y (h2 y)
    | tryOpen p =>
      obtain ⟨h1, h2, h3⟩ := h
      obtain ⟨n, rfl⟩ : ∃ m, n = m + 1 := ⟨n - 1, by omega⟩
      simp only [Prog.cut]
      congr 1
      funext y
      cases y with
      | none => exact ih none h2
      | some z => exact ih (some z) (h3 z)
    | new l cs =>
      obtain ⟨h1, h2⟩ := h
      obtain ⟨n, rfl⟩ : ∃ m, n = m + 1 := ⟨n - 1, by omega⟩
      simp only [Prog.cut]
      congr 1
      funext y
      exact ih y (h2 y)
    | newOpen =>
      obtain ⟨h1, h2⟩ := h
      obtain ⟨n, rfl⟩ : ∃ m, n = m + 1 := ⟨n - 1, by omega⟩
      simp only [Prog.cut]
      congr 1
      funext y
      exact ih y (h2 y)
    | close p l cs =>
      obtain ⟨h1, h2⟩ := h
      obtain ⟨n, rfl⟩ : ∃ m, n = m + 1 := ⟨n - 1, by omega⟩
      simp only [Prog.cut]
      congr 1
      funext y
      exact ih y (h2 y)
    | tryTake p =>
      obtain ⟨h1, h2⟩ := h
      obtain ⟨n, rfl⟩ : ∃ m, n = m + 1 := ⟨n - 1, by omega⟩
      simp only [Prog.cut]
      congr 1
      funext y
      exact ih y (h2 y)

theorem Cost.bind {Q : α → Nat → Nat → Prop} {R : β → Nat → Nat → Prop} {prog : Prog L α} {f : α → Prog L β} {n c : Nat}
    (h : Cost x Q prog n c) (hf : ∀ r n' c', Q r n' c' → Cost x R (f r) n' c') : Cost x R (prog.bind f) n c := by
  induction prog generalizing n c with
  | ret r => exact hf _ _ _ h
  | panic => trivial
  | drop p k ih => exact ⟨h.1, ih h.2⟩
  | op a k ih =>
    cases a with
    | tryOpen p => exact ⟨h.1, ih _ h.2.1, fun z => ih _ (h.2.2 z)⟩
    | _ => exact ⟨h.1, fun y => ih y (h.2 y)⟩

theorem Cost.imp {Q R : α → Nat → Nat → Prop} {prog : Prog L α} {n c : Nat} (h : Cost x Q prog n c)
    (hq : ∀ r n' c', Q r n' c' → R r n' c') : Cost x R prog n c := by
  have := Cost.bind (f := Prog.ret) h hq
  rwa [Prog.bind_ret] at this

/-- At most `a` of the `n` cells and `b` of the `c` clones are used up. -/
def Spends (α : Type) (n c a b : Nat) (_ : α) (n' c' : Nat) : Prop := n ≤ n' + a ∧ c ≤ c' + b

theorem Cost.spends {prog : Prog L α} {n c a b : Nat} (h : Cost x (Spends α n c a b) prog n c) : prog.cut x n c = prog := h.cut

theorem Cost.ret' {r : α} {n c a b n' c' : Nat} (h1 : n ≤ n' + a) (h2 : c ≤ c' + b) : Cost x (Spends α n c a b) (.ret r) n' c' := ⟨h1, h2⟩
theorem Cost.panic {Q : α → Nat → Nat → Prop} {n c : Nat} : Cost x Q .panic n c := trivial

theorem Cost.assoc {γ : Type} {Q : γ → Nat → Nat → Prop} {p : Prog L α} {f : α → Prog L β} {g : β → Prog L γ} {n c : Nat}
    (h : Cost x Q (p.bind fun y => (f y).bind g) n c) : Cost x Q ((p.bind f).bind g) n c := by rwa [Prog.bind_assoc]
theorem Cost.retBind {Q : β → Nat → Nat → Prop} {r : α} {f : α → Prog L β} {n c : Nat} (h : Cost x Q (f r) n c) :
    Cost x Q ((Prog.ret r).bind f) n c := h
theorem Cost.panicBind {Q : β → Nat → Nat → Prop} {f : α → Prog L β} {n c : Nat} : Cost x Q ((Prog.panic : Prog L α).bind f) n c := trivial

theorem Cost.mpure {r : α} {n c a b n' c' : Nat} (h1 : n ≤ n' + a) (h2 : c ≤ c' + b) : Cost x (Spends α n c a b) (pure r) n' c' := ⟨h1, h2⟩
theorem Cost.mbind {Q : α → Nat → Nat → Prop} {R : β → Nat → Nat → Prop} {prog : Prog L α} {f : α → Prog L β} {n c : Nat}
    (h : Cost x Q prog n c) (hf : ∀ r n' c', Q r n' c' → Cost x R (f r) n' c') : Cost x R (prog >>= f) n c := Cost.bind h hf
theorem Cost.massoc {γ : Type} {Q : γ → Nat → Nat → Prop} {p : Prog L α} {f : α → Prog L β} {g : β → Prog L γ} {n c : Nat}
    (h : Cost x Q (p >>= fun y => f y >>= g) n c) : Cost x Q ((p >>= f) >>= g) n c := Cost.assoc h
theorem Cost.mretBind {Q : β → Nat → Nat → Prop} {r : α} {f : α → Prog L β} {n c : Nat} (h : Cost x Q (f r) n c) :
    Cost x Q (pure r >>= f) n c := h
theorem Cost.mpanicBind {Q : β → Nat → Nat → Prop} {f : α → Prog L β} {n c : Nat} : Cost x Q (Prog.panic >>= f) n c := trivial

/-- The cost of a call, by one of the lemmas known so far. -/
syntax "cost_lem" : tactic

/-- Sums up the costs of a program. -/
macro "cost_go" : tactic => `(tactic| repeat' first
  | with_reducible exact Cost.panic
  | with_reducible exact Cost.mpanicBind
  | with_reducible exact Cost.panicBind
  | ((with_reducible refine Cost.mpure ?_ ?_) <;> omega)
  | ((with_reducible refine Cost.ret' ?_ ?_) <;> omega)
  | ((with_reducible apply Cost.mbind); focus cost_lem
     rintro _ _ _ ⟨_, _⟩; try dsimp only)
  | ((with_reducible apply Cost.bind); focus cost_lem
     rintro _ _ _ ⟨_, _⟩; try dsimp only)
  | with_reducible refine Cost.mretBind ?_
  | with_reducible refine Cost.retBind ?_
  | with_reducible refine Cost.massoc ?_
  | with_reducible refine Cost.assoc ?_
  | split
  | ((with_reducible apply Cost.imp); focus cost_lem
     rintro _ _ _ ⟨_, _⟩; exact ⟨by omega, by omega⟩))

variable {n c : Nat}

theorem cost_new {l : L} {cs : List Addr} (h1 : 1 ≤ n) : Cost x (Spends Addr n c 1 0) (new l cs) n c :=
  ⟨h1, fun _ => ⟨by omega, by omega⟩⟩
theorem cost_newOpen (h1 : 1 ≤ n) : Cost x (Spends Addr n c 1 0) newOpen n c := ⟨h1, fun _ => ⟨by omega, by omega⟩⟩
theorem cost_clone {p : Addr} (h2 : 1 ≤ c) : Cost x (Spends Unit n c 0 1) (clone p) n c := ⟨h2, fun _ => ⟨by omega, by omega⟩⟩
theorem cost_read {p : Addr} (h1 : 1 ≤ n) :
    Cost x (fun y n' c' => n + x y.1 ≤ n' + 1 ∧ c + y.2.length + x y.1 ≤ c') (read p) n c :=
  ⟨h1, fun _ => ⟨by omega, by omega⟩⟩
theorem cost_tryOpen {p : Addr} (h1 : 1 ≤ n) :
    Cost x (fun y n' c' => n + (y.elim 0 fun z => x z.1) ≤ n' + 1 ∧ c + (y.elim 0 fun z => x z.1) ≤ c') (tryOpen p) n c :=
  ⟨h1, by simp only [Cost, Option.elim]; omega, fun z => by simp only [Cost, Option.elim]; omega⟩
theorem cost_close {p : Addr} {l : L} {cs : List Addr} (h1 : 1 ≤ n) : Cost x (Spends Unit n c 1 0) (close p l cs) n c :=
  ⟨h1, fun _ => ⟨by omega, by omega⟩⟩
theorem cost_tryTake {p : Addr} (h1 : 1 ≤ n) : Cost x (Spends (Option (Content L)) n c 1 0) (tryTake p) n c :=
  ⟨h1, fun _ => ⟨by omega, by omega⟩⟩
theorem cost_drop {p : Addr} (h1 : 1 ≤ n) : Cost x (Spends Unit n c 1 0) (drop p) n c := ⟨h1, by omega, by omega⟩

macro_rules | `(tactic| cost_lem) => `(tactic| ((with_reducible refine cost_new ?_) <;> omega))
macro_rules | `(tactic| cost_lem) => `(tactic| ((with_reducible refine cost_newOpen ?_) <;> omega))
macro_rules | `(tactic| cost_lem) => `(tactic| ((with_reducible refine cost_clone ?_) <;> omega))
macro_rules | `(tactic| cost_lem) => `(tactic| ((with_reducible refine cost_read ?_) <;> omega))
macro_rules | `(tactic| cost_lem) => `(tactic| ((with_reducible refine cost_close ?_) <;> omega))
macro_rules | `(tactic| cost_lem) => `(tactic| ((with_reducible refine cost_tryTake ?_) <;> omega))
macro_rules | `(tactic| cost_lem) => `(tactic| ((with_reducible refine cost_drop ?_) <;> omega))

theorem cost_cloneAll {cs : List Addr} (h2 : cs.length ≤ c) : Cost x (Spends Unit n c 0 cs.length) (cloneAll cs) n c := by
  induction cs generalizing n c with
  | nil => exact ⟨by omega, by omega⟩
  | cons a cs ih =>
    simp only [List.length_cons] at h2 ⊢
    refine Cost.bind (cost_clone (by omega)) ?_
    rintro _ n' c' ⟨h3, h4⟩
    refine (ih (by omega)).imp ?_
    rintro _ n'' c'' ⟨h5, h6⟩
    exact ⟨by omega, by omega⟩

/-- `make_mut` touches cells four times at most, and clones no more than the pointers it reads. -/
theorem cost_makeMut {p : Addr} (h1 : 4 ≤ n) :
    Cost x (fun y n' c' => n + x y.2.1 ≤ n' + 4 ∧ c + x y.2.1 ≤ c') (makeMut p) n c := by
  refine Cost.bind (cost_tryOpen (by omega)) ?_
  rintro (_ | z) n' c' ⟨h2, h3⟩
  · simp only [Option.elim] at h2 h3
    refine Cost.bind (cost_read (by omega)) ?_
    rintro y n2 c2 ⟨h4, h5⟩
    refine Cost.bind (cost_cloneAll (by omega)) ?_
    rintro _ n3 c3 ⟨h6, h7⟩
    refine Cost.bind (cost_newOpen (by omega)) ?_
    rintro q n4 c4 ⟨h8, h9⟩
    refine Cost.bind (cost_drop (by omega)) ?_
    rintro _ n5 c5 ⟨h10, h11⟩
    exact ⟨by simp only; omega, by simp only; omega⟩
  · simp only [Option.elim] at h2 h3
    exact ⟨by simp only; omega, by simp only; omega⟩

theorem cost_lift {r : Res α} : Cost x (Spends α n c 0 0) (lift r) n c := by
  cases r with
  | ok y => exact Cost.ret' (by omega) (by omega)
  | error e => exact Cost.panic

macro_rules | `(tactic| cost_lem) => `(tactic| ((with_reducible refine cost_makeMut ?_) <;> omega))
macro_rules | `(tactic| cost_lem) => `(tactic| ((with_reducible refine cost_lift)))

theorem cost_cloneOpt {p : Option Addr} (h2 : 1 ≤ c) : Cost x (Spends Unit n c 0 1) (cloneOpt p) n c := by
  cases p with
  | none => exact Cost.ret' (by omega) (by omega)
  | some p => exact cost_clone h2
theorem cost_dropOpt {p : Option Addr} (h1 : 1 ≤ n) : Cost x (Spends Unit n c 1 0) (dropOpt p) n c := by
  cases p with
  | none => exact Cost.ret' (by omega) (by omega)
  | some p => exact cost_drop h1

macro_rules | `(tactic| cost_lem) => `(tactic| ((with_reducible refine cost_cloneOpt ?_) <;> omega))
macro_rules | `(tactic| cost_lem) => `(tactic| ((with_reducible refine cost_dropOpt ?_) <;> omega))

/-- A write through a pointer costs five more than the write itself. -/
theorem cost_modifyPtr {p : Addr} {f : Content L → Prog L (α × Content L)} {a b : Nat} (h1 : a + 5 ≤ n)
    (hf : ∀ y n' c', n + x y.1 ≤ n' + 4 → c + x y.1 ≤ c' → Cost x (Spends _ n c (a + 4) b) (f y) n' c') :
    Cost x (Spends (α × Addr) n c (a + 5) b) (modifyPtr p f) n c := by
  refine Cost.bind (cost_makeMut (by omega)) ?_
  rintro y n' c' ⟨h2, h3⟩
  refine Cost.bind (hf _ n' c' h2 h3) ?_
  rintro z n2 c2 ⟨h4, h5⟩
  refine Cost.bind (cost_close (by omega)) ?_
  rintro _ n3 c3 ⟨h6, h7⟩
  exact Cost.ret' (by omega) (by omega)

/-! ### Data structures -/

/-- The data structure whose operations panic instead of exceeding the limits (`none`: no limit). -/
def Impl.limit {H Op Ret : Type} (impl : Impl L H Op Ret) (x : L → Nat) (new : Nat × Nat) (step : H → Op → Option (Nat × Nat))
    (drop : H → Nat × Nat) : Impl L H Op Ret where
  ptrs := impl.ptrs
  new := impl.new.cut x new.1 new.2
  step h op :=
    match step h op with
    | none => impl.step h op
    | some l => (impl.step h op).cut x l.1 l.2
  drop h := (impl.drop h).cut x (drop h).1 (drop h).2

/-- If all operations stay within the limits then the limits change nothing. -/
theorem Impl.limit_eq {H Op Ret : Type} {impl : Impl L H Op Ret} {new : Nat × Nat} {step : H → Op → Option (Nat × Nat)}
    {drop : H → Nat × Nat} (h1 : Cost x (fun _ _ _ => True) impl.new new.1 new.2)
    (h2 : ∀ h op l, step h op = some l → Cost x (fun _ _ _ => True) (impl.step h op) l.1 l.2)
    (h3 : ∀ h, Cost x (fun _ _ _ => True) (impl.drop h) (drop h).1 (drop h).2) : impl.limit x new step drop = impl := by
  obtain ⟨ptrs, inew, istep, idrop⟩ := impl
  simp only [Impl.limit, Impl.mk.injEq, true_and]
  refine ⟨h1.cut, ?_, ?_⟩
  · funext h op
    cases e : step h op with
    | none => rfl
    | some l => exact (h2 h op l e).cut
  · funext h
    exact (h3 h).cut

end Heap
end Rpds
