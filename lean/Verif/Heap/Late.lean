import Verif.Heap.SharedLinear
/-
Operations whose last step runs user code: the `Drop` of the element that `drop_first_mut`, `pop_mut` or `dequeue_mut` removes (see
`Drop/Finished.lean`).  If it panics the operation has no answer, what it did to the handle stays, and a handle that it made is dropped
by the unwinding.  The memory of the removed element and of the node that held it is released all the same: drop glue goes on when the
drop of a field panics.
-/
set_option autoImplicit false
namespace Rpds

/-- What is left of an effect if the operation panics at its end: the new version is gone. -/
def Effect.unwound {σ : Type} : Effect σ → Effect σ
  | .fresh _ => .keep
  | e => e

/-- The operations with a flag that says whether they panic at their end (`none`). -/
def Spec.late {σ Op Ret : Type} (step : σ → Op → Res (Ret × Effect σ)) (s : σ) (p : Bool × Op) : Res (Option Ret × Effect σ) :=
  (step s p.2).map fun x => if p.1 then (none, x.2.unwound) else (some x.1, x.2)

/-- Operations that may panic anyway, of which those of `may` may also panic at their end. -/
def Spec.lateOf {σ Op Ret : Type} (may : Op → Bool) (step : σ → Op → Res (Option Ret × Effect σ)) (s : σ) (p : Bool × Op) :
    Res (Option Ret × Effect σ) :=
  (step s p.2).map fun x => if p.1 && may p.2 then (none, x.2.unwound) else x

namespace Heap
variable {L H Op Ret σ : Type}

/-- The same on the heap. -/
def Impl.late (impl : Impl L H Op Ret) : Impl L H (Bool × Op) (Option Ret) where
  ptrs := impl.ptrs
  new := impl.new
  step h p :=
    Prog.bind (impl.step h p.2) fun x =>
      if p.1 then
        match x.2 with
        | .fresh h' => Prog.bind (impl.drop h') fun _ => .ret (none, .keep)
        | e => .ret (none, e)
      else .ret (some x.1, x.2)
  drop := impl.drop

variable {impl : Impl L H Op Ret} {A : Allocator L} {new : σ} {step : σ → Op → Res (Ret × Effect σ)} {R : H → σ → List (Item L) → Prop}

theorem late_refines (hr : impl.Refines A new step R) : impl.late.Refines A new (Spec.late step) R where
  new := hr.new
  step := by
    rintro h s ρ ⟨b, op⟩ r e hR he
    simp only [Spec.late] at he
    cases hs : step s op with
    | error x => rw [hs] at he; cases he
    | ok x =>
      obtain ⟨r₀, e₀⟩ := x
      rw [hs] at he
      refine Safe.bind (hr.step h s ρ op r₀ e₀ hR hs) ?_
      rintro ⟨r', e'⟩ τ ⟨rfl, h1⟩
      cases b with
      | false =>
        cases he
        exact Safe.ret ⟨rfl, h1⟩
      | true =>
        cases he
        cases h1 with
        | keep hk => exact Safe.ret ⟨rfl, .keep hk⟩
        | update hu => exact Safe.ret ⟨rfl, .update hu⟩
        | fresh hf hk =>
          refine Safe.bindFrame (hr.drop _ _ _ hf) (.refl _) ?_
          rintro _ _ rfl
          exact Safe.ret ⟨rfl, .keep hk⟩
  drop := hr.drop
  ptrs := hr.ptrs

theorem late_lends {byRef : Op → Bool} (hr : impl.Refines A new step R) (hl : impl.Lends A step R byRef) :
    impl.late.Lends A (Spec.late step) R (fun p => byRef p.2) where
  step := by
    rintro h s β ⟨b, op⟩ r e hR hb he
    simp only [Spec.late] at he
    cases hs : step s op with
    | error x => rw [hs] at he; cases he
    | ok x =>
      obtain ⟨r₀, e₀⟩ := x
      rw [hs] at he
      refine SafeB.bind (hl.step h s β op r₀ e₀ hR hb hs) ?_
      rintro ⟨r', e'⟩ τ ⟨rfl, h1⟩
      cases b with
      | false =>
        cases he
        exact SafeB.ret ⟨rfl, h1⟩
      | true =>
        cases he
        cases h1 with
        | keep => exact SafeB.ret ⟨rfl, .keep⟩
        | fresh hf =>
          refine SafeB.bind (hr.drop _ _ _ hf).borrowing ?_
          rintro _ _ rfl
          exact SafeB.ret ⟨rfl, .keep⟩

/-- `Spec.lateOf` on the heap. -/
def Impl.lateOf (may : Op → Bool) (impl : Impl L H Op (Option Ret)) : Impl L H (Bool × Op) (Option Ret) :=
  impl.late.adapt (fun p => (p.1 && may p.2, p.2)) Option.join

theorem lateOf_step (may : Op → Bool) (step : σ → Op → Res (Option Ret × Effect σ)) :
    (fun s (p : Bool × Op) => (do
      let x ← Spec.late step s (p.1 && may p.2, p.2)
      .ok (x.1.join, x.2) : Res _)) = Spec.lateOf may step := by
  funext s p
  simp only [Spec.late, Spec.lateOf]
  cases step s p.2 with
  | error x => rfl
  | ok x => cases hb : p.1 && may p.2 <;> simp [Except.map, hb]

variable {impl : Impl L H Op (Option Ret)} {step : σ → Op → Res (Option Ret × Effect σ)}

theorem lateOf_refines (may : Op → Bool) (hr : impl.Refines A new step R) : (impl.lateOf may).Refines A new (Spec.lateOf may step) R := by
  rw [← lateOf_step]
  exact Impl.RefinesIn.adapt (late_refines hr) _ _

theorem lateOf_lends (may : Op → Bool) {byRef : Op → Bool} (hr : impl.Refines A new step R) (hl : impl.Lends A step R byRef) :
    (impl.lateOf may).Lends A (Spec.lateOf may step) R (fun p => byRef p.2) := by
  rw [← lateOf_step]
  exact Impl.Lends.adapt (late_lends hr hl) _ _

end Heap
end Rpds
