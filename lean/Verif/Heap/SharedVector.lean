import Verif.Heap.Shared
import Verif.Heap.Vector
/-
Lent vectors.
-/
set_option autoImplicit false
namespace Rpds
namespace Heap

/-- The methods of `Vector` that take `&self`. -/
def vecByRef {T : Type} : RVector.Op T → Bool
  | .pushBackMut _ | .setMut _ _ | .dropLastMut | .getMut _ _ | .indexMut _ _ | .extend _ => false
  | _ => true

section
variable {T : Type} {Ar : Arch} {A : Allocator (VLabel T)}

theorem readsOnly_vecReadVal (p : Addr) : (HNode.readVal p : Prog (VLabel T) T).ReadsOnly := by
  refine (readsOnly_read p).bind ?_
  rintro ⟨l, cs⟩
  cases l <;> trivial

theorem readsOnly_vecGetStep {b i h : Nat} {sub : Addr → Prog (VLabel T) T} (hs : ∀ p, (sub p).ReadsOnly) (p : Addr) :
    (HNode.getStep Ar b i h sub p).ReadsOnly := by
  refine (readsOnly_read p).bind ?_
  rintro ⟨l, cs⟩
  refine (readsOnly_lift _).bind fun k => ?_
  cases l with
  | val v => trivial
  | branch => exact (readsOnly_lift _).bind fun q => hs q
  | leaf => exact (readsOnly_lift _).bind fun _ => (readsOnly_lift _).bind fun q => readsOnly_vecReadVal q

theorem readsOnly_vecNodeGet {b i : Nat} (h : Nat) (p : Addr) : (HNode.get Ar b i h p : Prog (VLabel T) T).ReadsOnly := by
  induction h generalizing p with
  | zero => exact readsOnly_vecGetStep (sub := fun _ => .panic) (fun _ => trivial) p
  | succ h ih => exact readsOnly_vecGetStep ih p

theorem readsOnly_vecViewStep {sub : Addr → Prog (VLabel T) (VNode T)} (hs : ∀ p, (sub p).ReadsOnly) (p : Addr) :
    (HNode.viewStep sub p).ReadsOnly := by
  refine (readsOnly_read p).bind ?_
  rintro ⟨l, cs⟩
  cases l with
  | val v => trivial
  | branch => exact (readsOnly_forAll hs _).bind fun _ => trivial
  | leaf => exact (readsOnly_forAll readsOnly_vecReadVal _).bind fun _ => trivial

theorem readsOnly_vecNodeView (h : Nat) (p : Addr) : (HNode.view h p : Prog (VLabel T) (VNode T)).ReadsOnly := by
  induction h generalizing p with
  | zero => exact readsOnly_vecViewStep (sub := fun _ => .panic) (fun _ => trivial) p
  | succ h ih => exact readsOnly_vecViewStep ih p

theorem readsOnly_vecGet (v : HVector) (i : Nat) : (v.get Ar i : Prog (VLabel T) (Option T)).ReadsOnly := by
  unfold HVector.get
  split
  · trivial
  · exact (readsOnly_lift _).bind fun h => (readsOnly_vecNodeGet h _).bind fun _ => trivial

theorem safeB_vecClone {hv : HVector} {v : RVector T} {h : Nat} {β : List (Item (VLabel T))} (hi : hv.Is v h β) :
    SafeB A none β (fun hw τ => hw.Is v h τ) (hv.clone (T := T)) [] := by
  obtain ⟨t, rfl, rfl, hn⟩ := hi
  refine SafeB.bind (safeB_clone (.refl t) (by simp) []) ?_
  rintro _ _ rfl
  exact SafeB.ret ⟨t, rfl, rfl, hn⟩

theorem vecImpl_lends {bits : Nat} (h0 : 0 < bits) (hW : bits < Ar.W) :
    (vecImpl Ar T bits).Lends A Spec.vecStep (VecIs Ar) vecByRef where
  step := by
    rintro hv ⟨cap, xs⟩ β op r e hR hb hs
    have rd : ∀ op : RVector.Op T, Spec.vecStep (cap, xs) op = .ok (r, .keep) → (vecHStep Ar hv op).ReadsOnly →
        SafeB A none β (fun x τ => x.1 = r ∧ EffNew (VecIs Ar) x.2 .keep τ) (vecHStep Ar hv op) [] :=
      fun op h1 h2 => (vecImpl_refines Ar A h0 hW).reads (op := op) hR h1 h2
    have hR' := hR
    obtain ⟨v, h, hi, hr, rfl⟩ := hR
    have hh := rep_height_lt hr
    simp only at hr
    cases op with
    | pushBackMut x => cases hb
    | setMut i x => cases hb
    | dropLastMut => cases hb
    | getMut i f => cases hb
    | indexMut i x => cases hb
    | extend ys => cases hb
    | pushBack x =>
      simp only [Spec.vecStep] at hs
      split at hs
      · next hlt =>
        cases hs
        refine SafeB.bind (SafeB.bind (safeB_vecClone hi) ?_) ?_ (Q := fun r τ => VecIs Ar r (vecCap Ar v.bits, xs ++ [x]) τ)
        · intro hw τ h1
          exact (safe_vecPush h1 hr hlt).borrowing
        · intro hw τ h1
          exact SafeB.ret ⟨rfl, .fresh h1⟩
      · cases hs
    | set i x =>
      simp only [Spec.vecStep] at hs
      obtain ⟨w, h1, h2, h3, h4⟩ := hr.setMut i x
      refine SafeB.bind (SafeB.bind (safeB_vecClone hi) ?_) ?_ (Q := fun r τ => (¬ i < xs.length ∧ r = none ∧ τ = []) ∨
        ∃ hw, i < xs.length ∧ r = some hw ∧ hw.Is w h τ)
      · intro hw τ h5
        refine Safe.borrowing (Safe.bind (safe_hvecSetMut h5 (by omega) hr.height h1) ?_)
        rintro ⟨b', hw'⟩ σ ⟨rfl, h7⟩
        simp only [decide_eq_true_eq]
        split
        · next hlt => exact Safe.ret (.inr ⟨hw', hlt, rfl, h7⟩)
        · next hlt =>
          have := safe_vecDrop (A := A) h7 (within_none _) []
          rw [List.append_nil] at this
          refine Safe.bind this ?_
          rintro _ _ rfl
          exact Safe.ret (.inl ⟨hlt, rfl, rfl⟩)
      · rintro o σ (⟨hlt, rfl, rfl⟩ | ⟨hw, hlt, rfl, h5⟩)
        · rw [if_neg hlt] at hs; cases hs
          exact SafeB.ret ⟨rfl, .keep⟩
        · rw [if_pos hlt] at hs; cases hs
          exact SafeB.ret ⟨rfl, .fresh (.of h5 h2 (by rw [h3]))⟩
    | dropLast =>
      simp only [Spec.vecStep] at hs
      by_cases hx : xs = []
      · subst hx
        rw [if_pos rfl] at hs; cases hs
        refine SafeB.bind (SafeB.bind (safeB_vecClone hi) ?_) ?_ (Q := fun r τ => r = none ∧ τ = [])
        · intro hw τ h5
          refine Safe.borrowing (Safe.bind (safe_hvecDropLastMut h5 hr.height hr.dropLastMut_nil) ?_)
          rintro ⟨b', hw'⟩ σ ⟨rfl, h', h7⟩
          have := safe_vecDrop (A := A) h7 (within_none _) []
          rw [List.append_nil] at this
          refine Safe.bind this ?_
          rintro _ _ rfl
          exact Safe.ret ⟨rfl, rfl⟩
        · rintro o σ ⟨rfl, rfl⟩
          exact SafeB.ret ⟨rfl, .keep⟩
      · rw [if_neg hx] at hs; cases hs
        obtain ⟨w, h', h1, h2, h3⟩ := hr.dropLastMut hx
        refine SafeB.bind (SafeB.bind (safeB_vecClone hi) ?_) ?_ (Q := fun r τ => ∃ hw, r = some hw ∧
          VecIs Ar hw (vecCap Ar v.bits, xs.dropLast) τ)
        · intro hw τ h5
          refine Safe.borrowing (Safe.bind (safe_hvecDropLastMut h5 hr.height h1) ?_)
          rintro ⟨b', hw'⟩ σ ⟨rfl, h'', h7⟩
          exact Safe.ret ⟨hw', rfl, .of h7 h2 (by rw [h3])⟩
        · rintro o σ ⟨hw, rfl, h5⟩
          exact SafeB.ret ⟨rfl, .fresh h5⟩
    | clone =>
      simp only [Spec.vecStep] at hs; cases hs
      refine SafeB.bind (safeB_vecClone hi) ?_
      intro hw τ h1
      exact SafeB.ret ⟨rfl, .fresh (.of h1 hr rfl)⟩
    | get i =>
      have hs' := hs
      simp only [Spec.vecStep] at hs; cases hs
      exact rd (.get i) hs' ((readsOnly_vecGet hv i).bind fun _ => trivial)
    | index i =>
      have hs' := hs
      have hro : (vecHStep Ar hv (.index i : RVector.Op T)).ReadsOnly := by
        refine (readsOnly_vecGet hv i).bind fun o => ?_
        cases o <;> trivial
      simp only [Spec.vecStep] at hs
      cases hx : xs[i]? with
      | none =>
        rw [hx] at hs; cases hs
        exact rd (.index i) hs' hro
      | some x =>
        rw [hx] at hs; cases hs
        exact rd (.index i) hs' hro
    | first =>
      have hs' := hs
      simp only [Spec.vecStep] at hs; cases hs
      exact rd .first hs' ((readsOnly_vecGet hv 0).bind fun _ => trivial)
    | last =>
      have hs' := hs
      simp only [Spec.vecStep] at hs; cases hs
      refine rd .last hs' (Prog.ReadsOnly.bind ?_ fun _ => trivial)
      unfold HVector.last
      split
      · trivial
      · exact (readsOnly_lift _).bind fun i => readsOnly_vecGet hv i
    | len =>
      have hs' := hs
      simp only [Spec.vecStep] at hs; cases hs
      exact rd .len hs' trivial
    | isEmpty =>
      have hs' := hs
      simp only [Spec.vecStep] at hs; cases hs
      exact rd .isEmpty hs' trivial
    | iter cs =>
      have hs' := hs
      simp only [Spec.vecStep] at hs; cases hs
      exact rd (.iter cs) hs' (Prog.ReadsOnly.bind ((readsOnly_lift _).bind fun h => (readsOnly_vecNodeView h _).bind fun _ =>
        (readsOnly_lift _).bind fun _ => (readsOnly_lift _).bind fun _ => trivial) fun _ => trivial)

end
end Heap
end Rpds
