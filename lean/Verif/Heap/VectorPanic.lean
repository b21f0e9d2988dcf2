import Verif.Heap.SharedVector
/-
`Vector` on the heap when the user code it calls panics or lies: the `Clone` of an element inside `make_mut` (`get_mut` and `index_mut`), and the
iterator given to `extend`.  What was borrowed is given back while the panic unwinds.

`make_mut` asks `Clone` only if the element is shared.  Here it is always asked: as every call comes with user code of its own, a call that does
not ask is the call with `Clone` giving back the element.
-/
set_option autoImplicit false
namespace Rpds

/-- The user code a call comes with: what `Clone` gives for each element (`none`: it panics), and whether the iterator panics after its items. -/
structure VecUser (T : Type) where
  clone : T → Option T
  iterPanics : Bool := false

/-- A call of a method, with the user code. -/
abbrev VecCall (T : Type) := VecUser T × RVector.Op T

namespace Spec
open RVector (Op Ret)

/-- What a sequence answers (`none`: the call panicked in user code). -/
def vecStepU {T : Type} (s : Nat × List T) (p : VecCall T) : Res (Option (Ret T) × Effect (Nat × List T)) :=
  match p.2 with
  | .getMut i f => match s.2[i]? with
    | none => .ok (some (.bool false), .keep)
    | some x => match p.1.clone x with
      | none => .ok (none, .update s)
      | some y => .ok (some (.bool true), .update (s.1, s.2.set i (f y)))
  | .indexMut i x => match s.2[i]? with
    | none => .ok (some .panicked, .keep)
    | some y => match p.1.clone y with
      | none => .ok (none, .update s)
      | some _ => .ok (some .unit, .update (s.1, s.2.set i x))
  | .extend ys =>
    if s.2.length + ys.length ≤ s.1 then .ok (if p.1.iterPanics then none else some .unit, .update (s.1, s.2 ++ ys)) else .error .overflow
  | op => (vecStep s op).map fun x => (some x.1, x.2)

end Spec

namespace Heap

section
variable {T : Type} (Ar : Arch)

namespace HNode
variable (bits : Nat) (clone : T → Option T)

/-- `Node::get_mut` (vector/mod.rs:222-239) on the content of a node borrowed mutably, followed by a write of `f old` through the
reference; `sub` is the recursive call at `height - 1`.  The answer is `false` if `Clone` panicked. -/
def modifyUStep (f : T → T) (index height : Nat) (sub : Content (VLabel T) → Prog (VLabel T) (Bool × Content (VLabel T)))
    (c : Content (VLabel T)) : Prog (VLabel T) (Bool × Content (VLabel T)) :=
  Prog.bind (lift (vecBucket Ar bits index height)) fun b =>
    match c.1 with
    | .branch =>
      Prog.bind (lift (vecIndex c.2 b)) fun q =>
      Prog.bind (modifyPtr q sub) fun x => .ret (x.1, .branch, c.2.set b x.2)
    | .leaf =>
      Prog.bind (lift (Ar.debugAssert (height == 0))) fun _ =>
      Prog.bind (lift (vecIndex c.2 b)) fun q =>
      Prog.bind (readVal q) fun v =>
        match clone v with
        | none => .ret (false, .leaf, c.2)
        | some w => Prog.bind (modifyPtr q (modifyVal fun _ => f w)) fun x => .ret (true, .leaf, c.2.set b x.2)
    | .val _ => .panic

/-- `Node::get_mut` (vector/mod.rs:222-239). -/
def modifyU (f : T → T) (index : Nat) : (height : Nat) → Content (VLabel T) → Prog (VLabel T) (Bool × Content (VLabel T))
  | 0 => modifyUStep Ar bits clone f index 0 fun _ => .panic
  | height + 1 => modifyUStep Ar bits clone f index (height + 1) (modifyU f index height)

end HNode

/-- `Vector::get_mut` (vector/mod.rs:495-507) and a write of `f old` through the reference: `none` if there is no such element, `false` if
`Clone` panicked. -/
def HVector.modifyU (clone : T → Option T) (v : HVector) (index : Nat) (f : T → T) : Prog (VLabel T) (Option (Bool × HVector)) :=
  if index ≥ v.length then .ret none
  else
    Prog.bind (lift (v.shape.height Ar)) fun height =>
    Prog.bind (modifyPtr v.root (HNode.modifyU Ar v.bits clone f index height)) fun r => .ret (some (r.1, { v with root := r.2 }))

/-- The methods of `Vector` with user code. -/
def vecHStepU (v : HVector) (p : VecCall T) : Prog (VLabel T) (Option (RVector.Ret T) × Effect HVector) :=
  match p.2 with
  | .getMut i f =>
    Prog.bind (v.modifyU Ar p.1.clone i f) fun o =>
      match o with
      | some (true, w) => .ret (some (.bool true), .update w)
      | some (false, w) => .ret (none, .update w)
      | none => .ret (some (.bool false), .keep)
  | .indexMut i x =>
    Prog.bind (v.modifyU Ar p.1.clone i fun _ => x) fun o =>
      match o with
      | some (true, w) => .ret (some .unit, .update w)
      | some (false, w) => .ret (none, .update w)
      | none => .ret (some .panicked, .keep)
  | .extend xs => Prog.bind (v.extend Ar xs) fun w => .ret (if p.1.iterPanics then none else some .unit, .update w)
  | op => Prog.bind (vecHStep Ar v op) fun x => .ret (some x.1, x.2)

/-- `Vector` for clients that bring their own user code to each call, and catch panics. -/
def vecImplU (T : Type) (bits : Nat) : Impl (VLabel T) HVector (VecCall T) (Option (RVector.Ret T)) where
  ptrs v := [v.root]
  new := HVector.newWithBits bits
  step := vecHStepU Ar
  drop v := drop v.root

end

/-! ### Refinement -/

section
variable {T : Type} {Ar : Arch} {A : Allocator (VLabel T)} {D : Option Nat} [Roomy D] {b : Nat}

theorem vecGetAt_get {index i h : Nat} (cs : List (VNode T)) :
    VNode.getAt Ar b index cs i h = match cs[i]? with
      | some c => (do
        let h' ← Ar.usub h 1
        VNode.get Ar b index c h')
      | none => .error .indexOutOfBounds := by
  induction cs generalizing i with
  | nil => simp [VNode.getAt]
  | cons c cs ih =>
    cases i with
    | zero => simp [VNode.getAt]
    | succ i => simpa [VNode.getAt] using ih

/-- What a call of `get_mut` leaves in a node: the same if `Clone` of the element `x` panicked. -/
def AfterClone (clone : T → Option T) (f : T → T) (x : T) (mod : (T → T) → Res (VNode T)) (n n' : VNode T) : Prop :=
  match clone x with
  | none => n' = n
  | some y => mod (fun _ => f y) = .ok n'

theorem safe_vecModifyU {clone : T → Option T} {f : T → T} {index : Nat} (h : Nat) (hb : h < 2 ^ Ar.W) {l : VLabel T}
    {ts : List (ATree (VLabel T))} {n n' : VNode T} {x : T} (hn : IsVC h l ts n) (hx : n.get Ar b index h = .ok x)
    (he : AfterClone clone f x (fun g => n.modify Ar b g index h) n n') :
    Safe A D (After fun r l' ts' => r = (clone x).isSome ∧ IsVC h l' ts' n')
      (HNode.modifyU Ar b clone f index h (l, ts.map ATree.addr)) (ts.map .ptr) := by
  induction h generalizing l ts n n' with
  | zero =>
    obtain ⟨xs, rfl, rfl, hk⟩ := hn
    simp only [HNode.modifyU, HNode.modifyUStep]
    simp only [VNode.get] at hx
    simp only [AfterClone, VNode.modify] at he
    cases hbk : vecBucket Ar b index 0 with
    | error e => simp [hbk] at hx
    | ok i =>
      refine Safe.liftBind rfl ?_
      have hd : Ar.debugAssert (0 == 0) = .ok () := debug_true
      simp only [hbk, hd, Res.ok_bind] at he hx
      refine Safe.liftBind hd ?_
      rcases f2_get hk i with ⟨h1, h2⟩ | ⟨q, y, h1, h2, h3⟩
      · simp [vecIndex, h2] at hx
      · have hlt := (List.getElem?_eq_some_iff.1 h2).1
        simp only [vecIndex, h2, Except.ok.injEq] at hx
        obtain rfl : x = y := hx.symm
        refine Safe.liftBind (vecIndex_map _ h1) ?_
        refine Safe.bind (safe_readVecVal h3 (.refl q) (List.mem_map.2 ⟨q, List.mem_of_getElem? h1, rfl⟩)) ?_
        rintro w _ ⟨hw, rfl⟩
        simp only [hw]
        cases hc : clone x with
        | none =>
          simp only [hc] at he
          subst he
          exact Safe.ret ⟨ts, rfl, rfl, rfl, xs, rfl, rfl, hk⟩
        | some z =>
          simp only [hc, vecIndex, h2, vecSet, hlt, if_true, Res.ok_bind, Res.pure_eq, Except.ok.injEq] at he
          subst he
          obtain ⟨F, p1, p2, -⟩ := perm_take h1
          refine Safe.bindFrame (F := F) (safe_vecModifyVal (f := fun _ => f z) h3) p1 ?_
          rintro ⟨u, r⟩ τ ⟨l', ts', rfl, hc⟩
          refine ⟨_, (p2 (.node r l' ts')).symm, ts.set i (.node r l' ts'), ?_, rfl, rfl, _, rfl, rfl, f2_set hk (by exact hc) i⟩
          exact map_set_addr ts i (.node r l' ts')
  | succ h ih =>
    obtain ⟨ns, rfl, rfl, hk⟩ := hn
    simp only [HNode.modifyU, HNode.modifyUStep]
    simp only [VNode.get] at hx
    simp only [AfterClone, VNode.modify] at he
    cases hbk : vecBucket Ar b index (h + 1) with
    | error e => simp [hbk] at hx
    | ok i =>
      refine Safe.liftBind rfl ?_
      have hsub : Ar.usub (h + 1) 1 = .ok h := Ar.usub_ok (by omega)
      simp only [hbk, Res.ok_bind, modifyAt_get, vecGetAt_get, hsub] at he hx
      rcases f2_get hk i with ⟨h1, h2⟩ | ⟨q, y, h1, h2, h3⟩
      · simp [h2] at hx
      · simp only [h2] at he hx
        have : ∃ c', AfterClone clone f x (fun g => y.modify Ar b g index h) y c' ∧ n' = .branch (ns.set i c') := by
          cases hc : clone x with
          | none =>
            simp only [hc] at he
            refine ⟨y, by simp [AfterClone, hc], ?_⟩
            rw [he]
            obtain ⟨hlt, hy⟩ := List.getElem?_eq_some_iff.1 h2
            rw [← hy, List.set_getElem_self]
          | some z =>
            simp only [hc] at he
            cases ha : VNode.modify Ar b (fun _ => f z) index y h with
            | error e => simp [ha] at he
            | ok c' =>
              simp only [ha, Res.ok_bind, Res.pure_eq, Except.ok.injEq] at he
              exact ⟨c', by simp [AfterClone, hc, ha], he.symm⟩
        obtain ⟨c', ha, rfl⟩ := this
        obtain ⟨F, p1, p2, -⟩ := perm_take h1
        refine Safe.liftBind (vecIndex_map _ h1) ?_
        refine Safe.bindFrame (F := F) (safe_modifyNode q (ih (by omega) h3 hx ha)) p1 ?_
        rintro ⟨u, r⟩ τ ⟨l', ts', rfl, hu, hc⟩
        refine ⟨_, (p2 (.node r l' ts')).symm, ts.set i (.node r l' ts'), ?_, rfl, hu, _, rfl, rfl, f2_set hk (by exact hc) i⟩
        exact map_set_addr ts i (.node r l' ts')

variable {hv : HVector} {v : RVector T} {h : Nat} {ρ : List (Item (VLabel T))} {xs : List T}

/-- `get_mut` with user code, against sequences. -/
theorem safe_hvecModifyU (hi : hv.Is v h ρ) (hr : RVector.Rep Ar v xs h) (clone : T → Option T) (i : Nat) (f : T → T) :
    Safe A D (fun r σ => match xs[i]? with
      | none => r = none ∧ σ = ρ
      | some x => ∃ hw, r = some ((clone x).isSome, hw) ∧
        VecIs Ar hw (vecCap Ar v.bits, match clone x with | none => xs | some y => xs.set i (f y)) σ) (hv.modifyU Ar clone i f) ρ := by
  have hh := rep_height_lt hr
  have hg := hr.get i
  have hht := hr.height
  simp only [HVector.modifyU, hi.shape_height, hht, hi.len]
  simp only [RVector.get, hht] at hg
  split at hg
  · next hge =>
    rw [if_pos hge]
    have : xs[i]? = none := (Except.ok.inj hg).symm
    rw [this]
    exact Safe.ret ⟨rfl, rfl⟩
  · next hge =>
    rw [if_neg hge]
    simp only [Res.ok_bind] at hg
    cases hx : v.root.get Ar v.bits i h with
    | error e => simp [hx] at hg
    | ok x =>
      simp only [hx, Res.ok_bind, Res.pure_eq, Except.ok.injEq] at hg
      rw [← hg]
      have key : ∃ w, AfterClone clone f x (fun g => v.root.modify Ar v.bits g i h) v.root w ∧
          RVector.Rep Ar { v with root := w } (match clone x with | none => xs | some y => xs.set i (f y)) h := by
        cases hc : clone x with
        | none => exact ⟨v.root, by simp [AfterClone, hc], hr⟩
        | some y =>
          rcases hr.modify i (fun _ => f y) with ⟨h1, -⟩ | ⟨w, z, h1, h2, h3, -⟩
          · rw [h1] at hg; cases hg
          · simp only [RVector.modify, if_neg hge, hht, Res.ok_bind] at h2
            cases hm : v.root.modify Ar v.bits (fun _ => f y) i h with
            | error e => simp [hm] at h2
            | ok n =>
              simp only [hm, Res.ok_bind, Res.pure_eq, Except.ok.injEq, Option.some.injEq] at h2
              subst h2
              exact ⟨n, by simp [AfterClone, hc, hm], h3⟩
      obtain ⟨w, h1, h2⟩ := key
      obtain ⟨t, rfl, rfl, hn⟩ := hi
      refine Safe.liftBind rfl (Safe.bind (safe_modifyNode t (safe_vecModifyU h (by omega) hn hx h1)) ?_)
      rintro ⟨u, r⟩ _ ⟨l', ts', rfl, rfl, hc⟩
      exact Safe.ret ⟨_, rfl, { v with root := w }, h, ⟨.node r l' ts', rfl, rfl, hc⟩, h2, rfl⟩

end

section
variable {T : Type} (Ar : Arch)

/-- `Vector` with user code implements the bounded sequence with that user code. -/
theorem vecImplU_refines (A : Allocator (VLabel T)) {bits : Nat} (h0 : 0 < bits) (hW : bits < Ar.W) :
    (vecImplU Ar T bits).Refines A (vecCap Ar bits, []) Spec.vecStepU (VecIs Ar) where
  new := (vecImpl_refines Ar A h0 hW).new
  step := by
    rintro hv ⟨cap, xs⟩ ρ ⟨U, op⟩ r e hR hs
    have plain : ∀ op' : RVector.Op T, (Spec.vecStep (cap, xs) op').map (fun x => (some x.1, x.2)) = .ok (r, e) →
        Safe A none (fun x τ => x.1 = r ∧ EffOwn (VecIs Ar) hv (cap, xs) x.2 e τ)
          (Prog.bind (vecHStep Ar hv op') fun x => .ret (some x.1, x.2)) ρ := by
      intro op' h
      cases hs' : Spec.vecStep (cap, xs) op' with
      | error x => rw [hs'] at h; cases h
      | ok x =>
        rw [hs'] at h
        cases h
        refine Safe.bind ((vecImpl_refines Ar A h0 hW).step hv (cap, xs) ρ op' x.1 x.2 hR hs') ?_
        rintro ⟨r', e'⟩ τ ⟨rfl, he⟩
        exact Safe.ret ⟨rfl, he⟩
    cases op with
    | getMut i f =>
      have hk := hR
      obtain ⟨v, h, hi, hr, rfl⟩ := hR
      simp only at hr
      simp only [Spec.vecStepU] at hs
      refine Safe.bind (safe_hvecModifyU hi hr U.clone i f) ?_
      intro o σ ho
      cases hx : xs[i]? with
      | none =>
        simp only [hx] at hs ho
        cases hs
        obtain ⟨rfl, rfl⟩ := ho
        exact Safe.ret ⟨rfl, .keep hk⟩
      | some x =>
        simp only [hx] at hs ho
        obtain ⟨hw, rfl, h1⟩ := ho
        cases hc : U.clone x with
        | none => simp only [hc] at hs h1; cases hs; exact Safe.ret ⟨rfl, .update h1⟩
        | some y => simp only [hc] at hs h1; cases hs; exact Safe.ret ⟨rfl, .update h1⟩
    | indexMut i z =>
      have hk := hR
      obtain ⟨v, h, hi, hr, rfl⟩ := hR
      simp only at hr
      simp only [Spec.vecStepU] at hs
      refine Safe.bind (safe_hvecModifyU hi hr U.clone i fun _ => z) ?_
      intro o σ ho
      cases hx : xs[i]? with
      | none =>
        simp only [hx] at hs ho
        cases hs
        obtain ⟨rfl, rfl⟩ := ho
        exact Safe.ret ⟨rfl, .keep hk⟩
      | some x =>
        simp only [hx] at hs ho
        obtain ⟨hw, rfl, h1⟩ := ho
        cases hc : U.clone x with
        | none => simp only [hc] at hs h1; cases hs; exact Safe.ret ⟨rfl, .update h1⟩
        | some y => simp only [hc] at hs h1; cases hs; exact Safe.ret ⟨rfl, .update h1⟩
    | extend ys =>
      simp only [Spec.vecStepU] at hs
      split at hs
      · next hlt =>
        cases hs
        refine Safe.bind (safe_vecExtend hR hlt) ?_
        intro hw σ h1
        exact Safe.ret ⟨rfl, .update h1⟩
      · cases hs
    | _ => exact plain _ hs
  drop := (vecImpl_refines Ar A h0 hW).drop
  ptrs := (vecImpl_refines Ar A h0 hW).ptrs

/-- The methods of `Vector` that take `&self`, with user code. -/
def vecUByRef (p : VecCall T) : Bool := vecByRef p.2

theorem vecImplU_lends (A : Allocator (VLabel T)) {bits : Nat} (h0 : 0 < bits) (hW : bits < Ar.W) :
    (vecImplU Ar T bits).Lends A Spec.vecStepU (VecIs Ar) vecUByRef where
  step := by
    rintro hv ⟨cap, xs⟩ β ⟨U, op⟩ r e hR hb hs
    have plain : ∀ op' : RVector.Op T, vecByRef op' = true → (Spec.vecStep (cap, xs) op').map (fun x => (some x.1, x.2)) = .ok (r, e) →
        SafeB A none β (fun x τ => x.1 = r ∧ EffNew (VecIs Ar) x.2 e τ)
          (Prog.bind (vecHStep Ar hv op') fun x => .ret (some x.1, x.2)) [] := by
      intro op' hb h
      cases hs' : Spec.vecStep (cap, xs) op' with
      | error x => rw [hs'] at h; cases h
      | ok x =>
        rw [hs'] at h
        cases h
        refine SafeB.bind ((vecImpl_lends h0 hW).step hv (cap, xs) β op' x.1 x.2 hR hb hs') ?_
        rintro ⟨r', e'⟩ τ ⟨rfl, he⟩
        exact SafeB.ret ⟨rfl, he⟩
    cases op with
    | getMut i f => cases hb
    | indexMut i x => cases hb
    | extend ys => cases hb
    | _ => exact plain _ hb hs

end
end Heap
end Rpds
