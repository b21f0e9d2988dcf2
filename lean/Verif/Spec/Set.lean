import Verif.Spec.Map
/-
Specification of finite sets: a list of pairwise different elements.
-/
set_option autoImplicit false
namespace Rpds

/-- The public operations of both sets on one version. -/
inductive SetOp (T Q : Type) where
  | insert (v : T)
  | insertMut (v : T)
  | remove (q : Q)
  | removeMut (q : Q)
  | clone
  | get (q : Q)
  | contains (q : Q)
  | size
  | isEmpty

/-- Answers of operations. -/
inductive SetRet (T : Type) where
  | unit
  | bool (b : Bool)
  | nat (n : Nat)
  | opt (o : Option T)
  deriving DecidableEq, Repr

namespace Spec
variable {T Q : Type}

/-- The elements after inserting: an equal element, if any, is replaced. -/
def setInsert (same : T → T → Bool) (l : List T) (v : T) : List T := v :: l.filter fun x => !same x v

/-- The elements after removing. -/
def setRemove (hits : T → Q → Bool) (l : List T) (q : Q) : List T := l.filter fun x => !hits x q

/-- The element found by `q`. -/
def setGet (hits : T → Q → Bool) (l : List T) (q : Q) : Option T := l.find? fun x => hits x q

/-- What a finite set answers. -/
def setStep (same : T → T → Bool) (hits : T → Q → Bool) (l : List T) : SetOp T Q → SetRet T × Effect (List T)
  | .insert v => (.unit, .fresh (setInsert same l v))
  | .insertMut v => (.unit, .update (setInsert same l v))
  | .remove q => (.unit, .fresh (setRemove hits l q))
  | .removeMut q => (.bool (setGet hits l q).isSome, .update (setRemove hits l q))
  | .clone => (.unit, .fresh l)
  | .get q => (.opt (setGet hits l q), .keep)
  | .contains q => (.bool (setGet hits l q).isSome, .keep)
  | .size => (.nat l.length, .keep)
  | .isEmpty => (.bool l.isEmpty, .keep)

/-- `a` is in the set. -/
def Mem (same : T → T → Bool) (l : List T) (a : T) : Prop := ∃ x ∈ l, same x a = true

/-- Every element of the first set is in the second. -/
def Subset (same : T → T → Bool) (l l' : List T) : Prop := ∀ a, Mem same l a → Mem same l' a

/-- The sets have no element in common. -/
def Disjoint (same : T → T → Bool) (l l' : List T) : Prop := ∀ a, ¬ (Mem same l a ∧ Mem same l' a)

/-- The sets have the same elements. -/
def SameElems (same : T → T → Bool) (l l' : List T) : Prop := ∀ a, Mem same l a ↔ Mem same l' a

/-- A set as a map to `()`. -/
def unitPairs (l : List T) : List (T × Unit) := l.map fun x => (x, ())

theorem unitPairs_insert (same : T → T → Bool) (l : List T) (v : T) :
    mapInsert same (unitPairs l) v () = unitPairs (setInsert same l v) := by
  simp [mapInsert, unitPairs, setInsert, List.filter_map, Function.comp_def]

theorem unitPairs_remove (hits : T → Q → Bool) (l : List T) (q : Q) :
    mapRemove hits (unitPairs l) q = unitPairs (setRemove hits l q) := by
  simp [mapRemove, unitPairs, setRemove, List.filter_map, Function.comp_def]

theorem unitPairs_get (hits : T → Q → Bool) (l : List T) (q : Q) :
    mapGet hits (unitPairs l) q = (setGet hits l q).map fun x => (x, ()) := by
  simp [mapGet, unitPairs, setGet, List.find?_map, Function.comp_def]

theorem unitPairs_distinct {same : T → T → Bool} {l : List T} :
    Distinct same (unitPairs l) ↔ l.Pairwise fun a b => same a b = false := by
  simp [Distinct, unitPairs, List.pairwise_map]

theorem unitPairs_fst (l : List (T × Unit)) : unitPairs (l.map (·.1)) = l := by
  simp [unitPairs, Function.comp_def]

theorem setGet_isSome {same : T → T → Bool} {l : List T} {a : T} : (setGet same l a).isSome = true ↔ Mem same l a := by
  simp [setGet, Mem]

/-- Subset can be checked element by element. -/
theorem subset_iff {same : T → T → Bool} (he : LawfulEquiv same) {l l' : List T} : Subset same l l' ↔ ∀ x ∈ l, Mem same l' x := by
  constructor
  · intro h x hx; exact h x ⟨x, hx, he.refl x⟩
  · rintro h a ⟨x, hx, hxa⟩
    obtain ⟨y, hy, hyx⟩ := h x hx
    exact ⟨y, hy, he.trans _ _ _ hyx hxa⟩

theorem disjoint_iff {same : T → T → Bool} (he : LawfulEquiv same) {l l' : List T} : Disjoint same l l' ↔ ∀ x ∈ l, ¬ Mem same l' x := by
  constructor
  · intro h x hx hm; exact h x ⟨⟨x, hx, he.refl x⟩, hm⟩
  · rintro h a ⟨⟨x, hx, hxa⟩, ⟨y, hy, hya⟩⟩
    exact h x hx ⟨y, hy, he.trans _ _ _ hya (he.symm _ _ hxa)⟩

theorem Subset.length_le {same : T → T → Bool} (he : LawfulEquiv same) {l l' : List T} (hd : l.Pairwise fun a b => same a b = false)
    (hd' : l'.Pairwise fun a b => same a b = false) (h : Subset same l l') : l.length ≤ l'.length := by
  refine length_le_of_subset he hd hd' fun a ha => ?_
  obtain ⟨y, hy, hya⟩ := h a ⟨a, ha, he.refl a⟩
  exact ⟨y, hy, he.symm _ _ hya⟩

theorem mapEq_unit {same : T → T → Bool} {l l' : List T} :
    MapEq same (fun _ _ => true) (unitPairs l) (unitPairs l') ↔ SameElems same l l' := by
  unfold MapEq SameElems
  refine forall_congr' fun a => ?_
  rw [unitPairs_get, unitPairs_get, ← setGet_isSome, ← setGet_isSome]
  cases setGet same l a <;> cases setGet same l' a <;> simp

theorem Mem.perm {same : T → T → Bool} {l l' : List T} (hp : l.Perm l') (a : T) : Mem same l a ↔ Mem same l' a := by
  simp only [Mem, hp.mem_iff]

/-- Folding insertions: exactly the elements given. -/
theorem mem_setInsert {same : T → T → Bool} (he : LawfulEquiv same) (l : List T) (v a : T) :
    Mem same (setInsert same l v) a ↔ same v a = true ∨ Mem same l a := by
  constructor
  · rintro ⟨x, hx, hxa⟩
    rcases List.mem_cons.1 hx with rfl | hx
    · exact .inl hxa
    · exact .inr ⟨x, (List.mem_filter.1 hx).1, hxa⟩
  · rintro (h | ⟨x, hx, hxa⟩)
    · exact ⟨v, by simp [setInsert], h⟩
    · cases hv : same v a with
      | true => exact ⟨v, by simp [setInsert], hv⟩
      | false =>
        refine ⟨x, List.mem_cons_of_mem _ (List.mem_filter.2 ⟨hx, ?_⟩), hxa⟩
        cases hxv : same x v with
        | false => rfl
        | true => rw [he.trans _ _ _ (he.symm _ _ hxv) hxa] at hv; cases hv

end Spec
end Rpds
