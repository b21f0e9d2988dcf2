import Verif.Spec.Set
/-
Specification of ordered maps and sets: their items in increasing order.
-/
set_option autoImplicit false
namespace Rpds
namespace Spec
variable {α : Type}

/-- Inserts before the first greater item. -/
def insertBy (lt : α → α → Bool) (a : α) : List α → List α
  | [] => [a]
  | b :: l => if lt a b then a :: b :: l else b :: insertBy lt a l

/-- The items in increasing order. -/
def sortBy (lt : α → α → Bool) (l : List α) : List α := l.foldr (insertBy lt) []

theorem insertBy_perm (lt : α → α → Bool) (a : α) (l : List α) : (insertBy lt a l).Perm (a :: l) := by
  induction l with
  | nil => exact .refl _
  | cons b l ih =>
    simp only [insertBy]
    split
    · exact .refl _
    · exact (ih.cons b).trans (.swap a b l)

theorem sortBy_perm (lt : α → α → Bool) (l : List α) : (sortBy lt l).Perm l := by
  induction l with
  | nil => exact .nil
  | cons a l ih => exact (insertBy_perm lt a _).trans (ih.cons a)

/-- Sorting a list whose items are pairwise comparable sorts it. -/
theorem sortBy_sorted {lt : α → α → Bool} {l : List α} (hl : l.Pairwise fun a b => lt a b = true ∨ lt b a = true)
    (ht : ∀ a b c, lt a b = true → lt b c = true → lt a c = true) : (sortBy lt l).Pairwise fun a b => lt a b = true := by
  induction l with
  | nil => exact .nil
  | cons a l ih =>
    obtain ⟨h1, h2⟩ := List.pairwise_cons.1 hl
    have h1' : ∀ x ∈ sortBy lt l, lt a x = true ∨ lt x a = true := fun x hx => h1 x ((sortBy_perm lt l).mem_iff.1 hx)
    have h3 := ih h2
    show (insertBy lt a (sortBy lt l)).Pairwise _
    generalize sortBy lt l = s at h1' h3
    clear hl ih h1 h2
    induction s with
    | nil => exact List.pairwise_singleton _ _
    | cons b s ih =>
      obtain ⟨h4, h5⟩ := List.pairwise_cons.1 h3
      simp only [insertBy]
      split
      · next hab =>
        refine List.pairwise_cons.2 ⟨fun x hx => ?_, h3⟩
        rcases List.mem_cons.1 hx with rfl | hx
        · exact hab
        · exact ht _ _ _ hab (h4 x hx)
      · next hab =>
        refine List.pairwise_cons.2 ⟨fun x hx => ?_, ih (fun x hx => h1' x (by simp [hx])) h5⟩
        rcases List.mem_cons.1 ((insertBy_perm lt a s).mem_iff.1 hx) with rfl | hx
        · exact (h1' b (by simp)).resolve_left hab
        · exact h4 x hx

/-- A sorted list is the only sorted one with its items. -/
theorem sorted_unique {lt : α → α → Bool} (hi : ∀ a b, lt a b = true → lt b a = false) {l l' : List α} (hp : l.Perm l')
    (h : l.Pairwise fun a b => lt a b = true) (h' : l'.Pairwise fun a b => lt a b = true) : l = l' := by
  refine hp.eq_of_pairwise ?_ h h'
  intro a b _ _ h1 h2
  rw [hi a b h1] at h2
  cases h2

end Spec
end Rpds
