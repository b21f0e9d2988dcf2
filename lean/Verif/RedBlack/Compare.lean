import Verif.RedBlack.Set
import Verif.Spec.Order
/-
Comparison of maps through their sorted entries; capacity of the iterator stacks.
-/
set_option autoImplicit false
namespace Rpds
open Spec

namespace RBMap
variable {K V Q : Type} {A : Arch} {o : OrdKeys K Q}

/-- Equality of the pairs `(&K, &V)`. -/
def eqPair (o : OrdKeys K Q) (eqV : V → V → Bool) (a b : K × V) : Bool := o.same a.1 b.1 && eqV a.2 b.2

theorem cmpPair_lawful (lo : o.Lawful) {cmpV : V → V → Ordering} {eqV : V → V → Bool} (lv : LawfulOrd cmpV eqV) :
    LawfulOrd (cmpPair o cmpV) (eqPair o eqV) where
  oriented a b := by
    simp only [cmpPair]
    rw [lo.swapK a.1 b.1]
    cases o.cmpK a.1 b.1 <;> simp [lv.oriented a.2 b.2]
  trans a b c := by
    simp only [cmpPair]
    intro h1 h2
    cases hab : o.cmpK a.1 b.1 with
    | gt => rw [hab] at h1; simp at h1
    | eq =>
      rw [hab] at h1
      rw [OrdKeys.eq_lt_trans' lo.ordK hab]
      cases hbc : o.cmpK b.1 c.1 with
      | gt => rw [hbc] at h2; simp at h2
      | lt => rfl
      | eq => rw [hbc] at h2; exact lv.trans _ _ _ h1 h2
    | lt =>
      cases hbc : o.cmpK b.1 c.1 with
      | gt => rw [hbc] at h2; simp at h2
      | lt => rw [OrdKeys.lt_trans' lo.ordK hab hbc]; rfl
      | eq => rw [← OrdKeys.lt_eq_trans' lo.ordK hbc, hab]; rfl
  eq_iff a b := by
    simp only [eqPair, cmpPair, Bool.and_eq_true, OrdKeys.same, beq_iff_eq, lv.eq_iff]
    cases o.cmpK a.1 b.1 <;> simp

theorem partialCmpPair_total (cmpV : V → V → Ordering) :
    partialCmpPair o (fun v w => some (cmpV v w)) = fun a b => some (cmpPair o cmpV a b) := by
  funext a b
  simp only [partialCmpPair, cmpPair]
  cases o.cmpK a.1 b.1 <;> rfl

/-- Finite maps given by their sorted entries are equal exactly if the entries are, one by one. -/
theorem mapEq_sorted (lo : o.Lawful) (eqV : V → V → Bool) :
    ∀ {l l' : List (K × V)}, KeysSorted o l → KeysSorted o l' → (MapEq o.same eqV l l' ↔ seqEq (eqPair o eqV) l l' = true)
  | [], [], _, _ => by simp [MapEq, mapGet, seqEq]
  | [], b :: l', _, _ => by
    simp only [seqEq, Bool.false_eq_true, iff_false]
    intro h
    have := h b.1
    simp [mapGet, lo.equivK.refl] at this
  | a :: l, [], _, _ => by
    simp only [seqEq, Bool.false_eq_true, iff_false]
    intro h
    have := h a.1
    simp [mapGet, lo.equivK.refl] at this
  | a :: l, b :: l', h, h' => by
    have h1 := List.pairwise_cons.1 h
    have h2 := List.pairwise_cons.1 h'
    have ih := mapEq_sorted lo eqV h1.2 h2.2
    have none_of : ∀ (l : List (K × V)) (k : K), (∀ x ∈ l, o.cmpK k x.1 = .lt) → mapGet o.same l k = none := by
      intro l k hl
      rw [mapGet, List.find?_eq_none]
      intro x hx
      rw [OrdKeys.same, lo.swapK, hl x hx]; simp
    simp only [seqEq, eqPair, Bool.and_eq_true]
    rw [← ih]
    cases hab : o.cmpK a.1 b.1 with
    | lt =>
      simp only [OrdKeys.same, hab]
      constructor
      · intro hm
        have := hm a.1
        rw [none_of (b :: l') a.1] at this
        · simp [mapGet, lo.equivK.refl] at this
        · intro x hx
          rcases List.mem_cons.1 hx with rfl | hx
          · exact hab
          · exact OrdKeys.lt_trans' lo.ordK hab (h2.1 x hx)
      · rintro ⟨⟨h3, _⟩, _⟩
        simp at h3
    | gt =>
      have hba : o.cmpK b.1 a.1 = .lt := by rw [lo.swapK, hab]; rfl
      simp only [OrdKeys.same, hab]
      constructor
      · intro hm
        have := hm b.1
        rw [none_of (a :: l) b.1] at this
        · simp [mapGet, lo.equivK.refl] at this
        · intro x hx
          rcases List.mem_cons.1 hx with rfl | hx
          · exact hba
          · exact OrdKeys.lt_trans' lo.ordK hba (h1.1 x hx)
      · rintro ⟨⟨h3, _⟩, _⟩
        simp at h3
    | eq =>
      have hs : o.same a.1 b.1 = true := by simp [OrdKeys.same, hab]
      have hk : ∀ k, o.same b.1 k = o.same a.1 k := by
        intro k
        simp only [OrdKeys.same, OrdKeys.eq_lt_trans' lo.ordK hab]
      have na : ∀ k, o.same a.1 k = true → mapGet o.same l k = none := by
        intro k hk
        have hk : o.cmpK a.1 k = .eq := by simpa [OrdKeys.same] using hk
        refine none_of l k fun x hx => ?_
        rw [← OrdKeys.eq_lt_trans' lo.ordK hk]; exact h1.1 x hx
      have nb : ∀ k, o.same a.1 k = true → mapGet o.same l' k = none := by
        intro k hk'
        have hk' : o.cmpK b.1 k = .eq := by rw [← hk] at hk'; simpa [OrdKeys.same] using hk'
        refine none_of l' k fun x hx => ?_
        rw [← OrdKeys.eq_lt_trans' lo.ordK hk']; exact h2.1 x hx
      constructor
      · intro hm
        refine ⟨⟨hs, ?_⟩, fun k => ?_⟩
        · have := hm a.1
          simpa [mapGet, lo.equivK.refl, hk] using this
        · by_cases hak : o.same a.1 k = true
          · rw [na k hak, nb k hak]; trivial
          · have := hm k
            simpa only [mapGet, List.find?_cons, hk, hak, Bool.false_eq_true] using this
      · rintro ⟨⟨_, hv⟩, hm⟩ k
        by_cases hak : o.same a.1 k = true
        · simp only [mapGet, List.find?_cons, hk, hak]; exact hv
        · have := hm k
          simpa only [mapGet, List.find?_cons, hk, hak, Bool.false_eq_true] using this

end RBMap
end Rpds
