import Verif.HashTrie.Shape
import Verif.Spec.HashOrder
/-
Iteration order of the hash trie: by the groups of bits of the hashes, least significant group first.
-/
set_option autoImplicit false
namespace Rpds
open Spec

theorem idx_eq_fragment (k d : Nat) (h : UInt64) : idx k d h = fragment k d h := by
  rw [idx, fragment, Nat.shiftRight_eq_div_pow, Nat.and_two_pow_sub_one_eq_mod]

theorem SparseArray.bits_sorted (A : Arch) (bm : Nat) : (SparseArray.bits A bm).Pairwise (· < ·) :=
  List.Pairwise.filter _ List.pairwise_lt_range

namespace HNode
variable {H K V Q : Type} {A : Arch} {o : HashKeys H K Q} {k : Nat}

/-- Equal hashes, or the first comes before. -/
def Ordered (k : Nat) (a b : HEntry K V) : Prop := a.keyHash = b.keyHash ∨ HashBefore k a.keyHash b.keyHash

theorem pairwise_children {d : Nat} {is : List Nat} {cs : List (HNode K V)} (hf : List.Forall₂ (Child A k true d) is cs)
    (hs : is.Pairwise (· < ·)) (hp : ∀ c ∈ cs, ∀ x ∈ c.entries, ∀ y ∈ c.entries, ∀ j, j < d → idx k j x.keyHash = idx k j y.keyHash)
    (hall : ∀ x ∈ cs.flatMap entries, ∀ y ∈ cs.flatMap entries, ∀ j, j < d → idx k j x.keyHash = idx k j y.keyHash)
    (ih : ∀ c ∈ cs, c.entries.Pairwise (Ordered k)) : (cs.flatMap entries).Pairwise (Ordered k) := by
  induction hf with
  | nil => simp
  | @cons i c is cs hc hf ih2 =>
    rw [List.flatMap_cons, List.pairwise_append]
    rw [List.pairwise_cons] at hs
    refine ⟨ih c (by simp), ih2 hs.2 (fun c hc => hp c (by simp [hc])) (fun x hx y hy => hall x (by
        rw [List.flatMap_cons]; exact List.mem_append_right _ hx) y (by
        rw [List.flatMap_cons]; exact List.mem_append_right _ hy)) (fun c hc => ih c (by simp [hc])), ?_⟩
    intro x hx y hy
    refine .inr ⟨d, fun j hj => ?_, ?_⟩
    · rw [← idx_eq_fragment, ← idx_eq_fragment]
      exact hall x (by simp [hx]) y (by rw [List.flatMap_cons]; exact List.mem_append_right _ hy) j hj
    · rw [← idx_eq_fragment, ← idx_eq_fragment, hc.pos x hx]
      obtain ⟨c', hc', hy'⟩ := List.mem_flatMap.1 hy
      obtain ⟨i', hi', hci⟩ := SparseArray.forall₂_mem hf hc'
      rw [hci.pos y hy']
      exact hs.1 i' hi'

theorem entries_ordered (hk : 1 ≤ k) (n : HNode K V) : ∀ d, n.OK A k true d →
    (∀ x ∈ n.entries, ∀ y ∈ n.entries, ∀ j, j < d → idx k j x.keyHash = idx k j y.keyHash) →
    n.entries.Pairwise (Ordered k) := by
  induction n using HNode.induct with
  | hb bm arr ih =>
    intro d hok hp
    rw [ok_branch] at hok
    simp only [entries_branch] at hp ⊢
    have hsub : ∀ c ∈ arr, ∀ x ∈ c.entries, x ∈ arr.flatMap entries := fun c hc x hx => List.mem_flatMap.2 ⟨c, hc, hx⟩
    refine pairwise_children hok.2 (SparseArray.bits_sorted A bm)
      (fun c hc x hx y hy => hp x (hsub c hc x hx) y (hsub c hc y hy)) hp ?_
    intro c hc
    obtain ⟨i, _, hch⟩ := SparseArray.forall₂_mem hok.2 hc
    refine ih c hc (d + 1) hch.ok ?_
    intro x hx y hy j hj
    rcases Nat.lt_or_ge j d with h | h
    · exact hp x (hsub c hc x hx) y (hsub c hc y hy) j h
    · have : j = d := by omega
      subst this
      rw [hch.pos x hx, hch.pos y hy]
  | hl b =>
    intro d hok hp
    cases b with
    | single e => simp [Bucket.entries]
    | collision l =>
      rw [OK] at hok
      simp only [entries_leaf] at hp ⊢
      rw [List.pairwise_iff_forall_sublist]
      intro x y hs
      have hm := hs.subset
      exact .inl (hash_eq_of_idx hk hok.1 fun j hj => hp x (hm (by simp)) y (hm (by simp)) j hj)

end HNode

/-- Two lists ordered by a relation that decides the order of any two different members, with the same members up to `eq`, are
equal up to `eq`. -/
theorem forall₂_of_sorted {α β : Type} {R : α → β → Prop} {lt : α → α → Prop} {lt' : β → β → Prop}
    (hR : ∀ a b a' b', R a b → R a' b' → lt a a' → lt' b' b → False) :
    ∀ {xs : List α} {ys : List β}, xs.Pairwise lt → ys.Pairwise lt' →
    (∀ x ∈ xs, ∃ y ∈ ys, R x y) → (∀ y ∈ ys, ∃ x ∈ xs, R x y) →
    (∀ x ∈ xs, ∀ y ∈ ys, ∀ y' ∈ ys, R x y → R x y' → lt' y y' → False) →
    (∀ x ∈ xs, ∀ x' ∈ xs, ∀ y ∈ ys, R x y → R x' y → lt x x' → False) → List.Forall₂ R xs ys := by
  intro xs
  induction xs with
  | nil =>
    intro ys _ _ _ h2 _ _
    cases ys with
    | nil => exact .nil
    | cons y ys => obtain ⟨x, hx, _⟩ := h2 y (by simp); simp at hx
  | cons x xs ih =>
    intro ys hx hy h1 h2 hu hu'
    cases ys with
    | nil => obtain ⟨y, hy, _⟩ := h1 x (by simp); simp at hy
    | cons y ys =>
      rw [List.pairwise_cons] at hx hy
      have hxy : R x y := by
        obtain ⟨y', hy', r1⟩ := h1 x (by simp)
        obtain ⟨x', hx', r2⟩ := h2 y (by simp)
        rcases List.mem_cons.1 hy' with rfl | hy''
        · exact r1
        · rcases List.mem_cons.1 hx' with rfl | hx''
          · exact r2
          · exact (hR _ _ _ _ r1 r2 (hx.1 _ hx'') (hy.1 _ hy'')).elim
      refine .cons hxy (ih hx.2 hy.2 ?_ ?_ ?_ ?_)
      · intro x' hx'
        obtain ⟨y', hy', r⟩ := h1 x' (by simp [hx'])
        rcases List.mem_cons.1 hy' with rfl | hy''
        · exact (hu' x (by simp) x' (by simp [hx']) y' (by simp) hxy r (hx.1 _ hx')).elim
        · exact ⟨y', hy'', r⟩
      · intro y' hy'
        obtain ⟨x', hx', r⟩ := h2 y' (by simp [hy'])
        rcases List.mem_cons.1 hx' with rfl | hx''
        · exact (hu x' (by simp) y (by simp) y' (by simp [hy']) hxy r (hy.1 _ hy')).elim
        · exact ⟨x', hx'', r⟩
      · intro x hx y hy y' hy'
        exact hu x (by simp [hx]) y (by simp [hy]) y' (by simp [hy'])
      · intro x hx x' hx' y hy
        exact hu' x (by simp [hx]) x' (by simp [hx']) y (by simp [hy])

end Rpds
