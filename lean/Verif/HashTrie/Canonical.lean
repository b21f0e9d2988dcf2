import Verif.HashTrie.Order
import Verif.Spec.Canonical
/-
The shape of a trie is a function of the hashes of its keys.
-/
set_option autoImplicit false
namespace Rpds
open Spec

/-- Increasing lists with the same members are equal. -/
theorem eq_of_increasing : ∀ {xs ys : List Nat}, xs.Pairwise (· < ·) → ys.Pairwise (· < ·) → (∀ i, i ∈ xs ↔ i ∈ ys) → xs = ys := by
  intro xs
  induction xs with
  | nil =>
    intro ys _ _ h
    cases ys with
    | nil => rfl
    | cons y ys => exact absurd ((h y).2 (by simp)) (by simp)
  | cons x xs ih =>
    intro ys hx hy h
    cases ys with
    | nil => exact absurd ((h x).1 (by simp)) (by simp)
    | cons y ys =>
      rw [List.pairwise_cons] at hx hy
      have hxy : x = y := by
        rcases List.mem_cons.1 ((h x).1 (by simp)) with e | e
        · exact e
        · rcases List.mem_cons.1 ((h y).2 (by simp)) with e' | e'
          · exact e'.symm
          · have := hx.1 y e'; have := hy.1 x e; omega
      subst hxy
      rw [ih hx.2 hy.2 fun i => ?_]
      constructor
      · intro hi
        rcases List.mem_cons.1 ((h i).1 (by simp [hi])) with rfl | e
        · have := hx.1 i hi; omega
        · exact e
      · intro hi
        rcases List.mem_cons.1 ((h i).2 (by simp [hi])) with rfl | e
        · have := hy.1 i hi; omega
        · exact e

theorem filterMap_increasing {β : Type} {n : Nat} {F : Nat → Option β} {G : Nat → β} {is : List Nat} (hs : is.Pairwise (· < ·))
    (hlt : ∀ i ∈ is, i < n) (h1 : ∀ i ∈ is, F i = some (G i)) (h0 : ∀ i, i < n → i ∉ is → F i = none) :
    (List.range n).filterMap F = is.map G := by
  have e : is = (List.range n).filter fun i => decide (i ∈ is) := by
    refine eq_of_increasing hs (List.Pairwise.filter _ List.pairwise_lt_range) fun i => ?_
    simp only [List.mem_filter, List.mem_range, decide_eq_true_eq]
    exact ⟨fun h => ⟨hlt i h, h⟩, fun h => h.2⟩
  have : ∀ l : List Nat, (∀ i ∈ l, i < n) → l.filterMap F = (l.filter fun i => decide (i ∈ is)).map G := by
    intro l
    induction l with
    | nil => intro _; rfl
    | cons i l ih =>
      intro hl
      have ih := ih fun j hj => hl j (by simp [hj])
      by_cases hi : i ∈ is
      · simp [List.filterMap_cons, h1 i hi, hi, ih]
      · simp [List.filterMap_cons, h0 i (hl i (by simp)) hi, hi, ih]
  rw [this _ fun i hi => List.mem_range.1 hi, ← e]

namespace HNode
variable {H K V Q : Type} {A : Arch} {k : Nat}

mutual
/-- The node with its entries forgotten. -/
def skeleton (A : Arch) : HNode K V → Trie
  | .branch bm arr => .branch ((SparseArray.bits A bm).zip (skeletonL A arr))
  | .leaf (.single e) => .bucket e.keyHash 1
  | .leaf (.collision l) =>
    match l.head.toList with
    | [] => .branch []
    | e :: es => .bucket e.keyHash (es.length + 1)
/-- The same for a list of nodes. -/
def skeletonL (A : Arch) : List (HNode K V) → List Trie
  | [] => []
  | n :: ns => skeleton A n :: skeletonL A ns
end

theorem skeletonL_eq (ns : List (HNode K V)) : skeletonL A ns = ns.map (skeleton A) := by
  induction ns with
  | nil => rfl
  | cons n ns ih => simp [skeletonL, ih]

/-- The hashes below a node. -/
def hashes (n : HNode K V) : List UInt64 := n.entries.map fun e => e.keyHash

theorem hashes_branch (bm : Nat) (arr : List (HNode K V)) : (HNode.branch bm arr).hashes = arr.flatMap hashes := by
  simp [hashes, entries_branch, List.map_flatMap]
  rfl

/-- The children at the positions `is` divide their hashes by the group `d`. -/
theorem children_hashes {z : Bool} {d : Nat} {is : List Nat} {cs : List (HNode K V)} (hf : List.Forall₂ (Child A k z d) is cs) (i : Nat)
    (hi : i ∉ is) : (cs.flatMap hashes).filter (fun h => fragment k d h == i) = [] := by
  rw [List.filter_eq_nil_iff]
  intro h hh
  obtain ⟨c, hc, hx⟩ := List.mem_flatMap.1 hh
  obtain ⟨j, hj, hch⟩ := SparseArray.forall₂_mem hf hc
  obtain ⟨e, he, rfl⟩ := List.mem_map.1 hx
  rw [← idx_eq_fragment, hch.pos e he]
  simp only [beq_iff_eq]
  exact fun e => hi (e ▸ hj)

theorem children_skeleton {z : Bool} {d : Nat} {G : List UInt64 → Trie} {is : List Nat} {cs : List (HNode K V)} (hf : List.Forall₂ (Child A k z d) is cs)
    (hs : is.Pairwise (· < ·)) {all : List UInt64} (hp : ∀ i ∈ is, (all.filter fun h => fragment k d h == i).Perm
      ((cs.flatMap hashes).filter fun h => fragment k d h == i))
    (hG : ∀ i c, Child A k z d i c → c ∈ cs → ∀ hs, hs.Perm c.hashes → c.skeleton A = G hs) :
    is.zip (cs.map (skeleton A)) = is.map fun i => (i, G (all.filter fun h => fragment k d h == i)) := by
  induction hf with
  | nil => rfl
  | @cons i c is cs hc hf ih =>
    rw [List.pairwise_cons] at hs
    have hni : i ∉ is := fun h => absurd (hs.1 i h) (by omega)
    have own : ∀ h ∈ c.hashes, fragment k d h = i := by
      intro h hh
      obtain ⟨e, he, rfl⟩ := List.mem_map.1 hh
      rw [← idx_eq_fragment, hc.pos e he]
    simp only [List.map_cons, List.zip_cons_cons, List.cons.injEq, Prod.mk.injEq, true_and]
    refine ⟨hG i c hc (by simp) _ ?_, ih hs.2 ?_ fun i c h hm => hG i c h (by simp [hm])⟩
    · have e1 : c.hashes.filter (fun h => fragment k d h == i) = c.hashes := List.filter_eq_self.2 fun h hh => by simp [own h hh]
      have := hp i (by simp)
      rw [List.flatMap_cons, List.filter_append, children_hashes hf i hni, List.append_nil,
        e1] at this
      exact this
    · intro j hj
      have e1 : c.hashes.filter (fun h => fragment k d h == j) = [] := List.filter_eq_nil_iff.2 fun h hh => by
        rw [own h hh, beq_iff_eq]; rintro rfl; exact hni hj
      have := hp j (by simp [hj])
      rw [List.flatMap_cons, List.filter_append, e1, List.nil_append] at this
      exact this

theorem forall₂_mem_left {α β : Type} {R : α → β → Prop} {l : List α} {m : List β} (h : List.Forall₂ R l m) {a : α} (ha : a ∈ l) :
    ∃ b ∈ m, R a b := by
  induction h with
  | nil => cases ha
  | cons h1 _ ih =>
    rcases List.mem_cons.1 ha with rfl | ha
    · exact ⟨_, by simp, h1⟩
    · obtain ⟨b, hb, h⟩ := ih ha; exact ⟨b, by simp [hb], h⟩

theorem branch_skeleton {z : Bool} {d bm : Nat} {arr : List (HNode K V)} {G : List UInt64 → Trie} (hok : (HNode.branch bm arr).OK A k z d)
    {hs : List UInt64} (hp : hs.Perm (HNode.branch bm arr).hashes)
    (hG : ∀ i c, Child A k z d i c → c ∈ arr → ∀ hs, hs.Perm c.hashes → c.skeleton A = G hs) :
    (HNode.branch bm arr).skeleton A = .branch (branchOf k d G hs) := by
  rw [ok_branch] at hok
  rw [hashes_branch] at hp
  have hf : List.Forall₂ (Child A k z d) (SparseArray.bits A bm) arr := hok.2
  have hsort := SparseArray.bits_sorted A bm
  rw [skeleton, skeletonL_eq, children_skeleton hf hsort (all := hs) (fun i _ => hp.filter _) hG, branchOf]
  congr 1
  have hne : ∀ i ∈ SparseArray.bits A bm, ∃ h ∈ hs, fragment k d h = i := by
    intro i hi
    obtain ⟨c, hc, hch⟩ := forall₂_mem_left hf hi
    obtain ⟨e, he⟩ := List.exists_mem_of_ne_nil _ hch.nonempty
    refine ⟨e.keyHash, hp.mem_iff.2 (List.mem_flatMap.2 ⟨c, hc, List.mem_map.2 ⟨e, he, rfl⟩⟩), ?_⟩
    rw [← idx_eq_fragment, hch.pos e he]
  refine (filterMap_increasing hsort (fun i hi => ?_) (fun i hi => ?_) fun i _ hi => ?_).symm
  · obtain ⟨h, _, rfl⟩ := hne i hi
    rw [← idx_eq_fragment]; exact idx_lt k d h
  · obtain ⟨h, hh, rfl⟩ := hne i hi
    have : h ∈ hs.filter fun h' => fragment k d h' == fragment k d h := by simp [hh]
    revert this
    cases hs.filter fun h' => fragment k d h' == fragment k d h with
    | nil => intro h; cases h
    | cons => intro _; rfl
  · have := hp.filter fun h => fragment k d h == i
    rw [children_hashes hf i hi] at this
    rw [this.eq_nil]

theorem skeleton_eq (hk : 1 ≤ k) (n : HNode K V) : ∀ (fuel d : Nat), n.OK A k true d → n.Compressed → n.entries ≠ [] → 66 ≤ fuel + d →
    d ≤ 65 → (∀ x ∈ n.entries, ∀ y ∈ n.entries, ∀ j, j < d → idx k j x.keyHash = idx k j y.keyHash) →
    ∀ hs, hs.Perm n.hashes → n.skeleton A = trieOf k fuel d hs := by
  induction n using HNode.induct with
  | hl b =>
    intro fuel d hok _ _ hfd hd hpre hs hp
    obtain ⟨fuel, rfl⟩ : ∃ f, fuel = f + 1 := ⟨fuel - 1, by omega⟩
    cases b with
    | single e =>
      have : hs = [e.keyHash] := by simpa [hashes, Bucket.entries] using hp
      subst this
      simp [skeleton, trieOf]
    | collision l =>
      rw [OK] at hok
      obtain ⟨h64, _, h2⟩ := hok
      have hlen : hs.length = l.head.toList.length := by simpa [hashes, Bucket.entries] using hp.length_eq
      match hs, hlen with
      | [], h => simp at h; omega
      | [_], h => simp at h; omega
      | h :: h' :: hs, hlen =>
        rw [trieOf, if_pos h64, skeleton]
        cases he : l.head.toList with
        | nil => rw [he] at h2; simp at h2
        | cons e es =>
          have hm : h ∈ (HNode.leaf (.collision l) : HNode K V).hashes := hp.mem_iff.1 (by simp)
          simp only [hashes, entries_leaf, Bucket.entries] at hm hpre
          obtain ⟨x, hx, rfl⟩ := List.mem_map.1 hm
          rw [he] at hlen
          have : e.keyHash = x.keyHash := hash_eq_of_idx hk h64 fun j hj => hpre e (by simp [he]) x hx j hj
          simp only [List.length_cons] at hlen
          simp only [this, Trie.bucket.injEq, true_and]
          omega
  | hb bm arr ih =>
    intro fuel d hok hc hne hfd hd hpre hs hp
    obtain ⟨fuel, rfl⟩ : ∃ f, fuel = f + 1 := ⟨fuel - 1, by omega⟩
    have h2 : 2 ≤ (HNode.branch bm arr).entries.length := by
      rcases hc with ⟨b, h⟩ | h
      · cases h
      · exact h
    have hlen : hs.length = (HNode.branch bm arr).entries.length := by simpa [hashes] using hp.length_eq
    have hd64 : d * k < 64 := by rw [ok_branch] at hok; exact hok.1
    have hd' : d < 64 := Nat.lt_of_le_of_lt (Nat.le_mul_of_pos_right d hk) hd64
    have key := branch_skeleton (G := trieOf k fuel (d + 1)) hok hp fun i c hch hm hs hp => by
      refine ih c hm fuel (d + 1) hch.ok (hch.compressed rfl) hch.nonempty (by omega) (by omega) ?_ hs hp
      intro x hx y hy j hj
      rcases Nat.lt_or_ge j d with h | h
      · exact hpre x (by rw [entries_branch]; exact List.mem_flatMap.2 ⟨c, hm, hx⟩) y
          (by rw [entries_branch]; exact List.mem_flatMap.2 ⟨c, hm, hy⟩) j h
      · have : j = d := by omega
        subst this
        rw [hch.pos x hx, hch.pos y hy]
    rw [key]
    rw [← hlen] at h2
    match hs, h2 with
    | [], h => simp at h
    | [_], h => simp at h
    | h :: h' :: hs, _ => rw [trieOf, if_neg (by omega)]

/-- The root. -/
theorem branch_root_skeleton (hk : 1 ≤ k) {bm : Nat} {arr : List (HNode K V)} (hok : (HNode.branch bm arr).OK A k true 0) {hs : List UInt64}
    (hp : hs.Perm (HNode.branch bm arr).hashes) : (HNode.branch bm arr).skeleton A = rootOf k hs := by
  rw [rootOf]
  refine branch_skeleton hok hp fun i c hch hm hs hp => skeleton_eq hk c 65 1 hch.ok (hch.compressed rfl) hch.nonempty (by omega) (by omega) ?_ hs hp
  intro x hx y hy j hj
  have : j = 0 := by omega
  subst this
  rw [hch.pos x hx, hch.pos y hy]

/-- The root: as given by the hashes, or a single bucket. -/
theorem root_skeleton (hk : 1 ≤ k) {n : HNode K V} (hok : n.OK A k true 0) {hs : List UInt64} (hp : hs.Perm n.hashes) :
    n.skeleton A = rootOf k hs ∨ ∃ h, hs = [h] ∧ n.skeleton A = .bucket h 1 := by
  match n, hok, hp with
  | .branch bm arr, hok, hp => exact .inl (branch_root_skeleton hk hok hp)
  | .leaf (.single e), _, hp =>
    exact .inr ⟨e.keyHash, by simpa [hashes, Bucket.entries] using hp, by simp [skeleton]⟩
  | .leaf (.collision l), hok, _ => rw [OK] at hok; omega

end HNode
end Rpds
