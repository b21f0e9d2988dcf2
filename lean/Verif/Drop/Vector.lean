import Verif.Vector.Rep
/-
`Vector::drop_last_mut` when the `Drop` of the removed element panics and the panic is caught.

The element is dropped at `a.pop();` in the leaf (vector/mod.rs:204), after the `Vec` has become shorter.  Unwinding then leaves every
enclosing call at once: empty nodes are not pruned (209), `length` is not decreased (450) and the root is not compressed (452).
-/
set_option autoImplicit false
namespace Rpds

namespace VNode
variable {T : Type}

mutual
/-- `Node::drop_last` (vector/mod.rs:197-215) when the drop of the popped element panics: the node afterwards. -/
def dropLastD : VNode T → Res (VNode T)
  | .leaf a => .ok (.leaf a.dropLast)
  | .branch a => do
    let a' ← dropLastAtD a
    pure (.branch a')
/-- `make_mut(a.last_mut().unwrap()).drop_last()` (vector/mod.rs:208) when it panics: the children afterwards. -/
def dropLastAtD : List (VNode T) → Res (List (VNode T))
  | [] => .error .unwrapNone
  | [c] => do
    let c' ← dropLastD c
    pure [c']
  | c :: c₁ :: cs => do
    let cs' ← dropLastAtD (c₁ :: cs)
    pure (c :: cs')
end

end VNode

/-- `Vector::drop_last_mut` (vector/mod.rs:445-464) when the drop of the removed element panics: the vector afterwards, `none` if the
vector is empty (then nothing is dropped). -/
def RVector.dropLastMutD {T : Type} (v : RVector T) : Res (Option (RVector T)) :=
  if v.length > 0 then do
    let root ← v.root.dropLastD
    pure (some { v with root })
  else pure none

namespace VNode
variable {T : Type} {A : Arch} {b : Nat}

theorem dropLastAtD_snoc (ds : List (VNode T)) (c : VNode T) :
    dropLastAtD (ds ++ [c]) = (do
      let c' ← dropLastD c
      pure (ds ++ [c'])) := by
  induction ds with
  | nil => simp [dropLastAtD]
  | cons d ds ih =>
    cases hds : ds ++ [c] with
    | nil => simp at hds
    | cons e es =>
      rw [List.cons_append, hds, dropLastAtD, ← hds, ih]
      cases dropLastD c <;> simp

/-- What is left after the panic: all earlier elements are where they were, the last one is missing, and writing that index gives exactly
the node that writing it in the original gives. -/
theorem dropLastD_ok {h : Nat} (f : Fits A b h) {n : VNode T} (hn : OK b h n) (hne : n.toList ≠ []) :
    ∃ n', dropLastD n = .ok n' ∧ n'.toList = n.toList.dropLast ∧ ∀ index,
      (index % 2 ^ (b * (h + 1)) + 1 < n.toList.length → get A b index n' h = get A b index n h) ∧
      (index % 2 ^ (b * (h + 1)) + 1 = n.toList.length → get A b index n' h = .error .indexOutOfBounds ∧
        ∀ x, assoc A b x index n' h = assoc A b x index n h) := by
  induction h generalizing n with
  | zero =>
    obtain ⟨a, rfl, h1⟩ := hn.leaf_inv
    refine ⟨.leaf a.dropLast, by simp [dropLastD], by simp, fun index => ?_⟩
    simp only [toList_leaf, Nat.zero_add, Nat.mul_one] at *
    constructor
    · intro hi
      have h2 : index % 2 ^ b < a.dropLast.length := by simp; omega
      have h3 : index % 2 ^ b < a.length := by omega
      have h4 : a.dropLast[index % 2 ^ b]? = a[index % 2 ^ b]? := by
        rw [List.getElem?_dropLast, if_pos (by omega)]
      simp [get, vecBucket_ok f, vecIndex, h4]
    · intro hi
      have h2 : ¬ index % 2 ^ b < a.dropLast.length := by simp; omega
      constructor
      · have h4 : a.dropLast[index % 2 ^ b]? = none := by
          rw [List.getElem?_dropLast, if_neg (by omega)]
        simp [get, vecBucket_ok f, vecIndex, h4]
      · intro x
        have h3 : a.dropLast.length = index % 2 ^ b := by simp; omega
        have h4 : a.length ≠ index % 2 ^ b := by omega
        have h5 : index % 2 ^ b < a.length := by omega
        simp only [assoc, vecBucket_ok f, Nat.mul_zero, Nat.pow_zero, Nat.div_one, Res.ok_bind]
        rw [if_pos (by simpa using h3), if_neg (by simpa using h4)]
        have h6 : a.set (index % 2 ^ b) x = a.dropLast ++ [x] := by
          apply List.ext_getElem? 
          intro i
          simp only [List.getElem?_set, List.getElem?_append, List.getElem?_dropLast, List.length_dropLast, h5]
          by_cases hi1 : index % 2 ^ b = i
          · subst hi1
            have : ¬ index % 2 ^ b < a.length - 1 := by omega
            simp [this]
            simp [show index % 2 ^ b - (a.length - 1) = 0 by omega]
          · by_cases hi2 : i < a.length - 1
            · simp [hi1, hi2]
            · have : a.length ≤ i := by omega
              simp [hi1, hi2, this]
              omega
        simp [vecSet, h5, h6]
  | succ h ih =>
    obtain ⟨a, rfl, h1, h2, h3⟩ := hn.branch_inv
    have hane : a ≠ [] := by
      intro h
      subst h
      exact h1.ne_nil rfl
    obtain ⟨ds, c, rfl⟩ : ∃ ds c, a = ds ++ [c] := ⟨a.dropLast, a.getLast hane, (List.dropLast_concat_getLast hane).symm⟩
    have hcne : c.toList ≠ [] := by
      have := h1.pos_length c.toList (by simp)
      intro h; simp [h] at this
    have hcn := h3 c (by simp)
    obtain ⟨c', e1, e2, e3⟩ := ih (f.mono (by omega)) hcn hcne
    refine ⟨.branch (ds ++ [c']), by simp [dropLastD, dropLastAtD_snoc, e1], ?_, ?_⟩
    · simp [e2, List.dropLast_append_of_ne_nil hcne]
    intro index
    have hlen : (branch (ds ++ [c])).toList.length = ((ds ++ [c]).map toList).flatten.length := by rw [toList_branch]
    rw [hlen]
    have hmm := mod_pow_mod b (h + 1) index
    have hbd := bucket_div b (h + 1) index
    have hlt : index % 2 ^ (b * (h + 1 + 1)) < 2 ^ (b * (h + 1 + 1)) := Nat.mod_lt _ (Nat.two_pow_pos _)
    have hSp : 0 < 2 ^ (b * (h + 1)) := Nat.two_pow_pos _
    have e4 := e3 index
    generalize index % 2 ^ (b * (h + 1 + 1)) = i at *
    -- every child but the last one is full
    have hfull : ((ds ++ [c]).map toList).flatten.length = ds.length * 2 ^ (b * (h + 1)) + c.toList.length := by
      rw [List.map_append] at h1
      have h4 := h1.full_length
      rw [List.map_append, List.flatten_append, List.length_append]
      have : (ds.map toList).flatten.length = ds.length * 2 ^ (b * (h + 1)) := by
        have h5 : (ds.map (List.length ∘ toList)) = ds.map fun _ => 2 ^ (b * (h + 1)) :=
          List.map_congr_left fun d hd => h4 _ (List.mem_map_of_mem hd)
        rw [List.length_flatten, List.map_map, h5, List.map_const', List.sum_replicate_nat]
      rw [this]; simp
    have hcl : c.toList.length ≤ 2 ^ (b * (h + 1)) := hcn.length_le
    rw [hfull]
    have hsub := A.usub_ok (show 1 ≤ h + 1 by omega)
    by_cases hin : i < ds.length * 2 ^ (b * (h + 1))
    · have hj : i / 2 ^ (b * (h + 1)) < ds.length := by rwa [Nat.div_lt_iff_lt_mul hSp]
      refine ⟨fun _ => ?_, fun hi => ?_⟩
      · simp only [get, vecBucket_ok f, Res.ok_bind, hbd]
        have g1 : ∀ (e : VNode T), (ds ++ [e])[i / 2 ^ (b * (h + 1))]? = some ds[i / 2 ^ (b * (h + 1))] := fun e => by
          rw [List.getElem?_append_left hj]; simp [hj]
        rw [getAt_eq (g1 c') hsub, getAt_eq (g1 c) hsub]
      · have : 0 < c.toList.length := List.length_pos_iff.2 hcne
        omega
    · have hj : i - ds.length * 2 ^ (b * (h + 1)) + ds.length * 2 ^ (b * (h + 1)) = i := by omega
      have key : i + 1 ≤ ds.length * 2 ^ (b * (h + 1)) + c.toList.length →
          i / 2 ^ (b * (h + 1)) = ds.length ∧ index % 2 ^ (b * (h + 1)) = i - ds.length * 2 ^ (b * (h + 1)) := by
        intro hi
        have hr : i - ds.length * 2 ^ (b * (h + 1)) < 2 ^ (b * (h + 1)) := by omega
        generalize i - ds.length * 2 ^ (b * (h + 1)) = r at hj hr
        rw [← hmm, ← hj, Nat.add_mul_div_right _ _ hSp, Nat.add_mul_mod_self_right, Nat.div_eq_of_lt hr, Nat.mod_eq_of_lt hr]
        simp
      have g1 : ∀ (e : VNode T), (ds ++ [e])[ds.length]? = some e := fun e => by simp
      refine ⟨fun hi => ?_, fun hi => ⟨?_, fun x => ?_⟩⟩
      · obtain ⟨k1, k2⟩ := key (by omega)
        simp only [get, vecBucket_ok f, Res.ok_bind, hbd, k1]
        rw [getAt_eq (g1 c') hsub, getAt_eq (g1 c) hsub, Nat.add_sub_cancel]
        exact e4.1 (by omega)
      · obtain ⟨k1, k2⟩ := key (by omega)
        simp only [get, vecBucket_ok f, Res.ok_bind, hbd, k1]
        rw [getAt_eq (g1 c') hsub, Nat.add_sub_cancel]
        exact (e4.2 (by omega)).1
      · obtain ⟨k1, k2⟩ := key (by omega)
        have e5 := (e4.2 (by omega)).2 x
        obtain ⟨d, e6, _⟩ := assoc_ok (f.mono (Nat.le_succ h)) x hcn index (by omega)
        rw [e6] at e5
        simp only [assoc, vecBucket_ok f, Res.ok_bind, hbd, k1]
        rw [assocAt_some (g1 c') hsub (by rw [Nat.add_sub_cancel]; exact e5), assocAt_some (g1 c) hsub (by rw [Nat.add_sub_cancel]; exact e6)]
        simp

end VNode

namespace RVector
variable {T : Type} {A : Arch}

/-- The vector left by a `drop_last_mut` whose element panicked while it was dropped. -/
theorem Rep.dropLastMutD {v : RVector T} {xs : List T} {h : Nat} (r : Rep A v xs h) (hne : xs ≠ []) :
    ∃ v', v.dropLastMutD = .ok (some v') ∧ v'.length = v.length ∧ v'.bits = v.bits ∧ v'.root.toList = xs.dropLast ∧
      (∀ i, i + 1 ≠ xs.length → v'.get A i = v.get A i) ∧ v'.get A (xs.length - 1) = .error .indexOutOfBounds ∧
      ∀ x, v'.setMut A (xs.length - 1) x = v.setMut A (xs.length - 1) x := by
  have hlen : 0 < xs.length := List.length_pos_iff.2 hne
  obtain ⟨n', e1, e2, e3⟩ := VNode.dropLastD_ok r.fits r.ok (by rw [r.items]; exact hne)
  rw [r.items] at e2
  have hlast : xs.length - 1 < xs.length := by omega
  have hh := r.height
  have hh' : ({ v with root := n' } : RVector T).height A = .ok h := hh
  have e4 := (e3 (xs.length - 1)).2 (by rw [r.mod_eq hlast, r.items]; omega)
  refine ⟨{ v with root := n' }, by simp [RVector.dropLastMutD, r.length, hlen, e1], rfl, rfl, e2, fun i hi => ?_, ?_, fun x => ?_⟩
  · unfold RVector.get
    rw [hh, hh']
    show (if i ≥ v.length then _ else _) = _
    split
    · rfl
    · next hlt =>
      rw [r.length] at hlt
      simp only [Res.ok_bind]
      rw [(e3 i).1 (by rw [r.mod_eq (by omega), r.items]; omega)]
  · unfold RVector.get
    rw [hh']
    have : ¬ ({ v with root := n' } : RVector T).length ≤ xs.length - 1 := by show ¬ v.length ≤ _; rw [r.length]; omega
    simp [this, e4.1]
  · have h1 : ¬ v.length ≤ xs.length - 1 := by rw [r.length]; omega
    unfold RVector.setMut
    have hc : ({ v with root := n' } : RVector T).assocCheck A (xs.length - 1) = v.assocCheck A (xs.length - 1) := rfl
    simp only [ge_iff_le, h1, if_false, RVector.assoc, hc, hh', hh, Res.ok_bind, e4.2 x]

end RVector
end Rpds
