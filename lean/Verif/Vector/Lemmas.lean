import Verif.Vector.Model
import Verif.Vector.Chunks
/-
Trie invariant and refinement of the `Vector` model.
-/
set_option autoImplicit false
namespace Rpds
variable {T : Type}

namespace VNode

mutual
/-- The items below a node, left to right. -/
def toList : VNode T → List T
  | .leaf a => a
  | .branch a => toListAll a
def toListAll : List (VNode T) → List T
  | [] => []
  | c :: cs => toList c ++ toListAll cs
end

theorem toListAll_eq (a : List (VNode T)) : toListAll a = (a.map toList).flatten := by
  induction a with
  | nil => simp [toListAll]
  | cons c cs ih => simp [toListAll, ih]

@[simp] theorem toList_leaf (a : List T) : (VNode.leaf a).toList = a := by simp [toList]
@[simp] theorem toList_branch (a : List (VNode T)) : (VNode.branch a).toList = (a.map toList).flatten := by
  simp [toList, toListAll_eq]

/-- A left-complete trie of height `h` (a leaf has height 0) with branching `2^b`. -/
def OK (b : Nat) : Nat → VNode T → Prop
  | 0, .leaf a => a.length ≤ 2 ^ b
  | h + 1, .branch a => Chunked (2 ^ (b * (h + 1))) (a.map toList) ∧ a.length ≤ 2 ^ b ∧ ∀ c ∈ a, OK b h c
  | _, _ => False

end VNode

/-- Conditions on the word size under which all index arithmetic for height `h` is exact. -/
structure Fits (A : Arch) (b h : Nat) : Prop where
  pos : 0 < b
  bits : b < A.W
  fits : b * h < A.W

theorem Fits.mono {A : Arch} {b h h' : Nat} (f : Fits A b h) (hh : h' ≤ h) : Fits A b h' :=
  ⟨f.pos, f.bits, Nat.lt_of_le_of_lt (Nat.mul_le_mul_left _ hh) f.fits⟩

theorem Fits.height_lt {A : Arch} {b h : Nat} (f : Fits A b h) : h < A.W :=
  Nat.lt_of_le_of_lt (Nat.le_mul_of_pos_left _ f.pos) f.fits

theorem Fits.height_succ_lt {A : Arch} {b h : Nat} (f : Fits A b h) : h + 1 < 2 ^ A.W := by
  have h1 := f.height_lt
  have h2 := f.bits
  have h3 := f.pos
  have h4 : A.W < 2 ^ A.W := Nat.lt_two_pow_self
  omega

theorem vecBucket_ok {A : Arch} {b h : Nat} (f : Fits A b h) (i : Nat) :
    vecBucket A b i h = .ok (i / 2 ^ (b * h) % 2 ^ b) := by
  have hb := f.bits
  have h1 : b * h < A.W := f.fits
  have h2 : A.W < 2 ^ A.W := Nat.lt_two_pow_self
  have h3 : 0 < 2 ^ b := Nat.two_pow_pos b
  rw [Nat.mul_comm] at h1
  simp only [vecBucket, vecMask, vecDegree, A.umul_ok (show h * b < 2 ^ A.W by omega), A.ushr_ok h1,
    Arch.ushl_one_ok hb, Res.ok_bind, A.usub_ok (show 1 ≤ 2 ^ b by omega), Res.pure_eq]
  rw [Nat.and_two_pow_sub_one_eq_mod, Nat.mul_comm h b]

theorem pow_split (b h : Nat) : 2 ^ (b * (h + 1)) = 2 ^ (b * h) * 2 ^ b := by
  rw [Nat.mul_add, Nat.mul_one, Nat.pow_add]

theorem bucket_div (b h i : Nat) : i / 2 ^ (b * h) % 2 ^ b = (i % 2 ^ (b * (h + 1))) / 2 ^ (b * h) := by
  rw [pow_split, Nat.mod_mul_right_div_self]

theorem mod_pow_mod (b h i : Nat) : i % 2 ^ (b * (h + 1)) % 2 ^ (b * h) = i % 2 ^ (b * h) := by
  rw [pow_split, Nat.mod_mul_right_mod]

namespace VNode
variable {A : Arch} {b : Nat}

theorem OK.leaf_inv {n : VNode T} (h : OK b 0 n) : ∃ a, n = .leaf a ∧ a.length ≤ 2 ^ b := by
  cases n with
  | leaf a => exact ⟨a, rfl, h⟩
  | branch a => exact h.elim

theorem OK.branch_inv {n : VNode T} {h : Nat} (hn : OK b (h + 1) n) : ∃ a, n = .branch a ∧
    Chunked (2 ^ (b * (h + 1))) (a.map toList) ∧ a.length ≤ 2 ^ b ∧ ∀ c ∈ a, OK b h c := by
  cases n with
  | leaf a => exact hn.elim
  | branch a => exact ⟨a, rfl, hn⟩

theorem OK.length_le {n : VNode T} {h : Nat} (hn : OK b h n) : n.toList.length ≤ 2 ^ (b * (h + 1)) := by
  cases h with
  | zero => obtain ⟨a, rfl, h1⟩ := hn.leaf_inv; simpa using h1
  | succ h =>
    obtain ⟨a, rfl, h1, h2, _⟩ := hn.branch_inv
    have := h1.flatten_le
    rw [toList_branch, pow_split b (h + 1)]
    refine Nat.le_trans this (Nat.mul_le_mul_left _ (by simpa using h2))

theorem getAt_eq {index i h h' : Nat} {cs : List (VNode T)} {c : VNode T} (hc : cs[i]? = some c)
    (hh : A.usub h 1 = .ok h') : getAt A b index cs i h = get A b index c h' := by
  induction cs generalizing i with
  | nil => simp at hc
  | cons d cs ih =>
    cases i with
    | zero => simp at hc; subst hc; simp [getAt, hh]
    | succ i => simp [getAt, ih (by simpa using hc)]

theorem modifyAt_eq {f : T → T} {index i h h' : Nat} {cs : List (VNode T)} {c c' : VNode T} (hc : cs[i]? = some c)
    (hh : A.usub h 1 = .ok h') (hm : modify A b f index c h' = .ok c') :
    modifyAt A b f index cs i h = .ok (cs.set i c') := by
  induction cs generalizing i with
  | nil => simp at hc
  | cons d cs ih =>
    cases i with
    | zero => simp at hc; subst hc; simp [modifyAt, hh, hm]
    | succ i => simp [modifyAt, ih (by simpa using hc)]

theorem assocAt_some {x : T} {index i h h' : Nat} {cs : List (VNode T)} {c c' : VNode T} (hc : cs[i]? = some c)
    (hh : A.usub h 1 = .ok h') (hm : assoc A b x index c h' = .ok c') :
    assocAt A b x index cs i h = .ok (some (cs.set i c')) := by
  induction cs generalizing i with
  | nil => simp at hc
  | cons d cs ih =>
    cases i with
    | zero => simp at hc; subst hc; simp [assocAt, hh, hm]
    | succ i => simp [assocAt, ih (by simpa using hc)]

theorem assocAt_none {x : T} {index i h : Nat} {cs : List (VNode T)} (hc : cs.length ≤ i) :
    assocAt A b x index cs i h = .ok none := by
  induction cs generalizing i with
  | nil => simp [assocAt]
  | cons d cs ih =>
    cases i with
    | zero => simp at hc
    | succ i => simp [assocAt, ih (i := i) (by simpa using hc)]

theorem get_ok {h : Nat} (f : Fits A b h) {n : VNode T} (hn : OK b h n) (index : Nat)
    (hi : index % 2 ^ (b * (h + 1)) < n.toList.length) :
    ∃ x, get A b index n h = .ok x ∧ n.toList[index % 2 ^ (b * (h + 1))]? = some x := by
  induction h generalizing n with
  | zero =>
    obtain ⟨a, rfl, h1⟩ := hn.leaf_inv
    simp only [toList_leaf, Nat.zero_add, Nat.mul_one] at *
    refine ⟨a[index % 2 ^ b], ?_, by simp [hi]⟩
    simp [get, vecBucket_ok f, vecIndex, hi]
  | succ h ih =>
    obtain ⟨a, rfl, h1, h2, h3⟩ := hn.branch_inv
    rw [toList_branch] at hi ⊢
    obtain ⟨c, e1, e2, e3⟩ := h1.get hi
    rw [List.getElem?_map] at e1
    cases hc : a[index % 2 ^ (b * (h + 1 + 1)) / 2 ^ (b * (h + 1))]? with
    | none => rw [hc] at e1; simp at e1
    | some d =>
      rw [hc] at e1
      simp at e1
      subst e1
      rw [mod_pow_mod] at e2 e3
      obtain ⟨x, e4, e5⟩ := ih (f.mono (by omega)) (h3 d (List.mem_of_getElem? hc)) e2
      refine ⟨x, ?_, by rw [e3, e5]⟩
      simp only [get, vecBucket_ok f, Res.ok_bind, bucket_div]
      rw [getAt_eq hc (A.usub_ok (by omega)), Nat.add_sub_cancel, e4]

theorem map_set_toList (a : List (VNode T)) (i : Nat) (c : VNode T) :
    (a.set i c).map toList = (a.map toList).set i c.toList := by
  rw [List.map_set]

theorem modify_ok {h : Nat} (f : Fits A b h) (g : T → T) {n : VNode T} (hn : OK b h n) (index : Nat) {x : T}
    (hx : n.toList[index % 2 ^ (b * (h + 1))]? = some x) :
    ∃ n', modify A b g index n h = .ok n' ∧ OK b h n' ∧ n'.toList = n.toList.set (index % 2 ^ (b * (h + 1))) (g x) := by
  induction h generalizing n with
  | zero =>
    obtain ⟨a, rfl, h1⟩ := hn.leaf_inv
    simp only [toList_leaf, Nat.zero_add, Nat.mul_one] at *
    obtain ⟨hi, hx'⟩ := List.getElem?_eq_some_iff.1 hx
    refine ⟨.leaf (a.set (index % 2 ^ b) (g x)), ?_, by simpa [OK] using h1, by simp⟩
    simp [modify, vecBucket_ok f, vecIndex, hi, vecSet, hx']
  | succ h ih =>
    obtain ⟨a, rfl, h1, h2, h3⟩ := hn.branch_inv
    rw [toList_branch] at hx ⊢
    have hi := (List.getElem?_eq_some_iff.1 hx).1
    obtain ⟨c, e1, e2, e3⟩ := h1.get hi
    have hset := fun v => h1.set v hi e1
    rw [List.getElem?_map] at e1
    cases hc : a[index % 2 ^ (b * (h + 1 + 1)) / 2 ^ (b * (h + 1))]? with
    | none => rw [hc] at e1; simp at e1
    | some d =>
      rw [hc] at e1
      simp at e1
      subst e1
      rw [hx] at e3
      simp only [mod_pow_mod] at e2 e3 hset
      have hd := List.mem_of_getElem? hc
      obtain ⟨d', e4, e5, e6⟩ := ih (f.mono (by omega)) (h3 d hd) e3.symm
      refine ⟨.branch (a.set (index % 2 ^ (b * (h + 1 + 1)) / 2 ^ (b * (h + 1))) d'), ?_, ?_, ?_⟩
      · simp only [modify, vecBucket_ok f, Res.ok_bind, bucket_div]
        rw [modifyAt_eq hc (A.usub_ok (by omega)) (by rw [Nat.add_sub_cancel]; exact e4)]
        rfl
      · refine ⟨?_, by simpa using h2, ?_⟩
        · rw [map_set_toList, e6]; exact (hset _).1
        · intro c hcm
          rcases List.mem_or_eq_of_mem_set hcm with hcm | rfl
          · exact h3 c hcm
          · exact e5
      · rw [toList_branch, map_set_toList, e6]; exact (hset _).2

theorem assocNew_ok {h : Nat} (f : Fits A b h) (x : T) (index : Nat) (hi : index % 2 ^ (b * (h + 1)) = 0) :
    ∃ n, assocNew A b x index (decide (0 < h)) h = .ok n ∧ OK b h n ∧ n.toList = [x] := by
  induction h with
  | zero =>
    simp only [Nat.zero_add, Nat.mul_one] at hi
    exact ⟨.leaf [x], by simp [assocNew, vecBucket_ok f, hi], by simp [OK, Nat.one_le_two_pow], by simp⟩
  | succ h ih =>
    have hm : index % 2 ^ (b * (h + 1)) = 0 := by
      rw [← mod_pow_mod, hi, Nat.zero_mod]
    obtain ⟨n, e1, e2, e3⟩ := ih (f.mono (by omega)) hm
    refine ⟨.branch [n], ?_, ⟨?_, by simp [Nat.one_le_two_pow], by simpa using e2⟩, by simp [e3]⟩
    · have : decide (h + 1 > 1) = decide (0 < h) := by simp
      simp [assocNew, vecBucket_ok f, e1]
    · simp only [List.map_cons, List.map_nil, e3]
      exact .single (by simp) (by simp [Nat.one_le_two_pow])

theorem assoc_ok {h : Nat} (f : Fits A b h) (x : T) {n : VNode T} (hn : OK b h n) (index : Nat)
    (hi : index % 2 ^ (b * (h + 1)) ≤ n.toList.length) :
    ∃ n', assoc A b x index n h = .ok n' ∧ OK b h n' ∧
      n'.toList = if index % 2 ^ (b * (h + 1)) < n.toList.length then n.toList.set (index % 2 ^ (b * (h + 1))) x
        else n.toList ++ [x] := by
  induction h generalizing n with
  | zero =>
    obtain ⟨a, rfl, h1⟩ := hn.leaf_inv
    simp only [toList_leaf, Nat.zero_add, Nat.mul_one] at *
    by_cases hlt : index % 2 ^ b < a.length
    · refine ⟨.leaf (a.set (index % 2 ^ b) x), ?_, by simpa [OK] using h1, by simp [hlt]⟩
      have : a.length ≠ index % 2 ^ b := by omega
      simp [assoc, vecBucket_ok f, vecSet, hlt, this]
    · have he : a.length = index % 2 ^ b := by omega
      have hl : index % 2 ^ b < 2 ^ b := Nat.mod_lt _ (Nat.two_pow_pos b)
      refine ⟨.leaf (a ++ [x]), ?_, by simp [OK]; omega, by simp [hlt]⟩
      simp [assoc, vecBucket_ok f, he]
  | succ h ih =>
    obtain ⟨a, rfl, h1, h2, h3⟩ := hn.branch_inv
    rw [toList_branch] at hi ⊢
    by_cases hlt : index % 2 ^ (b * (h + 1 + 1)) < (a.map toList).flatten.length
    · obtain ⟨c, e1, e2, e3⟩ := h1.get hlt
      have hset := fun v => h1.set v hlt e1
      rw [List.getElem?_map] at e1
      cases hc : a[index % 2 ^ (b * (h + 1 + 1)) / 2 ^ (b * (h + 1))]? with
      | none => rw [hc] at e1; simp at e1
      | some d =>
        rw [hc] at e1
        simp at e1
        subst e1
        simp only [mod_pow_mod] at e2 e3 hset
        have hd := List.mem_of_getElem? hc
        obtain ⟨d', e4, e5, e6⟩ := ih (f.mono (by omega)) (h3 d hd) (Nat.le_of_lt e2)
        rw [if_pos e2] at e6
        refine ⟨.branch (a.set (index % 2 ^ (b * (h + 1 + 1)) / 2 ^ (b * (h + 1))) d'), ?_, ?_, ?_⟩
        · simp only [assoc, vecBucket_ok f, Res.ok_bind, bucket_div]
          rw [assocAt_some hc (A.usub_ok (by omega)) (by rw [Nat.add_sub_cancel]; exact e4)]
          simp
        · refine ⟨?_, by simpa using h2, ?_⟩
          · rw [map_set_toList, e6]; exact (hset _).1
          · intro c hcm
            rcases List.mem_or_eq_of_mem_set hcm with hcm | rfl
            · exact h3 c hcm
            · exact e5
        · rw [toList_branch, map_set_toList, e6, if_pos hlt]; exact (hset _).2
    · have heq : index % 2 ^ (b * (h + 1 + 1)) = (a.map toList).flatten.length := by omega
      rw [if_neg hlt]
      have hb : index / 2 ^ (b * (h + 1)) % 2 ^ b = (a.map toList).flatten.length / 2 ^ (b * (h + 1)) := by
        rw [bucket_div, heq]
      have hmm : index % 2 ^ (b * (h + 1)) = (a.map toList).flatten.length % 2 ^ (b * (h + 1)) := by
        rw [← mod_pow_mod, heq]
      rcases h1.push x with ⟨p1, p2, p3⟩ | ⟨c, p1, p2, p3, p4⟩
      · rw [p2] at hmm
        rw [p1, List.length_map] at hb
        obtain ⟨n, e1, e2, e3⟩ := assocNew_ok (f.mono (by omega)) x index hmm
        refine ⟨.branch (a ++ [n]), ?_, ⟨?_, ?_, ?_⟩, by simp [e3]⟩
        · simp only [assoc, vecBucket_ok f, Res.ok_bind, hb]
          rw [assocAt_none (Nat.le_refl _)]
          have : decide (h + 1 > 1) = decide (0 < h) := by simp
          simp [A.usub_ok (show 1 ≤ h + 1 by omega), e1]
        · simpa [e3] using p3
        · have : index / 2 ^ (b * (h + 1)) % 2 ^ b < 2 ^ b := Nat.mod_lt _ (Nat.two_pow_pos b)
          simp; omega
        · intro c hc
          simp at hc
          rcases hc with hc | rfl
          · exact h3 c hc
          · exact e2
      · rw [List.getElem?_map] at p1
        cases hc : a[(a.map toList).flatten.length / 2 ^ (b * (h + 1))]? with
        | none => rw [hc] at p1; simp at p1
        | some d =>
          rw [hc] at p1
          simp at p1
          subst p1
          have hd := List.mem_of_getElem? hc
          rw [p2] at hmm
          obtain ⟨d', e4, e5, e6⟩ := ih (f.mono (by omega)) (h3 d hd) (Nat.le_of_eq hmm)
          rw [hmm, if_neg (Nat.lt_irrefl _)] at e6
          refine ⟨.branch (a.set ((a.map toList).flatten.length / 2 ^ (b * (h + 1))) d'), ?_, ⟨?_, by simpa using h2, ?_⟩, ?_⟩
          · simp only [assoc, vecBucket_ok f, Res.ok_bind, hb]
            rw [assocAt_some hc (A.usub_ok (by omega)) (by rw [Nat.add_sub_cancel]; exact e4)]
            simp
          · rw [map_set_toList, e6]; exact p3
          · intro c hcm
            rcases List.mem_or_eq_of_mem_set hcm with hcm | rfl
            · exact h3 c hcm
            · exact e5
          · rw [toList_branch, map_set_toList, e6]; exact p4

theorem dropLastAt_snoc (ds : List (VNode T)) (c : VNode T) :
    dropLastAt (ds ++ [c]) = (do
      let (e, c') ← dropLast c
      if e then pure ds else pure (ds ++ [c'])) := by
  induction ds with
  | nil => simp [dropLastAt]
  | cons d ds ih =>
    cases hds : ds ++ [c] with
    | nil => simp at hds
    | cons e es =>
      rw [List.cons_append, hds, dropLastAt, ← hds, ih]
      cases dropLast c with
      | error e => rfl
      | ok p =>
        obtain ⟨e, c'⟩ := p
        cases e <;> simp

theorem dropLast_ok {h : Nat} {n : VNode T} (hn : OK b h n) (hne : n.toList ≠ []) :
    ∃ n', dropLast n = .ok (n'.toList.isEmpty, n') ∧ n'.toList = n.toList.dropLast ∧ (n'.toList ≠ [] → OK b h n') := by
  induction h generalizing n with
  | zero =>
    obtain ⟨a, rfl, h1⟩ := hn.leaf_inv
    simp only [toList_leaf] at *
    refine ⟨.leaf a.dropLast, ?_, by simp, fun _ => by simp [OK]; omega⟩
    have : a.length ≠ 0 := by simpa using hne
    have h2 : (a.dropLast.length == 0) = a.dropLast.isEmpty := by cases a.dropLast <;> simp
    have h3 : isEmpty (.leaf a) = false := by simpa [isEmpty, used] using this
    have h4 : isEmpty (.leaf a.dropLast) = a.dropLast.isEmpty := h2
    simp [dropLast, h3, h4]
  | succ h ih =>
    obtain ⟨a, rfl, h1, h2, h3⟩ := hn.branch_inv
    have hane : a ≠ [] := by
      intro h
      subst h
      exact h1.ne_nil rfl
    obtain ⟨ds, c, rfl⟩ : ∃ ds c, a = ds ++ [c] := ⟨a.dropLast, a.getLast hane, (List.dropLast_concat_getLast hane).symm⟩
    rw [List.map_append, List.map_cons, List.map_nil] at h1
    have hcl := h1.pos_length c.toList (by simp)
    have hcne : c.toList ≠ [] := by intro h; simp [h] at hcl
    obtain ⟨c', e1, e2, e3⟩ := ih (h3 c (by simp)) hcne
    have hne' : isEmpty (.branch (ds ++ [c])) = false := by simp [isEmpty, used]
    obtain ⟨d1, d2⟩ := h1.dropLast_cases
    simp only [dropLast, hne', dropLastAt_snoc, e1, Res.ok_bind, toList_branch, List.map_append, List.map_cons,
      List.map_nil, List.flatten_append, List.flatten_cons, List.flatten_nil, List.append_nil]
    rw [List.dropLast_append_of_ne_nil hcne]
    by_cases hce : c'.toList = []
    · have hc1 : c.toList.length = 1 := by
        have : c.toList.dropLast.length = 0 := by rw [← e2, hce]; rfl
        simp at this; omega
      refine ⟨.branch ds, ?_, by rw [toList_branch, ← e2, hce]; simp, ?_⟩
      · have : isEmpty (.branch ds) = (toList (.branch ds)).isEmpty := by
          rcases d1 hc1 with hd | hd
          · have : ds = [] := by simpa using hd
            subst this; rfl
          · have hp := hd.pos_length
            cases ds with
            | nil => rfl
            | cons d ds =>
              have := hp d.toList (by simp)
              have hx : d.toList ≠ [] := by intro h; simp [h] at this
              have h1 : (d.toList ++ (List.map toList ds).flatten).isEmpty = false := by
                cases hdl : d.toList with
                | nil => exact absurd hdl hx
                | cons => rfl
              simp [isEmpty, used, hx]
        simp only [hce, List.isEmpty_nil, if_true, Res.pure_eq, Res.ok_bind, Bool.false_eq_true, if_false]
        rw [this]
      · intro hx
        rcases d1 hc1 with hd | hd
        · simp at hd; subst hd; simp at hx
        · exact ⟨hd, by simp at h2; omega, fun c hc => h3 c (by simp [hc])⟩
    · have hc1 : 1 < c.toList.length := by
        have : c.toList.dropLast.length ≠ 0 := by rw [← e2]; simpa using hce
        simp at this; omega
      have hz : c'.toList.isEmpty = false := by simpa using hce
      refine ⟨.branch (ds ++ [c']), ?_, by rw [toList_branch]; simp [e2], fun _ => ⟨?_, by simpa using h2, ?_⟩⟩
      · simp [hz, isEmpty, used, hce]
      · rw [List.map_append, List.map_cons, List.map_nil, e2]; exact d2 hc1
      · intro d hd
        simp at hd
        rcases hd with hd | rfl
        · exact h3 d (by simp [hd])
        · exact e3 hce

end VNode
end Rpds
