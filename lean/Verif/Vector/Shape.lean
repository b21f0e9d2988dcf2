import Verif.Vector.Sim
/-
Shape of the vector trie, and what happens at the limits of the word size.
-/
set_option autoImplicit false
namespace Rpds
variable {T : Type}

mutual
/-- All leaves left to right, each with the number of nodes on the way from this node to it (both included). -/
def VNode.leaves : VNode T → List (Nat × List T)
  | .leaf a => [(1, a)]
  | .branch a => leavesAll a
def VNode.leavesAll : List (VNode T) → List (Nat × List T)
  | [] => []
  | c :: cs => (leaves c).map (fun p => (p.1 + 1, p.2)) ++ leavesAll cs
end

namespace VNode

theorem leavesAll_eq (a : List (VNode T)) : leavesAll a = a.flatMap fun c => (leaves c).map (fun p => (p.1 + 1, p.2)) := by
  induction a with
  | nil => simp [leavesAll]
  | cons c cs ih => simp [leavesAll, ih]

theorem leaves_branch (a : List (VNode T)) :
    leaves (.branch a) = a.flatMap fun c => (leaves c).map (fun p => (p.1 + 1, p.2)) := by
  rw [leaves, leavesAll_eq]

theorem leaves_items {b h : Nat} {n : VNode T} (hn : OK b h n) : (n.leaves.map Prod.snd).flatten = n.toList := by
  induction h generalizing n with
  | zero => obtain ⟨a, rfl, _⟩ := hn.leaf_inv; simp [leaves]
  | succ h ih =>
    obtain ⟨a, rfl, _, _, h3⟩ := hn.branch_inv
    rw [leaves_branch, toList_branch]
    have key : ∀ cs : List (VNode T), (∀ c ∈ cs, OK b h c) →
        ((cs.flatMap fun c => (leaves c).map (fun p => (p.1 + 1, p.2))).map Prod.snd).flatten = (cs.map toList).flatten := by
      intro cs
      induction cs with
      | nil => intro _; rfl
      | cons d ds ihd =>
        intro hc
        have := ih (hc d (by simp))
        simp only [List.flatMap_cons, List.map_append, List.flatten_append, List.map_cons, List.flatten_cons]
        rw [ihd (fun c h => hc c (by simp [h])), List.map_map, ← this]
        rfl
    exact key a h3

theorem leaves_depth {b h : Nat} {n : VNode T} (hn : OK b h n) : ∀ p ∈ n.leaves, p.1 = h + 1 := by
  induction h generalizing n with
  | zero => obtain ⟨a, rfl, _⟩ := hn.leaf_inv; simp [leaves]
  | succ h ih =>
    obtain ⟨a, rfl, _, _, h3⟩ := hn.branch_inv
    rw [leaves_branch]
    intro p hp
    rw [List.mem_flatMap] at hp
    obtain ⟨c, hc, hp⟩ := hp
    rw [List.mem_map] at hp
    obtain ⟨q, hq, rfl⟩ := hp
    simp [ih (h3 c hc) q hq]

/-- All leaves but the last are full, and so is the last when the node is full. -/
theorem leaves_full {b h : Nat} {n : VNode T} (hn : OK b h n) :
    ∃ init last, n.leaves = init ++ [last] ∧ (∀ p ∈ init, p.2.length = 2 ^ b) ∧
      (n.toList.length = 2 ^ (b * (h + 1)) → last.2.length = 2 ^ b) := by
  induction h generalizing n with
  | zero =>
    obtain ⟨a, rfl, _⟩ := hn.leaf_inv
    exact ⟨[], (1, a), by simp [leaves], by simp, by simp⟩
  | succ h ih =>
    obtain ⟨a, rfl, h1, h2, h3⟩ := hn.branch_inv
    have hane : a ≠ [] := by
      intro h; subst h; exact h1.ne_nil rfl
    obtain ⟨ds, c, rfl⟩ : ∃ ds c, a = ds ++ [c] := ⟨a.dropLast, a.getLast hane, (List.dropLast_concat_getLast hane).symm⟩
    have hfull : ∀ d ∈ ds, d.toList.length = 2 ^ (b * (h + 1)) := by
      intro d hd
      rw [List.map_append] at h1
      exact h1.full_length d.toList (List.mem_map_of_mem hd)
    obtain ⟨init, last, e1, e2, e3⟩ := ih (h3 c (by simp))
    refine ⟨(ds.flatMap fun c => (leaves c).map (fun p => (p.1 + 1, p.2))) ++ init.map (fun p => (p.1 + 1, p.2)),
      (last.1 + 1, last.2), ?_, ?_, ?_⟩
    · rw [leaves_branch]; simp [e1]
    · intro p hp
      rw [List.mem_append, List.mem_flatMap, List.mem_map] at hp
      rcases hp with ⟨d, hd, hp⟩ | ⟨q, hq, rfl⟩
      · rw [List.mem_map] at hp
        obtain ⟨q, hq, rfl⟩ := hp
        obtain ⟨i', l', f1, f2, f3⟩ := ih (h3 d (by simp [hd]))
        rw [f1, List.mem_append] at hq
        rcases hq with hq | hq
        · exact f2 q hq
        · simp at hq; subst hq; exact f3 (hfull d hd)
      · exact e2 q hq
    · intro hl
      refine e3 ?_
      rw [toList_branch, List.map_append, List.flatten_append, List.length_append] at hl
      have hds : ((ds.map toList).flatten).length = ds.length * 2 ^ (b * (h + 1)) := by
        clear hl h1 h2 h3 hn e1 e2 e3 hane
        induction ds with
        | nil => simp
        | cons d ds ihd =>
          simp only [List.map_cons, List.flatten_cons, List.length_append, List.length_cons, Nat.add_mul, Nat.one_mul]
          rw [ihd (fun d hd => hfull d (by simp [hd])), hfull d (by simp), Nat.add_comm]
      rw [hds, pow_split b (h + 1)] at hl
      simp only [List.map_cons, List.map_nil, List.flatten_cons, List.flatten_nil, List.append_nil] at hl
      have hle := h1.le_length c.toList (by simp)
      simp only [List.length_append, List.length_cons, List.length_nil] at h2
      generalize hm : 2 ^ (b * (h + 1)) = m at *
      have hk : (ds.length + 1) * m ≤ 2 ^ b * m := Nat.mul_le_mul_right _ h2
      rw [Nat.add_mul, Nat.one_mul] at hk
      rw [Nat.mul_comm m] at hl
      omega

end VNode

namespace RVector
variable {A : Arch} {v : RVector T} {xs : List T} {h : Nat}

/-- A vector that holds exactly `vecCap` items cannot take another one in a debug build: the shift `1 << (bits * (height + 1))`
overflows. -/
theorem Rep.full_push (r : Rep A v xs h) (hd : A.mode = .debug) (hc : xs.length = vecCap A v.bits) (x : T) :
    v.pushBackMut A x = .error .overflow := by
  have hb := r.bits_pos
  have hk : v.bits * ((A.W - 1) / v.bits) ≤ A.W - 1 := Nat.mul_div_le _ _
  have hk2 : A.W - 1 < v.bits * ((A.W - 1) / v.bits + 1) := by
    have := Nat.lt_mul_div_succ (A.W - 1) hb
    exact this
  generalize hkk : (A.W - 1) / v.bits = k at *
  have hcap : xs.length = 2 ^ (v.bits * k) := by simp only [hc, vecCap, hd, hkk]
  have hW := r.bits_lt
  have hk0 : 0 < k := by rw [← hkk]; exact Nat.div_pos (by omega) hb
  have hhk : h + 1 = k := by
    have h1 := r.length_le
    rw [hcap] at h1
    have h2 : ¬ h + 1 < k := by rw [← pow_lt_iff hb]; omega
    rcases r.tight with h0 | h0
    · rw [h0] at h2 ⊢
      omega
    · rw [hcap, pow_lt_iff hb] at h0; omega
  subst hhk
  have hpow : 2 ^ (v.bits * (h + 1)) ≤ 2 ^ (A.W - 1) := Nat.pow_le_pow_right (by decide) hk
  have hWW : 2 * 2 ^ (A.W - 1) = 2 ^ A.W := by
    rw [← Nat.pow_succ']; congr 1; omega
  have h21 : 2 ≤ 2 ^ (A.W - 1) := by
    have : 2 ^ 1 ≤ 2 ^ (A.W - 1) := Nat.pow_le_pow_right (by decide) (by omega)
    simpa using this
  have hlen : v.length = 2 ^ (v.bits * (h + 1)) := by rw [r.length, hcap]
  have hh2 : h + 1 ≤ v.bits * (h + 1) := Nat.le_mul_of_pos_left _ hb
  have hWlt : A.W < 2 ^ A.W := Nat.lt_two_pow_self
  have hWlt1 : A.W - 1 < 2 ^ (A.W - 1) := Nat.lt_two_pow_self
  have hp : 2 ^ (v.bits * (h + 1)) < 2 ^ (v.bits * (h + 1 + 1)) := (pow_lt_iff hb).2 (by omega)
  have hh := height_eq' (A := A) (v := { root := .branch [v.root], bits := v.bits, length := v.length + 1 }) (h := h + 1) hb
    (by simp only [hlen]; omega) (by omega) (.inr (by simp [hlen])) (by simp only [hlen]; omega)
  have hmul : v.bits * (h + 1 + 1) < 2 ^ A.W := by
    have : v.bits * (h + 1 + 1) = v.bits * (h + 1) + v.bits := Nat.mul_succ _ _
    omega
  unfold RVector.pushBackMut
  simp only [r.isRootFull, Res.ok_bind, hcap, hlen, decide_true, if_true]
  rw [A.uadd_ok (by omega), Res.ok_bind]
  rw [hlen] at hh
  unfold RVector.assoc assocCheck RVector.rootMaxCapacity
  simp only [hd, hh, Res.ok_bind, A.uadd_ok (show h + 1 + 1 < 2 ^ A.W by omega), A.umul_ok hmul]
  have : ¬ v.bits * (h + 1 + 1) < A.W := by omega
  simp [Arch.ushl, this, hd]

/-- In a release build the count of a vector of `2^W - 1` items wraps around to zero with the next item, which is stored all the
same. -/
theorem Rep.full_push_release (r : Rep A v xs h) (hm : A.mode = .release) (hc : xs.length = vecCap A v.bits) (x : T) :
    ∃ w, v.pushBackMut A x = .ok w ∧ w.length = 0 ∧ w.root.toList = xs ++ [x] := by
  have hc' : xs.length = 2 ^ A.W - 1 := by simpa only [vecCap, hm] using hc
  have hb := r.bits_pos
  have hW := r.bits_lt
  have h1 : 2 ^ A.W = 2 * 2 ^ (A.W - 1) := by rw [← Nat.pow_succ']; congr 1; omega
  have h2 : 0 < v.bits * (h + 1) := Nat.mul_pos hb (by omega)
  have h3 : 2 ^ (v.bits * (h + 1)) = 2 * 2 ^ (v.bits * (h + 1) - 1) := by rw [← Nat.pow_succ']; congr 1; omega
  have h4 := Nat.two_pow_pos (A.W - 1)
  have hfx : ¬ xs.length = 2 ^ (v.bits * (h + 1)) := by omega
  have hle := r.length_le
  unfold RVector.pushBackMut
  simp only [r.isRootFull, Res.ok_bind, hfx, decide_false, Bool.false_eq_true, if_false]
  obtain ⟨n, e1, -, e3⟩ := assoc_aux r.fits (by simp [hm]) r.ok (by rw [r.length]; exact r.length_lt)
    (by rw [r.length]; exact r.tight) (by rw [r.length]; exact hle) x (i := v.length) (by rw [r.length]; omega)
    (by rw [r.items, r.length]; exact Nat.le_refl _) (Nat.le_refl _)
  rw [if_neg (Nat.lt_irrefl _)] at e1
  rw [r.items, r.length, if_neg (Nat.lt_irrefl _)] at e3
  refine ⟨{ root := n, bits := v.bits, length := 0 }, ?_, rfl, e3⟩
  rw [e1]
  have h5 : ¬ v.length + 1 < 2 ^ A.W := by rw [r.length]; omega
  have h6 : (v.length + 1) % 2 ^ A.W = 0 := by
    rw [r.length, hc', show 2 ^ A.W - 1 + 1 = 2 ^ A.W by omega, Nat.mod_self]
  simp [Arch.uadd, h5, hm, Except.map, h6]

/-- With `bits ≥ usize::BITS` the first `push_back` panics in debug builds. -/
theorem push_bad_bits_debug (hd : A.mode = .debug) (hW : 1 < A.W) {b : Nat} (hb : A.W ≤ b) (hb2 : b < 2 ^ A.W) (x : T) :
    ∃ v : RVector T, newWithBits b = .ok v ∧ v.pushBackMut A x = .error .overflow := by
  refine ⟨{ root := .leaf [], bits := b, length := 0 }, by simp [newWithBits, assertRt, show 0 < b by omega], ?_⟩
  have h1 : 1 < 2 ^ A.W := Nat.one_lt_two_pow (by omega)
  have hlt : ¬ b < A.W := by omega
  simp [pushBackMut, isRootFull, rootMaxCapacity, height, Arch.ushl, hlt, hd, Arch.umul, Arch.uadd, h1, hb2]

end RVector
end Rpds
