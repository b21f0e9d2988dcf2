import Verif.Vector.Lemmas
/-
Height arithmetic and the refinement relation between vectors and sequences.
-/
set_option autoImplicit false
namespace Rpds
variable {T : Type}

theorem bitLen_le_iff (u k : Nat) : bitLen u ≤ k ↔ u < 2 ^ k := by
  unfold bitLen
  split
  · next h => subst h; simp [Nat.two_pow_pos]
  · next h => rw [Nat.succ_le_iff, Nat.log2_lt h]

/-- The largest length a vector can have.  In debug builds the shift in `root_max_capacity` must not overflow; in release builds its
amount is taken modulo the word size, which does no harm, and any length that is a `usize` will do. -/
def vecCap (A : Arch) (b : Nat) : Nat :=
  match A.mode with
  | .debug => 2 ^ (b * ((A.W - 1) / b))
  | .release => 2 ^ A.W - 1

theorem vecCap_lt {A : Arch} {b : Nat} (h : b < A.W) : vecCap A b < 2 ^ A.W := by
  unfold vecCap
  split
  · have h1 : 2 ^ (b * ((A.W - 1) / b)) ≤ 2 ^ (A.W - 1) := Nat.pow_le_pow_right (by decide) (Nat.mul_div_le _ _)
    have h2 : 2 ^ (A.W - 1) < 2 ^ A.W := Nat.pow_lt_pow_right (by decide) (by omega)
    omega
  · have := Nat.two_pow_pos A.W; omega

/-- The debug limit holds in release builds as well. -/
theorem le_vecCap {A : Arch} {b : Nat} (h : b < A.W) : 2 ^ (b * ((A.W - 1) / b)) ≤ vecCap A b := by
  unfold vecCap
  split
  · exact Nat.le_refl _
  · have h1 : 2 ^ (b * ((A.W - 1) / b)) ≤ 2 ^ (A.W - 1) := Nat.pow_le_pow_right (by decide) (Nat.mul_div_le _ _)
    have h2 : 2 ^ (A.W - 1) < 2 ^ A.W := Nat.pow_lt_pow_right (by decide) (by omega)
    omega

theorem pow_lt_iff {b h k : Nat} (hb : 0 < b) : 2 ^ (b * h) < 2 ^ (b * k) ↔ h < k := by
  rw [Nat.pow_lt_pow_iff_right (by decide)]
  exact ⟨fun h => Nat.lt_of_mul_lt_mul_left h, fun h => Nat.mul_lt_mul_of_pos_left h hb⟩

theorem fits_of_lt_cap {A : Arch} {b h n : Nat} (hb : 0 < b) (hw : b < A.W) (h1 : h = 0 ∨ 2 ^ (b * h) < n)
    (h2 : n ≤ vecCap A b) : Fits A b h := by
  refine ⟨hb, hw, ?_⟩
  rcases h1 with rfl | h1
  · simp; omega
  · have h3 := vecCap_lt (A := A) hw
    exact (Nat.pow_lt_pow_iff_right (a := 2) (by decide)).1 (by omega)

/-- In debug builds the capacity of a tree of the height needed is a `usize`. -/
theorem debug_fits {A : Arch} (hd : A.mode = .debug) {b h n : Nat} (hb : 0 < b) (hw : b < A.W) (h1 : h = 0 ∨ 2 ^ (b * h) < n)
    (h2 : n ≤ vecCap A b) : b * (h + 1) < A.W := by
  simp only [vecCap, hd] at h2
  have hk : b * ((A.W - 1) / b) ≤ A.W - 1 := Nat.mul_div_le _ _
  rcases h1 with rfl | h1
  · simpa using hw
  · have := (pow_lt_iff hb).1 (Nat.lt_of_lt_of_le h1 h2)
    have h3 : b * (h + 1) ≤ b * ((A.W - 1) / b) := Nat.mul_le_mul_left _ this
    omega

namespace RVector

theorem height_eq' {A : Arch} {v : RVector T} {h : Nat} (hb : 0 < v.bits) (hlw : v.length ≤ 2 ^ A.W) (hhw : h + 1 < 2 ^ A.W)
    (h1 : h = 0 ∨ 2 ^ (v.bits * h) < v.length)
    (h2 : v.length ≤ 2 ^ (v.bits * (h + 1))) : v.height A = .ok h := by
  unfold height
  split
  · next hl =>
    have hc0 : bitLen (v.length - 1) ≤ A.W := (bitLen_le_iff _ _).2 (by omega)
    have hc1 : bitLen (v.length - 1) ≤ v.bits * (h + 1) := (bitLen_le_iff _ _).2 (by omega)
    have hc2 : v.bits * h < bitLen (v.length - 1) := by
      rcases h1 with rfl | h1
      · have : ¬ bitLen (v.length - 1) ≤ 0 := by rw [bitLen_le_iff]; simp; omega
        omega
      · have : ¬ bitLen (v.length - 1) ≤ v.bits * h := by rw [bitLen_le_iff]; omega
        omega
    have hlz : A.leadingZeros (v.length - 1) = A.W - bitLen (v.length - 1) := rfl
    have hsub : A.W - A.leadingZeros (v.length - 1) = bitLen (v.length - 1) := by rw [hlz]; omega
    generalize hcq : bitLen (v.length - 1) = c at *
    have hbz : v.bits ≠ 0 := by omega
    have hq : c / v.bits + (if c % v.bits > 0 then 1 else 0) = h + 1 := by
      have hdm := Nat.div_add_mod c v.bits
      have hml : c % v.bits < v.bits := Nat.mod_lt _ hb
      by_cases hr : c % v.bits > 0
      · rw [if_pos hr]
        have h3 : c / v.bits < h + 1 := by
          rw [Nat.div_lt_iff_lt_mul hb, Nat.mul_comm]
          rcases Nat.lt_or_eq_of_le hc1 with h | h
          · exact h
          · rw [h, Nat.mul_mod_right] at hr; omega
        have h4 : h ≤ c / v.bits := by
          rw [Nat.le_div_iff_mul_le hb, Nat.mul_comm]; omega
        omega
      · rw [if_neg hr]
        have hr0 : c % v.bits = 0 := by omega
        rw [hr0, Nat.add_zero] at hdm
        rw [← hdm] at hc1 hc2
        have := Nat.lt_of_mul_lt_mul_left hc2
        have := Nat.le_of_mul_le_mul_left hc1 hb
        omega
    simp only [A.usub_ok (show 1 ≤ v.length by omega), Res.ok_bind,
      A.usub_ok (show A.leadingZeros (v.length - 1) ≤ A.W by rw [hlz]; omega), udiv, urem, hbz, if_false, hsub,
      A.uadd_ok (show c / v.bits + (if c % v.bits > 0 then 1 else 0) < 2 ^ A.W by rw [hq]; omega), hq,
      A.usub_ok (show 1 ≤ h + 1 by omega), Nat.add_sub_cancel]
  · next hl =>
    rcases h1 with rfl | h1
    · rfl
    · have := Nat.two_pow_pos (v.bits * h); omega

theorem height_eq {A : Arch} {v : RVector T} {h : Nat} (f : Fits A v.bits h) (hlw : v.length ≤ 2 ^ A.W)
    (h1 : h = 0 ∨ 2 ^ (v.bits * h) < v.length) (h2 : v.length ≤ 2 ^ (v.bits * (h + 1))) : v.height A = .ok h :=
  height_eq' f.pos hlw f.height_succ_lt h1 h2

theorem rootMaxCapacity_eq {A : Arch} {v : RVector T} {h : Nat} (hh : v.height A = .ok h) (f : Fits A v.bits h)
    (hf : v.bits * (h + 1) < A.W) : v.rootMaxCapacity A = .ok (2 ^ (v.bits * (h + 1))) := by
  have h2 : A.W < 2 ^ A.W := Nat.lt_two_pow_self
  simp only [RVector.rootMaxCapacity, hh, Res.ok_bind, A.uadd_ok f.height_succ_lt,
    A.umul_ok (show v.bits * (h + 1) < 2 ^ A.W by omega), Arch.ushl_one_ok hf]

/-- `v` represents the sequence `xs` on a machine `A`. -/
structure Rep (A : Arch) (v : RVector T) (xs : List T) (h : Nat) : Prop where
  bits_pos : 0 < v.bits
  bits_lt : v.bits < A.W
  length : v.length = xs.length
  cap : xs.length ≤ vecCap A v.bits
  ok : v.root.OK v.bits h
  items : v.root.toList = xs
  tight : h = 0 ∨ 2 ^ (v.bits * h) < xs.length

variable {A : Arch} {v : RVector T} {xs : List T} {h : Nat}

theorem Rep.fits (r : Rep A v xs h) : Fits A v.bits h := fits_of_lt_cap r.bits_pos r.bits_lt r.tight r.cap

theorem Rep.length_lt (r : Rep A v xs h) : xs.length < 2 ^ A.W := Nat.lt_of_le_of_lt r.cap (vecCap_lt r.bits_lt)

theorem Rep.length_le (r : Rep A v xs h) : xs.length ≤ 2 ^ (v.bits * (h + 1)) := r.items ▸ r.ok.length_le

theorem Rep.height (r : Rep A v xs h) : v.height A = .ok h :=
  height_eq r.fits (by rw [r.length]; exact Nat.le_of_lt r.length_lt) (by rw [r.length]; exact r.tight)
    (by rw [r.length]; exact r.length_le)

theorem newWithBits_rep {b : Nat} (h0 : 0 < b) (hW : b < A.W) :
    ∃ v : RVector T, newWithBits b = .ok v ∧ Rep A v [] 0 ∧ v.bits = b := by
  refine ⟨{ root := .leaf [], bits := b, length := 0 }, ?_, ⟨h0, hW, rfl, by simp, by simp [VNode.OK], by simp, .inl rfl⟩, rfl⟩
  simp [newWithBits, h0, assertRt]

theorem Rep.mod_eq (r : Rep A v xs h) {i : Nat} (hi : i < xs.length) : i % 2 ^ (v.bits * (h + 1)) = i :=
  Nat.mod_eq_of_lt (Nat.lt_of_lt_of_le hi r.length_le)

theorem Rep.get (r : Rep A v xs h) (i : Nat) : v.get A i = .ok xs[i]? := by
  unfold RVector.get
  rw [r.length]
  split
  · next hi => simp [hi]
  · next hi =>
    have hi : i < xs.length := by omega
    obtain ⟨x, h1, h2⟩ := VNode.get_ok r.fits r.ok i (by rw [r.mod_eq hi, r.items]; exact hi)
    rw [r.mod_eq hi, r.items] at h2
    simp [r.height, h1, h2]

theorem Rep.first (r : Rep A v xs h) : v.first A = .ok xs.head? := by
  rw [RVector.first, r.get]; cases xs <;> rfl

theorem Rep.last (r : Rep A v xs h) : v.last A = .ok xs.getLast? := by
  unfold RVector.last
  rw [r.length]
  split
  · next h => have : xs = [] := by simpa using h
              subst this; rfl
  · next h =>
    have : xs.length ≠ 0 := by simpa using h
    rw [A.usub_ok (by omega), Res.ok_bind, r.get, List.getLast?_eq_getElem?]

/-- The test for a full root is exact, even when the shift in `root_max_capacity` wraps around. -/
theorem Rep.isRootFull (r : Rep A v xs h) : v.isRootFull A = .ok (decide (xs.length = 2 ^ (v.bits * (h + 1)))) := by
  have f := r.fits
  by_cases hf : v.bits * (h + 1) < A.W
  · simp [RVector.isRootFull, rootMaxCapacity_eq r.height f hf, r.length, Bool.beq_eq_decide_eq]
  · cases hm : A.mode with
    | debug => exact absurd (debug_fits hm r.bits_pos r.bits_lt r.tight r.cap) hf
    | release =>
      have h0 : h ≠ 0 := by rintro rfl; exact hf (by simpa using f.bits)
      have ht := r.tight.resolve_left h0
      have h1 : v.bits * (h + 1) = v.bits * h + v.bits := Nat.mul_succ _ _
      have h2 := f.fits
      have h3 := f.bits
      have h4 := f.pos
      have h5 : A.W < 2 ^ A.W := Nat.lt_two_pow_self
      have h6 : A.W ≤ 2 ^ (A.W - 1) := by
        have : A.W - 1 < 2 ^ (A.W - 1) := Nat.lt_two_pow_self
        omega
      have h7 : 2 * 2 ^ (A.W - 1) = 2 ^ A.W := by
        rw [← Nat.pow_succ']; congr 1; omega
      have h8 : v.bits ≤ v.bits * h := Nat.le_mul_of_pos_right _ (by omega)
      have h9 : v.bits * (h + 1) % A.W = v.bits * (h + 1) - A.W := by
        rw [Nat.mod_eq_sub_mod (by omega), Nat.mod_eq_of_lt (by omega)]
      have h10 : 2 ^ (v.bits * (h + 1) - A.W) < 2 ^ (v.bits * h) := Nat.pow_lt_pow_right (by decide) (by omega)
      have h11 : 2 ^ A.W ≤ 2 ^ (v.bits * (h + 1)) := Nat.pow_le_pow_right (by decide) (by omega)
      have h12 := r.length_lt
      have h13 : 2 ^ (v.bits * (h + 1) - A.W) < 2 ^ A.W := by omega
      have hl : ¬ xs.length = 2 ^ (v.bits * (h + 1)) := by omega
      have hl' : ¬ xs.length = 2 ^ (v.bits * (h + 1) - A.W) := by omega
      simp only [RVector.isRootFull, RVector.rootMaxCapacity, r.height, Res.ok_bind, A.uadd_ok f.height_succ_lt,
        A.umul_ok (show v.bits * (h + 1) < 2 ^ A.W by omega), Arch.ushl, if_neg hf, hm, h9, Nat.one_mul, Nat.mod_eq_of_lt h13,
        Res.pure_eq, r.length, hl, decide_false]
      simp [hl']

theorem Rep.clone (r : Rep A v xs h) : Rep A v.clone xs h := r

/-- The result of the node-level `assoc` on the whole vector; `v.length` may already count the new item. -/
theorem assoc_aux (f : Fits A v.bits h) (hd : A.mode = .debug → v.bits * (h + 1) < A.W) (ok : v.root.OK v.bits h)
    (hlw : v.length < 2 ^ A.W) (t : h = 0 ∨ 2 ^ (v.bits * h) < v.length) (hl : v.length ≤ 2 ^ (v.bits * (h + 1))) (x : T)
    {i : Nat} (hi : i < 2 ^ (v.bits * (h + 1))) (hix : i ≤ v.root.toList.length) (hiv : i ≤ v.length) :
    ∃ n, v.assoc A i x = (if i < v.length then Except.ok v.length else A.uadd v.length 1).map
        (fun l => { root := n, bits := v.bits, length := l }) ∧
      n.OK v.bits h ∧ n.toList = if i < v.root.toList.length then v.root.toList.set i x else v.root.toList ++ [x] := by
  have hh := height_eq f (Nat.le_of_lt hlw) t hl
  obtain ⟨n, e1, e2, e3⟩ := VNode.assoc_ok f x ok i (by rw [Nat.mod_eq_of_lt hi]; exact hix)
  rw [Nat.mod_eq_of_lt hi] at e3
  refine ⟨n, ?_, e2, e3⟩
  have hpre : v.assocCheck A i = .ok () := by
    unfold assocCheck
    cases hm : A.mode
    · simp [rootMaxCapacity_eq hh f (hd hm), hi]
    · rfl
  unfold RVector.assoc
  rw [hpre]
  simp only [Res.ok_bind, hh, e1]
  by_cases hlt : i < v.length
  · have : ¬ v.length ≤ i := by omega
    simp [hlt, this, Except.map]
  · have : i ≥ v.length := by omega
    simp only [this, hlt, decide_true, if_true, if_false]
    cases A.uadd v.length 1 <;> rfl

theorem Rep.assoc_lt (r : Rep A v xs h) {i : Nat} (hi : i < xs.length) (x : T) :
    ∃ w, v.assoc A i x = .ok w ∧ Rep A w (xs.set i x) h ∧ w.bits = v.bits := by
  obtain ⟨n, e1, e2, e3⟩ := assoc_aux r.fits (debug_fits · r.bits_pos r.bits_lt r.tight r.cap) r.ok
    (by rw [r.length]; exact r.length_lt) (by rw [r.length]; exact r.tight)
    (by rw [r.length]; exact r.length_le) x (i := i) (Nat.lt_of_lt_of_le hi r.length_le) (by rw [r.items]; omega)
    (by rw [r.length]; omega)
  rw [r.length, if_pos hi] at e1
  rw [r.items, if_pos hi] at e3
  exact ⟨_, e1, ⟨r.bits_pos, r.bits_lt, by simp, by simpa using r.cap, e2, e3, by simpa using r.tight⟩, rfl⟩

theorem Rep.setMut (r : Rep A v xs h) (i : Nat) (x : T) :
    ∃ w, v.setMut A i x = .ok (decide (i < xs.length), w) ∧
      Rep A w (xs.set i x) h ∧ w.bits = v.bits ∧ (xs.length ≤ i → w = v) := by
  unfold RVector.setMut
  rw [r.length]
  split
  · next hi =>
    refine ⟨v, by simp [hi], ?_, rfl, fun _ => rfl⟩
    rw [List.set_eq_of_length_le hi]; exact r
  · next hi =>
    have hi : i < xs.length := by omega
    obtain ⟨w, h1, h2, h3⟩ := r.assoc_lt hi x
    exact ⟨w, by simp [h1, hi], h2, h3, fun h => by omega⟩

theorem Rep.set (r : Rep A v xs h) (i : Nat) (x : T) :
    (xs.length ≤ i ∧ v.set A i x = .ok none) ∨
    ∃ w, i < xs.length ∧ v.set A i x = .ok (some w) ∧ Rep A w (xs.set i x) h ∧ w.bits = v.bits := by
  obtain ⟨w, h1, h2, h3, _⟩ := r.clone.setMut i x
  by_cases hi : i < xs.length
  · refine .inr ⟨w, hi, ?_, h2, h3⟩
    simp [RVector.set, h1, hi]
  · refine .inl ⟨by omega, ?_⟩
    simp [RVector.set, h1, hi]

theorem Rep.pushBackMut (r : Rep A v xs h) (x : T) (hc : xs.length < vecCap A v.bits) :
    ∃ w h', v.pushBackMut A x = .ok w ∧ Rep A w (xs ++ [x]) h' ∧ w.bits = v.bits := by
  have hlW := vecCap_lt (A := A) (b := v.bits) r.bits_lt
  unfold RVector.pushBackMut
  simp only [r.isRootFull, Res.ok_bind]
  by_cases hfx : xs.length = 2 ^ (v.bits * (h + 1))
  · have hf : v.length = 2 ^ (v.bits * (h + 1)) := by rw [r.length]; exact hfx
    have t : h + 1 = 0 ∨ 2 ^ (v.bits * (h + 1)) < xs.length + 1 := .inr (by omega)
    have f : Fits A v.bits (h + 1) := fits_of_lt_cap r.bits_pos r.bits_lt t (by omega)
    have hp : 2 ^ (v.bits * (h + 1)) < 2 ^ (v.bits * (h + 1 + 1)) := (pow_lt_iff r.bits_pos).2 (by omega)
    have hx1 : 0 < xs.length := by rw [hfx]; exact Nat.two_pow_pos _
    obtain ⟨n, e1, e2, e3⟩ := assoc_aux (A := A) (v := { root := .branch [v.root], bits := v.bits, length := v.length + 1 })
      (h := h + 1) f (debug_fits · r.bits_pos r.bits_lt t (Nat.succ_le_of_lt hc))
      ⟨by simp only [List.map_cons, List.map_nil, r.items]; exact .single hx1 (by omega), by simp [Nat.one_le_two_pow],
        by simpa using r.ok⟩ (by simp only [r.length]; omega) (by simpa [r.length] using t) (by simp only [r.length]; omega) x (i := v.length)
      (by simp only [r.length]; omega) (by simp [r.items, r.length]) (by simp)
    rw [if_pos (by simp)] at e1
    refine ⟨{ root := n, bits := v.bits, length := v.length + 1 }, h + 1, ?_, ⟨r.bits_pos, r.bits_lt, ?_, ?_, e2, ?_, ?_⟩, rfl⟩
    · rw [if_pos (by simpa using hfx), A.uadd_ok (by rw [r.length]; omega), Res.ok_bind]
      exact e1
    · simp [r.length]
    · simpa using Nat.succ_le_of_lt hc
    · rw [e3]; simp [r.items, r.length]
    · simpa using t
  · rw [if_neg (by simpa using hfx)]
    have hlt : v.length < 2 ^ (v.bits * (h + 1)) := by
      have := r.length_le; rw [r.length]; omega
    obtain ⟨n, e1, e2, e3⟩ := assoc_aux r.fits (debug_fits · r.bits_pos r.bits_lt r.tight r.cap) r.ok
      (by rw [r.length]; exact r.length_lt) (by rw [r.length]; exact r.tight)
      (by rw [r.length]; exact r.length_le) x (i := v.length) hlt (by rw [r.items, r.length]; exact Nat.le_refl _)
      (Nat.le_refl _)
    rw [if_neg (Nat.lt_irrefl _), A.uadd_ok (by rw [r.length]; omega)] at e1
    rw [r.items, r.length, if_neg (Nat.lt_irrefl _)] at e3
    refine ⟨_, h, e1, ⟨r.bits_pos, r.bits_lt, by simp [r.length], by simpa using Nat.succ_le_of_lt hc, e2, e3, ?_⟩, rfl⟩
    rcases r.tight with t | t
    · exact .inl t
    · right; simp; omega

theorem Rep.dropLastMut_nil (r : Rep A v [] h) : v.dropLastMut A = .ok (false, v) := by
  simp [RVector.dropLastMut, r.length]

theorem Rep.dropLastMut (r : Rep A v xs h) (hne : xs ≠ []) :
    ∃ w h', v.dropLastMut A = .ok (true, w) ∧ Rep A w xs.dropLast h' ∧ w.bits = v.bits := by
  have hlen : 0 < xs.length := List.length_pos_iff.2 hne
  have hcap := r.cap
  obtain ⟨n, e1, e2, e3⟩ := VNode.dropLast_ok r.ok (by rw [r.items]; exact hne)
  rw [r.items] at e2
  have hlv : v.length > 0 := by rw [r.length]; exact hlen
  have hbits := r.bits_pos
  have key : ∀ root' h', compressRoot n = some root' ∨ (compressRoot n = none ∧ root' = n) → root'.OK v.bits h' →
      root'.toList = xs.dropLast → (h' = 0 ∨ 2 ^ (v.bits * h') < xs.dropLast.length) →
      ∃ w h', v.dropLastMut A = .ok (true, w) ∧ Rep A w xs.dropLast h' ∧ w.bits = v.bits := by
    intro root' h' hc ok it t
    refine ⟨{ root := root', bits := v.bits, length := v.length - 1 }, h', ?_,
      ⟨r.bits_pos, r.bits_lt, by simp [r.length], by simp; omega, ok, it, t⟩, rfl⟩
    unfold RVector.dropLastMut
    rw [if_pos hlv, e1]
    simp only [Res.ok_bind, A.usub_ok (show 1 ≤ v.length by omega)]
    rcases hc with hc | ⟨hc, rfl⟩
    · rw [hc]; rfl
    · rw [hc]; rfl
  rcases h with _ | h
  · obtain ⟨a, ha, h1⟩ := r.ok.leaf_inv
    rw [ha] at e1
    have hane : a.length ≠ 0 := by
      have := r.items; rw [ha] at this; simp at this; subst this; omega
    have hnl : ∃ a', n = .leaf a' ∧ a'.length ≤ 2 ^ v.bits := by
      have he : VNode.isEmpty (.leaf a) = false := by simpa [VNode.isEmpty, VNode.used] using hane
      simp only [VNode.dropLast, he, Bool.false_eq_true, if_false, Except.ok.injEq, Prod.mk.injEq] at e1
      exact ⟨a.dropLast, e1.2.symm, by simp; omega⟩
    obtain ⟨a', rfl, hl⟩ := hnl
    exact key (.leaf a') 0 (.inr ⟨by simp [compressRoot], rfl⟩) (by simpa [VNode.OK] using hl) e2 (.inl rfl)
  · have t : 2 ^ (v.bits * (h + 1)) < xs.length := r.tight.resolve_left (by omega)
    have hpos := Nat.two_pow_pos (v.bits * (h + 1))
    have hnne : n.toList ≠ [] := by
      rw [e2]; intro hh
      have := congrArg List.length hh
      simp at this; omega
    obtain ⟨a, rfl, c1, c2, c3⟩ := (e3 hnne).branch_inv
    by_cases hs : a.length = 1
    · obtain ⟨c, rfl⟩ : ∃ c, a = [c] := by
        match a, hs with
        | [c], _ => exact ⟨c, rfl⟩
      refine key c h (.inl (by simp [compressRoot, VNode.isSingleton, VNode.used])) (c3 c (by simp)) (by simpa using e2) ?_
      right
      have : 2 ^ (v.bits * h) < 2 ^ (v.bits * (h + 1)) := (pow_lt_iff r.bits_pos).2 (by omega)
      simp; omega
    · refine key (.branch a) (h + 1) (.inr ⟨by simp [compressRoot, VNode.isSingleton, VNode.used, hs], rfl⟩)
        (e3 hnne) e2 ?_
      right
      have hg := c1.flatten_gt
      rw [VNode.toList_branch] at e2
      rw [e2, List.length_map] at hg
      have ha0 : a.length ≠ 0 := by
        intro h0
        have : a = [] := by simpa using h0
        subst this; exact c1.ne_nil rfl
      have : 2 ^ (v.bits * (h + 1)) * 2 ≤ 2 ^ (v.bits * (h + 1)) * a.length := Nat.mul_le_mul_left _ (by omega)
      omega

theorem Rep.dropLast (r : Rep A v xs h) :
    (xs = [] ∧ v.dropLast A = .ok none) ∨
    ∃ w h', xs ≠ [] ∧ v.dropLast A = .ok (some w) ∧ Rep A w xs.dropLast h' ∧ w.bits = v.bits := by
  by_cases hx : xs = []
  · subst hx
    exact .inl ⟨rfl, by simp [RVector.dropLast, r.clone.dropLastMut_nil]⟩
  · obtain ⟨w, h', h1, h2, h3⟩ := r.clone.dropLastMut hx
    exact .inr ⟨w, h', hx, by simp [RVector.dropLast, h1], h2, h3⟩

theorem Rep.modify (r : Rep A v xs h) (i : Nat) (g : T → T) :
    (xs[i]? = none ∧ v.modify A i g = .ok none) ∨
    ∃ w x, xs[i]? = some x ∧ v.modify A i g = .ok (some w) ∧ Rep A w (xs.set i (g x)) h ∧ w.bits = v.bits := by
  unfold RVector.modify
  rw [r.length]
  split
  · next hi => exact .inl ⟨by simp [hi], rfl⟩
  · next hi =>
    have hi : i < xs.length := by omega
    have hx : v.root.toList[i % 2 ^ (v.bits * (h + 1))]? = some xs[i] := by
      rw [r.mod_eq hi, r.items]; simp [hi]
    obtain ⟨n, e1, e2, e3⟩ := VNode.modify_ok r.fits g r.ok i hx
    rw [r.mod_eq hi, r.items] at e3
    refine .inr ⟨{ v with root := n }, xs[i], by simp [hi], by simp [r.height, e1, r.length], ?_, rfl⟩
    exact ⟨r.bits_pos, r.bits_lt, by simp [r.length], by simpa using r.cap, e2, e3, by simpa using r.tight⟩

theorem Rep.extend (r : Rep A v xs h) (ys : List T) (hc : xs.length + ys.length ≤ vecCap A v.bits) :
    ∃ w h', v.extend A ys = .ok w ∧ Rep A w (xs ++ ys) h' ∧ w.bits = v.bits := by
  induction ys generalizing v xs h with
  | nil => exact ⟨v, h, rfl, by simpa using r, rfl⟩
  | cons y ys ih =>
    simp at hc
    obtain ⟨w, h', h1, h2, h3⟩ := r.pushBackMut y (by omega)
    obtain ⟨w', h'', h4, h5, h6⟩ := ih h2 (by rw [h3]; simp; omega)
    exact ⟨w', h'', by simp [RVector.extend, h1, h4], by simpa using h5, by rw [h6, h3]⟩

theorem Rep.len (r : Rep A v xs h) : v.len = xs.length := r.length

theorem Rep.isEmpty (r : Rep A v xs h) : v.isEmpty = xs.isEmpty := by
  rw [RVector.isEmpty, r.len]; cases xs <;> rfl

end RVector
end Rpds
