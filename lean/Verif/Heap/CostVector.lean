import Verif.Heap.Cost
import Verif.Heap.Vector
/-
What the operations of `Vector` cost: a constant for each level of the tree.
-/
set_option autoImplicit false
namespace Rpds
namespace Heap

section
variable {T : Type} {Ar : Arch} {x : VLabel T → Nat} {n c bits index : Nat}

namespace HNode

theorem cost_readVal {p : Addr} (h1 : 1 ≤ n) : Cost x (Spends T n c 1 0) (readVal p) n c := by
  refine Cost.bind (cost_read h1) ?_
  rintro y n' c' ⟨h2, h3⟩
  split
  · exact Cost.ret' (by omega) (by omega)
  · exact Cost.panic

theorem cost_getStep {h a : Nat} {sub : Addr → Prog (VLabel T) T} (ha : 1 ≤ a) (h1 : a + 1 ≤ n)
    (hs : ∀ p n' c', n ≤ n' + 1 → c ≤ c' → Cost x (Spends T n' c' a 0) (sub p) n' c') {p : Addr} :
    Cost x (Spends T n c (a + 1) 0) (getStep Ar bits index h sub p) n c := by
  refine Cost.bind (cost_read (by omega)) ?_
  rintro y n' c' ⟨h2, h3⟩
  refine Cost.bind cost_lift ?_
  rintro b n2 c2 ⟨h4, h5⟩
  split
  · refine Cost.bind cost_lift ?_
    rintro q n3 c3 ⟨h6, h7⟩
    refine (hs q n3 c3 (by omega) (by omega)).imp ?_
    rintro _ n4 c4 ⟨h8, h9⟩
    exact ⟨by omega, by omega⟩
  · refine Cost.bind cost_lift ?_
    rintro _ n3 c3 ⟨h6, h7⟩
    refine Cost.bind cost_lift ?_
    rintro q n4 c4 ⟨h8, h9⟩
    refine (cost_readVal (by omega)).imp ?_
    rintro _ n5 c5 ⟨h10, h11⟩
    exact ⟨by omega, by omega⟩
  · exact Cost.panic

theorem cost_get (h : Nat) {p : Addr} (h1 : h + 2 ≤ n) : Cost x (Spends T n c (h + 2) 0) (get Ar bits index h p) n c := by
  induction h generalizing p n c with
  | zero => exact cost_getStep (a := 1) (by omega) (by omega) fun _ _ _ _ _ => Cost.panic
  | succ h ih => exact cost_getStep (a := h + 2) (by omega) (by omega) fun _ n' c' h2 _ => ih (by omega)

theorem cost_assocStep {v : T} {h a : Nat} {sub : Content (VLabel T) → Prog (VLabel T) (Unit × Content (VLabel T))}
    (h1 : a + 5 ≤ n) (hs : ∀ y n' c', n ≤ n' + 4 → c ≤ c' → Cost x (Spends _ n' c' a 0) (sub y) n' c')
    {y : Content (VLabel T)} :
    Cost x (Spends _ n c (a + 5) 0) (assocStep Ar bits v index h sub y) n c := by
  refine Cost.bind cost_lift ?_
  rintro b n1 c1 ⟨h2, h3⟩
  split
  · cost_go
  · refine Cost.bind cost_lift ?_
    rintro _ n2 c2 ⟨h4, h5⟩
    split
    · refine Cost.bind (cost_modifyPtr (a := a) (b := 0) (by omega) ?_) ?_
      · intro y n3 c3 h6 h7
        refine (hs y n3 c3 (by omega) (by omega)).imp ?_
        rintro _ n4 c4 ⟨h8, h9⟩
        exact ⟨by omega, by omega⟩
      · rintro _ n3 c3 ⟨h6, h7⟩
        exact Cost.ret' (by omega) (by omega)
    · refine Cost.bind (hs _ n2 c2 (by omega) (by omega)) ?_
      rintro z n3 c3 ⟨h6, h7⟩
      refine Cost.bind (cost_new (by omega)) ?_
      rintro _ n4 c4 ⟨h8, h9⟩
      exact Cost.ret' (by omega) (by omega)
  · exact Cost.panic

theorem cost_assoc {v : T} (h : Nat) {y : Content (VLabel T)} (h1 : 5 * h + 5 ≤ n) :
    Cost x (Spends _ n c (5 * h + 5) 0) (assoc Ar bits v index h y) n c := by
  induction h generalizing y n c with
  | zero => exact cost_assocStep (a := 0) (by omega) fun _ _ _ _ _ => Cost.panic
  | succ h ih => exact cost_assocStep (a := 5 * h + 5) (by omega) fun _ n' c' h2 _ => ih (by omega)

theorem cost_dropLastStep {a : Nat} {sub : Content (VLabel T) → Prog (VLabel T) (Bool × Content (VLabel T))}
    (h1 : a + 6 ≤ n) (hs : ∀ y n' c', n ≤ n' + 4 → c ≤ c' → Cost x (Spends _ n' c' a 0) (sub y) n' c')
    {y : Content (VLabel T)} : Cost x (Spends _ n c (a + 6) 0) (dropLastStep sub y) n c := by
  unfold dropLastStep
  split
  · exact Cost.ret' (by omega) (by omega)
  · split
    · cost_go
    · refine Cost.bind (cost_modifyPtr (a := a) (b := 0) (by omega) ?_) ?_
      · intro y n3 c3 h6 h7
        refine (hs y n3 c3 (by omega) (by omega)).imp ?_
        rintro _ n4 c4 ⟨h8, h9⟩
        exact ⟨by omega, by omega⟩
      · rintro _ n3 c3 ⟨h6, h7⟩
        cost_go
    · exact Cost.panic

theorem cost_dropLast (h : Nat) {y : Content (VLabel T)} (h1 : 6 * h + 6 ≤ n) :
    Cost x (Spends _ n c (6 * h + 6) 0) (dropLast h y) n c := by
  induction h generalizing y n c with
  | zero => exact cost_dropLastStep (a := 0) (by omega) fun _ _ _ _ _ => Cost.panic
  | succ h ih => exact cost_dropLastStep (a := 6 * h + 6) (by omega) fun _ n' c' h2 _ => ih (by omega)

theorem cost_modifyVal {f : T → T} {y : Content (VLabel T)} : Cost x (Spends _ n c 0 0) (modifyVal f y) n c := by
  unfold modifyVal
  cost_go

theorem cost_modifyStep {f : T → T} {h a : Nat} {sub : Content (VLabel T) → Prog (VLabel T) (Unit × Content (VLabel T))}
    (h1 : a + 5 ≤ n) (hs : ∀ y n' c', n ≤ n' + 4 → c ≤ c' → Cost x (Spends _ n' c' a 0) (sub y) n' c')
    {y : Content (VLabel T)} :
    Cost x (Spends _ n c (a + 5) 0) (modifyStep Ar bits f index h sub y) n c := by
  refine Cost.bind cost_lift ?_
  rintro b n1 c1 ⟨h2, h3⟩
  split
  · refine Cost.bind cost_lift ?_
    rintro _ n2 c2 ⟨h4, h5⟩
    refine Cost.bind (cost_modifyPtr (a := a) (b := 0) (by omega) ?_) ?_
    · intro y n3 c3 h6 h7
      refine (hs y n3 c3 (by omega) (by omega)).imp ?_
      rintro _ n4 c4 ⟨h8, h9⟩
      exact ⟨by omega, by omega⟩
    · rintro _ n3 c3 ⟨h6, h7⟩
      exact Cost.ret' (by omega) (by omega)
  · refine Cost.bind cost_lift ?_
    rintro _ n2 c2 ⟨h4, h5⟩
    refine Cost.bind cost_lift ?_
    rintro _ n3 c3 ⟨h6, h7⟩
    refine Cost.bind (cost_modifyPtr (a := 0) (b := 0) (by omega) ?_) ?_
    · intro y n4 c4 h8 h9
      refine cost_modifyVal.imp ?_
      rintro _ n5 c5 ⟨h10, h11⟩
      exact ⟨by omega, by omega⟩
    · rintro _ n4 c4 ⟨h8, h9⟩
      exact Cost.ret' (by omega) (by omega)
  · exact Cost.panic

theorem cost_modify {f : T → T} (h : Nat) {y : Content (VLabel T)} (h1 : 5 * h + 5 ≤ n) :
    Cost x (Spends _ n c (5 * h + 5) 0) (modify Ar bits f index h y) n c := by
  induction h generalizing y n c with
  | zero => exact cost_modifyStep (a := 0) (by omega) fun _ _ _ _ _ => Cost.panic
  | succ h ih => exact cost_modifyStep (a := 5 * h + 5) (by omega) fun _ n' c' h2 _ => ih (by omega)

end HNode

namespace HVector

/-- The levels below the root of a vector with `length` items. -/
def levels (bits length : Nat) : Nat := Nat.log2 length / bits

theorem levels_mono {b l l' : Nat} (h : l ≤ l') : levels b l ≤ levels b l' := by
  refine Nat.div_le_div_right ?_
  by_cases h0 : l = 0
  · subst h0; simp
  · rw [Nat.le_log2 (by omega)]
    exact Nat.le_trans (Nat.log2_self_le h0) h

theorem uadd_le {a b r : Nat} (e : Ar.uadd a b = .ok r) : r ≤ a + b := by
  unfold Arch.uadd at e
  split at e
  · cases e; omega
  · split at e
    · cases e
    · cases e; exact Nat.mod_le _ _

theorem height_le (hW : 1 < Ar.W) {v : RVector Unit} {h : Nat} (e : v.height Ar = .ok h) : h ≤ levels v.bits (v.length - 1) := by
  unfold RVector.height at e
  split at e
  · next hl =>
    obtain ⟨u, e1, e⟩ := res_bind_ok e
    rw [Arch.usub, if_pos (by omega)] at e1
    cases e1
    obtain ⟨cc, e1, e⟩ := res_bind_ok e
    rw [Arch.usub, if_pos (by simp [Arch.leadingZeros])] at e1
    cases e1
    obtain ⟨q, e1, e⟩ := res_bind_ok e
    unfold udiv at e1
    split at e1
    · cases e1
    next hb =>
    cases e1
    obtain ⟨r, e1, e⟩ := res_bind_ok e
    rw [urem, if_neg hb] at e1
    cases e1
    obtain ⟨s, e1, e⟩ := res_bind_ok e
    generalize hc : Ar.W - Ar.leadingZeros (v.length - 1) = cc at e1
    have hu : bitLen (v.length - 1) = Nat.log2 (v.length - 1) + 1 := by rw [bitLen, if_neg (by omega)]
    unfold Arch.leadingZeros at hc
    rw [hu] at hc
    have h1 : 1 ≤ cc ∧ cc ≤ Ar.W ∧ cc ≤ Nat.log2 (v.length - 1) + 1 := by omega
    have hp : Ar.W + 1 < 2 ^ Ar.W := by
      obtain ⟨k, hk⟩ : ∃ k, Ar.W = k + 2 := ⟨Ar.W - 2, by omega⟩
      rw [hk]
      have : k < 2 ^ k := Nat.lt_two_pow_self
      rw [Nat.pow_add]
      omega
    have hbp : 0 < v.bits := by omega
    have h2 : cc / v.bits ≤ cc := Nat.div_le_self _ _
    have h3 : cc / v.bits + (if cc % v.bits > 0 then 1 else 0) = (cc - 1) / v.bits + 1 := by
      have h4 := Nat.div_add_mod cc v.bits
      have h5 := Nat.mod_lt cc hbp
      split
      · next h6 =>
        congr 1
        symm
        rw [Nat.div_eq_iff hbp]
        rw [Nat.mul_comm] at h4
        constructor <;> omega
      · next h6 =>
        have h7 : 0 < cc / v.bits := by
          rcases Nat.eq_zero_or_pos (cc / v.bits) with h8 | h8
          · rw [h8] at h4; omega
          · exact h8
        have : (cc - 1) / v.bits = cc / v.bits - 1 := by
          rw [Nat.div_eq_iff hbp, Nat.sub_mul]
          rw [Nat.mul_comm] at h4
          have h9 : v.bits ≤ cc / v.bits * v.bits := Nat.le_mul_of_pos_left _ h7
          constructor <;> omega
        omega
    have h4 : (cc - 1) / v.bits ≤ cc - 1 := Nat.div_le_self _ _
    rw [Ar.uadd_ok (by rw [h3]; omega), h3] at e1
    cases e1
    rw [Arch.usub, if_pos (Nat.le_add_left _ _)] at e
    cases e
    exact Nat.div_le_div_right (by omega)
  · cases e
    exact Nat.zero_le _

variable {v : HVector}

theorem cost_liftHeight (hW : 1 < Ar.W) : Cost x (fun h n' c' => h ≤ levels v.bits v.length ∧ n ≤ n' ∧ c ≤ c') (lift (v.shape.height Ar)) n c := by
  cases e : v.shape.height Ar with
  | error => exact Cost.panic
  | ok h => exact ⟨Nat.le_trans (height_le hW e) (levels_mono (Nat.sub_le _ _)), by omega, by omega⟩

theorem cost_get (hW : 1 < Ar.W) (h1 : levels v.bits v.length + 2 ≤ n) :
    Cost x (Spends (Option T) n c (levels v.bits v.length + 2) 0) (v.get Ar index) n c := by
  unfold get
  split
  · cost_go
  · refine Cost.bind (cost_liftHeight hW) ?_
    rintro h n' c' ⟨h2, h3, h4⟩
    refine Cost.bind (HNode.cost_get h (by omega)) ?_
    rintro _ n2 c2 ⟨h5, h6⟩
    cost_go

theorem cost_last (hW : 1 < Ar.W) (h1 : levels v.bits v.length + 2 ≤ n) :
    Cost x (Spends (Option T) n c (levels v.bits v.length + 2) 0) (v.last Ar) n c := by
  unfold last
  split
  · cost_go
  · refine Cost.bind cost_lift ?_
    rintro i n' c' ⟨h2, h3⟩
    refine (cost_get hW (by omega)).imp ?_
    rintro _ n2 c2 ⟨h5, h6⟩
    exact ⟨by omega, by omega⟩

theorem cost_clone (h1 : 1 ≤ c) : Cost x (fun r n' c' => r = v ∧ n ≤ n' ∧ c ≤ c' + 1) (v.clone : Prog (VLabel T) HVector) n c := by
  refine Cost.bind (Heap.cost_clone h1) ?_
  rintro _ n' c' ⟨h2, h3⟩
  exact ⟨rfl, by omega, by omega⟩

/-- `Vector::assoc`; the result has at most one more item. -/
theorem cost_assoc {y : T} (hW : 1 < Ar.W) (h1 : 5 * levels v.bits (v.length - 1) + 10 ≤ n) :
    Cost x (fun r n' c' => (r.bits = v.bits ∧ r.length ≤ v.length + (if index < v.length then 0 else 1)) ∧ n ≤ n' + (5 * levels v.bits (v.length - 1) + 10) ∧ c ≤ c')
      (v.assoc Ar index y) n c := by
  refine Cost.bind cost_lift ?_
  rintro _ n1 c1 ⟨h2, h3⟩
  cases e : v.shape.height Ar with
  | error => exact Cost.panic
  | ok h =>
    have hl : h ≤ levels v.bits (v.length - 1) := height_le hW e
    refine Cost.bind (prog := modifyPtr v.root (HNode.assoc Ar v.bits y index h)) (cost_modifyPtr (a := 5 * h + 5) (b := 0) (by omega) ?_) ?_
    · intro y n2 c2 h4 h5
      refine (HNode.cost_assoc h (by omega)).imp ?_
      rintro _ n3 c3 ⟨h6, h7⟩
      exact ⟨by omega, by omega⟩
    · rintro r n2 c2 ⟨h4, h5⟩
      by_cases hi : index ≥ v.length
      · rw [if_neg (by omega), if_pos hi]
        refine Cost.bind (Q := fun l n' c' => l ≤ v.length + 1 ∧ n2 ≤ n' ∧ c2 ≤ c') ?_ ?_
        · cases e : Ar.uadd v.length 1 with
          | error => exact Cost.panic
          | ok l => exact ⟨uadd_le e, by omega, by omega⟩
        · rintro l n3 c3 ⟨h6, h7, h8⟩
          exact ⟨⟨rfl, h6⟩, by omega, by omega⟩
      · rw [if_neg hi]
        exact ⟨⟨rfl, by simp only; omega⟩, by omega, by omega⟩

theorem cost_setMut {y : T} (hW : 1 < Ar.W) (h1 : 5 * levels v.bits v.length + 10 ≤ n) :
    Cost x (fun r n' c' => (r.1 = false → n ≤ n') ∧ n ≤ n' + (5 * levels v.bits v.length + 10) ∧ c ≤ c') (v.setMut Ar index y) n c := by
  have := levels_mono (b := v.bits) (Nat.sub_le v.length 1)
  unfold setMut
  split
  · exact ⟨fun _ => by omega, by omega, by omega⟩
  · refine Cost.bind (cost_assoc hW (by omega)) ?_
    rintro _ n1 c1 ⟨-, h2, h3⟩
    exact ⟨nofun, by omega, by omega⟩

theorem cost_set {y : T} (hW : 1 < Ar.W) (h1 : 5 * levels v.bits v.length + 10 ≤ n) (h2 : 1 ≤ c) :
    Cost x (Spends _ n c (5 * levels v.bits v.length + 10) 1) (v.set Ar index y) n c := by
  refine Cost.bind (cost_clone h2) ?_
  rintro _ n1 c1 ⟨rfl, h3, h4⟩
  refine Cost.bind (cost_setMut hW (by omega)) ?_
  rintro ⟨b, w⟩ n2 c2 ⟨h5, h6, h7⟩
  cases b with
  | true => exact Cost.ret' (by omega) (by omega)
  | false =>
    have := h5 rfl
    refine Cost.bind (cost_drop (by omega)) ?_
    rintro _ n3 c3 ⟨h8, h9⟩
    exact Cost.ret' (by omega) (by omega)

theorem cost_pushBackMut {y : T} (hW : 1 < Ar.W) (h1 : 5 * levels v.bits v.length + 12 ≤ n) (h2 : 1 ≤ c) :
    Cost x (fun r n' c' => (r.bits = v.bits ∧ r.length ≤ v.length + 1) ∧ n ≤ n' + (5 * levels v.bits v.length + 12) ∧ c ≤ c' + 1)
      (v.pushBackMut Ar y) n c := by
  have hm := levels_mono (b := v.bits) (Nat.sub_le v.length 1)
  refine Cost.bind cost_lift ?_
  rintro full n1 c1 ⟨h3, h4⟩
  split
  · refine Cost.bind (Heap.cost_clone (by omega)) ?_
    rintro _ n2 c2 ⟨h5, h6⟩
    refine Cost.bind (cost_new (by omega)) ?_
    rintro _ n3 c3 ⟨h7, h8⟩
    refine Cost.bind (cost_drop (by omega)) ?_
    rintro _ n4 c4 ⟨h9, h10⟩
    cases e : Ar.uadd v.length 1 with
    | error => exact Cost.panic
    | ok l =>
      have hl := uadd_le e
      have hm' : levels v.bits (l - 1) ≤ levels v.bits v.length := levels_mono (by omega)
      refine Cost.imp (prog := assoc Ar _ v.length y) (cost_assoc hW (by simp only; omega)) ?_
      rintro r n5 c5 ⟨⟨e1, e2⟩, h11, h12⟩
      simp only at e1 e2 h11
      refine ⟨⟨e1, ?_⟩, by omega, by omega⟩
      split at e2
      · omega
      · next hlt =>
        have : l ≤ v.length := by omega
        omega
  · refine Cost.imp (cost_assoc hW (by omega)) ?_
    rintro r n5 c5 ⟨⟨e1, e2⟩, h11, h12⟩
    rw [if_neg (by omega)] at e2
    exact ⟨⟨e1, e2⟩, by omega, by omega⟩

theorem cost_pushBack {y : T} (hW : 1 < Ar.W) (h1 : 5 * levels v.bits v.length + 12 ≤ n) (h2 : 2 ≤ c) :
    Cost x (Spends _ n c (5 * levels v.bits v.length + 12) 2) (v.pushBack Ar y) n c := by
  refine Cost.bind (cost_clone (by omega)) ?_
  rintro _ n1 c1 ⟨rfl, h3, h4⟩
  refine Cost.imp (cost_pushBackMut hW (by omega) (by omega)) ?_
  rintro _ n2 c2 ⟨-, h5, h6⟩
  exact ⟨by omega, by omega⟩

theorem cost_dropCompress {h : Nat} {y : Content (VLabel T)} (h1 : 6 * h + 6 ≤ n) :
    Cost x (Spends _ n c (6 * h + 6) 0) (dropCompress h y) n c := by
  refine Cost.bind (HNode.cost_dropLast h h1) ?_
  rintro ⟨b, y⟩ n1 c1 ⟨h2, h3⟩
  dsimp only
  split <;> exact Cost.ret' (by omega) (by omega)

theorem cost_dropLastMut (hW : 1 < Ar.W) (h1 : 6 * levels v.bits v.length + 12 ≤ n) :
    Cost x (fun r n' c' => (r.1 = false → n ≤ n') ∧ n ≤ n' + (6 * levels v.bits v.length + 12) ∧ c ≤ c')
      (v.dropLastMut Ar : Prog (VLabel T) _) n c := by
  unfold dropLastMut
  split
  · refine Cost.bind (cost_liftHeight hW) ?_
    rintro h n1 c1 ⟨h2, h3, h4⟩
    refine Cost.bind (cost_modifyPtr (a := 6 * h + 6) (b := 0) (by omega) ?_) ?_
    · intro y n2 c2 h4 h5
      refine (cost_dropCompress (by omega)).imp ?_
      rintro _ n3 c3 ⟨h6, h7⟩
      exact ⟨by omega, by omega⟩
    · rintro r n2 c2 ⟨h4, h5⟩
      refine Cost.bind cost_lift ?_
      rintro l n3 c3 ⟨h6, h7⟩
      split
      · refine Cost.bind (cost_drop (by omega)) ?_
        rintro _ n4 c4 ⟨h8, h9⟩
        exact ⟨nofun, by omega, by omega⟩
      · exact ⟨nofun, by omega, by omega⟩
  · exact ⟨fun _ => by omega, by omega, by omega⟩

theorem cost_dropLast (hW : 1 < Ar.W) (h1 : 6 * levels v.bits v.length + 12 ≤ n) (h2 : 1 ≤ c) :
    Cost x (Spends _ n c (6 * levels v.bits v.length + 12) 1) (v.dropLast Ar : Prog (VLabel T) _) n c := by
  refine Cost.bind (cost_clone h2) ?_
  rintro _ n1 c1 ⟨rfl, h3, h4⟩
  refine Cost.bind (cost_dropLastMut hW (by omega)) ?_
  rintro ⟨b, w⟩ n2 c2 ⟨h5, h6, h7⟩
  cases b with
  | true => exact Cost.ret' (by omega) (by omega)
  | false =>
    have := h5 rfl
    refine Cost.bind (cost_drop (by omega)) ?_
    rintro _ n3 c3 ⟨h8, h9⟩
    exact Cost.ret' (by omega) (by omega)

theorem cost_modify {f : T → T} (hW : 1 < Ar.W) (h1 : 5 * levels v.bits v.length + 10 ≤ n) :
    Cost x (Spends _ n c (5 * levels v.bits v.length + 10) 0) (v.modify Ar index f) n c := by
  unfold modify
  split
  · exact Cost.ret' (by omega) (by omega)
  · refine Cost.bind (cost_liftHeight hW) ?_
    rintro h n1 c1 ⟨h2, h3, h4⟩
    refine Cost.bind (cost_modifyPtr (a := 5 * h + 5) (b := 0) (by omega) ?_) ?_
    · intro y n2 c2 h4 h5
      refine (HNode.cost_modify h (by omega)).imp ?_
      rintro _ n3 c3 ⟨h6, h7⟩
      exact ⟨by omega, by omega⟩
    · rintro r n2 c2 ⟨h4, h5⟩
      exact Cost.ret' (by omega) (by omega)

theorem cost_extend {ys : List T} {a : Nat} (hW : 1 < Ar.W) (ha : 5 * levels v.bits (v.length + ys.length) + 12 ≤ a)
    (h1 : ys.length * a ≤ n) (h2 : ys.length ≤ c) : Cost x (Spends _ n c (ys.length * a) ys.length) (v.extend Ar ys) n c := by
  induction ys generalizing v n c with
  | nil => exact Cost.ret' (by omega) (by omega)
  | cons y ys ih =>
    simp only [List.length_cons, Nat.add_mul, Nat.one_mul] at *
    have hm : levels v.bits v.length ≤ levels v.bits (v.length + (ys.length + 1)) := levels_mono (by omega)
    refine Cost.bind (cost_pushBackMut hW (by omega) (by omega)) ?_
    rintro w n1 c1 ⟨⟨e1, e2⟩, h3, h4⟩
    have hm' : levels w.bits (w.length + ys.length) ≤ levels v.bits (v.length + (ys.length + 1)) := by
      rw [e1]; exact levels_mono (by omega)
    refine (ih (by omega) (by omega) (by omega)).imp ?_
    rintro _ n2 c2 ⟨h5, h6⟩
    exact ⟨by omega, by omega⟩

end HVector

open HVector in
/-- The limits for the operations of `Vector`: cells touched and pointers cloned on top of those in the nodes that are copied. -/
def vecCost (v : HVector) : RVector.Op T → Option (Nat × Nat)
  | .pushBack _ => some (5 * levels v.bits v.length + 12, 2)
  | .pushBackMut _ => some (5 * levels v.bits v.length + 12, 1)
  | .set _ _ => some (5 * levels v.bits v.length + 10, 1)
  | .setMut _ _ => some (5 * levels v.bits v.length + 10, 0)
  | .dropLast => some (6 * levels v.bits v.length + 12, 1)
  | .dropLastMut => some (6 * levels v.bits v.length + 12, 0)
  | .getMut _ _ => some (5 * levels v.bits v.length + 10, 0)
  | .indexMut _ _ => some (5 * levels v.bits v.length + 10, 0)
  | .extend xs => some (xs.length * (5 * levels v.bits (v.length + xs.length) + 12), xs.length)
  | .clone => some (0, 1)
  | .get _ => some (levels v.bits v.length + 2, 0)
  | .index _ => some (levels v.bits v.length + 2, 0)
  | .first => some (levels v.bits v.length + 2, 0)
  | .last => some (levels v.bits v.length + 2, 0)
  | .len => some (0, 0)
  | .isEmpty => some (0, 0)
  | .iter _ => none

theorem cost_vecHStep (hW : 1 < Ar.W) (v : HVector) (op : RVector.Op T) (l : Nat × Nat) (e : vecCost v op = some l) :
    Cost x (fun _ _ _ => True) (vecHStep Ar v op) l.1 l.2 := by
  cases op <;> simp only [vecCost, Option.some.injEq, reduceCtorEq] at e <;> subst e
  case pushBack y =>
    refine Cost.bind (HVector.cost_pushBack hW (Nat.le_refl _) (Nat.le_refl _)) ?_
    intros; trivial
  case pushBackMut y =>
    refine Cost.bind (HVector.cost_pushBackMut hW (Nat.le_refl _) (Nat.le_refl _)) ?_
    intros; trivial
  case set i y =>
    refine Cost.bind (HVector.cost_set hW (Nat.le_refl _) (Nat.le_refl _)) ?_
    intros; split <;> trivial
  case setMut i y =>
    refine Cost.bind (HVector.cost_setMut hW (Nat.le_refl _)) ?_
    intros; trivial
  case dropLast =>
    refine Cost.bind (HVector.cost_dropLast hW (Nat.le_refl _) (Nat.le_refl _)) ?_
    intros; split <;> trivial
  case dropLastMut =>
    refine Cost.bind (HVector.cost_dropLastMut hW (Nat.le_refl _)) ?_
    intros; trivial
  case getMut i f =>
    refine Cost.bind (HVector.cost_modify hW (Nat.le_refl _)) ?_
    intros; split <;> trivial
  case indexMut i f =>
    refine Cost.bind (HVector.cost_modify hW (Nat.le_refl _)) ?_
    intros; split <;> trivial
  case extend xs =>
    refine Cost.bind (HVector.cost_extend hW (Nat.le_refl _) (Nat.le_refl _) (Nat.le_refl _)) ?_
    intros; trivial
  case clone =>
    refine Cost.bind (HVector.cost_clone (Nat.le_refl _)) ?_
    intros; trivial
  case get i =>
    refine Cost.bind (HVector.cost_get hW (Nat.le_refl _)) ?_
    intros; trivial
  case index i =>
    refine Cost.bind (HVector.cost_get hW (Nat.le_refl _)) ?_
    intros; split <;> trivial
  case first =>
    refine Cost.bind (HVector.cost_get hW (Nat.le_refl _)) ?_
    intros; trivial
  case last =>
    refine Cost.bind (HVector.cost_last hW (Nat.le_refl _)) ?_
    intros; trivial
  case len => trivial
  case isEmpty => trivial

end
end Heap
end Rpds
