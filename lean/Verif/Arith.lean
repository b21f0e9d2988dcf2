import Verif.Basic
/-
The word arithmetic of `Verif/Basic.lean` against an independent description of `usize`: Lean's bit vectors for the wrapped results, the
integers for when there is an overflow.  (Most wrapped results never arise in the theorems about the data structures, which is why they
are pinned down here.)
-/
set_option autoImplicit false
namespace Rpds
namespace Arch
variable {A : Arch}

/-- The bit vector operation `f` is what `op` computes in a release build, and in a debug build when nothing overflows; `fits a b` says
that nothing overflows, which is when a debug build does not panic. -/
def Computes (A : Arch) (op : Nat → Nat → Res Nat) (f : BitVec A.W → BitVec A.W → BitVec A.W) (fits : Nat → Nat → Prop) : Prop :=
  ∀ a b, a < 2 ^ A.W → b < 2 ^ A.W →
    (fits a b ∨ A.mode = .release → op a b = .ok (f (BitVec.ofNat A.W a) (BitVec.ofNat A.W b)).toNat) ∧
    (¬ fits a b → A.mode = .debug → op a b = .error .overflow)

theorem uadd_computes (A : Arch) : Computes A A.uadd (· + ·) fun a b => a + b < 2 ^ A.W := by
  intro a b ha hb
  have e : (BitVec.ofNat A.W a + BitVec.ofNat A.W b).toNat = (a + b) % 2 ^ A.W := by
    rw [BitVec.toNat_add, BitVec.toNat_ofNat, BitVec.toNat_ofNat, Nat.mod_eq_of_lt ha, Nat.mod_eq_of_lt hb]
  simp only [e]
  unfold uadd
  constructor
  · intro h
    by_cases hf : a + b < 2 ^ A.W
    · rw [if_pos hf, Nat.mod_eq_of_lt hf]
    · rw [if_neg hf, h.resolve_left hf]
  · intro hf hd
    rw [if_neg hf, hd]

theorem usub_computes (A : Arch) : Computes A A.usub (· - ·) fun a b => b ≤ a := by
  intro a b ha hb
  have e : (BitVec.ofNat A.W a - BitVec.ofNat A.W b).toNat = (2 ^ A.W - b + a) % 2 ^ A.W := by
    rw [BitVec.toNat_sub, BitVec.toNat_ofNat, BitVec.toNat_ofNat, Nat.mod_eq_of_lt ha, Nat.mod_eq_of_lt hb]
  simp only [e]
  unfold usub
  constructor
  · intro h
    by_cases hf : b ≤ a
    · rw [if_pos hf, show 2 ^ A.W - b + a = (a - b) + 2 ^ A.W by omega, Nat.add_mod_right, Nat.mod_eq_of_lt (by omega)]
    · rw [if_neg hf, h.resolve_left hf]
      simp only
      congr 2
      omega
  · intro hf hd
    rw [if_neg hf, hd]

theorem umul_computes (A : Arch) : Computes A A.umul (· * ·) fun a b => a * b < 2 ^ A.W := by
  intro a b ha hb
  have e : (BitVec.ofNat A.W a * BitVec.ofNat A.W b).toNat = (a * b) % 2 ^ A.W := by
    rw [BitVec.toNat_mul, BitVec.toNat_ofNat, BitVec.toNat_ofNat, Nat.mod_eq_of_lt ha, Nat.mod_eq_of_lt hb]
  simp only [e]
  unfold umul
  constructor
  · intro h
    by_cases hf : a * b < 2 ^ A.W
    · rw [if_pos hf, Nat.mod_eq_of_lt hf]
    · rw [if_neg hf, h.resolve_left hf]
  · intro hf hd
    rw [if_neg hf, hd]

/-- Shifts take the number of places modulo the number of bits when they do not panic. -/
theorem ushl_computes (A : Arch) : Computes A A.ushl (fun x s => x <<< (s.toNat % A.W)) fun _ s => s < A.W := by
  intro a s ha hs
  have e : (BitVec.ofNat A.W a <<< ((BitVec.ofNat A.W s).toNat % A.W)).toNat = a * 2 ^ (s % A.W) % 2 ^ A.W := by
    rw [BitVec.toNat_shiftLeft, BitVec.toNat_ofNat, BitVec.toNat_ofNat, Nat.mod_eq_of_lt ha, Nat.mod_eq_of_lt hs, Nat.shiftLeft_eq]
  simp only [e]
  unfold ushl
  constructor
  · intro h
    by_cases hf : s < A.W
    · rw [if_pos hf, Nat.mod_eq_of_lt hf]
    · rw [if_neg hf, h.resolve_left hf]
  · intro hf hd
    rw [if_neg hf, hd]

theorem ushr_computes (A : Arch) : Computes A A.ushr (fun x s => x >>> (s.toNat % A.W)) fun _ s => s < A.W := by
  intro a s ha hs
  have e : (BitVec.ofNat A.W a >>> ((BitVec.ofNat A.W s).toNat % A.W)).toNat = a / 2 ^ (s % A.W) := by
    rw [BitVec.toNat_ushiftRight, BitVec.toNat_ofNat, BitVec.toNat_ofNat, Nat.mod_eq_of_lt ha, Nat.mod_eq_of_lt hs, Nat.shiftRight_eq_div_pow]
  simp only [e]
  unfold ushr
  constructor
  · intro h
    by_cases hf : s < A.W
    · rw [if_pos hf, Nat.mod_eq_of_lt hf]
    · rw [if_neg hf, h.resolve_left hf]
  · intro hf hd
    rw [if_neg hf, hd]

/-- `csub`, used where a theorem shows that nothing underflows, is `usub` as long as that is so. -/
theorem csub_eq_usub (A : Arch) {a b : Nat} (h : b ≤ a) : csub a b = A.usub a b := by
  simp [csub, usub, h]

theorem csub_underflow {a b : Nat} (h : a < b) : csub a b = .error .overflow := by
  unfold csub
  rw [if_neg (by omega)]

/-- Division and remainder are those of bit vectors and panic for a divisor of zero, in every build. -/
theorem udiv_computes {W a b : Nat} (ha : a < 2 ^ W) (hb : b < 2 ^ W) :
    udiv a b = if b = 0 then .error .divZero else .ok (BitVec.ofNat W a / BitVec.ofNat W b).toNat := by
  simp only [udiv, BitVec.toNat_udiv, BitVec.toNat_ofNat, Nat.mod_eq_of_lt ha, Nat.mod_eq_of_lt hb]

theorem urem_computes {W a b : Nat} (ha : a < 2 ^ W) (hb : b < 2 ^ W) :
    urem a b = if b = 0 then .error .divZero else .ok (BitVec.ofNat W a % BitVec.ofNat W b).toNat := by
  simp only [urem, BitVec.toNat_umod, BitVec.toNat_ofNat, Nat.mod_eq_of_lt ha, Nat.mod_eq_of_lt hb]

/-- The first `leading_zeros` bits, counted from the most significant one, are zeros, and the next one is not. -/
theorem leadingZeros_spec {u : Nat} (hu : u < 2 ^ A.W) :
    A.leadingZeros u ≤ A.W ∧ (∀ i, i < A.leadingZeros u → (BitVec.ofNat A.W u).getMsbD i = false) ∧
    (A.leadingZeros u < A.W → (BitVec.ofNat A.W u).getMsbD (A.leadingZeros u) = true) := by
  unfold leadingZeros bitLen
  by_cases h0 : u = 0
  · subst h0
    refine ⟨by omega, fun i hi => ?_, fun h => ?_⟩
    · simp [BitVec.getMsbD]
    · simp at h
  · rw [if_neg h0]
    have hl : Nat.log2 u < A.W := (Nat.log2_lt h0).2 hu
    have h1 : u < 2 ^ (Nat.log2 u + 1) := (Nat.log2_lt h0).1 (Nat.lt_succ_self _)
    have h2 : 2 ^ Nat.log2 u ≤ u := Nat.log2_self_le h0
    refine ⟨by omega, fun i hi => ?_, fun h => ?_⟩
    · rw [BitVec.getMsbD, BitVec.getLsbD, BitVec.toNat_ofNat, Nat.mod_eq_of_lt hu]
      rw [Nat.testBit_lt_two_pow (Nat.lt_of_lt_of_le h1 (Nat.pow_le_pow_right (by decide) (by omega)))]
      simp
    · rw [BitVec.getMsbD, BitVec.getLsbD, BitVec.toNat_ofNat, Nat.mod_eq_of_lt hu]
      rw [show A.W - 1 - (A.W - (Nat.log2 u + 1)) = Nat.log2 u by omega]
      have : A.W - (Nat.log2 u + 1) < A.W := by omega
      simp only [this, decide_true, Bool.true_and]
      rw [Nat.testBit_eq_decide_div_mod_eq]
      have : u / 2 ^ Nat.log2 u = 1 := by
        rw [Nat.div_eq_iff (Nat.two_pow_pos _)]
        rw [Nat.pow_succ] at h1
        omega
      simp [this]

/-- `debug_assert!` panics in a debug build when its condition is false, and never in a release build. -/
theorem debugAssert_spec (b : Bool) : A.debugAssert b = if A.mode = .debug ∧ b = false then .error .debugAssert else .ok () := by
  cases hm : A.mode <;> cases b <;> simp [debugAssert, hm]

-- 0 - 1 and 2^63 * 2 wrap in a release build and panic in a debug build
example : (⟨.release, 64⟩ : Arch).usub 0 1 = .ok 18446744073709551615 ∧ (⟨.debug, 64⟩ : Arch).usub 0 1 = .error .overflow ∧
    (⟨.release, 64⟩ : Arch).umul (2 ^ 63) 2 = .ok 0 ∧ (⟨.release, 64⟩ : Arch).ushl 1 64 = .ok 1 ∧
    (⟨.release, 32⟩ : Arch).ushr (2 ^ 31) 33 = .ok (2 ^ 30) := by decide +kernel

end Arch
end Rpds
