import Verif.Vector.Shape
/-
Release builds of `Vector` with `bits ≥ usize::BITS`, which `new_with_bits` accepts: shifts use the amount modulo the word size, but
`height` divides by the real `bits` and stays zero.  Up to `2 ^ (bits % usize::BITS)` items the vector is one leaf.
-/
set_option autoImplicit false
namespace Rpds
variable {T : Type}
namespace RVector
open VNode

/-- `v` is one leaf with the items `xs`, on a machine `A` with wrapping shifts, and its `bits` is not below the word size. -/
structure Flat (A : Arch) (v : RVector T) (xs : List T) : Prop where
  mode : A.mode = .release
  word : 0 < A.W
  bits_ge : A.W ≤ v.bits
  bits_lt : v.bits < 2 ^ A.W
  root : v.root = .leaf xs
  length : v.length = xs.length
  cap : xs.length ≤ 2 ^ (v.bits % A.W)

variable {A : Arch} {v : RVector T} {xs : List T}

theorem ushl_bad (hm : A.mode = .release) (hw : 0 < A.W) {b : Nat} (hb : A.W ≤ b) : A.ushl 1 b = .ok (2 ^ (b % A.W)) := by
  have h1 : b % A.W < A.W := Nat.mod_lt _ hw
  have h2 : 2 ^ (b % A.W) < 2 ^ A.W := Nat.pow_lt_pow_right (by decide) h1
  simp [Arch.ushl, show ¬ b < A.W by omega, hm, Nat.mod_eq_of_lt h2]

theorem vecMask_bad (hm : A.mode = .release) (hw : 0 < A.W) {b : Nat} (hb : A.W ≤ b) : vecMask A b = .ok (2 ^ (b % A.W) - 1) := by
  simp [vecMask, vecDegree, ushl_bad hm hw hb, A.usub_ok (Nat.two_pow_pos (b % A.W))]

theorem vecBucket_bad (hm : A.mode = .release) (hw : 0 < A.W) {b : Nat} (hb : A.W ≤ b) (i : Nat) :
    vecBucket A b i 0 = .ok (i % 2 ^ (b % A.W)) := by
  simp [vecBucket, Arch.umul, Arch.ushr, hw, vecMask_bad hm hw hb, Nat.two_pow_pos, Nat.and_two_pow_sub_one_eq_mod]

namespace Flat

theorem length_lt (r : Flat A v xs) : xs.length < 2 ^ A.W :=
  Nat.lt_of_le_of_lt r.cap (Nat.pow_lt_pow_right (by decide) (Nat.mod_lt _ r.word))

theorem height_of (hm : A.W ≤ v.bits) (hw : 0 < A.W) (hl : v.length ≤ 2 ^ (v.bits % A.W) + 1) : v.height A = .ok 0 := by
  unfold RVector.height
  split
  · next h1 =>
    have h2 : bitLen (v.length - 1) ≤ A.W := by
      rw [bitLen_le_iff]
      have : 2 ^ (v.bits % A.W) < 2 ^ A.W := Nat.pow_lt_pow_right (by decide) (Nat.mod_lt _ hw)
      omega
    have h3 : 0 < bitLen (v.length - 1) := by
      have : ¬ bitLen (v.length - 1) ≤ 0 := by rw [bitLen_le_iff]; simp; omega
      omega
    have h5 : 1 < 2 ^ A.W := Nat.one_lt_two_pow (by omega)
    have h6 : A.W - (A.W - bitLen (v.length - 1)) = bitLen (v.length - 1) := by omega
    have h7 : v.bits ≠ 0 := by omega
    by_cases h4 : bitLen (v.length - 1) < v.bits
    · simp [A.usub_ok (show 1 ≤ v.length by omega), Arch.leadingZeros, A.usub_ok (show A.W - bitLen (v.length - 1) ≤ A.W by omega), h6,
        udiv, urem, h7, Nat.div_eq_of_lt h4, Nat.mod_eq_of_lt h4, h3, A.uadd_ok (show 0 + 1 < 2 ^ A.W by omega),
        A.usub_ok (Nat.le_refl 1)]
    · have h8 : bitLen (v.length - 1) = v.bits := by omega
      simp [A.usub_ok (show 1 ≤ v.length by omega), Arch.leadingZeros, A.usub_ok (show A.W - bitLen (v.length - 1) ≤ A.W by omega), h6,
        udiv, urem, h7, h8, Nat.div_self (show 0 < v.bits by omega), A.uadd_ok (show 1 + 0 < 2 ^ A.W by omega),
        A.usub_ok (Nat.le_refl 1), show A.W - (A.W - v.bits) = v.bits by omega, A.usub_ok (show A.W - v.bits ≤ A.W by omega)]
  · rfl

theorem height (r : Flat A v xs) : v.height A = .ok 0 :=
  height_of r.bits_ge r.word (by rw [r.length]; have := r.cap; omega)

theorem bucket (r : Flat A v xs) (i : Nat) : vecBucket A v.bits i 0 = .ok (i % 2 ^ (v.bits % A.W)) :=
  vecBucket_bad r.mode r.word r.bits_ge i

theorem bucket_lt (r : Flat A v xs) {i : Nat} (hi : i < 2 ^ (v.bits % A.W)) : vecBucket A v.bits i 0 = .ok i := by
  rw [r.bucket, Nat.mod_eq_of_lt hi]

theorem rootMax_of (hm : A.mode = .release) (hb : A.W ≤ v.bits) (hlt : v.bits < 2 ^ A.W) (hw : 0 < A.W) (hh : v.height A = .ok 0) :
    v.rootMaxCapacity A = .ok (2 ^ (v.bits % A.W)) := by
  simp [rootMaxCapacity, hh, A.uadd_ok (show 0 + 1 < 2 ^ A.W by have := Nat.one_lt_two_pow (n := A.W) (by omega); omega),
    A.umul_ok (show v.bits * 1 < 2 ^ A.W by omega), ushl_bad hm hw hb]

theorem isRootFull (r : Flat A v xs) : v.isRootFull A = .ok (decide (xs.length = 2 ^ (v.bits % A.W))) := by
  simp [RVector.isRootFull, rootMax_of r.mode r.bits_ge r.bits_lt r.word r.height, r.length, Bool.beq_eq_decide_eq]

theorem set_root (r : Flat A v xs) {ys : List T} (hl : ys.length = xs.length) : Flat A { v with root := .leaf ys } ys :=
  ⟨r.mode, r.word, r.bits_ge, r.bits_lt, rfl, by rw [hl]; exact r.length, by rw [hl]; exact r.cap⟩

theorem get (r : Flat A v xs) (i : Nat) : v.get A i = .ok xs[i]? := by
  unfold RVector.get
  rw [r.length]
  split
  · next hi => simp [hi]
  · next hi =>
    have hi : i < xs.length := by omega
    have hc := r.cap
    simp [r.height, r.root, VNode.get, r.bucket_lt (i := i) (by omega), Arch.debugAssert, r.mode, vecIndex, hi]

theorem assoc (r : Flat A v xs) {i : Nat} (hi : i ≤ xs.length) (hc : i < 2 ^ (v.bits % A.W)) (x : T) :
    v.assoc A i x = .ok ⟨.leaf (if i < xs.length then xs.set i x else xs ++ [x]), v.bits, if i < xs.length then xs.length else xs.length + 1⟩ := by
  have hlt : 2 ^ (v.bits % A.W) < 2 ^ A.W := Nat.pow_lt_pow_right (by decide) (Nat.mod_lt _ r.word)
  have hr : v.root.assoc A v.bits x i 0 = .ok (.leaf (if i < xs.length then xs.set i x else xs ++ [x])) := by
    rw [r.root, VNode.assoc]
    simp only [r.bucket_lt hc, Res.ok_bind, Arch.debugAssert, r.mode]
    by_cases h : i < xs.length
    · simp [h, show ¬ xs.length = i by omega, vecSet]
    · simp [show xs.length = i by omega]
  simp only [RVector.assoc, assocCheck, r.mode, r.height, hr, Res.ok_bind, Res.pure_eq]
  by_cases h : i < xs.length
  · simp [h, r.length, show ¬ xs.length ≤ i by omega]
  · simp [h, r.length, show xs.length ≤ i by omega, A.uadd_ok (show xs.length + 1 < 2 ^ A.W by omega)]

theorem setMut (r : Flat A v xs) (i : Nat) (x : T) :
    ∃ w, v.setMut A i x = .ok (decide (i < xs.length), w) ∧ Flat A w (xs.set i x) ∧ w.bits = v.bits := by
  unfold RVector.setMut
  rw [r.length]
  split
  · next hi => exact ⟨v, by simp; omega, by rw [List.set_eq_of_length_le hi]; exact r, rfl⟩
  · next hi =>
    have hi : i < xs.length := by omega
    have hc := r.cap
    rw [r.assoc (Nat.le_of_lt hi) (by omega) x]
    simp only [hi, if_true, Res.ok_bind, Res.pure_eq, decide_true]
    exact ⟨_, rfl, ⟨r.mode, r.word, r.bits_ge, r.bits_lt, rfl, by simp, by simpa using r.cap⟩, rfl⟩

theorem clone (r : Flat A v xs) : Flat A v.clone xs := r

theorem set (r : Flat A v xs) (i : Nat) (x : T) :
    (xs.length ≤ i ∧ v.set A i x = .ok none) ∨
      ∃ w, i < xs.length ∧ v.set A i x = .ok (some w) ∧ Flat A w (xs.set i x) ∧ w.bits = v.bits := by
  obtain ⟨w, h1, h2, h3⟩ := r.clone.setMut i x
  by_cases hi : i < xs.length
  · exact .inr ⟨w, hi, by simp [RVector.set, h1, hi], h2, h3⟩
  · exact .inl ⟨by omega, by simp [RVector.set, h1, hi]⟩

theorem pushBackMut (r : Flat A v xs) (x : T) (hc : xs.length < 2 ^ (v.bits % A.W)) :
    ∃ w, v.pushBackMut A x = .ok w ∧ Flat A w (xs ++ [x]) ∧ w.bits = v.bits := by
  unfold RVector.pushBackMut
  simp only [r.isRootFull, Res.ok_bind, show ¬ xs.length = 2 ^ (v.bits % A.W) by omega, decide_false, Bool.false_eq_true, if_false]
  rw [r.length, r.assoc (Nat.le_refl _) hc x]
  simp only [Nat.lt_irrefl, if_false]
  exact ⟨_, rfl, ⟨r.mode, r.word, r.bits_ge, r.bits_lt, rfl, by simp, by simp; omega⟩, rfl⟩

theorem extend : ∀ (ys : List T) {v : RVector T} {xs : List T} (_ : Flat A v xs) (_ : xs.length + ys.length ≤ 2 ^ (v.bits % A.W)),
    ∃ w, v.extend A ys = .ok w ∧ Flat A w (xs ++ ys) ∧ w.bits = v.bits
  | [], v, xs, r, _ => ⟨v, rfl, by simpa using r, rfl⟩
  | y :: ys, v, xs, r, h => by
    simp only [List.length_cons] at h
    obtain ⟨w, h1, h2, h3⟩ := r.pushBackMut y (by omega)
    obtain ⟨w', e1, e2, e3⟩ := extend ys h2 (by rw [h3]; simp; omega)
    exact ⟨w', by simp [RVector.extend, h1, e1], by simpa using e2, by rw [e3, h3]⟩

theorem dropLastMut (r : Flat A v xs) :
    ∃ w, v.dropLastMut A = .ok (!xs.isEmpty, w) ∧ Flat A w xs.dropLast ∧ w.bits = v.bits := by
  unfold RVector.dropLastMut
  rw [r.length]
  cases xs with
  | nil => exact ⟨v, by simp, r, rfl⟩
  | cons y ys =>
    have hc := r.cap
    simp only [List.length_cons] at hc
    rw [if_pos (by simp), r.root, VNode.dropLast]
    simp only [VNode.isEmpty, VNode.used, List.length_cons, Nat.succ_ne_zero, and_false, beq_iff_eq, if_false,
      Res.ok_bind, A.usub_ok (show 1 ≤ ys.length + 1 by omega), compressRoot, Res.pure_eq]
    refine ⟨_, rfl, ⟨r.mode, r.word, r.bits_ge, r.bits_lt, rfl, ?_, ?_⟩, rfl⟩
    · show _ = _
      simp
    · show (y :: ys).dropLast.length ≤ _
      rw [List.length_dropLast]
      show _ ≤ 2 ^ (v.bits % A.W)
      simp only [List.length_cons]; omega

theorem dropLast (r : Flat A v xs) :
    (xs = [] ∧ v.dropLast A = .ok none) ∨
      ∃ w, xs ≠ [] ∧ v.dropLast A = .ok (some w) ∧ Flat A w xs.dropLast ∧ w.bits = v.bits := by
  obtain ⟨w, h1, h2, h3⟩ := r.clone.dropLastMut
  by_cases hx : xs = []
  · subst hx; exact .inl ⟨rfl, by simp [RVector.dropLast, h1]⟩
  · exact .inr ⟨w, hx, by simp [RVector.dropLast, h1, hx], h2, h3⟩

theorem modify (r : Flat A v xs) (i : Nat) (f : T → T) :
    (xs[i]? = none ∧ v.modify A i f = .ok none) ∨
      ∃ w x, xs[i]? = some x ∧ v.modify A i f = .ok (some w) ∧ Flat A w (xs.set i (f x)) ∧ w.bits = v.bits := by
  unfold RVector.modify
  rw [r.length]
  split
  · next hi => exact .inl ⟨by simpa using hi, rfl⟩
  · next hi =>
    have hi : i < xs.length := by omega
    have hc := r.cap
    refine .inr ⟨{ v with root := .leaf (xs.set i (f xs[i])) }, xs[i], by simp [hi], ?_, r.set_root (by simp), rfl⟩
    simp [r.height, r.root, VNode.modify, r.bucket_lt (i := i) (by omega), Arch.debugAssert, r.mode, vecIndex, hi, vecSet, r.length]

theorem first (r : Flat A v xs) : v.first A = .ok xs.head? := by
  rw [RVector.first, r.get]; cases xs <;> rfl

theorem last (r : Flat A v xs) : v.last A = .ok xs.getLast? := by
  unfold RVector.last
  rw [r.length]
  cases xs with
  | nil => rfl
  | cons y ys =>
    simp only [List.length_cons, A.usub_ok (show 1 ≤ ys.length + 1 by omega), Res.ok_bind, r.get]
    rw [List.getLast?_eq_getElem?]; rfl

/-! #### iteration -/

theorem initStack (r : Flat A v xs) (bw : Bool) :
    VIter.initStack A v bw = .ok [⟨.leaf xs, if bw then (xs.length : Int) - 1 else 0⟩] := by
  have h5 : 1 < 2 ^ A.W := Nat.one_lt_two_pow (by have := r.word; omega)
  simp [VIter.initStack, r.height, A.uadd_ok (show 0 + 1 < 2 ^ A.W by omega), r.root, VElem.new, VIter.dig, VNode.used]

/-- The iterator stands at the first `i` and before the item `j` of the leaf. -/
structure At (A : Arch) (it : VIter T) (xs : List T) (i j : Nat) : Prop where
  rep : Flat A it.vector xs
  left : it.left_index = i
  right : it.right_index = j
  le : i ≤ j
  le_len : j ≤ xs.length
  fw : (it.stack_forward = none ∧ i = 0) ∨ ∃ s, it.stack_forward = some s ∧ (i < xs.length → s = [⟨.leaf xs, i⟩])
  bw : (it.stack_backward = none ∧ j = xs.length) ∨ ∃ s, it.stack_backward = some s ∧ (0 < j → s = [⟨.leaf xs, (j : Int) - 1⟩])

def Rem (A : Arch) (it : VIter T) (l : List T) : Prop := ∃ xs i j, At A it xs i j ∧ l = (xs.take j).drop i

variable {it : VIter T}

theorem next_ok {rem : List T} (h : Rem A it rem) : ∃ it', it.next A = .ok (rem.head?, it') ∧ Rem A it' rem.tail := by
  obtain ⟨xs, l, r, h, rfl⟩ := h
  have hw := h.rep.length_lt
  have hle := h.le_len
  obtain ⟨it', s, e1, e2, e3, e4⟩ : ∃ it' s, it.initIfNeeded A false = .ok it' ∧ At A it' xs l r ∧ it'.stack_forward = some s ∧
      (l < xs.length → s = [⟨.leaf xs, l⟩]) := by
    rcases h.fw with ⟨h1, rfl⟩ | ⟨s, h1, h2⟩
    · refine ⟨{ it with stack_forward := some [⟨.leaf xs, 0⟩] }, [⟨.leaf xs, 0⟩], by simp [VIter.initIfNeeded, h1, h.rep.initStack],
        ⟨h.rep, h.left, h.right, h.le, h.le_len, .inr ⟨_, rfl, fun _ => rfl⟩, h.bw⟩, rfl, fun _ => rfl⟩
    · exact ⟨it, s, by simp [VIter.initIfNeeded, h1], h, h1, h2⟩
  by_cases hlt : l < r
  · have hl : l < xs.length := by omega
    have hs := e4 hl
    subst hs
    have hne : it'.nonEmpty = true := by simp [VIter.nonEmpty, e2.left, e2.right, hlt]
    have c1 : VIter.current [⟨VNode.leaf xs, (l : Int)⟩] = .ok (some xs[l]) := by
      simp [VIter.current, VElem.currentElem, VElem.idx, vecIndex, hl, show ¬ ((l : Int) < 0) by omega]
    obtain ⟨s', c2, c3⟩ : ∃ s', VIter.advance false [⟨VNode.leaf xs, (l : Int)⟩] = .ok s' ∧
        (l + 1 < xs.length → s' = [⟨.leaf xs, ((l + 1 : Nat) : Int)⟩]) := by
      rw [VIter.advance_false_eq]
      by_cases hf : l + 1 < xs.length
      · exact ⟨_, by rw [if_neg (by simp [VNode.used]; omega), VIter.dig], fun _ => by simp⟩
      · exact ⟨[], by rw [if_pos (by simp [VNode.used]; omega), VIter.advance], fun h => absurd h hf⟩
    refine ⟨{ it' with stack_forward := some s', left_index := l + 1 }, ?_, xs, l + 1, r,
      ⟨e2.rep, rfl, e2.right, by omega, e2.le_len, .inr ⟨s', rfl, c3⟩, e2.bw⟩, by simp⟩
    simp only [VIter.next, e1, Res.ok_bind, VIter.currentForward, hne, if_true, e3, unwrap_some, c1, VIter.advanceForward, c2,
      e2.left, A.uadd_ok (show l + 1 < 2 ^ A.W by omega), Res.pure_eq]
    simp [List.head?_drop, hlt, hl]
  · have : l = r := by have := h.le; omega
    subst this
    have hne : it'.nonEmpty = false := by simp [VIter.nonEmpty, e2.left, e2.right]
    refine ⟨it', ?_, xs, l, l, e2, by simp⟩
    simp [VIter.next, e1, VIter.currentForward, hne, VIter.advanceForward]

theorem nextBack_ok {rem : List T} (h : Rem A it rem) :
    ∃ it', it.nextBack A = .ok (rem.getLast?, it') ∧ Rem A it' rem.dropLast := by
  obtain ⟨xs, l, r, h, rfl⟩ := h
  have hle := h.le_len
  obtain ⟨it', s, e1, e2, e3, e4⟩ : ∃ it' s, it.initIfNeeded A true = .ok it' ∧ At A it' xs l r ∧ it'.stack_backward = some s ∧
      (0 < r → s = [⟨.leaf xs, (r : Int) - 1⟩]) := by
    rcases h.bw with ⟨h1, rfl⟩ | ⟨s, h1, h2⟩
    · refine ⟨{ it with stack_backward := some [⟨.leaf xs, (xs.length : Int) - 1⟩] }, [⟨.leaf xs, (xs.length : Int) - 1⟩],
        by simp [VIter.initIfNeeded, h1, h.rep.initStack],
        ⟨h.rep, h.left, h.right, h.le, h.le_len, h.fw, .inr ⟨_, rfl, fun _ => rfl⟩⟩, rfl, fun _ => rfl⟩
    · exact ⟨it, s, by simp [VIter.initIfNeeded, h1], h, h1, h2⟩
  by_cases hlt : l < r
  · obtain ⟨j, rfl⟩ : ∃ j, r = j + 1 := ⟨r - 1, by omega⟩
    have hl : j < xs.length := by omega
    have hs := e4 (by omega)
    have hj : ((j + 1 : Nat) : Int) - 1 = (j : Int) := by omega
    rw [hj] at hs
    subst hs
    have hne : it'.nonEmpty = true := by simp [VIter.nonEmpty, e2.left, e2.right, hlt]
    have c1 : VIter.current [⟨VNode.leaf xs, (j : Int)⟩] = .ok (some xs[j]) := by
      simp [VIter.current, VElem.currentElem, VElem.idx, vecIndex, hl, show ¬ ((j : Int) < 0) by omega]
    obtain ⟨s', c2, c3⟩ : ∃ s', VIter.advance true [⟨VNode.leaf xs, (j : Int)⟩] = .ok s' ∧
        (0 < j → s' = [⟨.leaf xs, (j : Int) - 1⟩]) := by
      rw [VIter.advance_true_eq]
      by_cases hf : 0 < j
      · exact ⟨_, by rw [if_neg (by omega), VIter.dig], fun _ => rfl⟩
      · exact ⟨[], by rw [if_pos (by omega), VIter.advance], fun h => absurd h hf⟩
    have hds : (xs.take (j + 1)).drop l = (xs.take j).drop l ++ [xs[j]] := by
      rw [List.take_succ_eq_append_getElem hl, List.drop_append_of_le_length (by simp; omega)]
    refine ⟨{ it' with stack_backward := some s', right_index := j }, ?_, xs, l, j,
      ⟨e2.rep, e2.left, rfl, by omega, by omega, e2.fw, .inr ⟨s', rfl, c3⟩⟩, by rw [hds]; simp⟩
    simp only [VIter.nextBack, e1, Res.ok_bind, VIter.currentBackward, hne, if_true, e3, unwrap_some, c1, VIter.advanceBackward, c2,
      e2.right, A.usub_ok (show 1 ≤ j + 1 by omega), Res.pure_eq, Nat.add_sub_cancel]
    rw [hds]; simp
  · have : l = r := by have := h.le; omega
    subst this
    have hne : it'.nonEmpty = false := by simp [VIter.nonEmpty, e2.left, e2.right]
    refine ⟨it', ?_, xs, l, l, e2, by simp⟩
    simp [VIter.nextBack, e1, VIter.currentBackward, hne, VIter.advanceBackward]

theorem sizeHint_ok {rem : List T} (h : Rem A it rem) : it.sizeHint A = .ok rem.length := by
  obtain ⟨xs, l, r, h, rfl⟩ := h
  rw [VIter.sizeHint, h.left, h.right, A.usub_ok h.le]
  have := h.le_len
  simp; omega

theorem rem_new (r : Flat A v xs) : Rem A (VIter.new v) xs :=
  ⟨xs, 0, xs.length, ⟨r, rfl, r.length, by omega, by omega, .inl ⟨rfl, rfl⟩, .inl ⟨rfl, rfl⟩⟩, by simp⟩

theorem deCalls_ok {rem : List T} (h : Rem A it rem) (cs : List Spec.End) :
    deCalls (VIter.next A) (VIter.nextBack A) (VIter.sizeHint A) cs it = .ok (Spec.deRun rem cs) :=
  deCalls_eq (R := Rem A) (fun _ _ h => next_ok h) (fun _ _ h => nextBack_ok h) (fun _ _ h => sizeHint_ok h) cs it rem h

theorem drives (r : Flat A v xs) : Drives (VIter.next A) v.iter xs :=
  drives_of_rel (R := Rem A) (fun _ h => by simpa using next_ok h) (fun _ _ _ h => by simpa using next_ok h) _ _ (rem_new r)

end Flat

/-- A flat vector and the sequence it stands for, with the number of items it can take. -/
def FlatC (A : Arch) (v : RVector T) (a : Nat × List T) : Prop := Flat A v a.2 ∧ a.1 = 2 ^ (v.bits % A.W)

theorem FlatC.step {a : Nat × List T} {op : Op T} {r : Ret T} {f : Effect (Nat × List T)} (hr : FlatC A v a)
    (hs : Spec.vecStep a op = .ok (r, f)) : ∃ e, step A v op = .ok (r, e) ∧ Effect.Rel (FlatC A) e f := by
  obtain ⟨cap, xs⟩ := a
  obtain ⟨hv, hc⟩ := hr
  simp only at hv hc
  subst hc
  cases op with
  | pushBack x =>
    simp only [Spec.vecStep] at hs
    split at hs
    · next hlt =>
      cases hs
      obtain ⟨w, h1, h2, h3⟩ := hv.clone.pushBackMut x hlt
      exact ⟨.fresh w, by simp [RVector.step, RVector.pushBack, h1], .fresh ⟨h2, by rw [h3]; rfl⟩⟩
    · cases hs
  | pushBackMut x =>
    simp only [Spec.vecStep] at hs
    split at hs
    · next hlt =>
      cases hs
      obtain ⟨w, h1, h2, h3⟩ := hv.pushBackMut x hlt
      exact ⟨.update w, by simp [RVector.step, h1], .update ⟨h2, by rw [h3]⟩⟩
    · cases hs
  | set i x =>
    simp only [Spec.vecStep] at hs
    rcases hv.set i x with ⟨h1, h2⟩ | ⟨w, h1, h2, h3, h4⟩
    · rw [if_neg (by omega)] at hs; cases hs
      exact ⟨.keep, by simp [RVector.step, h2], .keep⟩
    · rw [if_pos h1] at hs; cases hs
      exact ⟨.fresh w, by simp [RVector.step, h2], .fresh ⟨h3, by rw [h4]⟩⟩
  | setMut i x =>
    simp only [Spec.vecStep] at hs; cases hs
    obtain ⟨w, h1, h2, h3⟩ := hv.setMut i x
    exact ⟨.update w, by simp [RVector.step, h1], .update ⟨h2, by rw [h3]⟩⟩
  | dropLast =>
    simp only [Spec.vecStep] at hs
    rcases hv.dropLast with ⟨h1, h2⟩ | ⟨w, h1, h2, h3, h4⟩
    · rw [if_pos h1] at hs; cases hs
      exact ⟨.keep, by simp [RVector.step, h2], .keep⟩
    · rw [if_neg h1] at hs; cases hs
      exact ⟨.fresh w, by simp [RVector.step, h2], .fresh ⟨h3, by rw [h4]⟩⟩
  | dropLastMut =>
    simp only [Spec.vecStep] at hs; cases hs
    obtain ⟨w, h1, h2, h3⟩ := hv.dropLastMut
    exact ⟨.update w, by simp [RVector.step, h1], .update ⟨h2, by rw [h3]⟩⟩
  | getMut i g =>
    simp only [Spec.vecStep] at hs
    rcases hv.modify i g with ⟨h1, h2⟩ | ⟨w, x, h1, h2, h3, h4⟩
    · rw [h1] at hs; cases hs
      exact ⟨.keep, by simp [RVector.step, h2], .keep⟩
    · rw [h1] at hs; cases hs
      exact ⟨.update w, by simp [RVector.step, h2], .update ⟨h3, by rw [h4]⟩⟩
  | indexMut i x =>
    simp only [Spec.vecStep] at hs
    rcases hv.modify i (fun _ => x) with ⟨h1, h2⟩ | ⟨w, y, h1, h2, h3, h4⟩
    · rw [if_neg (by simpa using h1)] at hs; cases hs
      exact ⟨.keep, by simp [RVector.step, RVector.indexMut, h2], .keep⟩
    · have hi := (List.getElem?_eq_some_iff.1 h1).1
      rw [if_pos hi] at hs; cases hs
      exact ⟨.update w, by simp [RVector.step, RVector.indexMut, h2], .update ⟨h3, by rw [h4]⟩⟩
  | extend ys =>
    simp only [Spec.vecStep] at hs
    split at hs
    · next hlt =>
      cases hs
      obtain ⟨w, h1, h2, h3⟩ := Flat.extend ys hv hlt
      exact ⟨.update w, by simp [RVector.step, h1], .update ⟨h2, by rw [h3]⟩⟩
    · cases hs
  | clone =>
    simp only [Spec.vecStep] at hs; cases hs
    exact ⟨.fresh v.clone, rfl, .fresh ⟨hv.clone, rfl⟩⟩
  | get i =>
    simp only [Spec.vecStep] at hs; cases hs
    exact ⟨.keep, by simp [RVector.step, hv.get], .keep⟩
  | index i =>
    simp only [Spec.vecStep] at hs
    cases hx : xs[i]? with
    | none =>
      rw [hx] at hs; cases hs
      exact ⟨.keep, by simp only [RVector.step, RVector.index, hv.get, hx, Res.ok_bind], .keep⟩
    | some x =>
      rw [hx] at hs; cases hs
      exact ⟨.keep, by simp [RVector.step, RVector.index, hv.get, hx], .keep⟩
  | first =>
    simp only [Spec.vecStep] at hs; cases hs
    exact ⟨.keep, by simp [RVector.step, hv.first], .keep⟩
  | last =>
    simp only [Spec.vecStep] at hs; cases hs
    exact ⟨.keep, by simp [RVector.step, hv.last], .keep⟩
  | len =>
    simp only [Spec.vecStep] at hs; cases hs
    exact ⟨.keep, by simp [RVector.step, RVector.len, hv.length], .keep⟩
  | isEmpty =>
    simp only [Spec.vecStep] at hs; cases hs
    exact ⟨.keep, by cases xs <;> simp [RVector.step, RVector.isEmpty, RVector.len, hv.length], .keep⟩
  | iter cs =>
    simp only [Spec.vecStep] at hs; cases hs
    have hr := Flat.rem_new hv
    refine ⟨.keep, ?_, .keep⟩
    simp only [RVector.step, RVector.iter, Flat.sizeHint_ok hr, Flat.deCalls_ok hr, Res.ok_bind, Res.pure_eq]

theorem newWithBits_flat (hm : A.mode = .release) (hw : 0 < A.W) {b : Nat} (hb : A.W ≤ b) (hb2 : b < 2 ^ A.W) :
    ∃ v : RVector T, newWithBits b = .ok v ∧ Flat A v [] ∧ v.bits = b :=
  ⟨{ root := .leaf [], bits := b, length := 0 }, by simp [newWithBits, assertRt, show 0 < b by omega],
    ⟨hm, hw, hb, hb2, rfl, rfl, by simp⟩, rfl⟩

/-- One item too many: it is written into the leaf, over another item, while the leaf gets a parent and the length grows. -/
theorem Flat.push_full (r : Flat A v xs) (hW : 1 < A.W) (hc : xs.length = 2 ^ (v.bits % A.W)) (x : T) :
    ∃ j, j < xs.length ∧ v.pushBackMut A x = .ok ⟨.branch [.leaf (xs.set j x)], v.bits, xs.length + 1⟩ := by
  have hpos : 0 < xs.length := by rw [hc]; exact Nat.two_pow_pos _
  have hlt : xs.length + 1 < 2 ^ A.W := by
    have h1 : 2 ^ (v.bits % A.W) ≤ 2 ^ (A.W - 1) := Nat.pow_le_pow_right (by decide) (by have := Nat.mod_lt v.bits r.word; omega)
    have h2 : 2 ^ A.W = 2 * 2 ^ (A.W - 1) := by rw [← Nat.pow_succ']; congr 1; omega
    have h3 : 2 ≤ 2 ^ (A.W - 1) := Nat.pow_le_pow_right (n := 2) (i := 1) (by decide) (by omega)
    omega
  have hh : RVector.height A (⟨.branch [v.root], v.bits, xs.length + 1⟩ : RVector T) = .ok 0 :=
    Flat.height_of r.bits_ge r.word (by show xs.length + 1 ≤ _; rw [hc]; exact Nat.le_refl _)
  -- the height of the leaf wraps around, and so does the bucket
  obtain ⟨j, hj, hb⟩ : ∃ j, j < xs.length ∧ vecBucket A v.bits xs.length (2 ^ A.W - 1) = .ok j := by
    have hs : ∃ s, A.umul (2 ^ A.W - 1) v.bits = .ok s := by
      unfold Arch.umul; split
      · exact ⟨_, rfl⟩
      · rw [r.mode]; exact ⟨_, rfl⟩
    obtain ⟨s, hs⟩ := hs
    have hi : ∃ i, A.ushr xs.length s = .ok i := by
      unfold Arch.ushr; split
      · exact ⟨_, rfl⟩
      · rw [r.mode]; exact ⟨_, rfl⟩
    obtain ⟨i, hi⟩ := hi
    refine ⟨i % 2 ^ (v.bits % A.W), by rw [hc]; exact Nat.mod_lt _ (Nat.two_pow_pos _), ?_⟩
    simp [vecBucket, hs, hi, vecMask_bad r.mode r.word r.bits_ge, Nat.and_two_pow_sub_one_eq_mod]
  have h0 : vecBucket A v.bits xs.length 0 = .ok 0 := by rw [r.bucket, hc, Nat.mod_self]
  have hsub : A.usub 0 1 = .ok (2 ^ A.W - 1) := by
    simp [Arch.usub, r.mode, Nat.mod_eq_of_lt (show 2 ^ A.W - 1 < 2 ^ A.W by omega)]
  refine ⟨j, hj, ?_⟩
  have hr : (VNode.branch [VNode.leaf xs]).assoc A v.bits x xs.length 0 = .ok (.branch [.leaf (xs.set j x)]) := by
    simp [VNode.assoc, VNode.assocAt, h0, hsub, hb, Arch.debugAssert, r.mode, vecSet, hj, show ¬ xs.length = j by omega]
  unfold RVector.pushBackMut
  simp only [r.isRootFull, Res.ok_bind, hc, decide_true, if_true]
  rw [← hc]
  simp only [r.length, A.uadd_ok hlt, Res.ok_bind, r.root] at hh ⊢
  simp only [RVector.assoc, assocCheck, r.mode, hh, hr, Res.ok_bind, Res.pure_eq]
  simp [show ¬ xs.length + 1 ≤ xs.length by omega]

/-- Iterating after that gives the items of the leaf and ends one item early. -/
theorem overfull_drives (hW : 0 < A.W) {b : Nat} (hb : A.W ≤ b) {ys : List T} (h1 : 0 < ys.length) (h2 : ys.length ≤ 2 ^ (b % A.W))
    (h3 : ys.length + 1 < 2 ^ A.W) : Drives (VIter.next A) (RVector.iter (⟨.branch [.leaf ys], b, ys.length + 1⟩ : RVector T)) ys := by
  have hi : VIter.initStack A (⟨.branch [.leaf ys], b, ys.length + 1⟩ : RVector T) false =
      .ok [⟨.leaf ys, 0⟩, ⟨.branch [.leaf ys], 0⟩] := by
    rw [VIter.initStack, Flat.height_of (v := ⟨.branch [.leaf ys], b, ys.length + 1⟩) hb hW (by show ys.length + 1 ≤ 2 ^ (b % A.W) + 1; omega)]
    simp [A.uadd_ok (show 0 + 1 < 2 ^ A.W by omega), VElem.new, VIter.dig, VIter.digAt]
  have key : ∀ (l : List T) (i : Nat), ys.drop i = l → i ≤ ys.length → ∀ it : VIter T, it.vector = ⟨.branch [.leaf ys], b, ys.length + 1⟩ →
      it.left_index = i → it.right_index = ys.length + 1 →
      ((it.stack_forward = none ∧ i = 0) ∨ ∃ s, it.stack_forward = some s ∧
        (i < ys.length → s = [⟨.leaf ys, i⟩, ⟨.branch [.leaf ys], 0⟩]) ∧ (i = ys.length → s = [])) →
      Drives (VIter.next A) it l := by
    intro l
    induction l with
    | nil =>
      intro i hd hle it hv hl hr hs
      have hil : i = ys.length := by have := List.drop_eq_nil_iff.1 hd; omega
      rcases hs with ⟨_, h0⟩ | ⟨s, e1, _, e2⟩
      · omega
      · rw [e2 hil] at e1
        refine .nil (s' := { it with stack_forward := some [], left_index := i + 1 }) ?_
        simp [VIter.next, VIter.initIfNeeded, e1, VIter.currentForward, VIter.nonEmpty, hl, hr, show i < ys.length + 1 by omega, VIter.current,
          VIter.advanceForward, VIter.advance, A.uadd_ok (show i + 1 < 2 ^ A.W by omega)]
    | cons y l ih =>
      intro i hd hle it hv hl hr hs
      have hlt : i < ys.length := by
        rcases Nat.lt_or_ge i ys.length with h | h
        · exact h
        · rw [List.drop_eq_nil_iff.2 h] at hd; cases hd
      have hy : ys[i]? = some y := by rw [← List.head?_drop, hd]; rfl
      have hd' : ys.drop (i + 1) = l := by rw [← List.tail_drop, hd]; rfl
      obtain ⟨it', e1, e2, e3, e4, e5⟩ : ∃ it', it.initIfNeeded A false = .ok it' ∧
          it'.stack_forward = some [⟨.leaf ys, (i : Int)⟩, ⟨.branch [.leaf ys], 0⟩] ∧ it'.left_index = i ∧ it'.right_index = ys.length + 1 ∧
          it'.vector = ⟨.branch [.leaf ys], b, ys.length + 1⟩ := by
        rcases hs with ⟨h0, rfl⟩ | ⟨s, h0, h, _⟩
        · exact ⟨{ it with stack_forward := some [⟨.leaf ys, 0⟩, ⟨.branch [.leaf ys], 0⟩] }, by simp [VIter.initIfNeeded, h0, hv, hi], rfl, hl, hr, hv⟩
        · exact ⟨it, by simp [VIter.initIfNeeded, h0], by rw [h0, h hlt], hl, hr, hv⟩
      obtain ⟨s', c1, c2, c3⟩ : ∃ s', VIter.advance false [⟨VNode.leaf ys, (i : Int)⟩, ⟨.branch [.leaf ys], 0⟩] = .ok s' ∧
          (i + 1 < ys.length → s' = [⟨.leaf ys, ((i + 1 : Nat) : Int)⟩, ⟨.branch [.leaf ys], 0⟩]) ∧ (i + 1 = ys.length → s' = []) := by
        rw [VIter.advance_false_eq]
        by_cases hf : i + 1 < ys.length
        · exact ⟨_, by rw [if_neg (by simp [VNode.used]; omega), VIter.dig], fun _ => by simp, fun h => by omega⟩
        · refine ⟨[], ?_, fun h => absurd h hf, fun _ => rfl⟩
          rw [if_pos (by simp [VNode.used]; omega)]
          rw [show (0 : Int) = ((0 : Nat) : Int) by rfl, VIter.advance_false_eq, if_pos (by simp [VNode.used]), VIter.advance]
      refine .cons (s' := { it' with stack_forward := some s', left_index := i + 1 }) ?_
        (ih (i + 1) hd' (by omega) _ e5 rfl e4 (.inr ⟨s', rfl, c2, c3⟩))
      simp [VIter.next, e1, VIter.currentForward, VIter.nonEmpty, e3, e4, show i < ys.length + 1 by omega, e2, VIter.current, VElem.currentElem,
        VElem.idx, vecIndex, hy, show ¬ ((i : Int) < 0) by omega, VIter.advanceForward, c1, A.uadd_ok (show i + 1 < 2 ^ A.W by omega)]
  exact key ys 0 rfl (by omega) _ rfl rfl rfl (.inl ⟨rfl, rfl⟩)

/-- A lookup of any item but the first panics, when there is more than one. -/
theorem overfull_get (hm : A.mode = .release) (hW : 0 < A.W) {b : Nat} (hb : A.W ≤ b) {ys : List T} (h2 : ys.length = 2 ^ (b % A.W))
    {i : Nat} (h0 : 0 < i) (hi : i < ys.length) :
    RVector.get A (⟨.branch [.leaf ys], b, ys.length + 1⟩ : RVector T) i = .error .indexOutOfBounds := by
  have hh := Flat.height_of (v := (⟨.branch [.leaf ys], b, ys.length + 1⟩ : RVector T)) hb hW (by show ys.length + 1 ≤ 2 ^ (b % A.W) + 1; omega)
  obtain ⟨j, rfl⟩ : ∃ j, i = j + 1 := ⟨i - 1, by omega⟩
  simp [RVector.get, hh, VNode.get, vecBucket_bad hm hW hb, ← h2, Nat.mod_eq_of_lt hi, VNode.getAt, show ¬ ys.length ≤ j by omega]

end RVector
end Rpds
