import Verif.Vector.Rep
/-
The iterator stacks of `Vector` denote positions in the sequence.
-/
set_option autoImplicit false
namespace Rpds
variable {T : Type}

namespace VIter
open VNode

/-- All stack entries below the top are valid positions in nonempty left-complete branches. -/
def Below (b : Nat) (rest : List (VElem T)) : Prop :=
  ∀ e ∈ rest, ∃ (a : List (VNode T)) (h i : Nat), e.node = .branch a ∧ OK b (h + 1) (.branch a) ∧ e.index = (i : Int) ∧ i < a.length

/-- Items to the right of the positions of the lower stack entries. -/
def laterF : List (VElem T) → List T
  | [] => []
  | ⟨.branch a, i⟩ :: rest => ((a.drop (i.toNat + 1)).map toList).flatten ++ laterF rest
  | ⟨.leaf _, _⟩ :: rest => laterF rest

/-- Items to the left of the positions of the lower stack entries, last first. -/
def laterB : List (VElem T) → List T
  | [] => []
  | ⟨.branch a, i⟩ :: rest => ((a.take i.toNat).map toList).flatten.reverse ++ laterB rest
  | ⟨.leaf _, _⟩ :: rest => laterB rest

/-- A forward stack about to produce the items `l`. -/
inductive FW (b : Nat) : List (VElem T) → List T → Prop where
  | nil : FW b [] []
  | top {a : List T} {i : Nat} {rest} : i < a.length → Below b rest → FW b (⟨.leaf a, (i : Int)⟩ :: rest) (a.drop i ++ laterF rest)

/-- A backward stack about to produce the items `l`. -/
inductive BW (b : Nat) : List (VElem T) → List T → Prop where
  | nil : BW b [] []
  | top {a : List T} {i : Nat} {rest} : i < a.length → Below b rest →
      BW b (⟨.leaf a, (i : Int)⟩ :: rest) ((a.take (i + 1)).reverse ++ laterB rest)

theorem digAt_eq {bw : Bool} {i : Nat} {cs : List (VNode T)} {c : VNode T} (hc : cs[i]? = some c) (rest : List (VElem T)) :
    digAt bw cs i rest = dig bw c (VElem.new c bw).index rest := by
  induction cs generalizing i with
  | nil => simp at hc
  | cons d cs ih =>
    cases i with
    | zero => simp at hc; subst hc; simp [digAt]
    | succ i => simp [digAt, ih (by simpa using hc)]

theorem child_ne {b h : Nat} {a : List (VNode T)} (hn : OK b (h + 1) (.branch a)) {c : VNode T} (hc : c ∈ a) :
    OK b h c ∧ c.toList ≠ [] := by
  obtain ⟨h1, _, h3⟩ := hn
  refine ⟨h3 c hc, ?_⟩
  have := h1.pos_length c.toList (List.mem_map_of_mem hc)
  intro h; simp [h] at this

theorem below_cons {b h i : Nat} {a : List (VNode T)} (hn : OK b (h + 1) (.branch a)) (hi : i < a.length)
    {rest : List (VElem T)} (hr : Below b rest) : Below b (⟨.branch a, (i : Int)⟩ :: rest) := by
  intro e he
  simp at he
  rcases he with rfl | he
  · exact ⟨a, h, i, rfl, hn, rfl, hi⟩
  · exact hr e he

theorem dig_fw {b h : Nat} {n : VNode T} (hn : OK b h n) (hne : n.toList ≠ []) {rest : List (VElem T)} (hr : Below b rest) :
    ∃ s, dig false n 0 rest = .ok s ∧ FW b s (n.toList ++ laterF rest) := by
  induction h generalizing n rest with
  | zero =>
    obtain ⟨a, rfl, _⟩ := hn.leaf_inv
    refine ⟨_, by rw [dig], ?_⟩
    have : 0 < a.length := List.length_pos_iff.2 (by simpa using hne)
    simpa using FW.top (b := b) (i := 0) this hr
  | succ h ih =>
    obtain ⟨a, rfl, h1, h2, h3⟩ := hn.branch_inv
    cases a with
    | nil => exact absurd rfl h1.ne_nil
    | cons c cs =>
      obtain ⟨c1, c2⟩ := child_ne hn (c := c) (by simp)
      obtain ⟨s, e1, e2⟩ := ih c1 c2 (below_cons hn (i := 0) (by simp) hr)
      refine ⟨s, ?_, ?_⟩
      · simp only [dig, Int.lt_irrefl, if_false, Int.toNat_zero]
        rw [digAt_eq (c := c) (by simp)]
        simpa [VElem.new] using e1
      · simpa [laterF, List.append_assoc] using e2

theorem used_sub_one {n : VNode T} (h : 0 < n.used) : (VElem.new n true).index = ((n.used - 1 : Nat) : Int) := by
  simp only [VElem.new, if_true]; omega

theorem dig_bw {b h : Nat} {n : VNode T} (hn : OK b h n) (hne : n.toList ≠ []) {rest : List (VElem T)} (hr : Below b rest) :
    ∃ s, dig true n (VElem.new n true).index rest = .ok s ∧ BW b s (n.toList.reverse ++ laterB rest) := by
  induction h generalizing n rest with
  | zero =>
    obtain ⟨a, rfl, _⟩ := hn.leaf_inv
    refine ⟨_, by rw [dig], ?_⟩
    have : 0 < a.length := List.length_pos_iff.2 (by simpa using hne)
    rw [used_sub_one (by simpa [used] using this)]
    have hb := BW.top (b := b) (a := a) (i := a.length - 1) (by omega) hr
    rw [show a.length - 1 + 1 = a.length by omega, List.take_length] at hb
    simpa [used] using hb
  | succ h ih =>
    obtain ⟨a, rfl, h1, h2, h3⟩ := hn.branch_inv
    have hane : a ≠ [] := by
      intro h; subst h; exact h1.ne_nil rfl
    obtain ⟨ds, c, rfl⟩ : ∃ ds c, a = ds ++ [c] := ⟨a.dropLast, a.getLast hane, (List.dropLast_concat_getLast hane).symm⟩
    obtain ⟨c1, c2⟩ := child_ne hn (c := c) (by simp)
    obtain ⟨s, e1, e2⟩ := ih c1 c2 (below_cons hn (i := ds.length) (by simp) hr)
    refine ⟨s, ?_, ?_⟩
    · rw [used_sub_one (by simp [used])]
      have : (used (.branch (ds ++ [c])) - 1) = ds.length := by simp [used]
      rw [this, dig, if_neg (by omega), digAt_eq (c := c) (by simp)]
      exact e1
    · simpa [laterB, List.append_assoc] using e2

theorem advance_false_eq (n : VNode T) (i : Int) (rest : List (VElem T)) :
    advance false (⟨n, i⟩ :: rest) = if i + 1 ≥ n.used then advance false rest else dig false n (i + 1) rest := by
  rw [advance]
  by_cases h : i + 1 ≥ n.used <;> simp [VElem.advance, h]

theorem advance_true_eq (n : VNode T) (i : Int) (rest : List (VElem T)) :
    advance true (⟨n, i⟩ :: rest) = if i - 1 < 0 then advance true rest else dig true n (i - 1) rest := by
  rw [advance]
  by_cases h : i - 1 < 0 <;> simp [VElem.advance, h]

theorem current_leaf {a : List T} {i : Nat} (hi : i < a.length) (rest : List (VElem T)) :
    current (⟨.leaf a, (i : Int)⟩ :: rest) = .ok (some a[i]) := by
  have h0 : ¬ ((i : Int) < 0) := by omega
  simp [current, VElem.currentElem, VElem.idx, vecIndex, hi, h0]

theorem advance_below_fw {b : Nat} {rest : List (VElem T)} (hr : Below b rest) :
    ∃ s, advance false rest = .ok s ∧ FW b s (laterF rest) := by
  induction rest with
  | nil => exact ⟨[], rfl, .nil⟩
  | cons e rest ih =>
    obtain ⟨a, h, i, e1, e2, e3, e4⟩ := hr e (by simp)
    obtain ⟨en, ei⟩ := e
    simp only at e1 e3
    subst e1 e3
    have hr' : Below b rest := fun e he => hr e (by simp [he])
    rw [advance_false_eq]
    by_cases hf : (i : Int) + 1 ≥ a.length
    · obtain ⟨s, h1, h2⟩ := ih hr'
      refine ⟨s, by rw [if_pos (by simpa [used] using hf), h1], ?_⟩
      have : a.drop (i + 1) = [] := List.drop_eq_nil_of_le (by omega)
      simpa [laterF, this] using h2
    · have hi : i + 1 < a.length := by omega
      have hc := List.getElem_mem hi
      obtain ⟨c1, c2⟩ := child_ne e2 hc
      obtain ⟨s, h1, h2⟩ := dig_fw c1 c2 (below_cons e2 hi hr')
      refine ⟨s, ?_, ?_⟩
      · rw [if_neg (by simpa [used] using hf)]
        rw [dig, if_neg (by omega), show ((i : Int) + 1).toNat = i + 1 by omega, digAt_eq (c := a[i + 1]) (by simp [hi])]
        simpa [VElem.new] using h1
      · rw [laterF]
        simp only [Int.toNat_natCast]
        rw [List.drop_eq_getElem_cons hi, List.map_cons, List.flatten_cons]
        simpa [laterF, List.append_assoc] using h2

theorem advance_fw {b : Nat} {s : List (VElem T)} {x : T} {l : List T} (h : FW b s (x :: l)) :
    current s = .ok (some x) ∧ ∃ s', advance false s = .ok s' ∧ FW b s' l := by
  generalize hl : x :: l = m at h
  cases h with
  | nil => simp at hl
  | @top a i rest hi hr =>
    rw [List.drop_eq_getElem_cons hi, List.cons_append] at hl
    injection hl with hx hl
    refine ⟨by rw [current_leaf hi, hx], ?_⟩
    rw [advance_false_eq]
    by_cases hf : (i : Int) + 1 ≥ a.length
    · obtain ⟨s, h1, h2⟩ := advance_below_fw hr
      refine ⟨s, by rw [if_pos (by simpa [used] using hf), h1], ?_⟩
      have : a.drop (i + 1) = [] := List.drop_eq_nil_of_le (by omega)
      rw [hl, this]; exact h2
    · rw [if_neg (by simpa [used] using hf)]
      refine ⟨_, by rw [dig], ?_⟩
      rw [hl]
      exact FW.top (i := i + 1) (by omega) hr

theorem advance_below_bw {b : Nat} {rest : List (VElem T)} (hr : Below b rest) :
    ∃ s, advance true rest = .ok s ∧ BW b s (laterB rest) := by
  induction rest with
  | nil => exact ⟨[], rfl, .nil⟩
  | cons e rest ih =>
    obtain ⟨a, h, i, e1, e2, e3, e4⟩ := hr e (by simp)
    obtain ⟨en, ei⟩ := e
    simp only at e1 e3
    subst e1 e3
    have hr' : Below b rest := fun e he => hr e (by simp [he])
    rw [advance_true_eq]
    by_cases hf : (i : Int) - 1 < 0
    · obtain ⟨s, h1, h2⟩ := ih hr'
      refine ⟨s, by rw [if_pos hf, h1], ?_⟩
      have : i = 0 := by omega
      subst this
      simpa [laterB] using h2
    · obtain ⟨j, rfl⟩ : ∃ j, i = j + 1 := ⟨i - 1, by omega⟩
      have hi : j < a.length := by omega
      have hc := List.getElem_mem hi
      obtain ⟨c1, c2⟩ := child_ne e2 hc
      obtain ⟨s, h1, h2⟩ := dig_bw c1 c2 (below_cons e2 hi hr')
      refine ⟨s, ?_, ?_⟩
      · rw [if_neg hf]
        rw [dig, if_neg (by omega), show (((j + 1 : Nat) : Int) - 1) = j by omega, Int.toNat_natCast,
          digAt_eq (c := a[j]) (by simp [hi])]
        exact h1
      · rw [laterB]
        simp only [Int.toNat_natCast]
        rw [List.take_succ_eq_append_getElem hi]
        rw [List.map_append, List.flatten_append, List.reverse_append]
        simpa [laterB, List.append_assoc] using h2

theorem advance_bw {b : Nat} {s : List (VElem T)} {x : T} {l : List T} (h : BW b s (x :: l)) :
    current s = .ok (some x) ∧ ∃ s', advance true s = .ok s' ∧ BW b s' l := by
  generalize hl : x :: l = m at h
  cases h with
  | nil => simp at hl
  | @top a i rest hi hr =>
    rw [List.take_succ_eq_append_getElem hi, List.reverse_append, List.reverse_singleton, List.singleton_append,
      List.cons_append] at hl
    injection hl with hx hl
    refine ⟨by rw [current_leaf hi, hx], ?_⟩
    rw [advance_true_eq]
    by_cases hf : (i : Int) - 1 < 0
    · obtain ⟨s, h1, h2⟩ := advance_below_bw hr
      refine ⟨s, by rw [if_pos hf, h1], ?_⟩
      have : i = 0 := by omega
      subst this
      rw [hl]; simpa using h2
    · rw [if_neg hf]
      obtain ⟨j, rfl⟩ : ∃ j, i = j + 1 := ⟨i - 1, by omega⟩
      refine ⟨_, by rw [dig], ?_⟩
      rw [hl, show (((j + 1 : Nat) : Int) - 1) = (j : Int) by omega]
      exact BW.top (i := j) (by omega) hr

/-- The iterator has produced the first `l` items of `xs` at the front and all from `r` on at the back. -/
structure At (A : Arch) (it : VIter T) (xs : List T) (l r : Nat) : Prop where
  rep : ∃ h, RVector.Rep A it.vector xs h
  left : it.left_index = l
  right : it.right_index = r
  le : l ≤ r
  le_len : r ≤ xs.length
  fw : (it.stack_forward = none ∧ l = 0) ∨ ∃ s, it.stack_forward = some s ∧ (xs ≠ [] → FW it.vector.bits s (xs.drop l))
  bw : (it.stack_backward = none ∧ r = xs.length) ∨
    ∃ s, it.stack_backward = some s ∧ (xs ≠ [] → BW it.vector.bits s (xs.take r).reverse)

/-- Relation between iterator states and remaining items. -/
def Rem (A : Arch) (it : VIter T) (l : List T) : Prop :=
  ∃ xs i j, At A it xs i j ∧ l = (xs.take j).drop i

theorem at_new {A : Arch} {v : RVector T} {xs : List T} {h : Nat} (r : RVector.Rep A v xs h) :
    At A (VIter.new v) xs 0 xs.length :=
  ⟨⟨h, r⟩, rfl, r.len, by omega, by omega, .inl ⟨rfl, rfl⟩, .inl ⟨rfl, rfl⟩⟩

variable {A : Arch} {it : VIter T} {xs : List T} {l r : Nat}

theorem initStack_ok {v : RVector T} {h : Nat} (hv : RVector.Rep A v xs h) (bw : Bool) :
    ∃ s, initStack A v bw = .ok s ∧ (xs ≠ [] → if bw then BW v.bits s xs.reverse else FW v.bits s xs) := by
  have f := hv.fits
  have hbl : Below v.bits ([] : List (VElem T)) := by intro e he; simp at he
  simp only [initStack, hv.height, Res.ok_bind, A.uadd_ok f.height_succ_lt]
  by_cases hx : xs = []
  · have h0 : h = 0 := by
      rcases hv.tight with h | h
      · exact h
      · subst hx; simp at h
    have hok := hv.ok
    rw [h0] at hok
    obtain ⟨a, ha, _⟩ := hok.leaf_inv
    exact ⟨_, by rw [ha]; show dig bw (.leaf a) _ [] = _; rw [dig], fun h => absurd hx h⟩
  · have hne : v.root.toList ≠ [] := by rw [hv.items]; exact hx
    cases bw
    · obtain ⟨s, e1, e2⟩ := dig_fw hv.ok hne hbl
      exact ⟨s, by simpa [VElem.new] using e1, fun _ => by simpa [laterF, hv.items] using e2⟩
    · obtain ⟨s, e1, e2⟩ := dig_bw hv.ok hne hbl
      exact ⟨s, by simpa [VElem.new] using e1, fun _ => by simpa [laterB, hv.items] using e2⟩

theorem initForward (h : At A it xs l r) : ∃ it' s, it.initIfNeeded A false = .ok it' ∧ At A it' xs l r ∧
    it'.stack_forward = some s ∧ (xs ≠ [] → FW it'.vector.bits s (xs.drop l)) := by
  rcases h.fw with ⟨h1, h2⟩ | ⟨s, h1, h2⟩
  · obtain ⟨hh, hv⟩ := h.rep
    obtain ⟨s, e1, e2⟩ := initStack_ok hv false
    subst h2
    refine ⟨{ it with stack_forward := some s }, s, by simp [initIfNeeded, h1, e1], ?_, rfl, by simpa using e2⟩
    exact ⟨h.rep, h.left, h.right, h.le, h.le_len, .inr ⟨s, rfl, by simpa using e2⟩, h.bw⟩
  · exact ⟨it, s, by simp [initIfNeeded, h1], h, h1, h2⟩

theorem initBackward (h : At A it xs l r) : ∃ it' s, it.initIfNeeded A true = .ok it' ∧ At A it' xs l r ∧
    it'.stack_backward = some s ∧ (xs ≠ [] → BW it'.vector.bits s (xs.take r).reverse) := by
  rcases h.bw with ⟨h1, h2⟩ | ⟨s, h1, h2⟩
  · obtain ⟨hh, hv⟩ := h.rep
    obtain ⟨s, e1, e2⟩ := initStack_ok hv true
    subst h2
    refine ⟨{ it with stack_backward := some s }, s, by simp [initIfNeeded, h1, e1], ?_, rfl, by simpa using e2⟩
    exact ⟨h.rep, h.left, h.right, h.le, h.le_len, h.fw, .inr ⟨s, rfl, by simpa using e2⟩⟩
  · exact ⟨it, s, by simp [initIfNeeded, h1], h, h1, h2⟩

theorem lt_word (h : At A it xs l r) : xs.length < 2 ^ A.W := by
  obtain ⟨_, hv⟩ := h.rep
  exact hv.length_lt

theorem next_ok {rem : List T} (h : Rem A it rem) : ∃ it', it.next A = .ok (rem.head?, it') ∧ Rem A it' rem.tail := by
  obtain ⟨xs, l, r, h, rfl⟩ := h
  obtain ⟨it', s, e1, e2, e3, e4⟩ := initForward h
  have hw := lt_word h
  have hle := h.le_len
  by_cases hlt : l < r
  · have hl : l < xs.length := by omega
    have hx : xs ≠ [] := by intro h; simp [h] at hl
    have e4 := e4 hx
    rw [List.drop_eq_getElem_cons hl] at e4
    obtain ⟨c1, s', c2, c3⟩ := advance_fw e4
    have hne : it'.nonEmpty = true := by simp [nonEmpty, e2.left, e2.right, hlt]
    refine ⟨{ it' with stack_forward := some s', left_index := l + 1 }, ?_, xs, l + 1, r, ?_, by simp⟩
    · simp only [next, e1, Res.ok_bind, currentForward, hne, if_true, e3, unwrap_some, c1, advanceForward, c2,
        e2.left, A.uadd_ok (show l + 1 < 2 ^ A.W by omega), Res.pure_eq]
      simp [List.head?_drop, hlt, hl]
    · exact ⟨e2.rep, rfl, e2.right, by omega, e2.le_len, .inr ⟨s', rfl, fun _ => c3⟩, e2.bw⟩
  · have : l = r := by have := h.le; omega
    subst this
    have hne : it'.nonEmpty = false := by simp [nonEmpty, e2.left, e2.right]
    refine ⟨it', ?_, xs, l, l, e2, by simp⟩
    simp [next, e1, currentForward, hne, advanceForward]

theorem nextBack_ok {rem : List T} (h : Rem A it rem) :
    ∃ it', it.nextBack A = .ok (rem.getLast?, it') ∧ Rem A it' rem.dropLast := by
  obtain ⟨xs, l, r, h, rfl⟩ := h
  obtain ⟨it', s, e1, e2, e3, e4⟩ := initBackward h
  have hle := h.le_len
  by_cases hlt : l < r
  · obtain ⟨j, rfl⟩ : ∃ j, r = j + 1 := ⟨r - 1, by omega⟩
    have hl : j < xs.length := by omega
    have hx : xs ≠ [] := by intro h; simp [h] at hl
    have e4 := e4 hx
    rw [List.take_succ_eq_append_getElem hl, List.reverse_append, List.reverse_singleton, List.singleton_append] at e4
    obtain ⟨c1, s', c2, c3⟩ := advance_bw e4
    have hne : it'.nonEmpty = true := by simp [nonEmpty, e2.left, e2.right, hlt]
    have hds : (xs.take (j + 1)).drop l = (xs.take j).drop l ++ [xs[j]] := by
      rw [List.take_succ_eq_append_getElem hl, List.drop_append_of_le_length (by simp; omega)]
    refine ⟨{ it' with stack_backward := some s', right_index := j }, ?_, xs, l, j, ?_, by rw [hds]; simp⟩
    · simp only [nextBack, e1, Res.ok_bind, currentBackward, hne, if_true, e3, unwrap_some, c1, advanceBackward, c2,
        e2.right, A.usub_ok (show 1 ≤ j + 1 by omega), Res.pure_eq, Nat.add_sub_cancel]
      rw [hds]; simp
    · exact ⟨e2.rep, e2.left, rfl, by omega, by omega, e2.fw, .inr ⟨s', rfl, fun _ => c3⟩⟩
  · have : l = r := by have := h.le; omega
    subst this
    have hne : it'.nonEmpty = false := by simp [nonEmpty, e2.left, e2.right]
    refine ⟨it', ?_, xs, l, l, e2, by simp⟩
    simp [nextBack, e1, currentBackward, hne, advanceBackward]

theorem sizeHint_ok {rem : List T} (h : Rem A it rem) : it.sizeHint A = .ok rem.length := by
  obtain ⟨xs, l, r, h, rfl⟩ := h
  rw [sizeHint, h.left, h.right, A.usub_ok h.le]
  have := h.le_len
  simp; omega

theorem rem_new {v : RVector T} {h : Nat} (hv : RVector.Rep A v xs h) : Rem A (VIter.new v) xs :=
  ⟨xs, 0, xs.length, at_new hv, by simp⟩

theorem deCalls_ok {rem : List T} (h : Rem A it rem) (cs : List Spec.End) :
    deCalls (VIter.next A) (VIter.nextBack A) (VIter.sizeHint A) cs it = .ok (Spec.deRun rem cs) :=
  deCalls_eq (R := Rem A) (fun _ _ h => next_ok h) (fun _ _ h => nextBack_ok h) (fun _ _ h => sizeHint_ok h) cs it rem h

theorem drives {rem : List T} (h : Rem A it rem) : Drives (VIter.next A) it rem :=
  drives_of_rel (R := Rem A) (fun _ h => by simpa using next_ok h) (fun _ _ _ h => by simpa using next_ok h) it rem h

end VIter
end Rpds
