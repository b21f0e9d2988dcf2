import Verif.Heap.IterCost
import Verif.Vector.IterCost
/-
How many memory cells the iterators of `Vector` touch.
-/
set_option autoImplicit false
namespace Rpds
namespace Heap

section
variable {T : Type} {Ar : Arch} {A : Allocator (VLabel T)} {D : Option Nat} {β : List (Item (VLabel T))} {n : Nat}

theorem HVElem.counts_new {p : Addr} {bw : Bool} : Counts (fun _ k => k ≤ n + 1) (HVElem.new (T := T) p bw) n := by
  cases bw with
  | false => exact Nat.le_succ n
  | true =>
    refine Counts.bind counts_read ?_
    rintro _ k rfl
    exact Nat.le_refl _

theorem HVElem.counts_advance {e : HVElem} {bw : Bool} : Counts (fun _ k => k ≤ n + 1) (e.advance (T := T) bw) n := by
  cases bw with
  | true => exact Nat.le_succ n
  | false =>
    refine Counts.bind counts_read ?_
    rintro _ k rfl
    exact Nat.le_refl _

/-- Digging reads at most two cells for each element it puts on the stack. -/
theorem HVIter.counts_dig {bw : Bool} (fuel : Nat) {e : HVElem} {rest : List HVElem} :
    Counts (fun r k => k + 2 * rest.length + 1 ≤ n + 2 * r.length) (HVIter.dig (T := T) bw fuel e rest) n := by
  induction fuel generalizing e rest n with
  | zero => trivial
  | succ fuel ih =>
    refine Counts.bind counts_read ?_
    rintro ⟨l, cs⟩ k rfl
    cases l with
    | leaf => exact show n + 1 + 2 * rest.length + 1 ≤ n + 2 * (rest.length + 1) by omega
    | val v => trivial
    | branch =>
      refine Counts.bind counts_lift ?_
      rintro p k ⟨-, rfl⟩
      refine Counts.bind HVElem.counts_new ?_
      rintro e' k hk
      refine ih.imp ?_
      intro r k' hk'
      simp only [List.length_cons] at hk'
      omega

theorem HVIter.counts_current {st : List HVElem} : Counts (fun _ k => k ≤ n + 1) (HVIter.current (T := T) st) n := by
  cases st with
  | nil => exact Nat.le_succ n
  | cons e st =>
    refine Counts.bind (P := fun _ k => k = n + 1) (Counts.bind counts_read ?_) ?_
    · rintro ⟨l, cs⟩ k rfl
      cases l with
      | leaf => exact counts_lift.imp (by rintro _ _ ⟨-, rfl⟩; rfl)
      | _ => trivial
    · rintro _ k rfl
      exact Nat.le_refl _

theorem counts_vecReadOpt {p : Option Addr} : Counts (fun _ k => k ≤ n + 1) (vecReadOpt (T := T) p) n := by
  cases p with
  | none => exact Nat.le_succ n
  | some p =>
    refine Counts.bind (P := fun _ k => k = n + 1) (Counts.bind counts_read ?_) ?_
    · rintro ⟨l, cs⟩ k rfl
      cases l with
      | val v => exact rfl
      | _ => trivial
    · rintro _ k rfl
      exact Nat.le_refl _

theorem safeC_vecAdvance {bw : Bool} {hst : List HVElem} {st st' : List (VElem T)} (h : List.Forall₂ (VElemIs Ar β) hst st)
    (he : VIter.advance bw st = .ok st') (ρ : List (Item (VLabel T))) :
    SafeC A D β (fun r k σ => (σ = ρ ∧ List.Forall₂ (VElemIs Ar β) r st') ∧
      (st' = [] ∧ k ≤ n + VIter.pops bw st ∨ k + 2 * st.length ≤ n + 3 * VIter.pops bw st + 2 * st'.length + 2))
      (HVIter.advance Ar bw hst) n ρ := by
  induction h generalizing n with
  | nil =>
    rw [VIter.advance] at he
    cases he
    exact SafeC.ret ⟨⟨rfl, .nil⟩, .inl ⟨rfl, Nat.le_refl _⟩⟩
  | @cons a b hst st h1 h2 ih =>
    rw [VIter.advance] at he
    refine SafeC.bind (SafeC.of (safeB_elemAdvance h1 bw ρ) HVElem.counts_advance) ?_
    rintro ⟨f, a'⟩ k _ ⟨⟨rfl, e1, e2⟩, hk⟩
    simp only at e1 e2 he ⊢
    subst e1
    cases hf : (b.advance bw).1 with
    | true =>
      simp only [hf, if_true, VIter.pops, List.length_cons] at he ⊢
      refine (ih (n := k) he).imp ?_
      rintro r k' σ ⟨h3, h4⟩
      refine ⟨h3, ?_⟩
      rcases h4 with ⟨h4, h5⟩ | h4
      · exact .inl ⟨h4, by omega⟩
      · exact .inr (by omega)
    | false =>
      simp only [hf, Bool.false_eq_true, if_false, VIter.pops, List.length_cons] at he ⊢
      refine (SafeC.of (safeB_digAt e2 h2 he _) (HVIter.counts_dig (n := k) Ar.W)).imp ?_
      rintro r k' σ ⟨⟨h3, h5⟩, h4⟩
      have e3 := f2_length h5
      have e4 := f2_length h2
      exact ⟨⟨h3, h5⟩, .inr (by omega)⟩

/-- One step of a stack. -/
theorem safeC_stackStep {b H : Nat} (hb : 0 < b) {bw : Bool} {hst : List HVElem} {st st' : List (VElem T)}
    (h : List.Forall₂ (VElemIs Ar β) hst st) (hg : st = [] ∨ VIter.Path b H 0 st)
    (he : VIter.advance bw st = .ok st') (ρ : List (Item (VLabel T))) :
    SafeC A D β (fun r k σ => σ = ρ ∧ List.Forall₂ (VElemIs Ar β) r st' ∧ (st' = [] ∨ VIter.Path b H 0 st') ∧
      k + VIter.stackPot H bw (some st') ≤ n + VIter.stackPot H bw (some st) + 5) (HVIter.advance Ar bw hst) n ρ := by
  refine (safeC_vecAdvance h he ρ).imp ?_
  rintro r k σ ⟨⟨rfl, h1⟩, h2⟩
  rcases hg with rfl | hp
  · cases he
    refine ⟨rfl, h1, .inl rfl, ?_⟩
    simp only [VIter.pops, List.length_nil] at h2
    omega
  · have h3 := VIter.advance_pays hb hp (fun _ _ _ _ => .inl rfl) he
    have h4 := VIter.pops_le bw st
    have h5 := hp.length
    cases st with
    | nil => cases hp
    | cons e st =>
      rcases h3 with rfl | ⟨h6, h7⟩
      · refine ⟨rfl, h1, .inl rfl, ?_⟩
        simp only [VIter.stackPot, List.length_nil] at h2 ⊢
        omega
      · refine ⟨rfl, h1, .inr h6, ?_⟩
        have h8 := h6.length
        cases st' with
        | nil => cases h6
        | cons e' st' =>
          simp only [VIter.stackPot, List.cons_ne_nil, false_and, false_or] at h2 ⊢
          omega

theorem safeC_initStack {hv : HVector} {v : RVector T} {h : Nat} (hi : hv.Is v h β) (hh : h < Ar.W) {b H : Nat} (hk : v.root.OK b H)
    {bw : Bool} {st : List (VElem T)} (he : VIter.initStack Ar v bw = .ok st) (ρ : List (Item (VLabel T))) :
    SafeC A D β (fun r k σ => σ = ρ ∧ List.Forall₂ (VElemIs Ar β) r st ∧ (st = [] ∨ VIter.Path b H 0 st) ∧
      k + VIter.stackPot H bw (some st) ≤ n + VIter.stackPot (T := T) H bw none) (HVIter.initStack Ar hv bw) n ρ := by
  have hc : Counts (fun r k => k ≤ n + 2 * r.length) (HVIter.initStack (T := T) Ar hv bw) n := by
    refine Counts.bind counts_lift ?_
    rintro p k ⟨-, rfl⟩
    refine Counts.bind counts_lift ?_
    rintro p' k ⟨-, rfl⟩
    refine Counts.bind HVElem.counts_new ?_
    rintro e k' hk
    refine (HVIter.counts_dig Ar.W).imp ?_
    rintro r k'' hk
    simp only [List.length_nil] at hk
    omega
  refine (SafeC.of (safeB_initStack hi hh he ρ) hc).imp ?_
  rintro r k σ ⟨⟨rfl, h1⟩, h2⟩
  have hp : VIter.Path b H 0 st := by
    unfold VIter.initStack at he
    cases e1 : v.height Ar with
    | error e => simp [e1] at he
    | ok k =>
      simp only [e1, Res.ok_bind] at he
      cases e2 : Ar.uadd k 1 with
      | error e => simp [e2] at he
      | ok k' =>
        simp only [e2, Res.ok_bind] at he
        exact VIter.dig_path (.root hk) he
  refine ⟨rfl, h1, .inr hp, ?_⟩
  have h3 := hp.length
  have h4 := f2_length h1
  have h5 := List.countP_le_length (p := VIter.pays bw) (l := st)
  cases st with
  | nil => cases hp
  | cons e st =>
    simp only [VIter.stackPot]
    omega

theorem safeC_initIfNeeded {b H : Nat} {hit : HVIter} {it it' : VIter T} (h : hit.Is Ar β it) (hg : it.Good b H) {bw : Bool}
    (he : it.initIfNeeded Ar bw = .ok it') (ρ : List (Item (VLabel T))) :
    SafeC A D β (fun r k σ => σ = ρ ∧ r.Is Ar β it' ∧ it'.Good b H ∧ k + it'.pot H ≤ n + it.pot H) (hit.initIfNeeded Ar bw) n ρ := by
  obtain ⟨hv, hf, hb, hl, hr⟩ := hit
  obtain ⟨v, f, b, l, r⟩ := it
  obtain ⟨⟨k, h1, h2⟩, h3, h4, h5, h6⟩ := h
  obtain ⟨g1, g2, g3, g4⟩ := hg
  simp only at h1 h3 h4 h5 h6 g2 g3 g4
  subst h5 h6
  unfold VIter.initIfNeeded at he
  unfold HVIter.initIfNeeded
  cases bw with
  | true =>
    simp only [if_true] at he ⊢
    cases h4 with
    | some h4 =>
      cases he
      exact SafeC.ret ⟨rfl, ⟨⟨k, h1, h2⟩, h3, .some h4, rfl, rfl⟩, ⟨g1, g2, g3, g4⟩, Nat.le_refl _⟩
    | none =>
      simp only at he ⊢
      cases e : VIter.initStack Ar v true with
      | error e' => simp [e] at he
      | ok st =>
        simp only [e, Res.ok_bind, Res.pure_eq, Except.ok.injEq] at he
        subst he
        refine SafeC.bind (safeC_initStack h1 h2 g2 e ρ) ?_
        rintro _ k' _ ⟨rfl, h7, h8, h9⟩
        refine SafeC.ret ⟨rfl, ⟨⟨k, h1, h2⟩, h3, .some h7, rfl, rfl⟩, ⟨g1, g2, g3, (by rintro _ ⟨⟩; exact h8)⟩, ?_⟩
        simp only [VIter.pot]
        omega
  | false =>
    simp only [Bool.false_eq_true, if_false] at he ⊢
    cases h3 with
    | some h3 =>
      cases he
      exact SafeC.ret ⟨rfl, ⟨⟨k, h1, h2⟩, .some h3, h4, rfl, rfl⟩, ⟨g1, g2, g3, g4⟩, Nat.le_refl _⟩
    | none =>
      simp only at he ⊢
      cases e : VIter.initStack Ar v false with
      | error e' => simp [e] at he
      | ok st =>
        simp only [e, Res.ok_bind, Res.pure_eq, Except.ok.injEq] at he
        subst he
        refine SafeC.bind (safeC_initStack h1 h2 g2 e ρ) ?_
        rintro _ k' _ ⟨rfl, h7, h8, h9⟩
        refine SafeC.ret ⟨rfl, ⟨⟨k, h1, h2⟩, .some h7, h4, rfl, rfl⟩, ⟨g1, g2, (by rintro _ ⟨⟩; exact h8), g4⟩, ?_⟩
        simp only [VIter.pot]
        omega

theorem counts_currentForward {hit : HVIter} : Counts (fun _ k => k ≤ n + 1) (hit.currentForward (T := T)) n := by
  unfold HVIter.currentForward
  split
  · refine Counts.bind counts_lift ?_
    rintro s k ⟨-, rfl⟩
    exact HVIter.counts_current
  · exact Nat.le_succ n

theorem counts_currentBackward {hit : HVIter} : Counts (fun _ k => k ≤ n + 1) (hit.currentBackward (T := T)) n := by
  unfold HVIter.currentBackward
  split
  · refine Counts.bind counts_lift ?_
    rintro s k ⟨-, rfl⟩
    exact HVIter.counts_current
  · exact Nat.le_succ n

theorem safeC_advanceForward {b H : Nat} {hit : HVIter} {it it' : VIter T} (h : hit.Is Ar β it) (hg : it.Good b H)
    (he : it.advanceForward Ar = .ok it') (ρ : List (Item (VLabel T))) :
    SafeC A D β (fun r k σ => σ = ρ ∧ r.Is Ar β it' ∧ it'.Good b H ∧ k + it'.pot H ≤ n + it.pot H + 5) (hit.advanceForward Ar) n ρ := by
  unfold HVIter.advanceForward
  unfold VIter.advanceForward at he
  rw [h.nonEmpty]
  cases hne : it.nonEmpty with
  | false =>
    simp [hne] at he
    subst he
    exact SafeC.ret ⟨rfl, h, hg, by omega⟩
  | true =>
    simp only [hne, if_true] at he ⊢
    have h1 := h.fw
    have g1 := hg.fw
    have hpot : it.pot H = VIter.stackPot H false it.stack_forward + VIter.stackPot H true it.stack_backward := rfl
    generalize hit.stack_forward = hs at h1 ⊢
    generalize it.stack_forward = s at h1 he g1 hpot
    cases h1 with
    | none => simp [unwrap] at he
    | @some a c h1 =>
      simp only [unwrap, Res.ok_bind] at he
      cases e1 : VIter.advance false c with
      | error e => simp [e1] at he
      | ok st =>
        simp only [e1, Res.ok_bind] at he
        cases e2 : Ar.uadd it.left_index 1 with
        | error e => simp [e2] at he
        | ok l =>
          simp only [e2, Res.ok_bind, Res.pure_eq, Except.ok.injEq] at he
          subst he
          refine SafeC.lift rfl (SafeC.bind (safeC_stackStep hg.pos h1 (g1 c rfl) e1 ρ) ?_)
          rintro _ k _ ⟨rfl, h2, h3, h4⟩
          refine SafeC.lift (by rw [h.left]; exact e2) (SafeC.ret ⟨rfl, ⟨h.vector, .some h2, h.bw, rfl, h.right⟩, ⟨hg.pos, hg.ok, (by rintro _ ⟨⟩; exact h3), hg.bw⟩, ?_⟩)
          rw [hpot]
          simp only [VIter.pot]
          omega

theorem safeC_advanceBackward {b H : Nat} {hit : HVIter} {it it' : VIter T} (h : hit.Is Ar β it) (hg : it.Good b H)
    (he : it.advanceBackward Ar = .ok it') (ρ : List (Item (VLabel T))) :
    SafeC A D β (fun r k σ => σ = ρ ∧ r.Is Ar β it' ∧ it'.Good b H ∧ k + it'.pot H ≤ n + it.pot H + 5) (hit.advanceBackward Ar) n ρ := by
  unfold HVIter.advanceBackward
  unfold VIter.advanceBackward at he
  rw [h.nonEmpty]
  cases hne : it.nonEmpty with
  | false =>
    simp [hne] at he
    subst he
    exact SafeC.ret ⟨rfl, h, hg, by omega⟩
  | true =>
    simp only [hne, if_true] at he ⊢
    have h1 := h.bw
    have g1 := hg.bw
    have hpot : it.pot H = VIter.stackPot H false it.stack_forward + VIter.stackPot H true it.stack_backward := rfl
    generalize hit.stack_backward = hs at h1 ⊢
    generalize it.stack_backward = s at h1 he g1 hpot
    cases h1 with
    | none => simp [unwrap] at he
    | @some a c h1 =>
      simp only [unwrap, Res.ok_bind] at he
      cases e1 : VIter.advance true c with
      | error e => simp [e1] at he
      | ok st =>
        simp only [e1, Res.ok_bind] at he
        cases e2 : Ar.usub it.right_index 1 with
        | error e => simp [e2] at he
        | ok l =>
          simp only [e2, Res.ok_bind, Res.pure_eq, Except.ok.injEq] at he
          subst he
          refine SafeC.lift rfl (SafeC.bind (safeC_stackStep hg.pos h1 (g1 c rfl) e1 ρ) ?_)
          rintro _ k _ ⟨rfl, h2, h3, h4⟩
          refine SafeC.lift (by rw [h.right]; exact e2) (SafeC.ret ⟨rfl, ⟨h.vector, h.fw, .some h2, h.left, rfl⟩, ⟨hg.pos, hg.ok, hg.fw, (by rintro _ ⟨⟩; exact h3)⟩, ?_⟩)
          rw [hpot]
          simp only [VIter.pot]
          omega

theorem safeC_vecNext {b H : Nat} {hit : HVIter} {it it' : VIter T} (h : hit.Is Ar β it) (hg : it.Good b H) {x : Option T}
    (he : it.next Ar = .ok (x, it')) (ρ : List (Item (VLabel T))) :
    SafeC A D β (fun r k σ => σ = ρ ∧ OptRel (VElemAt β) r.1 x ∧ r.2.Is Ar β it' ∧ it'.Good b H ∧ k + it'.pot H ≤ n + it.pot H + 6)
      (hit.next Ar) n ρ := by
  unfold VIter.next at he
  cases e1 : it.initIfNeeded Ar false with
  | error e => simp [e1] at he
  | ok it1 =>
    simp only [e1, Res.ok_bind] at he
    cases e2 : it1.currentForward with
    | error e => simp [e2] at he
    | ok y =>
      simp only [e2, Res.ok_bind] at he
      cases e3 : it1.advanceForward Ar with
      | error e => simp [e3] at he
      | ok it2 =>
        simp only [e3, Res.ok_bind, Res.pure_eq, Except.ok.injEq, Prod.mk.injEq] at he
        obtain ⟨rfl, rfl⟩ := he
        refine SafeC.bind (safeC_initIfNeeded h hg e1 ρ) ?_
        rintro _ k1 _ ⟨rfl, h1, g1, c1⟩
        refine SafeC.bind (SafeC.of (safeB_currentForward h1 e2 _) counts_currentForward) ?_
        rintro _ k2 _ ⟨⟨rfl, h2⟩, c2⟩
        refine SafeC.bind (safeC_advanceForward h1 g1 e3 _) ?_
        rintro _ k3 _ ⟨rfl, h3, g3, c3⟩
        exact SafeC.ret ⟨rfl, h2, h3, g3, by omega⟩

theorem safeC_vecNextBack {b H : Nat} {hit : HVIter} {it it' : VIter T} (h : hit.Is Ar β it) (hg : it.Good b H) {x : Option T}
    (he : it.nextBack Ar = .ok (x, it')) (ρ : List (Item (VLabel T))) :
    SafeC A D β (fun r k σ => σ = ρ ∧ OptRel (VElemAt β) r.1 x ∧ r.2.Is Ar β it' ∧ it'.Good b H ∧ k + it'.pot H ≤ n + it.pot H + 6)
      (hit.nextBack Ar) n ρ := by
  unfold VIter.nextBack at he
  cases e1 : it.initIfNeeded Ar true with
  | error e => simp [e1] at he
  | ok it1 =>
    simp only [e1, Res.ok_bind] at he
    cases e2 : it1.currentBackward with
    | error e => simp [e2] at he
    | ok y =>
      simp only [e2, Res.ok_bind] at he
      cases e3 : it1.advanceBackward Ar with
      | error e => simp [e3] at he
      | ok it2 =>
        simp only [e3, Res.ok_bind, Res.pure_eq, Except.ok.injEq, Prod.mk.injEq] at he
        obtain ⟨rfl, rfl⟩ := he
        refine SafeC.bind (safeC_initIfNeeded h hg e1 ρ) ?_
        rintro _ k1 _ ⟨rfl, h1, g1, c1⟩
        refine SafeC.bind (SafeC.of (safeB_currentBackward h1 e2 _) counts_currentBackward) ?_
        rintro _ k2 _ ⟨⟨rfl, h2⟩, c2⟩
        refine SafeC.bind (safeC_advanceBackward h1 g1 e3 _) ?_
        rintro _ k3 _ ⟨rfl, h3, g3, c3⟩
        exact SafeC.ret ⟨rfl, h2, h3, g3, by omega⟩

/-- The touches an iterator of a vector can have saved: a constant for each level of the tree. -/
def vecSaved (v : HVector) : Nat := 12 * (v.length.log2 / v.bits + 1)

theorem vecIters_meter :
    ∃ IR', ((vecIters Ar T).meter vecSaved 7).Iterates A (VecIs Ar) (fun s _ => .ok s.2) deNext IR' := by
  refine ⟨_, IterImpl.meter_iterates (IR := fun β (hit : HVIter) p c xs => ∃ (it : VIter T) (b H : Nat), hit.Is Ar β it ∧ VIter.Rem Ar it xs ∧
    it.Good b H ∧ it.pot H = p ∧ 12 * (H + 1) ≤ c) ?_ ?_⟩
  · rintro hv ⟨cap, xs⟩ β _ ys ⟨v, h, hi, hr, -⟩ he
    cases he
    have hH : 12 * (h + 1) ≤ vecSaved hv := by
      obtain ⟨t, rfl, -⟩ := hi
      have : h ≤ v.length.log2 / v.bits := by
        rcases hr.tight with h0 | h0
        · rw [h0]; exact Nat.zero_le _
        · rw [Nat.le_div_iff_mul_le hr.bits_pos, Nat.le_log2 (by rw [hr.length]; exact Nat.ne_zero_of_lt h0), hr.length, Nat.mul_comm]
          exact Nat.le_of_lt h0
      exact Nat.mul_le_mul_left 12 (Nat.succ_le_succ this)
    have hW : h < Ar.W := hr.fits.height_lt
    have hl : (HVIter.new hv).right_index = (VIter.new v).right_index := by
      obtain ⟨t, rfl, -⟩ := hi
      rfl
    have hp : (VIter.new v).pot h = 12 * (h + 1) := by
      simp only [VIter.pot, VIter.new, VIter.stackPot]
      omega
    exact SafeC.ret ⟨rfl, Nat.zero_le _, 12 * (h + 1), hH, .new v, v.bits, h, ⟨⟨h, hi, hW⟩, .none, .none, rfl, hl⟩, VIter.rem_new hr,
      ⟨hr.bits_pos, hr.ok, (by rintro _ ⟨⟩), (by rintro _ ⟨⟩)⟩, hp, hH⟩
  · rintro β hit p c xs back y ys ⟨it, b, H, h1, h2, hg, rfl, hc⟩ he
    have fin : ∀ {prog : Prog (VLabel T) (Option Addr × HVIter)} {x : Option T} {it' : VIter T} {ys : List T},
        SafeC A none β (fun r k σ => σ = [] ∧ OptRel (VElemAt β) r.1 x ∧ r.2.Is Ar β it' ∧ it'.Good b H ∧
          k + it'.pot H ≤ 0 + it.pot H + 6) prog 0 [] → VIter.Rem Ar it' ys →
        SafeC A none β (fun z k τ => τ = [] ∧ z.1 = (x, ys.length) ∧ ∃ p', p' ≤ c ∧ k + p' ≤ it.pot H + 7 ∧
          ∃ (it : VIter T) (b H : Nat), z.2.Is Ar β it ∧ VIter.Rem Ar it ys ∧ it.Good b H ∧ it.pot H = p' ∧ 12 * (H + 1) ≤ c)
          (Prog.bind prog fun x => Prog.bind (vecReadOpt x.1) fun v =>
          Prog.bind (lift (Ar.usub x.2.right_index x.2.left_index)) fun n => .ret ((v, n), x.2)) 0 [] := by
      intro prog x it' ys hp hm
      refine SafeC.bind hp ?_
      rintro ⟨p, hit'⟩ k _ ⟨rfl, h3, h4, g4, c4⟩
      refine SafeC.bind (SafeC.of (VElemAt.readOpt h3 []) counts_vecReadOpt) ?_
      rintro _ k' _ ⟨⟨rfl, rfl⟩, c5⟩
      have := VIter.sizeHint_ok hm
      rw [VIter.sizeHint, ← h4.left, ← h4.right] at this
      have hle := g4.pot_le
      exact SafeC.lift this (SafeC.ret ⟨rfl, rfl, it'.pot H, by omega, by omega, it', b, H, h4, hm, g4, rfl, hc⟩)
    cases back with
    | false =>
      simp only [deNext, Bool.false_eq_true, if_false, Except.ok.injEq, Prod.mk.injEq] at he
      obtain ⟨rfl, rfl⟩ := he
      obtain ⟨it', e1, e2⟩ := VIter.next_ok h2
      have := fin (safeC_vecNext (A := A) (D := none) h1 hg e1 []) e2
      simpa [vecIters] using this
    | true =>
      simp only [deNext, if_true, Except.ok.injEq, Prod.mk.injEq] at he
      obtain ⟨rfl, rfl⟩ := he
      obtain ⟨it', e1, e2⟩ := VIter.nextBack_ok h2
      have := fin (safeC_vecNextBack (A := A) (D := none) h1 hg e1 []) e2
      simpa [vecIters] using this

end
end Heap
end Rpds
