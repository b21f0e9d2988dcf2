import Verif.RedBlack.Ask
/-
How many questions the iterators, comparisons and set algebra of red-black trees ask.
-/
set_option autoImplicit false
namespace Rpds
open Spec Ask

section Range
variable {K V Q : Type} {A : Arch} {p : RBQuestion K V Q → Bool} {start end_ : Bound Q}

/-- The price of a look at the bounds: nothing if there are none. -/
def PerLook (start end_ : Bound Q) (c : Nat) : Prop := (start = .unbounded ∧ end_ = .unbounded ∧ c = 0) ∨ c = 1

theorem IterStack.afterStartA_wp {c : Nat} (hc : PerLook start end_ c) (key : K) {n : Nat} {Φ : Bool → Nat → Prop} (hn : c ≤ n)
    (h : ∀ b m, n ≤ m + c → Φ b m) : (IterStack.afterStartA (V := V) start key).wp p n Φ := by
  rcases hc with ⟨rfl, -, rfl⟩ | rfl
  · exact h _ _ (by omega)
  · cases start with
    | unbounded => exact h _ _ (by omega)
    | included v => exact wp_bind.2 (wp_query hn fun x m h1 h2 => h _ _ h1)
    | excluded v => exact wp_bind.2 (wp_query hn fun x m h1 h2 => h _ _ h1)

theorem IterStack.beforeEndA_wp {c : Nat} (hc : PerLook start end_ c) (key : K) {n : Nat} {Φ : Bool → Nat → Prop} (hn : c ≤ n)
    (h : ∀ b m, n ≤ m + c → Φ b m) : (IterStack.beforeEndA (V := V) end_ key).wp p n Φ := by
  rcases hc with ⟨-, rfl, rfl⟩ | rfl
  · exact h _ _ (by omega)
  · cases end_ with
    | unbounded => exact h _ _ (by omega)
    | included v => exact wp_bind.2 (wp_query hn fun x m h1 h2 => h _ _ h1)
    | excluded v => exact wp_bind.2 (wp_query hn fun x m h1 h2 => h _ _ h1)

theorem IterStack.clearIfFinishedA_wp {c : Nat} (hc : PerLook start end_ c) (s : IterStack K V) {n : Nat} {Φ : IterStack K V → Nat → Prop}
    (hn : c ≤ n) (h : ∀ s m, n ≤ m + c → Φ s m) : (s.clearIfFinishedA start end_).wp p n Φ := by
  unfold clearIfFinishedA
  cases s.current with
  | none => exact h _ _ (by omega)
  | some e =>
    refine wp_bind.2 ?_
    cases s.backwards
    · exact beforeEndA_wp hc _ hn fun b m hm => h _ _ hm
    · exact afterStartA_wp hc _ hn fun b m hm => h _ _ hm

theorem IterStack.digTowardsA_wp {c : Nat} (hc : PerLook start end_ c) (t : RBTree K V) (s : IterStack K V) {n : Nat}
    {Φ : IterStack K V → Nat → Prop} (hn : c * t.height ≤ n) (h : ∀ s m, n ≤ m + c * t.height → Φ s m) :
    (s.digTowardsA start end_ t).wp p n Φ := by
  induction t generalizing s n with
  | none => exact h _ _ (by omega)
  | some e col l r ihl ihr =>
    have hle : c + c * l.height ≤ c * (RBTree.some e col l r).height ∧ c + c * r.height ≤ c * (RBTree.some e col l r).height := by
      have h1 : l.height + 1 ≤ (RBTree.some e col l r).height := by simp only [RBTree.height]; omega
      have h2 : r.height + 1 ≤ (RBTree.some e col l r).height := by simp only [RBTree.height]; omega
      have g1 := Nat.mul_le_mul_left c h1
      have g2 := Nat.mul_le_mul_left c h2
      rw [Nat.mul_add] at g1 g2
      omega
    obtain ⟨hl, hr⟩ := hle
    have gol : ∀ (s : IterStack K V) (m : Nat), n ≤ m + c → (s.digTowardsA start end_ l).wp p m Φ := fun s m hm =>
      ihl s (by omega) fun s k hk => h s k (by omega)
    have gor : ∀ (s : IterStack K V) (m : Nat), n ≤ m + c → (s.digTowardsA start end_ r).wp p m Φ := fun s m hm =>
      ihr s (by omega) fun s k hk => h s k (by omega)
    unfold digTowardsA
    refine wp_bind.2 ?_
    cases hb : s.backwards
    · refine afterStartA_wp hc _ (by omega) fun b m hm => ?_
      cases b
      · simpa [hb] using gor _ m hm
      · simpa [hb] using gol _ m hm
    · refine beforeEndA_wp hc _ (by omega) fun b m hm => ?_
      cases b
      · simpa [hb] using gol _ m hm
      · simpa [hb] using gor _ m hm

theorem IterStack.newA_wp {c : Nat} (hc : PerLook start end_ c) {m : RBMap K V} (hW : 3 ≤ A.W) (hsz : m.size + 1 < 2 ^ A.W) (b : Bool)
    {n : Nat} {Φ : IterStack K V → Nat → Prop} (hn : c * m.root.height + c ≤ n)
    (h : ∀ s k, n ≤ k + (c * m.root.height + c) → Φ s k) : (IterStack.newA A m start end_ b).wp p n Φ := by
  obtain ⟨h1, h2⟩ := conservativeHeight_ok hW hsz
  refine wp_bind.2 ?_
  simp only [h1, lift, wp]
  refine wp_bind.2 ?_
  simp only [Arch.uadd, if_pos h2, wp]
  refine wp_bind.2 (digTowardsA_wp hc _ _ (by omega) fun s k hk => clearIfFinishedA_wp hc _ (by omega) fun s j hj => h _ _ (by omega))

theorem IterStack.advanceA_wp {c : Nat} (hc : PerLook start end_ c) (s : IterStack K V) {n : Nat} {Φ : IterStack K V → Nat → Prop}
    (hn : c ≤ n) (h : ∀ s m, n ≤ m + c → Φ s m) : (s.advanceA start end_).wp p n Φ := by
  unfold advanceA
  cases s.stack with
  | nil => exact h _ _ (by omega)
  | cons x rest => exact clearIfFinishedA_wp hc _ hn h

/-- An iterator over the range of `m`. -/
structure RangeOf (A : Arch) (m : RBMap K V) (start end_ : Bound Q) (it : RBRangeIter K V Q) : Prop where
  word : 3 ≤ A.W
  size : m.size + 1 < 2 ^ A.W
  map : it.map = m
  start_eq : it.start = start
  end_eq : it.end_ = end_

/-- The price of `init_if_needed`. -/
def initCost (c : Nat) (m : RBMap K V) (st : Option (IterStack K V)) : Nat := if st.isNone then c * m.root.height + c else 0

/-- The price of `is_remaining_range_empty`: a comparison if the iterator is used from both ends. -/
def bothCost (st : Option (IterStack K V)) : Nat := if st.isSome then 1 else 0

theorem RBRangeIter.isRemainingRangeEmptyA_wp (it : RBRangeIter K V Q) (st : Option (IterStack K V)) (hst : st = it.stackForward ∨ st = it.stackBackward)
    {n : Nat} {Φ : Bool → Nat → Prop} (hn : bothCost st ≤ n) (h : ∀ b m, n ≤ m + bothCost st → Φ b m) : it.isRemainingRangeEmptyA.wp p n Φ := by
  unfold isRemainingRangeEmptyA
  cases hf : it.stackForward with
  | none => exact h _ _ (by omega)
  | some f =>
    cases hb : it.stackBackward with
    | none => exact h _ _ (by omega)
    | some b =>
      have hc : bothCost st = 1 := by rcases hst with rfl | rfl <;> simp [bothCost, hf, hb]
      simp only
      cases f.current with
      | none => exact h _ _ (by omega)
      | some e =>
        cases b.current with
        | none => exact h _ _ (by omega)
        | some e' => exact wp_bind.2 (wp_query (by omega) fun x m h1 h2 => h _ _ (by omega))

theorem RBRangeIter.nextA_wp {c : Nat} {m : RBMap K V} {it : RBRangeIter K V Q} (hc : PerLook start end_ c) (hr : RangeOf A m start end_ it)
    {n : Nat} {Φ : Option (K × V) × RBRangeIter K V Q → Nat → Prop} (hn : initCost c m it.stackForward + bothCost it.stackBackward + c ≤ n)
    (h : ∀ x it' k, n ≤ k + (initCost c m it.stackForward + bothCost it.stackBackward + c) → RangeOf A m start end_ it' →
      it'.stackForward.isSome → it'.stackBackward = it.stackBackward → Φ (x, it') k) : (it.nextA A).wp p n Φ := by
  unfold nextA
  refine wp_bind.2 ?_
  -- after `init_if_needed`
  have rest : ∀ (it₁ : RBRangeIter K V Q) (f : IterStack K V) (n₁ : Nat), it₁.stackForward = some f → it₁.stackBackward = it.stackBackward →
      RangeOf A m start end_ it₁ → n ≤ n₁ + initCost c m it.stackForward →
      (do let current ← it₁.currentForwardA; let it ← it₁.advanceForwardA; pure (current, it) : RBAsk K V Q _).wp p n₁ Φ := by
    intro it₁ f n₁ hf hb hr₁ hn₁
    refine wp_bind.2 ?_
    have step : ∀ (x : Option (K × V)) (n₂ : Nat), n₁ ≤ n₂ + bothCost it.stackBackward →
        (do let it ← it₁.advanceForwardA; pure (x, it) : RBAsk K V Q _).wp p n₂ Φ := by
      intro x n₂ hn₂
      refine wp_bind.2 (wp_bind.2 ?_)
      simp only [hf, unwrap, lift, wp]
      refine wp_bind.2 ?_
      rw [hr₁.start_eq, hr₁.end_eq]
      exact IterStack.advanceA_wp hc f (by omega) fun s k hk =>
        h _ _ _ (by omega) ⟨hr₁.word, hr₁.size, hr₁.map, rfl, rfl⟩ rfl hb
    refine wp_bind.2 ?_
    refine isRemainingRangeEmptyA_wp it₁ it₁.stackBackward (.inr rfl) (by rw [hb]; omega) fun b n₂ hn₂ => ?_
    rw [hb] at hn₂
    cases b with
    | true => exact step none n₂ hn₂
    | false =>
      refine wp_bind.2 ?_
      simp only [hf, unwrap, lift, wp]
      exact step f.current n₂ hn₂
  unfold initIfNeededA
  dsimp only
  simp only [Bool.false_eq_true, if_false]
  cases hf : it.stackForward with
  | some f =>
    simp only [Option.isNone_some, Bool.false_eq_true, if_false]
    exact rest it f n hf rfl hr (by omega)
  | none =>
    simp only [Option.isNone_none, if_true]
    refine wp_bind.2 ?_
    rw [hr.map, hr.start_eq, hr.end_eq]
    have hi : initCost c m it.stackForward = c * m.root.height + c := by rw [initCost, hf]; rfl
    exact IterStack.newA_wp hc hr.word hr.size false (by omega) fun s k hk =>
      rest _ s k rfl rfl ⟨hr.word, hr.size, rfl, rfl, rfl⟩ (by omega)

theorem RBRangeIter.nextBackA_wp {c : Nat} {m : RBMap K V} {it : RBRangeIter K V Q} (hc : PerLook start end_ c) (hr : RangeOf A m start end_ it)
    {n : Nat} {Φ : Option (K × V) × RBRangeIter K V Q → Nat → Prop} (hn : initCost c m it.stackBackward + bothCost it.stackForward + c ≤ n)
    (h : ∀ x it' k, n ≤ k + (initCost c m it.stackBackward + bothCost it.stackForward + c) → RangeOf A m start end_ it' →
      it'.stackBackward.isSome → it'.stackForward = it.stackForward → Φ (x, it') k) : (it.nextBackA A).wp p n Φ := by
  unfold nextBackA
  refine wp_bind.2 ?_
  have rest : ∀ (it₁ : RBRangeIter K V Q) (f : IterStack K V) (n₁ : Nat), it₁.stackBackward = some f → it₁.stackForward = it.stackForward →
      RangeOf A m start end_ it₁ → n ≤ n₁ + initCost c m it.stackBackward →
      (do let current ← it₁.currentBackwardA; let it ← it₁.advanceBackwardA; pure (current, it) : RBAsk K V Q _).wp p n₁ Φ := by
    intro it₁ f n₁ hf hb hr₁ hn₁
    refine wp_bind.2 ?_
    have step : ∀ (x : Option (K × V)) (n₂ : Nat), n₁ ≤ n₂ + bothCost it.stackForward →
        (do let it ← it₁.advanceBackwardA; pure (x, it) : RBAsk K V Q _).wp p n₂ Φ := by
      intro x n₂ hn₂
      refine wp_bind.2 (wp_bind.2 ?_)
      simp only [hf, unwrap, lift, wp]
      refine wp_bind.2 ?_
      rw [hr₁.start_eq, hr₁.end_eq]
      exact IterStack.advanceA_wp hc f (by omega) fun s k hk =>
        h _ _ _ (by omega) ⟨hr₁.word, hr₁.size, hr₁.map, rfl, rfl⟩ rfl hb
    refine wp_bind.2 ?_
    refine isRemainingRangeEmptyA_wp it₁ it₁.stackForward (.inl rfl) (by rw [hb]; omega) fun b n₂ hn₂ => ?_
    rw [hb] at hn₂
    cases b with
    | true => exact step none n₂ hn₂
    | false =>
      refine wp_bind.2 ?_
      simp only [hf, unwrap, lift, wp]
      exact step f.current n₂ hn₂
  unfold initIfNeededA
  dsimp only
  simp only [if_true]
  cases hf : it.stackBackward with
  | some f =>
    simp only [Option.isNone_some, Bool.false_eq_true, if_false]
    exact rest it f n hf rfl hr (by omega)
  | none =>
    simp only [Option.isNone_none, if_true]
    refine wp_bind.2 ?_
    rw [hr.map, hr.start_eq, hr.end_eq]
    have hi : initCost c m it.stackBackward = c * m.root.height + c := by rw [initCost, hf]; rfl
    exact IterStack.newA_wp hc hr.word hr.size true (by omega) fun s k hk =>
      rest _ s k rfl rfl ⟨hr.word, hr.size, rfl, rfl, rfl⟩ (by omega)

/-- Calls from both ends. -/
theorem RBRangeIter.deAnswersA_wp {c : Nat} {m : RBMap K V} (hc : PerLook start end_ c) (cs : List End) {it : RBRangeIter K V Q}
    (hr : RangeOf A m start end_ it) {n : Nat} {Φ : List (Option (K × V)) × RBRangeIter K V Q → Nat → Prop}
    (hn : initCost c m it.stackForward + initCost c m it.stackBackward + cs.length * (c + 1) ≤ n) (h : ∀ r k, Φ r k) :
    (deAnswersA (RBRangeIter.nextA A) (RBRangeIter.nextBackA A) cs it).wp p n Φ := by
  have both : ∀ st : Option (IterStack K V), bothCost st ≤ 1 := fun st => by unfold bothCost; split <;> omega
  have done : ∀ st : Option (IterStack K V), st.isSome → initCost c m st = 0 := fun st h => by
    cases st <;> simp_all [initCost]
  induction cs generalizing it n Φ with
  | nil => exact h _ _
  | cons d cs ih =>
    simp only [List.length_cons, Nat.add_mul, Nat.one_mul] at hn
    have b1 := both it.stackForward
    have b2 := both it.stackBackward
    simp only [Nat.mul_add, Nat.mul_one] at ih hn
    cases d with
    | front =>
      refine wp_bind.2 (nextA_wp hc hr (by omega) fun x it' k hk hr' h1 h2 => ?_)
      have := done _ h1
      exact wp_bind.2 (ih hr' (by rw [this, h2]; omega) fun r j => h _ _)
    | back =>
      refine wp_bind.2 (nextBackA_wp hc hr (by omega) fun x it' k hk hr' h1 h2 => ?_)
      have := done _ h1
      exact wp_bind.2 (ih hr' (by rw [this, h2]; omega) fun r j => h _ _)

/-- Calls from the front only. -/
theorem RBRangeIter.frontA_wp {c : Nat} {m : RBMap K V} (hc : PerLook start end_ c) (cs : List End) (hcs : ∀ d ∈ cs, d = .front)
    {it : RBRangeIter K V Q} (hr : RangeOf A m start end_ it) (hb : it.stackBackward = none) {n : Nat}
    {Φ : List (Option (K × V)) × RBRangeIter K V Q → Nat → Prop} (hn : initCost c m it.stackForward + cs.length * c ≤ n) (h : ∀ r k, Φ r k) :
    (deAnswersA (RBRangeIter.nextA A) (RBRangeIter.nextBackA A) cs it).wp p n Φ := by
  have done : ∀ st : Option (IterStack K V), st.isSome → initCost c m st = 0 := fun st h => by
    cases st <;> simp_all [initCost]
  induction cs generalizing it n Φ with
  | nil => exact h _ _
  | cons d cs ih =>
    obtain rfl := hcs d (by simp)
    simp only [List.length_cons, Nat.add_mul, Nat.one_mul] at hn
    have b0 : bothCost it.stackBackward = 0 := by rw [hb]; rfl
    refine wp_bind.2 (nextA_wp hc hr (by omega) fun x it' k hk hr' h1 h2 => ?_)
    have := done _ h1
    exact wp_bind.2 (ih (fun d hd => hcs d (by simp [hd])) hr' (h2.trans hb) (by rw [this]; omega) fun r j => h _ _)

/-- Calls from the back only. -/
theorem RBRangeIter.backA_wp {c : Nat} {m : RBMap K V} (hc : PerLook start end_ c) (cs : List End) (hcs : ∀ d ∈ cs, d = .back)
    {it : RBRangeIter K V Q} (hr : RangeOf A m start end_ it) (hb : it.stackForward = none) {n : Nat}
    {Φ : List (Option (K × V)) × RBRangeIter K V Q → Nat → Prop} (hn : initCost c m it.stackBackward + cs.length * c ≤ n) (h : ∀ r k, Φ r k) :
    (deAnswersA (RBRangeIter.nextA A) (RBRangeIter.nextBackA A) cs it).wp p n Φ := by
  have done : ∀ st : Option (IterStack K V), st.isSome → initCost c m st = 0 := fun st h => by
    cases st <;> simp_all [initCost]
  induction cs generalizing it n Φ with
  | nil => exact h _ _
  | cons d cs ih =>
    obtain rfl := hcs d (by simp)
    simp only [List.length_cons, Nat.add_mul, Nat.one_mul] at hn
    have b0 : bothCost it.stackForward = 0 := by rw [hb]; rfl
    refine wp_bind.2 (nextBackA_wp hc hr (by omega) fun x it' k hk hr' h1 h2 => ?_)
    have := done _ h1
    exact wp_bind.2 (ih (fun d hd => hcs d (by simp [hd])) hr' (h2.trans hb) (by rw [this]; omega) fun r j => h _ _)

end Range

/-! ### Plain iterators -/

section Plain
variable {K V : Type} {A : Arch} {β : Type}

/-- Any comparison: plain iteration does not look at it. -/
def anyOrd (K : Type) : OrdKeys K K := ⟨fun _ _ => .eq, fun _ _ => .eq, fun _ _ => true, id⟩

/-- An iterator over a whole map that is used from the front only, and what it has yet to yield. -/
structure Plain (A : Arch) (f : K × V → β) (it : RBIter K V) (l : List β) : Prop where
  range : ∃ m, RangeOf A m (.unbounded : Bound K) .unbounded it.rangeIter
  back : it.rangeIter.stackBackward = none
  drives : Drives (RBIter.mapNext A (anyOrd K) f) it l

theorem Plain.next {f : K × V → β} {it : RBIter K V} {l : List β} (h : Plain A f it l) :
    (l = [] ∧ ∃ it', it.mapNextA A f = pure (none, it')) ∨
      (∃ a l' it', l = a :: l' ∧ it.mapNextA A f = pure (some a, it') ∧ Plain A f it' l') := by
  obtain ⟨m, hm⟩ := h.range
  have quiet : (it.mapNextA A f).wp (fun _ => true) 0 fun r _ =>
      RangeOf A m (.unbounded : Bound K) .unbounded r.2.rangeIter ∧ r.2.rangeIter.stackBackward = none := by
    refine wp_bind.2 ?_
    unfold RBIter.nextA
    split
    · refine wp_bind.2 ?_
      rw [csub, if_pos (by omega)]
      refine wp_bind.2 ?_
      refine RBRangeIter.nextA_wp (c := 0) (.inl ⟨rfl, rfl, rfl⟩) hm ?_ fun x it' k _ hr _ hb => ?_
      · simp [h.back, initCost, bothCost]
      · exact ⟨hr, hb.trans h.back⟩
    · exact ⟨hm, h.back⟩
  obtain ⟨⟨x, it'⟩, hx, hr, hb⟩ := wp_zero quiet
  have run := RBIter.mapNextA_run A (anyOrd K) (fun _ _ => true) (fun _ _ => .eq) f it
  rw [hx] at run
  have run : RBIter.mapNext A (anyOrd K) f it = .ok (x, it') := run.symm
  have hd := h.drives
  cases hd with
  | nil h1 =>
    rw [run] at h1
    cases h1
    exact .inl ⟨rfl, _, hx⟩
  | cons h1 h2 =>
    rw [run] at h1
    cases h1
    exact .inr ⟨_, _, _, rfl, hx, ⟨m, hr⟩, hb, h2⟩

theorem Plain.quiet {f : K × V → β} {it : RBIter K V} {l : List β} (h : Plain A f it l) : Quiet (RBIter.mapNextA A f) it l := by
  induction l generalizing it with
  | nil =>
    rcases h.next with ⟨-, it', hn⟩ | ⟨a, l', it', hl, -⟩
    · exact .nil hn
    · cases hl
  | cons a l ih =>
    rcases h.next with ⟨hl, -⟩ | ⟨a', l', it', hl, hn, h'⟩
    · cases hl
    · cases hl
      exact .cons hn (ih h')

theorem quiet_iter {m : RBMap K V} {l : List (K × V)} (h : m.Loose l) (hf : RBMap.Fits A m) (f : K × V → β) :
    Quiet (RBIter.mapNextA A f) m.iter (l.map f) :=
  Plain.quiet ⟨⟨m, hf.word, hf.size, rfl, rfl, rfl⟩, rfl, h.drives hf (anyOrd K) f⟩

/-- A lookup compares keys once per level. -/
theorem RBTree.getA_costs {p : RBQuestion K V K → Bool} (key : K) (t : RBTree K V) : Costs p (t.getA key) t.height := by
  induction t with
  | none => exact costs_pure (p := p) _ _
  | some e c l r ihl ihr =>
    unfold getA
    refine ((costs_query _).bind (d := max l.height r.height) fun x => ?_).mono (by simp only [RBTree.height]; omega)
    cases x with
    | lt => exact ihl.mono (Nat.le_max_left ..)
    | eq => exact costs_pure (p := p) _ _
    | gt => exact ihr.mono (Nat.le_max_right ..)

theorem RBTree.getA_costs_free {p : RBQuestion K V K → Bool} (hp : ∀ a b, p (.keys a b) = false) (key : K) (t : RBTree K V) :
    Costs p (t.getA key) 0 := by
  induction t with
  | none => exact costs_pure (p := p) _ _
  | some e c l r ihl ihr =>
    unfold getA
    refine ((costs_query_free (hp _ _)).bind (d := 0) fun x => ?_)
    cases x with
    | lt => exact ihl
    | eq => exact costs_pure (p := p) _ _
    | gt => exact ihr

theorem RBMap.eqA_keys {a b : RBMap K V} {l : List (K × V)} (h : a.Loose l) (hf : RBMap.Fits A a) (same : Bool) :
    (RBMap.eqA A same a b).AtMost RBQuestion.onKeys (a.size * b.root.height) := by
  unfold eqA
  split
  · exact (costs_pure _ _).atMost
  split
  · refine Costs.atMost (Costs.mono (iterAllA_costs (c := b.root.height) (fun kv => ?_) (quiet_iter h hf _) (by simp [h.size]))
      (by simp [h.size]))
    refine ((RBTree.getA_costs _ _).bind (d := 0) fun x => ?_)
    cases x with
    | none => exact costs_pure _ _
    | some e => exact costs_query_free rfl
  · exact (costs_pure _ _).atMost

theorem RBMap.eqA_values {a b : RBMap K V} {l : List (K × V)} (h : a.Loose l) (hf : RBMap.Fits A a) (same : Bool) :
    (RBMap.eqA A same a b).AtMost RBQuestion.onValues a.size := by
  unfold eqA
  split
  · exact (costs_pure _ _).atMost
  split
  · refine Costs.atMost (Costs.mono (iterAllA_costs (c := 1) (fun kv => ?_) (quiet_iter h hf _) (by simp [h.size]))
      (by simp [h.size]))
    refine ((RBTree.getA_costs_free (fun _ _ => rfl) _ _).bind (d := 1) fun x => ?_).mono (by omega)
    cases x with
    | none => exact costs_pure _ _
    | some e => exact costs_query _
  · exact (costs_pure _ _).atMost

theorem RBMap.cmpA_keys {a b : RBMap K V} {l l' : List (K × V)} (h : a.Loose l) (h' : b.Loose l') (hf : RBMap.Fits A a) (hf' : RBMap.Fits A b) :
    (RBMap.cmpA A a b).AtMost RBQuestion.onKeys (min a.size b.size) := by
  refine Costs.atMost (Costs.mono (iterCmpA_costs (c := 1) (fun x y => ?_) (quiet_iter h hf _) (quiet_iter h' hf' _) (by simp [h.size]))
    (by simp [h.size, h'.size]))
  refine ((costs_query _).bind (d := 0) fun r => ?_)
  cases r with
  | eq => exact costs_query_free rfl
  | lt => exact costs_pure _ _
  | gt => exact costs_pure _ _

theorem RBMap.cmpA_values {a b : RBMap K V} {l l' : List (K × V)} (h : a.Loose l) (h' : b.Loose l') (hf : RBMap.Fits A a) (hf' : RBMap.Fits A b) :
    (RBMap.cmpA A a b).AtMost RBQuestion.onValues (min a.size b.size) := by
  refine Costs.atMost (Costs.mono (iterCmpA_costs (c := 1) (fun x y => ?_) (quiet_iter h hf _) (quiet_iter h' hf' _) (by simp [h.size]))
    (by simp [h.size, h'.size]))
  refine ((costs_query_free rfl).bind (d := 1) fun r => ?_).mono (by omega)
  cases r with
  | eq => exact costs_query _
  | lt => exact costs_pure _ _
  | gt => exact costs_pure _ _

/-- Calls of a plain iterator from both ends: at most one comparison each, and none once it is exhausted. -/
theorem RBIter.deAnswersA_costs {p : RBQuestion K V K → Bool} {m : RBMap K V} (cs : List End) {it : RBIter K V}
    (hr : RangeOf A m (.unbounded : Bound K) .unbounded it.rangeIter) :
    Costs p (deAnswersA (RBIter.nextA A) (RBIter.nextBackA A) cs it) (min cs.length it.size) := by
  have both : ∀ st : Option (IterStack K V), bothCost st ≤ 1 := fun st => by unfold bothCost; split <;> omega
  have init : ∀ st : Option (IterStack K V), initCost 0 m st = 0 := fun st => by unfold initCost; split <;> omega
  induction cs generalizing it with
  | nil => exact costs_pure (p := p) _ _
  | cons d cs ih =>
    intro n Φ hn h
    simp only [List.length_cons] at hn h
    have b1 := both it.rangeIter.stackForward
    have b2 := both it.rangeIter.stackBackward
    have i1 := init it.rangeIter.stackForward
    have i2 := init it.rangeIter.stackBackward
    have hc : PerLook (.unbounded : Bound K) .unbounded 0 := .inl ⟨rfl, rfl, rfl⟩
    cases d with
    | front =>
      refine wp_bind.2 ?_
      unfold RBIter.nextA
      split
      · refine wp_bind.2 ?_
        rw [csub, if_pos (by omega)]
        refine wp_bind.2 (RBRangeIter.nextA_wp hc hr (by omega) fun x it' k hk hr' _ _ => ?_)
        refine wp_bind.2 (ih hr' (it := ⟨it', it.size - 1⟩) _ _ (by simp only; omega) fun r j hj => h _ _ (by simp only at hj; omega))
      · exact wp_bind.2 (ih hr _ _ (by omega) fun r j hj => h _ _ (by omega))
    | back =>
      refine wp_bind.2 ?_
      unfold RBIter.nextBackA
      split
      · refine wp_bind.2 ?_
        rw [csub, if_pos (by omega)]
        refine wp_bind.2 (RBRangeIter.nextBackA_wp hc hr (by omega) fun x it' k hk hr' _ _ => ?_)
        refine wp_bind.2 (ih hr' (it := ⟨it', it.size - 1⟩) _ _ (by simp only; omega) fun r j hj => h _ _ (by simp only at hj; omega))
      · exact wp_bind.2 (ih hr _ _ (by omega) fun r j hj => h _ _ (by omega))

/-- A plain iterator used from one end only compares nothing. -/
theorem RBIter.frontA_costs {p : RBQuestion K V K → Bool} {m : RBMap K V} (cs : List End) (hcs : ∀ d ∈ cs, d = .front) {it : RBIter K V}
    (hr : RangeOf A m (.unbounded : Bound K) .unbounded it.rangeIter) (hb : it.rangeIter.stackBackward = none) :
    Costs p (deAnswersA (RBIter.nextA A) (RBIter.nextBackA A) cs it) 0 := by
  induction cs generalizing it with
  | nil => exact costs_pure (p := p) _ _
  | cons d cs ih =>
    intro n Φ hn h
    have init : initCost 0 m it.rangeIter.stackForward = 0 := by unfold initCost; split <;> omega
    have b0 : bothCost it.rangeIter.stackBackward = 0 := by rw [hb]; rfl
    obtain rfl := hcs d (by simp)
    have ih := @ih fun d hd => hcs d (by simp [hd])
    refine wp_bind.2 ?_
    unfold RBIter.nextA
    split
    · refine wp_bind.2 ?_
      rw [csub, if_pos (by omega)]
      refine wp_bind.2 (RBRangeIter.nextA_wp (c := 0) (.inl ⟨rfl, rfl, rfl⟩) hr (by omega) fun x it' k hk hr' _ hb' => ?_)
      exact wp_bind.2 (ih hr' (it := ⟨it', it.size - 1⟩) (hb'.trans hb) _ _ (by omega) fun r j hj => h _ _ (by omega))
    · exact wp_bind.2 (ih hr hb _ _ (by omega) fun r j hj => h _ _ (by omega))

theorem RBIter.backA_costs {p : RBQuestion K V K → Bool} {m : RBMap K V} (cs : List End) (hcs : ∀ d ∈ cs, d = .back) {it : RBIter K V}
    (hr : RangeOf A m (.unbounded : Bound K) .unbounded it.rangeIter) (hb : it.rangeIter.stackForward = none) :
    Costs p (deAnswersA (RBIter.nextA A) (RBIter.nextBackA A) cs it) 0 := by
  induction cs generalizing it with
  | nil => exact costs_pure (p := p) _ _
  | cons d cs ih =>
    intro n Φ hn h
    have init : initCost 0 m it.rangeIter.stackBackward = 0 := by unfold initCost; split <;> omega
    have b0 : bothCost it.rangeIter.stackForward = 0 := by rw [hb]; rfl
    obtain rfl := hcs d (by simp)
    have ih := @ih fun d hd => hcs d (by simp [hd])
    refine wp_bind.2 ?_
    unfold RBIter.nextBackA
    split
    · refine wp_bind.2 ?_
      rw [csub, if_pos (by omega)]
      refine wp_bind.2 (RBRangeIter.nextBackA_wp (c := 0) (.inl ⟨rfl, rfl, rfl⟩) hr (by omega) fun x it' k hk hr' _ hb' => ?_)
      exact wp_bind.2 (ih hr' (it := ⟨it', it.size - 1⟩) (hb'.trans hb) _ _ (by omega) fun r j hj => h _ _ (by omega))
    · exact wp_bind.2 (ih hr hb _ _ (by omega) fun r j hj => h _ _ (by omega))

/-- Creating a range iterator: bounds are compared at most twice. -/
theorem RBMap.rangeA_costs {Q : Type} {p : RBQuestion K V Q → Bool} (m : RBMap K V) (start end_ : Bound Q) : Costs p (m.rangeA start end_) 2 := by
  unfold rangeA
  refine Costs.bind (c := 1) (d := 1) ?_ fun equal => ?_
  · unfold bothExcludedEqualA
    split
    · exact costs_query _
    · exact costs_pure _ _
  · cases equal with
    | true => exact costs_pure (p := p) _ _
    | false =>
      refine Costs.bind (c := 1) (d := 0) ?_ fun after => ?_
      · unfold startAfterEndA
        split <;> first | exact (costs_query _).bind (d := 0) fun _ => costs_pure _ _ | exact costs_pure _ _
      · cases after <;> exact costs_pure (p := p) _ _

end Plain

section Sets
variable {T : Type} {A : Arch} {p : RBQuestion T Unit T → Bool}

/-- An iterator over a set and its remaining elements. -/
abbrev QuietSet (A : Arch) (it : RBIter T Unit) (l : List T) : Prop := Quiet (RBSet.iterNextA A) it l

theorem RBSet.disjointLoopA_costs {fuel : Nat} {it it' : RBIter T Unit} {l l' : List T} (h : QuietSet A it l) (h' : QuietSet A it' l')
    (v u : Option T) (hfuel : l.length + l'.length + 1 < fuel) :
    Costs p (RBSet.disjointLoopA A fuel it it' v u) (if v.isSome && u.isSome then l.length + l'.length + 1 else 0) := by
  induction fuel generalizing it it' l l' v u with
  | zero => omega
  | succ n ih =>
    unfold disjointLoopA
    cases v with
    | none => exact costs_pure _ _
    | some v =>
      cases u with
      | none => exact costs_pure _ _
      | some u =>
        simp only [Option.isSome_some, Bool.and_self, if_true]
        refine ((costs_query _).bind (d := l.length + l'.length) fun r => ?_).mono (by omega)
        cases r with
        | lt =>
          rcases h.next with ⟨rfl, i, hi⟩ | ⟨a, k, i, rfl, hi, hk⟩
          · rw [hi]
            simp only [pure_bind_ask]
            cases n with
            | zero => simp at hfuel
            | succ n => exact costs_pure (p := p) _ _
          · rw [hi]
            simp only [pure_bind_ask]
            simp only [List.length_cons] at hfuel ⊢
            exact (ih hk h' (some a) (some u) (by omega)).mono (by simp; omega)
        | eq => exact costs_pure (p := p) _ _
        | gt =>
          rcases h'.next with ⟨rfl, i, hi⟩ | ⟨a, k, i, rfl, hi, hk⟩
          · rw [hi]
            simp only [pure_bind_ask]
            cases n with
            | zero => simp at hfuel
            | succ n => exact costs_pure (p := p) _ _
          · rw [hi]
            simp only [pure_bind_ask]
            simp only [List.length_cons] at hfuel ⊢
            exact (ih h hk (some v) (some a) (by omega)).mono (by simp; omega)

theorem quietSet_iter {s : RBSet T} {l : List (T × Unit)} (h : s.map.Loose l) (hf : RBMap.Fits A s.map) : QuietSet A s.iter (l.map (·.1)) :=
  quiet_iter h hf _

theorem RBSet.isDisjointA_costs {s t : RBSet T} {l l' : List (T × Unit)} (h : s.map.Loose l) (h' : t.map.Loose l') (hf : RBMap.Fits A s.map)
    (hf' : RBMap.Fits A t.map) : Costs p (RBSet.isDisjointA A s t) (s.size + t.size - 1) := by
  have hs : s.size = (l.map (·.1)).length := by simp [RBSet.size, RBMap.getSize, h.size]
  have ht : t.size = (l'.map (·.1)).length := by simp [RBSet.size, RBMap.getSize, h'.size]
  have hp := quietSet_iter h hf
  have hp' := quietSet_iter h' hf'
  rw [hs, ht]
  unfold isDisjointA
  rw [hs, ht]
  revert hp hp'
  generalize l.map (·.1) = k
  generalize l'.map (·.1) = k'
  intro hp hp'
  rcases hp.next with ⟨rfl, i, hi⟩ | ⟨a, k, i, rfl, hi, hk⟩
  · rw [hi]
    rcases hp'.next with ⟨rfl, i', hi'⟩ | ⟨a', k', i', rfl, hi', hk'⟩
    · rw [hi']; exact costs_pure (p := p) _ _
    · rw [hi']; exact costs_pure (p := p) _ _
  · rw [hi]
    rcases hp'.next with ⟨rfl, i', hi'⟩ | ⟨a', k', i', rfl, hi', hk'⟩
    · rw [hi']; exact costs_pure (p := p) _ _
    · rw [hi']
      exact (disjointLoopA_costs hk hk' (some a) (some a') (by simp; omega)).mono (by simp; omega)

/-- The inner loop asks one question for each element it takes. -/
theorem RBSet.subsetInnerA_wp (v : T) {fuel : Nat} {it : RBIter T Unit} {l : List T} (h : QuietSet A it l) (hfuel : l.length < fuel) {n : Nat}
    {Φ : Option (RBIter T Unit) → Nat → Prop} (hn : l.length ≤ n) (h1 : ∀ m, Φ none m)
    (h2 : ∀ it' l' m, QuietSet A it' l' → l'.length ≤ m → l'.length < l.length → Φ (some it') m) :
    (RBSet.subsetInnerA A v fuel it).wp p n Φ := by
  induction fuel generalizing it l n with
  | zero => omega
  | succ k ih =>
    unfold subsetInnerA
    rcases h.next with ⟨rfl, i, hi⟩ | ⟨a, l', i, rfl, hi, hk⟩
    · rw [hi]; exact h1 _
    · rw [hi]
      simp only [List.length_cons] at hn hfuel h2
      refine wp_bind.2 (wp_query (by omega) fun x m hm hm' => ?_)
      cases x with
      | lt => exact ih hk (by omega) (by omega) fun it' l'' j g1 g2 g3 => h2 it' l'' j g1 g2 (by omega)
      | eq => exact h2 _ _ _ hk (by omega) (by omega)
      | gt => exact h1 _

theorem RBSet.subsetLoopA_wp {N fuel : Nat} {it it' : RBIter T Unit} {l l' : List T} (h : QuietSet A it l) (h' : QuietSet A it' l')
    (hfuel : l.length < fuel) (hN : l'.length ≤ N) {n : Nat} {Φ : Bool → Nat → Prop} (hn : l'.length ≤ n) (hΦ : ∀ b m, Φ b m) :
    (RBSet.subsetLoopA A N fuel it it').wp p n Φ := by
  induction fuel generalizing it it' l l' n with
  | zero => omega
  | succ k ih =>
    unfold subsetLoopA
    rcases h.next with ⟨rfl, i, hi⟩ | ⟨a, j, i, rfl, hi, hk⟩
    · rw [hi]; exact hΦ _ _
    · rw [hi]
      simp only [List.length_cons] at hfuel
      simp only [pure_bind_ask]
      refine wp_bind.2 (subsetInnerA_wp (fuel := N + 1) a h' (by omega) hn (fun m => hΦ _ _) fun i' l'' m g1 g2 g3 => ?_)
      exact ih hk g1 (by omega) (by omega) g2

/-- `is_subset` asks one question for each element of the other set, at most; none if the sets share their root or the sizes forbid. -/
theorem RBSet.isSubsetA_atMost {s t : RBSet T} {l l' : List (T × Unit)} (h : s.map.Loose l) (h' : t.map.Loose l') (hf : RBMap.Fits A s.map)
    (hf' : RBMap.Fits A t.map) (same : Bool) :
    (RBSet.isSubsetA A same s t).AtMost p (if same || decide (t.size < s.size) then 0 else t.size) := by
  have hs : s.size = (l.map (·.1)).length := by simp [RBSet.size, RBMap.getSize, h.size]
  have ht : t.size = (l'.map (·.1)).length := by simp [RBSet.size, RBMap.getSize, h'.size]
  unfold isSubsetA
  cases same with
  | true => exact trivial
  | false =>
    simp only [Bool.false_eq_true, if_false, Bool.false_or, decide_eq_true_eq]
    split
    · exact trivial
    · exact subsetLoopA_wp (quietSet_iter h hf) (quietSet_iter h' hf') (by omega) (by omega) (by omega) fun _ _ => trivial

end Sets
/-! ### Partial comparison; comparison of sets -/

section Compare
variable {K V T Q : Type} {A : Arch}

theorem RBMap.partialCmpPairA_run (o : OrdKeys K Q) (pcmpV : V → V → Option Ordering) (a b : K × V) :
    (RBMap.partialCmpPairA a b).run (RBQuestion.answerPartial o.self pcmpV) = .ok (RBMap.partialCmpPair o pcmpV a b) := by
  have h : (askKeysPartial a.1 b.1 : RBAsk K V K _).run (RBQuestion.answerPartial o.self pcmpV) = .ok (some (o.cmpK a.1 b.1)) := rfl
  simp only [partialCmpPairA, partialCmpPair, run_bind, h, Res.ok_bind]
  cases o.cmpK a.1 b.1 <;> rfl

theorem RBMap.partialCmpA_run (o : OrdKeys K Q) (pcmpV : V → V → Option Ordering) {a b : RBMap K V} {l l' : List (K × V)} (h : a.Loose l)
    (h' : b.Loose l') (hf : RBMap.Fits A a) (hf' : RBMap.Fits A b) :
    (RBMap.partialCmpA A a b).run (RBQuestion.answerPartial o.self pcmpV) = RBMap.partialCmp A o pcmpV a b := by
  have e := (h.drives hf o fun e => (e.1, e.2)).iterPartialCmp (h'.drives hf' o fun e => (e.1, e.2)) (cmp := RBMap.partialCmpPair o pcmpV)
    (fuel := a.size + 1) (by simp [h.size])
  exact (run_iterPartialCmpA _ (RBMap.partialCmpPairA_run o pcmpV) (quiet_iter h hf _) (quiet_iter h' hf' _) (by simp [h.size])).trans e.symm

theorem RBMap.partialCmpA_keys {a b : RBMap K V} {l l' : List (K × V)} (h : a.Loose l) (h' : b.Loose l') (hf : RBMap.Fits A a)
    (hf' : RBMap.Fits A b) : (RBMap.partialCmpA A a b).AtMost RBQuestion.onKeys (min a.size b.size) := by
  refine Costs.atMost (Costs.mono (iterPartialCmpA_costs (c := 1) (fun x y => ?_) (quiet_iter h hf _) (quiet_iter h' hf' _) (by simp [h.size]))
    (by simp [h.size, h'.size]))
  refine ((costs_query _).bind (d := 0) fun r => ?_)
  rcases r with _ | (_ | _ | _)
  · exact costs_pure _ _
  · exact costs_pure _ _
  · exact costs_query_free rfl
  · exact costs_pure _ _

theorem RBMap.partialCmpA_values {a b : RBMap K V} {l l' : List (K × V)} (h : a.Loose l) (h' : b.Loose l') (hf : RBMap.Fits A a)
    (hf' : RBMap.Fits A b) : (RBMap.partialCmpA A a b).AtMost RBQuestion.onValues (min a.size b.size) := by
  refine Costs.atMost (Costs.mono (iterPartialCmpA_costs (c := 1) (fun x y => ?_) (quiet_iter h hf _) (quiet_iter h' hf' _) (by simp [h.size]))
    (by simp [h.size, h'.size]))
  refine ((costs_query_free rfl).bind (d := 1) fun r => ?_).mono (by omega)
  rcases r with _ | (_ | _ | _)
  · exact costs_pure _ _
  · exact costs_pure _ _
  · exact costs_query _
  · exact costs_pure _ _

theorem RBSet.cmpA_run (o : OrdKeys T Q) (eqV : Unit → Unit → Bool) (cmpV : Unit → Unit → Ordering) (a b : RBSet T) :
    (RBSet.cmpA A a b).run (RBQuestion.answer o.self eqV cmpV) = RBSet.cmp A o a b :=
  run_iterCmpA _ (RBIter.mapNextA_run A o eqV cmpV _) (fun _ _ => rfl) _ _ _

theorem RBSet.partialCmpA_run (o : OrdKeys T Q) (eqV : Unit → Unit → Bool) (cmpV : Unit → Unit → Ordering) {a b : RBSet T}
    {l l' : List (T × Unit)} (h : a.map.Loose l) (h' : b.map.Loose l') (hf : RBMap.Fits A a.map) (hf' : RBMap.Fits A b.map) :
    (RBSet.partialCmpA A a b).run (RBQuestion.answer o.self eqV cmpV) = RBSet.partialCmp A o a b := by
  have e := (h.drives hf o fun e => e.1).iterPartialCmp (h'.drives hf' o fun e => e.1) (cmp := fun x y => some (o.cmpK x y))
    (fuel := a.map.size + 1) (by simp [h.size])
  exact (run_iterPartialCmpA _ (fun _ _ => rfl) (quiet_iter h hf fun e => e.1) (quiet_iter h' hf' fun e => e.1)
    (by simp [RBSet.size, RBMap.getSize, h.size])).trans e.symm

theorem RBSet.cmpA_costs {p : RBQuestion T Unit T → Bool} {a b : RBSet T} {l l' : List (T × Unit)} (h : a.map.Loose l) (h' : b.map.Loose l')
    (hf : RBMap.Fits A a.map) (hf' : RBMap.Fits A b.map) : Costs p (RBSet.cmpA A a b) (min a.size b.size) :=
  (iterCmpA_costs (c := 1) (fun _ _ => costs_query _) (quiet_iter h hf fun e => e.1) (quiet_iter h' hf' fun e => e.1)
    (by simp [RBSet.size, RBMap.getSize, h.size])).mono (by simp [RBSet.size, RBMap.getSize, h.size, h'.size])

theorem RBSet.partialCmpA_costs {p : RBQuestion T Unit T → Bool} {a b : RBSet T} {l l' : List (T × Unit)} (h : a.map.Loose l)
    (h' : b.map.Loose l') (hf : RBMap.Fits A a.map) (hf' : RBMap.Fits A b.map) : Costs p (RBSet.partialCmpA A a b) (min a.size b.size) :=
  (iterPartialCmpA_costs (c := 1) (fun _ _ => costs_query _) (quiet_iter h hf fun e => e.1) (quiet_iter h' hf' fun e => e.1)
    (by simp [RBSet.size, RBMap.getSize, h.size])).mono (by simp [RBSet.size, RBMap.getSize, h.size, h'.size])

end Compare
end Rpds
