import Verif.Heap.IterHashTrie
/-
How many memory cells iterators touch.

`Prog.count` runs a program and counts its actions.  `IterImpl.meter` gives each iterator a budget: starting it may touch one cell; it
then has `c0` touches saved, gets `c1` more at each call of `next` or `next_back`, cannot save more than `c0`, and panics if a call needs
more than it has.  An iterator that never panics touches at most `c0 + c1 * m` cells in any `m` calls in a row.
-/
set_option autoImplicit false
namespace Rpds
namespace Heap

section
variable {L α β : Type}

/-- Runs a program and counts the actions, from `n` on. -/
def Prog.count : Nat → Prog L α → Prog L (α × Nat)
  | n, .ret r => .ret (r, n)
  | _, .panic => .panic
  | n, .op a k => .op a fun y => count (n + 1) (k y)
  | n, .drop p k => .drop p (count (n + 1) k)

theorem Prog.count_bind (n : Nat) (prog : Prog L α) (f : α → Prog L β) :
    (prog.bind f).count n = (prog.count n).bind fun x => (f x.1).count x.2 := by
  induction prog generalizing n with
  | ret r => rfl
  | panic => rfl
  | op a k ih =>
    simp only [Prog.bind, Prog.count]
    congr 1
    funext y
    exact ih y (n + 1)
  | drop p k ih => simp only [Prog.bind, Prog.count, ih]

/-- Each way the program can return satisfies `P`, whatever the actions answer; the second argument of `P` is the number of actions,
counted from `n` on. -/
def Counts (P : α → Nat → Prop) : Prog L α → Nat → Prop
  | .ret r, n => P r n
  | .panic, _ => True
  | .op _ k, n => ∀ y, Counts P (k y) (n + 1)
  | .drop _ k, n => Counts P k (n + 1)

variable {P : α → Nat → Prop} {R : β → Nat → Prop}

theorem Counts.bind {prog : Prog L α} {f : α → Prog L β} {n : Nat} (h : Counts P prog n) (hf : ∀ r k, P r k → Counts R (f r) k) :
    Counts R (prog.bind f) n := by
  induction prog generalizing n with
  | ret r => exact hf _ _ h
  | panic => trivial
  | op a k ih => exact fun y => ih y (h y)
  | drop p k ih => exact ih h

theorem Counts.imp {P' : α → Nat → Prop} {prog : Prog L α} {n : Nat} (h : Counts P prog n) (hp : ∀ r k, P r k → P' r k) :
    Counts P' prog n := by
  induction prog generalizing n with
  | ret r => exact hp _ _ h
  | panic => trivial
  | op a k ih => exact fun y => ih y (h y)
  | drop p k ih => exact ih h

theorem counts_read {p : Addr} {n : Nat} : Counts (fun _ k => k = n + 1) (read (L := L) p) n := fun _ => rfl
theorem counts_lift {r : Res α} {n : Nat} : Counts (L := L) (fun x k => r = .ok x ∧ k = n) (lift r) n := by
  cases r with
  | error e => trivial
  | ok x => exact ⟨rfl, rfl⟩

variable {A : Allocator L} {D : Option Nat} {B : List (Item L)} {Q : α → List (Item L) → Prop} {S : α → Nat → List (Item L) → Prop}
  {S' : β → Nat → List (Item L) → Prop}

/-- `prog` runs without fault, and its result, the number of its actions and what it owns in the end satisfy `S`. -/
def SafeC (A : Allocator L) (D : Option Nat) (B : List (Item L)) (S : α → Nat → List (Item L) → Prop) (prog : Prog L α) (n : Nat)
    (ρ : List (Item L)) : Prop := SafeB A D B (fun x σ => S x.1 x.2 σ) (prog.count n) ρ

theorem SafeC.ret {r : α} {n : Nat} {ρ : List (Item L)} (h : S r n ρ) : SafeC A D B S (.ret r) n ρ := SafeB.ret h

theorem SafeC.bind {prog : Prog L α} {f : α → Prog L β} {n : Nat} {ρ : List (Item L)} (h : SafeC A D B S prog n ρ)
    (hf : ∀ r k σ, S r k σ → SafeC A D B S' (f r) k σ) : SafeC A D B S' (prog.bind f) n ρ := by
  unfold SafeC
  rw [Prog.count_bind]
  exact SafeB.bind h fun x σ hx => hf x.1 x.2 σ hx

theorem SafeC.imp {S'' : α → Nat → List (Item L) → Prop} {prog : Prog L α} {n : Nat} {ρ : List (Item L)} (h : SafeC A D B S prog n ρ)
    (hs : ∀ r k σ, S r k σ → S'' r k σ) : SafeC A D B S'' prog n ρ := SafeB.imp h fun x σ hx => hs x.1 x.2 σ hx

theorem SafeC.of {prog : Prog L α} {n : Nat} {ρ : List (Item L)} (h : SafeB A D B Q prog ρ) (hc : Counts P prog n) :
    SafeC A D B (fun r k σ => Q r σ ∧ P r k) prog n ρ := by
  induction prog generalizing n ρ with
  | ret r =>
    obtain ⟨σ, h1, h2⟩ := h
    exact ⟨σ, h1, h2, hc⟩
  | panic => exact h
  | op a k ih =>
    refine ⟨h.1, fun m F ho => ?_⟩
    obtain ⟨x, h', ρ', h1, h2, h3⟩ := h.2 m F ho
    exact ⟨x, h', ρ', h1, h2, ih x h3 (hc x)⟩
  | drop p k ih =>
    obtain ⟨t, τ, h1, h2, h3, h4⟩ := h
    exact ⟨t, τ, h1, h2, h3, ih h4 hc⟩

theorem SafeC.lift {r : Res α} {x : α} {f : α → Prog L β} {n : Nat} {ρ : List (Item L)} (h : r = .ok x) (hf : SafeC A D B S' (f x) n ρ) :
    SafeC A D B S' ((Heap.lift r).bind f) n ρ := by
  subst h
  exact hf

end

section
variable {L H J I X Y σ : Type}

/-- Iterators with a budget: their state has the touches saved and how many can be saved. -/
def IterImpl.meter (ii : IterImpl L H J I Y) (c0 : H → Nat) (c1 : Nat) : IterImpl L H J (I × Nat × Nat) Y where
  start h which := Prog.bind ((ii.start h which).count 0) fun x => if x.2 ≤ 1 then .ret (x.1, c0 h, c0 h) else .panic
  next it back := Prog.bind ((ii.next it.1 back).count 0) fun x =>
    if x.2 ≤ it.2.1 + c1 then .ret (x.1.1, (x.1.2, min it.2.2 (it.2.1 + c1 - x.2), it.2.2)) else .panic

/-- An iterator with budget whose potential `pot` is covered by what it has saved. -/
theorem IterImpl.meter_iterates {ii : IterImpl L H J I Y} {A : Allocator L} {R : H → σ → List (Item L) → Prop} {seq : σ → J → Res X}
    {inext : Bool → X → Res (Y × X)} {c0 : H → Nat} {c1 : Nat} {IR : List (Item L) → I → Nat → Nat → X → Prop}
    (hs : ∀ h s β which xs, R h s β → seq s which = .ok xs →
      SafeC A none β (fun it k τ => τ = [] ∧ k ≤ 1 ∧ ∃ p, p ≤ c0 h ∧ IR β it p (c0 h) xs) (ii.start h which) 0 [])
    (hn : ∀ β it p c xs back y ys, IR β it p c xs → inext back xs = .ok (y, ys) →
      SafeC A none β (fun z k τ => τ = [] ∧ z.1 = y ∧ ∃ p', p' ≤ c ∧ k + p' ≤ p + c1 ∧ IR β z.2 p' c ys) (ii.next it back) 0 []) :
    (ii.meter c0 c1).Iterates A R seq inext fun β it xs => ∃ p, p ≤ it.2.1 ∧ IR β it.1 p it.2.2 xs where
  start := by
    intro h s β which xs hR he
    refine SafeB.bind (hs h s β which xs hR he) ?_
    rintro ⟨it, k⟩ _ ⟨rfl, hk, p, hp, h1⟩
    simp only at hk ⊢
    rw [if_pos hk]
    exact SafeB.ret ⟨rfl, p, hp, h1⟩
  next := by
    rintro β ⟨it, n, c⟩ xs back y ys ⟨p, hp, h⟩ he
    refine SafeB.bind (hn β it p c xs back y ys h he) ?_
    rintro ⟨⟨y', it'⟩, k⟩ _ ⟨rfl, rfl, p', h1, h2, h3⟩
    simp only at hp h2 h3 ⊢
    rw [if_pos (by omega)]
    exact SafeB.ret ⟨rfl, rfl, p', by simp only; omega, h3⟩

/-- The same if the potential is a function of the iterator, and the bounds on the number of actions hold whatever they answer. -/
theorem IterImpl.Iterates.meter {ii : IterImpl L H J I Y} {A : Allocator L} {R : H → σ → List (Item L) → Prop} {seq : σ → J → Res X}
    {inext : Bool → X → Res (Y × X)} {c0 : H → Nat} {c1 : Nat} {IR : List (Item L) → I → X → Prop} (hi : ii.Iterates A R seq inext IR)
    (pot cap : I → Nat) (good : I → Prop) (hg : ∀ β it xs, IR β it xs → good it) (hc : ∀ it, pot it ≤ cap it)
    (hs : ∀ h which, Counts (fun it k => k ≤ 1 ∧ cap it ≤ c0 h) (ii.start h which) 0)
    (hn : ∀ it back, good it → Counts (fun z k => good z.2 → k + pot z.2 ≤ pot it + c1 ∧ cap z.2 ≤ cap it) (ii.next it back) 0) :
    ∃ IR', (ii.meter c0 c1).Iterates A R seq inext IR' := by
  refine ⟨_, IterImpl.meter_iterates (IR := fun β it p c xs => IR β it xs ∧ pot it = p ∧ cap it ≤ c) ?_ ?_⟩
  · intro h s β which xs hR he
    refine (SafeC.of (hi.start h s β which xs hR he) (hs h which)).imp ?_
    rintro it k τ ⟨⟨h1, h2⟩, h3, h4⟩
    exact ⟨h1, h3, pot it, by have := hc it; omega, h2, rfl, h4⟩
  · rintro β it _ c xs back y ys ⟨h, rfl, hcap⟩ he
    refine (SafeC.of (hi.next β it xs back y ys h he) (hn it back (hg _ _ _ h))).imp ?_
    rintro z k τ ⟨⟨h1, h2, h3⟩, h4⟩
    obtain ⟨h5, h6⟩ := h4 (hg _ _ _ h3)
    exact ⟨h1, h2, pot z.2, by have := hc z.2; omega, h5, h3, rfl, by omega⟩

/-- If calls with `ks` touches are paid from a budget, then those of any calls in a row are bounded. -/
def paid (c0 c1 : Nat) : Nat → List Nat → Bool
  | _, [] => true
  | n, k :: ks => decide (k ≤ n + c1) && paid c0 c1 (min c0 (n + c1 - k)) ks

theorem paid_sum {c0 c1 : Nat} : ∀ {ks : List Nat} {n : Nat}, paid c0 c1 n ks = true → ks.sum ≤ n + c1 * ks.length
  | [], n, _ => by simp
  | k :: ks, n, h => by
    simp only [paid, Bool.and_eq_true, decide_eq_true_eq] at h
    have := paid_sum h.2
    simp only [List.sum_cons, List.length_cons, Nat.mul_add, Nat.mul_one]
    omega

theorem paid_append {c0 c1 : Nat} : ∀ {ks ls : List Nat} {n : Nat}, n ≤ c0 → paid c0 c1 n (ks ++ ls) = true →
    paid c0 c1 n ks = true ∧ ∃ m, m ≤ c0 ∧ paid c0 c1 m ls = true
  | [], _, n, hn, h => ⟨rfl, n, hn, h⟩
  | k :: ks, ls, n, hn, h => by
    simp only [List.cons_append, paid, Bool.and_eq_true, decide_eq_true_eq] at h ⊢
    obtain ⟨h1, m, h2, h3⟩ := paid_append (Nat.min_le_left c0 _) h.2
    exact ⟨⟨h.1, h1⟩, m, h2, h3⟩

theorem paid_window {c0 c1 : Nat} {ks ls ms : List Nat} (h : paid c0 c1 c0 (ks ++ ls ++ ms) = true) : ls.sum ≤ c0 + c1 * ls.length := by
  rw [List.append_assoc] at h
  obtain ⟨-, m, h1, h2⟩ := paid_append (Nat.le_refl _) h
  have := paid_sum (paid_append h1 h2).1
  omega

/-! ### What budgets mean -/

theorem SafeB.unbind {α β : Type} {A : Allocator L} {D : Option Nat} {B : List (Item L)} {R : β → List (Item L) → Prop} {prog : Prog L α}
    {f : α → Prog L β} {ρ : List (Item L)} (h : SafeB A D B R (prog.bind f) ρ) :
    SafeB A D B (fun r σ => SafeB A D B R (f r) σ) prog ρ := by
  induction prog generalizing ρ with
  | ret r => exact ⟨ρ, .refl _, h⟩
  | panic => exact h
  | op a k ih =>
    refine ⟨h.1, fun m F ho => ?_⟩
    obtain ⟨x, h', ρ', h1, h2, h3⟩ := h.2 m F ho
    exact ⟨x, h', ρ', h1, h2, ih x h3⟩
  | drop p k ih =>
    obtain ⟨t, τ, h1, h2, h3, h4⟩ := h
    exact ⟨t, τ, h1, h2, h3, ih h4⟩

/-- Calls of `next` and `next_back`; the result has the answers and the number of touches of each call. -/
def IterImpl.calls (ii : IterImpl L H J I Y) : I → List Bool → Prog L (List (Y × Nat))
  | _, [] => .ret []
  | it, b :: bs => Prog.bind ((ii.next it b).count 0) fun x => Prog.bind (calls ii x.1.2 bs) fun r => .ret ((x.1.1, x.2) :: r)

/-- Starts an iterator and makes calls; the result also has the number of touches for the start. -/
def IterImpl.session (ii : IterImpl L H J I Y) (h : H) (which : J) (bs : List Bool) : Prog L (Nat × List (Y × Nat)) :=
  Prog.bind ((ii.start h which).count 0) fun x => Prog.bind (ii.calls x.1 bs) fun r => .ret (x.2, r)

/-- The same on plain values. -/
def pureCalls (inext : Bool → X → Res (Y × X)) : X → List Bool → Res (List Y)
  | _, [] => .ok []
  | xs, b :: bs => do
    let r ← inext b xs
    let ys ← pureCalls inext r.2 bs
    return r.1 :: ys

variable {ii : IterImpl L H J I Y} {A : Allocator L} {R : H → σ → List (Item L) → Prop} {seq : σ → J → Res X}
  {inext : Bool → X → Res (Y × X)} {c0 : H → Nat} {c1 : Nat} {IR : List (Item L) → I × Nat × Nat → X → Prop}

theorem IterImpl.Iterates.calls_paid (hi : (ii.meter c0 c1).Iterates A R seq inext IR) {β : List (Item L)} (bs : List Bool) {it : I}
    {n c : Nat} {xs : X} {ys : List Y} (h : IR β (it, n, c) xs) (he : pureCalls inext xs bs = .ok ys) :
    SafeB A none β (fun r τ => τ = [] ∧ r.map Prod.fst = ys ∧ paid c c1 n (r.map Prod.snd) = true) (ii.calls it bs) [] := by
  induction bs generalizing it n xs ys with
  | nil =>
    cases he
    exact SafeB.ret ⟨rfl, rfl, rfl⟩
  | cons b bs ih =>
    simp only [pureCalls] at he
    cases e1 : inext b xs with
    | error e => simp [e1] at he
    | ok z =>
      obtain ⟨y, xs'⟩ := z
      simp only [e1, Res.ok_bind] at he
      cases e2 : pureCalls inext xs' bs with
      | error e => simp [e2] at he
      | ok ys' =>
        simp only [e2, Res.ok_bind, Res.pure_eq, Except.ok.injEq] at he
        subst he
        refine SafeB.bind (hi.next β (it, n, c) xs b y xs' h e1).unbind ?_
        rintro ⟨⟨y', it'⟩, k⟩ τ hp
        dsimp only at hp ⊢
        by_cases hk : k ≤ n + c1
        · rw [if_pos hk] at hp
          obtain ⟨τ', h1, rfl, rfl, h2⟩ := hp
          obtain rfl := h1.eq_nil
          refine SafeB.bind (ih h2 e2) ?_
          rintro r _ ⟨rfl, rfl, h3⟩
          exact SafeB.ret ⟨rfl, rfl, by simp [paid, hk, h3]⟩
        · rw [if_neg hk] at hp
          exact hp.elim

/-- An iterator that keeps to a budget touches few cells in any number of calls in a row. -/
theorem IterImpl.Iterates.session_cost (hi : (ii.meter c0 c1).Iterates A R seq inext IR) {β : List (Item L)} {h : H} {s : σ} {which : J}
    {xs : X} {ys : List Y} {bs : List Bool} (hR : R h s β) (hs : seq s which = .ok xs) (he : pureCalls inext xs bs = .ok ys) :
    SafeB A none β (fun r τ => τ = [] ∧ r.1 ≤ 1 ∧ r.2.map Prod.fst = ys ∧
      ∀ before row after : List Nat, r.2.map Prod.snd = before ++ row ++ after → row.sum ≤ c0 h + c1 * row.length)
      (ii.session h which bs) [] := by
  refine SafeB.bind (hi.start h s β which xs hR hs).unbind ?_
  rintro ⟨it, k⟩ τ hp
  dsimp only at hp ⊢
  by_cases hk : k ≤ 1
  · rw [if_pos hk] at hp
    obtain ⟨τ', h1, rfl, h2⟩ := hp
    obtain rfl := h1.eq_nil
    refine SafeB.bind (hi.calls_paid bs h2 he) ?_
    rintro r _ ⟨rfl, rfl, h3⟩
    exact SafeB.ret ⟨rfl, hk, rfl, fun _ _ _ e => paid_window (e ▸ h3)⟩
  · rw [if_neg hk] at hp
    exact hp.elim

end

/-! ### `List`, `Stack` and `Queue` -/

section
variable {T : Type}

theorem HList.counts_readNode {L : Type} {p : Addr} {n : Nat} : Counts (fun _ k => k = n + 1) (HList.readNode (L := L) p) n := by
  refine Counts.bind (P := fun _ k => k = n + 1) counts_read ?_
  rintro ⟨l, cs⟩ k rfl
  match cs with
  | [] => trivial
  | [_] => exact rfl
  | [_, _] => exact rfl
  | _ :: _ :: _ :: _ => trivial

theorem counts_readValOpt {p : Option Addr} {n : Nat} : Counts (fun _ k => k ≤ n + 1) (readValOpt (T := T) p) n := by
  cases p with
  | none => exact Nat.le_succ n
  | some p =>
    refine Counts.bind (P := fun _ k => k = n + 1) (Counts.bind (P := fun _ k => k = n + 1) counts_read ?_) ?_
    · rintro ⟨l, cs⟩ k rfl
      cases l with
      | val v => exact rfl
      | _ => trivial
    · rintro v k rfl
      exact Nat.le_refl _

theorem HListIter.counts_step {L : Type} {it : HListIter} {n : Nat} :
    Counts (fun z k => k = n ∧ z.1 = none ∨ k = n + 1 ∧ z.1.isSome) (it.step (L := L)) n := by
  unfold HListIter.step
  split
  · exact .inl ⟨rfl, rfl⟩
  · refine Counts.bind (P := fun _ k => k = n + 1) HList.counts_readNode ?_
    rintro ⟨v, next⟩ k rfl
    cases csub it.length 1 with
    | error e => trivial
    | ok length => exact .inr ⟨rfl, rfl⟩

theorem listIters_meter {A : Allocator (LinLabel T)} {σ X : Type} {R : HList → σ → List (Item (LinLabel T)) → Prop}
    {seq : σ → Unit → Res X} {inext : Bool → X → Res ((Option T × Nat) × X)} {IR : List (Item (LinLabel T)) → HListIter → X → Prop}
    (hi : (listIters T).Iterates A R seq inext IR) : ∃ IR', ((listIters T).meter (fun _ => 0) 2).Iterates A R seq inext IR' := by
  refine hi.meter (fun _ => 0) (fun _ => 0) (fun _ => True) (fun _ _ _ _ => trivial) (fun _ => Nat.le_refl _)
    (fun h _ => ⟨Nat.zero_le _, Nat.le_refl _⟩) ?_
  intro it back _
  cases back with
  | true => trivial
  | false =>
    refine Counts.bind (P := fun _ k => k ≤ 1) (HListIter.counts_step.imp (by omega)) ?_
    rintro ⟨p, it'⟩ k hk
    refine Counts.bind counts_readValOpt ?_
    rintro v k' hk' -
    exact ⟨by omega, Nat.le_refl _⟩

theorem HLazyIter.counts_collect (fuel : Nat) {it : HListIter} {vec : List Addr} {n : Nat} :
    Counts (fun _ k => k + 1 ≤ n + fuel) (HLazyIter.collect (T := T) fuel it vec) n := by
  induction fuel generalizing it vec n with
  | zero => trivial
  | succ fuel ih =>
    refine Counts.bind HListIter.counts_step ?_
    rintro ⟨p, it'⟩ k hk
    cases p with
    | none =>
      simp at hk
      exact show k + 1 ≤ n + (fuel + 1) by omega
    | some p =>
      simp at hk
      exact ih.imp (by intro _ _ _; omega)

/-- The reads that are still to be made for the reversed list. -/
def HLazyIter.pot : HLazyIter → Nat
  | .uninitialized list => list.length
  | .initialized _ _ => 0

theorem HLazyIter.counts_stepInit {vec : List Addr} {current : Option Nat} {n : Nat} :
    Counts (fun z k => k = n ∧ z.2.pot = 0) (HLazyIter.stepInit (T := T) vec current) n := by
  unfold HLazyIter.stepInit
  split
  · exact ⟨rfl, rfl⟩
  · split
    · trivial
    · exact ⟨rfl, rfl⟩

theorem HLazyIter.counts_step {it : HLazyIter} {n : Nat} :
    Counts (fun z k => k + z.2.pot ≤ n + it.pot ∧ z.2.pot ≤ it.pot) (it.step (T := T)) n := by
  cases it with
  | uninitialized l =>
    refine Counts.bind (HLazyIter.counts_collect _) ?_
    rintro vec k hk
    refine HLazyIter.counts_stepInit.imp ?_
    rintro z k' ⟨rfl, h⟩
    simp only [HLazyIter.pot] at h ⊢
    omega
  | initialized vec current =>
    refine HLazyIter.counts_stepInit.imp ?_
    rintro z k' ⟨rfl, h⟩
    simp only [HLazyIter.pot] at h ⊢
    omega

theorem HQueueIter.counts_step {it : HQueueIter} {n : Nat} :
    Counts (fun z k => k + z.2.b.pot ≤ n + it.b.pot + 1 ∧ z.2.b.pot ≤ it.b.pot) (it.step (T := T)) n := by
  obtain ⟨a, b⟩ := it
  cases a with
  | none =>
    refine Counts.bind HLazyIter.counts_step ?_
    rintro ⟨p, b'⟩ k hk
    exact show k + b'.pot ≤ n + b.pot + 1 ∧ b'.pot ≤ b.pot by simp only at hk; omega
  | some a =>
    refine Counts.bind HListIter.counts_step ?_
    rintro ⟨p, a'⟩ k hk
    cases p with
    | some p =>
      simp at hk
      exact show k + b.pot ≤ n + b.pot + 1 ∧ b.pot ≤ b.pot by omega
    | none =>
      simp at hk
      refine Counts.bind HLazyIter.counts_step ?_
      rintro ⟨p, b'⟩ k' hk'
      exact show k' + b'.pot ≤ n + b.pot + 1 ∧ b'.pot ≤ b.pot by simp only at hk'; omega

theorem queueIters_meter {A : Allocator (LinLabel T)} :
    ∃ IR', ((queueIters T).meter (fun q => q.in_list.length) 2).Iterates A QueueIs (fun xs _ => .ok xs) fwNext IR' := by
  refine queueIters_iterates.meter (fun it => it.b.pot) (fun it => it.b.pot) (fun _ => True) (fun _ _ _ _ => trivial)
    (fun _ => Nat.le_refl _) (fun h _ => ⟨Nat.zero_le _, Nat.le_refl _⟩) ?_
  intro it back _
  cases back with
  | true => trivial
  | false =>
    refine Counts.bind HQueueIter.counts_step ?_
    rintro ⟨p, it'⟩ k hk
    refine Counts.bind counts_readValOpt ?_
    rintro v k' hk' -
    simp only at hk ⊢
    omega

end

/-! ### `HashTrieMap` and `HashTrieSet` -/

theorem IterImpl.adapt_meter {L H J I Y Y' : Type} (ii : IterImpl L H J I Y) (f : Y → Y') (c0 : H → Nat) (c1 : Nat) :
    (ii.adapt f).meter c0 c1 = (ii.meter c0 c1).adapt f := by
  unfold IterImpl.meter IterImpl.adapt
  congr 1
  funext it back
  simp only [Prog.count_bind, Prog.bind_assoc, Prog.count, Prog.bind]
  congr 1
  funext x
  split <;> rfl

namespace HT
variable {H K V Q : Type} {n : Nat}

theorem counts_readNode {p : Addr} : Counts (fun _ k => k = n + 1) (readNode (K := K) (V := V) p) n := by
  refine Counts.bind (P := fun _ k => k = n + 1) counts_read ?_
  rintro c k rfl
  cases HHNode.ofContent c with
  | none => trivial
  | some x => exact rfl

theorem counts_readEntry {p : Addr} : Counts (fun _ k => k = n + 1) (readEntry (K := K) (V := V) p) n := by
  refine Counts.bind (P := fun _ k => k = n + 1) counts_read ?_
  rintro ⟨l, cs⟩ k rfl
  cases l <;> first | exact rfl | trivial

theorem counts_readEwh {p : Addr} : Counts (fun _ k => k = n + 1) (readEwh (K := K) (V := V) p) n := by
  refine Counts.bind (P := fun _ k => k = n + 1) counts_read ?_
  rintro c k rfl
  split <;> first | exact rfl | trivial

theorem counts_htReadOpt {p : Option Addr} : Counts (fun _ k => k ≤ n + 1) (htReadOpt (K := K) (V := V) p) n := by
  cases p with
  | none => exact Nat.le_succ n
  | some p =>
    refine Counts.bind counts_readEntry ?_
    rintro _ k rfl
    exact Nat.le_refl _

theorem HHElem.counts_new {p : Addr} : Counts (fun _ k => k = n + 1) (HHElem.new (K := K) (V := V) p) n := by
  refine Counts.bind counts_readNode ?_
  rintro x k rfl
  cases x <;> exact rfl

theorem HHElem.counts_next {e : HHElem} : Counts (fun _ k => k ≤ n + 2) (e.next (K := K) (V := V)) n := by
  cases e with
  | branch rest =>
    cases rest with
    | nil => exact Nat.le_add_right _ _
    | cons p rest =>
      refine Counts.bind counts_readNode ?_
      rintro x k rfl
      cases x with
      | single e => exact Nat.le_succ _
      | branch _ _ =>
        refine Counts.bind HHElem.counts_new ?_
        rintro x k rfl
        exact Nat.le_refl _
      | collision _ =>
        refine Counts.bind HHElem.counts_new ?_
        rintro x k rfl
        exact Nat.le_refl _
  | leafCollision it =>
    refine Counts.bind HListIter.counts_step ?_
    rintro ⟨p, it'⟩ k hk
    cases p with
    | none => exact show k ≤ n + 2 by omega
    | some p =>
      refine Counts.bind counts_readEwh ?_
      rintro e k' rfl
      exact show k + 1 ≤ n + 2 by omega
  | leafSingle e => exact Nat.le_add_right _ _

theorem HHIter.counts_loop (fuel : Nat) {it : HHIter} : Counts (fun _ k => k ≤ n + 2 * fuel) (it.loop (K := K) (V := V) fuel) n := by
  induction fuel generalizing it n with
  | zero => trivial
  | succ fuel ih =>
    unfold HHIter.loop
    split
    · exact Nat.le_add_right _ _
    · refine Counts.bind HHElem.counts_next ?_
      rintro ⟨x, e⟩ k hk
      dsimp only
      split
      · refine Counts.bind counts_lift ?_
        rintro m k' ⟨-, rfl⟩
        exact show k' ≤ n + 2 * (fuel + 1) by omega
      · exact ih.imp (by intro _ _ _; omega)
      · exact ih.imp (by intro _ _ _; omega)

/-- The touches of one call. -/
def htStepCost : Nat := 4 * trieFuel + 3

theorem htIters_meter {Ar : Arch} {A : Allocator (HLabel K V)} {o : HashKeys H K Q} {k : Nat} :
    ∃ IR', ((htIters H K V).meter (fun _ => 0) htStepCost).Iterates A (HTIs Ar o k) (fun m _ => .ok m.items) fwNext IR' := by
  refine htIters_iterates.meter (fun _ => 0) (fun _ => 0) (fun _ => True) (fun _ _ _ _ => trivial) (fun _ => Nat.le_refl _) ?_ ?_
  · intro m _
    show Counts _ (HHIter.new m) 0
    unfold HHIter.new
    split
    · refine Counts.bind HHElem.counts_new ?_
      rintro x k rfl
      exact ⟨Nat.le_refl _, Nat.le_refl _⟩
    · exact ⟨Nat.zero_le _, Nat.le_refl _⟩
  · intro it back _
    cases back with
    | true => trivial
    | false =>
      refine Counts.bind (HHIter.counts_loop _) ?_
      rintro ⟨p, it'⟩ k hk
      refine Counts.bind counts_htReadOpt ?_
      rintro v k' hk' -
      exact ⟨by simp only [htStepCost]; omega, Nat.le_refl _⟩

theorem htSetIters_meter {T : Type} {Ar : Arch} {A : Allocator (HLabel T Unit)} {o : HashKeys H T Q} {k : Nat} :
    ∃ IR', ((htSetIters H T).meter (fun _ => 0) htStepCost).Iterates A (HTIs Ar o k) (fun m _ => .ok (m.items.map Prod.fst)) fwNext IR' := by
  obtain ⟨IR, h⟩ := htIters_meter (H := H) (K := T) (V := Unit) (Ar := Ar) (A := A) (o := o) (k := k)
  unfold htSetIters
  rw [IterImpl.adapt_meter]
  have := h.adapt setItem (S := fun m m' => m = m')
    (S' := fun ys xs => ys.map Prod.fst = xs) (seq' := fun m (_ : Unit) => .ok (m.items.map Prod.fst)) (inext' := fwNext) ?_ ?_
  · refine ⟨_, ?_, this.next⟩
    intro h s β which xs hR he
    exact this.start h s β which xs ⟨s, hR, rfl⟩ he
  · rintro m _ _ x' rfl he
    cases he
    exact ⟨_, rfl, rfl⟩
  · rintro back ys _ y' z' rfl he
    cases back with
    | true => cases he
    | false =>
      simp only [fwNext, Bool.false_eq_true, if_false, Except.ok.injEq, Prod.mk.injEq] at he
      obtain ⟨rfl, rfl⟩ := he
      exact ⟨_, _, rfl, by simp [setItem], by simp⟩

end HT

/-! ### `RedBlackTreeMap` and `RedBlackTreeSet` -/

section
variable {K V Q : Type} {Ar : Arch} {o : OrdKeys K Q} {n : Nat}

theorem counts_readNode {p : Addr} : Counts (fun _ k => k = n + 1) (readNode (K := K) (V := V) p) n := by
  refine Counts.bind (P := fun _ k => k = n + 1) counts_read ?_
  rintro c k rfl
  cases HRBNode.ofContent c with
  | none => trivial
  | some x => exact rfl

theorem counts_readEntry {p : Addr} : Counts (fun _ k => k = n + 1) (readEntry (K := K) (V := V) p) n := by
  refine Counts.bind (P := fun _ k => k = n + 1) counts_read ?_
  rintro ⟨l, cs⟩ k rfl
  cases l <;> first | exact rfl | trivial

theorem counts_rbReadOpt {p : Option Addr} : Counts (fun _ k => k ≤ n + 1) (rbReadOpt (K := K) (V := V) p) n := by
  cases p with
  | none => exact Nat.le_succ n
  | some p =>
    refine Counts.bind counts_readEntry ?_
    rintro _ k rfl
    exact Nat.le_refl _

namespace HIterStack
variable {s : HIterStack} {start end_ : Bound Q}

theorem counts_current : Counts (fun _ k => k ≤ n + 1) (s.current (K := K) (V := V)) n := by
  unfold current
  split
  · exact Nat.le_succ n
  · refine Counts.bind counts_readNode ?_
    rintro _ k rfl
    exact Nat.le_refl _

theorem counts_clearIfFinished :
    Counts (fun r k => k ≤ n + 2 ∧ (r = s ∨ r.stack = [])) (s.clearIfFinished (K := K) (V := V) o start end_) n := by
  refine Counts.bind counts_current ?_
  intro c k hk
  cases c with
  | none => exact ⟨by omega, .inl rfl⟩
  | some p =>
    refine Counts.bind counts_readEntry ?_
    rintro _ k rfl
    refine ⟨by omega, ?_⟩
    generalize (if s.backwards = true then _ else _ : Bool) = b
    cases b with
    | true => exact .inl rfl
    | false => exact .inr rfl

theorem counts_digChild (fuel : Nat) {c : Option Addr} :
    Counts (fun r k => k ≤ n + fuel ∧ k + s.stack.length = n + r.stack.length) (digChild (K := K) (V := V) fuel s c) n := by
  induction fuel generalizing s c n with
  | zero =>
    cases c with
    | none => exact ⟨Nat.le_refl _, rfl⟩
    | some c => trivial
  | succ fuel ih =>
    cases c with
    | none => exact ⟨Nat.le_add_right _ _, rfl⟩
    | some c =>
      refine Counts.bind counts_readNode ?_
      rintro x k rfl
      refine ih.imp ?_
      rintro r k ⟨h1, h2⟩
      simp only [List.length_cons] at h2
      omega

theorem counts_digTowards (fuel : Nat) {c : Option Addr} :
    Counts (fun _ k => k ≤ n + 2 * fuel) (digTowards (K := K) (V := V) o start end_ fuel s c) n := by
  induction fuel generalizing s c n with
  | zero =>
    cases c with
    | none => exact Nat.le_refl _
    | some c => trivial
  | succ fuel ih =>
    cases c with
    | none => exact Nat.le_add_right _ _
    | some c =>
      refine Counts.bind counts_readNode ?_
      rintro x k rfl
      refine Counts.bind counts_readEntry ?_
      rintro e k rfl
      dsimp only
      split <;> exact ih.imp (by intro _ _ _; omega)

theorem counts_new {map : HRBMap} {b : Bool} : Counts (fun _ k => k ≤ n + 2 * map.fuel + 2) (new (K := K) (V := V) Ar o map start end_ b) n := by
  refine Counts.bind counts_lift ?_
  rintro h k ⟨-, rfl⟩
  refine Counts.bind counts_lift ?_
  rintro h' k ⟨-, rfl⟩
  refine Counts.bind (counts_digTowards _) ?_
  rintro s k hk
  exact counts_clearIfFinished.imp (by rintro _ _ ⟨h, -⟩; omega)

theorem counts_advance {fuel : Nat} :
    Counts (fun r k => if s.stack = [] then r = s ∧ k = n else
        if r.stack = [] then k ≤ n + 4 + fuel else k + s.stack.length ≤ n + 4 + r.stack.length)
      (s.advance (K := K) (V := V) o fuel start end_) n := by
  obtain ⟨st, bw⟩ := s
  cases st with
  | nil => exact ⟨rfl, rfl⟩
  | cons p rest =>
    refine Counts.bind counts_readNode ?_
    rintro x k rfl
    dsimp only
    refine Counts.bind (P := fun r k => k ≤ n + 2 + fuel ∧ k + (rest.length + 1) ≤ n + 2 + r.stack.length) ?_ ?_
    · split
      · exact ⟨by omega, by simp only; omega⟩
      · unfold dig
        dsimp only
        refine Counts.bind counts_readNode ?_
        rintro x k rfl
        refine (counts_digChild _).imp ?_
        rintro r k ⟨h1, h2⟩
        simp only [List.length_cons] at h2
        exact ⟨by omega, by omega⟩
    · rintro r k ⟨h1, h2⟩
      refine counts_clearIfFinished.imp ?_
      rintro r' k' ⟨h3, h4⟩
      rw [if_neg (by simp)]
      split
      · omega
      · next h5 =>
        rcases h4 with rfl | h4
        · simp only [List.length_cons]
          omega
        · exact absurd h4 h5

end HIterStack

/-- What one end of an iterator may still need besides a constant for each call: getting started, going down, and going down in vain
before it is found to be finished. -/
def rbPot (F : Nat) : Option HIterStack → Nat
  | none => 4 * F + 2
  | some s => if s.stack = [] then 0 else F - s.stack.length + F

theorem rbPot_le (F : Nat) (s : Option HIterStack) : rbPot F s ≤ 4 * F + 2 := by
  unfold rbPot
  split
  · exact Nat.le_refl _
  · split <;> omega

/-- The stacks are not higher than the tree. -/
def rbLow (F : Nat) (s : Option HIterStack) : Prop := ∀ t, s = some t → t.stack.length ≤ F

namespace HRBRange
variable {it : HRBRange Q}

/-- The potential of an iterator. -/
def pot (it : HRBRange Q) : Nat := rbPot it.map.fuel it.stackForward + rbPot it.map.fuel it.stackBackward

/-- The stacks are not higher than the tree. -/
def Low (it : HRBRange Q) : Prop := rbLow it.map.fuel it.stackForward ∧ rbLow it.map.fuel it.stackBackward

theorem counts_isRemainingRangeEmpty : Counts (fun _ k => k ≤ n + 4) (it.isRemainingRangeEmpty (K := K) (V := V) o) n := by
  unfold isRemainingRangeEmpty
  split
  · refine Counts.bind HIterStack.counts_current ?_
    intro l k hk
    refine Counts.bind HIterStack.counts_current ?_
    intro r k' hk'
    split
    · refine Counts.bind counts_readEntry ?_
      rintro _ _ rfl
      refine Counts.bind counts_readEntry ?_
      rintro _ _ rfl
      exact show k' + 1 + 1 ≤ n + 4 by omega
    · exact show k' ≤ n + 4 by omega
  · exact Nat.le_add_right _ _

theorem counts_current {b : Bool} : Counts (fun _ k => k ≤ n + 5) (it.current (K := K) (V := V) o b) n := by
  refine Counts.bind counts_isRemainingRangeEmpty ?_
  intro e k hk
  cases e with
  | true => exact show k ≤ n + 5 by omega
  | false =>
    refine Counts.bind counts_lift ?_
    rintro s k ⟨-, rfl⟩
    exact HIterStack.counts_current.imp (by intro _ _ _; omega)

/-- One call, seen from the end it works at. -/
theorem pot_step {F k k₁ k₂ m : Nat} {so : Option HIterStack} {s r : HIterStack} (h1 : so = none ∧ k₁ ≤ m + 2 * F + 2 ∨ so = some s ∧ k₁ = m)
    (h2 : k₂ ≤ k₁ + 5) (h3 : if s.stack = [] then r = s ∧ k = k₂ else
      if r.stack = [] then k ≤ k₂ + 4 + F else k + s.stack.length ≤ k₂ + 4 + r.stack.length)
    (hs : rbLow F so) (hr : rbLow F (some r)) : k + rbPot F (some r) ≤ m + rbPot F so + 9 := by
  have hr := hr r rfl
  have hp : rbPot F (some r) = if r.stack = [] then 0 else F - r.stack.length + F := rfl
  rw [hp]
  rcases h1 with ⟨rfl, h1⟩ | ⟨rfl, h1⟩
  · have hp : rbPot F none = 4 * F + 2 := rfl
    rw [hp]
    split at h3
    · next h =>
      obtain ⟨rfl, rfl⟩ := h3
      rw [if_pos h]
      omega
    · split at h3
      · next h =>
        rw [if_pos h]
        omega
      · next h =>
        rw [if_neg h]
        omega
  · have hs := hs s rfl
    have hp : rbPot F (some s) = if s.stack = [] then 0 else F - s.stack.length + F := rfl
    rw [hp]
    split at h3
    · next h =>
      obtain ⟨rfl, rfl⟩ := h3
      rw [if_pos h]
      omega
    · next h0 =>
      rw [if_neg h0]
      split at h3
      · next h =>
        rw [if_pos h]
        omega
      · next h =>
        rw [if_neg h]
        omega

theorem counts_next {b : Bool} (hl : it.Low) :
    Counts (fun z k => z.2.Low → k + z.2.pot ≤ n + it.pot + 9 ∧ z.2.map = it.map) (it.next (K := K) (V := V) Ar o b) n := by
  obtain ⟨map, sf, sb, st, en⟩ := it
  obtain ⟨hf, hb⟩ := hl
  simp only at hf hb
  unfold next
  refine Counts.bind (P := fun it' k => ∃ s, it' = (if b then ⟨map, sf, some s, st, en⟩ else ⟨map, some s, sb, st, en⟩) ∧
    ((if b then sb else sf) = none ∧ k ≤ n + 2 * map.fuel + 2 ∨ (if b then sb else sf) = some s ∧ k = n)) ?_ ?_
  · cases b with
    | true =>
      cases sb with
      | none =>
        refine Counts.bind HIterStack.counts_new ?_
        exact fun s k hk => ⟨s, rfl, .inl ⟨rfl, hk⟩⟩
      | some s => exact ⟨s, rfl, .inr ⟨rfl, rfl⟩⟩
    | false =>
      cases sf with
      | none =>
        refine Counts.bind HIterStack.counts_new ?_
        exact fun s k hk => ⟨s, rfl, .inl ⟨rfl, hk⟩⟩
      | some s => exact ⟨s, rfl, .inr ⟨rfl, rfl⟩⟩
  · rintro _ k₁ ⟨s, rfl, h1⟩
    refine Counts.bind counts_current ?_
    intro c k₂ h2
    unfold advance
    refine Counts.bind (P := fun it' k => ∃ r, it' = (if b then ⟨map, sf, some r, st, en⟩ else ⟨map, some r, sb, st, en⟩) ∧
        (if s.stack = [] then r = s ∧ k = k₂ else
          if r.stack = [] then k ≤ k₂ + 4 + map.fuel else k + s.stack.length ≤ k₂ + 4 + r.stack.length))
      (Counts.bind (P := fun x k => x = s ∧ k = k₂) ?_ ?_) ?_
    · cases b <;> exact ⟨rfl, rfl⟩
    · rintro _ _ ⟨rfl, rfl⟩
      refine Counts.bind HIterStack.counts_advance ?_
      intro r k h3
      refine ⟨r, ?_, ?_⟩
      · cases b <;> rfl
      · cases b <;> exact h3
    · rintro _ k ⟨r, rfl, h3⟩ hl'
      cases b with
      | true =>
        have := pot_step h1 h2 h3 hb hl'.2
        simp only [if_true, pot] at this ⊢
        exact ⟨by omega, trivial⟩
      | false =>
        have := pot_step h1 h2 h3 hf hl'.1
        simp only [Bool.false_eq_true, if_false, pot] at this ⊢
        exact ⟨by omega, trivial⟩

theorem Is.low {A : Arch} {o : OrdKeys K Q} {β : List (Item (RLabel K V))} {N : Nat} {it' : RBRangeIter K V Q} {m : RBMap K V} {start end_ : Bound Q}
    {rem : List (K × V)} (h : it.Is β N it') (hr : RBRangeIter.Rel A o m start end_ it' rem) : it.Low := by
  obtain ⟨t, -, -, -, h4⟩ := h.root
  have hN := h.fuel
  obtain ⟨i, j, -, -, h1, h2⟩ := hr.stacks
  rw [hr.map] at h4
  refine ⟨?_, ?_⟩
  · intro s hs
    have := h.forward
    rw [hs] at this
    cases hs' : it'.stackForward with
    | none => rw [hs'] at this; cases this
    | some s' =>
      rw [hs'] at this h1
      cases this with
      | some this =>
        have := f2_length this.nodes
        have := h1.2.chain.length_le
        omega
  · intro s hs
    have := h.backward
    rw [hs] at this
    cases hs' : it'.stackBackward with
    | none => rw [hs'] at this; cases this
    | some s' =>
      rw [hs'] at this h2
      cases this with
      | some this =>
        have := f2_length this.nodes
        have := h2.2.chain.length_le
        omega

end HRBRange

/-- The touches saved for an iterator over a map or set, of the order of the logarithm of its size. -/
def rbSaved (m : HRBMap) : Nat := 2 * (4 * m.fuel + 2)

theorem rbIters_meter (Ar : Arch) {o : OrdKeys K Q} (lo : o.Lawful) (A : Allocator (RLabel K V)) :
    ∃ IR', ((rbIters K V Ar o).meter rbSaved 10).Iterates A (fun hm l ρ => ∃ m, RBIs o hm m ρ ∧ m.Rep o l) (rbSeq Ar.W o) mixNext IR' := by
  refine (rbIters_iterates Ar lo A).meter (fun | .inl it => it.rangeIter.pot | .inr it => it.pot)
    (fun | .inl it => rbSaved it.rangeIter.map | .inr it => rbSaved it.map) (fun | .inl it => it.rangeIter.Low | .inr it => it.Low) ?_ ?_ ?_ ?_
  · rintro β it ⟨b, xs⟩ h
    cases it with
    | inl it =>
      obtain ⟨-, -, N, m, it', h1, -, h3⟩ := h
      exact h1.low h3.range
    | inr it =>
      obtain ⟨-, -, N, m, start, end_, it', h1, h3⟩ := h
      exact h1.low h3
  · rintro (it | it)
    · have h1 := rbPot_le it.rangeIter.map.fuel it.rangeIter.stackForward
      have h2 := rbPot_le it.rangeIter.map.fuel it.rangeIter.stackBackward
      simp only [HRBRange.pot, rbSaved]
      omega
    · have h1 := rbPot_le it.map.fuel it.stackForward
      have h2 := rbPot_le it.map.fuel it.stackBackward
      simp only [HRBRange.pot, rbSaved]
      omega
  · intro m which
    cases which with
    | all => exact ⟨Nat.zero_le _, Nat.le_refl _⟩
    | range start end_ =>
      show Counts _ (if _ then _ else _) 0
      split
      · trivial
      · split
        · trivial
        · exact ⟨Nat.zero_le _, Nat.le_refl _⟩
  · rintro (it | it) back hl
    · refine Counts.bind (P := fun z k => z.2.rangeIter.Low → k + z.2.rangeIter.pot ≤ 0 + it.rangeIter.pot + 9 ∧ z.2.rangeIter.map = it.rangeIter.map) ?_ ?_
      · unfold HRBIter.next
        split
        · refine Counts.bind counts_lift ?_
          rintro _ _ ⟨-, rfl⟩
          refine Counts.bind (HRBRange.counts_next hl) ?_
          intro x k hk
          exact hk
        · exact fun _ => ⟨by dsimp only; omega, rfl⟩
      · intro x k hk
        refine Counts.bind counts_rbReadOpt ?_
        intro e k' hk' hl'
        obtain ⟨h1, h2⟩ := hk hl'
        exact ⟨by dsimp only; omega, by dsimp only; rw [h2]; exact Nat.le_refl _⟩
    · refine Counts.bind (HRBRange.counts_next hl) ?_
      intro x k hk
      refine Counts.bind counts_rbReadOpt ?_
      intro e k' hk' hl'
      obtain ⟨h1, h2⟩ := hk hl'
      exact ⟨by dsimp only; omega, by dsimp only; rw [h2]; exact Nat.le_refl _⟩

theorem rbSetIters_meter {T : Type} (Ar : Arch) {o : OrdKeys T Q} (lo : o.Lawful) (A : Allocator (RLabel T Unit)) :
    ∃ IR', ((rbSetIters T Ar o).meter rbSaved 10).Iterates A
      (fun hm l ρ => ∃ s, (∃ m, RBIs o hm m ρ ∧ m.Rep o s) ∧ s = Spec.unitPairs l) (rbSetSeq Ar.W o) mixNext IR' := by
  obtain ⟨IR, h⟩ := rbIters_meter (K := T) (V := Unit) Ar lo A
  unfold rbSetIters
  rw [IterImpl.adapt_meter]
  refine ⟨_, h.adapt setItem (S := fun s l => s = Spec.unitPairs l) (S' := fun x x' => x = (x'.1, Spec.unitPairs x'.2)) ?_
    fun _ _ _ _ _ h he => mixNext_unit h he⟩
  exact fun _ _ _ _ h he => rbSetSeq_ok h he

end

end Heap
end Rpds
