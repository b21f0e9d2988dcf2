import Verif.Heap.Iterate
import Verif.Heap.SharedLinear
/-
Iterators of `List`, `Stack` and `Queue` on the heap, which read the nodes when they are asked for items.
-/
set_option autoImplicit false
namespace Rpds
namespace Heap

section
variable {L : Type} {A : Allocator L} {D : Option Nat}

/-- A node that can be reached from the borrowed items. -/
def Seen (β : List (Item L)) (s : ATree L) : Prop := ∃ t, Sub s t ∧ .ptr t ∈ β

theorem Seen.kid {β : List (Item L)} {s u : ATree L} (h : Seen β s) (hu : u ∈ s.kids) : Seen β u := by
  obtain ⟨t, h1, h2⟩ := h
  exact ⟨t, .kid h1 hu, h2⟩

theorem Seen.root {β : List (Item L)} {t : ATree L} (h : .ptr t ∈ β) : Seen β t := ⟨t, .refl t, h⟩

theorem Seen.more {β γ : List (Item L)} {s : ATree L} (h : Seen β s) (hm : ∀ x ∈ β, x ∈ γ) : Seen γ s := by
  obtain ⟨t, h1, h2⟩ := h
  exact ⟨t, h1, hm _ h2⟩

theorem Seen.read {β : List (Item L)} {s : ATree L} (h : Seen β s) (ρ : List (Item L)) :
    SafeB A D β (fun c σ => c = (s.label, s.kids.map ATree.addr) ∧ σ = ρ) (read s.addr) ρ := by
  obtain ⟨t, h1, h2⟩ := h
  exact safeB_read h1 h2 ρ

end

variable {T : Type}

/-- `struct IterPtr` (list/mod.rs:424-430). -/
structure HListIter where
  next : Option Addr
  length : Nat
  deriving DecidableEq, Repr

/-- `IterPtr::new` (list/mod.rs:436-438). -/
def HListIter.new (l : HList) : HListIter := { next := l.head, length := l.length }

/-- `Iterator::next for IterPtr` (list/mod.rs:447-456), answering a pointer to the element. -/
def HListIter.step {L : Type} (it : HListIter) : Prog L (Option Addr × HListIter) :=
  match it.next with
  | none => pure (none, it)
  | some p => do
    let (value, next) ← HList.readNode p
    match csub it.length 1 with
    | .error _ => .panic
    | .ok length => pure (some value, { next, length })

/-- `Iter` of `List`: the elements behind the pointers, and `size_hint`. -/
def listIters (T : Type) : IterImpl (LinLabel T) HList Unit HListIter (Option T × Nat) where
  start l _ := pure (.new l)
  next it back :=
    if back then .panic
    else do
      let (p, it) ← it.step
      let v ← readValOpt p
      pure ((v, it.length), it)

/-- `enum LazilyReversedListIter` (queue/mod.rs:298-304). -/
inductive HLazyIter where
  | uninitialized (list : HList)
  | initialized (vec : List Addr) (current : Option Nat)
  deriving DecidableEq, Repr

/-- The `for` loop of `next` (queue/mod.rs:327-329). -/
def HLazyIter.collect : (fuel : Nat) → HListIter → List Addr → Prog (LinLabel T) (List Addr)
  | 0, _, _ => .panic
  | fuel + 1, it, vec => do
    match ← it.step with
    | (none, _) => pure vec
    | (some v, it) => collect fuel it (vec ++ [v])

/-- The `Initialized` arm of `next` (queue/mod.rs:339-349). -/
def HLazyIter.stepInit (vec : List Addr) (current : Option Nat) : Prog (LinLabel T) (Option Addr × HLazyIter) :=
  match current with
  | none => pure (none, .initialized vec none)
  | some i =>
    match vec[i]? with
    | none => .panic
    | some v => pure (some v, .initialized vec (match i with | 0 => none | i + 1 => some i))

/-- `Iterator::next for LazilyReversedListIter` (queue/mod.rs:321-351). -/
def HLazyIter.step : HLazyIter → Prog (LinLabel T) (Option Addr × HLazyIter)
  | .uninitialized list => do
    let vec ← collect (list.length + 1) (.new list) []
    stepInit vec (if list.length > 0 then some (list.length - 1) else none)
  | .initialized vec current => stepInit vec current

/-- `size_hint` (queue/mod.rs:353-361). -/
def HLazyIter.sizeHint : HLazyIter → Nat
  | .uninitialized list => list.length
  | .initialized _ (some i) => i + 1
  | .initialized _ none => 0

/-- std's `Chain` of the two iterators of a queue (queue/mod.rs:186-188). -/
structure HQueueIter where
  a : Option HListIter
  b : HLazyIter
  deriving DecidableEq, Repr

/-- std `Chain::next`. -/
def HQueueIter.step (it : HQueueIter) : Prog (LinLabel T) (Option Addr × HQueueIter) :=
  match it.a with
  | some a => do
    match ← a.step with
    | (some p, a) => pure (some p, { it with a := some a })
    | (none, _) => do
      let (p, b) ← it.b.step
      pure (p, { a := none, b })
  | none => do
    let (p, b) ← it.b.step
    pure (p, { a := none, b })

/-- std `Chain::size_hint`. -/
def HQueueIter.sizeHint (it : HQueueIter) : Nat :=
  match it.a with
  | some a => a.length + it.b.sizeHint
  | none => it.b.sizeHint

/-- `Iter` of `Queue`. -/
def queueIters (T : Type) : IterImpl (LinLabel T) HQueue Unit HQueueIter (Option T × Nat) where
  start q _ := pure { a := some (.new q.out_list), b := .uninitialized q.in_list }
  next it back :=
    if back then .panic
    else do
      let (p, it) ← it.step
      let v ← readValOpt p
      pure ((v, it.sizeHint), it)

section
variable {A : Allocator (LinLabel T)} {D : Option Nat} {β : List (Item (LinLabel T))}

/-- An element cell that can be reached. -/
def ElemAt (β : List (Item (LinLabel T))) (p : Addr) (v : T) : Prop := ∃ s, s.addr = p ∧ linDec s v ∧ Seen β s

theorem ElemAt.readOpt {p : Option Addr} {v : Option T} (h : OptRel (ElemAt β) p v) (ρ : List (Item (LinLabel T))) :
    SafeB A D β (fun r σ => r = v ∧ σ = ρ) (readValOpt p) ρ := by
  cases h with
  | none => exact SafeB.ret ⟨rfl, rfl⟩
  | @some _ v h =>
    obtain ⟨s, rfl, h1, h2⟩ := h
    refine SafeB.bind (Q := fun r σ => r = v ∧ σ = ρ) (SafeB.bind (h2.read ρ) ?_) ?_
    · rintro c σ ⟨rfl, rfl⟩
      rw [h1.1]
      exact SafeB.ret ⟨rfl, rfl⟩
    · rintro _ _ ⟨rfl, rfl⟩
      exact SafeB.ret ⟨rfl, rfl⟩

/-- An iterator over the nodes from `next` on. -/
def ListItIs (β : List (Item (LinLabel T))) (it : HListIter) (xs : List T) : Prop :=
  ∃ (tn : Option (ATree (LinLabel T))) (next : Link T), IsLink .node linDec tn next ∧ it.next = tn.map ATree.addr ∧ next.toList = xs ∧
    it.length = xs.length ∧ ∀ s, tn = some s → Seen β s

theorem ListItIs.new {l : HList} {xs : List T} {ρ : List (Item (LinLabel T))} (h : ListIs l xs ρ) (hm : ∀ x ∈ ρ, x ∈ β) :
    ListItIs β (.new l) xs := by
  obtain ⟨r, ⟨th, tl, rfl, rfl, h1, h2⟩, hr⟩ := h
  refine ⟨th, r.head, h1, rfl, hr.head, hr.length, ?_⟩
  rintro s rfl
  exact .root (hm _ (by simp))

theorem ListItIs.step {it : HListIter} {xs : List T} (h : ListItIs β it xs) (ρ : List (Item (LinLabel T))) :
    SafeB A D β (fun r σ => σ = ρ ∧ OptRel (ElemAt β) r.1 xs.head? ∧ ListItIs β r.2 xs.tail) it.step ρ := by
  obtain ⟨tn, next, h1, h2, h3, h4, h5⟩ := h
  unfold HListIter.step
  rw [h2]
  cases h1 with
  | none =>
    simp only [Link.toList] at h3
    subst h3
    exact SafeB.ret ⟨rfl, .none, none, .none, .none, h2, rfl, h4, by simp⟩
  | @some a tv tn v next hv hn =>
    simp only [Link.toList] at h3
    subst h3
    obtain ⟨t, e1, e2⟩ := h5 _ rfl
    refine SafeB.bind (HList.safeB_readNode rfl e1 e2 ρ) ?_
    rintro _ _ ⟨rfl, rfl⟩
    have : csub it.length 1 = .ok next.toList.length := by
      simp [csub, h4]
    rw [this]
    refine SafeB.ret ⟨rfl, .some ⟨tv, rfl, hv, t, .kid e1 (by simp [ATree.kids]), e2⟩, tn, next, hn, rfl, rfl, rfl, ?_⟩
    rintro s rfl
    exact ⟨t, .kid e1 (by simp [ATree.kids]), e2⟩

theorem listIters_iterates : (listIters T).Iterates A ListIs (fun xs _ => .ok xs) fwNext ListItIs where
  start := by
    intro l xs β _ ys h he
    cases he
    exact SafeB.ret ⟨rfl, .new h fun _ hx => hx⟩
  next := by
    intro β it xs back y ys h he
    cases back with
    | true => cases he
    | false =>
      simp only [fwNext, Bool.false_eq_true, if_false, Except.ok.injEq, Prod.mk.injEq] at he
      obtain ⟨rfl, rfl⟩ := he
      refine SafeB.bind (h.step []) ?_
      rintro ⟨p, it'⟩ _ ⟨rfl, h1, h2⟩
      refine SafeB.bind (ElemAt.readOpt h1 []) ?_
      rintro _ _ ⟨rfl, rfl⟩
      refine SafeB.ret ⟨rfl, ?_, h2⟩
      obtain ⟨_, _, _, _, _, h3, _⟩ := h2
      simp only at h3
      simp [h3]

/-- The lazily reversed list. -/
def LazyItIs (β : List (Item (LinLabel T))) : HLazyIter → List T → Prop
  | .uninitialized l, xs => ∃ ρ, ListIs l xs.reverse ρ ∧ ∀ x ∈ ρ, x ∈ β
  | .initialized vec current, xs => ∃ vs : List T, List.Forall₂ (ElemAt β) vec vs ∧
    match current with
    | none => xs = []
    | some i => i < vs.length ∧ xs = (vs.take (i + 1)).reverse

theorem LazyItIs.hint {it : HLazyIter} {xs : List T} (h : LazyItIs β it xs) : it.sizeHint = xs.length := by
  cases it with
  | uninitialized l =>
    obtain ⟨ρ, ⟨r, ⟨th, tl, rfl, -⟩, hr⟩, -⟩ := h
    have := hr.length
    simpa [HLazyIter.sizeHint] using this
  | initialized vec current =>
    obtain ⟨vs, -, h1⟩ := h
    cases current with
    | none =>
      subst h1
      rfl
    | some i =>
      obtain ⟨h1, rfl⟩ := h1
      simp [HLazyIter.sizeHint]
      omega

theorem ListItIs.collect {it : HListIter} {xs : List T} (h : ListItIs β it xs) {vec : List Addr} {vs : List T}
    (hv : List.Forall₂ (ElemAt β) vec vs) (fuel : Nat) (hf : xs.length < fuel) (ρ : List (Item (LinLabel T))) :
    SafeB A D β (fun r σ => σ = ρ ∧ List.Forall₂ (ElemAt β) r (vs ++ xs)) (HLazyIter.collect fuel it vec) ρ := by
  induction fuel generalizing it xs vec vs with
  | zero => omega
  | succ fuel ih =>
    refine SafeB.bind (h.step ρ) ?_
    rintro ⟨p, it'⟩ _ ⟨rfl, h1, h2⟩
    cases xs with
    | nil =>
      cases h1
      exact SafeB.ret ⟨rfl, by simpa using hv⟩
    | cons x xs =>
      cases h1 with
      | some h1 =>
        have := ih h2 (forall₂_snoc hv h1) (by simp at hf; simpa using hf)
        simpa [List.append_assoc] using this

theorem safeB_stepInit {vec : List Addr} {current : Option Nat} {xs : List T} (h : LazyItIs β (.initialized vec current) xs)
    (ρ : List (Item (LinLabel T))) :
    SafeB A D β (fun r σ => σ = ρ ∧ OptRel (ElemAt β) r.1 xs.head? ∧ LazyItIs β r.2 xs.tail) (HLazyIter.stepInit vec current) ρ := by
  obtain ⟨vs, h1, h2⟩ := h
  cases current with
  | none =>
    subst h2
    exact SafeB.ret ⟨rfl, .none, vs, h1, rfl⟩
  | some i =>
    obtain ⟨hi, rfl⟩ := h2
    rcases forall₂_get h1 i with ⟨p, v, e1, e2, e3⟩ | ⟨-, e2⟩
    · have ht : (vs.take (i + 1)).reverse = v :: (vs.take i).reverse := by
        rw [List.take_add_one, e2]
        simp
      simp only [HLazyIter.stepInit, e1, ht, List.head?_cons, List.tail_cons]
      refine SafeB.ret ⟨rfl, .some e3, ?_⟩
      cases i with
      | zero => exact ⟨vs, h1, by simp⟩
      | succ i => exact ⟨vs, h1, by omega, rfl⟩
    · rw [List.getElem?_eq_none_iff] at e2
      omega

theorem LazyItIs.step {it : HLazyIter} {xs : List T} (h : LazyItIs β it xs) (ρ : List (Item (LinLabel T))) :
    SafeB A D β (fun r σ => σ = ρ ∧ OptRel (ElemAt β) r.1 xs.head? ∧ LazyItIs β r.2 xs.tail) it.step ρ := by
  match it, h with
  | .initialized vec current, h => exact safeB_stepInit h ρ
  | .uninitialized l, ⟨γ, hl, hm⟩ =>
    have hlen : l.length = xs.length := by
      obtain ⟨r, ⟨th, tl, rfl, -⟩, hr⟩ := hl
      simpa using hr.length
    refine SafeB.bind (ListItIs.collect (ListItIs.new hl hm) .nil (l.length + 1) (by simp; omega) ρ) ?_
    rintro vec _ ⟨rfl, hv⟩
    refine safeB_stepInit ⟨_, hv, ?_⟩ _
    by_cases h0 : l.length > 0
    · simp only [h0, if_true]
      refine ⟨by simp; omega, ?_⟩
      rw [List.take_of_length_le (by simp; omega)]
      simp
    · simp only [h0, if_false]
      exact List.length_eq_zero_iff.1 (by omega)

/-- The iterator of a queue. -/
def QueueItIs (β : List (Item (LinLabel T))) (it : HQueueIter) (xs : List T) : Prop :=
  ∃ xs₁ xs₂, xs = xs₁ ++ xs₂ ∧ LazyItIs β it.b xs₂ ∧
    match it.a with
    | none => xs₁ = []
    | some a => ListItIs β a xs₁

theorem QueueItIs.hint {it : HQueueIter} {xs : List T} (h : QueueItIs β it xs) : it.sizeHint = xs.length := by
  obtain ⟨a, b⟩ := it
  obtain ⟨xs₁, xs₂, rfl, h1, h2⟩ := h
  have := h1.hint
  cases a with
  | none => simp only at h2; subst h2; simpa [HQueueIter.sizeHint] using this
  | some a =>
    obtain ⟨_, _, _, _, _, h3, _⟩ := h2
    simp only at this
    simp [HQueueIter.sizeHint, this, h3]

theorem QueueItIs.step {it : HQueueIter} {xs : List T} (h : QueueItIs β it xs) (ρ : List (Item (LinLabel T))) :
    SafeB A D β (fun r σ => σ = ρ ∧ OptRel (ElemAt β) r.1 xs.head? ∧ QueueItIs β r.2 xs.tail) it.step ρ := by
  obtain ⟨a, b⟩ := it
  obtain ⟨xs₁, xs₂, rfl, h1, h2⟩ := h
  simp only at h1
  cases a with
  | none =>
    simp only at h2
    subst h2
    refine SafeB.bind (h1.step ρ) ?_
    rintro ⟨p, b'⟩ _ ⟨rfl, h3, h4⟩
    exact SafeB.ret ⟨rfl, h3, [], _, rfl, h4, rfl⟩
  | some a =>
    simp only at h2
    refine SafeB.bind (h2.step ρ) ?_
    rintro ⟨p, a'⟩ _ ⟨rfl, h3, h4⟩
    cases xs₁ with
    | nil =>
      cases h3
      refine SafeB.bind (h1.step _) ?_
      rintro ⟨p, b'⟩ _ ⟨rfl, h5, h6⟩
      exact SafeB.ret ⟨rfl, h5, [], _, rfl, h6, rfl⟩
    | cons x xs₁ =>
      cases h3 with
      | some h3 => exact SafeB.ret ⟨rfl, .some h3, xs₁, xs₂, rfl, h1, h4⟩

theorem queueIters_iterates : (queueIters T).Iterates A QueueIs (fun xs _ => .ok xs) fwNext QueueItIs where
  start := by
    rintro q _ β _ ys ⟨r, ⟨ρ₁, ρ₂, rfl, h1, h2, -⟩, os, is, h3, h4, rfl⟩ he
    cases he
    refine SafeB.ret ⟨rfl, os, is.reverse, rfl, ⟨ρ₁, ⟨_, h1, by simpa using h4⟩, by simp +contextual⟩, ?_⟩
    exact ListItIs.new ⟨_, h2, h3⟩ (by simp +contextual)
  next := by
    intro β it xs back y ys h he
    cases back with
    | true => cases he
    | false =>
      simp only [fwNext, Bool.false_eq_true, if_false, Except.ok.injEq, Prod.mk.injEq] at he
      obtain ⟨rfl, rfl⟩ := he
      refine SafeB.bind (h.step []) ?_
      rintro ⟨p, it'⟩ _ ⟨rfl, h1, h2⟩
      refine SafeB.bind (ElemAt.readOpt h1 []) ?_
      rintro _ _ ⟨rfl, rfl⟩
      refine SafeB.ret ⟨rfl, ?_, h2⟩
      simp [h2.hint]

end
end Heap
end Rpds
