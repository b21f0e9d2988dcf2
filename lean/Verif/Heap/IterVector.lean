import Verif.Heap.IterLinear
import Verif.Heap.SharedVector
/-
Iterators of `Vector` on the heap, which read the nodes when they are asked for items.
-/
set_option autoImplicit false
namespace Rpds
namespace Heap

/-- `struct IterStackElement` (vector/mod.rs:662-668). -/
structure HVElem where
  node : Addr
  index : Int
  deriving DecidableEq, Repr

namespace HVElem
variable {T : Type}

/-- `IterStackElement::new` (vector/mod.rs:674-677). -/
def new (node : Addr) (backwards : Bool) : Prog (VLabel T) HVElem :=
  if backwards then Prog.bind (read node) fun c => .ret ⟨node, (c.2.length : Int) - 1⟩
  else .ret ⟨node, 0⟩

/-- `IterStackElement::current_elem` (vector/mod.rs:689-695). -/
def currentElem (e : HVElem) : Prog (VLabel T) Addr :=
  Prog.bind (read e.node) fun c =>
    match c.1 with
    | .leaf => lift (VElem.idx c.2 e.index)
    | _ => .panic

/-- `IterStackElement::advance` (vector/mod.rs:699-708). -/
def advance (e : HVElem) (backwards : Bool) : Prog (VLabel T) (Bool × HVElem) :=
  if backwards then .ret (decide (e.index - 1 < 0), { e with index := e.index - 1 })
  else Prog.bind (read e.node) fun c => .ret (decide (e.index + 1 ≥ c.2.length), { e with index := e.index + 1 })

end HVElem

/-- `struct IterPtr` (vector/mod.rs:649-660).  Stacks are lists with the top first. -/
structure HVIter where
  vector : HVector
  stack_forward : Option (List HVElem)
  stack_backward : Option (List HVElem)
  left_index : Nat
  right_index : Nat
  deriving DecidableEq, Repr

namespace HVIter
variable {T : Type} (Ar : Arch)

/-- `IterPtr::new` (vector/mod.rs:715-725). -/
def new (v : HVector) : HVIter :=
  { vector := v, stack_forward := none, stack_backward := none, left_index := 0, right_index := v.length }

/-- `IterPtr::dig` (vector/mod.rs:727-741) on the stack `e :: rest`; `fuel` bounds the depth. -/
def dig (backwards : Bool) : (fuel : Nat) → (e : HVElem) → (rest : List HVElem) → Prog (VLabel T) (List HVElem)
  | 0, _, _ => .panic
  | fuel + 1, e, rest =>
    Prog.bind (read e.node) fun c =>
      match c.1 with
      | .leaf => .ret (e :: rest)
      | .branch =>
        Prog.bind (lift (VElem.idx c.2 e.index)) fun next_node =>
        Prog.bind (HVElem.new next_node backwards) fun e' => dig backwards fuel e' (e :: rest)
      | .val _ => .panic

/-- The stack made by `init_if_needed` (vector/mod.rs:743-757).  Nodes are nested at most `Ar.W` deep (proved: `RVector.Rep.fits`). -/
def initStack (v : HVector) (backwards : Bool) : Prog (VLabel T) (List HVElem) :=
  Prog.bind (lift (v.shape.height Ar)) fun h =>
  Prog.bind (lift (Ar.uadd h 1)) fun _ =>
  Prog.bind (HVElem.new v.root backwards) fun e => dig backwards Ar.W e []

/-- `init_if_needed` (vector/mod.rs:743-757). -/
def initIfNeeded (it : HVIter) (backwards : Bool) : Prog (VLabel T) HVIter :=
  if backwards then
    match it.stack_backward with
    | some _ => .ret it
    | none => Prog.bind (initStack Ar it.vector true) fun s => .ret { it with stack_backward := some s }
  else
    match it.stack_forward with
    | some _ => .ret it
    | none => Prog.bind (initStack Ar it.vector false) fun s => .ret { it with stack_forward := some s }

/-- `IterPtr::advance` (vector/mod.rs:759-771). -/
def advance (backwards : Bool) : List HVElem → Prog (VLabel T) (List HVElem)
  | [] => .ret []
  | e :: stack =>
    Prog.bind (e.advance backwards) fun r =>
      if r.1 then advance backwards stack
      else dig backwards Ar.W r.2 stack

/-- `IterPtr::current` (vector/mod.rs:774-776). -/
def current (stack : List HVElem) : Prog (VLabel T) (Option Addr) :=
  match stack with
  | [] => .ret none
  | e :: _ => Prog.bind e.currentElem fun p => .ret (some p)

/-- `IterPtr::non_empty` (vector/mod.rs:779-781). -/
def nonEmpty (it : HVIter) : Bool := decide (it.left_index < it.right_index)

/-- `IterPtr::advance_forward` (vector/mod.rs:783-789). -/
def advanceForward (it : HVIter) : Prog (VLabel T) HVIter :=
  if it.nonEmpty then
    Prog.bind (lift (unwrap it.stack_forward)) fun s =>
    Prog.bind (advance Ar false s) fun s =>
    Prog.bind (lift (Ar.uadd it.left_index 1)) fun left_index => .ret { it with stack_forward := some s, left_index := left_index }
  else .ret it

/-- `IterPtr::current_forward` (vector/mod.rs:791-793). -/
def currentForward (it : HVIter) : Prog (VLabel T) (Option Addr) :=
  if it.nonEmpty then Prog.bind (lift (unwrap it.stack_forward)) fun s => current s else .ret none

/-- `IterPtr::advance_backward` (vector/mod.rs:795-801). -/
def advanceBackward (it : HVIter) : Prog (VLabel T) HVIter :=
  if it.nonEmpty then
    Prog.bind (lift (unwrap it.stack_backward)) fun s =>
    Prog.bind (advance Ar true s) fun s =>
    Prog.bind (lift (Ar.usub it.right_index 1)) fun right_index => .ret { it with stack_backward := some s, right_index := right_index }
  else .ret it

/-- `IterPtr::current_backward` (vector/mod.rs:803-809). -/
def currentBackward (it : HVIter) : Prog (VLabel T) (Option Addr) :=
  if it.nonEmpty then Prog.bind (lift (unwrap it.stack_backward)) fun s => current s else .ret none

/-- `Iterator::next for IterPtr` (vector/mod.rs:818-826). -/
def next (it : HVIter) : Prog (VLabel T) (Option Addr × HVIter) :=
  Prog.bind (it.initIfNeeded Ar false) fun it =>
  Prog.bind it.currentForward fun current =>
  Prog.bind (it.advanceForward Ar) fun it => .ret (current, it)

/-- `DoubleEndedIterator::next_back for IterPtr` (vector/mod.rs:839-847). -/
def nextBack (it : HVIter) : Prog (VLabel T) (Option Addr × HVIter) :=
  Prog.bind (it.initIfNeeded Ar true) fun it =>
  Prog.bind it.currentBackward fun current =>
  Prog.bind (it.advanceBackward Ar) fun it => .ret (current, it)

end HVIter

/-- Reads an optional element of a vector. -/
def vecReadOpt {T : Type} : Option Addr → Prog (VLabel T) (Option T)
  | none => .ret none
  | some p => Prog.bind (HNode.readVal p) fun v => .ret (some v)

/-- `Iter` of `Vector`: the elements behind the pointers, and `size_hint` (vector/mod.rs:828-832). -/
def vecIters (Ar : Arch) (T : Type) : IterImpl (VLabel T) HVector Unit HVIter (Option T × Nat) where
  start v _ := .ret (.new v)
  next it back :=
    Prog.bind (if back then it.nextBack Ar else it.next Ar) fun x =>
    Prog.bind (vecReadOpt x.1) fun v =>
    Prog.bind (lift (Ar.usub x.2.right_index x.2.left_index)) fun n => .ret ((v, n), x.2)

section
variable {T : Type} {Ar : Arch} {A : Allocator (VLabel T)} {D : Option Nat} {β : List (Item (VLabel T))}

theorem safeB_lift {L α β : Type} {A : Allocator L} {D : Option Nat} {B : List (Item L)} {Q : β → List (Item L) → Prop} {r : Res α} {x : α}
    {f : α → Prog L β} {ρ : List (Item L)} (h : r = .ok x) (hf : SafeB A D B Q (f x) ρ) : SafeB A D B Q ((lift r).bind f) ρ := by
  subst h
  exact hf

/-- An element cell that can be reached. -/
def VElemAt (β : List (Item (VLabel T))) (p : Addr) (v : T) : Prop := ∃ s, s.addr = p ∧ vecDec s v ∧ Seen β s

theorem VElemAt.readOpt {p : Option Addr} {v : Option T} (h : OptRel (VElemAt β) p v) (ρ : List (Item (VLabel T))) :
    SafeB A D β (fun r σ => r = v ∧ σ = ρ) (vecReadOpt p) ρ := by
  cases h with
  | none => exact SafeB.ret ⟨rfl, rfl⟩
  | @some _ v h =>
    obtain ⟨s, rfl, h1, h2⟩ := h
    refine SafeB.bind (Q := fun r σ => r = v ∧ σ = ρ) (SafeB.bind (h2.read ρ) ?_) ?_
    · rintro c σ ⟨rfl, rfl⟩
      simp only [h1.1]
      exact SafeB.ret ⟨rfl, rfl⟩
    · rintro _ _ ⟨rfl, rfl⟩
      exact SafeB.ret ⟨rfl, rfl⟩

/-- A node of the value model that can be reached, of height less than `Ar.W`. -/
def VNodeAt (Ar : Arch) (β : List (Item (VLabel T))) (p : Addr) (n : VNode T) : Prop :=
  ∃ s h, s.addr = p ∧ IsVC h s.label s.kids n ∧ Seen β s ∧ h < Ar.W

theorem IsVC.used {h : Nat} {l : VLabel T} {ts : List (ATree (VLabel T))} {n : VNode T} (hn : IsVC h l ts n) : n.used = ts.length := by
  cases h with
  | zero =>
    obtain ⟨xs, -, rfl, hk⟩ := hn
    exact (f2_length hk).symm
  | succ h =>
    obtain ⟨ns, -, rfl, hk⟩ := hn
    exact (f2_length hk).symm

/-- An element of a stack. -/
def VElemIs (Ar : Arch) (β : List (Item (VLabel T))) (he : HVElem) (e : VElem T) : Prop :=
  VNodeAt Ar β he.node e.node ∧ he.index = e.index

theorem safeB_elemNew {p : Addr} {n : VNode T} (h : VNodeAt Ar β p n) (bw : Bool) (ρ : List (Item (VLabel T))) :
    SafeB A D β (fun r σ => σ = ρ ∧ r = ⟨p, (VElem.new n bw).index⟩) (HVElem.new p bw) ρ := by
  obtain ⟨s, h, rfl, h1, h2, -⟩ := h
  cases bw with
  | false => exact SafeB.ret ⟨rfl, rfl⟩
  | true =>
    refine SafeB.bind (h2.read ρ) ?_
    rintro _ _ ⟨rfl, rfl⟩
    exact SafeB.ret ⟨rfl, by simp [VElem.new, h1.used]⟩

theorem idx_some {α : Type} {a : List α} {i : Int} {x : α} (h : VElem.idx a i = .ok x) : 0 ≤ i ∧ a[i.toNat]? = some x := by
  unfold VElem.idx at h
  split at h
  · cases h
  · unfold vecIndex at h
    cases e : a[i.toNat]? with
    | none => simp [e] at h
    | some y =>
      simp [e] at h
      exact ⟨by omega, by simp [h]⟩

theorem idx_ok {α : Type} {a : List α} {i : Int} {x : α} (h0 : 0 ≤ i) (h : a[i.toNat]? = some x) : VElem.idx a i = .ok x := by
  unfold VElem.idx vecIndex
  rw [if_neg (by omega), h]

theorem digAt_get (bw : Bool) (cs : List (VNode T)) (i : Nat) (rest : List (VElem T)) :
    VIter.digAt bw cs i rest = match cs[i]? with
      | some c => VIter.dig bw c (VElem.new c bw).index rest
      | none => .error .indexOutOfBounds := by
  induction cs generalizing i with
  | nil => simp [VIter.digAt]
  | cons c cs ih =>
    cases i with
    | zero => simp [VIter.digAt]
    | succ i => simp [VIter.digAt, ih]

theorem safeB_dig {bw : Bool} {h : Nat} {s : ATree (VLabel T)} {n : VNode T} (hn : IsVC h s.label s.kids n) (hs : Seen β s) (hh : h < Ar.W)
    {i : Int} {hrest : List HVElem} {rest st : List (VElem T)} (hr : List.Forall₂ (VElemIs Ar β) hrest rest)
    (he : VIter.dig bw n i rest = .ok st) (fuel : Nat) (hf : h < fuel) (ρ : List (Item (VLabel T))) :
    SafeB A D β (fun r σ => σ = ρ ∧ List.Forall₂ (VElemIs Ar β) r st) (HVIter.dig bw fuel ⟨s.addr, i⟩ hrest) ρ := by
  induction h generalizing s n i hrest rest fuel with
  | zero =>
    obtain ⟨fuel, rfl⟩ : ∃ f, fuel = f + 1 := ⟨fuel - 1, by omega⟩
    have hn' := hn
    obtain ⟨xs, e1, rfl, hk⟩ := hn
    rw [VIter.dig] at he
    cases he
    refine SafeB.bind (hs.read ρ) ?_
    rintro _ _ ⟨rfl, rfl⟩
    simp only [e1]
    exact SafeB.ret ⟨rfl, .cons ⟨⟨s, 0, rfl, hn', hs, hh⟩, rfl⟩ hr⟩
  | succ h ih =>
    obtain ⟨fuel, rfl⟩ : ∃ f, fuel = f + 1 := ⟨fuel - 1, by omega⟩
    have hn' := hn
    obtain ⟨ns, e1, rfl, hk⟩ := hn
    rw [VIter.dig] at he
    split at he
    · cases he
    next h0 =>
    rw [digAt_get] at he
    rcases forall₂_get hk i.toNat with ⟨u, m, e2, e3, e4⟩ | ⟨-, e3⟩
    · simp only [e3] at he
      refine SafeB.bind (hs.read ρ) ?_
      rintro _ _ ⟨rfl, rfl⟩
      simp only [e1]
      refine safeB_lift (idx_ok (x := u.addr) (by simpa using h0) (by simp [e2])) ?_
      have hu := hs.kid (List.mem_of_getElem? e2)
      refine SafeB.bind (safeB_elemNew (Ar := Ar) (n := m) ⟨u, h, rfl, e4, hu, by omega⟩ bw _) ?_
      rintro _ _ ⟨rfl, rfl⟩
      exact ih e4 hu (by omega) (.cons ⟨⟨s, h + 1, rfl, hn', hs, hh⟩, rfl⟩ hr) he fuel (by omega)
    · simp only [e3] at he
      cases he

theorem safeB_digAt {bw : Bool} {he : HVElem} {e : VElem T} (h : VElemIs Ar β he e) {hrest : List HVElem} {rest st : List (VElem T)}
    (hr : List.Forall₂ (VElemIs Ar β) hrest rest) (hd : VIter.dig bw e.node e.index rest = .ok st) (ρ : List (Item (VLabel T))) :
    SafeB A D β (fun r σ => σ = ρ ∧ List.Forall₂ (VElemIs Ar β) r st) (HVIter.dig bw Ar.W he hrest) ρ := by
  obtain ⟨he1, he2⟩ := he
  obtain ⟨⟨s, h, rfl, h1, h2, h3⟩, rfl⟩ := h
  exact safeB_dig h1 h2 h3 hr hd Ar.W h3 ρ

theorem safeB_elemAdvance {he : HVElem} {e : VElem T} (h : VElemIs Ar β he e) (bw : Bool) (ρ : List (Item (VLabel T))) :
    SafeB A D β (fun r σ => σ = ρ ∧ r.1 = (e.advance bw).1 ∧ VElemIs Ar β r.2 (e.advance bw).2) (he.advance bw) ρ := by
  obtain ⟨he1, he2⟩ := he
  obtain ⟨⟨s, h, rfl, h1, h2, h3⟩, rfl⟩ := h
  cases bw with
  | true => exact SafeB.ret ⟨rfl, rfl, ⟨s, h, rfl, h1, h2, h3⟩, rfl⟩
  | false =>
    refine SafeB.bind (h2.read ρ) ?_
    rintro _ _ ⟨rfl, rfl⟩
    exact SafeB.ret ⟨rfl, by simp [VElem.advance, h1.used], ⟨s, h, rfl, h1, h2, h3⟩, rfl⟩

theorem safeB_vecAdvance {bw : Bool} {hst : List HVElem} {st st' : List (VElem T)} (h : List.Forall₂ (VElemIs Ar β) hst st)
    (he : VIter.advance bw st = .ok st') (ρ : List (Item (VLabel T))) :
    SafeB A D β (fun r σ => σ = ρ ∧ List.Forall₂ (VElemIs Ar β) r st') (HVIter.advance Ar bw hst) ρ := by
  induction h with
  | nil =>
    rw [VIter.advance] at he
    cases he
    exact SafeB.ret ⟨rfl, .nil⟩
  | @cons a b hst st h1 h2 ih =>
    rw [VIter.advance] at he
    refine SafeB.bind (safeB_elemAdvance h1 bw ρ) ?_
    rintro ⟨f, a'⟩ _ ⟨rfl, e1, e2⟩
    simp only at e1 e2 he ⊢
    subst e1
    cases hf : (b.advance bw).1 with
    | true =>
      simp only [hf, if_true] at he ⊢
      exact ih he
    | false =>
      simp only [hf, Bool.false_eq_true, if_false] at he ⊢
      exact safeB_digAt e2 h2 he _

theorem safeB_current {hst : List HVElem} {st : List (VElem T)} (h : List.Forall₂ (VElemIs Ar β) hst st) {x : Option T}
    (he : VIter.current st = .ok x) (ρ : List (Item (VLabel T))) :
    SafeB A D β (fun r σ => σ = ρ ∧ OptRel (VElemAt β) r x) (HVIter.current hst) ρ := by
  cases h with
  | nil =>
    cases he
    exact SafeB.ret ⟨rfl, .none⟩
  | @cons a b hst st h1 h2 =>
    obtain ⟨a1, a2⟩ := a
    obtain ⟨⟨s, h, rfl, h3, h4, h5⟩, rfl⟩ := h1
    simp only [VIter.current, VElem.currentElem] at he
    cases h with
    | zero =>
      obtain ⟨xs, e1, e2, hk⟩ := h3
      rw [e2] at he
      simp only at he
      cases hx : VElem.idx xs b.index with
      | error e => simp [hx] at he
      | ok y =>
        simp only [hx, Res.ok_bind, Res.pure_eq, Except.ok.injEq] at he
        subst he
        obtain ⟨h0, e3⟩ := idx_some hx
        rcases forall₂_get hk b.index.toNat with ⟨u, m, e4, e5, e6⟩ | ⟨-, e5⟩
        · refine SafeB.bind (Q := fun r σ => σ = ρ ∧ r = u.addr) (SafeB.bind (h4.read ρ) ?_) ?_
          · rintro _ _ ⟨rfl, rfl⟩
            simp only [e1]
            rw [idx_ok (x := u.addr) h0 (by simp [e4])]
            exact SafeB.ret ⟨rfl, rfl⟩
          · rintro _ _ ⟨rfl, rfl⟩
            rw [e3] at e5
            cases e5
            exact SafeB.ret ⟨rfl, .some ⟨u, rfl, e6, h4.kid (List.mem_of_getElem? e4)⟩⟩
        · rw [e3] at e5
          cases e5
    | succ h =>
      obtain ⟨ns, e1, e2, hk⟩ := h3
      rw [e2] at he
      simp at he

/-- The iterator on the heap is in the state `it` of the value model. -/
structure HVIter.Is (Ar : Arch) (β : List (Item (VLabel T))) (hit : HVIter) (it : VIter T) : Prop where
  vector : ∃ h, hit.vector.Is it.vector h β ∧ h < Ar.W
  fw : OptRel (List.Forall₂ (VElemIs Ar β)) hit.stack_forward it.stack_forward
  bw : OptRel (List.Forall₂ (VElemIs Ar β)) hit.stack_backward it.stack_backward
  left : hit.left_index = it.left_index
  right : hit.right_index = it.right_index

theorem shape_height {hv : HVector} {v : RVector T} {h : Nat} (hi : hv.Is v h β) : hv.shape.height Ar = v.height Ar := by
  obtain ⟨t, rfl, -⟩ := hi
  rfl

theorem safeB_initStack {hv : HVector} {v : RVector T} {h : Nat} (hi : hv.Is v h β) (hh : h < Ar.W) {bw : Bool} {st : List (VElem T)}
    (he : VIter.initStack Ar v bw = .ok st) (ρ : List (Item (VLabel T))) :
    SafeB A D β (fun r σ => σ = ρ ∧ List.Forall₂ (VElemIs Ar β) r st) (HVIter.initStack Ar hv bw) ρ := by
  unfold VIter.initStack at he
  unfold HVIter.initStack
  rw [shape_height hi]
  cases e1 : v.height Ar with
  | error e => simp [e1] at he
  | ok k =>
    simp only [e1, Res.ok_bind] at he
    cases e2 : Ar.uadd k 1 with
    | error e => simp [e2] at he
    | ok k' =>
      simp only [e2, Res.ok_bind] at he
      refine safeB_lift rfl (safeB_lift e2 ?_)
      obtain ⟨t, rfl, rfl, hn⟩ := hi
      have hs : Seen [Item.ptr t] t := .root (by simp)
      refine SafeB.bind (safeB_elemNew (Ar := Ar) ⟨t, h, rfl, hn, hs, hh⟩ bw ρ) ?_
      rintro _ _ ⟨rfl, rfl⟩
      exact safeB_dig hn hs hh .nil he Ar.W hh _

theorem safeB_initIfNeeded {hit : HVIter} {it it' : VIter T} (h : hit.Is Ar β it) {bw : Bool} (he : it.initIfNeeded Ar bw = .ok it')
    (ρ : List (Item (VLabel T))) : SafeB A D β (fun r σ => σ = ρ ∧ r.Is Ar β it') (hit.initIfNeeded Ar bw) ρ := by
  obtain ⟨hv, hf, hb, hl, hr⟩ := hit
  obtain ⟨v, f, b, l, r⟩ := it
  obtain ⟨⟨k, h1, h2⟩, h3, h4, h5, h6⟩ := h
  simp only at h1 h3 h4 h5 h6
  subst h5 h6
  unfold VIter.initIfNeeded at he
  unfold HVIter.initIfNeeded
  cases bw with
  | true =>
    simp only [if_true] at he ⊢
    cases h4 with
    | some h4 =>
      cases he
      exact SafeB.ret ⟨rfl, ⟨k, h1, h2⟩, h3, .some h4, rfl, rfl⟩
    | none =>
      simp only at he ⊢
      cases e : VIter.initStack Ar v true with
      | error e' => simp [e] at he
      | ok st =>
        simp only [e, Res.ok_bind, Res.pure_eq, Except.ok.injEq] at he
        subst he
        refine SafeB.bind (safeB_initStack h1 h2 e ρ) ?_
        rintro _ _ ⟨rfl, h7⟩
        exact SafeB.ret ⟨rfl, ⟨k, h1, h2⟩, h3, .some h7, rfl, rfl⟩
  | false =>
    simp only [Bool.false_eq_true, if_false] at he ⊢
    cases h3 with
    | some h3 =>
      cases he
      exact SafeB.ret ⟨rfl, ⟨k, h1, h2⟩, .some h3, h4, rfl, rfl⟩
    | none =>
      simp only at he ⊢
      cases e : VIter.initStack Ar v false with
      | error e' => simp [e] at he
      | ok st =>
        simp only [e, Res.ok_bind, Res.pure_eq, Except.ok.injEq] at he
        subst he
        refine SafeB.bind (safeB_initStack h1 h2 e ρ) ?_
        rintro _ _ ⟨rfl, h7⟩
        exact SafeB.ret ⟨rfl, ⟨k, h1, h2⟩, .some h7, h4, rfl, rfl⟩

theorem HVIter.Is.nonEmpty {hit : HVIter} {it : VIter T} (h : hit.Is Ar β it) : hit.nonEmpty = it.nonEmpty := by
  simp [HVIter.nonEmpty, VIter.nonEmpty, h.left, h.right]

theorem safeB_currentForward {hit : HVIter} {it : VIter T} (h : hit.Is Ar β it) {x : Option T} (he : it.currentForward = .ok x)
    (ρ : List (Item (VLabel T))) : SafeB A D β (fun r σ => σ = ρ ∧ OptRel (VElemAt β) r x) hit.currentForward ρ := by
  unfold HVIter.currentForward
  unfold VIter.currentForward at he
  rw [h.nonEmpty]
  cases hne : it.nonEmpty with
  | false =>
    simp [hne] at he
    subst he
    exact SafeB.ret ⟨rfl, .none⟩
  | true =>
    simp only [hne, if_true] at he ⊢
    have h1 := h.fw
    generalize hit.stack_forward = hs at h1 ⊢
    generalize it.stack_forward = s at h1 he
    cases h1 with
    | none => simp [unwrap] at he
    | some h1 => exact safeB_lift rfl (safeB_current h1 (by simpa [unwrap] using he) ρ)

theorem safeB_currentBackward {hit : HVIter} {it : VIter T} (h : hit.Is Ar β it) {x : Option T} (he : it.currentBackward = .ok x)
    (ρ : List (Item (VLabel T))) : SafeB A D β (fun r σ => σ = ρ ∧ OptRel (VElemAt β) r x) hit.currentBackward ρ := by
  unfold HVIter.currentBackward
  unfold VIter.currentBackward at he
  rw [h.nonEmpty]
  cases hne : it.nonEmpty with
  | false =>
    simp [hne] at he
    subst he
    exact SafeB.ret ⟨rfl, .none⟩
  | true =>
    simp only [hne, if_true] at he ⊢
    have h1 := h.bw
    generalize hit.stack_backward = hs at h1 ⊢
    generalize it.stack_backward = s at h1 he
    cases h1 with
    | none => simp [unwrap] at he
    | some h1 => exact safeB_lift rfl (safeB_current h1 (by simpa [unwrap] using he) ρ)

theorem safeB_advanceForward {hit : HVIter} {it it' : VIter T} (h : hit.Is Ar β it) (he : it.advanceForward Ar = .ok it')
    (ρ : List (Item (VLabel T))) : SafeB A D β (fun r σ => σ = ρ ∧ r.Is Ar β it') (hit.advanceForward Ar) ρ := by
  unfold HVIter.advanceForward
  unfold VIter.advanceForward at he
  rw [h.nonEmpty]
  cases hne : it.nonEmpty with
  | false =>
    simp [hne] at he
    subst he
    exact SafeB.ret ⟨rfl, h⟩
  | true =>
    simp only [hne, if_true] at he ⊢
    have h1 := h.fw
    generalize hit.stack_forward = hs at h1 ⊢
    generalize it.stack_forward = s at h1 he
    cases h1 with
    | none => simp [unwrap] at he
    | @some a b h1 =>
      simp only [unwrap, Res.ok_bind] at he
      cases e1 : VIter.advance false b with
      | error e => simp [e1] at he
      | ok st =>
        simp only [e1, Res.ok_bind] at he
        cases e2 : Ar.uadd it.left_index 1 with
        | error e => simp [e2] at he
        | ok l =>
          simp only [e2, Res.ok_bind, Res.pure_eq, Except.ok.injEq] at he
          subst he
          refine safeB_lift rfl (SafeB.bind (safeB_vecAdvance h1 e1 ρ) ?_)
          rintro _ _ ⟨rfl, h2⟩
          exact safeB_lift (by rw [h.left]; exact e2) (SafeB.ret ⟨rfl, h.vector, .some h2, h.bw, rfl, h.right⟩)

theorem safeB_advanceBackward {hit : HVIter} {it it' : VIter T} (h : hit.Is Ar β it) (he : it.advanceBackward Ar = .ok it')
    (ρ : List (Item (VLabel T))) : SafeB A D β (fun r σ => σ = ρ ∧ r.Is Ar β it') (hit.advanceBackward Ar) ρ := by
  unfold HVIter.advanceBackward
  unfold VIter.advanceBackward at he
  rw [h.nonEmpty]
  cases hne : it.nonEmpty with
  | false =>
    simp [hne] at he
    subst he
    exact SafeB.ret ⟨rfl, h⟩
  | true =>
    simp only [hne, if_true] at he ⊢
    have h1 := h.bw
    generalize hit.stack_backward = hs at h1 ⊢
    generalize it.stack_backward = s at h1 he
    cases h1 with
    | none => simp [unwrap] at he
    | @some a b h1 =>
      simp only [unwrap, Res.ok_bind] at he
      cases e1 : VIter.advance true b with
      | error e => simp [e1] at he
      | ok st =>
        simp only [e1, Res.ok_bind] at he
        cases e2 : Ar.usub it.right_index 1 with
        | error e => simp [e2] at he
        | ok l =>
          simp only [e2, Res.ok_bind, Res.pure_eq, Except.ok.injEq] at he
          subst he
          refine safeB_lift rfl (SafeB.bind (safeB_vecAdvance h1 e1 ρ) ?_)
          rintro _ _ ⟨rfl, h2⟩
          exact safeB_lift (by rw [h.right]; exact e2) (SafeB.ret ⟨rfl, h.vector, h.fw, .some h2, h.left, rfl⟩)

theorem safeB_vecNext {hit : HVIter} {it it' : VIter T} (h : hit.Is Ar β it) {x : Option T} (he : it.next Ar = .ok (x, it'))
    (ρ : List (Item (VLabel T))) :
    SafeB A D β (fun r σ => σ = ρ ∧ OptRel (VElemAt β) r.1 x ∧ r.2.Is Ar β it') (hit.next Ar) ρ := by
  unfold VIter.next at he
  cases e1 : it.initIfNeeded Ar false with
  | error e => simp [e1] at he
  | ok it1 =>
    simp only [e1, Res.ok_bind] at he
    cases e2 : it1.currentForward with
    | error e => simp [e2] at he
    | ok y =>
      simp only [e2, Res.ok_bind] at he
      cases e3 : it1.advanceForward Ar with
      | error e => simp [e3] at he
      | ok it2 =>
        simp only [e3, Res.ok_bind, Res.pure_eq, Except.ok.injEq, Prod.mk.injEq] at he
        obtain ⟨rfl, rfl⟩ := he
        refine SafeB.bind (safeB_initIfNeeded h e1 ρ) ?_
        rintro _ _ ⟨rfl, h1⟩
        refine SafeB.bind (safeB_currentForward h1 e2 _) ?_
        rintro _ _ ⟨rfl, h2⟩
        refine SafeB.bind (safeB_advanceForward h1 e3 _) ?_
        rintro _ _ ⟨rfl, h3⟩
        exact SafeB.ret ⟨rfl, h2, h3⟩

theorem safeB_vecNextBack {hit : HVIter} {it it' : VIter T} (h : hit.Is Ar β it) {x : Option T} (he : it.nextBack Ar = .ok (x, it'))
    (ρ : List (Item (VLabel T))) :
    SafeB A D β (fun r σ => σ = ρ ∧ OptRel (VElemAt β) r.1 x ∧ r.2.Is Ar β it') (hit.nextBack Ar) ρ := by
  unfold VIter.nextBack at he
  cases e1 : it.initIfNeeded Ar true with
  | error e => simp [e1] at he
  | ok it1 =>
    simp only [e1, Res.ok_bind] at he
    cases e2 : it1.currentBackward with
    | error e => simp [e2] at he
    | ok y =>
      simp only [e2, Res.ok_bind] at he
      cases e3 : it1.advanceBackward Ar with
      | error e => simp [e3] at he
      | ok it2 =>
        simp only [e3, Res.ok_bind, Res.pure_eq, Except.ok.injEq, Prod.mk.injEq] at he
        obtain ⟨rfl, rfl⟩ := he
        refine SafeB.bind (safeB_initIfNeeded h e1 ρ) ?_
        rintro _ _ ⟨rfl, h1⟩
        refine SafeB.bind (safeB_currentBackward h1 e2 _) ?_
        rintro _ _ ⟨rfl, h2⟩
        refine SafeB.bind (safeB_advanceBackward h1 e3 _) ?_
        rintro _ _ ⟨rfl, h3⟩
        exact SafeB.ret ⟨rfl, h2, h3⟩

/-- The iterator on the heap has the items `xs` left. -/
def VecItIs (Ar : Arch) (β : List (Item (VLabel T))) (hit : HVIter) (xs : List T) : Prop :=
  ∃ it : VIter T, hit.Is Ar β it ∧ VIter.Rem Ar it xs

theorem vecIters_iterates : (vecIters Ar T).Iterates A (VecIs Ar) (fun s _ => .ok s.2) deNext (VecItIs Ar) where
  start := by
    rintro hv ⟨c, xs⟩ β _ ys ⟨v, h, hi, hr, -⟩ he
    cases he
    refine SafeB.ret ⟨rfl, .new v, ⟨⟨h, hi, ?_⟩, .none, .none, rfl, ?_⟩, VIter.rem_new hr⟩
    · exact hr.fits.height_lt
    · obtain ⟨t, rfl, -⟩ := hi
      rfl
  next := by
    rintro β hit xs back y ys ⟨it, h1, h2⟩ he
    have fin : ∀ {prog : Prog (VLabel T) (Option Addr × HVIter)} {x : Option T} {it' : VIter T} {ys : List T},
        SafeB A none β (fun r σ => σ = [] ∧ OptRel (VElemAt β) r.1 x ∧ r.2.Is Ar β it') prog [] → VIter.Rem Ar it' ys →
        SafeB A none β (fun z τ => τ = [] ∧ z.1 = (x, ys.length) ∧ VecItIs Ar β z.2 ys) (Prog.bind prog fun x =>
          Prog.bind (vecReadOpt x.1) fun v =>
          Prog.bind (lift (Ar.usub x.2.right_index x.2.left_index)) fun n => .ret ((v, n), x.2)) [] := by
      intro prog x it' ys hp hm
      refine SafeB.bind hp ?_
      rintro ⟨p, hit'⟩ _ ⟨rfl, h3, h4⟩
      refine SafeB.bind (VElemAt.readOpt h3 []) ?_
      rintro _ _ ⟨rfl, rfl⟩
      have := VIter.sizeHint_ok hm
      rw [VIter.sizeHint, ← h4.left, ← h4.right] at this
      exact safeB_lift this (SafeB.ret ⟨rfl, rfl, it', h4, hm⟩)
    cases back with
    | false =>
      simp only [deNext, Bool.false_eq_true, if_false, Except.ok.injEq, Prod.mk.injEq] at he
      obtain ⟨rfl, rfl⟩ := he
      obtain ⟨it', e1, e2⟩ := VIter.next_ok h2
      have := fin (safeB_vecNext (A := A) (D := none) h1 e1 []) e2
      simpa [vecIters] using this
    | true =>
      simp only [deNext, if_true, Except.ok.injEq, Prod.mk.injEq] at he
      obtain ⟨rfl, rfl⟩ := he
      obtain ⟨it', e1, e2⟩ := VIter.nextBack_ok h2
      have := fin (safeB_vecNextBack (A := A) (D := none) h1 e1 []) e2
      simpa [vecIters] using this

end
end Heap
end Rpds
