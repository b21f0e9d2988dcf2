import Verif.Heap.IterVector
import Verif.Heap.SharedTrees
/-
Iterators of `RedBlackTreeMap` and `RedBlackTreeSet` on the heap, which read the nodes when they are asked for items.  The lines are
those of map/red_black_tree_map/mod.rs.
-/
set_option autoImplicit false
namespace Rpds
namespace Heap
open Spec

/-- `iter_utils::IterStack` (1145-1156).  The top of the stack is the head of the list. -/
structure HIterStack where
  stack : List Addr
  backwards : Bool
  deriving DecidableEq, Repr

namespace HIterStack
variable {K V Q : Type} (Ar : Arch) (o : OrdKeys K Q)

/-- `IterStack::current` (1215-1217), a pointer to the entry. -/
def current (s : HIterStack) : Prog (RLabel K V) (Option Addr) :=
  match s.stack with
  | [] => .ret none
  | p :: _ => Prog.bind (readNode p) fun n => .ret (some n.entry)

/-- `IterStack::clear_if_finished` (1186-1212).  The entry is read also if the bound is `Unbounded`. -/
def clearIfFinished (s : HIterStack) (start end_ : Bound Q) : Prog (RLabel K V) HIterStack :=
  Prog.bind s.current fun c =>
    match c with
    | none => .ret s
    | some p =>
      Prog.bind (readEntry p) fun entry =>
        let in_range := if s.backwards then IterStack.afterStart o start entry.1 else IterStack.beforeEnd o end_ entry.1
        .ret (if !in_range then { s with stack := [] } else s)

/-- The recursion of `IterStack::dig` (1219-1233): `child` is the child of the top of the stack in the direction of digging. -/
def digChild : (fuel : Nat) → HIterStack → (child : Option Addr) → Prog (RLabel K V) HIterStack
  | _, s, none => .ret s
  | 0, _, some _ => .panic
  | fuel + 1, s, some p =>
    Prog.bind (readNode p) fun n => digChild fuel { s with stack := p :: s.stack } (if s.backwards then n.right else n.left)

/-- `IterStack::dig` (1219-1233). -/
def dig (fuel : Nat) (s : HIterStack) : Prog (RLabel K V) HIterStack :=
  match s.stack with
  | [] => .ret s
  | p :: _ => Prog.bind (readNode p) fun n => digChild fuel s (if s.backwards then n.right else n.left)

/-- `IterStack::dig_towards` (1235-1274), on `Option<&Node>`. -/
def digTowards (start end_ : Bound Q) : (fuel : Nat) → HIterStack → Option Addr → Prog (RLabel K V) HIterStack
  | _, s, none => .ret s
  | 0, _, some _ => .panic
  | fuel + 1, s, some p =>
    Prog.bind (readNode p) fun n =>
    Prog.bind (readEntry n.entry) fun e =>
      let in_range := if s.backwards then IterStack.beforeEnd o end_ e.1 else IterStack.afterStart o start e.1
      let s := if in_range then { s with stack := p :: s.stack } else s
      match s.backwards, in_range with
      | false, true => digTowards start end_ fuel s n.left
      | false, false => digTowards start end_ fuel s n.right
      | true, true => digTowards start end_ fuel s n.right
      | true, false => digTowards start end_ fuel s n.left

/-- `IterStack::new` (1163-1184). -/
def new (map : HRBMap) (start end_ : Bound Q) (backwards : Bool) : Prog (RLabel K V) HIterStack :=
  Prog.bind (lift (conservativeHeight Ar map.size)) fun h =>
  Prog.bind (lift (Ar.uadd h 1)) fun _ =>
  Prog.bind (digTowards o start end_ map.fuel ⟨[], backwards⟩ map.root) fun s => s.clearIfFinished o start end_

/-- `IterStack::advance` (1276-1291). -/
def advance (fuel : Nat) (s : HIterStack) (start end_ : Bound Q) : Prog (RLabel K V) HIterStack :=
  match s.stack with
  | [] => .ret s
  | p :: rest =>
    Prog.bind (readNode p) fun node =>
    let s := { s with stack := rest }
    let child := if s.backwards then node.left else node.right
    Prog.bind (match child with
      | none => .ret s
      | some c => dig fuel { s with stack := c :: s.stack }) fun s =>
    s.clearIfFinished o start end_

end HIterStack

/-- `RangeIterPtr` (1367-1378). -/
structure HRBRange (Q : Type) where
  map : HRBMap
  stackForward : Option HIterStack
  stackBackward : Option HIterStack
  start : Bound Q
  end_ : Bound Q
  deriving DecidableEq, Repr

namespace HRBRange
variable {K V Q : Type} (Ar : Arch) (o : OrdKeys K Q)

/-- `RangeIterPtr::new` (1387-1389). -/
def new (map : HRBMap) (start end_ : Bound Q) : HRBRange Q := ⟨map, none, none, start, end_⟩

/-- `RangeIterPtr::init_if_needed` (1391-1405). -/
def initIfNeeded (it : HRBRange Q) (backwards : Bool) : Prog (RLabel K V) (HRBRange Q) :=
  let stack_field := if backwards then it.stackBackward else it.stackForward
  if stack_field.isNone then
    Prog.bind (HIterStack.new Ar o it.map it.start it.end_ backwards) fun s =>
    .ret (if backwards then { it with stackBackward := some s } else { it with stackForward := some s })
  else .ret it

/-- `RangeIterPtr::is_remaining_range_empty` (1407-1417). -/
def isRemainingRangeEmpty (it : HRBRange Q) : Prog (RLabel K V) Bool :=
  match it.stackForward, it.stackBackward with
  | some stack_forward, some stack_backward =>
    Prog.bind stack_forward.current fun l =>
    Prog.bind stack_backward.current fun r =>
      match l, r with
      | some left, some right =>
        Prog.bind (readEntry left) fun left =>
        Prog.bind (readEntry right) fun right => .ret (o.cmpK left.1 right.1 == .gt)
      | _, _ => .ret true
  | _, _ => .ret false

/-- `RangeIterPtr::current_forward` (1419-1424), `current_backward` (1433-1438). -/
def current (it : HRBRange Q) (backwards : Bool) : Prog (RLabel K V) (Option Addr) :=
  Prog.bind (it.isRemainingRangeEmpty o) fun empty =>
    match empty with
    | true => .ret none
    | false => Prog.bind (lift (unwrap (if backwards then it.stackBackward else it.stackForward))) fun s => s.current

/-- `RangeIterPtr::advance_forward` (1426-1431), `advance_backward` (1440-1445). -/
def advance (it : HRBRange Q) (backwards : Bool) : Prog (RLabel K V) (HRBRange Q) :=
  Prog.bind (lift (unwrap (if backwards then it.stackBackward else it.stackForward))) fun s =>
  Prog.bind (s.advance o it.map.fuel it.start it.end_) fun s =>
  .ret (if backwards then { it with stackBackward := some s } else { it with stackForward := some s })

/-- `Iterator::next for RangeIterPtr` (1457-1465), `DoubleEndedIterator::next_back for RangeIterPtr` (1475-1483). -/
def next (it : HRBRange Q) (backwards : Bool) : Prog (RLabel K V) (Option Addr × HRBRange Q) :=
  Prog.bind (it.initIfNeeded Ar o backwards) fun it =>
  Prog.bind (it.current o backwards) fun current =>
  Prog.bind (it.advance o backwards) fun it => .ret (current, it)

end HRBRange

/-- `IterPtr` (1308-1316). -/
structure HRBIter (K : Type) where
  rangeIter : HRBRange K
  size : Nat
  deriving DecidableEq, Repr

/-- `IterPtr::new` (1323-1325). -/
def HRBIter.new {K : Type} (map : HRBMap) : HRBIter K := ⟨.new map .unbounded .unbounded, map.size⟩

/-- `Iterator::next for IterPtr` (1335-1342), `DoubleEndedIterator::next_back for IterPtr` (1354-1361). -/
def HRBIter.next {K V Q : Type} (Ar : Arch) (o : OrdKeys K Q) (it : HRBIter K) (backwards : Bool) :
    Prog (RLabel K V) (Option Addr × HRBIter K) :=
  if it.size > 0 then
    Prog.bind (lift (csub it.size 1)) fun size =>
    Prog.bind (it.rangeIter.next Ar o.self backwards) fun x => .ret (x.1, { rangeIter := x.2, size })
  else .ret (none, it)

/-- What is iterated: the whole map (`iter`, 927-929) or a range (`range`, 944-966). -/
inductive RBPart (Q : Type) where
  | all
  | range (start end_ : Bound Q)

/-- Reads the entry behind an optional pointer. -/
def rbReadOpt {K V : Type} : Option Addr → Prog (RLabel K V) (Option (K × V))
  | none => .ret none
  | some p => Prog.bind (readEntry p) fun e => .ret (some e)

/-- The iterators of `RedBlackTreeMap`: `iter` (927-929) and `range` (944-966), the entries behind the pointers, and the lower bound of
`size_hint`. -/
def rbIters (K V : Type) {Q : Type} (Ar : Arch) (o : OrdKeys K Q) :
    IterImpl (RLabel K V) HRBMap (RBPart Q) (HRBIter K ⊕ HRBRange Q) (Option (K × V) × Nat) where
  start m
    | .all => .ret (.inl (.new m))
    | .range start end_ =>
      if RBMap.bothExcludedEqual o start end_ then .panic
      else if RBMap.startAfterEnd o start end_ then .panic
      else .ret (.inr (.new m start end_))
  next
    | .inl it, back =>
      Prog.bind (it.next Ar o back) fun x =>
      Prog.bind (rbReadOpt x.1) fun e => .ret ((e, x.2.size), .inl x.2)
    | .inr it, back =>
      Prog.bind (it.next Ar o back) fun x =>
      Prog.bind (rbReadOpt x.1) fun e => .ret ((e, 0), .inr x.2)

section
variable {K V Q : Type} {Ar : Arch} {o : OrdKeys K Q} {A : Allocator (RLabel K V)} {D : Option Nat} {β : List (Item (RLabel K V))} {N : Nat}

/-- A tree that can be reached, of height at most `N`. -/
def TreeAt (β : List (Item (RLabel K V))) (N : Nat) (p : Option Addr) (v : RBTree K V) : Prop :=
  ∃ t : Option (ATree (RLabel K V)), p = t.map ATree.addr ∧ IsT t v ∧ (∀ s, t = some s → Seen β s) ∧ v.height ≤ N

/-- An entry that can be reached. -/
def EntAt (β : List (Item (RLabel K V))) (p : Addr) (e : K × V) : Prop := ∃ s, s.addr = p ∧ entIs s e ∧ Seen β s

theorem TreeAt.mono {N' : Nat} {p : Option Addr} {v : RBTree K V} (h : TreeAt β N p v) (hn : N ≤ N') : TreeAt β N' p v := by
  obtain ⟨t, h1, h2, h3, h4⟩ := h
  exact ⟨t, h1, h2, h3, by omega⟩

theorem TreeAt.none_iff {p : Option Addr} {v : RBTree K V} (h : TreeAt β N p v) :
    (p = none ∧ v = .none) ∨ (∃ q e c l r, p = some q ∧ v = .some e c l r) := by
  obtain ⟨t, rfl, h2, -, -⟩ := h
  cases h2 with
  | none => exact .inl ⟨rfl, rfl⟩
  | some => exact .inr ⟨_, _, _, _, _, rfl, rfl⟩

theorem EntAt.read {p : Addr} {e : K × V} (h : EntAt β p e) (ρ : List (Item (RLabel K V))) :
    SafeB A D β (fun r σ => r = e ∧ σ = ρ) (readEntry p) ρ := by
  obtain ⟨s, rfl, h1, h2⟩ := h
  refine SafeB.bind (h2.read ρ) ?_
  rintro _ _ ⟨rfl, rfl⟩
  rw [h1.1]
  exact SafeB.ret ⟨rfl, rfl⟩

theorem EntAt.readOpt {p : Option Addr} {e : Option (K × V)} (h : OptRel (EntAt β) p e) (ρ : List (Item (RLabel K V))) :
    SafeB A D β (fun r σ => r = e ∧ σ = ρ) (rbReadOpt p) ρ := by
  cases h with
  | none => exact SafeB.ret ⟨rfl, rfl⟩
  | some h =>
    refine SafeB.bind (h.read ρ) ?_
    rintro _ _ ⟨rfl, rfl⟩
    exact SafeB.ret ⟨rfl, rfl⟩

/-- The fields of a node that can be reached. -/
structure FieldsAt (β : List (Item (RLabel K V))) (N : Nat) (hn : HRBNode) (e : K × V) (l r : RBTree K V) : Prop where
  entry : EntAt β hn.entry e
  left : TreeAt β N hn.left l
  right : TreeAt β N hn.right r

theorem TreeAt.readNode {p : Addr} {e : K × V} {c : Color} {l r : RBTree K V} (h : TreeAt β (N + 1) (some p) (.some e c l r))
    (ρ : List (Item (RLabel K V))) : SafeB A D β (fun x σ => σ = ρ ∧ FieldsAt β N x e l r) (Heap.readNode p) ρ := by
  obtain ⟨t, h1, h2, h3, h4⟩ := h
  cases h2 with
  | @some a te tl tr _ _ _ _ he hl hr =>
    have hs := h3 _ rfl
    simp only [Option.map_some, Option.some.injEq] at h1
    subst h1
    simp only [RBTree.height] at h4
    refine SafeB.bind (hs.read ρ) ?_
    rintro _ _ ⟨rfl, rfl⟩
    rw [ofContent_tree]
    refine SafeB.ret ⟨rfl, ⟨te, rfl, he, hs.kid mem_kids_entry⟩, ⟨tl, rfl, hl, fun s hsl => hs.kid (mem_kids_left hsl), by omega⟩,
      ⟨tr, rfl, hr, fun s hsr => hs.kid (mem_kids_right hsr), by omega⟩⟩

/-- A stack of nodes that can be reached. -/
structure HIterStack.Is (β : List (Item (RLabel K V))) (N : Nat) (hs : HIterStack) (s : IterStack K V) : Prop where
  nodes : List.Forall₂ (fun p (n : RBNode K V) => TreeAt β (N + 1) (some p) n.ptr) hs.stack s.stack
  backwards : hs.backwards = s.backwards

namespace HIterStack
variable {hs : HIterStack} {s : IterStack K V}

theorem Is.push (h : hs.Is β N s) {p : Addr} {e : K × V} {c : Color} {l r : RBTree K V} (hp : TreeAt β (N + 1) (some p) (.some e c l r)) :
    Is β N { hs with stack := p :: hs.stack } { s with stack := ⟨e, c, l, r⟩ :: s.stack } := ⟨.cons hp h.nodes, h.backwards⟩

theorem safeB_current (h : hs.Is β N s) (ρ : List (Item (RLabel K V))) :
    SafeB A D β (fun r σ => σ = ρ ∧ OptRel (EntAt β) r s.current) hs.current ρ := by
  obtain ⟨st, bw⟩ := hs
  obtain ⟨st', bw', cap⟩ := s
  obtain ⟨h1, h2⟩ := h
  cases h1 with
  | nil => exact SafeB.ret ⟨rfl, .none⟩
  | @cons p n _ _ h3 _ =>
    obtain ⟨e, c, l, r⟩ := n
    refine SafeB.bind (h3.readNode ρ) ?_
    rintro hn _ ⟨rfl, h4⟩
    exact SafeB.ret ⟨rfl, .some h4.entry⟩

theorem safeB_clearIfFinished (h : hs.Is β N s) (start end_ : Bound Q) (ρ : List (Item (RLabel K V))) :
    SafeB A D β (fun r σ => σ = ρ ∧ r.Is β N (s.clearIfFinished o start end_)) (hs.clearIfFinished o start end_) ρ := by
  refine SafeB.bind (safeB_current h ρ) ?_
  rintro p _ ⟨rfl, h1⟩
  unfold IterStack.clearIfFinished
  generalize s.current = c at h1
  cases h1 with
  | none => exact SafeB.ret ⟨rfl, h⟩
  | some h2 =>
    refine SafeB.bind (h2.read _) ?_
    rintro _ _ ⟨rfl, rfl⟩
    simp only [h.backwards]
    refine SafeB.ret ⟨rfl, ?_⟩
    split <;> split <;> first | exact ⟨.nil, rfl⟩ | exact h

theorem safeB_digChild {fuel : Nat} {v : RBTree K V} {p : Option Addr} (hp : TreeAt β fuel p v) (hf : fuel ≤ N + 1) (h : hs.Is β N s)
    (ρ : List (Item (RLabel K V))) :
    SafeB A D β (fun r σ => σ = ρ ∧ r.Is β N (s.digChild v)) (digChild fuel hs p) ρ := by
  induction v generalizing fuel hs s p with
  | none =>
    rcases hp.none_iff with ⟨rfl, -⟩ | ⟨_, _, _, _, _, _, e⟩
    · cases fuel <;> exact SafeB.ret ⟨rfl, h⟩
    · cases e
  | some e c l r ihl ihr =>
    rcases hp.none_iff with ⟨-, e⟩ | ⟨q, _, _, _, _, rfl, -⟩
    · cases e
    · cases fuel with
      | zero => obtain ⟨_, _, _, _, h4⟩ := hp; simp [RBTree.height] at h4
      | succ fuel =>
        refine SafeB.bind (hp.readNode ρ) ?_
        rintro hn _ ⟨rfl, h1⟩
        have h2 := h.push (hp.mono hf)
        have hb := h.backwards
        obtain ⟨st, bw⟩ := hs
        obtain ⟨st', bw', cap⟩ := s
        simp only at hb
        subst hb
        unfold IterStack.digChild
        cases bw with
        | true => exact ihr h1.right (by omega) h2
        | false => exact ihl h1.left (by omega) h2

theorem safeB_dig {fuel : Nat} (hf : fuel = N) (h : hs.Is β N s) (ρ : List (Item (RLabel K V))) :
    SafeB A D β (fun r σ => σ = ρ ∧ r.Is β N s.dig) (dig fuel hs) ρ := by
  subst hf
  obtain ⟨st, bw⟩ := hs
  obtain ⟨st', bw', cap⟩ := s
  obtain ⟨h1, h2⟩ := id h
  cases h1 with
  | nil => exact SafeB.ret ⟨rfl, h⟩
  | @cons p n _ _ h3 _ =>
    obtain ⟨e, c, l, r⟩ := n
    refine SafeB.bind (h3.readNode ρ) ?_
    rintro hn _ ⟨rfl, h4⟩
    simp only at h2
    subst h2
    unfold IterStack.dig
    cases bw with
    | true => exact safeB_digChild h4.right (by omega) h _
    | false => exact safeB_digChild h4.left (by omega) h _

theorem safeB_digTowards {start end_ : Bound Q} {fuel : Nat} {v : RBTree K V} {p : Option Addr} (hp : TreeAt β fuel p v) (hf : fuel ≤ N + 1)
    (h : hs.Is β N s) (ρ : List (Item (RLabel K V))) :
    SafeB A D β (fun r σ => σ = ρ ∧ r.Is β N (s.digTowards o start end_ v)) (digTowards o start end_ fuel hs p) ρ := by
  induction v generalizing fuel hs s p with
  | none =>
    rcases hp.none_iff with ⟨rfl, -⟩ | ⟨_, _, _, _, _, _, e⟩
    · cases fuel <;> exact SafeB.ret ⟨rfl, h⟩
    · cases e
  | some e c l r ihl ihr =>
    rcases hp.none_iff with ⟨-, e⟩ | ⟨q, _, _, _, _, rfl, -⟩
    · cases e
    · cases fuel with
      | zero => obtain ⟨_, _, _, _, h4⟩ := hp; simp [RBTree.height] at h4
      | succ fuel =>
        refine SafeB.bind (hp.readNode ρ) ?_
        rintro hn _ ⟨rfl, h1⟩
        refine SafeB.bind (h1.entry.read _) ?_
        rintro x _ ⟨hx, rfl⟩
        subst x
        have h2 := h.push (hp.mono hf)
        have hb := h.backwards
        obtain ⟨st, bw⟩ := hs
        obtain ⟨st', bw', cap⟩ := s
        simp only at hb
        subst hb
        unfold IterStack.digTowards
        cases bw with
        | true =>
          simp only [if_true]
          cases IterStack.beforeEnd o end_ e.1 with
          | true => exact ihr h1.right (by omega) h2
          | false => exact ihl h1.left (by omega) h
        | false =>
          simp only [Bool.false_eq_true, if_false]
          cases IterStack.afterStart o start e.1 with
          | true => exact ihl h1.left (by omega) h2
          | false => exact ihr h1.right (by omega) h

theorem safeB_advance {start end_ : Bound Q} {fuel : Nat} (hf : fuel = N) (h : hs.Is β N s) (ρ : List (Item (RLabel K V))) :
    SafeB A D β (fun r σ => σ = ρ ∧ r.Is β N (s.advance o start end_)) (hs.advance o fuel start end_) ρ := by
  obtain ⟨st, bw⟩ := hs
  obtain ⟨st', bw', cap⟩ := s
  obtain ⟨h1, h2⟩ := id h
  simp only at h2
  subst h2
  cases h1 with
  | nil => exact SafeB.ret ⟨rfl, h⟩
  | @cons p n rest rest' h3 h4 =>
    obtain ⟨e, c, l, r⟩ := n
    refine SafeB.bind (h3.readNode ρ) ?_
    rintro hn σ ⟨hσ, h5⟩
    subst σ
    have h6 : HIterStack.Is β N ⟨rest, bw⟩ ⟨rest', bw, cap⟩ := ⟨h4, rfl⟩
    have key : ∀ {q : Option Addr} {v : RBTree K V}, TreeAt β N q v →
        SafeB A D β (fun r σ => σ = ρ ∧ r.Is β N (IterStack.clearIfFinished o (match v with
          | .none => ⟨rest', bw, cap⟩
          | .some e c l r => IterStack.dig ⟨⟨e, c, l, r⟩ :: rest', bw, cap⟩) start end_))
          (Prog.bind (match q with
            | none => .ret ⟨rest, bw⟩
            | some c => dig fuel ⟨c :: rest, bw⟩) fun s => s.clearIfFinished o start end_) ρ := by
      intro q v hq
      rcases hq.none_iff with ⟨rfl, rfl⟩ | ⟨q, _, _, _, _, rfl, rfl⟩
      · exact safeB_clearIfFinished h6 start end_ _
      · refine SafeB.bind (safeB_dig hf (h6.push (hq.mono (by omega))) _) ?_
        rintro s' _ ⟨rfl, h7⟩
        exact safeB_clearIfFinished h7 start end_ _
    cases bw with
    | true => exact key h5.left
    | false => exact key h5.right

theorem safeB_new {start end_ : Bound Q} {hm : HRBMap} {m : RBMap K V} {bw : Bool} {s : IterStack K V} (hr : TreeAt β N hm.root m.root)
    (hz : hm.size = m.size) (hf : hm.fuel = N) (he : IterStack.new Ar o m start end_ bw = .ok s) (ρ : List (Item (RLabel K V))) :
    SafeB A D β (fun r σ => σ = ρ ∧ r.Is β N s) (new Ar o hm start end_ bw) ρ := by
  unfold IterStack.new at he
  obtain ⟨h, e1, he⟩ := res_bind_ok he
  obtain ⟨c, e2, he⟩ := res_bind_ok he
  cases he
  unfold new
  rw [hz]
  refine safeB_lift e1 (safeB_lift e2 ?_)
  rw [hf]
  refine SafeB.bind (safeB_digTowards (N := N) hr (by omega) (s := ⟨[], bw, c⟩) ⟨.nil, rfl⟩ ρ) ?_
  rintro s' _ ⟨rfl, h7⟩
  exact safeB_clearIfFinished h7 start end_ _

end HIterStack

/-- An iterator over a range. -/
structure HRBRange.Is (β : List (Item (RLabel K V))) (N : Nat) (hit : HRBRange Q) (it : RBRangeIter K V Q) : Prop where
  root : TreeAt β N hit.map.root it.map.root
  size : hit.map.size = it.map.size
  fuel : hit.map.fuel = N
  forward : OptRel (HIterStack.Is β N) hit.stackForward it.stackForward
  backward : OptRel (HIterStack.Is β N) hit.stackBackward it.stackBackward
  start : hit.start = it.start
  end_ : hit.end_ = it.end_

namespace HRBRange
variable {hit : HRBRange Q} {it it' : RBRangeIter K V Q}

theorem safeB_initIfNeeded (h : hit.Is β N it) (b : Bool) (he : it.initIfNeeded Ar o b = .ok it') (ρ : List (Item (RLabel K V))) :
    SafeB A D β (fun r σ => σ = ρ ∧ r.Is β N it') (hit.initIfNeeded Ar o b) ρ := by
  obtain ⟨map, sf, sb, st, en⟩ := it
  obtain ⟨map', sf', sb', st', en'⟩ := hit
  obtain ⟨h1, h2, h3, h4, h5, h6, h7⟩ := h
  simp only at h1 h2 h3 h4 h5 h6 h7
  subst h6 h7
  cases b with
  | true =>
    simp only [RBRangeIter.initIfNeeded, initIfNeeded, if_true] at he ⊢
    cases h5 with
    | none =>
      simp only [Option.isNone_none, if_true] at he ⊢
      obtain ⟨s, e1, he⟩ := res_bind_ok he
      cases he
      refine SafeB.bind (HIterStack.safeB_new h1 h2 h3 e1 ρ) ?_
      rintro s' _ ⟨rfl, h8⟩
      exact SafeB.ret ⟨rfl, h1, h2, h3, h4, .some h8, rfl, rfl⟩
    | some h5 =>
      cases he
      exact SafeB.ret ⟨rfl, h1, h2, h3, h4, .some h5, rfl, rfl⟩
  | false =>
    simp only [RBRangeIter.initIfNeeded, initIfNeeded, Bool.false_eq_true, if_false] at he ⊢
    cases h4 with
    | none =>
      simp only [Option.isNone_none, if_true] at he ⊢
      obtain ⟨s, e1, he⟩ := res_bind_ok he
      cases he
      refine SafeB.bind (HIterStack.safeB_new h1 h2 h3 e1 ρ) ?_
      rintro s' _ ⟨rfl, h8⟩
      exact SafeB.ret ⟨rfl, h1, h2, h3, .some h8, h5, rfl, rfl⟩
    | some h4 =>
      cases he
      exact SafeB.ret ⟨rfl, h1, h2, h3, .some h4, h5, rfl, rfl⟩

theorem safeB_isRemainingRangeEmpty (h : hit.Is β N it) (ρ : List (Item (RLabel K V))) :
    SafeB A D β (fun r σ => σ = ρ ∧ r = it.isRemainingRangeEmpty o) (hit.isRemainingRangeEmpty o) ρ := by
  obtain ⟨map, sf, sb, st, en⟩ := it
  obtain ⟨map', sf', sb', st', en'⟩ := hit
  obtain ⟨-, -, -, h4, h5, -, -⟩ := h
  simp only at h4 h5
  cases h4 with
  | none => exact SafeB.ret ⟨rfl, rfl⟩
  | @some f f' h4 =>
    cases h5 with
    | none => exact SafeB.ret ⟨rfl, rfl⟩
    | @some b b' h5 =>
      refine SafeB.bind (HIterStack.safeB_current h4 ρ) ?_
      rintro p σ ⟨hσ, hl⟩
      subst σ
      refine SafeB.bind (HIterStack.safeB_current h5 ρ) ?_
      rintro q σ ⟨hσ, hr⟩
      subst σ
      simp only [RBRangeIter.isRemainingRangeEmpty]
      generalize f'.current = l at hl
      generalize b'.current = r at hr
      cases hl with
      | none => exact SafeB.ret ⟨rfl, rfl⟩
      | some hl =>
        cases hr with
        | none => exact SafeB.ret ⟨rfl, rfl⟩
        | some hr =>
          refine SafeB.bind (hl.read _) ?_
          rintro _ _ ⟨rfl, rfl⟩
          refine SafeB.bind (hr.read _) ?_
          rintro _ _ ⟨rfl, rfl⟩
          exact SafeB.ret ⟨rfl, rfl⟩

theorem safeB_rangeCurrent (h : hit.Is β N it) (b : Bool) {c : Option (K × V)}
    (he : (if b then it.currentBackward o else it.currentForward o) = .ok c) (ρ : List (Item (RLabel K V))) :
    SafeB A D β (fun r σ => σ = ρ ∧ OptRel (EntAt β) r c) (hit.current o b) ρ := by
  refine SafeB.bind (safeB_isRemainingRangeEmpty (o := o) h ρ) ?_
  rintro x σ ⟨hσ, hx⟩
  subst σ x
  cases b with
  | true =>
    simp only [if_true, RBRangeIter.currentBackward] at he ⊢
    generalize it.isRemainingRangeEmpty o = em at he
    cases em with
    | true => cases he; exact SafeB.ret ⟨rfl, .none⟩
    | false =>
      obtain ⟨s, e1, he⟩ := res_bind_ok he
      cases he
      have := h.backward
      generalize it.stackBackward = y at this e1
      generalize hit.stackBackward = z at this
      cases this with
      | none => cases e1
      | some h1 => cases e1; exact HIterStack.safeB_current h1 ρ
  | false =>
    simp only [Bool.false_eq_true, if_false, RBRangeIter.currentForward] at he ⊢
    generalize it.isRemainingRangeEmpty o = em at he
    cases em with
    | true => cases he; exact SafeB.ret ⟨rfl, .none⟩
    | false =>
      obtain ⟨s, e1, he⟩ := res_bind_ok he
      cases he
      have := h.forward
      generalize it.stackForward = y at this e1
      generalize hit.stackForward = z at this
      cases this with
      | none => cases e1
      | some h1 => cases e1; exact HIterStack.safeB_current h1 ρ

theorem safeB_rangeAdvance (h : hit.Is β N it) (b : Bool)
    (he : (if b then it.advanceBackward o else it.advanceForward o) = .ok it') (ρ : List (Item (RLabel K V))) :
    SafeB A D β (fun r σ => σ = ρ ∧ r.Is β N it') (hit.advance o b) ρ := by
  obtain ⟨map, sf, sb, st, en⟩ := it
  obtain ⟨map', sf', sb', st', en'⟩ := hit
  obtain ⟨h1, h2, h3, h4, h5, h6, h7⟩ := h
  simp only at h1 h2 h3 h4 h5 h6 h7
  subst h6 h7
  unfold advance
  cases b with
  | true =>
    simp only [if_true, RBRangeIter.advanceBackward] at he ⊢
    cases h5 with
    | none => cases he
    | some h5 =>
      cases he
      refine safeB_lift rfl (SafeB.bind (HIterStack.safeB_advance (o := o) (start := st') (end_ := en') h3 h5 ρ) ?_)
      rintro s' _ ⟨rfl, h8⟩
      exact SafeB.ret ⟨rfl, h1, h2, h3, h4, .some h8, rfl, rfl⟩
  | false =>
    simp only [Bool.false_eq_true, if_false, RBRangeIter.advanceForward] at he ⊢
    cases h4 with
    | none => cases he
    | some h4 =>
      cases he
      refine safeB_lift rfl (SafeB.bind (HIterStack.safeB_advance (o := o) (start := st') (end_ := en') h3 h4 ρ) ?_)
      rintro s' _ ⟨rfl, h8⟩
      exact SafeB.ret ⟨rfl, h1, h2, h3, .some h8, h5, rfl, rfl⟩

theorem safeB_rangeNext (h : hit.Is β N it) (b : Bool) {c : Option (K × V)}
    (he : (if b then it.nextBack Ar o else it.next Ar o) = .ok (c, it')) (ρ : List (Item (RLabel K V))) :
    SafeB A D β (fun r σ => σ = ρ ∧ OptRel (EntAt β) r.1 c ∧ r.2.Is β N it') (hit.next Ar o b) ρ := by
  have : ∃ it₁, it.initIfNeeded Ar o b = .ok it₁ ∧ (if b then it₁.currentBackward o else it₁.currentForward o) = .ok c ∧
      (if b then it₁.advanceBackward o else it₁.advanceForward o) = .ok it' := by
    cases b with
    | true =>
      simp only [if_true, RBRangeIter.nextBack] at he ⊢
      obtain ⟨it₁, e1, he⟩ := res_bind_ok he
      obtain ⟨c', e2, he⟩ := res_bind_ok he
      obtain ⟨it₂, e3, he⟩ := res_bind_ok he
      cases he
      exact ⟨it₁, e1, e2, e3⟩
    | false =>
      simp only [Bool.false_eq_true, if_false, RBRangeIter.next] at he ⊢
      obtain ⟨it₁, e1, he⟩ := res_bind_ok he
      obtain ⟨c', e2, he⟩ := res_bind_ok he
      obtain ⟨it₂, e3, he⟩ := res_bind_ok he
      cases he
      exact ⟨it₁, e1, e2, e3⟩
  obtain ⟨it₁, e1, e2, e3⟩ := this
  refine SafeB.bind (safeB_initIfNeeded h b e1 ρ) ?_
  rintro hit₁ σ ⟨hσ, h1⟩
  subst σ
  refine SafeB.bind (safeB_rangeCurrent h1 b e2 ρ) ?_
  rintro p σ ⟨hσ, h2⟩
  subst σ
  refine SafeB.bind (safeB_rangeAdvance h1 b e3 ρ) ?_
  rintro hit₂ σ ⟨hσ, h3⟩
  subst σ
  exact SafeB.ret ⟨rfl, h2, h3⟩

end HRBRange

theorem safeB_rbIterNext {hit : HRBIter K} {it it' : RBIter K V} (h : hit.rangeIter.Is β N it.rangeIter) (hz : hit.size = it.size) (b : Bool)
    {c : Option (K × V)} (he : (if b then it.nextBack Ar o else it.next Ar o) = .ok (c, it')) (ρ : List (Item (RLabel K V))) :
    SafeB A D β (fun r σ => σ = ρ ∧ OptRel (EntAt β) r.1 c ∧ r.2.rangeIter.Is β N it'.rangeIter ∧ r.2.size = it'.size)
      (hit.next Ar o b) ρ := by
  unfold HRBIter.next
  rw [hz]
  by_cases hs : it.size > 0
  · rw [if_pos hs]
    have : ∃ n r, csub it.size 1 = .ok n ∧ (if b then it.rangeIter.nextBack Ar o.self else it.rangeIter.next Ar o.self) = .ok (c, r) ∧
        it' = ⟨r, n⟩ := by
      cases b with
      | true =>
        simp only [if_true, RBIter.nextBack, hs] at he ⊢
        obtain ⟨n, e1, he⟩ := res_bind_ok he
        obtain ⟨⟨c', r⟩, e2, he⟩ := res_bind_ok he
        cases he
        exact ⟨n, r, e1, e2, rfl⟩
      | false =>
        simp only [Bool.false_eq_true, if_false, RBIter.next, if_pos hs] at he ⊢
        obtain ⟨n, e1, he⟩ := res_bind_ok he
        obtain ⟨⟨c', r⟩, e2, he⟩ := res_bind_ok he
        cases he
        exact ⟨n, r, e1, e2, rfl⟩
    obtain ⟨n, r, e1, e2, rfl⟩ := this
    refine safeB_lift e1 ?_
    refine SafeB.bind (HRBRange.safeB_rangeNext h b e2 ρ) ?_
    rintro x σ ⟨hσ, h1, h2⟩
    subst σ
    exact SafeB.ret ⟨rfl, h1, h2, rfl⟩
  · rw [if_neg hs]
    have : c = none ∧ it' = it := by
      cases b with
      | true => simp only [if_true, RBIter.nextBack, if_neg hs] at he; cases he; exact ⟨rfl, rfl⟩
      | false => simp only [Bool.false_eq_true, if_false, RBIter.next, if_neg hs] at he; cases he; exact ⟨rfl, rfl⟩
    obtain ⟨rfl, rfl⟩ := this
    exact SafeB.ret ⟨rfl, .none, h, hz⟩

/-- What the iterators of ordered maps give (`true` for those that know their size). -/
def rbSeq (W : Nat) (o : OrdKeys K Q) (l : List (K × V)) : RBPart Q → Res (Bool × List (K × V))
  | .all => if 3 ≤ W ∧ l.length + 1 < 2 ^ W then .ok (true, mapItems o l) else .error .overflow
  | .range start end_ =>
    if badRange o start end_ then .error .assertFailed
    else if 3 ≤ W ∧ l.length + 1 < 2 ^ W then
      .ok (false, (mapItems o l).filter fun p => Props.AboveStart o start p.1 && Props.BelowEnd o end_ p.1)
    else .error .overflow

/-- The iterator on the heap has `xs` left. -/
def RBItIs (Ar : Arch) (o : OrdKeys K Q) (β : List (Item (RLabel K V))) : HRBIter K ⊕ HRBRange Q → Bool × List (K × V) → Prop
  | .inl hit, (b, xs) => b = true ∧ 3 ≤ Ar.W ∧ ∃ N m it, hit.rangeIter.Is β N it.rangeIter ∧ hit.size = it.size ∧ RBIter.Rel Ar o m it xs
  | .inr hit, (b, xs) => b = false ∧ 3 ≤ Ar.W ∧ ∃ N m start end_ it, hit.Is β N it ∧ RBRangeIter.Rel Ar o m start end_ it xs

theorem rbIters_iterates (Ar : Arch) {o : OrdKeys K Q} (lo : o.Lawful) (A : Allocator (RLabel K V)) :
    (rbIters K V Ar o).Iterates A (fun hm l ρ => ∃ m, RBIs o hm m ρ ∧ m.Rep o l) (rbSeq Ar.W o) mixNext (RBItIs Ar o) where
  start := by
    rintro hm l β which xs ⟨m, ⟨⟨ht, hz⟩, -⟩, hr⟩ he
    have hfu := hr.fuel
    obtain ⟨t, e1, rfl, h2⟩ := ht
    have hI : ∀ (Q' : Type) (start end_ : Bound Q'), HRBRange.Is (optPtr t) hm.fuel (.new hm start end_) (.new m start end_) := by
      intro Q' start end_
      refine ⟨⟨t, e1, h2, fun s hs => .root (by simp [hs]), ?_⟩, hz, rfl, .none, .none, rfl, rfl⟩
      simp only [HRBMap.fuel, RBRangeIter.new, hz]
      omega
    cases which with
    | all =>
      simp only [rbSeq] at he
      split at he
      · next hw =>
        cases he
        rw [mapItems_eq lo hr]
        exact SafeB.ret ⟨rfl, rfl, hw.1, hm.fuel, m, .new m, hI _ _ _, hz, RBIter.new_rel hr.ok.sorted hr.size' (by rw [hr.size]; exact hw.2)⟩
      · cases he
    | range start end_ =>
      simp only [rbSeq] at he
      split at he
      · cases he
      next hb =>
      split at he
      · next hw =>
        cases he
        rw [badRange_iff lo m] at hb
        simp only [rbIters]
        simp only [RBMap.range] at hb
        rw [mapItems_eq lo hr]
        split
        · next h => simp [h] at hb
        · next h =>
          split
          · next h' => simp [h'] at hb
          · have := RBRangeIter.new_rel (A := Ar) (start := start) (end_ := end_) hr.ok.sorted (show m.size + 1 < 2 ^ Ar.W by rw [hr.size]; exact hw.2)
            simp only [RBRangeIter.rangeList, Props.inRange_eq lo] at this
            exact SafeB.ret ⟨rfl, rfl, hw.1, hm.fuel, m, start, end_, _, hI _ _ _, this⟩
      · cases he
  next := by
    rintro β hit ⟨sized, xs⟩ back y ys h he
    simp only [mixNext, deNext, Res.ok_bind, Except.ok.injEq, Prod.mk.injEq] at he
    cases hit with
    | inl hit =>
      obtain ⟨rfl, hw, N, m, it, h1, h2, h3⟩ := h
      have : ∃ it', (if back then it.nextBack Ar o else it.next Ar o) = .ok (if back then xs.getLast? else xs.head?, it') ∧
          RBIter.Rel Ar o m it' (if back then xs.dropLast else xs.tail) := by
        cases back with
        | true => exact RBIter.nextBack_rel lo hw h3
        | false => exact RBIter.next_rel lo hw h3
      obtain ⟨it', e1, e2⟩ := this
      obtain ⟨rfl, rfl⟩ := he
      refine SafeB.bind (safeB_rbIterNext h1 h2 back e1 []) ?_
      rintro x σ ⟨hσ, h4, h5, h6⟩
      subst σ
      refine SafeB.bind (EntAt.readOpt h4 []) ?_
      rintro _ _ ⟨rfl, rfl⟩
      refine SafeB.ret ⟨rfl, ?_, ?_⟩
      · rw [h6, e2.size]
        cases back <;> simp
      · cases back <;> exact ⟨rfl, hw, N, m, it', h5, h6, e2⟩
    | inr hit =>
      obtain ⟨rfl, hw, N, m, start, end_, it, h1, h3⟩ := h
      have : ∃ it', (if back then it.nextBack Ar o else it.next Ar o) = .ok (if back then xs.getLast? else xs.head?, it') ∧
          RBRangeIter.Rel Ar o m start end_ it' (if back then xs.dropLast else xs.tail) := by
        cases back with
        | true => exact RBRangeIter.nextBack_rel lo hw h3
        | false => exact RBRangeIter.next_rel lo hw h3
      obtain ⟨it', e1, e2⟩ := this
      obtain ⟨rfl, rfl⟩ := he
      refine SafeB.bind (HRBRange.safeB_rangeNext h1 back e1 []) ?_
      rintro x σ ⟨hσ, h4, h5⟩
      subst σ
      refine SafeB.bind (EntAt.readOpt h4 []) ?_
      rintro _ _ ⟨rfl, rfl⟩
      refine SafeB.ret ⟨rfl, ?_, ?_⟩
      · cases back <;> simp
      · cases back <;> exact ⟨rfl, hw, N, m, start, end_, it', h5, e2⟩

end

section
variable {T Q : Type}

/-- The answer of an iterator over a set. -/
def setItem {T : Type} (y : Option (T × Unit) × Nat) : Option T × Nat := (y.1.map fun e => e.1, y.2)

/-- The iterators of `RedBlackTreeSet`: `iter` (red_black_tree_set/mod.rs:267-269, with `Iter` of line 12: the keys of the map) and
`range` (271-278). -/
def rbSetIters (T : Type) {Q : Type} (Ar : Arch) (o : OrdKeys T Q) :
    IterImpl (RLabel T Unit) HRBMap (RBPart Q) (HRBIter T ⊕ HRBRange Q) (Option T × Nat) := (rbIters T Unit Ar o).adapt setItem

/-- What the iterators of ordered sets give (`true` for those that know their size). -/
def rbSetSeq (W : Nat) (o : OrdKeys T Q) (l : List T) : RBPart Q → Res (Bool × List T)
  | .all => if 3 ≤ W ∧ l.length + 1 < 2 ^ W then .ok (true, setItems o l) else .error .overflow
  | .range start end_ =>
    if badRange o start end_ then .error .assertFailed
    else if 3 ≤ W ∧ l.length + 1 < 2 ^ W then
      .ok (false, (setItems o l).filter fun v => Props.AboveStart o start v && Props.BelowEnd o end_ v)
    else .error .overflow

theorem mixNext_unit {back : Bool} {x : Bool × List (T × Unit)} {x' : Bool × List T} {y' : Option T × Nat} {z' : Bool × List T}
    (h : x = (x'.1, unitPairs x'.2)) (he : mixNext back x' = .ok (y', z')) :
    ∃ y z, mixNext back x = .ok (y, z) ∧ setItem y = y' ∧ z = (z'.1, unitPairs z'.2) := by
  obtain ⟨b, xs⟩ := x'
  subst h
  cases he
  refine ⟨_, _, rfl, ?_, ?_⟩
  · cases back <;> cases b <;> simp [setItem, unitPairs, Function.comp_def]
  · cases back <;> simp [unitPairs]

theorem rbSetSeq_ok {W : Nat} {o : OrdKeys T Q} {s : List (T × Unit)} {l : List T} {which : RBPart Q} {x' : Bool × List T} (hs : s = unitPairs l)
    (he : rbSetSeq W o l which = .ok x') : ∃ x, rbSeq W o s which = .ok x ∧ x = (x'.1, unitPairs x'.2) := by
  subst hs
  have hlen : (unitPairs l).length = l.length := by simp [unitPairs]
  cases which with
  | all =>
    simp only [rbSetSeq] at he
    split at he
    · next hw =>
      cases he
      exact ⟨(true, mapItems o (unitPairs l)), by simp only [rbSeq, hlen, if_pos hw], by rw [setItems_eq]⟩
    · cases he
  | range start end_ =>
    simp only [rbSetSeq] at he
    split at he
    · cases he
    · next hb =>
      split at he
      · next hw =>
        cases he
        exact ⟨(false, (mapItems o (unitPairs l)).filter fun p => Props.AboveStart o start p.1 && Props.BelowEnd o end_ p.1), by
          simp only [rbSeq, hlen, if_pos hw, if_neg hb], by
          rw [setItems_eq]; simp [unitPairs, List.filter_map, Function.comp_def]⟩
      · cases he

theorem rbSetIters_iterates (Ar : Arch) {o : OrdKeys T Q} (lo : o.Lawful) (A : Allocator (RLabel T Unit)) :
    (rbSetIters T Ar o).Iterates A (fun hm l ρ => ∃ s, (∃ m, RBIs o hm m ρ ∧ m.Rep o s) ∧ s = unitPairs l) (rbSetSeq Ar.W o) mixNext
      (fun β it x' => ∃ x, RBItIs Ar o β it x ∧ x = (x'.1, unitPairs x'.2)) := by
  refine (rbIters_iterates Ar lo A).adapt setItem (S := fun s l => s = unitPairs l) (S' := fun x x' => x = (x'.1, unitPairs x'.2))
    (fun _ _ _ _ h he => rbSetSeq_ok h he) fun _ _ _ _ _ h he => mixNext_unit h he

end
end Heap
end Rpds
