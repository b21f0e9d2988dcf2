import Verif.Ask
import Verif.RedBlack.Set
import Verif.RedBlack.UnlawfulIter
/-
Iterators, equality, comparison and set algebra of red-black trees, with every call of user code a question (line numbers of
/repo/src/map/red_black_tree_map/mod.rs unless another file is named).
-/
set_option autoImplicit false
namespace Rpds
open Spec

/-- What is asked of user code. -/
inductive RBQuestion (K V Q : Type) where
  /-- `a.cmp(b)` or `a > b` of keys -/
  | keys (a b : K)
  /-- `key.borrow()` compared with a bound -/
  | bound (key : K) (q : Q)
  /-- `s > e` of bounds -/
  | bounds (s e : Q)
  /-- `s == e` of bounds -/
  | boundsEq (s e : Q)
  /-- `a == b` of values -/
  | valuesEq (a b : V)
  /-- `a.cmp(b)` of values -/
  | valuesCmp (a b : V)
  /-- `a.partial_cmp(b)` of keys -/
  | keysPartial (a b : K)
  /-- `a.partial_cmp(b)` of values -/
  | valuesPartial (a b : V)

namespace RBQuestion
variable {K V Q : Type}

/-- The type of an answer. -/
def Ans : RBQuestion K V Q → Type
  | keys _ _ | bound _ _ | bounds _ _ | valuesCmp _ _ => Ordering
  | boundsEq _ _ | valuesEq _ _ => Bool
  | keysPartial _ _ | valuesPartial _ _ => Option Ordering

/-- The answers of functions that keep no state; `partial_cmp` agrees with `cmp`. -/
def answer (o : OrdKeys K Q) (eqV : V → V → Bool) (cmpV : V → V → Ordering) : (i : RBQuestion K V Q) → Ans i
  | keys a b => o.cmpK a b
  | bound key q => o.cmpQ (o.borrow key) q
  | bounds s e => o.cmpQ s e
  | boundsEq s e => o.eqQ s e
  | valuesEq a b => eqV a b
  | valuesCmp a b => cmpV a b
  | keysPartial a b => some (o.cmpK a b)
  | valuesPartial a b => some (cmpV a b)

/-- The same for values that may be incomparable. -/
def answerPartial (o : OrdKeys K Q) (pcmpV : V → V → Option Ordering) : (i : RBQuestion K V Q) → Ans i
  | valuesPartial a b => pcmpV a b
  | i => answer o (fun _ _ => true) (fun _ _ => .eq) i

/-- Questions about keys and bounds. -/
def onKeys : RBQuestion K V Q → Bool
  | keys _ _ | bound _ _ | bounds _ _ | boundsEq _ _ | keysPartial _ _ => true
  | valuesEq _ _ | valuesCmp _ _ | valuesPartial _ _ => false

/-- Questions about values. -/
def onValues (i : RBQuestion K V Q) : Bool := !i.onKeys

end RBQuestion

abbrev RBAsk (K V Q α : Type) : Type := Ask (RBQuestion K V Q) RBQuestion.Ans α

open Ask

/-- A comparison of two keys. -/
def askKeys {K V Q : Type} (a b : K) : RBAsk K V Q Ordering := query (RBQuestion.keys a b)
/-- A comparison of a key and a bound. -/
def askBound {K V Q : Type} (key : K) (q : Q) : RBAsk K V Q Ordering := query (RBQuestion.bound key q)
/-- A comparison of bounds. -/
def askBounds {K V Q : Type} (s e : Q) : RBAsk K V Q Ordering := query (RBQuestion.bounds s e)
/-- A test for equality of bounds. -/
def askBoundsEq {K V Q : Type} (s e : Q) : RBAsk K V Q Bool := query (RBQuestion.boundsEq s e)
/-- A test for equality of values. -/
def askValuesEq {K V Q : Type} (a b : V) : RBAsk K V Q Bool := query (RBQuestion.valuesEq a b)
/-- A comparison of values. -/
def askValuesCmp {K V Q : Type} (a b : V) : RBAsk K V Q Ordering := query (RBQuestion.valuesCmp a b)
/-- A partial comparison of two keys. -/
def askKeysPartial {K V Q : Type} (a b : K) : RBAsk K V Q (Option Ordering) := query (RBQuestion.keysPartial a b)
/-- A partial comparison of values. -/
def askValuesPartial {K V Q : Type} (a b : V) : RBAsk K V Q (Option Ordering) := query (RBQuestion.valuesPartial a b)

namespace IterStack
variable {K V Q : Type}

/-- The test for a start bound (1195-1199, 1253-1257). -/
def afterStartA (start : Bound Q) (key : K) : RBAsk K V Q Bool :=
  match start with
  | .included v => do let c ← askBound key v; pure (c != .lt)
  | .excluded v => do let c ← askBound key v; pure (c == .gt)
  | .unbounded => pure true

/-- The test for an end bound (1201-1205, 1247-1251). -/
def beforeEndA (end_ : Bound Q) (key : K) : RBAsk K V Q Bool :=
  match end_ with
  | .included v => do let c ← askBound key v; pure (c != .gt)
  | .excluded v => do let c ← askBound key v; pure (c == .lt)
  | .unbounded => pure true

/-- `IterStack::clear_if_finished` (1186-1212). -/
def clearIfFinishedA (s : IterStack K V) (start end_ : Bound Q) : RBAsk K V Q (IterStack K V) :=
  match s.current with
  | none => pure s
  | some entry => do
    let in_range ← (if s.backwards then afterStartA start entry.1 else beforeEndA end_ entry.1)
    pure (if !in_range then { s with stack := [] } else s)

/-- `IterStack::dig_towards` (1235-1274). -/
def digTowardsA (start end_ : Bound Q) (s : IterStack K V) : RBTree K V → RBAsk K V Q (IterStack K V)
  | .none => pure s
  | .some e c l r => do
    let in_range ← (if s.backwards then beforeEndA end_ e.1 else afterStartA start e.1)
    let s := if in_range then { s with stack := ⟨e, c, l, r⟩ :: s.stack } else s
    match s.backwards, in_range with
    | false, true => digTowardsA start end_ s l
    | false, false => digTowardsA start end_ s r
    | true, true => digTowardsA start end_ s r
    | true, false => digTowardsA start end_ s l

/-- `IterStack::new` (1163-1184). -/
def newA (A : Arch) (map : RBMap K V) (start end_ : Bound Q) (backwards : Bool) : RBAsk K V Q (IterStack K V) := do
  let h ← lift (conservativeHeight A map.size)
  let size ← lift (A.uadd h 1)
  let stack : IterStack K V := ⟨[], backwards, size⟩
  let stack ← stack.digTowardsA start end_ map.root
  stack.clearIfFinishedA start end_

/-- `IterStack::advance` (1276-1291). -/
def advanceA (s : IterStack K V) (start end_ : Bound Q) : RBAsk K V Q (IterStack K V) :=
  match s.stack with
  | [] => pure s
  | node :: rest =>
    let s := { s with stack := rest }
    let child := if s.backwards then node.left else node.right
    let s := match child with
      | .none => s
      | .some e c l r => dig { s with stack := ⟨e, c, l, r⟩ :: s.stack }
    s.clearIfFinishedA start end_

end IterStack

namespace RBRangeIter
variable {K V Q : Type} (A : Arch)

/-- `RangeIterPtr::init_if_needed` (1391-1405). -/
def initIfNeededA (it : RBRangeIter K V Q) (backwards : Bool) : RBAsk K V Q (RBRangeIter K V Q) :=
  let stack_field := if backwards then it.stackBackward else it.stackForward
  if stack_field.isNone then do
    let s ← IterStack.newA A it.map it.start it.end_ backwards
    pure (if backwards then { it with stackBackward := some s } else { it with stackForward := some s })
  else pure it

/-- `RangeIterPtr::is_remaining_range_empty` (1407-1417). -/
def isRemainingRangeEmptyA (it : RBRangeIter K V Q) : RBAsk K V Q Bool :=
  match it.stackForward, it.stackBackward with
  | some stack_forward, some stack_backward =>
    match stack_forward.current, stack_backward.current with
    | some left, some right => do let c ← askKeys left.1 right.1; pure (c == .gt)
    | _, _ => pure true
  | _, _ => pure false

/-- `RangeIterPtr::current_forward` (1419-1424). -/
def currentForwardA (it : RBRangeIter K V Q) : RBAsk K V Q (Option (K × V)) := do
  match ← it.isRemainingRangeEmptyA with
  | true => pure none
  | false => do
    let s ← lift (unwrap it.stackForward)
    pure s.current

/-- `RangeIterPtr::advance_forward` (1426-1431). -/
def advanceForwardA (it : RBRangeIter K V Q) : RBAsk K V Q (RBRangeIter K V Q) := do
  let s ← lift (unwrap it.stackForward)
  let s ← s.advanceA it.start it.end_
  pure { it with stackForward := some s }

/-- `RangeIterPtr::current_backward` (1433-1438). -/
def currentBackwardA (it : RBRangeIter K V Q) : RBAsk K V Q (Option (K × V)) := do
  match ← it.isRemainingRangeEmptyA with
  | true => pure none
  | false => do
    let s ← lift (unwrap it.stackBackward)
    pure s.current

/-- `RangeIterPtr::advance_backward` (1440-1445). -/
def advanceBackwardA (it : RBRangeIter K V Q) : RBAsk K V Q (RBRangeIter K V Q) := do
  let s ← lift (unwrap it.stackBackward)
  let s ← s.advanceA it.start it.end_
  pure { it with stackBackward := some s }

/-- `Iterator::next for RangeIterPtr` (1457-1465). -/
def nextA (it : RBRangeIter K V Q) : RBAsk K V Q (Option (K × V) × RBRangeIter K V Q) := do
  let it ← it.initIfNeededA A false
  let current ← it.currentForwardA
  let it ← it.advanceForwardA
  pure (current, it)

/-- `DoubleEndedIterator::next_back for RangeIterPtr` (1475-1483). -/
def nextBackA (it : RBRangeIter K V Q) : RBAsk K V Q (Option (K × V) × RBRangeIter K V Q) := do
  let it ← it.initIfNeededA A true
  let current ← it.currentBackwardA
  let it ← it.advanceBackwardA
  pure (current, it)

end RBRangeIter

namespace RBIter
variable {K V : Type} (A : Arch)

/-- `Iterator::next for IterPtr` (1335-1342). -/
def nextA (it : RBIter K V) : RBAsk K V K (Option (K × V) × RBIter K V) :=
  if it.size > 0 then do
    let size ← lift (csub it.size 1)
    let (x, rangeIter) ← it.rangeIter.nextA A
    pure (x, { rangeIter, size })
  else pure (none, it)

/-- `DoubleEndedIterator::next_back for IterPtr` (1354-1361). -/
def nextBackA (it : RBIter K V) : RBAsk K V K (Option (K × V) × RBIter K V) :=
  if it.size > 0 then do
    let size ← lift (csub it.size 1)
    let (x, rangeIter) ← it.rangeIter.nextBackA A
    pure (x, { rangeIter, size })
  else pure (none, it)

/-- `next` of `core::iter::Map` over this iterator. -/
def mapNextA {β : Type} (f : K × V → β) (it : RBIter K V) : RBAsk K V K (Option β × RBIter K V) := do
  let (x, it) ← it.nextA A
  pure (x.map f, it)

end RBIter

namespace RBTree
variable {K V : Type}

/-- `Node::get` (169-179), with the key type itself as the borrowed form. -/
def getA (key : K) : RBTree K V → RBAsk K V K (Option (K × V))
  | .none => pure Option.none
  | .some e _ l r => do
    match ← askKeys key e.1 with
    | .lt => l.getA key
    | .eq => pure (Option.some e)
    | .gt => r.getA key

end RBTree

namespace RBMap
variable {K V Q : Type} (A : Arch)

/-- The guard of the second match arm of `range` (956-963). -/
def startAfterEndA (start end_ : Bound Q) : RBAsk K V Q Bool :=
  match start, end_ with
  | .included s, .included e => do let c ← askBounds s e; pure (c == .gt)
  | .included s, .excluded e => do let c ← askBounds s e; pure (c == .gt)
  | .excluded s, .included e => do let c ← askBounds s e; pure (c == .gt)
  | .excluded s, .excluded e => do let c ← askBounds s e; pure (c == .gt)
  | _, _ => pure false

/-- The first match arm of `range` (953-955). -/
def bothExcludedEqualA (start end_ : Bound Q) : RBAsk K V Q Bool :=
  match start, end_ with
  | .excluded s, .excluded e => askBoundsEq s e
  | _, _ => pure false

/-- `RedBlackTreeMap::range` (944-966): `none` is the documented panic. -/
def rangeA (m : RBMap K V) (start end_ : Bound Q) : RBAsk K V Q (Option (RBRangeIter K V Q)) := do
  let equal ← bothExcludedEqualA start end_
  if equal then pure none
  else do
    let after ← startAfterEndA start end_
    if after then pure none else pure (some (RBRangeIter.new m start end_))

/-- `next` of `RedBlackTreeMap::iter` (927-929). -/
def iterNextA : RBIter K V → RBAsk K V K (Option (K × V) × RBIter K V) := RBIter.mapNextA A fun e => (e.1, e.2)

/-- `PartialEq for RedBlackTreeMap` (1027-1033). -/
def eqA (samePtr : Bool) (a b : RBMap K V) : RBAsk K V K Bool :=
  if samePtr then pure true
  else if a.getSize == b.getSize then
    iterAllA (iterNextA A) (fun kv => do
      match ← b.root.getA kv.1 with
      | none => pure false
      | some e => askValuesEq kv.2 e.2) (a.size + 1) a.iter
  else pure false

/-- `Ord` of the pairs `(&K, &V)`. -/
def cmpPairA (a b : K × V) : RBAsk K V K Ordering := do
  match ← askKeys a.1 b.1 with
  | .eq => askValuesCmp a.2 b.2
  | c => pure c

/-- `Ord for RedBlackTreeMap` (1058-1060). -/
def cmpA (a b : RBMap K V) : RBAsk K V K Ordering := iterCmpA (iterNextA A) cmpPairA (a.size + 1) a.iter b.iter

/-- `PartialOrd` of the pairs `(&K, &V)`. -/
def partialCmpPairA (a b : K × V) : RBAsk K V K (Option Ordering) := do
  match ← askKeysPartial a.1 b.1 with
  | some .eq => askValuesPartial a.2 b.2
  | c => pure c

/-- `PartialOrd for RedBlackTreeMap` (1049-1051). -/
def partialCmpA (a b : RBMap K V) : RBAsk K V K (Option Ordering) :=
  iterPartialCmpA (iterNextA A) partialCmpPairA (a.size + 1) a.iter b.iter

end RBMap

namespace RBSet
variable {T : Type} (A : Arch)

/-- `Iterator::next` of the iterator (red_black_tree_set/mod.rs:12). -/
def iterNextA : RBIter T Unit → RBAsk T Unit T (Option T × RBIter T Unit) := RBIter.mapNextA A fun e => e.1

/-- `PartialEq` (red_black_tree_set/mod.rs:307-309): the questions about values are tests `() == ()`. -/
def eqA (samePtr : Bool) (a b : RBSet T) : RBAsk T Unit T Bool := a.map.eqA A samePtr b.map

/-- `PartialOrd` (red_black_tree_set/mod.rs:324-326). -/
def partialCmpA (a b : RBSet T) : RBAsk T Unit T (Option Ordering) := iterPartialCmpA (iterNextA A) askKeysPartial (a.size + 1) a.iter b.iter

/-- `Ord` (red_black_tree_set/mod.rs:333-335). -/
def cmpA (a b : RBSet T) : RBAsk T Unit T Ordering := iterCmpA (iterNextA A) askKeys (a.size + 1) a.iter b.iter

/-- The `while` loop of `is_disjoint` (red_black_tree_set/mod.rs:199-205). -/
def disjointLoopA : Nat → RBIter T Unit → RBIter T Unit → Option T → Option T → RBAsk T Unit T Bool
  | 0, _, _, _, _ => .ret (.error .diverge)
  | fuel + 1, self_it, other_it, v_opt, u_opt =>
    match v_opt, u_opt with
    | some v, some u => do
      match ← askKeys v u with
      | .lt => do
        let (v_opt, self_it) ← iterNextA A self_it
        disjointLoopA fuel self_it other_it v_opt (some u)
      | .eq => pure false
      | .gt => do
        let (u_opt, other_it) ← iterNextA A other_it
        disjointLoopA fuel self_it other_it (some v) u_opt
    | _, _ => pure true

/-- `is_disjoint` (red_black_tree_set/mod.rs:189-208). -/
def isDisjointA (s other : RBSet T) : RBAsk T Unit T Bool := do
  let (v_opt, self_it) ← iterNextA A s.iter
  let (u_opt, other_it) ← iterNextA A other.iter
  disjointLoopA A (s.size + other.size + 1) self_it other_it v_opt u_opt

/-- The inner loop of `is_subset` (red_black_tree_set/mod.rs:232-241). -/
def subsetInnerA (v : T) : Nat → RBIter T Unit → RBAsk T Unit T (Option (RBIter T Unit))
  | 0, _ => .ret (.error .diverge)
  | fuel + 1, other_it => do
    let (x, other_it) ← iterNextA A other_it
    match x with
    | some u => do
      match ← askKeys u v with
      | .lt => subsetInnerA v fuel other_it
      | .eq => pure (some other_it)
      | .gt => pure none
    | none => pure none

/-- The outer loop of `is_subset` (red_black_tree_set/mod.rs:231-242). -/
def subsetLoopA (otherSize : Nat) : Nat → RBIter T Unit → RBIter T Unit → RBAsk T Unit T Bool
  | 0, _, _ => .ret (.error .diverge)
  | fuel + 1, self_it, other_it => do
    let (x, self_it) ← iterNextA A self_it
    match x with
    | none => pure true
    | some v => do
      let r ← subsetInnerA A v (otherSize + 1) other_it
      match r with
      | none => pure false
      | some other_it => subsetLoopA otherSize fuel self_it other_it

/-- `is_subset` (red_black_tree_set/mod.rs:219-245). -/
def isSubsetA (samePtr : Bool) (s other : RBSet T) : RBAsk T Unit T Bool :=
  if samePtr then pure true
  else if s.size > other.size then pure false
  else subsetLoopA A other.size (s.size + 1) s.iter other.iter

/-- `is_superset` (red_black_tree_set/mod.rs:248-253). -/
def isSupersetA (samePtr : Bool) (s other : RBSet T) : RBAsk T Unit T Bool := other.isSubsetA A samePtr s

end RBSet

/-! ### With answers that do not change, this is the model -/

section Run
variable {K V Q : Type} (A : Arch) (o : OrdKeys K Q) (eqV : V → V → Bool) (cmpV : V → V → Ordering)

local notation "fo" => RBQuestion.answer o eqV cmpV

theorem askKeys_run (a b : K) : (askKeys (V := V) (Q := Q) a b).run fo = .ok (o.cmpK a b) := rfl

theorem self_cmpK : o.self.cmpK = o.cmpK := rfl

theorem IterStack.afterStartA_run (start : Bound Q) (key : K) : (IterStack.afterStartA (V := V) start key).run fo = .ok (afterStart o start key) := by
  cases start <;> rfl

theorem IterStack.beforeEndA_run (end_ : Bound Q) (key : K) : (IterStack.beforeEndA (V := V) end_ key).run fo = .ok (beforeEnd o end_ key) := by
  cases end_ <;> rfl

theorem IterStack.clearIfFinishedA_run (s : IterStack K V) (start end_ : Bound Q) :
    (s.clearIfFinishedA start end_).run fo = .ok (s.clearIfFinished o start end_) := by
  unfold clearIfFinishedA clearIfFinished
  cases s.current with
  | none => rfl
  | some e =>
    simp only [run_bind]
    cases s.backwards <;> simp [afterStartA_run, beforeEndA_run, run_pure]

theorem IterStack.digTowardsA_run (start end_ : Bound Q) (t : RBTree K V) (s : IterStack K V) :
    (s.digTowardsA start end_ t).run fo = .ok (s.digTowards o start end_ t) := by
  induction t generalizing s with
  | none => rfl
  | some e c l r ihl ihr =>
    unfold digTowardsA digTowards
    simp only [run_bind]
    cases hb : s.backwards
    · simp only [Bool.false_eq_true, if_false, afterStartA_run, Res.ok_bind]
      cases afterStart o start e.1 <;> simp [hb, ihl, ihr]
    · simp only [if_true, beforeEndA_run, Res.ok_bind]
      cases beforeEnd o end_ e.1 <;> simp [hb, ihl, ihr]

theorem IterStack.newA_run (m : RBMap K V) (start end_ : Bound Q) (b : Bool) :
    (IterStack.newA A m start end_ b).run fo = IterStack.new A o m start end_ b := by
  simp only [newA, new, run_bind, run_lift, digTowardsA_run, clearIfFinishedA_run, Res.ok_bind]
  rfl

theorem IterStack.advanceA_run (s : IterStack K V) (start end_ : Bound Q) :
    (s.advanceA start end_).run fo = .ok (s.advance o start end_) := by
  unfold advanceA advance
  cases s.stack with
  | nil => rfl
  | cons n rest => exact clearIfFinishedA_run o eqV cmpV _ start end_

theorem RBRangeIter.initIfNeededA_run (it : RBRangeIter K V Q) (b : Bool) : (it.initIfNeededA A b).run fo = it.initIfNeeded A o b := by
  unfold initIfNeededA initIfNeeded
  dsimp only
  cases (if b = true then it.stackBackward else it.stackForward).isNone with
  | false => rfl
  | true => simp only [if_true, run_bind, IterStack.newA_run]; rfl

theorem RBRangeIter.isRemainingRangeEmptyA_run (it : RBRangeIter K V Q) :
    it.isRemainingRangeEmptyA.run fo = .ok (it.isRemainingRangeEmpty o) := by
  unfold isRemainingRangeEmptyA isRemainingRangeEmpty
  cases it.stackForward <;> cases it.stackBackward <;> try rfl
  rename_i f b
  simp only
  cases f.current <;> cases b.current <;> rfl

theorem RBRangeIter.nextA_run (it : RBRangeIter K V Q) : (it.nextA A).run fo = it.next A o := by
  simp only [nextA, next, run_bind, initIfNeededA_run]
  congr 1; funext it
  simp only [currentForwardA, currentForward, advanceForwardA, advanceForward, run_bind, isRemainingRangeEmptyA_run, Res.ok_bind, run_lift]
  cases it.isRemainingRangeEmpty o <;> simp only [run_pure, Res.ok_bind, run_bind, run_lift] <;> cases it.stackForward <;>
    simp [unwrap, IterStack.advanceA_run, run_pure]

theorem RBRangeIter.nextBackA_run (it : RBRangeIter K V Q) : (it.nextBackA A).run fo = it.nextBack A o := by
  simp only [nextBackA, nextBack, run_bind, initIfNeededA_run]
  congr 1; funext it
  simp only [currentBackwardA, currentBackward, advanceBackwardA, advanceBackward, run_bind, isRemainingRangeEmptyA_run, Res.ok_bind, run_lift]
  cases it.isRemainingRangeEmpty o <;> simp only [run_pure, Res.ok_bind, run_bind, run_lift] <;> cases it.stackBackward <;>
    simp [unwrap, IterStack.advanceA_run, run_pure]

theorem RBMap.rangeA_run (m : RBMap K V) (start end_ : Bound Q) :
    (m.rangeA start end_).run fo = .ok (match m.range o start end_ with | .ok it => some it | .error _ => none) := by
  have h1 : (bothExcludedEqualA (K := K) (V := V) start end_).run fo = .ok (bothExcludedEqual o start end_) := by
    cases start <;> cases end_ <;> rfl
  have h2 : (startAfterEndA (K := K) (V := V) start end_).run fo = .ok (startAfterEnd o start end_) := by
    cases start <;> cases end_ <;> rfl
  unfold rangeA range
  simp only [run_bind, h1, Res.ok_bind]
  cases bothExcludedEqual o start end_ with
  | true => rfl
  | false =>
    simp only [Bool.false_eq_true, if_false, run_bind, h2, Res.ok_bind]
    cases startAfterEnd o start end_ <;> rfl

end Run

section RunSelf
variable {K V T Q : Type} (A : Arch) (o : OrdKeys K Q) (eqV : V → V → Bool) (cmpV : V → V → Ordering)

local notation "fs" => RBQuestion.answer (OrdKeys.self o) eqV cmpV

theorem RBIter.nextA_run (it : RBIter K V) : (it.nextA A).run fs = it.next A o := by
  unfold nextA next
  split
  · simp only [run_bind, run_lift, RBRangeIter.nextA_run]; rfl
  · rfl

theorem RBIter.nextBackA_run (it : RBIter K V) : (it.nextBackA A).run fs = it.nextBack A o := by
  unfold nextBackA nextBack
  split
  · simp only [run_bind, run_lift, RBRangeIter.nextBackA_run]; rfl
  · rfl

theorem RBIter.mapNextA_run {β : Type} (f : K × V → β) (it : RBIter K V) : (it.mapNextA A f).run fs = it.mapNext A o f := by
  simp only [mapNextA, mapNext, run_bind, nextA_run]; rfl

theorem RBTree.getA_run (key : K) (t : RBTree K V) : (t.getA key).run fs = .ok (t.get o.self key) := by
  induction t with
  | none => rfl
  | some e c l r ihl ihr =>
    simp only [getA, get, run_bind, askKeys_run, Res.ok_bind, self_cmpK, show ∀ a b, o.self.cmpQ a (o.self.borrow b) = o.cmpK a b from fun _ _ => rfl]
    cases o.cmpK key e.1 with
    | lt => exact ihl
    | eq => rfl
    | gt => exact ihr

theorem RBMap.eqA_run (p : Bool) (a b : RBMap K V) : (RBMap.eqA A p a b).run fs = RBMap.eq A o eqV p a b := by
  unfold eqA RBMap.eq
  cases p with
  | true => rfl
  | false =>
    simp only [Bool.false_eq_true, if_false]
    split
    · refine run_iterAllA _ (RBIter.mapNextA_run A o eqV cmpV _) (fun kv => ?_) _ _
      simp only [run_bind, RBTree.getA_run, Res.ok_bind, RBMap.get]
      cases b.root.get o.self kv.1 <;> rfl
    · rfl

theorem RBMap.cmpPairA_run (a b : K × V) : (RBMap.cmpPairA a b).run fs = .ok (RBMap.cmpPair o cmpV a b) := by
  simp only [cmpPairA, cmpPair, run_bind, askKeys_run, Res.ok_bind, self_cmpK]
  cases o.cmpK a.1 b.1 <;> rfl

theorem RBMap.cmpA_run (a b : RBMap K V) : (RBMap.cmpA A a b).run fs = RBMap.cmp A o cmpV a b :=
  run_iterCmpA _ (RBIter.mapNextA_run A o eqV cmpV _) (RBMap.cmpPairA_run o eqV cmpV) _ _ _

end RunSelf

section RunSet
variable {T Q : Type} (A : Arch) (o : OrdKeys T Q) (eqV : Unit → Unit → Bool) (cmpV : Unit → Unit → Ordering)

local notation "fs" => RBQuestion.answer (OrdKeys.self o) eqV cmpV

theorem RBSet.disjointLoopA_run (fuel : Nat) (it it' : RBIter T Unit) (v u : Option T) :
    (RBSet.disjointLoopA A fuel it it' v u).run fs = RBSet.disjointLoop A o fuel it it' v u := by
  induction fuel generalizing it it' v u with
  | zero => rfl
  | succ n ih =>
    cases v with
    | none => rfl
    | some v =>
      cases u with
      | none => rfl
      | some u =>
        simp only [disjointLoopA, disjointLoop, run_bind, askKeys_run, Res.ok_bind, self_cmpK]
        cases o.cmpK v u with
        | lt =>
          simp only [run_bind]
          erw [RBIter.mapNextA_run A o eqV cmpV]
          congr 1; funext r
          exact ih _ _ _ _
        | eq => rfl
        | gt =>
          simp only [run_bind]
          erw [RBIter.mapNextA_run A o eqV cmpV]
          congr 1; funext r
          exact ih _ _ _ _

theorem RBSet.isDisjointA_run (s t : RBSet T) : (RBSet.isDisjointA A s t).run fs = RBSet.isDisjoint A o s t := by
  simp only [isDisjointA, isDisjoint, run_bind]
  have h : ∀ it, (RBSet.iterNextA A it).run fs = RBSet.iterNext A o it := RBIter.mapNextA_run A o eqV cmpV _
  simp only [h, disjointLoopA_run]

theorem RBSet.subsetInnerA_run (v : T) (fuel : Nat) (it : RBIter T Unit) :
    (RBSet.subsetInnerA A v fuel it).run fs = RBSet.subsetInner A o v fuel it := by
  have h : ∀ it, (RBSet.iterNextA A it).run fs = RBSet.iterNext A o it := RBIter.mapNextA_run A o eqV cmpV _
  induction fuel generalizing it with
  | zero => rfl
  | succ n ih =>
    simp only [subsetInnerA, subsetInner, run_bind, h]
    congr 1; funext r
    obtain ⟨x, it'⟩ := r
    cases x with
    | none => rfl
    | some u =>
      simp only [run_bind, askKeys_run, Res.ok_bind, self_cmpK]
      cases o.cmpK u v with
      | lt => exact ih it'
      | eq => rfl
      | gt => rfl

theorem RBSet.isSubsetA_run (p : Bool) (s t : RBSet T) : (RBSet.isSubsetA A p s t).run fs = RBSet.isSubset A o p s t := by
  have h : ∀ it, (RBSet.iterNextA A it).run fs = RBSet.iterNext A o it := RBIter.mapNextA_run A o eqV cmpV _
  have hl : ∀ (j fuel : Nat) (it it' : RBIter T Unit), (RBSet.subsetLoopA A j fuel it it').run fs = RBSet.subsetLoop A o j fuel it it' := by
    intro j fuel
    induction fuel with
    | zero => intros; rfl
    | succ n ih =>
      intro it it'
      simp only [subsetLoopA, subsetLoop, run_bind, h]
      congr 1; funext r
      obtain ⟨x, it1⟩ := r
      cases x with
      | none => rfl
      | some v =>
        simp only [run_bind, subsetInnerA_run]
        congr 1; funext r
        cases r with
        | none => rfl
        | some it2 => exact ih _ _
  unfold isSubsetA isSubset
  split
  · rfl
  · split
    · rfl
    · exact hl _ _ _ _

end RunSet
end Rpds
