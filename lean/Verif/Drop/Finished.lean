import Verif.Queue.Model
import Verif.Stack.Model
import Verif.Vector.Rep
import Verif.RedBlack.Map
/-
Operations in place that are finished, for all one can see, when the `Drop` of the element they remove or replace panics: removals from
lists, stacks and queues, `Vector::set_mut`, and `RedBlackTreeMap::insert_mut` of a key that is there.  Each is written out again
up to the drop; `none` means that nothing is dropped.
-/
set_option autoImplicit false
namespace Rpds

section
variable {T : Type}

/-- `List::drop_first_mut` (list/mod.rs:177-188) when the drop of the removed element panics.  The element is dropped with the node `h`
when the closure ends.  The assignment to `last` before it drops a pointer to the element, but `h` holds another one. -/
def RList.dropFirstMutD (l : RList T) : Res (Option (RList T)) :=
  match l.head with
  | .none => .ok none
  | .some _ next => do
    let length ← csub l.length 1
    .ok (some { head := next, last := if length == 0 then none else l.last, length })

/-- `Stack::pop_mut` (stack/mod.rs:135-137) when the drop of the removed element panics. -/
def Stack.popMutD (s : Stack T) : Res (Option (Stack T)) := do
  let r ← s.list.dropFirstMutD
  pure (r.map fun list => { list })

/-- `Queue::dequeue_mut` (queue/mod.rs:142-155) when the drop of the removed element panics.  `reverse_mut` before it drops a pointer to the last
element of the list, of which the node that holds it has another. -/
def Queue.dequeueMutD (q : Queue T) : Res (Option (Queue T)) :=
  if !q.out_list.isEmpty then do
    let r ← q.out_list.dropFirstMutD
    pure (r.map fun out_list => { q with out_list })
  else if !q.in_list.isEmpty then do
    let r ← q.in_list.reverseMut.dropFirstMutD
    pure (r.map fun out_list => { in_list := q.out_list, out_list })
  else pure none

end

namespace VNode
variable {T : Type} (A : Arch) (bits : Nat)

mutual
/-- `Node::assoc` (vector/mod.rs:139-173) when the drop of the replaced element panics: it is dropped by the assignment `a[b] = …` (149),
which writes the new one. -/
def assocD (value : T) (index : Nat) : VNode T → (height : Nat) → Res (Option (VNode T))
  | .leaf a, height => do
    let b ← vecBucket A bits index height
    A.debugAssert (height == 0)
    if a.length == b then pure none
    else do
      let a' ← vecSet a b value
      pure (some (.leaf a'))
  | .branch a, height => do
    let b ← vecBucket A bits index height
    A.debugAssert (decide (height > 0))
    let r ← assocAtD value index a b height
    pure (r.map .branch)
/-- `make_mut(subtree).assoc(value, height - 1, bucket)` (vector/mod.rs:157-159) when it panics. -/
def assocAtD (value : T) (index : Nat) : List (VNode T) → Nat → (height : Nat) → Res (Option (List (VNode T)))
  | [], _, _ => .ok none
  | c :: cs, 0, height => do
    let h ← A.usub height 1
    let c' ← assocD value index c h
    pure (c'.map (· :: cs))
  | c :: cs, b + 1, height => do
    let r ← assocAtD value index cs b height
    pure (r.map (c :: ·))
end

end VNode

/-- `Vector::set_mut` (vector/mod.rs:347-354, 360-376) when the drop of the replaced element panics: the comparison of `index` with the
length after it (370) is not reached. -/
def RVector.setMutD {T : Type} (A : Arch) (v : RVector T) (index : Nat) (x : T) : Res (Option (RVector T)) :=
  if index ≥ v.length then pure none
  else do
    v.assocCheck A index
    let height ← v.height A
    let r ← v.root.assocD A v.bits x index height
    pure (r.map fun root => { v with root })

/-- `ins` (red_black_tree_map/mod.rs:373-427) when the drop of the replaced pair panics: it is dropped by the assignment of the entry (395), which
writes the new one.  The root is not coloured black after it (411-413). -/
def RBTree.insD {K V Q : Type} (o : OrdKeys K Q) (k : K) (v : V) : RBTree K V → Option (RBTree K V)
  | .none => Option.none
  | .some e c l r =>
    match o.cmpK k e.1 with
    | .lt => (insD o k v l).map fun l => .some e c l r
    | .eq => Option.some (.some (k, v) c l r)
    | .gt => (insD o k v r).map fun r => .some e c l r

/-- `RedBlackTreeMap::insert_mut` (848-854) when the drop of the replaced pair panics. -/
def RBMap.insertMutD {K V Q : Type} (o : OrdKeys K Q) (m : RBMap K V) (key : K) (value : V) : Option (RBMap K V) :=
  (m.root.insD o key value).map fun root => { m with root }

/-! ### Lists -/

section
variable {T : Type}

theorem RList.dropFirstMutD_eq (l : RList T) : l.dropFirstMutD = l.dropFirstMut.map fun p => if p.1 then some p.2 else none := by
  simp only [RList.dropFirstMutD, RList.dropFirstMut]
  cases l.head with
  | none => rfl
  | some x n => cases h : csub l.length 1 <;> rfl

theorem Stack.popMutD_eq (s : Stack T) : s.popMutD = s.popMut.map fun p => if p.1 then some p.2 else none := by
  simp only [Stack.popMutD, Stack.popMut, RList.dropFirstMutD_eq]
  cases s.list.dropFirstMut with
  | error e => rfl
  | ok p => obtain ⟨_ | _, l⟩ := p <;> rfl

end

/-! ### Vectors -/

namespace VNode
variable {T : Type} {A : Arch} {bits : Nat}

mutual
theorem assocD_of_get {x y : T} {index : Nat} : ∀ (n : VNode T) (h : Nat), n.get A bits index h = .ok y →
    n.assocD A bits x index h = (n.assoc A bits x index h).map some
  | .leaf a, h, hg => by
    simp only [get] at hg
    simp only [assocD, assoc]
    cases hb : vecBucket A bits index h with
    | error e => simp [hb] at hg
    | ok b =>
      simp only [hb, Res.ok_bind] at hg ⊢
      cases hd : A.debugAssert (h == 0) with
      | error e => simp [hd] at hg
      | ok u =>
        simp only [hd, Res.ok_bind] at hg ⊢
        have hlt : b < a.length := by
          simp only [vecIndex] at hg
          cases ha : a[b]? with
          | none => simp [ha] at hg
          | some z => exact (List.getElem?_eq_some_iff.1 ha).1
        have hne : (a.length == b) = false := by simp; omega
        rw [if_neg (by simp [hne]), if_neg (by simp [hne])]
        simp only [vecSet, hlt, if_true]
        rfl
  | .branch a, h, hg => by
    simp only [get] at hg
    simp only [assocD, assoc]
    cases hb : vecBucket A bits index h with
    | error e => simp [hb] at hg
    | ok b =>
      simp only [hb, Res.ok_bind] at hg ⊢
      cases hd : A.debugAssert (decide (h > 0)) with
      | error e => rfl
      | ok u =>
        simp only [Res.ok_bind]
        obtain ⟨h1, h2⟩ := assocAtD_of_get (x := x) a b h hg
        rw [h1]
        cases hr : assocAt A bits x index a b h with
        | error e => rfl
        | ok r =>
          cases r with
          | none => exact absurd hr h2
          | some r => rfl
theorem assocAtD_of_get {x y : T} {index : Nat} : ∀ (cs : List (VNode T)) (b h : Nat), getAt A bits index cs b h = .ok y →
    assocAtD A bits x index cs b h = assocAt A bits x index cs b h ∧ assocAt A bits x index cs b h ≠ .ok none
  | [], _, _, hg => by simp [getAt] at hg
  | c :: cs, 0, h, hg => by
    simp only [getAt] at hg
    simp only [assocAtD, assocAt]
    cases hh : A.usub h 1 with
    | error e => simp [hh] at hg
    | ok h' =>
      simp only [hh, Res.ok_bind] at hg ⊢
      rw [assocD_of_get c h' hg]
      cases ha : assoc A bits x index c h' <;> simp [Except.map]
  | c :: cs, b + 1, h, hg => by
    simp only [getAt] at hg
    simp only [assocAtD, assocAt]
    obtain ⟨h1, h2⟩ := assocAtD_of_get (x := x) cs b h hg
    rw [h1]
    refine ⟨rfl, ?_⟩
    cases hr : assocAt A bits x index cs b h with
    | error e => simp
    | ok r =>
      cases r with
      | none => exact absurd hr h2
      | some r => simp
end

end VNode

theorem RVector.Rep.setMutD {T : Type} {A : Arch} {v : RVector T} {xs : List T} {h : Nat} (r : RVector.Rep A v xs h) (i : Nat) (x : T) :
    v.setMutD A i x = (v.setMut A i x).map fun p => if p.1 then some p.2 else none := by
  have hg := r.get i
  have hh := r.height
  simp only [RVector.setMutD, RVector.setMut, RVector.assoc]
  split
  · rfl
  · next hge =>
    simp only [RVector.get, if_neg hge, hh, Res.ok_bind] at hg
    cases hc : v.assocCheck A i with
    | error e => rfl
    | ok u =>
      simp only [hh, Res.ok_bind]
      cases hx : v.root.get A v.bits i h with
      | error e => simp [hx] at hg
      | ok y =>
        rw [VNode.assocD_of_get _ _ hx]
        cases ha : v.root.assoc A v.bits x i h with
        | error e => rfl
        | ok n =>
          have : decide (i ≥ v.length) = false := by simpa using hge
          simp [Except.map, this]

/-! ### Red-black trees -/

namespace RBTree
variable {K V Q : Type} {o : OrdKeys K Q} {k : K} {v : V}

theorem insD_some {t t' : RBTree K V} (h : insD o k v t = Option.some t') : ins o k v t false = .ok (false, t') := by
  induction t generalizing t' with
  | none => cases h
  | some e c l r ihl ihr =>
    simp only [insD] at h
    simp only [ins]
    cases hc : o.cmpK k e.1 with
    | lt =>
      simp only [hc] at h ⊢
      cases hl : insD o k v l with
      | none => simp [hl] at h
      | some l' => simp only [hl, Option.map_some, Option.some.injEq] at h; subst h; rw [ihl hl]; rfl
    | eq => simp only [hc, Option.some.injEq] at h ⊢; subst h; rfl
    | gt =>
      simp only [hc] at h ⊢
      cases hl : insD o k v r with
      | none => simp [hl] at h
      | some l' => simp only [hl, Option.map_some, Option.some.injEq] at h; subst h; rw [ihr hl]; rfl

/-- A root that is not red need not be coloured black. -/
theorem insD_root {t t' : RBTree K V} (hr : t.NotRed) (h : insD o k v t = Option.some t') : ins o k v t true = .ok (false, t') := by
  cases t with
  | none => cases h
  | some e c l r =>
    have hcol : c = .black := by cases c <;> simp_all [NotRed, color]
    subst hcol
    simp only [insD] at h
    simp only [ins]
    cases hc : o.cmpK k e.1 with
    | lt =>
      simp only [hc] at h ⊢
      cases hl : insD o k v l with
      | none => simp [hl] at h
      | some l' => simp only [hl, Option.map_some, Option.some.injEq] at h; subst h; rw [insD_some hl]; rfl
    | eq => simp only [hc, Option.some.injEq] at h ⊢; subst h; rfl
    | gt =>
      simp only [hc] at h ⊢
      cases hl : insD o k v r with
      | none => simp [hl] at h
      | some l' => simp only [hl, Option.map_some, Option.some.injEq] at h; subst h; rw [insD_some hl]; rfl

theorem insD_isSome (lo : o.Lawful) (t : RBTree K V) : (insD o k v t).isSome = (t.get o (o.borrow k)).isSome := by
  induction t with
  | none => rfl
  | some e c l r ihl ihr =>
    simp only [insD, get, lo.borrow]
    cases o.cmpK k e.1 with
    | lt => simpa using ihl
    | eq => rfl
    | gt => simpa using ihr

end RBTree
end Rpds
