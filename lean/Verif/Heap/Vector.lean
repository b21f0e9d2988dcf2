import Verif.Heap.Tree
import Verif.Vector.Sim
/-
`rpds::Vector` (/repo/src/vector/mod.rs) on the reference counted heap: the same functions as in `Verif/Vector/Model.lean`, with
every pointer operation spelled out.

A `Node` is a cell with the label `branch` or `leaf` and the pointers of its `Vec`; elements are cells of their own.  The
functions of `Node` that take `&mut self` work on the content of a cell borrowed through `make_mut`.  They recurse on `height`:
a branch at height 0 does not exist in a vector (proved: `VNode.OK`), the functions here panic on it.
-/
set_option autoImplicit false
set_option linter.unusedSectionVars false
namespace Rpds
namespace Heap

/-- Cells of a `Vector<T>`: elements and the two kinds of nodes (vector/mod.rs:107-113). -/
inductive VLabel (T : Type) where
  | val (v : T)
  | branch
  | leaf
  deriving DecidableEq, Repr

namespace HNode
variable {T : Type} (Ar : Arch) (bits : Nat)

/-- Reads an element. -/
def readVal (p : Addr) : Prog (VLabel T) T :=
  Prog.bind (read p) fun c =>
    match c.1 with
    | .val v => .ret v
    | _ => .panic

/-- `Node::get` (vector/mod.rs:127-137) with the read of the element; `sub` is the recursive call at `height - 1`. -/
def getStep (index height : Nat) (sub : Addr → Prog (VLabel T) T) (p : Addr) : Prog (VLabel T) T :=
  Prog.bind (read p) fun c =>
  Prog.bind (lift (vecBucket Ar bits index height)) fun b =>
    match c.1 with
    | .branch => Prog.bind (lift (vecIndex c.2 b)) fun q => sub q
    | .leaf =>
      Prog.bind (lift (Ar.debugAssert (height == 0))) fun _ =>
      Prog.bind (lift (vecIndex c.2 b)) fun q => readVal q
    | .val _ => .panic

/-- `Node::get` (vector/mod.rs:127-137). -/
def get (index : Nat) : (height : Nat) → Addr → Prog (VLabel T) T
  | 0 => getStep Ar bits index 0 fun _ => .panic
  | height + 1 => getStep Ar bits index (height + 1) (get index height)

/-- `Node::assoc` (vector/mod.rs:139-173) on the content of a node borrowed mutably; `sub` is the recursive call at `height - 1`. -/
def assocStep (value : T) (index height : Nat) (sub : Content (VLabel T) → Prog (VLabel T) (Unit × Content (VLabel T)))
    (c : Content (VLabel T)) : Prog (VLabel T) (Unit × Content (VLabel T)) :=
  Prog.bind (lift (vecBucket Ar bits index height)) fun b =>
    match c.1 with
    | .leaf =>
      Prog.bind (lift (Ar.debugAssert (height == 0))) fun _ =>
      Prog.bind (new (.val value) []) fun p =>
      if c.2.length == b then .ret ((), .leaf, c.2 ++ [p])
      else
        Prog.bind (lift (vecIndex c.2 b)) fun old =>
        Prog.bind (drop old) fun _ => .ret ((), .leaf, c.2.set b p)
    | .branch =>
      Prog.bind (lift (Ar.debugAssert (decide (height > 0)))) fun _ =>
      match c.2[b]? with
      | some q => Prog.bind (modifyPtr q sub) fun x => .ret ((), .branch, c.2.set b x.2)
      | none =>
        Prog.bind (sub (if height > 1 then .branch else .leaf, [])) fun y =>
        Prog.bind (new y.2.1 y.2.2) fun p => .ret ((), .branch, c.2 ++ [p])
    | .val _ => .panic

/-- `Node::assoc` (vector/mod.rs:139-173). -/
def assoc (value : T) (index : Nat) : (height : Nat) → Content (VLabel T) → Prog (VLabel T) (Unit × Content (VLabel T))
  | 0 => assocStep Ar bits value index 0 fun _ => .panic
  | height + 1 => assocStep Ar bits value index (height + 1) (assoc value index height)

/-- `Node::drop_last` (vector/mod.rs:197-215) on the content of a node borrowed mutably; `sub` is the recursive call. -/
def dropLastStep (sub : Content (VLabel T) → Prog (VLabel T) (Bool × Content (VLabel T))) (c : Content (VLabel T)) :
    Prog (VLabel T) (Bool × Content (VLabel T)) :=
  match c.2.getLast? with
  | none => .ret (true, c)
  | some p =>
    match c.1 with
    | .leaf => Prog.bind (drop p) fun _ => .ret (c.2.dropLast.length == 0, .leaf, c.2.dropLast)
    | .branch =>
      Prog.bind (modifyPtr p sub) fun x =>
      if x.1 then
        Prog.bind (drop x.2) fun _ => .ret (c.2.dropLast.length == 0, .branch, c.2.dropLast)
      else .ret (false, .branch, c.2.dropLast ++ [x.2])
    | .val _ => .panic

/-- `Node::drop_last` (vector/mod.rs:197-215); `fuel` bounds the depth. -/
def dropLast : (fuel : Nat) → Content (VLabel T) → Prog (VLabel T) (Bool × Content (VLabel T))
  | 0 => dropLastStep fun _ => .panic
  | fuel + 1 => dropLastStep (dropLast fuel)

/-- A write of `f old` through the reference to an element (vector/mod.rs:236). -/
def modifyVal (f : T → T) (c : Content (VLabel T)) : Prog (VLabel T) (Unit × Content (VLabel T)) :=
  match c.1 with
  | .val v => .ret ((), .val (f v), c.2)
  | _ => .panic

/-- `Node::get_mut` (vector/mod.rs:222-239) on the content of a node borrowed mutably, followed by a write of `f old` through the
reference; `sub` is the recursive call at `height - 1`. -/
def modifyStep (f : T → T) (index height : Nat) (sub : Content (VLabel T) → Prog (VLabel T) (Unit × Content (VLabel T)))
    (c : Content (VLabel T)) : Prog (VLabel T) (Unit × Content (VLabel T)) :=
  Prog.bind (lift (vecBucket Ar bits index height)) fun b =>
    match c.1 with
    | .branch =>
      Prog.bind (lift (vecIndex c.2 b)) fun q =>
      Prog.bind (modifyPtr q sub) fun x => .ret ((), .branch, c.2.set b x.2)
    | .leaf =>
      Prog.bind (lift (Ar.debugAssert (height == 0))) fun _ =>
      Prog.bind (lift (vecIndex c.2 b)) fun q =>
      Prog.bind (modifyPtr q (modifyVal f)) fun x => .ret ((), .leaf, c.2.set b x.2)
    | .val _ => .panic

/-- `Node::get_mut` (vector/mod.rs:222-239). -/
def modify (f : T → T) (index : Nat) : (height : Nat) → Content (VLabel T) → Prog (VLabel T) (Unit × Content (VLabel T))
  | 0 => modifyStep Ar bits f index 0 fun _ => .panic
  | height + 1 => modifyStep Ar bits f index (height + 1) (modify f index height)

/-- Reads a node and what is below it. -/
def viewStep (sub : Addr → Prog (VLabel T) (VNode T)) (p : Addr) : Prog (VLabel T) (VNode T) :=
  Prog.bind (read p) fun c =>
    match c.1 with
    | .leaf => Prog.bind (forAll readVal c.2) fun xs => .ret (.leaf xs)
    | .branch => Prog.bind (forAll sub c.2) fun ns => .ret (.branch ns)
    | .val _ => .panic

/-- Reads a whole tree (all the reads an iterator over it can make). -/
def view : (height : Nat) → Addr → Prog (VLabel T) (VNode T)
  | 0 => viewStep fun _ => .panic
  | height + 1 => viewStep (view height)

end HNode

/-- `struct Vector` (vector/mod.rs:95-102). -/
structure HVector where
  root : Addr
  bits : Nat
  length : Nat
  deriving DecidableEq, Repr

namespace HVector
variable {T : Type} (Ar : Arch)

/-- A vector of the value model with the same length and bits: `height`, `root_max_capacity` and the `debug_assert!` of `assoc` look
at nothing else. -/
def shape (v : HVector) : RVector Unit := ⟨.leaf [], v.bits, v.length⟩

/-- `Vector::new_with_bits` (vector/mod.rs:295-299). -/
def newWithBits (bits : Nat) : Prog (VLabel T) HVector :=
  Prog.bind (lift (assertRt (decide (bits > 0)))) fun _ =>
  Prog.bind (new .leaf []) fun root => .ret ⟨root, bits, 0⟩

/-- `Clone for Vector` (vector/mod.rs:589-591). -/
def clone (v : HVector) : Prog (VLabel T) HVector :=
  Prog.bind (Heap.clone v.root) fun _ => .ret ⟨v.root, v.bits, v.length⟩

/-- `Vector::get` (vector/mod.rs:329-337) with the read of the element. -/
def get (v : HVector) (index : Nat) : Prog (VLabel T) (Option T) :=
  if index ≥ v.length then .ret none
  else
    Prog.bind (lift (v.shape.height Ar)) fun h =>
    Prog.bind (HNode.get Ar v.bits index h v.root) fun x => .ret (some x)

/-- `Vector::last` (vector/mod.rs:308-313). -/
def last (v : HVector) : Prog (VLabel T) (Option T) :=
  match v.length with
  | 0 => .ret none
  | n => Prog.bind (lift (Ar.usub n 1)) fun i => v.get Ar i

/-- `Vector::assoc` (vector/mod.rs:360-376). -/
def assoc (v : HVector) (index : Nat) (x : T) : Prog (VLabel T) HVector :=
  Prog.bind (lift (v.shape.assocCheck Ar index)) fun _ =>
  Prog.bind (lift (v.shape.height Ar)) fun height =>
  Prog.bind (modifyPtr v.root (HNode.assoc Ar v.bits x index height)) fun r =>
  if index ≥ v.length then
    Prog.bind (lift (Ar.uadd v.length 1)) fun length => .ret { v with root := r.2, length := length }
  else .ret { v with root := r.2 }

/-- `Vector::set_mut` (vector/mod.rs:347-354). -/
def setMut (v : HVector) (index : Nat) (x : T) : Prog (VLabel T) (Bool × HVector) :=
  if index ≥ v.length then .ret (false, v)
  else Prog.bind (v.assoc Ar index x) fun v => .ret (true, v)

/-- `Vector::set` (vector/mod.rs:340-344): the clone is dropped if it is not needed. -/
def set (v : HVector) (index : Nat) (x : T) : Prog (VLabel T) (Option HVector) :=
  Prog.bind v.clone fun new_vector =>
  Prog.bind (new_vector.setMut Ar index x) fun r =>
  if r.1 then .ret (some r.2) else Prog.bind (drop r.2.root) fun _ => .ret none

/-- `Vector::push_back_mut` (vector/mod.rs:404-422).  `self.root = SharedPointer::new(new_root)` drops the old root pointer, after its
clone went into `new_root`. -/
def pushBackMut (v : HVector) (x : T) : Prog (VLabel T) HVector :=
  Prog.bind (lift (v.shape.isRootFull Ar)) fun full =>
  if full then
    Prog.bind (Heap.clone v.root) fun _ =>
    Prog.bind (new .branch [v.root]) fun new_root =>
    Prog.bind (drop v.root) fun _ =>
    Prog.bind (lift (Ar.uadd v.length 1)) fun l => assoc Ar { v with root := new_root, length := l } v.length x
  else v.assoc Ar v.length x

/-- `Vector::push_back` (vector/mod.rs:396-402). -/
def pushBack (v : HVector) (x : T) : Prog (VLabel T) HVector :=
  Prog.bind v.clone fun new_vector => new_vector.pushBackMut Ar x

/-- `drop_last` and `compress_root` on the content of the root (vector/mod.rs:447-454, 428-436): answers the new root if any
(`a.pop()` of a branch with one entry). -/
def dropCompress (fuel : Nat) (c : Content (VLabel T)) : Prog (VLabel T) (Option Addr × Content (VLabel T)) :=
  Prog.bind (HNode.dropLast fuel c) fun y =>
    match y.2 with
    | (.branch, [q]) => .ret (some q, .branch, [])
    | c' => .ret (none, c')

/-- `Vector::drop_last_mut` (vector/mod.rs:445-464).  `self.root = new_root` drops the old root pointer. -/
def dropLastMut (v : HVector) : Prog (VLabel T) (Bool × HVector) :=
  if v.length > 0 then
    Prog.bind (lift (v.shape.height Ar)) fun fuel =>
    Prog.bind (modifyPtr v.root (dropCompress fuel)) fun r =>
    Prog.bind (lift (Ar.usub v.length 1)) fun length =>
    match r.1 with
    | some new_root => Prog.bind (drop r.2) fun _ => .ret (true, { v with root := new_root, length := length })
    | none => .ret (true, { v with root := r.2, length := length })
  else .ret (false, v)

/-- `Vector::drop_last` (vector/mod.rs:439-443). -/
def dropLast (v : HVector) : Prog (VLabel T) (Option HVector) :=
  Prog.bind v.clone fun new_vector =>
  Prog.bind (new_vector.dropLastMut Ar) fun r =>
  if r.1 then .ret (some r.2) else Prog.bind (drop r.2.root) fun _ => .ret none

/-- `Vector::get_mut` (vector/mod.rs:495-507) followed by a write of `f old` through the reference. -/
def modify (v : HVector) (index : Nat) (f : T → T) : Prog (VLabel T) (Option HVector) :=
  if index ≥ v.length then .ret none
  else
    Prog.bind (lift (v.shape.height Ar)) fun height =>
    Prog.bind (modifyPtr v.root (HNode.modify Ar v.bits f index height)) fun r => .ret (some { v with root := r.2 })

/-- `Extend for Vector` (vector/mod.rs:642-646). -/
def extend (v : HVector) : List T → Prog (VLabel T) HVector
  | [] => .ret v
  | x :: xs => Prog.bind (v.pushBackMut Ar x) fun v => extend v xs

/-- An iterator over the vector and the calls `cs` of `next`/`next_back` (vector/mod.rs:478-485, 711-847).  The nodes are read up
front: while the iterator exists the vector is borrowed, so the order of the reads does not matter. -/
def iter (v : HVector) (cs : List Spec.End) : Prog (VLabel T) (RVector.Ret T) :=
  Prog.bind (lift (v.shape.height Ar)) fun h =>
  Prog.bind (HNode.view h v.root) fun root =>
    let it := VIter.new ⟨root, v.bits, v.length⟩
    Prog.bind (lift (it.sizeHint Ar)) fun n =>
    Prog.bind (lift (deCalls (VIter.next Ar) (VIter.nextBack Ar) (VIter.sizeHint Ar) cs it)) fun rs => .ret (.calls n rs)

end HVector

variable {T : Type} (Ar : Arch)

/-- All operations of `Vector` (the same as in `RVector.step`). -/
def vecHStep (v : HVector) : RVector.Op T → Prog (VLabel T) (RVector.Ret T × Effect HVector)
  | .pushBack x => Prog.bind (v.pushBack Ar x) fun w => .ret (.unit, .fresh w)
  | .pushBackMut x => Prog.bind (v.pushBackMut Ar x) fun w => .ret (.unit, .update w)
  | .set i x =>
    Prog.bind (v.set Ar i x) fun o =>
      match o with
      | some w => .ret (.bool true, .fresh w)
      | none => .ret (.bool false, .keep)
  | .setMut i x => Prog.bind (v.setMut Ar i x) fun r => .ret (.bool r.1, .update r.2)
  | .dropLast =>
    Prog.bind (v.dropLast Ar) fun o =>
      match o with
      | some w => .ret (.bool true, .fresh w)
      | none => .ret (.bool false, .keep)
  | .dropLastMut => Prog.bind (v.dropLastMut Ar) fun r => .ret (.bool r.1, .update r.2)
  | .getMut i f =>
    Prog.bind (v.modify Ar i f) fun o =>
      match o with
      | some w => .ret (.bool true, .update w)
      | none => .ret (.bool false, .keep)
  | .indexMut i x =>
    Prog.bind (v.modify Ar i fun _ => x) fun o =>
      match o with
      | some w => .ret (.unit, .update w)
      | none => .ret (.panicked, .keep)
  | .extend xs => Prog.bind (v.extend Ar xs) fun w => .ret (.unit, .update w)
  | .clone => Prog.bind v.clone fun w => .ret (.unit, .fresh w)
  | .get i => Prog.bind (v.get Ar i) fun o => .ret (.opt o, .keep)
  | .index i =>
    Prog.bind (v.get Ar i) fun o =>
      match o with
      | some x => .ret (.opt (some x), .keep)
      | none => .ret (.panicked, .keep)
  | .first => Prog.bind (v.get Ar 0) fun o => .ret (.opt o, .keep)
  | .last => Prog.bind (v.last Ar) fun o => .ret (.opt o, .keep)
  | .len => .ret (.nat v.length, .keep)
  | .isEmpty => .ret (.bool (v.length == 0), .keep)
  | .iter cs => Prog.bind (v.iter Ar cs) fun r => .ret (r, .keep)

/-- `Vector` for clients, made with `new_with_bits(bits)`.  The last owner of a vector frees it through the drop glue of the
nodes. -/
def vecImpl (T : Type) (bits : Nat) : Impl (VLabel T) HVector (RVector.Op T) (RVector.Ret T) where
  ptrs v := [v.root]
  new := HVector.newWithBits bits
  step := vecHStep Ar
  drop v := drop v.root

/-! ### Refinement -/

/-- An element cell. -/
def vecDec (t : ATree (VLabel T)) (v : T) : Prop := t.label = .val v ∧ t.kids = []

/-- The content of a cell is a node of the value model of the given height. -/
def IsVC : Nat → VLabel T → List (ATree (VLabel T)) → VNode T → Prop
  | 0, l, ts, n => ∃ xs, l = .leaf ∧ n = .leaf xs ∧ List.Forall₂ vecDec ts xs
  | h + 1, l, ts, n => ∃ ns, l = .branch ∧ n = .branch ns ∧ List.Forall₂ (fun t m => IsVC h t.label t.kids m) ts ns

/-- A vector on the heap stands for a vector of the value model of the given height. -/
def HVector.Is (hv : HVector) (v : RVector T) (h : Nat) (ρ : List (Item (VLabel T))) : Prop :=
  ∃ t : ATree (VLabel T), hv = ⟨t.addr, v.bits, v.length⟩ ∧ ρ = [.ptr t] ∧ IsVC h t.label t.kids v.root

/-- A vector on the heap stands for a sequence and has room for `a.1` items. -/
def VecIs (hv : HVector) (a : Nat × List T) (ρ : List (Item (VLabel T))) : Prop :=
  ∃ v h, hv.Is v h ρ ∧ RVector.Rep Ar v a.2 h ∧ a.1 = vecCap Ar v.bits

section
variable {Ar : Arch} {A : Allocator (VLabel T)} {D : Option Nat} [Roomy D] {b : Nat}

theorem lift_error_bind {α β : Type} {L : Type} {e : Panic} {f : α → Prog L β} :
    (lift (.error e : Res α)).bind f = .panic := rfl

theorem assocAt_get {x : T} {index i h : Nat} (cs : List (VNode T)) :
    VNode.assocAt Ar b x index cs i h = match cs[i]? with
      | some c => (do
        let h' ← Ar.usub h 1
        let c' ← VNode.assoc Ar b x index c h'
        pure (some (cs.set i c')))
      | none => pure none := by
  induction cs generalizing i with
  | nil => simp [VNode.assocAt]
  | cons d cs ih =>
    cases i with
    | zero => simp [VNode.assocAt]
    | succ i =>
      simp only [VNode.assocAt, ih, List.getElem?_cons_succ]
      cases hc : cs[i]? with
      | none => simp
      | some c =>
        simp only [List.set_cons_succ]
        cases Ar.usub h 1 with
        | error e => rfl
        | ok h' =>
          simp only [Res.ok_bind]
          cases VNode.assoc Ar b x index c h' with
          | error e => rfl
          | ok c' => rfl

theorem debug_true : Ar.debugAssert true = .ok () := by
  unfold Arch.debugAssert
  cases Ar.mode <;> rfl

theorem wn1 : Within D 1 := within_roomy (by omega)

theorem f2_mem_left {α β : Type} {R : α → β → Prop} {l : List α} {m : List β} (h : List.Forall₂ R l m) {a : α} (ha : a ∈ l) :
    ∃ b, R a b := by
  induction h with
  | nil => cases ha
  | cons h1 h2 ih =>
    rcases List.mem_cons.1 ha with rfl | ha
    · exact ⟨_, h1⟩
    · exact ih ha

/-- Freeing the content of a node nests as deep as there are levels. -/
theorem IsVC.nest {l : VLabel T} {ts : List (ATree (VLabel T))} {n : VNode T} {h : Nat} (hn : IsVC h l ts n) {H : List Addr} :
    nest.go H ts ≤ h + 1 := by
  induction h generalizing l ts n with
  | zero =>
    obtain ⟨xs, -, -, hk⟩ := hn
    refine nest_go_le_succ fun t ht => ?_
    obtain ⟨x, hx⟩ := f2_mem_left hk ht
    exact Nat.le_of_eq (nest_no_kids hx.2)
  | succ h ih =>
    obtain ⟨ns, -, -, hk⟩ := hn
    refine nest_go_le_succ fun t ht => ?_
    obtain ⟨x, hx⟩ := f2_mem_left hk ht
    exact Nat.le_trans (nest_le_go t) (ih hx)

theorem safe_readVecVal {s t : ATree (VLabel T)} {v : T} (h : vecDec s v) (hs : Sub s t) {ρ : List (Item (VLabel T))}
    (ht : .ptr t ∈ ρ) : Safe A D (fun r σ => r = v ∧ σ = ρ) (HNode.readVal s.addr) ρ := by
  refine Safe.bind (safe_read hs ht) ?_
  rintro c σ ⟨rfl, rfl⟩
  simp only [h.1]
  exact Safe.ret ⟨rfl, rfl⟩

theorem mem_reach_kid {L : Type} {t : ATree L} {a : Addr} {l : L} {ts : List (ATree L)} (h : t ∈ ts) {F : List (Item L)} :
    t.addr ∈ reach (.ptr (.node a l ts) :: F) :=
  List.mem_flatMap.2 ⟨.ptr (.node a l ts), by simp, by
    simp only [ATree.addrs, List.mem_cons]
    exact .inr (mem_addrs_go.2 ⟨t, h, addr_mem_addrs t⟩)⟩

theorem safe_vecGet {index : Nat} {t : ATree (VLabel T)} {ρ : List (Item (VLabel T))} (ht : .ptr t ∈ ρ) (h : Nat)
    (hb : h < 2 ^ Ar.W) {s : ATree (VLabel T)} {n : VNode T} (hn : IsVC h s.label s.kids n) (hs : Sub s t) {x : T}
    (he : n.get Ar b index h = .ok x) :
    Safe A D (fun r σ => r = x ∧ σ = ρ) (HNode.get Ar b index h s.addr) ρ := by
  induction h generalizing s n with
  | zero =>
    obtain ⟨xs, e1, rfl, hk⟩ := hn
    simp only [HNode.get, HNode.getStep]
    refine Safe.bind (safe_read hs ht) ?_
    rintro c σ ⟨rfl, rfl⟩
    simp only [VNode.get] at he
    cases hbk : vecBucket Ar b index 0 with
    | error e => simp [hbk] at he
    | ok i =>
      refine Safe.liftBind rfl ?_
      simp only [hbk, Res.ok_bind] at he
      · have hd : Ar.debugAssert (0 == 0) = .ok () := debug_true
        simp only [hd, Res.ok_bind] at he
        simp only [e1]
        refine Safe.liftBind hd ?_
        rcases f2_get hk i with ⟨h1, h2⟩ | ⟨q, y, h1, h2, h3⟩
        · simp [vecIndex, h2] at he
        · simp only [vecIndex, h2, Except.ok.injEq] at he
          subst he
          refine Safe.liftBind (vecIndex_map _ h1) ?_
          exact safe_readVecVal h3 (.kid hs (List.mem_of_getElem? h1)) ht
  | succ h ih =>
    obtain ⟨ns, e1, rfl, hk⟩ := hn
    simp only [HNode.get, HNode.getStep]
    refine Safe.bind (safe_read hs ht) ?_
    rintro c σ ⟨rfl, rfl⟩
    simp only [VNode.get] at he
    cases hbk : vecBucket Ar b index (h + 1) with
    | error e => simp [hbk] at he
    | ok i =>
      refine Safe.liftBind rfl ?_
      simp only [hbk, Res.ok_bind] at he
      simp only [e1]
      rcases f2_get hk i with ⟨h1, h2⟩ | ⟨q, y, h1, h2, h3⟩
      · exfalso
        have : ∀ (cs : List (VNode T)) (i : Nat), cs[i]? = none →
            VNode.getAt Ar b index cs i (h + 1) = .error .indexOutOfBounds := by
          intro cs
          induction cs with
          | nil => intro i _; rfl
          | cons c cs ih => intro i hi; cases i with
            | zero => simp at hi
            | succ i => simpa [VNode.getAt] using ih i (by simpa using hi)
        rw [this _ _ h2] at he
        cases he
      · rw [VNode.getAt_eq h2 (Ar.usub_ok (by omega))] at he
        refine Safe.liftBind (vecIndex_map _ h1) ?_
        exact ih (by omega) h3 (.kid hs (List.mem_of_getElem? h1)) he

theorem safe_vecView {t : ATree (VLabel T)} {ρ : List (Item (VLabel T))} (ht : .ptr t ∈ ρ) (h : Nat)
    {s : ATree (VLabel T)} {n : VNode T} (hn : IsVC h s.label s.kids n) (hs : Sub s t) :
    Safe A D (fun r σ => r = n ∧ σ = ρ) (HNode.view h s.addr) ρ := by
  induction h generalizing s n with
  | zero =>
    obtain ⟨xs, e1, rfl, hk⟩ := hn
    simp only [HNode.view, HNode.viewStep]
    refine Safe.bind (safe_read hs ht) ?_
    rintro c σ ⟨rfl, rfl⟩
    simp only [e1]
    refine Safe.bind (safe_forAll (R := fun a v => ∃ u ∈ s.kids, u.addr = a ∧ vecDec u v)
      (f2_map_left (f2_imp hk fun a v ha hv => ⟨a, ha, rfl, hv⟩)) ?_) ?_
    · rintro _ v - ⟨u, hu, rfl, hv⟩
      exact safe_readVecVal hv (.kid hs hu) ht
    · rintro _ _ ⟨rfl, rfl⟩
      exact Safe.ret ⟨rfl, rfl⟩
  | succ h ih =>
    obtain ⟨ns, e1, rfl, hk⟩ := hn
    simp only [HNode.view, HNode.viewStep]
    refine Safe.bind (safe_read hs ht) ?_
    rintro c σ ⟨rfl, rfl⟩
    simp only [e1]
    refine Safe.bind (safe_forAll (R := fun a m => ∃ u ∈ s.kids, u.addr = a ∧ IsVC h u.label u.kids m)
      (f2_map_left (f2_imp hk fun a v ha hv => ⟨a, ha, rfl, hv⟩)) ?_) ?_
    · rintro _ v - ⟨u, hu, rfl, hv⟩
      exact ih hv (.kid hs hu)
    · rintro _ _ ⟨rfl, rfl⟩
      exact Safe.ret ⟨rfl, rfl⟩

/-- The items of a content after work on it. -/
def After {α : Type} (P : α → VLabel T → List (ATree (VLabel T)) → Prop) (r : α × Content (VLabel T))
    (σ : List (Item (VLabel T))) : Prop :=
  ∃ ts : List (ATree (VLabel T)), r.2.2 = ts.map ATree.addr ∧ σ = ts.map .ptr ∧ P r.1 r.2.1 ts

theorem safe_modifyNode {α : Type} (t : ATree (VLabel T)) {f : Content (VLabel T) → Prog (VLabel T) (α × Content (VLabel T))}
    {P : α → VLabel T → List (ATree (VLabel T)) → Prop}
    (hf : Safe A D (After P) (f (t.label, t.kids.map ATree.addr)) (t.kids.map .ptr)) :
    Safe A D (fun r σ => ∃ l ts, σ = [.ptr (.node r.2 l ts)] ∧ P r.1 l ts) (modifyPtr t.addr f) [.ptr t] :=
  safe_modifyPtr wn1 t hf

theorem map_set_addr (ts : List (ATree (VLabel T))) (i : Nat) (t : ATree (VLabel T)) :
    (ts.map ATree.addr).set i t.addr = (ts.set i t).map ATree.addr := (List.map_set ..).symm

theorem getElem?_map_addr (ts : List (ATree (VLabel T))) (i : Nat) :
    (ts.map ATree.addr)[i]? = ts[i]?.map ATree.addr := by simp

theorem safe_vecAssocNew {x : T} {index : Nat} (h : Nat) {sub : VNode T}
    (he : VNode.assocNew Ar b x index (decide (0 < h)) h = .ok sub) :
    Safe A D (After fun _ l' ts' => IsVC h l' ts' sub)
      (HNode.assoc Ar b x index h (if 0 < h then .branch else .leaf, [])) [] := by
  induction h generalizing sub with
  | zero =>
    simp only [Nat.lt_irrefl, decide_false, VNode.assocNew] at he
    simp only [HNode.assoc, HNode.assocStep]
    cases hbk : vecBucket Ar b index 0 with
    | error e => simp [hbk] at he
    | ok i =>
      refine Safe.liftBind rfl ?_
      have hd : Ar.debugAssert (0 == 0) = .ok () := debug_true
      simp only [hbk, Res.ok_bind, hd] at he
      simp only [Nat.lt_irrefl, if_false]
      refine Safe.liftBind hd ?_
      refine Safe.bind (safe_new (VLabel.val x) []) ?_
      rintro p _ rfl
      by_cases hi : 0 = i
      · subst hi
        simp only [beq_self_eq_true, if_true, Res.pure_eq, Except.ok.injEq] at he
        subst he
        exact Safe.ret ⟨[.node p (.val x) []], rfl, rfl, _, rfl, rfl, .cons ⟨rfl, rfl⟩ .nil⟩
      · have hb2 : (0 == i) = false := by simpa using hi
        simp [hb2] at he
  | succ h ih =>
    simp only [Nat.zero_lt_succ, decide_true, VNode.assocNew] at he
    simp only [HNode.assoc, HNode.assocStep]
    cases hbk : vecBucket Ar b index (h + 1) with
    | error e => simp [hbk] at he
    | ok i =>
      refine Safe.liftBind rfl ?_
      simp only [hbk, Res.ok_bind] at he
      simp only [Nat.zero_lt_succ, if_true, List.getElem?_nil, gt_iff_lt, Nat.lt_add_left_iff_pos] at he ⊢
      refine Safe.liftBind (x := ()) (by simpa using debug_true) ?_
      cases ha : VNode.assocNew Ar b x index (decide (0 < h)) h with
      | error e => simp [ha] at he
      | ok n =>
        simp only [ha, Res.ok_bind, Res.pure_eq, Except.ok.injEq] at he
        subst he
        refine Safe.bind (ih ha) ?_
        rintro ⟨u, l, cs⟩ _ ⟨ts, e, rfl, hc⟩
        simp only at e
        subst e
        refine Safe.bind (safe_new l ts) ?_
        rintro p _ rfl
        exact Safe.ret ⟨[.node p l ts], rfl, rfl, _, rfl, rfl, .cons hc .nil⟩

theorem safe_vecAssoc {x : T} {index : Nat} (h : Nat) (hb : h < 2 ^ Ar.W) {l : VLabel T} {ts : List (ATree (VLabel T))}
    {n n' : VNode T} (hn : IsVC h l ts n) (he : n.assoc Ar b x index h = .ok n') :
    Safe A D (After fun _ l' ts' => IsVC h l' ts' n') (HNode.assoc Ar b x index h (l, ts.map ATree.addr))
      (ts.map .ptr) := by
  have hval : ∀ a, vecDec (.node a (.val x) []) x := fun a => ⟨rfl, rfl⟩
  induction h generalizing l ts n n' with
  | zero =>
    obtain ⟨xs, rfl, rfl, hk⟩ := hn
    simp only [HNode.assoc, HNode.assocStep]
    simp only [VNode.assoc] at he
    cases hbk : vecBucket Ar b index 0 with
    | error e => simp [hbk] at he
    | ok i =>
      refine Safe.liftBind rfl ?_
      simp only [hbk, Res.ok_bind] at he
      · have hd : Ar.debugAssert (0 == 0) = .ok () := debug_true
        simp only [hd, Res.ok_bind] at he
        refine Safe.liftBind hd ?_
        refine Safe.bindFrame (ρ := []) (F := ts.map .ptr) (safe_new (VLabel.val x) []) (by simp) ?_
        rintro p _ rfl
        have hl := f2_length hk
        simp only [List.length_map, hl]
        by_cases hi : xs.length = i
        · subst hi
          simp only [beq_self_eq_true, if_true, Res.pure_eq, Except.ok.injEq] at he ⊢
          subst he
          refine ⟨_, ?_, ts ++ [.node p (.val x) []], by simp [ATree.addr], rfl, _, rfl, rfl, f2_append hk (.cons (hval p) .nil)⟩
          perm_tac
        · have hb2 : (xs.length == i) = false := by simpa using hi
          simp only [hb2, Bool.false_eq_true, if_false] at he ⊢
          rcases f2_get hk i with ⟨h1, h2⟩ | ⟨q, y, h1, h2, h3⟩
          · rw [List.getElem?_eq_none_iff] at h2
            simp [vecSet, Nat.not_lt.2 h2] at he
          · have hlt := (List.getElem?_eq_some_iff.1 h2).1
            simp only [vecSet, hlt, if_true, Res.ok_bind, Res.pure_eq, Except.ok.injEq] at he
            subst he
            obtain ⟨F, p1, p2, -⟩ := perm_take h1
            refine Safe.liftBind (vecIndex_map _ h1) ?_
            refine Safe.bind (Safe.perm (safe_drop (within_roomy (by rw [nest_no_kids h3.2]; omega)))
              ((p1.append_left [Item.ptr (.node p (VLabel.val x) [])]).trans (.swap _ _ _))) ?_
            rintro _ _ rfl
            refine ⟨_, (p2 (.node p (.val x) [])).symm, ts.set i (.node p (.val x) []), ?_, rfl, _, rfl, rfl,
              f2_set hk (hval p) i⟩
            exact map_set_addr ts i (.node p (.val x) [])
  | succ h ih =>
    obtain ⟨ns, rfl, rfl, hk⟩ := hn
    simp only [HNode.assoc, HNode.assocStep]
    simp only [VNode.assoc] at he
    cases hbk : vecBucket Ar b index (h + 1) with
    | error e => simp [hbk] at he
    | ok i =>
      refine Safe.liftBind rfl ?_
      simp only [hbk, Res.ok_bind] at he
      · have hd : Ar.debugAssert (decide (h + 1 > 0)) = .ok () := by simpa using debug_true
        simp only [hd, Res.ok_bind, assocAt_get] at he
        have hsub : Ar.usub (h + 1) 1 = .ok h := Ar.usub_ok (by omega)
        refine Safe.liftBind hd ?_
        rcases f2_get hk i with ⟨h1, h2⟩ | ⟨q, y, h1, h2, h3⟩
        · simp only [h2, Res.pure_eq, Res.ok_bind, hsub] at he
          simp only [getElem?_map_addr, h1, Option.map_none]
          cases ha : VNode.assocNew Ar b x index (decide (h + 1 > 1)) h with
          | error e => rw [ha] at he; cases he
          | ok sub =>
            simp only [ha, Res.ok_bind, Except.ok.injEq] at he
            subst he
            simp only [gt_iff_lt, Nat.lt_add_left_iff_pos] at ha ⊢
            refine Safe.bindFrame (ρ := []) (F := ts.map .ptr) (safe_vecAssocNew h ha) (by simp) ?_
            rintro ⟨u, l, cs⟩ _ ⟨ts', e, rfl, hc⟩
            simp only at e hc
            subst e
            refine Safe.bindFrame (F := ts.map .ptr) (safe_new l ts') (.refl _) ?_
            rintro p _ rfl
            refine ⟨_, ?_, ts ++ [.node p l ts'], by simp [ATree.addr], rfl, _, rfl, rfl, f2_append hk (.cons (by exact hc) .nil)⟩
            perm_tac
        · simp only [h2, hsub, Res.ok_bind] at he
          simp only [getElem?_map_addr, h1, Option.map_some]
          cases ha : VNode.assoc Ar b x index y h with
          | error e => simp [ha] at he
          | ok c' =>
            simp only [ha, Res.ok_bind, Res.pure_eq, Except.ok.injEq] at he
            subst he
            obtain ⟨F, p1, p2, -⟩ := perm_take h1
            refine Safe.bindFrame (F := F) (safe_modifyNode q (ih (by omega) h3 ha)) p1 ?_
            rintro ⟨u, r⟩ τ ⟨l', ts', rfl, hc⟩
            refine ⟨_, (p2 (.node r l' ts')).symm, ts.set i (.node r l' ts'), ?_, rfl, _, rfl, rfl, f2_set hk (by exact hc) i⟩
            exact map_set_addr ts i (.node r l' ts')

theorem modifyAt_get {f : T → T} {index i h : Nat} (cs : List (VNode T)) :
    VNode.modifyAt Ar b f index cs i h = match cs[i]? with
      | some c => (do
        let h' ← Ar.usub h 1
        let c' ← VNode.modify Ar b f index c h'
        pure (cs.set i c'))
      | none => .error .indexOutOfBounds := by
  induction cs generalizing i with
  | nil => simp [VNode.modifyAt]
  | cons d cs ih =>
    cases i with
    | zero => simp [VNode.modifyAt]
    | succ i =>
      simp only [VNode.modifyAt, ih, List.getElem?_cons_succ]
      cases hc : cs[i]? with
      | none => rfl
      | some c =>
        simp only [List.set_cons_succ]
        cases Ar.usub h 1 with
        | error e => rfl
        | ok h' =>
          simp only [Res.ok_bind]
          cases VNode.modify Ar b f index c h' with
          | error e => rfl
          | ok c' => rfl

theorem safe_vecModifyVal {f : T → T} {t : ATree (VLabel T)} {v : T} (h : vecDec t v) :
    Safe A D (fun r σ => ∃ l ts, σ = [.ptr (.node r.2 l ts)] ∧ vecDec (.node 0 l ts) (f v))
      (modifyPtr t.addr (HNode.modifyVal f)) [.ptr t] := by
  refine safe_modifyPtr (P := fun _ l ts => vecDec (.node 0 l ts) (f v)) wn1 t ?_
  simp only [HNode.modifyVal, h.1]
  exact Safe.ret ⟨t.kids, rfl, rfl, rfl, h.2⟩

theorem safe_vecModify {f : T → T} {index : Nat} (h : Nat) (hb : h < 2 ^ Ar.W) {l : VLabel T}
    {ts : List (ATree (VLabel T))} {n n' : VNode T} (hn : IsVC h l ts n) (he : n.modify Ar b f index h = .ok n') :
    Safe A D (After fun _ l' ts' => IsVC h l' ts' n') (HNode.modify Ar b f index h (l, ts.map ATree.addr))
      (ts.map .ptr) := by
  induction h generalizing l ts n n' with
  | zero =>
    obtain ⟨xs, rfl, rfl, hk⟩ := hn
    simp only [HNode.modify, HNode.modifyStep]
    simp only [VNode.modify] at he
    cases hbk : vecBucket Ar b index 0 with
    | error e => simp [hbk] at he
    | ok i =>
      refine Safe.liftBind rfl ?_
      have hd : Ar.debugAssert (0 == 0) = .ok () := debug_true
      simp only [hbk, hd, Res.ok_bind] at he
      refine Safe.liftBind hd ?_
      rcases f2_get hk i with ⟨h1, h2⟩ | ⟨q, y, h1, h2, h3⟩
      · simp [vecIndex, h2] at he
      · have hlt := (List.getElem?_eq_some_iff.1 h2).1
        simp only [vecIndex, h2, vecSet, hlt, if_true, Res.ok_bind, Res.pure_eq, Except.ok.injEq] at he
        subst he
        obtain ⟨F, p1, p2, -⟩ := perm_take h1
        refine Safe.liftBind (vecIndex_map _ h1) ?_
        refine Safe.bindFrame (F := F) (safe_vecModifyVal (f := f) h3) p1 ?_
        rintro ⟨u, r⟩ τ ⟨l', ts', rfl, hc⟩
        refine ⟨_, (p2 (.node r l' ts')).symm, ts.set i (.node r l' ts'), ?_, rfl, _, rfl, rfl, f2_set hk (by exact hc) i⟩
        exact map_set_addr ts i (.node r l' ts')
  | succ h ih =>
    obtain ⟨ns, rfl, rfl, hk⟩ := hn
    simp only [HNode.modify, HNode.modifyStep]
    simp only [VNode.modify] at he
    cases hbk : vecBucket Ar b index (h + 1) with
    | error e => simp [hbk] at he
    | ok i =>
      refine Safe.liftBind rfl ?_
      have hsub : Ar.usub (h + 1) 1 = .ok h := Ar.usub_ok (by omega)
      simp only [hbk, Res.ok_bind, modifyAt_get, hsub] at he
      rcases f2_get hk i with ⟨h1, h2⟩ | ⟨q, y, h1, h2, h3⟩
      · simp [h2] at he
      · simp only [h2] at he
        cases ha : VNode.modify Ar b f index y h with
        | error e => simp [ha] at he
        | ok c' =>
          simp only [ha, Res.ok_bind, Res.pure_eq, Except.ok.injEq] at he
          subst he
          obtain ⟨F, p1, p2, -⟩ := perm_take h1
          refine Safe.liftBind (vecIndex_map _ h1) ?_
          refine Safe.bindFrame (F := F) (safe_modifyNode q (ih (by omega) h3 ha)) p1 ?_
          rintro ⟨u, r⟩ τ ⟨l', ts', rfl, hc⟩
          refine ⟨_, (p2 (.node r l' ts')).symm, ts.set i (.node r l' ts'), ?_, rfl, _, rfl, rfl, f2_set hk (by exact hc) i⟩
          exact map_set_addr ts i (.node r l' ts')

theorem f2_snoc {α β : Type} {R : α → β → Prop} {l : List α} {m : List β} (h : List.Forall₂ R l m) (hne : m ≠ []) :
    ∃ l' a m' b, l = l' ++ [a] ∧ m = m' ++ [b] ∧ List.Forall₂ R l' m' ∧ R a b := by
  induction h with
  | nil => exact absurd rfl hne
  | @cons x y xs ys h1 h2 ih =>
    cases ys with
    | nil => cases h2; exact ⟨[], x, [], y, rfl, rfl, .nil, h1⟩
    | cons z zs =>
      obtain ⟨l', a, m', b, rfl, e, h3, h4⟩ := ih (by simp)
      exact ⟨x :: l', a, y :: m', b, rfl, by rw [e]; rfl, .cons h1 h3, h4⟩

/-- A node that lost its last item has no children. -/
theorem IsVC.emptied {h : Nat} {l : VLabel T} {ts : List (ATree (VLabel T))} {n n' : VNode T} (hn : IsVC h l ts n')
    (he : n.dropLast = .ok (true, n')) : ts = [] := by
  have hu : n'.isEmpty = true := by
    cases n with
    | leaf a =>
      simp only [VNode.dropLast] at he
      split at he
      · next h => cases he; exact h
      · simp only [Except.ok.injEq, Prod.mk.injEq] at he
        rw [← he.2]
        exact he.1
    | branch a =>
      simp only [VNode.dropLast] at he
      split at he
      · next h => cases he; exact h
      · obtain ⟨a', h1, h2⟩ := res_bind_ok he
        simp only [Res.pure_eq, Except.ok.injEq, Prod.mk.injEq] at h2
        rw [← h2.2]
        exact h2.1
  cases h with
  | zero =>
    obtain ⟨xs, -, rfl, hk⟩ := hn
    simp only [VNode.isEmpty, VNode.used, beq_iff_eq, ← f2_length hk] at hu
    exact List.eq_nil_of_length_eq_zero hu
  | succ h =>
    obtain ⟨xs, -, rfl, hk⟩ := hn
    simp only [VNode.isEmpty, VNode.used, beq_iff_eq, ← f2_length hk] at hu
    exact List.eq_nil_of_length_eq_zero hu

theorem safe_vecDropLast (h : Nat) {l : VLabel T} {ts : List (ATree (VLabel T))} {n n' : VNode T} {e : Bool}
    (hn : IsVC h l ts n) (he : n.dropLast = .ok (e, n')) :
    Safe A D (After fun e' l' ts' => e' = e ∧ IsVC h l' ts' n') (HNode.dropLast h (l, ts.map ATree.addr)) (ts.map .ptr) := by
  induction h generalizing l ts n n' e with
  | zero =>
    obtain ⟨xs, rfl, rfl, hk⟩ := hn
    simp only [HNode.dropLast, HNode.dropLastStep]
    simp only [VNode.dropLast, VNode.isEmpty, VNode.used] at he
    by_cases hx : xs = []
    · subst hx
      cases hk
      simp only [List.length_nil, beq_self_eq_true, if_true, Except.ok.injEq, Prod.mk.injEq] at he
      obtain ⟨rfl, rfl⟩ := he
      exact Safe.ret ⟨[], rfl, rfl, rfl, [], rfl, rfl, .nil⟩
    · obtain ⟨ts', t, xs', x, rfl, rfl, hk', hx⟩ := f2_snoc hk hx
      have hl := f2_length hk'
      simp only [List.length_append, List.length_singleton, Nat.add_eq_zero_iff, Nat.one_ne_zero, and_false, beq_iff_eq,
        if_false, List.dropLast_concat, Except.ok.injEq, Prod.mk.injEq] at he
      obtain ⟨rfl, rfl⟩ := he
      simp only [List.map_append, List.map_cons, List.map_nil, List.getLast?_concat, List.dropLast_concat, List.length_map, hl]
      refine Safe.bind (Safe.perm (safe_drop (within_roomy (by rw [nest_no_kids hx.2]; omega))) (List.perm_append_singleton _ _)) ?_
      rintro _ _ rfl
      exact Safe.ret ⟨ts', rfl, rfl, rfl, xs', rfl, rfl, hk'⟩
  | succ h ih =>
    obtain ⟨ns, rfl, rfl, hk⟩ := hn
    simp only [HNode.dropLast, HNode.dropLastStep]
    simp only [VNode.dropLast, VNode.isEmpty, VNode.used] at he
    by_cases hx : ns = []
    · subst hx
      cases hk
      simp only [List.length_nil, beq_self_eq_true, if_true, Except.ok.injEq, Prod.mk.injEq] at he
      obtain ⟨rfl, rfl⟩ := he
      exact Safe.ret ⟨[], rfl, rfl, rfl, [], rfl, rfl, .nil⟩
    · obtain ⟨ts', t, ns', m, rfl, rfl, hk', hm⟩ := f2_snoc hk hx
      have hl := f2_length hk'
      simp only [List.length_append, List.length_singleton, Nat.add_eq_zero_iff, Nat.one_ne_zero, and_false, beq_iff_eq,
        if_false, VNode.dropLastAt_snoc] at he
      simp only [List.map_append, List.map_cons, List.map_nil, List.getLast?_concat, List.dropLast_concat, List.length_map, hl]
      cases hd : m.dropLast with
      | error e => simp [hd] at he
      | ok y =>
        obtain ⟨e', m'⟩ := y
        simp only [hd, Res.ok_bind] at he
        refine Safe.bindFrame (F := ts'.map .ptr) (safe_modifyNode t (ih hm hd)) (List.perm_append_singleton _ _) ?_
        rintro ⟨e'', r⟩ τ ⟨l', us, rfl, rfl, hc⟩
        cases e'' with
        | true =>
          simp only [if_true] at he ⊢
          simp only [Res.pure_eq, Res.ok_bind, Except.ok.injEq, Prod.mk.injEq] at he
          obtain ⟨rfl, rfl⟩ := he
          refine Safe.bind (safe_drop (t := .node r l' us) (ρ := ts'.map .ptr)
            (within_roomy (by rw [nest_no_kids (t := .node r l' us) (hc.emptied hd)]; omega))) ?_
          rintro _ _ rfl
          exact Safe.ret ⟨ts', rfl, rfl, rfl, ns', rfl, rfl, hk'⟩
        | false =>
          simp only [Bool.false_eq_true, if_false] at he ⊢
          simp only [Res.pure_eq, Res.ok_bind, Except.ok.injEq, Prod.mk.injEq] at he
          obtain ⟨rfl, rfl⟩ := he
          refine ⟨_, ?_, ts' ++ [.node r l' us], by simp [ATree.addr], rfl, by simp, _, rfl, rfl, f2_append hk' (.cons (by exact hc) .nil)⟩
          perm_tac

/-! ### Vectors -/

theorem IsVC.height_unique {l : VLabel T} {ts : List (ATree (VLabel T))} {n : VNode T} {h h' : Nat} (hn : IsVC h l ts n)
    (hk : n.OK b h') : h = h' := by
  induction h generalizing l ts n h' with
  | zero =>
    obtain ⟨xs, -, rfl, -⟩ := hn
    cases h' with
    | zero => rfl
    | succ h' => simp [VNode.OK] at hk
  | succ h ih =>
    obtain ⟨ns, -, rfl, hf⟩ := hn
    cases h' with
    | zero => simp [VNode.OK] at hk
    | succ h' =>
      obtain ⟨h1, -, h3⟩ := hk
      cases hf with
      | nil => exact absurd rfl h1.ne_nil
      | @cons t m ts ns h4 h5 => rw [ih h4 (h3 m (by simp))]

variable {hv : HVector} {v : RVector T} {h : Nat} {ρ : List (Item (VLabel T))} {xs : List T}

theorem HVector.Is.shape_height (hi : hv.Is v h ρ) : hv.shape.height Ar = v.height Ar := by
  obtain ⟨t, rfl, -, -⟩ := hi
  rfl

theorem HVector.Is.shape_cap (hi : hv.Is v h ρ) : hv.shape.rootMaxCapacity Ar = v.rootMaxCapacity Ar := by
  simp only [RVector.rootMaxCapacity, hi.shape_height]
  obtain ⟨t, rfl, -, -⟩ := hi
  rfl

theorem HVector.Is.shape_check (hi : hv.Is v h ρ) (i : Nat) : hv.shape.assocCheck Ar i = v.assocCheck Ar i := by
  simp only [RVector.assocCheck, hi.shape_cap]

theorem HVector.Is.shape_full (hi : hv.Is v h ρ) : hv.shape.isRootFull Ar = v.isRootFull Ar := by
  simp only [RVector.isRootFull, hi.shape_cap]
  obtain ⟨t, rfl, -, -⟩ := hi
  rfl

theorem HVector.Is.len (hi : hv.Is v h ρ) : hv.length = v.length := by
  obtain ⟨t, rfl, -, -⟩ := hi
  rfl

theorem safe_vecNew {bits : Nat} {v : RVector T} (he : RVector.newWithBits bits = .ok v) :
    Safe A D (fun hv σ => hv.Is v 0 σ) (HVector.newWithBits (T := T) bits) [] := by
  simp only [RVector.newWithBits] at he
  simp only [HVector.newWithBits]
  cases hb : assertRt (decide (bits > 0)) with
  | error e => simp [hb] at he
  | ok u =>
    simp only [hb, Res.ok_bind, Res.pure_eq, Except.ok.injEq] at he
    subst he
    refine Safe.liftBind rfl (Safe.bind (safe_new VLabel.leaf []) ?_)
    rintro a _ rfl
    exact Safe.ret ⟨_, rfl, rfl, [], rfl, rfl, .nil⟩

theorem safe_vecClone (hi : hv.Is v h ρ) :
    Safe A D (fun hw σ => ∃ τ τ', σ = τ ++ τ' ∧ hw.Is v h τ ∧ hv.Is v h τ') (hv.clone (T := T)) ρ := by
  obtain ⟨t, rfl, rfl, hn⟩ := hi
  refine Safe.bind (safe_clone (.refl t) (by simp)) ?_
  rintro _ _ rfl
  exact Safe.ret ⟨[.ptr t], [.ptr t], rfl, ⟨t, rfl, rfl, hn⟩, ⟨t, rfl, rfl, hn⟩⟩

theorem safe_vecDrop (hi : hv.Is v h ρ) (hD : Within D (h + 1)) (F : List (Item (VLabel T))) : Safe A D (fun _ σ => σ = F) (drop hv.root) (ρ ++ F) := by
  obtain ⟨t, rfl, rfl, hn⟩ := hi
  exact safe_drop (hD.mono (Nat.le_trans (nest_le_go t) hn.nest))

theorem safe_hvecGet (hi : hv.Is v h ρ) (hh : h < 2 ^ Ar.W) (hht : v.height Ar = .ok h) {i : Nat} {o : Option T}
    (he : v.get Ar i = .ok o) : Safe A D (fun r σ => r = o ∧ σ = ρ) (hv.get Ar i) ρ := by
  simp only [HVector.get, hi.shape_height, hht, hi.len]
  simp only [RVector.get, hht] at he
  split at he
  · next hge =>
    cases he
    rw [if_pos hge]
    exact Safe.ret ⟨rfl, rfl⟩
  · next hge =>
    rw [if_neg hge]
    simp only [Res.ok_bind] at he
    cases hg : v.root.get Ar v.bits i h with
    | error e => simp [hg] at he
    | ok x =>
      simp only [hg, Res.ok_bind, Res.pure_eq, Except.ok.injEq] at he
      subst he
      obtain ⟨t, rfl, rfl, hn⟩ := hi
      refine Safe.liftBind rfl (Safe.bind (safe_vecGet (t := t) (by simp) h hh hn (.refl t) hg) ?_)
      rintro _ _ ⟨rfl, rfl⟩
      exact Safe.ret ⟨rfl, rfl⟩

theorem safe_hvecAssoc (hi : hv.Is v h ρ) (hh : h < 2 ^ Ar.W) (hht : v.height Ar = .ok h) {i : Nat} {x : T} {w : RVector T}
    (he : v.assoc Ar i x = .ok w) : Safe A D (fun r σ => r.Is w h σ) (hv.assoc Ar i x) ρ := by
  simp only [HVector.assoc, hi.shape_height, hi.shape_check, hht]
  simp only [RVector.assoc, hht] at he
  cases hc : v.assocCheck Ar i with
  | error e => simp [hc] at he
  | ok u =>
    simp only [hc, Res.ok_bind] at he
    cases ha : v.root.assoc Ar v.bits x i h with
    | error e => simp [ha] at he
    | ok n =>
      simp only [ha, Res.ok_bind] at he
      obtain ⟨t, rfl, rfl, hn⟩ := hi
      refine Safe.liftBind rfl (Safe.liftBind rfl (Safe.bind (safe_modifyNode t (safe_vecAssoc h hh hn ha)) ?_))
      rintro ⟨u, r⟩ _ ⟨l', ts', rfl, hc⟩
      simp only
      by_cases hge : i ≥ v.length
      · simp only [hge, decide_true, if_true] at he ⊢
        cases hl : Ar.uadd v.length 1 with
        | error e => simp [hl] at he
        | ok l =>
          simp only [hl, Res.ok_bind, Res.pure_eq, Except.ok.injEq] at he
          subst he
          exact Safe.liftBind rfl (Safe.ret ⟨.node r l' ts', rfl, rfl, hc⟩)
      · simp only [hge, decide_false, Bool.false_eq_true, if_false, Res.pure_eq, Except.ok.injEq] at he ⊢
        subst he
        exact Safe.ret ⟨.node r l' ts', rfl, rfl, hc⟩

theorem safe_hvecSetMut (hi : hv.Is v h ρ) (hh : h < 2 ^ Ar.W) (hht : v.height Ar = .ok h) {i : Nat} {x : T} {b : Bool}
    {w : RVector T} (he : v.setMut Ar i x = .ok (b, w)) :
    Safe A D (fun r σ => r.1 = b ∧ r.2.Is w h σ) (hv.setMut Ar i x) ρ := by
  simp only [HVector.setMut, hi.len]
  simp only [RVector.setMut] at he
  split at he
  · next hge =>
    cases he
    rw [if_pos hge]
    exact Safe.ret ⟨rfl, hi⟩
  · next hge =>
    rw [if_neg hge]
    cases ha : v.assoc Ar i x with
    | error e => simp [ha] at he
    | ok w' =>
      simp only [ha, Res.ok_bind, Res.pure_eq, Except.ok.injEq, Prod.mk.injEq] at he
      obtain ⟨rfl, rfl⟩ := he
      refine Safe.bind (safe_hvecAssoc hi hh hht ha) ?_
      intro r σ hr
      exact Safe.ret ⟨rfl, hr⟩

theorem safe_hvecPushBackMut (hi : hv.Is v h ρ) (hh : h + 1 < 2 ^ Ar.W) (hht : v.height Ar = .ok h)
    (hf : v.isRootFull Ar = .ok true → RVector.height Ar (T := T) ⟨.leaf [], v.bits, v.length + 1⟩ = .ok (h + 1))
    (hlen : v.length + 1 < 2 ^ Ar.W) {x : T}
    {w : RVector T} (he : v.pushBackMut Ar x = .ok w) :
    Safe A D (fun r σ => ∃ h', r.Is w h' σ) (hv.pushBackMut Ar x) ρ := by
  simp only [HVector.pushBackMut, hi.shape_full, hi.len]
  simp only [RVector.pushBackMut] at he
  cases hfull : v.isRootFull Ar with
  | error e => simp [hfull] at he
  | ok full =>
    simp only [hfull, Res.ok_bind] at he
    refine Safe.liftBind rfl ?_
    cases full with
    | false =>
      simp only [Bool.false_eq_true, if_false] at he ⊢
      exact (safe_hvecAssoc hi (by omega) hht he).imp fun r σ h' => ⟨_, h'⟩
    | true =>
      simp only [if_true, Ar.uadd_ok hlen, Res.ok_bind] at he ⊢
      obtain ⟨t, rfl, rfl, hn⟩ := hi
      refine Safe.bind (safe_clone (.refl t) (by simp)) ?_
      rintro _ _ rfl
      refine Safe.bindFrame (F := [.ptr t]) (safe_new VLabel.branch [t]) (.refl _) ?_
      rintro r _ rfl
      refine Safe.bind (Safe.perm (safe_drop (t := t) (ρ := [.ptr (.node r .branch [t])])
          (within_roomy (by rw [nest_held (mem_reach_kid (by simp))]; omega)))
        (List.Perm.swap ..)) ?_
      rintro _ _ rfl
      refine Safe.liftBind rfl ?_
      refine (safe_hvecAssoc (h := h + 1) (v := ⟨.branch [v.root], v.bits, v.length + 1⟩) ?_ hh ?_ he).imp fun r σ h' => ⟨_, h'⟩
      · exact ⟨.node r .branch [t], rfl, rfl, [v.root], rfl, rfl, .cons hn .nil⟩
      · exact hf hfull

theorem safe_dropCompress {t : ATree (VLabel T)} {n n' : VNode T} {e : Bool} (hn : IsVC h t.label t.kids n)
    (he : n.dropLast = .ok (e, n')) :
    Safe A D (fun r σ => ∃ (l : VLabel T) (ts : List (ATree (VLabel T))) (E : List (Item (VLabel T))),
      σ = .ptr (.node r.2 l ts) :: E ∧
        ((r.1 = none ∧ E = [] ∧ RVector.compressRoot n' = none ∧ IsVC h l ts n') ∨
        ∃ (q : ATree (VLabel T)) (m : VNode T), r.1 = some q.addr ∧ E = [.ptr q] ∧ RVector.compressRoot n' = some m ∧
          ts = [] ∧ IsVC (h - 1) q.label q.kids m))
      (modifyPtr t.addr (HVector.dropCompress h)) [.ptr t] := by
  refine safe_modifyPtrPlus (ρ := []) (P := fun o l ts E => (o = none ∧ E = [] ∧ RVector.compressRoot n' = none ∧ IsVC h l ts n') ∨
        ∃ (q : ATree (VLabel T)) (m : VNode T), o = some q.addr ∧ E = [.ptr q] ∧ RVector.compressRoot n' = some m ∧
          ts = [] ∧ IsVC (h - 1) q.label q.kids m) wn1 t ?_
  rw [List.append_nil]
  refine Safe.bind (safe_vecDropLast h hn he) ?_
  rintro ⟨e', l', cs⟩ _ ⟨ts, e1, rfl, rfl, hc⟩
  simp only at e1 hc ⊢
  subst e1
  cases h with
  | zero =>
    obtain ⟨xs, rfl, rfl, hk⟩ := hc
    exact Safe.ret ⟨ts, [], rfl, by simp, .inl ⟨rfl, rfl, rfl, xs, rfl, rfl, hk⟩⟩
  | succ h =>
    obtain ⟨ns, rfl, rfl, hk⟩ := hc
    cases hk with
    | nil => exact Safe.ret ⟨[], [], rfl, by simp, .inl ⟨rfl, rfl, rfl, [], rfl, rfl, .nil⟩⟩
    | @cons q m ts ns h1 h2 =>
      cases h2 with
      | nil => exact Safe.ret ⟨[], [.ptr q], rfl, by simp, .inr ⟨q, m, rfl, rfl, rfl, rfl, h1⟩⟩
      | @cons q' m' ts ns h3 h4 =>
        refine Safe.ret ⟨q :: q' :: ts, [], rfl, by simp, .inl ⟨rfl, rfl, ?_, _, rfl, rfl, .cons h1 (.cons h3 h4)⟩⟩
        simp [RVector.compressRoot, VNode.isSingleton, VNode.used]

theorem safe_hvecDropLastMut (hi : hv.Is v h ρ) (hht : v.height Ar = .ok h) {b : Bool}
    {w : RVector T} (he : v.dropLastMut Ar = .ok (b, w)) :
    Safe A D (fun r σ => r.1 = b ∧ ∃ h', r.2.Is w h' σ) (hv.dropLastMut Ar) ρ := by
  simp only [HVector.dropLastMut, hi.len, hi.shape_height]
  simp only [RVector.dropLastMut] at he
  split at he
  · next hpos =>
    rw [if_pos hpos]
    cases hd : v.root.dropLast with
    | error e => simp [hd] at he
    | ok y =>
      obtain ⟨e, n⟩ := y
      simp only [hd, Res.ok_bind, Ar.usub_ok (show 1 ≤ v.length by omega)] at he
      obtain ⟨t, rfl, rfl, hn⟩ := hi
      refine Safe.liftBind hht (Safe.bind (safe_dropCompress hn hd) ?_)
      rintro ⟨o, r⟩ _ ⟨l, ts, E, rfl, ⟨rfl, rfl, hcr, hk⟩ | ⟨q, m, rfl, rfl, hcr, rfl, hk⟩⟩
      · simp only [hcr, Res.pure_eq, Except.ok.injEq, Prod.mk.injEq] at he
        obtain ⟨rfl, rfl⟩ := he
        exact Safe.liftBind (Ar.usub_ok (by omega)) (Safe.ret ⟨rfl, h, .node r l ts, rfl, rfl, hk⟩)
      · simp only [hcr, Res.pure_eq, Except.ok.injEq, Prod.mk.injEq] at he
        obtain ⟨rfl, rfl⟩ := he
        refine Safe.liftBind (Ar.usub_ok (by omega)) (Safe.bind (safe_drop (t := .node r l []) (ρ := [.ptr q])
          (within_roomy (by rw [nest_no_kids rfl]; omega))) ?_)
        rintro _ _ rfl
        exact Safe.ret ⟨rfl, h - 1, q, rfl, rfl, hk⟩
  · next hpos =>
    rw [if_neg hpos]
    cases he
    exact Safe.ret ⟨rfl, h, hi⟩

theorem safe_hvecModify (hi : hv.Is v h ρ) (hh : h < 2 ^ Ar.W) (hht : v.height Ar = .ok h) {i : Nat} {f : T → T}
    {o : Option (RVector T)} (he : v.modify Ar i f = .ok o) :
    Safe A D (fun r σ => (o = none ∧ r = none ∧ σ = ρ) ∨ ∃ hw w, o = some w ∧ r = some hw ∧ hw.Is w h σ) (hv.modify Ar i f) ρ := by
  simp only [HVector.modify, hi.shape_height, hht, hi.len]
  simp only [RVector.modify, hht] at he
  split at he
  · next hge =>
    cases he
    rw [if_pos hge]
    exact Safe.ret (.inl ⟨rfl, rfl, rfl⟩)
  · next hge =>
    rw [if_neg hge]
    simp only [Res.ok_bind] at he
    cases hg : v.root.modify Ar v.bits f i h with
    | error e => simp [hg] at he
    | ok n =>
      simp only [hg, Res.ok_bind, Res.pure_eq, Except.ok.injEq] at he
      subst he
      obtain ⟨t, rfl, rfl, hn⟩ := hi
      refine Safe.liftBind rfl (Safe.bind (safe_modifyNode t (safe_vecModify h hh hn hg)) ?_)
      rintro ⟨u, r⟩ _ ⟨l', ts', rfl, hc⟩
      exact Safe.ret (.inr ⟨_, _, rfl, rfl, .node r l' ts', rfl, rfl, hc⟩)

/-! ### Against the specification -/

theorem VecIs.of {hw : HVector} {w : RVector T} {h h' : Nat} {σ : List (Item (VLabel T))} (hi : hw.Is w h σ) {xs : List T}
    (hr : RVector.Rep Ar w xs h') {c : Nat} (hc : c = vecCap Ar w.bits) : VecIs Ar hw (c, xs) σ := by
  have : h = h' := by
    obtain ⟨t, -, -, hn⟩ := hi
    exact hn.height_unique hr.ok
  subst this
  exact ⟨w, h, hi, hr, hc⟩

theorem rep_height_lt (hr : RVector.Rep Ar v xs h) : h + 1 < 2 ^ Ar.W := hr.fits.height_succ_lt

theorem safe_vecPush (hi : hv.Is v h ρ) (hr : RVector.Rep Ar v xs h) {x : T} (hc : xs.length < vecCap Ar v.bits) :
    Safe A D (fun r σ => VecIs Ar r (vecCap Ar v.bits, xs ++ [x]) σ) (hv.pushBackMut Ar x) ρ := by
  obtain ⟨w, h', h1, h2, h3⟩ := hr.pushBackMut x hc
  have hlW := vecCap_lt (A := Ar) (b := v.bits) hr.bits_lt
  refine (safe_hvecPushBackMut hi (rep_height_lt hr) hr.height ?_ (by rw [hr.length]; omega) h1).imp fun r σ ⟨h'', hw⟩ => .of hw h2 (by rw [h3])
  intro hf
  have hfx : xs.length = 2 ^ (v.bits * (h + 1)) := by
    simpa [hr.isRootFull] using hf
  have t : h + 1 = 0 ∨ 2 ^ (v.bits * (h + 1)) < xs.length + 1 := .inr (by omega)
  have f : Fits Ar v.bits (h + 1) := fits_of_lt_cap hr.bits_pos hr.bits_lt t (by omega)
  have hp : 2 ^ (v.bits * (h + 1)) < 2 ^ (v.bits * (h + 1 + 1)) := (pow_lt_iff hr.bits_pos).2 (by omega)
  exact RVector.height_eq (v := ⟨.leaf [], v.bits, v.length + 1⟩) f (by simp only [hr.length]; omega) (by simpa [hr.length] using t) (by simp only [hr.length]; omega)

theorem safe_vecExtend {ys : List T} {c : Nat} (hi : VecIs Ar hv (c, xs) ρ) (hc : xs.length + ys.length ≤ c) :
    Safe A D (fun r σ => VecIs Ar r (c, xs ++ ys) σ) (hv.extend Ar ys) ρ := by
  induction ys generalizing hv xs ρ with
  | nil => exact Safe.ret (by simpa using hi)
  | cons y ys ih =>
    obtain ⟨v, h, hi, hr, rfl⟩ := hi
    simp only [List.length_cons] at hc hr
    refine Safe.bind (safe_vecPush hi hr (x := y) (by omega)) ?_
    intro r σ hr'
    have := ih hr' (by simp; omega)
    simpa using this

end

/-- The number of levels below the root. -/
theorem rep_height_le {Ar : Arch} {v : RVector T} {xs : List T} {h : Nat} (hr : RVector.Rep Ar v xs h) : h ≤ Nat.log2 (xs.length + 1) := by
  rcases hr.tight with rfl | ht
  · exact Nat.zero_le _
  · rw [Nat.le_log2 (by omega)]
    have : 2 ^ h ≤ 2 ^ (v.bits * h) := Nat.pow_le_pow_right (by omega) (Nat.le_mul_of_pos_left _ hr.bits_pos)
    omega

/-- `Vector` implements the bounded sequence, with every choice of `bits` allowed, and its destructors nest as deep as there are levels. -/
theorem vecImpl_nests (A : Allocator (VLabel T)) {bits : Nat} (h0 : 0 < bits) (hW : bits < Ar.W) :
    (vecImpl Ar T bits).Nests A (vecCap Ar bits, []) Spec.vecStep (VecIs Ar) (fun a => Nat.log2 (a.2.length + 1) + 1) where
  new := by
    intro D _
    obtain ⟨v, h1, h2, h3⟩ := RVector.newWithBits_rep (T := T) (A := Ar) h0 hW
    exact (safe_vecNew h1).imp fun r σ h => .of h h2 (by rw [h3])
  step := by
    rintro D _ hv ⟨cap, xs⟩ ρ op r e ⟨v, h, hi, hr, rfl⟩ hD hs
    have hDh : Within D (h + 1) := hD.mono (Nat.succ_le_succ (rep_height_le hr))
    have hh := rep_height_lt hr
    have hk : VecIs Ar hv (vecCap Ar v.bits, xs) ρ := ⟨v, h, hi, hr, rfl⟩
    simp only at hr
    cases op with
    | pushBack x =>
      simp only [Spec.vecStep] at hs
      split at hs
      · next hlt =>
        cases hs
        refine Safe.bind (Safe.bind (safe_vecClone hi) ?_) ?_ (Q := fun r σ => ∃ τ τ', σ = τ ++ τ' ∧
          VecIs Ar r (vecCap Ar v.bits, xs ++ [x]) τ ∧ hv.Is v h τ')
        · rintro hw _ ⟨τ, τ', rfl, h1, h2⟩
          exact ((safe_vecPush h1 hr hlt).frame τ').imp fun r σ ⟨τ, e, hr⟩ => ⟨τ, τ', e, hr, h2⟩
        · rintro hw _ ⟨τ, τ', rfl, h1, h2⟩
          exact Safe.ret ⟨rfl, .fresh h1 (.of h2 hr rfl)⟩
      · cases hs
    | pushBackMut x =>
      simp only [Spec.vecStep] at hs
      split at hs
      · next hlt =>
        cases hs
        refine Safe.bind (safe_vecPush hi hr hlt) ?_
        intro hw σ h1
        exact Safe.ret ⟨rfl, .update h1⟩
      · cases hs
    | set i x =>
      simp only [Spec.vecStep] at hs
      obtain ⟨w, h1, h2, h3, h4⟩ := hr.setMut i x
      refine Safe.bind (Safe.bind (safe_vecClone hi) ?_) ?_ (Q := fun r σ => (¬ i < xs.length ∧ r = none ∧ hv.Is v h σ) ∨
        ∃ hw τ τ', i < xs.length ∧ r = some hw ∧ σ = τ ++ τ' ∧ hw.Is w h τ ∧ hv.Is v h τ')
      · rintro hw _ ⟨τ, τ', rfl, h5, h6⟩
        refine Safe.bindFrame (F := τ') (safe_hvecSetMut h5 (by omega) hr.height h1) (.refl _) ?_
        rintro ⟨b', hw'⟩ σ ⟨rfl, h7⟩
        simp only [decide_eq_true_eq]
        split
        · next hlt => exact Safe.ret (.inr ⟨hw', σ, τ', hlt, rfl, rfl, h7, h6⟩)
        · next hlt =>
          refine Safe.bind (safe_vecDrop h7 hDh τ') ?_
          rintro _ _ rfl
          exact Safe.ret (.inl ⟨hlt, rfl, h6⟩)
      · rintro o σ (⟨hlt, rfl, h7⟩ | ⟨hw, τ, τ', hlt, rfl, rfl, h5, h6⟩)
        · rw [if_neg hlt] at hs; cases hs
          exact Safe.ret ⟨rfl, .keep (.of h7 hr rfl)⟩
        · rw [if_pos hlt] at hs; cases hs
          exact Safe.ret ⟨rfl, .fresh (.of h5 h2 (by rw [h3])) (.of h6 hr rfl)⟩
    | setMut i x =>
      simp only [Spec.vecStep] at hs; cases hs
      obtain ⟨w, h1, h2, h3, h4⟩ := hr.setMut i x
      refine Safe.bind (safe_hvecSetMut hi (by omega) hr.height h1) ?_
      rintro ⟨b', hw'⟩ σ ⟨rfl, h7⟩
      exact Safe.ret ⟨rfl, .update (.of h7 h2 (by rw [h3]))⟩
    | dropLast =>
      simp only [Spec.vecStep] at hs
      by_cases hx : xs = []
      · subst hx
        rw [if_pos rfl] at hs; cases hs
        refine Safe.bind (Safe.bind (safe_vecClone hi) ?_) ?_ (Q := fun r σ => r = none ∧ hv.Is v h σ)
        · rintro hw _ ⟨τ, τ', rfl, h5, h6⟩
          refine Safe.bindFrame (F := τ') (safe_hvecDropLastMut h5 hr.height hr.dropLastMut_nil) (.refl _) ?_
          rintro ⟨b', hw'⟩ σ ⟨rfl, h', h7⟩
          obtain rfl : h' = h := by
            obtain ⟨t, -, -, hn⟩ := h7
            exact hn.height_unique hr.ok
          refine Safe.bind (safe_vecDrop h7 hDh τ') ?_
          rintro _ _ rfl
          exact Safe.ret ⟨rfl, h6⟩
        · rintro o σ ⟨rfl, h7⟩
          exact Safe.ret ⟨rfl, .keep (.of h7 hr rfl)⟩
      · rw [if_neg hx] at hs; cases hs
        obtain ⟨w, h', h1, h2, h3⟩ := hr.dropLastMut hx
        refine Safe.bind (Safe.bind (safe_vecClone hi) ?_) ?_ (Q := fun r σ => ∃ hw τ τ', r = some hw ∧ σ = τ ++ τ' ∧
          VecIs Ar hw (vecCap Ar v.bits, xs.dropLast) τ ∧ hv.Is v h τ')
        · rintro hw _ ⟨τ, τ', rfl, h5, h6⟩
          refine Safe.bindFrame (F := τ') (safe_hvecDropLastMut h5 hr.height h1) (.refl _) ?_
          rintro ⟨b', hw'⟩ σ ⟨rfl, h'', h7⟩
          exact Safe.ret ⟨hw', σ, τ', rfl, rfl, .of h7 h2 (by rw [h3]), h6⟩
        · rintro o σ ⟨hw, τ, τ', rfl, rfl, h5, h6⟩
          exact Safe.ret ⟨rfl, .fresh h5 (.of h6 hr rfl)⟩
    | dropLastMut =>
      simp only [Spec.vecStep] at hs; cases hs
      by_cases hx : xs = []
      · subst hx
        refine Safe.bind (safe_hvecDropLastMut hi hr.height hr.dropLastMut_nil) ?_
        rintro ⟨b', hw'⟩ σ ⟨rfl, h', h7⟩
        exact Safe.ret ⟨by simp, .update (.of h7 hr rfl)⟩
      · obtain ⟨w, h', h1, h2, h3⟩ := hr.dropLastMut hx
        refine Safe.bind (safe_hvecDropLastMut hi hr.height h1) ?_
        rintro ⟨b', hw'⟩ σ ⟨rfl, h', h7⟩
        exact Safe.ret ⟨by simp [hx], .update (.of h7 h2 (by rw [h3]))⟩
    | getMut i f =>
      simp only [Spec.vecStep] at hs
      rcases hr.modify i f with ⟨h1, h2⟩ | ⟨w, x, h1, h2, h3, h4⟩
      · rw [h1] at hs; cases hs
        refine Safe.bind (safe_hvecModify hi (by omega) hr.height h2) ?_
        rintro o σ (⟨-, rfl, rfl⟩ | ⟨hw, w, h5, -, -⟩)
        · exact Safe.ret ⟨rfl, .keep hk⟩
        · cases h5
      · rw [h1] at hs; cases hs
        refine Safe.bind (safe_hvecModify hi (by omega) hr.height h2) ?_
        rintro o σ (⟨h5, -, -⟩ | ⟨hw, w, h5, rfl, h6⟩)
        · cases h5
        · cases h5
          exact Safe.ret ⟨rfl, .update (.of h6 h3 (by rw [h4]))⟩
    | indexMut i x =>
      simp only [Spec.vecStep] at hs
      rcases hr.modify i (fun _ => x) with ⟨h1, h2⟩ | ⟨w, y, h1, h2, h3, h4⟩
      · rw [if_neg (by simpa using h1)] at hs; cases hs
        refine Safe.bind (safe_hvecModify hi (by omega) hr.height h2) ?_
        rintro o σ (⟨-, rfl, rfl⟩ | ⟨hw, w, h5, -, -⟩)
        · exact Safe.ret ⟨rfl, .keep hk⟩
        · cases h5
      · rw [if_pos (List.getElem?_eq_some_iff.1 h1).1] at hs; cases hs
        refine Safe.bind (safe_hvecModify hi (by omega) hr.height h2) ?_
        rintro o σ (⟨h5, -, -⟩ | ⟨hw, w, h5, rfl, h6⟩)
        · cases h5
        · cases h5
          exact Safe.ret ⟨rfl, .update (.of h6 h3 (by rw [h4]))⟩
    | extend ys =>
      simp only [Spec.vecStep] at hs
      split at hs
      · next hlt =>
        cases hs
        refine Safe.bind (safe_vecExtend hk hlt) ?_
        intro hw σ h1
        exact Safe.ret ⟨rfl, .update h1⟩
      · cases hs
    | clone =>
      simp only [Spec.vecStep] at hs; cases hs
      refine Safe.bind (safe_vecClone hi) ?_
      rintro hw _ ⟨τ, τ', rfl, h1, h2⟩
      exact Safe.ret ⟨rfl, .fresh (.of h1 hr rfl) (.of h2 hr rfl)⟩
    | get i =>
      simp only [Spec.vecStep] at hs; cases hs
      refine Safe.bind (safe_hvecGet hi (by omega) hr.height (hr.get i)) ?_
      rintro _ _ ⟨rfl, rfl⟩
      exact Safe.ret ⟨rfl, .keep hk⟩
    | index i =>
      simp only [Spec.vecStep] at hs
      refine Safe.bind (safe_hvecGet hi (by omega) hr.height (hr.get i)) ?_
      rintro _ _ ⟨rfl, rfl⟩
      cases hx : xs[i]? with
      | none =>
        rw [hx] at hs; cases hs
        exact Safe.ret ⟨rfl, .keep hk⟩
      | some x =>
        rw [hx] at hs; cases hs
        exact Safe.ret ⟨rfl, .keep hk⟩
    | first =>
      simp only [Spec.vecStep] at hs; cases hs
      refine Safe.bind (safe_hvecGet hi (by omega) hr.height hr.first) ?_
      rintro _ _ ⟨rfl, rfl⟩
      exact Safe.ret ⟨rfl, .keep hk⟩
    | last =>
      simp only [Spec.vecStep] at hs; cases hs
      have hl := hr.last
      simp only [RVector.last] at hl
      simp only [vecImpl, vecHStep, HVector.last, hi.len]
      refine Safe.bind (Q := fun r σ => r = xs.getLast? ∧ σ = ρ) ?_ ?_
      · cases hn : v.length with
        | zero =>
          simp only [hn, Res.pure_eq, Except.ok.injEq] at hl
          exact Safe.ret ⟨hl, rfl⟩
        | succ n =>
          simp only [hn] at hl
          rw [Ar.usub_ok (by omega)] at hl
          exact Safe.liftBind (Ar.usub_ok (by omega)) (safe_hvecGet hi (by omega) hr.height hl)
      · rintro _ _ ⟨rfl, rfl⟩
        exact Safe.ret ⟨rfl, .keep hk⟩
    | len =>
      simp only [Spec.vecStep] at hs; cases hs
      exact Safe.ret ⟨by rw [hi.len, hr.length], .keep hk⟩
    | isEmpty =>
      simp only [Spec.vecStep] at hs; cases hs
      exact Safe.ret ⟨by rw [hi.len]; have := hr.isEmpty; simp only [RVector.isEmpty, RVector.len] at this; rw [this], .keep hk⟩
    | iter cs =>
      simp only [Spec.vecStep] at hs; cases hs
      have hrem := VIter.rem_new hr
      obtain ⟨t, rfl, rfl, hn⟩ := hi
      simp only [vecImpl, vecHStep, HVector.iter]
      refine Safe.bind (Q := fun r σ => r = .calls xs.length (Spec.deRun xs cs) ∧ σ = [.ptr t]) ?_ ?_
      · refine Safe.liftBind (x := h) hr.height ?_
        refine Safe.bind (safe_vecView (t := t) (by simp) h hn (.refl t)) ?_
        rintro _ _ ⟨rfl, rfl⟩
        refine Safe.liftBind (VIter.sizeHint_ok hrem) (Safe.liftBind (VIter.deCalls_ok hrem cs) ?_)
        exact Safe.ret ⟨rfl, rfl⟩
      · rintro _ _ ⟨rfl, rfl⟩
        exact Safe.ret ⟨rfl, .keep hk⟩
  drop := by
    rintro D _ hv a ρ ⟨v, h, hi, hr, -⟩ hD
    have := safe_vecDrop (A := A) hi (hD.mono (Nat.succ_le_succ (rep_height_le hr))) []
    rwa [List.append_nil] at this
  ptrs := by
    rintro hv a ρ ⟨v, h, ⟨t, rfl, rfl, -⟩, -, -⟩
    exact ⟨[t], rfl, rfl⟩

/-- `Vector` refines the bounded sequence, with every choice of `bits` allowed. -/
theorem vecImpl_refines (A : Allocator (VLabel T)) {bits : Nat} (h0 : 0 < bits) (hW : bits < Ar.W) :
    (vecImpl Ar T bits).Refines A (vecCap Ar bits, []) Spec.vecStep (VecIs Ar) := (vecImpl_nests Ar A h0 hW).refines

end Heap
end Rpds
