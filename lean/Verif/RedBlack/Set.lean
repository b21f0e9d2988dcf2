import Verif.RedBlack.Map
import Verif.Spec.Set
/-
Model of `rpds::RedBlackTreeSet` (/repo/src/set/red_black_tree_set/mod.rs) and its refinement of finite ordered sets.
-/
set_option autoImplicit false
namespace Rpds
open Spec

/-- `struct RedBlackTreeSet` (red_black_tree_set/mod.rs:94-100). -/
structure RBSet (T : Type) where
  map : RBMap T Unit
  deriving DecidableEq, Repr

namespace RBSet
section model
variable {T Q : Type} (A : Arch) (o : OrdKeys T Q)

/-- `new_with_ptr_kind`, `new`, `new_sync`, `default` (red_black_tree_set/mod.rs:130-132, 119-121, 109-111, 296-298). -/
def new : RBSet T := { map := RBMap.new }

/-- `insert` (red_black_tree_set/mod.rs:135-137). -/
def insert (s : RBSet T) (v : T) : Res (RBSet T) := do
  let map ← s.map.insert o v ()
  pure { map }

/-- `insert_mut` (red_black_tree_set/mod.rs:139-141). -/
def insertMut (s : RBSet T) (v : T) : Res (RBSet T) := do
  let map ← s.map.insertMut o v ()
  pure { map }

/-- `remove` (red_black_tree_set/mod.rs:144-150). -/
def remove (s : RBSet T) (v : Q) : Res (RBSet T) := do
  let map ← s.map.remove A o v
  pure { map }

/-- `remove_mut` (red_black_tree_set/mod.rs:152-158). -/
def removeMut (s : RBSet T) (v : Q) : Res (Bool × RBSet T) := do
  let (b, map) ← s.map.removeMut A o v
  pure (b, { map })

/-- `get` (red_black_tree_set/mod.rs:161-167). -/
def get (s : RBSet T) (v : Q) : Option T := (s.map.getKeyValue o v).map fun kv => kv.1

/-- `contains` (red_black_tree_set/mod.rs:170-176). -/
def contains (s : RBSet T) (v : Q) : Bool := s.map.containsKey o v

/-- `first` (red_black_tree_set/mod.rs:179-181). -/
def first (s : RBSet T) : Option T := s.map.first.map fun kv => kv.1

/-- `last` (red_black_tree_set/mod.rs:184-186). -/
def last (s : RBSet T) : Option T := s.map.last.map fun kv => kv.1

/-- `size` (red_black_tree_set/mod.rs:257-259). -/
def size (s : RBSet T) : Nat := s.map.getSize

/-- `is_empty` (red_black_tree_set/mod.rs:263-265). -/
def isEmpty (s : RBSet T) : Bool := s.size == 0

/-- `iter` (red_black_tree_set/mod.rs:267-269). -/
def iter (s : RBSet T) : RBIter T Unit := s.map.iter

/-- `Iterator::next` of the iterator (red_black_tree_set/mod.rs:12): the keys of the map. -/
def iterNext : RBIter T Unit → Res (Option T × RBIter T Unit) := RBMap.keysNext A o

/-- `DoubleEndedIterator::next_back` of the iterator. -/
def iterNextBack : RBIter T Unit → Res (Option T × RBIter T Unit) := RBIter.mapNextBack A o fun e => e.1

/-- `range` (red_black_tree_set/mod.rs:271-278). -/
def range (s : RBSet T) (start end_ : Bound Q) : Res (RBRangeIter T Unit Q) := s.map.range o start end_

/-- `next` of the range iterator (red_black_tree_set/mod.rs:13-14, 277). -/
def rangeNext (it : RBRangeIter T Unit Q) : Res (Option T × RBRangeIter T Unit Q) := do
  let (x, it) ← it.next A o
  pure (x.map fun kv => kv.1, it)

/-- `next_back` of the range iterator. -/
def rangeNextBack (it : RBRangeIter T Unit Q) : Res (Option T × RBRangeIter T Unit Q) := do
  let (x, it) ← it.nextBack A o
  pure (x.map fun kv => kv.1, it)

/-- The `while` loop of `is_disjoint` (red_black_tree_set/mod.rs:199-205). -/
def disjointLoop : Nat → RBIter T Unit → RBIter T Unit → Option T → Option T → Res Bool
  | 0, _, _, _, _ => .error .diverge
  | fuel + 1, self_it, other_it, v_opt, u_opt =>
    match v_opt, u_opt with
    | some v, some u =>
      match o.cmpK v u with
      | .lt => do
        let (v_opt, self_it) ← iterNext A o self_it
        disjointLoop fuel self_it other_it v_opt (some u)
      | .eq => pure false
      | .gt => do
        let (u_opt, other_it) ← iterNext A o other_it
        disjointLoop fuel self_it other_it (some v) u_opt
    | _, _ => pure true

/-- `is_disjoint` (red_black_tree_set/mod.rs:189-208). -/
def isDisjoint (s other : RBSet T) : Res Bool := do
  let (v_opt, self_it) ← iterNext A o s.iter
  let (u_opt, other_it) ← iterNext A o other.iter
  disjointLoop A o (s.size + other.size + 1) self_it other_it v_opt u_opt

/-- The inner loop of `is_subset` (red_black_tree_set/mod.rs:232-241): `none` is `return false`, `some it` is `break`. -/
def subsetInner (v : T) : Nat → RBIter T Unit → Res (Option (RBIter T Unit))
  | 0, _ => .error .diverge
  | fuel + 1, other_it => do
    let (x, other_it) ← iterNext A o other_it
    match x with
    | some u =>
      match o.cmpK u v with
      | .lt => subsetInner v fuel other_it
      | .eq => pure (some other_it)
      | .gt => pure none
    | none => pure none

/-- The outer loop of `is_subset` (red_black_tree_set/mod.rs:231-242). -/
def subsetLoop (otherSize : Nat) : Nat → RBIter T Unit → RBIter T Unit → Res Bool
  | 0, _, _ => .error .diverge
  | fuel + 1, self_it, other_it => do
    let (x, self_it) ← iterNext A o self_it
    match x with
    | none => pure true
    | some v => do
      let r ← subsetInner A o v (otherSize + 1) other_it
      match r with
      | none => pure false
      | some other_it => subsetLoop otherSize fuel self_it other_it

/-- `is_subset` (red_black_tree_set/mod.rs:219-245); `samePtr` is the answer of `ptr_eq`. -/
def isSubset (samePtr : Bool) (s other : RBSet T) : Res Bool :=
  if samePtr then pure true
  else if s.size > other.size then pure false
  else subsetLoop A o other.size (s.size + 1) s.iter other.iter

/-- `is_superset` (red_black_tree_set/mod.rs:248-253). -/
def isSuperset (samePtr : Bool) (s other : RBSet T) : Res Bool := other.isSubset A o samePtr s

/-- `clone` (red_black_tree_set/mod.rs:286-288). -/
def clone (s : RBSet T) : RBSet T := { map := s.map.clone }

/-- `PartialEq` (red_black_tree_set/mod.rs:307-309); `()` values are always equal. -/
def eq (samePtr : Bool) (a b : RBSet T) : Res Bool := a.map.eq A o (fun _ _ => true) samePtr b.map

/-- `PartialOrd` (red_black_tree_set/mod.rs:324-326); the elements are `Ord`, so their `partial_cmp` is `Some` of `cmp`. -/
def partialCmp (a b : RBSet T) : Res (Option Ordering) :=
  iterPartialCmp (iterNext A o) (iterNext A o) (fun x y => some (o.cmpK x y)) (a.size + 1) a.iter b.iter

/-- `Ord` (red_black_tree_set/mod.rs:333-335). -/
def cmp (a b : RBSet T) : Res Ordering := iterCmp (iterNext A o) (iterNext A o) o.cmpK (a.size + 1) a.iter b.iter

/-- `Hash` (red_black_tree_set/mod.rs:342-351). -/
def hash {S : Type} (hashUsize : S → Nat → S) (hashT : S → T → S) (s : RBSet T) (state : S) : Res S :=
  iterHash (iterNext A o) hashT (s.size + 1) s.iter (hashUsize state s.size)

/-- `Display` (red_black_tree_set/mod.rs:359-373). -/
def display (fmt : T → String) (s : RBSet T) : Res String := do
  let out ← iterDisplay (iterNext A o) fmt (s.size + 1) s.iter true "{"
  pure (out ++ "}")

/-- The loop of `from_iter` (red_black_tree_set/mod.rs:398-400) and of `rbt_set!` (29-40, 55-66). -/
def insertAll (s : RBSet T) : List T → Res (RBSet T)
  | [] => pure s
  | v :: vs => do
    let s ← s.insertMut o v
    s.insertAll vs

/-- `FromIterator` (red_black_tree_set/mod.rs:395-403), `rbt_set!`, `rbt_set_sync!` (29-40, 55-66). -/
def fromIter (vs : List T) : Res (RBSet T) := (new : RBSet T).insertAll o vs

/-- `Serialize` (red_black_tree_set/mod.rs:419-421): `collect_seq` emits the items of the iterator. -/
def serialize (s : RBSet T) : Res (List T) := drain (iterNext A o) (s.size + 1) s.iter

/-- The loop of `visit_seq` (red_black_tree_set/mod.rs:462-464); the input is the sequence of results of `next_element()`. -/
def visitLoop {E : Type} (s : RBSet T) : List (Except E T) → Res (Except E (RBSet T))
  | [] => pure (.ok s)
  | .error e :: _ => pure (.error e)
  | .ok v :: input => do
    let s ← s.insertMut o v
    s.visitLoop input

/-- `Deserialize` (red_black_tree_set/mod.rs:429-436, 456-467). -/
def deserialize {E : Type} (input : List (Except E T)) : Res (Except E (RBSet T)) := (new : RBSet T).visitLoop o input

/-- Runs one operation on one version. -/
def step (s : RBSet T) : SetOp T Q → Res (SetRet T × Effect (RBSet T))
  | .insert v => do
    let s' ← s.insert o v
    pure (.unit, .fresh s')
  | .insertMut v => do
    let s' ← s.insertMut o v
    pure (.unit, .update s')
  | .remove q => do
    let s' ← s.remove A o q
    pure (.unit, .fresh s')
  | .removeMut q => do
    let (b, s') ← s.removeMut A o q
    pure (.bool b, .update s')
  | .clone => pure (.unit, .fresh s.clone)
  | .get q => pure (.opt (s.get o q), .keep)
  | .contains q => pure (.bool (s.contains o q), .keep)
  | .size => pure (.nat s.size, .keep)
  | .isEmpty => pure (.bool s.isEmpty, .keep)

end model

variable {T Q : Type} {A : Arch} {o : OrdKeys T Q}

/-- The set `s` represents the finite set `l`. -/
def Rep (o : OrdKeys T Q) (s : RBSet T) (l : List T) : Prop := s.map.Rep o (unitPairs l)

variable {s s' : RBSet T} {l l' : List T}

/-- The elements in increasing order. -/
def items (s : RBSet T) : List T := s.map.root.toList.map fun e => e.1

theorem Rep.distinct (r : s.Rep o l) (lo : o.Lawful) : l.Pairwise fun a b => o.same a b = false :=
  unitPairs_distinct.1 (RBMap.Rep.distinct r lo)

theorem Rep.size_eq (r : s.Rep o l) : s.map.size = l.length := by
  have := RBMap.Rep.size r
  simpa [unitPairs] using this

theorem Rep.items_perm (r : s.Rep o l) : s.items.Perm l := by
  have := (RBMap.Rep.perm r).map (·.1)
  simpa [items, unitPairs, Function.comp_def] using this

theorem Rep.items_sorted (r : s.Rep o l) : s.items.Pairwise fun a b => o.cmpK a b = .lt := by
  rw [items, List.pairwise_map]
  exact (RBMap.Rep.ok r).sorted

theorem Rep.items_length (r : s.Rep o l) : s.items.length = s.map.size := by rw [r.items_perm.length_eq, r.size_eq]

theorem Rep.drives (r : s.Rep o l) (lo : o.Lawful) (hf : RBMap.Fits A s.map) : Drives (iterNext A o) s.iter s.items :=
  RBMap.Rep.drives r lo hf fun e => e.1

theorem Rep.contains (r : s.Rep o l) (lo : o.Lawful) (q : Q) : s.contains o q = (setGet o.hits l q).isSome := by
  rw [RBSet.contains, RBMap.Rep.containsKey r lo, unitPairs_get]; simp

theorem Rep.get (r : s.Rep o l) (lo : o.Lawful) (q : Q) : s.get o q = setGet o.hits l q := by
  rw [RBSet.get, RBMap.Rep.getKeyValue r lo, unitPairs_get]
  cases setGet o.hits l q <;> rfl

theorem Rep.first (r : s.Rep o l) : s.first = s.items.head? := by
  rw [RBSet.first, RBMap.Rep.first r, items, List.head?_map]

theorem Rep.last (r : s.Rep o l) : s.last = s.items.getLast? := by
  rw [RBSet.last, RBMap.Rep.last r, items, List.getLast?_map]

theorem Rep.insertMut (r : s.Rep o l) (lo : o.Lawful) (v : T) :
    ∃ s₂, s.insertMut o v = .ok s₂ ∧ s₂.Rep o (setInsert o.same l v) := by
  obtain ⟨m, h1, h2⟩ := RBMap.Rep.insertMut r lo v ()
  rw [unitPairs_insert] at h2
  exact ⟨⟨m⟩, by simp [RBSet.insertMut, h1], h2⟩

theorem Rep.insert (r : s.Rep o l) (lo : o.Lawful) (v : T) :
    ∃ s₂, s.insert o v = .ok s₂ ∧ s₂.Rep o (setInsert o.same l v) := by
  obtain ⟨m, h1, h2⟩ := RBMap.Rep.insert r lo v ()
  rw [unitPairs_insert] at h2
  exact ⟨⟨m⟩, by simp [RBSet.insert, h1], h2⟩

theorem Rep.removeMut (r : s.Rep o l) (lo : o.Lawful) (q : Q) :
    ∃ s₂, s.removeMut A o q = .ok ((setGet o.hits l q).isSome, s₂) ∧ s₂.Rep o (setRemove o.hits l q) := by
  obtain ⟨m, h1, h2⟩ := RBMap.Rep.removeMut (A := A) r lo q
  rw [unitPairs_remove] at h2
  rw [unitPairs_get] at h1
  exact ⟨⟨m⟩, by simp [RBSet.removeMut, h1], h2⟩

theorem Rep.remove (r : s.Rep o l) (lo : o.Lawful) (q : Q) :
    ∃ s₂, s.remove A o q = .ok s₂ ∧ s₂.Rep o (setRemove o.hits l q) ∧ (setGet o.hits l q = none → s₂ = s) := by
  obtain ⟨m, h1, h2, h3⟩ := RBMap.Rep.remove (A := A) r lo q
  rw [unitPairs_remove] at h2
  rw [unitPairs_get] at h3
  refine ⟨⟨m⟩, by simp [RBSet.remove, h1], h2, fun h => ?_⟩
  rw [h3 (by simp [h])]

theorem Rep.step (r : s.Rep o l) (lo : o.Lawful) (op : SetOp T Q) :
    ∃ e, s.step A o op = .ok ((setStep o.same o.hits l op).1, e) ∧ Effect.Rel (fun s l => s.Rep o l) e (setStep o.same o.hits l op).2 := by
  cases op with
  | insert v =>
    obtain ⟨s₂, h1, h2⟩ := r.insert lo v
    exact ⟨.fresh s₂, by simp [RBSet.step, h1, setStep], .fresh h2⟩
  | insertMut v =>
    obtain ⟨s₂, h1, h2⟩ := r.insertMut lo v
    exact ⟨.update s₂, by simp [RBSet.step, h1, setStep], .update h2⟩
  | remove q =>
    obtain ⟨s₂, h1, h2, _⟩ := r.remove (A := A) lo q
    exact ⟨.fresh s₂, by simp [RBSet.step, h1, setStep], .fresh h2⟩
  | removeMut q =>
    obtain ⟨s₂, h1, h2⟩ := r.removeMut (A := A) lo q
    exact ⟨.update s₂, by simp [RBSet.step, h1, setStep], .update h2⟩
  | clone => exact ⟨.fresh s, by simp [RBSet.step, setStep, RBSet.clone, RBMap.clone], .fresh r⟩
  | get q => exact ⟨.keep, by simp [RBSet.step, r.get lo, setStep], .keep⟩
  | contains q => exact ⟨.keep, by simp [RBSet.step, r.contains lo, setStep], .keep⟩
  | size => exact ⟨.keep, by simp [RBSet.step, RBSet.size, RBMap.getSize, r.size_eq, setStep], .keep⟩
  | isEmpty =>
    exact ⟨.keep, by cases l <;> simp [RBSet.step, RBSet.isEmpty, RBSet.size, RBMap.getSize, r.size_eq, setStep], .keep⟩

/-! ### Set relations by merging -/

theorem disjoint_cons_lt (lo : o.Lawful) {v u : T} {x y : List T} (h : o.cmpK v u = .lt) (hy : (u :: y).Pairwise fun a b => o.cmpK a b = .lt) :
    Spec.Disjoint o.same (v :: x) (u :: y) ↔ Spec.Disjoint o.same x (u :: y) := by
  rw [disjoint_iff lo.equivK, disjoint_iff lo.equivK]
  constructor
  · intro hd a ha; exact hd a (by simp [ha])
  · intro hd a ha
    rcases List.mem_cons.1 ha with rfl | ha
    · rintro ⟨b, hb, hba⟩
      have hlt : o.cmpK a b = .lt := by
        rcases List.mem_cons.1 hb with rfl | hb
        · exact h
        · exact OrdKeys.lt_trans' lo.ordK h ((List.pairwise_cons.1 hy).1 b hb)
      rw [OrdKeys.same, lo.swapK, hlt] at hba
      cases hba
    · exact hd a ha

theorem disjoint_comm {same : T → T → Bool} {x y : List T} : Spec.Disjoint same x y ↔ Spec.Disjoint same y x := by
  simp only [Spec.Disjoint, and_comm]

/-- The next element and what the iterator still has, given the elements left. -/
def Ahead (A : Arch) (o : OrdKeys T Q) (it : RBIter T Unit) (v : Option T) : List T → Prop
  | [] => v = none
  | a :: x => v = some a ∧ Drives (iterNext A o) it x

theorem Ahead.next {it : RBIter T Unit} {x : List T} (h : Drives (iterNext A o) it x) :
    ∃ v it', iterNext A o it = .ok (v, it') ∧ Ahead A o it' v x := by
  cases h with
  | nil h => exact ⟨_, _, h, rfl⟩
  | cons h h' => exact ⟨_, _, h, rfl, h'⟩

theorem disjointLoop_ok (lo : o.Lawful) (fuel : Nat) {i j : RBIter T Unit} {v u : Option T} {x y : List T} (hi : Ahead A o i v x)
    (hj : Ahead A o j u y) (hx : x.Pairwise fun a b => o.cmpK a b = .lt) (hy : y.Pairwise fun a b => o.cmpK a b = .lt)
    (hfu : x.length + y.length < fuel) :
    ∃ b, disjointLoop A o fuel i j v u = .ok b ∧ (b = true ↔ Spec.Disjoint o.same x y) := by
  induction fuel generalizing i j v u x y with
  | zero => omega
  | succ fuel ih =>
    cases x with
    | nil =>
      have hi : v = none := hi
      subst hi
      refine ⟨true, rfl, ?_⟩
      rw [disjoint_iff lo.equivK]; simp
    | cons a x =>
      obtain ⟨rfl, hi⟩ := hi
      cases y with
      | nil =>
        have hj : u = none := hj
        subst hj
        refine ⟨true, rfl, ?_⟩
        rw [disjoint_comm, disjoint_iff lo.equivK]; simp
      | cons b y =>
        obtain ⟨rfl, hj⟩ := hj
        simp only [disjointLoop]
        simp only [List.length_cons] at hfu
        cases hc : o.cmpK a b with
        | lt =>
          obtain ⟨v', i', h1, h2⟩ := Ahead.next hi
          obtain ⟨r, h3, h4⟩ := ih h2 (y := b :: y) (u := some b) ⟨rfl, hj⟩ (List.pairwise_cons.1 hx).2 hy (by simp only [List.length_cons]; omega)
          exact ⟨r, by simp [h1, h3], by rw [h4, disjoint_cons_lt lo hc hy]⟩
        | eq =>
          refine ⟨false, rfl, ?_⟩
          simp only [Bool.false_eq_true, false_iff]
          intro hd
          exact hd a ⟨⟨a, by simp, lo.equivK.refl a⟩, ⟨b, by simp, lo.equivK.symm _ _ (by simp [OrdKeys.same, hc])⟩⟩
        | gt =>
          obtain ⟨u', j', h1, h2⟩ := Ahead.next hj
          obtain ⟨r, h3, h4⟩ := ih (x := a :: x) (v := some a) ⟨rfl, hi⟩ h2 hx (List.pairwise_cons.1 hy).2 (by simp only [List.length_cons]; omega)
          refine ⟨r, by simp [h1, h3], ?_⟩
          have hc' : o.cmpK b a = .lt := by rw [lo.swapK, hc]; rfl
          rw [h4, disjoint_comm, ← disjoint_cons_lt lo hc' hx, disjoint_comm]

theorem Rep.isDisjoint (r : s.Rep o l) (r' : s'.Rep o l') (lo : o.Lawful) (hf : RBMap.Fits A s.map) (hf' : RBMap.Fits A s'.map) :
    ∃ b, s.isDisjoint A o s' = .ok b ∧ (b = true ↔ Spec.Disjoint o.same l l') := by
  obtain ⟨v, i, h1, h2⟩ := Ahead.next (r.drives lo hf)
  obtain ⟨u, j, h3, h4⟩ := Ahead.next (r'.drives lo hf')
  obtain ⟨b, h5, h6⟩ := disjointLoop_ok lo (s.size + s'.size + 1) h2 h4 r.items_sorted r'.items_sorted
    (by simp only [RBSet.size, RBMap.getSize, r.items_length, r'.items_length]; omega)
  refine ⟨b, by simp [RBSet.isDisjoint, h1, h3, h5], ?_⟩
  rw [h6]
  simp only [Spec.Disjoint, Mem.perm r.items_perm, Mem.perm r'.items_perm]

/-- The search of one element: it is found exactly if it is among the items left, and then only greater items remain. -/
theorem subsetInner_ok (lo : o.Lawful) (v : T) (fuel : Nat) {j : RBIter T Unit} {y : List T} (hj : Drives (iterNext A o) j y)
    (hy : y.Pairwise fun a b => o.cmpK a b = .lt) (hfu : y.length < fuel) :
    (subsetInner A o v fuel j = .ok none ∧ ¬ Mem o.same y v) ∨
    (∃ j' y₁ b y₂, subsetInner A o v fuel j = .ok (some j') ∧ y = y₁ ++ b :: y₂ ∧ o.same b v = true ∧ Drives (iterNext A o) j' y₂) := by
  induction fuel generalizing j y with
  | zero => omega
  | succ fuel ih =>
    cases hj with
    | nil h => left; exact ⟨by simp [subsetInner, h], by simp [Mem]⟩
    | @cons _ j' u y h h' =>
      have hp := List.pairwise_cons.1 hy
      simp only [List.length_cons] at hfu
      cases hc : o.cmpK u v with
      | lt =>
        rcases ih h' hp.2 (by omega) with ⟨h1, h2⟩ | ⟨j'', y₁, b, y₂, h1, h2, h3, h4⟩
        · left
          refine ⟨by simp [subsetInner, h, hc, h1], ?_⟩
          rintro ⟨b, hb, hbv⟩
          rcases List.mem_cons.1 hb with rfl | hb
          · rw [OrdKeys.same, hc] at hbv; cases hbv
          · exact h2 ⟨b, hb, hbv⟩
        · right
          exact ⟨j'', u :: y₁, b, y₂, by simp [subsetInner, h, hc, h1], by simp [h2], h3, h4⟩
      | eq =>
        right
        exact ⟨j', [], u, y, by simp [subsetInner, h, hc], rfl, by simp [OrdKeys.same, hc], h'⟩
      | gt =>
        left
        refine ⟨by simp [subsetInner, h, hc], ?_⟩
        rintro ⟨b, hb, hbv⟩
        rcases List.mem_cons.1 hb with rfl | hb
        · rw [OrdKeys.same, hc] at hbv; cases hbv
        · have := lo.self.q_gt (q := v) (a := u) (b := b)
          have h1 : o.cmpK b v = .eq := by simpa [OrdKeys.same] using hbv
          have h2 := hp.1 b hb
          rw [OrdKeys.lt_eq_trans' lo.ordK h1, hc] at h2
          cases h2

theorem subsetLoop_ok (lo : o.Lawful) (n : Nat) (fuel : Nat) {i j : RBIter T Unit} {x y : List T} (hi : Drives (iterNext A o) i x)
    (hj : Drives (iterNext A o) j y) (hx : x.Pairwise fun a b => o.cmpK a b = .lt) (hy : y.Pairwise fun a b => o.cmpK a b = .lt)
    (hfu : x.length < fuel) (hn : y.length ≤ n) :
    ∃ b, subsetLoop A o n fuel i j = .ok b ∧ (b = true ↔ Spec.Subset o.same x y) := by
  induction fuel generalizing i j x y with
  | zero => omega
  | succ fuel ih =>
    rw [subset_iff lo.equivK]
    cases hi with
    | nil h => exact ⟨true, by simp [subsetLoop, h], by simp⟩
    | @cons _ i' v x h h' =>
      have hp := List.pairwise_cons.1 hx
      simp only [List.length_cons] at hfu
      rcases subsetInner_ok lo v (n + 1) hj hy (by omega) with ⟨h1, h2⟩ | ⟨j', y₁, b, y₂, h1, h2, h3, h4⟩
      · refine ⟨false, by simp [subsetLoop, h, h1], ?_⟩
        simp only [Bool.false_eq_true, false_iff]
        intro hs
        exact h2 (hs v (by simp))
      · subst h2
        have hy2 := List.pairwise_append.1 hy
        obtain ⟨r, h5, h6⟩ := ih h' h4 hp.2 (List.pairwise_cons.1 hy2.2.1).2 (by omega)
          (by simp only [List.length_append, List.length_cons] at hn; omega)
        refine ⟨r, by simp [subsetLoop, h, h1, h5], ?_⟩
        rw [h6, subset_iff lo.equivK]
        have hbv : o.cmpK b v = .eq := by simpa [OrdKeys.same] using h3
        constructor
        · intro hs a ha
          rcases List.mem_cons.1 ha with rfl | ha
          · exact ⟨b, by simp, h3⟩
          · obtain ⟨c, hc, hca⟩ := hs a ha
            exact ⟨c, by simp [hc], hca⟩
        · intro hs a ha
          obtain ⟨c, hc, hca⟩ := hs a (by simp [ha])
          have hca' : o.cmpK c a = .eq := by simpa [OrdKeys.same] using hca
          have hva : o.cmpK v a = .lt := hp.1 a ha
          have hba : o.cmpK b a = .lt := by rw [OrdKeys.eq_lt_trans' lo.ordK hbv]; exact hva
          have hcb : o.cmpK b c = .lt := by rw [OrdKeys.lt_eq_trans' lo.ordK hca']; exact hba
          rcases List.mem_append.1 hc with hc | hc
          · have := hy2.2.2 c hc b (by simp)
            rw [lo.swapK, this] at hcb; cases hcb
          · rcases List.mem_cons.1 hc with rfl | hc
            · rw [lo.ordK.refl] at hcb; cases hcb
            · exact ⟨c, hc, hca⟩

theorem Rep.isSubset (r : s.Rep o l) (r' : s'.Rep o l') (lo : o.Lawful) (hf : RBMap.Fits A s.map) (hf' : RBMap.Fits A s'.map) :
    ∃ b, s.isSubset A o false s' = .ok b ∧ (b = true ↔ Spec.Subset o.same l l') := by
  simp only [RBSet.isSubset, Bool.false_eq_true, if_false]
  by_cases hl : s.size > s'.size
  · refine ⟨false, by simp [hl], ?_⟩
    simp only [Bool.false_eq_true, false_iff]
    intro h
    have := h.length_le lo.equivK (r.distinct lo) (r'.distinct lo)
    simp only [RBSet.size, RBMap.getSize, r.size_eq, r'.size_eq] at hl
    omega
  · obtain ⟨b, h1, h2⟩ := subsetLoop_ok lo s'.size (s.size + 1) (r.drives lo hf) (r'.drives lo hf') r.items_sorted r'.items_sorted
      (by simp only [RBSet.size, RBMap.getSize, r.items_length]; omega) (by simp only [RBSet.size, RBMap.getSize, r'.items_length]; omega)
    refine ⟨b, by simp [hl, h1], ?_⟩
    rw [h2]
    simp only [Spec.Subset, Mem.perm r.items_perm, Mem.perm r'.items_perm]

theorem Rep.eq (r : s.Rep o l) (r' : s'.Rep o l') (lo : o.Lawful) (hf : RBMap.Fits A s.map) :
    ∃ b, s.eq A o false s' = .ok b ∧ (b = true ↔ SameElems o.same l l') := by
  obtain ⟨b, h1, h2⟩ := RBMap.Rep.eq r r' lo hf (fun _ _ => true)
  exact ⟨b, h1, by rw [h2, mapEq_unit]⟩

theorem Rep.cmp (r : s.Rep o l) (r' : s'.Rep o l') (lo : o.Lawful) (hf : RBMap.Fits A s.map) (hf' : RBMap.Fits A s'.map) :
    s.cmp A o s' = .ok (lexCmp o.cmpK s.items s'.items) :=
  (r.drives lo hf).iterCmp (r'.drives lo hf') (by simp only [RBSet.size, RBMap.getSize, r.items_length]; omega)

theorem Rep.partialCmp (r : s.Rep o l) (r' : s'.Rep o l') (lo : o.Lawful) (hf : RBMap.Fits A s.map) (hf' : RBMap.Fits A s'.map) :
    s.partialCmp A o s' = .ok (some (lexCmp o.cmpK s.items s'.items)) := by
  rw [← lexPartialCmp_total]
  exact (r.drives lo hf).iterPartialCmp (r'.drives lo hf') (by simp only [RBSet.size, RBMap.getSize, r.items_length]; omega)

theorem Rep.hash {S : Type} (r : s.Rep o l) (lo : o.Lawful) (hf : RBMap.Fits A s.map) (hashUsize : S → Nat → S) (hashT : S → T → S) (state : S) :
    s.hash A o hashUsize hashT state = .ok (s.items.foldl hashT (hashUsize state s.items.length)) := by
  rw [RBSet.hash, RBSet.size, RBMap.getSize, ← r.items_length]
  exact (r.drives lo hf).iterHash _ (by omega)

theorem Rep.display (r : s.Rep o l) (lo : o.Lawful) (hf : RBMap.Fits A s.map) (fmt : T → String) :
    s.display A o fmt = .ok (bracketed "{" "}" (s.items.map fmt)) := by
  simp only [RBSet.display, RBSet.size, RBMap.getSize]
  rw [(r.drives lo hf).iterDisplay _ (by rw [r.items_length]; omega)]
  rfl

theorem Rep.serialize (r : s.Rep o l) (lo : o.Lawful) (hf : RBMap.Fits A s.map) : s.serialize A o = .ok s.items :=
  (r.drives lo hf).drain (by simp only [RBSet.size, RBMap.getSize, r.items_length]; omega)

theorem new_rep : (new : RBSet T).Rep o [] := RBMap.new_rep

theorem Rep.insertAll (r : s.Rep o l) (lo : o.Lawful) (vs : List T) :
    ∃ s₂, s.insertAll o vs = .ok s₂ ∧ s₂.Rep o (vs.foldl (setInsert o.same) l) := by
  induction vs generalizing s l with
  | nil => exact ⟨s, rfl, r⟩
  | cons v vs ih =>
    obtain ⟨s1, h1, h2⟩ := r.insertMut lo v
    obtain ⟨s2, g1, g2⟩ := ih h2
    exact ⟨s2, by simp [RBSet.insertAll, h1, g1], g2⟩

theorem fromIter_rep (lo : o.Lawful) (vs : List T) :
    ∃ s : RBSet T, fromIter o vs = .ok s ∧ s.Rep o (vs.foldl (setInsert o.same) []) := new_rep.insertAll lo vs

theorem Rep.visitLoop {E : Type} (r : s.Rep o l) (lo : o.Lawful) (input : List (Except E T)) :
    match collectExcept input with
    | .ok vs => ∃ s₂, s.visitLoop o input = .ok (.ok s₂) ∧ s.insertAll o vs = .ok s₂
    | .error e => s.visitLoop o input = .ok (.error e) := by
  induction input generalizing s l with
  | nil => exact ⟨s, rfl, rfl⟩
  | cons x input ih =>
    cases x with
    | error e => simp [RBSet.visitLoop, collectExcept]
    | ok v =>
      obtain ⟨s1, h1, h2⟩ := r.insertMut lo v
      have := ih h2
      simp only [collectExcept]
      cases hm : collectExcept input with
      | error e =>
        rw [hm] at this
        simp only at this
        simp [RBSet.visitLoop, h1, this]
      | ok vs =>
        rw [hm] at this
        obtain ⟨s', g1, g2⟩ := this
        exact ⟨s', by simp [RBSet.visitLoop, h1, g1], by simp [RBSet.insertAll, h1, g2]⟩

/-! ### Reachable sets -/

/-- The ways of creating a set without another set. -/
inductive Init (o : OrdKeys T Q) : RBSet T → Prop where
  | new : Init o RBSet.new
  | fromIter {vs : List T} {s : RBSet T} : RBSet.fromIter o vs = .ok s → Init o s
  | deserialize {E : Type} {input : List (Except E T)} {s : RBSet T} : RBSet.deserialize o input = .ok (.ok s) → Init o s

/-- All sets a program can obtain. -/
abbrev Reach (A : Arch) (o : OrdKeys T Q) (s : RBSet T) : Prop := Reachable (Init o) (RBSet.step A o) s

theorem Init.rep (lo : o.Lawful) (h : Init o s) : ∃ l, s.Rep o l := by
  cases h with
  | new => exact ⟨[], new_rep⟩
  | @fromIter vs _ h =>
    obtain ⟨s', h1, h2⟩ := fromIter_rep lo vs
    rw [h] at h1; cases h1; exact ⟨_, h2⟩
  | @deserialize E input _ h =>
    have h3 := (new_rep (o := o) (T := T)).visitLoop lo input
    rw [RBSet.deserialize] at h
    split at h3
    · obtain ⟨s'', g1, g2⟩ := h3
      rw [g1] at h; cases h
      rename_i vs _
      obtain ⟨s3, e1, e2⟩ := (new_rep (o := o) (T := T)).insertAll lo vs
      rw [e1] at g2; cases g2
      exact ⟨_, e2⟩
    · rw [h3] at h; cases h

theorem Reach.rep (lo : o.Lawful) (h : Reach A o s) : ∃ l, s.Rep o l :=
  Reachable.rep (R := fun s l => s.Rep o l) (fun _ h => h.rep lo) (fun _ _ op h => h.step lo op) h

end RBSet
end Rpds
