import Verif.Props.HeapHash
import Verif.Heap.CostVector
import Verif.Heap.CostRedBlack
import Verif.Heap.CostHashTrie
/-
The complexity tables in the documentation (C57): how many memory cells an operation touches and how many pointers it copies.

`Impl.limit` replaces every operation by one that panics as soon as it exceeds its limit (`Prog.cut` in `Verif/Heap/Cost.lean` says what
is counted).  The theorems say that clients cannot tell the difference: with the limits in place all the answers are still those
of the plain values, for clients that run alone and for threads, so the limits are never exceeded.  The limits are in terms of the sizes
stored in the handles, which are the sizes of the plain values.
-/
set_option autoImplicit false
namespace Rpds
namespace Props
open Heap Heap.HT

section
variable {L H Op Ret σ : Type}

/-- Operations that panic when they exceed their limits never do; and the sizes in the handles are the sizes of the plain values. -/
def Affordable (impl : Impl L H Op Ret) (new : σ) (step : σ → Op → Res (Ret × Effect σ)) (hsize : H → Nat) (size : σ → Nat)
    (extra : L → Nat) (newLimit : Nat × Nat) (limit : H → Op → Option (Nat × Nat)) (dropLimit : H → Nat × Nat) : Prop :=
  Persistent (impl.limit extra newLimit limit dropLimit) new step ∧
  ThreadsIndependent (impl.limit extra newLimit limit dropLimit) new step ∧
  ∀ (A : Allocator L) (cmds : List (Cmd Op)) (rs : List (Option Ret)) (ss : List (Option σ)) (hs : List (Option H)) (h : Mem L) (d : Nat),
    pureClient new step [] cmds = .ok (rs, ss) → Runs A (client impl [] cmds) [] (rs, hs) h d →
    ∀ (i : Nat) (x : H) (s : σ), hs[i]? = some (some x) → ss[i]? = some (some s) → hsize x = size s

theorem affordable_of_refines {impl : Impl L H Op Ret} {new : σ} {step : σ → Op → Res (Ret × Effect σ)} {R : H → σ → List (Item L) → Prop}
    {hsize : H → Nat} {size : σ → Nat} {extra : L → Nat} {newLimit : Nat × Nat} {limit : H → Op → Option (Nat × Nat)}
    {dropLimit : H → Nat × Nat} (hr : ∀ A, impl.Refines A new step R) (hs : ∀ x s ρ, R x s ρ → hsize x = size s)
    (he : impl.limit extra newLimit limit dropLimit = impl) : Affordable impl new step hsize size extra newLimit limit dropLimit := by
  refine ⟨by rw [he]; exact persistent_of_refines hr, by rw [he]; exact threads_of_refines hr, ?_⟩
  intro A cmds rs ss hs' h d hp hrun i x s hx hss
  obtain ⟨hs2, h2, d2, ρ, e1, hh, ho⟩ := (hr A).runs hp
  obtain ⟨e2, -, -⟩ := e1.unique hrun
  cases e2
  rcases hh.get i with ⟨x', s', ρ₁, ρ₂, g1, g2, g3, -⟩ | ⟨g1, -⟩
  · rw [hx] at g1
    rw [hss] at g2
    cases g1
    cases g2
    exact hs _ _ _ g3
  · exact absurd hx (g1 x)

end

/-! ### Lists, stacks and queues -/

/-- No cell holds a collection. -/
def noExtra {L : Type} (_ : L) : Nat := 0

/-- C57 for `List` (list/mod.rs:87-101): constant, except that reversing and iterating are linear, and so is dropping. -/
theorem C57_list_cost (T : Type) :
    Affordable (listImpl T) ([] : List T) (fun xs op => .ok (Spec.listStep xs op)) HList.length List.length noExtra (0, 0)
      (fun l op => some (match op with
        | .pushFront _ => (3, 3)
        | .pushFrontMut _ => (3, 1)
        | .dropFirst => (3, 3)
        | .dropFirstMut => (3, 1)
        | .reverse => (3 * l.length, 2 * l.length)
        | .reverseMut => (5 * l.length + 2, 1)
        | .clone => (0, 2)
        | .first => (2, 0)
        | .last => (1, 0)
        | .len => (0, 0)
        | .isEmpty => (0, 0)
        | .iter _ => (2 * l.length, 0)))
      (fun l => (2 * l.length + 1, 0)) := by
  refine affordable_of_refines (fun _ => listImpl_refines) ?_ (Impl.limit_eq trivial ?_ ?_)
  · rintro l xs ρ ⟨r, h1, h2⟩
    rw [h1.length, h2.length]
  · intro l op lim e
    cases e
    have := (cost_listHStep (x := noExtra) l op).imp (R := fun _ _ _ => True) fun _ _ _ _ => trivial
    cases op <;> exact this
  · intro l
    exact (HList.cost_dropList (Nat.le_refl _)).imp fun _ _ _ _ => trivial

/-- C57 for `Stack` (stack/mod.rs:73-85). -/
theorem C57_stack_cost (T : Type) :
    Affordable (stackImpl T) ([] : List T) (fun xs op => .ok (Spec.stackStep xs op)) HList.length List.length noExtra (0, 0)
      (fun s op => some (match op with
        | .push _ => (3, 3)
        | .pushMut _ => (3, 1)
        | .pop => (3, 3)
        | .popMut => (3, 1)
        | .clone => (0, 2)
        | .peek => (2, 0)
        | .size => (0, 0)
        | .isEmpty => (0, 0)
        | .iter _ => (2 * s.length, 0)))
      (fun s => (2 * s.length + 1, 0)) := by
  refine affordable_of_refines (fun _ => stackImpl_refines) ?_ (Impl.limit_eq trivial ?_ ?_)
  · rintro l xs ρ ⟨r, h1, h2⟩
    rw [h1.length, h2.length]
  · intro l op lim e
    cases e
    have := (cost_stackHStep (x := noExtra) l op).imp (R := fun _ _ _ => True) fun _ _ _ _ => trivial
    cases op <;> exact this
  · intro l
    exact (HList.cost_dropList (Nat.le_refl _)).imp fun _ _ _ _ => trivial

/-- C57 for `Queue` (queue/mod.rs:77-90): constant, except that iterating and dropping are linear, and `dequeue` is when the out-list
is empty. -/
theorem C57_queue_cost (T : Type) :
    Affordable (queueImpl T) ([] : List T) (fun xs op => .ok (Spec.queueStep xs op)) (fun q => q.in_list.length + q.out_list.length)
      List.length noExtra (0, 0)
      (fun q op => some (match op with
        | .enqueue _ => (3, 5)
        | .enqueueMut _ => (3, 1)
        | .dequeue => ((if q.out_list.length = 0 then 5 * q.in_list.length else 0) + 5, 6)
        | .dequeueMut => ((if q.out_list.length = 0 then 5 * q.in_list.length else 0) + 5, 2)
        | .clone => (0, 4)
        | .peek => (2, 0)
        | .len => (0, 0)
        | .isEmpty => (0, 0)
        | .iter _ => (2 * (q.in_list.length + q.out_list.length), 0)))
      (fun q => (2 * (q.in_list.length + q.out_list.length) + 2, 0)) := by
  refine affordable_of_refines (fun _ => queueImpl_refines) ?_ (Impl.limit_eq trivial ?_ ?_)
  · rintro q xs ρ ⟨r, ⟨ρ₁, ρ₂, -, h1, h2, -, -⟩, h3⟩
    rw [h1.length, h2.length]
    exact h3.len
  · intro l op lim e
    cases e
    have := (cost_queueHStep (x := noExtra) l op).imp (R := fun _ _ _ => True) fun _ _ _ _ => trivial
    cases op <;> exact this
  · intro l
    exact (HQueue.cost_dropQueue (Nat.le_refl _)).imp fun _ _ _ _ => trivial

/-- C57, amortised cost of queues (queue/mod.rs:84): any sequence of operations other than iterating, each applied to the version
made by the one before, starting with a new queue, touches at most eight cells and copies at most six pointers per operation. -/
theorem C57_queue_amortised (T : Type) (ops : List (Queue.Op T)) (ho : ∀ op ∈ ops, ∀ k, op ≠ .iter k) :
    (chain queueHStep HQueue.new ops).cut noExtra (8 * ops.length) (6 * ops.length) = chain queueHStep HQueue.new ops :=
  (cost_queue_chain HQueue.new ops ho (by simp [HQueue.new, HList.new]) (Nat.le_refl _)).cut

/-! ### Vectors -/

/-- C57 for `Vector` (vector/mod.rs:74-87): a constant for each level of the tree, which has the logarithm of the length to the base
`2 ^ bits` of them. -/
theorem C57_vector_cost (T : Type) (Ar : Arch) (bits : Nat) (h0 : 0 < bits) (hW : bits < Ar.W) :
    Affordable (vecImpl Ar T bits) (vecCap Ar bits, ([] : List T)) Spec.vecStep HVector.length (fun s => s.2.length) noExtra (1, 0)
      (fun v op =>
        let levels := Nat.log2 v.length / v.bits
        match op with
        | .pushBack _ => some (5 * levels + 12, 2)
        | .pushBackMut _ => some (5 * levels + 12, 1)
        | .set _ _ => some (5 * levels + 10, 1)
        | .setMut _ _ => some (5 * levels + 10, 0)
        | .dropLast => some (6 * levels + 12, 1)
        | .dropLastMut => some (6 * levels + 12, 0)
        | .getMut _ _ => some (5 * levels + 10, 0)
        | .indexMut _ _ => some (5 * levels + 10, 0)
        | .extend xs => some (xs.length * (5 * (Nat.log2 (v.length + xs.length) / v.bits) + 12), xs.length)
        | .clone => some (0, 1)
        | .get _ => some (levels + 2, 0)
        | .index _ => some (levels + 2, 0)
        | .first => some (levels + 2, 0)
        | .last => some (levels + 2, 0)
        | .len => some (0, 0)
        | .isEmpty => some (0, 0)
        | .iter _ => none)
      (fun _ => (1, 0)) := by
  refine affordable_of_refines (fun A => vecImpl_refines Ar A h0 hW) ?_ (Impl.limit_eq ?_ ?_ ?_)
  · rintro hv ⟨cap, xs⟩ ρ ⟨v, h, ⟨t, rfl, -, -⟩, h2, h3⟩
    exact h2.length
  · refine Cost.bind cost_lift ?_
    rintro _ n c ⟨h1, h2⟩
    refine Cost.bind (cost_new (by omega)) fun _ _ _ _ => trivial
  · intro v op lim e
    refine cost_vecHStep (by omega) v op lim ?_
    rw [← e]
    cases op <;> rfl
  · intro v
    exact (cost_drop (Nat.le_refl _)).imp fun _ _ _ _ => trivial

/-! ### Red-black trees -/

/-- What an operation on a red-black tree map of size `n` may cost. -/
def rbLimit {K V Q : Type} (n : Nat) : MapOp K V Q → Nat × Nat
  | .insert _ _ => (112 * Nat.log2 (n + 1) + 28, 1)
  | .insertMut _ _ => (112 * Nat.log2 (n + 1) + 28, 0)
  | .remove _ => (216 * Nat.log2 (n + 1) + 62, 2)
  | .removeMut _ => (216 * Nat.log2 (n + 1) + 61, 0)
  | .getMut _ _ => (44 * Nat.log2 (n + 1) + 11, 0)
  | .clone => (0, 1)
  | .get _ | .getKeyValue _ | .containsKey _ | .index _ => (8 * Nat.log2 (n + 1) + 2, 0)
  | .size | .isEmpty => (0, 0)

/-- C57 for `RedBlackTreeMap` (red_black_tree_map/mod.rs:81-94): logarithmic, except `size` and `clone`, which are constant. -/
theorem C57_rb_map_cost (K V Q : Type) (Ar : Arch) (o : OrdKeys K Q) (lo : o.Lawful) :
    Affordable (rbImpl Ar o) ([] : List (K × V)) (Spec.ordMapStep Ar.W o) HRBMap.size List.length noExtra (0, 0)
      (fun m op =>
        match op with
        | .base op => some (rbLimit m.size op)
        | .first | .last => some (8 * Nat.log2 (m.size + 1) + 2, 0)
        | .iter _ | .range _ _ _ => none)
      (fun _ => (1, 0)) := by
  refine affordable_of_refines (fun A => rbImpl_refines Ar lo A) ?_ (Impl.limit_eq trivial ?_ ?_)
  · rintro m l ρ ⟨m', ⟨⟨h1, h2⟩, -⟩, h3⟩
    rw [h2, h3.size]
  · intro m op lim e
    refine cost_rbHStepAll m op lim ?_
    rw [← e]
    cases op with
    | base op => cases op <;> rfl
    | _ => rfl
  · intro m
    exact (HRBMap.cost_dropMap (Nat.le_refl _)).imp fun _ _ _ _ => trivial

/-- C57 for `RedBlackTreeSet` (red_black_tree_set/mod.rs:75-88). -/
theorem C57_rb_set_cost (T Q : Type) (Ar : Arch) (o : OrdKeys T Q) (lo : o.Lawful) :
    Affordable (rbSetImpl Ar o) ([] : List T) (Spec.ordSetStep Ar.W o) HRBMap.size List.length noExtra (0, 0)
      (fun m op =>
        match op with
        | .base (.insert _) => some (112 * Nat.log2 (m.size + 1) + 28, 1)
        | .base (.insertMut _) => some (112 * Nat.log2 (m.size + 1) + 28, 0)
        | .base (.remove _) => some (216 * Nat.log2 (m.size + 1) + 62, 2)
        | .base (.removeMut _) => some (216 * Nat.log2 (m.size + 1) + 61, 0)
        | .base .clone => some (0, 1)
        | .base (.get _) | .base (.contains _) | .first | .last => some (8 * Nat.log2 (m.size + 1) + 2, 0)
        | .base .size | .base .isEmpty => some (0, 0)
        | .iter _ | .range _ _ _ => none)
      (fun _ => (1, 0)) := by
  refine affordable_of_refines (fun A => rbSetImpl_refines Ar lo A) ?_ (Impl.limit_eq trivial ?_ ?_)
  · rintro m l ρ ⟨s, ⟨m', ⟨⟨h1, h2⟩, -⟩, h3⟩, rfl⟩
    rw [h2, h3.size]
    simp [Spec.unitPairs]
  · intro m op lim e
    refine Cost.bind (cost_rbHStepAll (o := o) (Ar := Ar) m (rbSetOp op) lim ?_) fun _ _ _ _ => trivial
    rw [← e]
    cases op with
    | base op => cases op <;> rfl
    | _ => rfl
  · intro m
    exact (HRBMap.cost_dropMap (Nat.le_refl _)).imp fun _ _ _ _ => trivial

/-! ### Hash tries -/

/-- What an operation may spend in addition when it looks at a leaf with `n` colliding entries. -/
def collisionExtra {K V : Type} : HLabel K V → Nat
  | .collision _ _ n => 14 * (n + 2)
  | _ => 0

/-- C57 for `HashTrieMap` (hash_trie_map/mod.rs:93-106): constant, apart from the lengths of the lists of colliding entries. -/
theorem C57_hash_map_cost {H : Type} (K V Q : Type) (Ar : Arch) (o : HashKeys H K Q) (lo : o.Lawful) (hasher : H) (degree : Nat)
    (h2 : 2 ≤ degree) (m : HTMap H K V) (hm : HTMap.newWithDegree Ar hasher degree = .ok m) :
    Affordable (htImpl Ar o hasher degree) ([] : List (K × V)) (Spec.finMapStep o) HHTMap.size List.length collisionExtra (1, 0)
      (fun _ op =>
        match op with
        | .base (.insert _ _) => some (668, 134)
        | .base (.insertMut _ _) => some (668, 133)
        | .base (.remove _) => some (866, 2)
        | .base (.removeMut _) => some (865, 0)
        | .base (.getMut _ _) => some (341, 0)
        | .base .clone => some (0, 1)
        | .base (.get _) | .base (.getKeyValue _) | .base (.containsKey _) | .base (.index _) => some (68, 0)
        | .base .size | .base .isEmpty => some (0, 0)
        | .iter _ | .count _ => none)
      (fun _ => (1, 0)) := by
  obtain ⟨k, rfl, c, hW, rfl⟩ := conf_of_new hm h2
  have hx : (collisionExtra : HLabel K V → Nat) = hx := rfl
  refine affordable_of_refines (fun A => htImpl_refines Ar lo c hW hasher A) ?_ (Impl.limit_eq ?_ ?_ ?_)
  · rintro m l ρ ⟨m', ⟨h1, -⟩, h3⟩
    rw [h1.size, h3.size]
  · exact (HHTMap.cost_newWithDegree (Nat.le_refl _)).imp fun _ _ _ _ => trivial
  · intro m op lim e
    refine cost_htHStepAll m op lim ?_
    rw [← e]
    cases op with
    | base op => cases op <;> rfl
    | _ => rfl
  · intro m
    exact (HHTMap.cost_dropMap (Nat.le_refl _)).imp fun _ _ _ _ => trivial

/-- C57 for `HashTrieSet` (hash_trie_set/mod.rs:74-87). -/
theorem C57_hash_set_cost {H : Type} (T Q : Type) (Ar : Arch) (o : HashKeys H T Q) (lo : o.Lawful) (hasher : H) (degree : Nat)
    (h2 : 2 ≤ degree) (m : HTMap H T Unit) (hm : HTMap.newWithDegree Ar hasher degree = .ok m) :
    Affordable (htSetImpl Ar o hasher degree) ([] : List T) (Spec.finSetStep o) HHTMap.size List.length collisionExtra (1, 0)
      (fun _ op =>
        match op with
        | .base (.insert _) => some (668, 134)
        | .base (.insertMut _) => some (668, 133)
        | .base (.remove _) => some (866, 2)
        | .base (.removeMut _) => some (865, 0)
        | .base .clone => some (0, 1)
        | .base (.get _) | .base (.contains _) => some (68, 0)
        | .base .size | .base .isEmpty => some (0, 0)
        | .iter _ | .count _ => none)
      (fun _ => (1, 0)) := by
  obtain ⟨k, rfl, c, hW, rfl⟩ := conf_of_new hm h2
  have hx : (collisionExtra : HLabel T Unit → Nat) = hx := rfl
  refine affordable_of_refines (fun A => htSetImpl_refines Ar lo c hW hasher A) ?_ (Impl.limit_eq ?_ ?_ ?_)
  · rintro m l ρ ⟨s, ⟨m', ⟨h1, -⟩, h3⟩, rfl⟩
    rw [h1.size, h3.size]
    simp [Spec.unitPairs]
  · exact (HHTMap.cost_newWithDegree (Nat.le_refl _)).imp fun _ _ _ _ => trivial
  · intro m op lim e
    refine Cost.bind (cost_htHStepAll (o := o) (Ar := Ar) m (htSetOp op) lim ?_) fun _ _ _ _ => trivial
    rw [← e]
    cases op with
    | base op => cases op <;> rfl
    | _ => rfl
  · intro m
    exact (HHTMap.cost_dropMap (Nat.le_refl _)).imp fun _ _ _ _ => trivial

/-! ### Non-vacuity: the limits are limits -/

/-- Whether `op` on the first handle made by `setup` stays within `n` touches of cells and `c` copies of pointers. -/
def stays {L H Op Ret : Type} (impl : Impl L H Op Ret) (extra : L → Nat) (setup : List (Cmd Op)) (op : Op) (n c : Nat) : Option Bool :=
  match outcome (bump L) 500 (client impl [] setup) [] with
  | some ((_, some y :: _), h, _) => some (outcome (bump L) 500 ((impl.step y op).cut extra n c) h).isSome
  | _ => none

/-- A list of three elements. -/
def exList3 : List (Cmd (RList.Op Nat)) := [.new, .run 0 (.pushFrontMut 1), .run 0 (.pushFrontMut 2), .run 0 (.pushFrontMut 3)]

-- a push makes two cells and copies two pointers, however long the list is; a push that copied the list would not stay within that
example : stays (listImpl Nat) noExtra exList3 (.pushFront 7) 2 2 = some true ∧ stays (listImpl Nat) noExtra exList3 (.pushFront 7) 1 2 = some false ∧
    stays (listImpl Nat) noExtra exList3 (.pushFront 7) 2 1 = some false := by decide +kernel
-- reversing in place costs more when the nodes are shared, and stays within 5 n + 2
example : stays (listImpl Nat) noExtra exList3 .reverseMut 8 0 = some true ∧ stays (listImpl Nat) noExtra exList3 .reverseMut 7 0 = some false ∧
    stays (listImpl Nat) noExtra (exList3 ++ [.run 0 .clone]) .reverseMut 17 0 = some true ∧
    stays (listImpl Nat) noExtra (exList3 ++ [.run 0 .clone]) .reverseMut 16 0 = some false := by decide +kernel

/-- A queue of five elements, all in the in-list. -/
def exQueue5 : List (Cmd (Queue.Op Nat)) := .new :: (List.range 5).map fun i => .run 0 (.enqueueMut i)

-- the first `dequeue` is linear, the second is not; but `dequeue` on the same old version again is linear again
example : stays (queueImpl Nat) noExtra exQueue5 .dequeueMut 14 0 = some true ∧ stays (queueImpl Nat) noExtra exQueue5 .dequeueMut 13 0 = some false ∧
    stays (queueImpl Nat) noExtra (exQueue5 ++ [.run 0 .dequeueMut]) .dequeueMut 2 0 = some true ∧
    stays (queueImpl Nat) noExtra (exQueue5 ++ [.run 0 .dequeue, .run 0 .dequeue]) .dequeue 29 2 = some true ∧
    stays (queueImpl Nat) noExtra (exQueue5 ++ [.run 0 .dequeue, .run 0 .dequeue]) .dequeue 28 2 = some false := by decide +kernel
-- along a chain of versions the cost per operation is constant, and more than one
example : (outcome (bump _) 300 ((chain queueHStep HQueue.new [.enqueue 1, .enqueue 2, .dequeue, .peek, .dequeue]).cut noExtra 40 30) []).map
      (fun r => (r.1.1, r.1.2.in_list.length, r.1.2.out_list.length)) =
      some ([RList.Ret.unit, .unit, .bool true, .opt (some 2), .bool true], 0, 0) ∧
    (outcome (bump _) 300 ((chain queueHStep HQueue.new [.enqueue 1, .enqueue 2, .dequeue, .peek, .dequeue]).cut noExtra 5 30) []).isNone := by
  decide +kernel

/-- A vector of `n` elements with `bits = 1`, and a clone of it. -/
def exVecN (n : Nat) : List (Cmd (RVector.Op Nat)) := [.new, .run 0 (.extend (List.range n)), .run 0 .clone]

-- a write to a shared vector copies the path: 5 cells more for each level
example : stays (vecImpl ⟨.debug, 64⟩ Nat 1) noExtra (exVecN 2) (.setMut 0 7) 7 0 = some true ∧
    stays (vecImpl ⟨.debug, 64⟩ Nat 1) noExtra (exVecN 4) (.setMut 0 7) 12 0 = some true ∧
    stays (vecImpl ⟨.debug, 64⟩ Nat 1) noExtra (exVecN 8) (.setMut 0 7) 17 0 = some true ∧
    stays (vecImpl ⟨.debug, 64⟩ Nat 1) noExtra (exVecN 8) (.setMut 0 7) 16 0 = some false := by decide +kernel

/-- A red-black tree map of `n` entries, and a clone of it. -/
def exRBN (n : Nat) : List (Cmd (RBOp (Nat × String) Nat Nat)) :=
  .new :: ((List.range n).map fun i => .run 0 (.base (.insertMut (i, "") 1))) ++ [.run 0 (.base .clone)]

example : stays (rbImpl ⟨.debug, 64⟩ exOrd) noExtra (exRBN 2) (.base (.insertMut (100, "") 7)) 22 0 = some true ∧
    stays (rbImpl ⟨.debug, 64⟩ exOrd) noExtra (exRBN 5) (.base (.insertMut (100, "") 7)) 22 0 = some false ∧
    stays (rbImpl ⟨.debug, 64⟩ exOrd) noExtra (exRBN 10) (.base (.removeMut 0)) 59 0 = some true ∧
    stays (rbImpl ⟨.debug, 64⟩ exOrd) noExtra (exRBN 10) (.base (.removeMut 0)) 58 0 = some false := by decide +kernel

/-- A hash map of `n` entries, and a clone of it. -/
def exHTN (n : Nat) : List (Cmd (HTOp (Nat × String) Nat Nat)) :=
  .new :: ((List.range n).map fun i => .run 0 (.base (.insertMut (i, "") 1))) ++ [.run 0 (.base .clone)]

-- with a hasher that maps all keys to the same hash the cost grows with the number of entries, unless collisions are paid for separately
example : stays (htImpl ⟨.debug, 64⟩ exKeys 1 64) noExtra (exHTN 3) (.base (.insertMut (100, "") 7)) 96 0 = some true ∧
    stays (htImpl ⟨.debug, 64⟩ exKeys 1 64) noExtra (exHTN 5) (.base (.insertMut (100, "") 7)) 96 0 = some false ∧
    stays (htImpl ⟨.debug, 64⟩ exKeys 1 64) collisionExtra (exHTN 3) (.base (.insertMut (100, "") 7)) 47 0 = some true ∧
    stays (htImpl ⟨.debug, 64⟩ exKeys 1 64) collisionExtra (exHTN 5) (.base (.insertMut (100, "") 7)) 47 0 = some true ∧
    stays (htImpl ⟨.debug, 64⟩ exKeys 1 64) collisionExtra (exHTN 5) (.base (.insertMut (100, "") 7)) 46 0 = some false := by decide +kernel

end Props
end Rpds
