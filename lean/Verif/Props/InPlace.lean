import Verif.Props.HeapCost
import Verif.Heap.InPlaceTrees
import Verif.Heap.InPlaceLinear
/-
The `_mut` methods work in place (C66).

`soloClient` is the client with every operation watched (`Verif/Heap/InPlace.lean`): the watched operation panics when a uniqueness test of
`make_mut` or `try_unwrap` fails, when `make_mut` copies a cell, and when it allocates more cells than it is allowed.  The theorems say
that a client that only reads and only uses the `_mut` methods cannot tell the difference.
-/
set_option autoImplicit false
namespace Rpds
namespace Props
open Heap Heap.HT

section
variable {L H Op Ret σ : Type}

/-- For clients that only use operations for which `allow` is a number: each operation allocates at most that many cells, a new collection
at most `new`; no uniqueness test fails and no cell is copied, up to the moment when a cell with a label in `E` is written. -/
def WorksInPlace (impl : Impl L H Op Ret) (init : σ) (step : σ → Op → Res (Ret × Effect σ)) (E : L → Bool) (new : Nat)
    (allow : H → Op → Option Nat) : Prop :=
  ∀ (A : Allocator L) (cmds : List (Cmd Op)) (rs : List (Option Ret)) (ss : List (Option σ)),
    (∀ i op, .run i op ∈ cmds → ∀ h, (allow h op).isSome) → pureClient init step [] cmds = .ok (rs, ss) →
    ∃ hs m d, Runs A (client impl [] cmds) [] (rs, hs) m d ∧
      Runs A (soloClient impl E new (fun h op => (allow h op).getD 0) [] cmds) [] (rs, hs) m d

theorem worksInPlace_of_solo {impl : Impl L H Op Ret} {init : σ} {step : σ → Op → Res (Ret × Effect σ)} {E : L → Bool} {new : Nat}
    {allow : H → Op → Option Nat} {R : H → σ → List (Item L) → Prop} (hr : ∀ A, impl.Refines A init step R)
    (hn : Solo E (fun _ => True) new impl.new) (hst : ∀ h op n, allow h op = some n → Solo E (fun _ => True) n (impl.step h op))
    (hd : ∀ h, Solo E (fun _ => True) 0 (impl.drop h)) : WorksInPlace impl init step E new allow := by
  intro A cmds rs ss hall he
  refine Impl.InPlace.runs (J := Unshared E []) (ok := fun op => ∀ h, (allow h op).isSome) (hr A) ⟨?_, ?_, ?_⟩ Unshared.empty hall he
  · intro m F _ u
    exact hn.wp u
  · intro h s ρ op ok _ m F _ u
    cases e : allow h op with
    | none => simpa [e] using ok h
    | some n => exact (hst h op n e).wp u
  · intro h s ρ _ m F _ u
    exact (hd h).wp u

end

/-- No labels. -/
def noLabel {L : Type} (_ : L) : Bool := false

/-! ### Lists, stacks and queues -/

/-- C66 for `List`: `push_front_mut` allocates an element and a node; `reverse` (a persistent operation) shares elements but no nodes, so it does
not spoil this. -/
theorem C66_list_in_place (T : Type) :
    WorksInPlace (listImpl T) ([] : List T) (fun xs op => .ok (Spec.listStep xs op)) noLabel 0
      (fun l op =>
        match op with
        | .pushFront _ | .dropFirst | .clone => none
        | .pushFrontMut _ => some 2
        | .reverse => some l.length
        | _ => some 0) := by
  intro A cmds rs ss hall he
  have hall' : Cmd.All (fun op => listInPlace op = true) cmds := by
    intro i op hi
    have := hall i op hi HList.new
    cases op <;> first | rfl | cases this
  obtain ⟨hs, m, d, h1, h2⟩ := (listImpl_inPlace (T := T) A noLabel).runs listImpl_refines NodesSingle.empty hall' he
  refine ⟨hs, m, d, h1, ?_⟩
  refine Eq.mp (congrArg (fun f => Runs A (soloClient (listImpl T) noLabel 0 f [] cmds) [] (rs, hs) m d) ?_) h2
  funext l op
  cases op <;> rfl

/-- C66 for `Stack`. -/
theorem C66_stack_in_place (T : Type) :
    WorksInPlace (stackImpl T) ([] : List T) (fun xs op => .ok (Spec.stackStep xs op)) noLabel 0
      (fun _ op =>
        match op with
        | .push _ | .pop | .clone => none
        | .pushMut _ => some 2
        | _ => some 0) := by
  intro A cmds rs ss hall he
  have hall' : Cmd.All (fun op => stackInPlace op = true) cmds := by
    intro i op hi
    have := hall i op hi HList.new
    cases op <;> first | rfl | cases this
  obtain ⟨hs, m, d, h1, h2⟩ := (stackImpl_inPlace (T := T) A noLabel).runs stackImpl_refines NodesSingle.empty hall' he
  refine ⟨hs, m, d, h1, ?_⟩
  refine Eq.mp (congrArg (fun f => Runs A (soloClient (stackImpl T) noLabel 0 f [] cmds) [] (rs, hs) m d) ?_) h2
  funext l op
  cases op <;> rfl

/-- C66 for `Queue`: `dequeue_mut` allocates nothing, also when it reverses the in-list. -/
theorem C66_queue_in_place (T : Type) :
    WorksInPlace (queueImpl T) ([] : List T) (fun xs op => .ok (Spec.queueStep xs op)) noLabel 0
      (fun _ op =>
        match op with
        | .enqueue _ | .dequeue | .clone => none
        | .enqueueMut _ => some 2
        | _ => some 0) := by
  intro A cmds rs ss hall he
  have hall' : Cmd.All (fun op => queueInPlace op = true) cmds := by
    intro i op hi
    have := hall i op hi HQueue.new
    cases op <;> first | rfl | cases this
  obtain ⟨hs, m, d, h1, h2⟩ := (queueImpl_inPlace (T := T) A noLabel).runs queueImpl_refines NodesSingle.empty hall' he
  refine ⟨hs, m, d, h1, ?_⟩
  refine Eq.mp (congrArg (fun f => Runs A (soloClient (queueImpl T) noLabel 0 f [] cmds) [] (rs, hs) m d) ?_) h2
  funext l op
  cases op <;> rfl

/-! ### Vectors -/

/-- C66 for `Vector`. -/
theorem C66_vector_in_place (T : Type) (Ar : Arch) (bits : Nat) (h0 : 0 < bits) (hW : bits < Ar.W) :
    WorksInPlace (vecImpl Ar T bits) (vecCap Ar bits, ([] : List T)) Spec.vecStep noLabel 1
      (fun v op =>
        match op with
        | .pushBack _ | .set _ _ | .dropLast | .clone => none
        | .pushBackMut _ => some (Nat.log2 v.length / v.bits + 2)
        | .setMut _ _ => some (Nat.log2 v.length / v.bits + 1)
        | .extend xs => some (xs.length * (Nat.log2 (v.length + xs.length) / v.bits + 2))
        | _ => some 0) := by
  refine worksInPlace_of_solo (fun A => vecImpl_refines Ar A h0 hW) 
    (solo_lift.bind0 fun _ _ => solo_new.bind (d := 0) fun _ _ => solo_ret trivial) ?_
    (fun _ => solo_drop)
  intro v op n e
  have hs : vecInPlace op = true → Solo noLabel (fun _ => True) (vecCells v op) (vecHStep Ar v op) := solo_vecHStep (by omega)
  cases op <;> first | cases e; done | (cases e; exact hs rfl)

/-! ### Red-black trees -/

/-- C66 for `RedBlackTreeMap`: no operation allocates, except that `insert_mut` allocates two cells, an entry and a node. -/
theorem C66_rb_map_in_place (K V Q : Type) (Ar : Arch) (o : OrdKeys K Q) (lo : o.Lawful) :
    WorksInPlace (rbImpl Ar o) ([] : List (K × V)) (Spec.ordMapStep Ar.W o) noLabel 0
      (fun _ op =>
        match op with
        | .base (.insert _ _) | .base (.remove _) | .base .clone => none
        | .base (.insertMut _ _) => some 2
        | _ => some 0) := by
  refine worksInPlace_of_solo (fun A => rbImpl_refines Ar lo A) (solo_ret trivial) ?_ (fun _ => solo_dropOpt)
  intro m op n e
  have hs : rbInPlace op = true → Solo noLabel (fun _ => True) (rbCells op) (rbHStepAll Ar o m op) := solo_rbHStepAll
  cases op with
  | base op => cases op <;> first | cases e; done | (cases e; exact hs rfl)
  | _ => cases e; exact hs rfl

/-- C66 for `RedBlackTreeSet`. -/
theorem C66_rb_set_in_place (T Q : Type) (Ar : Arch) (o : OrdKeys T Q) (lo : o.Lawful) :
    WorksInPlace (rbSetImpl Ar o) ([] : List T) (Spec.ordSetStep Ar.W o) noLabel 0
      (fun _ op =>
        match op with
        | .base (.insert _) | .base (.remove _) | .base .clone => none
        | .base (.insertMut _) => some 2
        | _ => some 0) := by
  refine worksInPlace_of_solo (fun A => rbSetImpl_refines Ar lo A) (solo_ret trivial) ?_ (fun _ => solo_dropOpt)
  intro m op n e
  have hs : rbInPlace (rbSetOp op) = true → Solo noLabel (fun _ => True) (rbCells (rbSetOp op)) ((rbSetImpl Ar o).step m op) := fun ok =>
    (solo_rbHStepAll ok).bind (d := 0) fun _ _ => solo_ret trivial
  cases op with
  | base op => cases op <;> first | cases e; done | (cases e; exact hs rfl)
  | _ => cases e; exact hs rfl

/-! ### Hash tries -/

/-- C66 for `HashTrieMap`: until two entries collide, nothing but `insert_mut` allocates, and that allocates the entry, and a node for each
level of the trie at most. -/
theorem C66_hash_map_in_place {H : Type} (K V Q : Type) (Ar : Arch) (o : HashKeys H K Q) (lo : o.Lawful) (hasher : H) (degree : Nat)
    (h2 : 2 ≤ degree) (m : HTMap H K V) (hm : HTMap.newWithDegree Ar hasher degree = .ok m) :
    WorksInPlace (htImpl Ar o hasher degree) ([] : List (K × V)) (Spec.finMapStep o) colliding 1
      (fun _ op =>
        match op with
        | .base (.insert _ _) | .base (.remove _) | .base .clone => none
        | .base (.insertMut _ _) => some 67
        | _ => some 0) := by
  obtain ⟨k, rfl, c, hW, rfl⟩ := conf_of_new hm h2
  refine worksInPlace_of_solo (fun A => htImpl_refines Ar lo c hW hasher A)
    (solo_lift.bind0 fun _ _ => solo_lift.bind0 fun _ _ => solo_new.bind (d := 0) fun _ _ => solo_ret trivial) ?_ (fun _ => solo_drop)
  intro m op n e
  have hs : htInPlace op = true → Solo colliding (fun _ => True) (htCells op) (htHStepAll Ar o m op) := solo_htHStepAll
  cases op with
  | base op => cases op <;> first | cases e; done | (cases e; exact hs rfl)
  | _ => cases e; exact hs rfl

/-- C66 for `HashTrieSet`. -/
theorem C66_hash_set_in_place {H : Type} (T Q : Type) (Ar : Arch) (o : HashKeys H T Q) (lo : o.Lawful) (hasher : H) (degree : Nat)
    (h2 : 2 ≤ degree) (m : HTMap H T Unit) (hm : HTMap.newWithDegree Ar hasher degree = .ok m) :
    WorksInPlace (htSetImpl Ar o hasher degree) ([] : List T) (Spec.finSetStep o) colliding 1
      (fun _ op =>
        match op with
        | .base (.insert _) | .base (.remove _) | .base .clone => none
        | .base (.insertMut _) => some 67
        | _ => some 0) := by
  obtain ⟨k, rfl, c, hW, rfl⟩ := conf_of_new hm h2
  refine worksInPlace_of_solo (fun A => htSetImpl_refines Ar lo c hW hasher A)
    (solo_lift.bind0 fun _ _ => solo_lift.bind0 fun _ _ => solo_new.bind (d := 0) fun _ _ => solo_ret trivial) ?_ (fun _ => solo_drop)
  intro m op n e
  have hs : htInPlace (htSetOp op) = true →
      Solo colliding (fun _ => True) (htCells (htSetOp op)) ((htSetImpl Ar o hasher (2 ^ k)).step m op) := fun ok =>
    (solo_htHStepAll ok).bind (d := 0) fun _ _ => solo_ret trivial
  cases op with
  | base op => cases op <;> first | cases e; done | (cases e; exact hs rfl)
  | _ => cases e; exact hs rfl

/-! ### Examples -/

/-- The result of the watched client, if it goes through. -/
def watched {L H Op Ret : Type} (impl : Impl L H Op Ret) (E : L → Bool) (new n : Nat) (cmds : List (Cmd Op)) : Option (List (Option Ret)) :=
  (outcome (bump L) 5000 (soloClient impl E new (fun _ _ => n) [] cmds) []).map fun x => x.1.1

-- reversing and removing in place, two cells for each push; with one cell it does not go through
example : watched (listImpl Nat) noLabel 0 2 [.new, .run 0 (.pushFrontMut 1), .run 0 (.pushFrontMut 2), .run 0 .reverseMut, .run 0 .dropFirstMut,
      .run 0 .first, .discard 0] = some [none, some .unit, some .unit, some .unit, some (.bool true), some (.opt (some 2)), none] ∧
    watched (listImpl Nat) noLabel 0 1 [.new, .run 0 (.pushFrontMut 1)] = none := by decide +kernel
-- after `reverse` both lists can still be reversed in place, after `clone` they cannot
example : (watched (listImpl Nat) noLabel 0 2 [.new, .run 0 (.pushFrontMut 1), .run 0 (.pushFrontMut 2), .run 0 .reverse, .run 1 .reverseMut,
      .run 0 .reverseMut]).isSome ∧
    watched (listImpl Nat) noLabel 0 2 [.new, .run 0 (.pushFrontMut 1), .run 0 (.pushFrontMut 2), .run 0 .clone, .run 0 .reverseMut] = none := by
  decide +kernel
example : watched (queueImpl Nat) noLabel 0 2 [.new, .run 0 (.enqueueMut 1), .run 0 (.enqueueMut 2), .run 0 .dequeueMut, .run 0 .peek] =
      some [none, some .unit, some .unit, some (.bool true), some (.opt (some 2))] ∧
    watched (queueImpl Nat) noLabel 0 2 [.new, .run 0 (.enqueueMut 1), .run 0 (.enqueueMut 2), .run 0 .clone, .run 0 .dequeueMut] = none := by
  decide +kernel
-- the third push makes an element, a leaf and a new root
example : (watched (vecImpl ⟨.debug, 64⟩ Nat 1) noLabel 1 3 [.new, .run 0 (.pushBackMut 1), .run 0 (.pushBackMut 2), .run 0 (.pushBackMut 3),
      .run 0 (.setMut 0 7), .run 0 .dropLastMut, .run 0 (.get 0)]).map (·.getLast?) = some (some (some (.opt (some 7)))) ∧
    watched (vecImpl ⟨.debug, 64⟩ Nat 1) noLabel 1 2 [.new, .run 0 (.pushBackMut 1), .run 0 (.pushBackMut 2), .run 0 (.pushBackMut 3)] = none ∧
    watched (vecImpl ⟨.debug, 64⟩ Nat 1) noLabel 1 9 [.new, .run 0 (.pushBackMut 1), .run 0 .clone, .run 0 (.setMut 0 7)] = none := by
  decide +kernel
set_option synthInstance.maxSize 1000 in
example : (watched (rbImpl ⟨.debug, 64⟩ exOrd) noLabel 0 2 (.new :: ((List.range 8).map fun i => .run 0 (.base (.insertMut (i, "") i))) ++
      [.run 0 (.base (.removeMut 3)), .run 0 (.base (.get 4))])).map (·.getLast?) = some (some (some (.base (.optV (some 4))))) ∧
    watched (rbImpl ⟨.debug, 64⟩ exOrd) noLabel 0 1 [.new, .run 0 (.base (.insertMut (1, "") 1))] = none ∧
    watched (rbImpl ⟨.debug, 64⟩ exOrd) noLabel 0 9 [.new, .run 0 (.base (.insertMut (1, "") 1)), .run 0 (.base .clone),
      .run 0 (.base (.insertMut (1, "") 1))] = none := by decide +kernel

/-- Two keys whose hashes agree in the low four bits, with another key. -/
def exNear : List (Cmd (HTOp (Nat × String) Nat Nat)) :=
  [.new, .run 0 (.base (.insertMut (1, "a") 10)), .run 0 (.base (.insertMut (2, "b") 20)), .run 0 (.base (.insertMut (17, "c") 30)),
    .run 0 (.base (.removeMut 1)), .run 0 (.base (.get 17))]

set_option synthInstance.maxSize 1000 in
example : (watched (htImpl ⟨.debug, 64⟩ exKeys 100 16) colliding 1 3 exNear).map (·.getLast?) = some (some (some (.base (.optV (some 30))))) ∧
    watched (htImpl ⟨.debug, 64⟩ exKeys 100 16) colliding 1 2 exNear = none ∧
    watched (htImpl ⟨.debug, 64⟩ exKeys 100 16) colliding 1 67 (exNear ++ [.run 0 (.base .clone), .run 0 (.base (.insertMut (1, "a") 10))]) = none := by
  decide +kernel
/-- Three keys with the same hash, one of which is removed. -/
def exCollide : List (Cmd (HTOp (Nat × String) Nat Nat)) :=
  [.new, .run 0 (.base (.insertMut (1, "a") 10)), .run 0 (.base (.insertMut (11, "b") 20)), .run 0 (.base (.insertMut (21, "c") 30)),
    .run 0 (.base (.removeMut 1))]

-- the exception is needed: `remove_mut` allocates when entries collide
example : (outcome (bump _) 5000 (soloClient (htImpl ⟨.debug, 64⟩ exKeys 10 64) colliding 1 (fun _ => htCells) [] exCollide) []).isSome ∧
    (outcome (bump _) 5000 (soloClient (htImpl ⟨.debug, 64⟩ exKeys 10 64) noLabel 1 (fun _ => htCells) [] (exCollide.take 4)) []).isSome ∧
    (outcome (bump _) 5000 (soloClient (htImpl ⟨.debug, 64⟩ exKeys 10 64) noLabel 1 (fun _ => htCells) [] exCollide) []).isNone := by
  decide +kernel

end Props
end Rpds
