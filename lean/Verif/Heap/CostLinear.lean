import Verif.Heap.Cost
import Verif.Heap.Linear
/-
What the operations of `List`, `Stack` and `Queue` cost.
-/
set_option autoImplicit false
namespace Rpds
namespace Heap

namespace HList
variable {L : Type} {x : L → Nat} {n c : Nat} {l : HList}

theorem cost_readNode {p : Addr} (h1 : 1 ≤ n) : Cost x (Spends (Addr × Option Addr) n c 1 0) (readNode p) n c := by
  refine Cost.bind (cost_read h1) ?_
  rintro y n' c' ⟨h2, h3⟩
  split
  · exact Cost.ret' (by omega) (by omega)
  · exact Cost.ret' (by omega) (by omega)
  · exact Cost.panic

macro_rules | `(tactic| cost_lem) => `(tactic| ((with_reducible refine HList.cost_readNode ?_) <;> omega))

theorem cost_clone (h2 : 2 ≤ c) : Cost x (Spends HList n c 0 2) l.clone n c := by
  unfold HList.clone
  cost_go

theorem cost_clone_eq (h2 : 2 ≤ c) : Cost x (fun r n' c' => r = l ∧ n ≤ n' ∧ c ≤ c' + 2) (l.clone : Prog L HList) n c := by
  unfold HList.clone
  refine Cost.mbind (cost_cloneOpt (by omega)) ?_
  rintro _ n' c' ⟨h3, h4⟩
  refine Cost.mbind (cost_cloneOpt (by omega)) ?_
  rintro _ n2 c2 ⟨h5, h6⟩
  exact ⟨rfl, by omega, by omega⟩

theorem cost_first (h1 : 1 ≤ n) : Cost x (Spends (Option Addr) n c 1 0) l.first n c := by
  unfold HList.first
  cost_go

theorem cost_dropFirstMut (h1 : 3 ≤ n) (h2 : 1 ≤ c) : Cost x (Spends (Bool × HList) n c 3 1) l.dropFirstMut n c := by
  unfold HList.dropFirstMut
  cost_go

theorem cost_dropLoop {head : Option Addr} (fuel : Nat) (h1 : 2 * fuel ≤ n) :
    Cost x (Spends Unit n c (2 * fuel) 0) (dropLoop fuel head) n c := by
  induction fuel generalizing head n c with
  | zero =>
    cases head with
    | none => exact Cost.ret' (by omega) (by omega)
    | some p => exact Cost.panic
  | succ fuel ih =>
    cases head with
    | none => exact Cost.ret' (by omega) (by omega)
    | some p =>
      have key : ∀ (head : Option Addr) (n' c' : Nat), n ≤ n' + 2 → c ≤ c' →
          Cost x (Spends Unit n c (2 * (fuel + 1)) 0) (dropLoop fuel head) n' c' := by
        intro head n' c' h2 h3
        refine (ih (head := head) (n := n') (c := c') (by omega)).imp ?_
        rintro _ _ _ ⟨h4, h5⟩
        exact ⟨by omega, by omega⟩
      refine Cost.bind (cost_tryTake (by omega)) ?_
      rintro y n' c' ⟨h2, h3⟩
      split
      · refine Cost.bind (cost_drop (by omega)) ?_
        rintro _ n2 c2 ⟨h4, h5⟩
        exact key _ _ _ (by omega) (by omega)
      · refine Cost.bind (cost_drop (by omega)) ?_
        rintro _ n2 c2 ⟨h4, h5⟩
        exact key _ _ _ (by omega) (by omega)
      · exact Cost.panic
      · cost_go

theorem cost_dropList (h1 : 2 * l.length + 1 ≤ n) : Cost x (Spends Unit n c (2 * l.length + 1) 0) l.dropList n c := by
  refine Cost.bind (cost_dropLoop _ (by omega)) ?_
  rintro _ n' c' ⟨h2, h3⟩
  cost_go

macro_rules | `(tactic| cost_lem) => `(tactic| ((with_reducible refine HList.cost_clone ?_) <;> omega))
macro_rules | `(tactic| cost_lem) => `(tactic| ((with_reducible refine HList.cost_first ?_) <;> omega))
macro_rules | `(tactic| cost_lem) => `(tactic| ((with_reducible refine HList.cost_dropFirstMut ?_ ?_) <;> omega))

theorem cost_dropFirst (h1 : 3 ≤ n) (h2 : 3 ≤ c) : Cost x (Spends (Option HList) n c 3 3) l.dropFirst n c := by
  obtain ⟨head, last, length⟩ := l
  cases head with
  | none =>
    refine Cost.bind (Q := fun r n' c' => r.head = none ∧ n ≤ n' ∧ c ≤ c' + 2) ?_ ?_
    · unfold HList.clone
      refine Cost.bind (cost_cloneOpt (by omega)) ?_
      rintro _ n' c' ⟨h3, h4⟩
      refine Cost.bind (cost_cloneOpt (by omega)) ?_
      rintro _ n2 c2 ⟨h5, h6⟩
      exact ⟨rfl, by omega, by omega⟩
    · rintro ⟨_, last, length⟩ n' c' ⟨rfl, h3, h4⟩
      show Cost x _ (Prog.bind (dropList ⟨none, last, length⟩) _) n' c'
      refine Cost.bind (Q := Spends Unit n' c' 1 0) ?_ ?_
      · have : (dropList ⟨none, last, length⟩ : Prog L Unit) = dropOpt last := by
          cases length <;> rfl
        rw [this]
        exact cost_dropOpt (by omega)
      · rintro _ n2 c2 ⟨h5, h6⟩
        exact Cost.ret' (by omega) (by omega)
  | some p =>
    refine Cost.bind (Q := fun r n' c' => r.head = some p ∧ n ≤ n' ∧ c ≤ c' + 2) ?_ ?_
    · unfold HList.clone
      refine Cost.bind (cost_cloneOpt (by omega)) ?_
      rintro _ n' c' ⟨h3, h4⟩
      refine Cost.bind (cost_cloneOpt (by omega)) ?_
      rintro _ n2 c2 ⟨h5, h6⟩
      exact ⟨rfl, by omega, by omega⟩
    · rintro ⟨_, last, length⟩ n' c' ⟨rfl, h3, h4⟩
      refine Cost.bind (Q := fun r n2 c2 => r.1 = true ∧ n' ≤ n2 + 3 ∧ c' ≤ c2 + 1) ?_ ?_
      · unfold HList.dropFirstMut
        refine Cost.bind (cost_readNode (by omega)) ?_
        rintro y n2 c2 ⟨h5, h6⟩
        refine Cost.bind (cost_cloneOpt (by omega)) ?_
        rintro _ n3 c3 ⟨h7, h8⟩
        split
        · exact Cost.panic
        · refine Cost.bind (Q := Spends _ n3 c3 1 0) ?_ ?_
          · cost_go
          · rintro _ n4 c4 ⟨h9, h10⟩
            refine Cost.bind (cost_drop (by omega)) ?_
            rintro _ n5 c5 ⟨h11, h12⟩
            exact ⟨rfl, by omega, by omega⟩
      · rintro ⟨b, l⟩ n2 c2 ⟨rfl, h5, h6⟩
        exact Cost.ret' (by omega) (by omega)

theorem cost_pushFrontPtrMut {nd : L} {v : Addr} (h1 : 2 ≤ n) (h2 : 1 ≤ c) :
    Cost x (Spends HList n c 2 1) (l.pushFrontPtrMut nd v) n c := by
  unfold HList.pushFrontPtrMut
  cost_go

macro_rules | `(tactic| cost_lem) => `(tactic| ((with_reducible refine HList.cost_dropFirst ?_ ?_) <;> omega))
macro_rules | `(tactic| cost_lem) => `(tactic| ((with_reducible refine HList.cost_pushFrontPtrMut ?_ ?_) <;> omega))

theorem cost_pushFrontMut {nd lv : L} (h1 : 3 ≤ n) (h2 : 1 ≤ c) : Cost x (Spends HList n c 3 1) (l.pushFrontMut nd lv) n c := by
  unfold HList.pushFrontMut
  cost_go

macro_rules | `(tactic| cost_lem) => `(tactic| ((with_reducible refine HList.cost_pushFrontMut ?_ ?_) <;> omega))

theorem cost_pushFront {nd lv : L} (h1 : 3 ≤ n) (h2 : 3 ≤ c) : Cost x (Spends HList n c 3 3) (l.pushFront nd lv) n c := by
  unfold HList.pushFront
  cost_go

theorem cost_reverseLoop {nd : L} {next : Option Addr} (fuel : Nat) (h1 : 3 * fuel ≤ n) (h2 : 2 * fuel ≤ c) :
    Cost x (Spends HList n c (3 * fuel) (2 * fuel)) (reverseLoop nd fuel next l) n c := by
  induction fuel generalizing next l n c with
  | zero =>
    cases next with
    | none => exact Cost.ret' (by omega) (by omega)
    | some p => exact Cost.panic
  | succ fuel ih =>
    cases next with
    | none => exact Cost.ret' (by omega) (by omega)
    | some p =>
      refine Cost.bind (cost_readNode (by omega)) ?_
      rintro y n' c' ⟨h3, h4⟩
      refine Cost.bind (Heap.cost_clone (by omega)) ?_
      rintro _ n2 c2 ⟨h5, h6⟩
      refine Cost.bind (cost_pushFrontPtrMut (by omega) (by omega)) ?_
      rintro l' n3 c3 ⟨h7, h8⟩
      refine (ih (next := y.2) (l := l') (n := n3) (c := c3) (by omega) (by omega)).imp ?_
      rintro _ _ _ ⟨h9, h10⟩
      exact ⟨by omega, by omega⟩

theorem cost_reverse {nd : L} (h1 : 3 * l.length ≤ n) (h2 : 2 * l.length ≤ c) :
    Cost x (Spends HList n c (3 * l.length) (2 * l.length)) (l.reverse nd) n c := cost_reverseLoop _ h1 h2

theorem cost_reverseMutLoop {prev current : Option Addr} (fuel : Nat) (h1 : 5 * fuel ≤ n) :
    Cost x (Spends (Option Addr) n c (5 * fuel) 0) (reverseMutLoop fuel prev current) n c := by
  induction fuel generalizing prev current n c with
  | zero =>
    cases current with
    | none => exact Cost.ret' (by omega) (by omega)
    | some p => exact Cost.panic
  | succ fuel ih =>
    cases current with
    | none => exact Cost.ret' (by omega) (by omega)
    | some p =>
      refine Cost.bind (cost_makeMut (by omega)) ?_
      rintro y n' c' ⟨h3, h4⟩
      have key : ∀ (prev next : Option Addr) (n2 c2 : Nat), n' ≤ n2 + 1 → c' ≤ c2 →
          Cost x (Spends (Option Addr) n c (5 * (fuel + 1)) 0) (reverseMutLoop fuel prev next) n2 c2 := by
        intro prev next n2 c2 h5 h6
        refine (ih (prev := prev) (current := next) (n := n2) (c := c2) (by omega)).imp ?_
        rintro _ _ _ ⟨h7, h8⟩
        exact ⟨by omega, by omega⟩
      split
      · refine Cost.bind (cost_close (by omega)) ?_
        rintro _ n2 c2 ⟨h5, h6⟩
        exact key _ _ _ _ (by omega) (by omega)
      · refine Cost.bind (cost_close (by omega)) ?_
        rintro _ n2 c2 ⟨h5, h6⟩
        exact key _ _ _ _ (by omega) (by omega)
      · exact Cost.panic

theorem cost_reverseMut (h1 : 5 * l.length + 2 ≤ n) (h2 : 1 ≤ c) :
    Cost x (Spends HList n c (5 * l.length + 2) 1) l.reverseMut n c := by
  refine Cost.bind (Q := Spends _ n c 1 1) (by cost_go) ?_
  rintro last n' c' ⟨h3, h4⟩
  refine Cost.bind (cost_dropOpt (by omega)) ?_
  rintro _ n2 c2 ⟨h5, h6⟩
  refine Cost.bind (cost_reverseMutLoop _ (by omega)) ?_
  rintro _ n3 c3 ⟨h7, h8⟩
  exact Cost.ret' (by omega) (by omega)

macro_rules | `(tactic| cost_lem) => `(tactic| ((with_reducible refine HList.cost_pushFront ?_ ?_) <;> omega))
macro_rules | `(tactic| cost_lem) => `(tactic| ((with_reducible refine HList.cost_reverse ?_ ?_) <;> omega))
macro_rules | `(tactic| cost_lem) => `(tactic| ((with_reducible refine HList.cost_reverseMut ?_ ?_) <;> omega))

end HList

section
variable {T : Type} {x : LinLabel T → Nat} {n c : Nat}

theorem cost_readVal {p : Addr} (h1 : 1 ≤ n) : Cost x (Spends T n c 1 0) (readVal p) n c := by
  refine Cost.bind (cost_read h1) ?_
  rintro y n' c' ⟨h2, h3⟩
  split
  · exact Cost.ret' (by omega) (by omega)
  · exact Cost.panic

theorem cost_readValOpt {p : Option Addr} (h1 : 1 ≤ n) : Cost x (Spends (Option T) n c 1 0) (readValOpt p) n c := by
  cases p with
  | none => exact Cost.ret' (by omega) (by omega)
  | some p =>
    refine Cost.bind (cost_readVal h1) ?_
    rintro y n' c' ⟨h2, h3⟩
    exact Cost.ret' (by omega) (by omega)

theorem cost_viewLink {p : Option Addr} (fuel : Nat) (h1 : 2 * fuel ≤ n) :
    Cost x (Spends (Link T) n c (2 * fuel) 0) (viewLink fuel p) n c := by
  induction fuel generalizing p n c with
  | zero =>
    cases p with
    | none => exact Cost.ret' (by omega) (by omega)
    | some p => exact Cost.panic
  | succ fuel ih =>
    cases p with
    | none => exact Cost.ret' (by omega) (by omega)
    | some p =>
      refine Cost.bind (HList.cost_readNode (by omega)) ?_
      rintro y n' c' ⟨h3, h4⟩
      refine Cost.bind (cost_readVal (by omega)) ?_
      rintro _ n2 c2 ⟨h5, h6⟩
      refine Cost.bind (ih (p := y.2) (by omega)) ?_
      rintro _ n3 c3 ⟨h7, h8⟩
      exact Cost.ret' (by omega) (by omega)

macro_rules | `(tactic| cost_lem) => `(tactic| ((with_reducible refine cost_readVal ?_) <;> omega))
macro_rules | `(tactic| cost_lem) => `(tactic| ((with_reducible refine cost_readValOpt ?_) <;> omega))
macro_rules | `(tactic| cost_lem) => `(tactic| ((with_reducible refine cost_viewLink _ ?_) <;> omega))

/-! ### List and stack -/

/-- The limits for the operations of `List`: cells touched and pointers cloned. -/
def listCost (l : HList) : RList.Op T → Nat × Nat
  | .pushFront _ => (3, 3)
  | .pushFrontMut _ => (3, 1)
  | .dropFirst => (3, 3)
  | .dropFirstMut => (3, 1)
  | .reverse => (3 * l.length, 2 * l.length)
  | .reverseMut => (5 * l.length + 2, 1)
  | .clone => (0, 2)
  | .first => (2, 0)
  | .last => (1, 0)
  | .len => (0, 0)
  | .isEmpty => (0, 0)
  | .iter _ => (2 * l.length, 0)

theorem cost_listHStep (l : HList) (op : RList.Op T) :
    Cost x (Spends _ (listCost l op).1 (listCost l op).2 (listCost l op).1 (listCost l op).2) (listHStep l op)
      (listCost l op).1 (listCost l op).2 := by
  cases op <;> simp only [listCost, listHStep]
  case iter k =>
    unfold listIter
    cost_go
  all_goals cost_go

/-- The limits for the operations of `Stack`. -/
def stackCost (s : HList) : Stack.Op T → Nat × Nat
  | .push _ => (3, 3)
  | .pushMut _ => (3, 1)
  | .pop => (3, 3)
  | .popMut => (3, 1)
  | .clone => (0, 2)
  | .peek => (2, 0)
  | .size => (0, 0)
  | .isEmpty => (0, 0)
  | .iter _ => (2 * s.length, 0)

theorem cost_stackHStep (s : HList) (op : Stack.Op T) :
    Cost x (Spends _ (stackCost s op).1 (stackCost s op).2 (stackCost s op).1 (stackCost s op).2) (stackHStep s op)
      (stackCost s op).1 (stackCost s op).2 := by
  cases op with
  | push v => exact cost_listHStep s (.pushFront v)
  | pushMut v => exact cost_listHStep s (.pushFrontMut v)
  | pop => exact cost_listHStep s .dropFirst
  | popMut => exact cost_listHStep s .dropFirstMut
  | clone => exact cost_listHStep s .clone
  | peek => exact cost_listHStep s .first
  | size => exact cost_listHStep s .len
  | isEmpty => exact cost_listHStep s .isEmpty
  | iter k => exact cost_listHStep s (.iter k)

/-! ### Queue -/

namespace HQueue
variable {q : HQueue}

theorem cost_clone (h2 : 4 ≤ c) : Cost x (fun r n' c' => r = q ∧ n ≤ n' ∧ c ≤ c' + 4) (q.clone : Prog (LinLabel T) HQueue) n c := by
  refine Cost.bind (HList.cost_clone_eq (by omega)) ?_
  rintro _ n' c' ⟨rfl, h3, h4⟩
  refine Cost.bind (HList.cost_clone_eq (by omega)) ?_
  rintro _ n2 c2 ⟨rfl, h5, h6⟩
  exact ⟨rfl, by omega, by omega⟩

/-- `dequeue` and `dequeue_mut` reverse the in-list when the out-list is empty. -/
def turnCost (q : HQueue) : Nat := if q.out_list.length = 0 then 5 * q.in_list.length else 0

theorem cost_dequeueMut (h1 : turnCost q + 5 ≤ n) (h2 : 2 ≤ c) :
    Cost x (fun r n' c' => (r.1 = false → r.2.out_list.length = 0 ∧ r.2.in_list.length = 0 ∧ n ≤ n' ∧ c ≤ c') ∧
      n ≤ n' + (turnCost q + 5) ∧ c ≤ c' + 2) (q.dequeueMut : Prog (LinLabel T) _) n c := by
  unfold dequeueMut
  by_cases h : q.out_list.length = 0
  · have ht : turnCost q = 5 * q.in_list.length := if_pos h
    rw [if_neg (by simp [h])]
    by_cases h' : q.in_list.length = 0
    · rw [if_neg (by simp [h'])]
      exact ⟨fun _ => ⟨h, h', by omega, by omega⟩, by omega, by omega⟩
    · rw [if_pos (by simp [h'])]
      refine Cost.mbind (HList.cost_reverseMut (by omega) (by omega)) ?_
      rintro l n' c' ⟨h3, h4⟩
      refine Cost.mbind (HList.cost_dropFirstMut (by omega) (by omega)) ?_
      rintro ⟨b, l⟩ n2 c2 ⟨h5, h6⟩
      exact ⟨nofun, by omega, by omega⟩
  · have ht : turnCost q = 0 := if_neg h
    rw [if_pos (by simp [h])]
    refine Cost.mbind (HList.cost_dropFirstMut (by omega) (by omega)) ?_
    rintro ⟨b, l⟩ n' c' ⟨h3, h4⟩
    exact ⟨nofun, by omega, by omega⟩

theorem cost_dropQueue (h1 : 2 * (q.in_list.length + q.out_list.length) + 2 ≤ n) :
    Cost x (Spends Unit n c (2 * (q.in_list.length + q.out_list.length) + 2) 0) (q.dropQueue : Prog (LinLabel T) Unit) n c := by
  refine Cost.mbind (HList.cost_dropList (by omega)) ?_
  rintro _ n' c' ⟨h3, h4⟩
  refine (HList.cost_dropList (by omega)).imp ?_
  rintro _ n2 c2 ⟨h5, h6⟩
  exact ⟨by omega, by omega⟩

theorem cost_dequeue (h1 : turnCost q + 5 ≤ n) (h2 : 6 ≤ c) :
    Cost x (Spends _ n c (turnCost q + 5) 6) (q.dequeue : Prog (LinLabel T) (Option HQueue)) n c := by
  refine Cost.mbind (cost_clone (by omega)) ?_
  rintro _ n' c' ⟨rfl, h3, h4⟩
  refine Cost.mbind (cost_dequeueMut (by omega) (by omega)) ?_
  rintro ⟨b, q'⟩ n2 c2 ⟨h5, h6, h7⟩
  cases b with
  | true => exact Cost.ret' (by omega) (by omega)
  | false =>
    obtain ⟨e1, e2, e3, e4⟩ := h5 rfl
    simp only at e1 e2
    refine Cost.mbind (cost_dropQueue (by omega)) ?_
    rintro _ n3 c3 ⟨h8, h9⟩
    exact Cost.ret' (by omega) (by omega)

end HQueue

/-- The limits for the operations of `Queue`. -/
def queueCost (q : HQueue) : Queue.Op T → Nat × Nat
  | .enqueue _ => (3, 5)
  | .enqueueMut _ => (3, 1)
  | .dequeue => (q.turnCost + 5, 6)
  | .dequeueMut => (q.turnCost + 5, 2)
  | .clone => (0, 4)
  | .peek => (2, 0)
  | .len => (0, 0)
  | .isEmpty => (0, 0)
  | .iter _ => (2 * (q.in_list.length + q.out_list.length), 0)

theorem cost_queueHStep (q : HQueue) (op : Queue.Op T) :
    Cost x (Spends _ (queueCost q op).1 (queueCost q op).2 (queueCost q op).1 (queueCost q op).2) (queueHStep q op)
      (queueCost q op).1 (queueCost q op).2 := by
  cases op <;> simp only [queueCost, queueHStep]
  case enqueue v =>
    unfold HQueue.enqueue HQueue.enqueueMut
    refine Cost.massoc (Cost.mbind (HQueue.cost_clone (by omega)) ?_)
    rintro _ n' c' ⟨rfl, h3, h4⟩
    cost_go
  case enqueueMut v =>
    unfold HQueue.enqueueMut
    cost_go
  case dequeue =>
    refine Cost.mbind (HQueue.cost_dequeue (by omega) (by omega)) ?_
    rintro _ n' c' ⟨h3, h4⟩
    cost_go
  case dequeueMut =>
    refine Cost.mbind (HQueue.cost_dequeueMut (by omega) (by omega)) ?_
    rintro _ n' c' ⟨-, h3, h4⟩
    cost_go
  case clone =>
    refine Cost.mbind (HQueue.cost_clone (by omega)) ?_
    rintro _ n' c' ⟨-, h3, h4⟩
    cost_go
  case iter k =>
    unfold HQueue.iter
    cost_go
  case peek =>
    unfold HQueue.peek
    cost_go
  all_goals cost_go

/-! ### Queues, amortised -/

namespace HList
variable {l : HList}

theorem cost_pushFrontMut_length {lv : LinLabel T} (h1 : 3 ≤ n) (h2 : 1 ≤ c) :
    Cost x (fun r n' c' => r.length = l.length + 1 ∧ n ≤ n' + 3 ∧ c ≤ c' + 1) (l.pushFrontMut .node lv) n c := by
  refine Cost.mbind (cost_new (by omega)) ?_
  rintro v n' c' ⟨h3, h4⟩
  unfold pushFrontPtrMut
  refine Cost.mbind (Q := Spends _ n' c' 1 1) (by cost_go) ?_
  rintro last n2 c2 ⟨h5, h6⟩
  refine Cost.mbind (cost_new (by omega)) ?_
  rintro p n3 c3 ⟨h7, h8⟩
  exact ⟨rfl, by omega, by omega⟩

end HList

/-- The version to go on with after an operation. -/
def next {H : Type} (h : H) : Effect H → H
  | .keep => h
  | .fresh h' => h'
  | .update h' => h'

/-- Applies operations one after the other, each to the version the one before made. -/
def chain {L H Op Ret : Type} (step : H → Op → Prog L (Ret × Effect H)) : H → List Op → Prog L (List Ret × H)
  | h, [] => .ret ([], h)
  | h, op :: ops =>
    Prog.bind (step h op) fun y =>
    Prog.bind (chain step (next h y.2) ops) fun z => .ret (y.1 :: z.1, z.2)

/-- What is left after an operation other than `iter`, if elements of the in-list count five times. -/
theorem cost_queueHStep_amortised (q : HQueue) (op : Queue.Op T) (ho : ∀ k, op ≠ .iter k) (h1 : 5 * q.in_list.length + 8 ≤ n) (h2 : 6 ≤ c) :
    Cost x (fun r n' c' => n + 5 * (next q r.2).in_list.length ≤
      n' + 5 * q.in_list.length + 8 ∧ c ≤ c' + 6) (queueHStep q op) n c := by
  have ht : q.turnCost ≤ 5 * q.in_list.length := by unfold HQueue.turnCost; split <;> omega
  have hd : ∀ (q : HQueue) (n c : Nat), 5 * q.in_list.length + 8 ≤ n → 2 ≤ c →
      Cost x (fun r n' c' => (r.1 = false → r.2.out_list.length = 0 ∧ r.2.in_list.length = 0 ∧ n ≤ n') ∧
        n + 5 * r.2.in_list.length ≤ n' + 5 * q.in_list.length + 5 ∧ c ≤ c' + 2) (q.dequeueMut : Prog (LinLabel T) _) n c := by
    intro q n c h1 h2
    unfold HQueue.dequeueMut
    by_cases h : q.out_list.length = 0
    · rw [if_neg (by simp [h])]
      by_cases h' : q.in_list.length = 0
      · rw [if_neg (by simp [h'])]
        exact ⟨fun _ => ⟨h, h', by omega⟩, by simp only; omega, by omega⟩
      · rw [if_pos (by simp [h'])]
        refine Cost.mbind (HList.cost_reverseMut (by omega) (by omega)) ?_
        rintro l n' c' ⟨h3, h4⟩
        refine Cost.mbind (HList.cost_dropFirstMut (by omega) (by omega)) ?_
        rintro ⟨b, l⟩ n2 c2 ⟨h5, h6⟩
        exact ⟨nofun, by simp only [h]; omega, by omega⟩
    · rw [if_pos (by simp [h])]
      refine Cost.mbind (HList.cost_dropFirstMut (by omega) (by omega)) ?_
      rintro ⟨b, l⟩ n' c' ⟨h3, h4⟩
      exact ⟨nofun, by simp only; omega, by omega⟩
  cases op <;> simp only [queueHStep]
  case enqueue v =>
    unfold HQueue.enqueue HQueue.enqueueMut
    refine Cost.massoc (Cost.mbind (HQueue.cost_clone (by omega)) ?_)
    rintro _ n' c' ⟨rfl, h3, h4⟩
    refine Cost.massoc (Cost.mbind (HList.cost_pushFrontMut_length (by omega) (by omega)) ?_)
    rintro l n2 c2 ⟨h5, h6, h7⟩
    exact ⟨by simp only [next, h5]; omega, by omega⟩
  case enqueueMut v =>
    unfold HQueue.enqueueMut
    refine Cost.massoc (Cost.mbind (HList.cost_pushFrontMut_length (by omega) (by omega)) ?_)
    rintro l n2 c2 ⟨h5, h6, h7⟩
    exact ⟨by simp only [next, h5]; omega, by omega⟩
  case dequeue =>
    refine Cost.massoc (Cost.mbind (HQueue.cost_clone (by omega)) ?_)
    rintro _ n' c' ⟨rfl, h3, h4⟩
    refine Cost.massoc (Cost.mbind (hd _ _ _ (by omega) (by omega)) ?_)
    rintro ⟨b, q'⟩ n2 c2 ⟨h5, h6, h7⟩
    cases b with
    | true => exact ⟨by simp only [next] at h6 ⊢; omega, by omega⟩
    | false =>
      obtain ⟨e1, e2, e3⟩ := h5 rfl
      simp only at e1 e2 h6
      refine Cost.massoc (Cost.mbind (HQueue.cost_dropQueue (by omega)) ?_)
      rintro _ n3 c3 ⟨h8, h9⟩
      exact ⟨by simp only [next]; omega, by omega⟩
  case dequeueMut =>
    refine Cost.mbind (hd _ _ _ (by omega) (by omega)) ?_
    rintro ⟨b, q'⟩ n2 c2 ⟨-, h6, h7⟩
    exact ⟨by simp only [next] at h6 ⊢; omega, by omega⟩
  case clone =>
    refine Cost.mbind (HQueue.cost_clone (by omega)) ?_
    rintro _ n' c' ⟨rfl, h3, h4⟩
    exact ⟨by simp only [next]; omega, by omega⟩
  case peek =>
    refine Cost.mbind (Q := Spends _ n c 1 0) (by unfold HQueue.peek; cost_go) ?_
    rintro p n' c' ⟨h3, h4⟩
    refine Cost.mbind (cost_readValOpt (by omega)) ?_
    rintro v n2 c2 ⟨h5, h6⟩
    exact ⟨by simp only [next]; omega, by omega⟩
  case len => exact ⟨by simp only [next]; omega, by omega⟩
  case isEmpty => exact ⟨by simp only [next]; omega, by omega⟩
  case iter k => exact absurd rfl (ho k)

theorem cost_queue_chain (q : HQueue) (ops : List (Queue.Op T)) (ho : ∀ op ∈ ops, ∀ k, op ≠ .iter k)
    (h1 : 5 * q.in_list.length + 8 * ops.length ≤ n) (h2 : 6 * ops.length ≤ c) :
    Cost x (fun _ _ _ => True) (chain queueHStep q ops) n c := by
  induction ops generalizing q n c with
  | nil => trivial
  | cons op ops ih =>
    simp only [List.length_cons] at h1 h2
    refine Cost.bind (cost_queueHStep_amortised q op (ho op (by simp)) (by omega) (by omega)) ?_
    rintro y n' c' ⟨h3, h4⟩
    refine Cost.bind (ih _ (fun op h => ho op (by simp [h])) (by omega) (by omega)) ?_
    intros; trivial

end

end Heap
end Rpds
