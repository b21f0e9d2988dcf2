import Verif.Heap.Space
/-
What the operations of `List`, `Stack` and `Queue` allocate.
-/
set_option autoImplicit false
namespace Rpds
namespace Heap

namespace HList
variable {L : Type} {n : Nat} {l : HList}

theorem allocs_readNode {p : Addr} : Allocs (Uses (Addr × Option Addr) n 0) (readNode p : Prog L _) n := by
  refine Allocs.bind allocs_read ?_
  rintro y n' h
  simp only [Uses] at h
  split
  · exact Allocs.ret' (by omega)
  · exact Allocs.ret' (by omega)
  · exact Allocs.panic

macro_rules | `(tactic| alloc_lem) => `(tactic| ((with_reducible refine HList.allocs_readNode)))

theorem allocs_clone : Allocs (fun r n' => r = l ∧ n ≤ n') (l.clone : Prog L HList) n := by
  unfold HList.clone
  refine Allocs.mbind allocs_cloneOpt ?_
  rintro _ n' h3
  refine Allocs.mbind allocs_cloneOpt ?_
  rintro _ n2 h5
  simp only [Uses] at *
  exact ⟨rfl, by omega⟩

theorem allocs_first : Allocs (Uses (Option Addr) n 0) (l.first : Prog L _) n := by
  unfold HList.first
  alloc_go

theorem allocs_dropFirstMut : Allocs (Uses (Bool × HList) n 0) (l.dropFirstMut : Prog L _) n := by
  unfold HList.dropFirstMut
  alloc_go

theorem allocs_dropLoop {head : Option Addr} (fuel : Nat) : Allocs (Uses Unit n 0) (dropLoop fuel head : Prog L _) n := by
  induction fuel generalizing head n with
  | zero =>
    cases head with
    | none => exact Nat.le_refl _
    | some p => exact Allocs.panic
  | succ fuel ih =>
    cases head with
    | none => exact Nat.le_refl _
    | some p =>
      refine Allocs.bind allocs_tryTake ?_
      rintro y n' h2
      split
      · refine Allocs.bind allocs_drop ?_
        rintro _ n2 h3
        exact ih.imp fun _ _ h4 => by simp only [Uses] at *; omega
      · refine Allocs.bind allocs_drop ?_
        rintro _ n2 h3
        exact ih.imp fun _ _ h4 => by simp only [Uses] at *; omega
      · exact Allocs.panic
      · alloc_go

theorem allocs_dropList : Allocs (Uses Unit n 0) (l.dropList : Prog L _) n := by
  refine Allocs.bind (allocs_dropLoop _) ?_
  rintro _ n' h2
  alloc_go

macro_rules | `(tactic| alloc_lem) => `(tactic| ((with_reducible refine HList.allocs_first)))
macro_rules | `(tactic| alloc_lem) => `(tactic| ((with_reducible refine HList.allocs_dropFirstMut)))
macro_rules | `(tactic| alloc_lem) => `(tactic| ((with_reducible refine HList.allocs_dropList)))

theorem allocs_dropFirst : Allocs (Uses (Option HList) n 0) (l.dropFirst : Prog L _) n := by
  unfold HList.dropFirst
  refine Allocs.mbind allocs_clone ?_
  rintro _ n1 ⟨rfl, h1⟩
  alloc_go

theorem allocs_pushFrontPtrMut {nd : L} {v : Addr} (h1 : 1 ≤ n) : Allocs (Uses HList n 1) (l.pushFrontPtrMut nd v) n := by
  unfold HList.pushFrontPtrMut
  alloc_go

macro_rules | `(tactic| alloc_lem) => `(tactic| ((with_reducible refine HList.allocs_dropFirst)))
macro_rules | `(tactic| alloc_lem) => `(tactic| ((with_reducible refine HList.allocs_pushFrontPtrMut ?_) <;> ((try simp only [Uses] at *) <;> omega)))

theorem allocs_pushFrontMut {nd lv : L} (h1 : 2 ≤ n) : Allocs (Uses HList n 2) (l.pushFrontMut nd lv) n := by
  unfold HList.pushFrontMut
  alloc_go

macro_rules | `(tactic| alloc_lem) => `(tactic| ((with_reducible refine HList.allocs_pushFrontMut ?_) <;> ((try simp only [Uses] at *) <;> omega)))

theorem allocs_pushFront {nd lv : L} (h1 : 2 ≤ n) : Allocs (Uses HList n 2) (l.pushFront nd lv) n := by
  unfold HList.pushFront
  refine Allocs.mbind allocs_clone ?_
  rintro _ n1 ⟨rfl, h1⟩
  alloc_go

theorem allocs_reverseLoop {nd : L} {next : Option Addr} (fuel : Nat) (h1 : fuel ≤ n) :
    Allocs (Uses HList n fuel) (reverseLoop nd fuel next l) n := by
  induction fuel generalizing next l n with
  | zero =>
    cases next with
    | none => exact Nat.le_refl _
    | some p => exact Allocs.panic
  | succ fuel ih =>
    cases next with
    | none => exact Allocs.ret' (by omega)
    | some p =>
      refine Allocs.bind allocs_readNode ?_
      rintro y n' h3
      refine Allocs.bind Heap.allocs_clone ?_
      rintro _ n2 h5
      simp only [Uses] at h3 h5
      refine Allocs.bind (allocs_pushFrontPtrMut (by omega)) ?_
      rintro l' n3 h7
      simp only [Uses] at h7
      exact (ih (next := y.2) (l := l') (n := n3) (by omega)).imp fun _ _ h => by simp only [Uses] at *; omega

theorem allocs_reverseMutLoop {prev current : Option Addr} (fuel : Nat) (h1 : fuel ≤ n) :
    Allocs (Uses (Option Addr) n fuel) (reverseMutLoop fuel prev current : Prog L _) n := by
  induction fuel generalizing prev current n with
  | zero =>
    cases current with
    | none => exact Nat.le_refl _
    | some p => exact Allocs.panic
  | succ fuel ih =>
    cases current with
    | none => exact Allocs.ret' (by omega)
    | some p =>
      refine Allocs.bind (allocs_makeMut (by omega)) ?_
      rintro y n' h3
      simp only [Uses] at h3
      split
      · refine Allocs.bind allocs_close ?_
        rintro _ n2 h5
        simp only [Uses] at h5
        exact (ih (n := n2) (by omega)).imp fun _ _ h => by simp only [Uses] at *; omega
      · refine Allocs.bind allocs_close ?_
        rintro _ n2 h5
        simp only [Uses] at h5
        exact (ih (n := n2) (by omega)).imp fun _ _ h => by simp only [Uses] at *; omega
      · exact Allocs.panic

theorem allocs_reverseMut (h1 : l.length ≤ n) : Allocs (Uses HList n l.length) (l.reverseMut : Prog L _) n := by
  refine Allocs.bind (Q := Uses _ n 0) (by alloc_go) ?_
  rintro last n' h3
  refine Allocs.bind allocs_dropOpt ?_
  rintro _ n2 h5
  simp only [Uses] at h3 h5
  refine Allocs.bind (allocs_reverseMutLoop _ (by omega)) ?_
  rintro _ n3 h7
  simp only [Uses] at h7
  exact Allocs.ret' (by omega)

macro_rules | `(tactic| alloc_lem) => `(tactic| ((with_reducible refine HList.allocs_pushFront ?_) <;> ((try simp only [Uses] at *) <;> omega)))

end HList

section
variable {T : Type} {n : Nat}

theorem allocs_readVal {p : Addr} : Allocs (Uses T n 0) (readVal p) n := by
  refine Allocs.bind allocs_read ?_
  rintro y n' h2
  simp only [Uses] at h2
  split
  · exact Allocs.ret' (by omega)
  · exact Allocs.panic

macro_rules | `(tactic| alloc_lem) => `(tactic| ((with_reducible refine allocs_readVal)))

theorem allocs_readValOpt {p : Option Addr} : Allocs (Uses (Option T) n 0) (readValOpt p) n := by
  cases p with
  | none => exact Nat.le_refl _
  | some p => unfold readValOpt; alloc_go

theorem allocs_viewLink {p : Option Addr} (fuel : Nat) : Allocs (Uses (Link T) n 0) (viewLink fuel p) n := by
  induction fuel generalizing p n with
  | zero =>
    cases p with
    | none => exact Nat.le_refl _
    | some p => exact Allocs.panic
  | succ fuel ih =>
    cases p with
    | none => exact Nat.le_refl _
    | some p =>
      refine Allocs.bind HList.allocs_readNode ?_
      rintro y n' h3
      refine Allocs.bind allocs_readVal ?_
      rintro _ n2 h5
      refine Allocs.bind (ih (p := y.2)) ?_
      rintro _ n3 h7
      simp only [Uses] at *
      exact Allocs.ret' (by omega)

macro_rules | `(tactic| alloc_lem) => `(tactic| ((with_reducible refine allocs_readValOpt)))
macro_rules | `(tactic| alloc_lem) => `(tactic| ((with_reducible refine allocs_viewLink _)))

/-- What an operation of `List` allocates. -/
def listAllocs (length : Nat) : RList.Op T → Nat
  | .pushFront _ | .pushFrontMut _ => 2
  | .reverse | .reverseMut => length
  | _ => 0

theorem allocs_listHStep (l : HList) (op : RList.Op T) : Allocs (Uses _ (listAllocs l.length op) (listAllocs l.length op)) (listHStep l op)
    (listAllocs l.length op) := by
  cases op <;> simp only [listAllocs, listHStep]
  case reverse =>
    refine Allocs.mbind (HList.allocs_reverseLoop _ (Nat.le_refl _)) ?_
    rintro _ n h
    alloc_go
  case reverseMut =>
    refine Allocs.mbind (HList.allocs_reverseMut (Nat.le_refl _)) ?_
    rintro _ n h
    alloc_go
  case clone =>
    refine Allocs.mbind HList.allocs_clone ?_
    rintro _ n ⟨_, h⟩
    alloc_go
  case iter k =>
    unfold listIter
    alloc_go
  all_goals alloc_go

/-- What an operation of `Stack` allocates. -/
def stackAllocs : Stack.Op T → Nat
  | .push _ | .pushMut _ => 2
  | _ => 0

theorem allocs_stackHStep (l : HList) (op : Stack.Op T) : Allocs (Uses _ (stackAllocs op) (stackAllocs op)) (stackHStep l op)
    (stackAllocs op) := by
  cases op with
  | push v => exact allocs_listHStep l (.pushFront v)
  | pushMut v => exact allocs_listHStep l (.pushFrontMut v)
  | pop => exact allocs_listHStep l .dropFirst
  | popMut => exact allocs_listHStep l .dropFirstMut
  | clone => exact allocs_listHStep l .clone
  | peek => exact allocs_listHStep l .first
  | size => exact allocs_listHStep l .len
  | isEmpty => exact allocs_listHStep l .isEmpty
  | iter k => exact allocs_listHStep l (.iter k)

namespace HQueue
variable {q : HQueue}

theorem allocs_clone : Allocs (fun r n' => r = q ∧ n ≤ n') (q.clone : Prog (LinLabel T) HQueue) n := by
  refine Allocs.bind HList.allocs_clone ?_
  rintro _ n1 ⟨rfl, h1⟩
  refine Allocs.bind HList.allocs_clone ?_
  rintro _ n2 ⟨rfl, h2⟩
  exact ⟨rfl, by omega⟩

theorem allocs_dropQueue : Allocs (Uses Unit n 0) (q.dropQueue : Prog (LinLabel T) _) n := by
  unfold dropQueue
  alloc_go

macro_rules | `(tactic| alloc_lem) => `(tactic| ((with_reducible refine HQueue.allocs_dropQueue)))

theorem allocs_dequeueMut {k : Nat} (hk : q.out_list.length = 0 → q.in_list.length ≤ k) (h1 : k ≤ n) :
    Allocs (Uses _ n k) (q.dequeueMut : Prog (LinLabel T) _) n := by
  unfold dequeueMut
  by_cases h2 : q.out_list.length = 0
  · simp only [h2, beq_self_eq_true, Bool.not_true, Bool.false_eq_true, if_false]
    split
    · have := hk h2
      refine Allocs.mbind (HList.allocs_reverseMut (by omega)) ?_
      rintro _ n1 h3
      refine Allocs.mbind HList.allocs_dropFirstMut ?_
      rintro _ n2 h4
      simp only [Uses] at *
      exact Allocs.mpure (by omega)
    · exact Allocs.mpure (by omega)
  · simp only [beq_iff_eq, h2, Bool.not_eq_true', beq_eq_false_iff_ne, ne_eq, not_false_eq_true, if_true]
    alloc_go

end HQueue

/-- What an operation of `Queue` with these lengths of its lists allocates. -/
def queueAllocs (out in_ : Nat) : Queue.Op T → Nat
  | .enqueue _ | .enqueueMut _ => 2
  | .dequeue | .dequeueMut => if out = 0 then in_ else 0
  | _ => 0

theorem allocs_queueHStep (q : HQueue) (op : Queue.Op T) :
    Allocs (fun _ _ => True) (queueHStep q op) (queueAllocs q.out_list.length q.in_list.length op) := by
  have hk : q.out_list.length = 0 → q.in_list.length ≤ if q.out_list.length = 0 then q.in_list.length else 0 := by
    intro h
    simp [h]
  cases op <;> simp only [queueAllocs, queueHStep]
  case enqueue v =>
    unfold HQueue.enqueue HQueue.enqueueMut
    refine Allocs.massoc (Allocs.mbind HQueue.allocs_clone ?_)
    rintro _ n' ⟨rfl, h3⟩
    refine Allocs.massoc (Allocs.mbind (HList.allocs_pushFrontMut (by omega)) ?_)
    intros; trivial
  case enqueueMut v =>
    unfold HQueue.enqueueMut
    refine Allocs.massoc (Allocs.mbind (HList.allocs_pushFrontMut (by omega)) ?_)
    intros; trivial
  case dequeue =>
    refine Allocs.mbind (Q := fun _ _ => True) ?_ ?_
    · refine Allocs.mbind HQueue.allocs_clone ?_
      rintro _ n' ⟨rfl, h3⟩
      refine Allocs.mbind (HQueue.allocs_dequeueMut hk h3) ?_
      rintro ⟨b, q'⟩ n2 -
      dsimp only
      split
      · trivial
      · refine Allocs.mbind HQueue.allocs_dropQueue ?_
        intros; trivial
    · intro r n2 _
      split <;> trivial
  case dequeueMut =>
    refine Allocs.mbind (HQueue.allocs_dequeueMut hk (Nat.le_refl _)) ?_
    intros; trivial
  case clone =>
    refine Allocs.mbind HQueue.allocs_clone ?_
    intros; trivial
  case peek =>
    refine Allocs.mbind (Q := Uses _ 0 0) ?_ ?_
    · unfold HQueue.peek
      alloc_go
    · rintro p n' -
      refine Allocs.mbind allocs_readValOpt ?_
      intros; trivial
  case iter k =>
    refine Allocs.mbind (Q := Uses _ 0 0) ?_ ?_
    · unfold HQueue.iter
      alloc_go
    · intros; trivial
  all_goals trivial

end
end Heap
end Rpds
