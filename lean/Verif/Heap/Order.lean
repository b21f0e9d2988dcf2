import Verif.Heap.Model
/-
Memory orderings.  `triomphe::Arc` (and `alloc::sync::Arc`) do not use sequentially consistent atomics: increments of the reference
count are `Relaxed`, decrements are `Release`, the test for uniqueness (`make_mut`, `try_unwrap`) is an `Acquire` load, and the
thread that decrements to zero does an `Acquire` load before it frees the cell.  Only these order what different threads do.

Here every step of a thread is given an event (which cell it touches, and how), a run of threads a trace of events, and the
happens-before relation of the Rust memory model is defined on traces.

A load of a reference count may read an old value: any that is not overwritten by a change the thread has already seen.  The runs
of `runWeak` cover this: a test for uniqueness comes with the time whose value it reads.  All other accesses to counts are
read-modify-writes, which always find the newest value.
-/
set_option autoImplicit false
namespace Rpds
namespace Heap

/-- What a step does to a cell. -/
inductive Kind where
  /-- memory from the allocator is filled (`SharedPointer::new`) -/
  | alloc
  /-- the count is incremented, with `Relaxed` -/
  | incr
  /-- the content is read -/
  | read
  /-- the count is loaded, and is not one -/
  | test
  /-- the count is loaded with `Acquire` and is one, the content is from now on borrowed through `&mut` -/
  | own
  /-- the content is written, at the end of such a borrow -/
  | write
  /-- the count is loaded with `Acquire` and is one, the content is moved out and the memory given back -/
  | take
  /-- the count is decremented with `Release`, and other pointers are left -/
  | decr
  /-- the count is decremented to zero, loaded with `Acquire`, the content is dropped and the memory given back -/
  | last
  deriving DecidableEq, Repr

/-- The steps that need the cell for themselves: they write or free what others could read. -/
def Kind.exclusive : Kind → Bool
  | .alloc | .own | .write | .take | .last => true
  | _ => false

/-- The steps that give the memory back to the allocator. -/
def Kind.frees : Kind → Bool
  | .take | .last => true
  | _ => false

/-- The steps that change the reference count, set it up, or end its life. -/
def Kind.counts : Kind → Bool
  | .alloc | .incr | .take | .decr | .last => true
  | _ => false

/-- A step of a thread that touches a cell; `value` is the reference count of the cell after it. -/
structure Event where
  thread : Nat
  kind : Kind
  addr : Addr
  value : Nat
  deriving DecidableEq, Repr

/-- Which operations on reference counts are `Release` and `Acquire`; the others are `Relaxed`. -/
structure Orderings where
  /-- decrements are `Release` -/
  release : Bool
  /-- the test for uniqueness and the last decrement are `Acquire` -/
  acquire : Bool

/-- The orderings of `triomphe::Arc` and `alloc::sync::Arc`. -/
def arc : Orderings := ⟨true, true⟩

/-- The step makes what its thread did before visible to those who acquire. -/
def Kind.releases (o : Orderings) : Kind → Bool
  | .decr | .last => o.release
  | _ => false

/-- The step sees what was released before. -/
def Kind.acquires (o : Orderings) : Kind → Bool
  | .own | .take | .last => o.acquire
  | _ => false

/-- Event number `a` happens before event number `b`: they are in this order in the program of one thread; or the first releases and
the second acquires, on the same reference count (every change of a count after it was initialised is a read-modify-write, so all of
them continue the release sequence); or the second is the allocation that reuses the memory the first gave back; or they are linked by
such steps. -/
inductive Before (o : Orderings) (tr : List Event) : Nat → Nat → Prop where
  | program {a b : Nat} {x y : Event} (hab : a < b) (ha : tr[a]? = some x) (hb : tr[b]? = some y) (ht : x.thread = y.thread) :
      Before o tr a b
  | sync {a b : Nat} {x y : Event} (hab : a < b) (ha : tr[a]? = some x) (hb : tr[b]? = some y) (hp : x.addr = y.addr)
      (hx : x.kind.releases o = true) (hy : y.kind.acquires o = true)
      (hc : ∀ c z, a < c → c < b → tr[c]? = some z → z.addr = x.addr → z.kind ≠ .alloc) : Before o tr a b
  | reuse {a b : Nat} {x y : Event} (hab : a < b) (ha : tr[a]? = some x) (hb : tr[b]? = some y) (hp : x.addr = y.addr)
      (hx : x.kind.frees = true) (hy : y.kind = .alloc)
      (hc : ∀ c z, a < c → c < b → tr[c]? = some z → z.addr = x.addr → z.kind ≠ .alloc) : Before o tr a b
  | trans {a b c : Nat} (h1 : Before o tr a b) (h2 : Before o tr b c) : Before o tr a c

/-- No data races: of two events on the same cell, where one needs the cell for itself, the earlier one happens before the
later one. -/
def RaceFree (o : Orderings) (tr : List Event) : Prop :=
  ∀ (a b : Nat) (x y : Event), a < b → tr[a]? = some x → tr[b]? = some y → x.addr = y.addr →
    (x.kind.exclusive = true ∨ y.kind.exclusive = true) → Before o tr a b

/-- The count of the cell is one. -/
def unique {L : Type} (h : Mem L) (p : Addr) : Bool :=
  match get h p with
  | .closed n _ _ => n == 1
  | _ => false

/-- The event of an action. -/
def Act.event {L : Type} (A : Allocator L) : Act L → Mem L → Kind × Addr
  | .new _ _, h => (.alloc, A.pick h)
  | .newOpen, h => (.alloc, A.pick h)
  | .clone p, _ => (.incr, p)
  | .read p, _ => (.read, p)
  | .tryOpen p, h => (if unique h p then .own else .test, p)
  | .close p _ _, _ => (.write, p)
  | .tryTake p, h => (if unique h p then .take else .test, p)

/-- The event of the next step of a thread. -/
def Thread.event {L α : Type} (A : Allocator L) (th : Thread L α) (h : Mem L) : Option (Kind × Addr) :=
  match th.pending with
  | (_, p) :: _ => some (if unique h p then .last else .decr, p)
  | [] =>
    match th.prog with
    | .op a _ => some (a.event A h)
    | _ => none

/-! ### Loads of old values -/

/-- The reference count of a cell (a cell whose content is borrowed has one owner). -/
def Cell.count {L : Type} : Cell L → Nat
  | .closed n _ _ => n
  | .opened => 1
  | .free => 0

/-- The event sets the reference count of `p`. -/
def Event.sets (e : Event) (p : Addr) : Bool := e.addr == p && e.kind.counts

/-- The reference count of `p` after the first `t` events of a run that started with the memory `h₀`. -/
def countAt {L : Type} (h₀ : Mem L) (tr : List Event) (p : Addr) (t : Nat) : Nat :=
  match ((tr.take t).filter fun e => e.sets p).getLast? with
  | some e => e.value
  | none => (get h₀ p).count

/-- The reference count of `p` was changed after the first `t` events. -/
def changedSince (tr : List Event) (p : Addr) (t : Nat) : Bool := (tr.drop t).any fun e => e.sets p

/-- If the next step of the thread is a test for uniqueness: the cell, and the thread after the test failed. -/
def Thread.tests {L α : Type} (th : Thread L α) : Option (Addr × Thread L α) :=
  match th.pending, th.prog with
  | [], .op (.tryOpen p) k => some (p, { th with prog := k none })
  | [], .op (.tryTake p) k => some (p, { th with prog := k none })
  | _, _ => none

/-- One step of a thread, where a test for uniqueness reads the count as it was after the first `t` events.  If the count was changed
since, the test may fail although the pointer is now unique; and to take an old one for the present would be undefined behaviour. -/
def Thread.stepAt {L α : Type} (A : Allocator L) (h₀ : Mem L) (tr : List Event) (t : Nat) (th : Thread L α) (h : Mem L) :
    Except Fault (Thread L α × Mem L) :=
  match th.tests with
  | some (p, th') =>
    if changedSince tr p t then
      match get h p with
      | .closed _ _ _ => if countAt h₀ tr p t = 1 then .error .badAccess else .ok (th', h)
      | _ => .error .badAccess
    else th.step A h
  | none => th.step A h

/-- The event of such a step. -/
def Thread.eventAt {L α : Type} (A : Allocator L) (tr : List Event) (t : Nat) (th : Thread L α) (h : Mem L) : Option (Kind × Addr) :=
  match th.tests with
  | some (p, _) => if changedSince tr p t then some (.test, p) else th.event A h
  | none => th.event A h

/-- A run of several threads, with the events so far.  The schedule has the thread that makes the step, and the time whose value
it reads in case it tests a count. -/
def runWeak {L α : Type} (A : Allocator L) (h₀ : Mem L) : (schedule : List (Nat × Nat)) → List Event → List (Thread L α) → Mem L →
    Except Fault (List Event × List (Thread L α) × Mem L)
  | [], tr, ths, h => .ok (tr, ths, h)
  | (i, t) :: is, tr, ths, h =>
    match ths[i]? with
    | none => runWeak A h₀ is tr ths h
    | some th =>
      match th.stepAt A h₀ tr t h with
      | .error e => .error e
      | .ok (th', h') =>
        runWeak A h₀ is (tr ++ (th.eventAt A tr t h).toList.map fun e => ⟨i, e.1, e.2, (get h' e.2).count⟩) (ths.set i th') h'

/-- Event `k` is event `m` or happens before it. -/
def UpTo (o : Orderings) (tr : List Event) (k m : Nat) : Prop := k = m ∨ Before o tr k m

/-- Thread `i` has seen event `k`. -/
def Known (o : Orderings) (tr : List Event) (i k : Nat) : Prop :=
  ∃ m x, tr[m]? = some x ∧ x.thread = i ∧ UpTo o tr k m

/-- Event `m` set the count of `p` after the first `t` events. -/
def SetSince (tr : List Event) (p : Addr) (t m : Nat) : Prop := t ≤ m ∧ ∃ y, tr[m]? = some y ∧ y.sets p = true

/-- No test reads a value that was overwritten by a change its thread has seen. -/
def Coherent {L α : Type} (o : Orderings) (A : Allocator L) (h₀ : Mem L) : (schedule : List (Nat × Nat)) → List Event →
    List (Thread L α) → Mem L → Prop
  | [], _, _, _ => True
  | (i, t) :: is, tr, ths, h =>
    match ths[i]? with
    | none => Coherent o A h₀ is tr ths h
    | some th =>
      (∀ p th', th.tests = some (p, th') → ∀ m, SetSince tr p t m → ¬ Known o tr i m) ∧
      match th.stepAt A h₀ tr t h with
      | .error _ => True
      | .ok (th', h') =>
        Coherent o A h₀ is (tr ++ (th.eventAt A tr t h).toList.map fun e => ⟨i, e.1, e.2, (get h' e.2).count⟩) (ths.set i th') h'

end Heap
end Rpds
