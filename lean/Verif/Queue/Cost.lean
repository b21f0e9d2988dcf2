import Verif.Queue.Lemmas
/-
Cost model for `Queue`: the number of nodes turned around by `reverse_mut` (iterations of its loop, list/mod.rs:235-243).
Everything else in `enqueue_mut`/`dequeue_mut` is constant.
-/
set_option autoImplicit false
namespace Rpds
variable {T : Type}

/-- `RList.reverseLoop` (list/mod.rs:235-243) with a counter for its iterations. -/
def RList.reverseLoopC : (prev current : Link T) → Nat → Link T × Nat
  | prev, .none, n => (prev, n)
  | prev, .some v curr_next, n => reverseLoopC (.some v prev) curr_next (n + 1)

namespace Queue

/-- `dequeue_mut` (queue/mod.rs:142-155) with the number of loop iterations of the reversal it performs. -/
def dequeueMutC (q : Queue T) : Res (Bool × Queue T × Nat) :=
  if !q.out_list.isEmpty then do
    let (_, out_list) ← q.out_list.dropFirstMut
    pure (true, { q with out_list }, 0)
  else if !q.in_list.isEmpty then do
    let in_list := q.out_list
    let out_list := q.in_list
    let (_, cost) := RList.reverseLoopC .none out_list.head 0
    let out_list := out_list.reverseMut
    let (_, out_list) ← out_list.dropFirstMut
    pure (true, { in_list, out_list }, cost)
  else pure (false, q, 0)

/-- A history of mutating operations on a single queue. -/
inductive MutOp (T : Type) where
  | enqueue (v : T)
  | dequeue

/-- Runs the history with `enqueue_mut` and `dequeue_mut`, adding up the cost. -/
def runMut : Queue T → List (MutOp T) → Res (Queue T × Nat)
  | q, [] => .ok (q, 0)
  | q, .enqueue v :: ops => runMut (q.enqueueMut v) ops
  | q, .dequeue :: ops => do
    let (_, q', c₀) ← q.dequeueMutC
    let (q'', c) ← runMut q' ops
    pure (q'', c₀ + c)

/-- Number of enqueues in a history. -/
def enqueues : List (MutOp T) → Nat
  | [] => 0
  | .enqueue _ :: ops => enqueues ops + 1
  | .dequeue :: ops => enqueues ops

theorem _root_.Rpds.RList.reverseLoopC_eq (prev cur : Link T) (n : Nat) :
    RList.reverseLoopC prev cur n = (RList.reverseLoop prev cur, n + cur.toList.length) := by
  induction cur generalizing prev n with
  | none => simp [RList.reverseLoopC, RList.reverseLoop, Link.toList]
  | some v t ih => simp [RList.reverseLoopC, RList.reverseLoop, Link.toList, ih]; omega

theorem dequeueMutC_fst (q : Queue T) : (do let (b, q', _) ← q.dequeueMutC; pure (b, q')) = q.dequeueMut := by
  simp only [dequeueMutC, dequeueMut]
  split
  · cases q.out_list.dropFirstMut <;> rfl
  · split
    · cases q.in_list.reverseMut.dropFirstMut <;> rfl
    · rfl

theorem dequeueMutC_cost {q : Queue T} {xs : List T} (h : q.Rep xs) :
    ∃ b q' c, q.dequeueMutC = .ok (b, q', c) ∧ (∃ ys, q'.Rep ys) ∧ c + q'.in_list.length ≤ q.in_list.length ∧
      (q.out_list.length = 0 → c = q.in_list.length) := by
  obtain ⟨os, is, h1, h2, h3⟩ := h
  cases os with
  | cons o os =>
    obtain ⟨l', h6, h7⟩ := h1.dropFirstMut_cons
    refine ⟨true, { q with out_list := l' }, 0, by simp [dequeueMutC, h1.isEmpty, h6], ⟨_, os, is, h7, h2, rfl⟩, by simp, ?_⟩
    simp [h1.length]
  | nil =>
    cases is with
    | nil =>
      exact ⟨false, q, 0, by simp [dequeueMutC, h1.isEmpty, h2.isEmpty], ⟨[], [], [], h1, h2, rfl⟩, by simp, by simp [h2.length]⟩
    | cons i is =>
      have hr := h2.reverseMut
      cases hy : (i :: is).reverse with
      | nil => simp at hy
      | cons y ys =>
        rw [hy] at hr
        obtain ⟨l', h6, h7⟩ := hr.dropFirstMut_cons
        exact ⟨true, ⟨q.out_list, l'⟩, is.length + 1,
          by simp [dequeueMutC, h1.isEmpty, h2.isEmpty, h6, RList.reverseLoopC_eq, h2.head], ⟨ys, ys, [], h7, h1, by simp⟩,
          by simp [h1.length, h2.length], by simp [h2.length]⟩

theorem runMut_cost {q : Queue T} {xs : List T} (h : q.Rep xs) (ops : List (MutOp T)) :
    ∃ q' c, runMut q ops = .ok (q', c) ∧ c ≤ q.in_list.length + enqueues ops := by
  induction ops generalizing q xs with
  | nil => exact ⟨q, 0, rfl, by omega⟩
  | cons op ops ih =>
    cases op with
    | enqueue v =>
      obtain ⟨q', c, h1, h2⟩ := ih (h.enqueueMut v)
      exact ⟨q', c, h1, by simp [Queue.enqueueMut, RList.pushFrontMut, RList.pushFrontPtrMut] at h2; simp [enqueues]; omega⟩
    | dequeue =>
      obtain ⟨b, q', c₀, h1, ⟨ys, h2⟩, h3, _⟩ := dequeueMutC_cost h
      obtain ⟨q'', c, h4, h5⟩ := ih h2
      exact ⟨q'', c₀ + c, by simp [runMut, h1, h4], by simp [enqueues]; omega⟩

end Queue
end Rpds
