import Verif.Heap.Late
import Verif.Props.PanicHeap
/-
Property C73 for `List`, `Stack` and `Queue`.  The only user code they call in place is the `Drop` of the element they remove, at the end of the
operation.
-/
set_option autoImplicit false
namespace Rpds
namespace Props
open Heap Spec

theorem late_always {Op Ret σ : Type} (f : σ → Op → Ret × Effect σ) :
    Always (fun _ => True) (Spec.late fun s op => .ok (f s op)) := by
  rintro s ⟨b, op⟩ -
  cases b with
  | false =>
    refine ⟨some (f s op).1, (f s op).2, rfl, ?_⟩
    cases (f s op).2 <;> simp
  | true =>
    refine ⟨none, (f s op).2.unwound, rfl, ?_⟩
    cases (f s op).2 <;> simp [Effect.unwound]

/-- C73 for `List`: each operation may panic at its end. -/
theorem C73_list_sound (T : Type) :
    SoundMemory (listImpl T).late (fun p => listByRef p.2) ([] : List T) (Spec.late fun xs op => .ok (listStep xs op))
      (fun xs => 2 * xs.length + min xs.length 1) :=
  sound_of_refines (P := fun _ => True) trivial (late_always _) (fun _ => late_refines listImpl_refines)
    (fun _ => late_lends listImpl_refines listImpl_lends) fun _ _ _ h => ListIs.weight_le h

/-- C73 for `Stack`. -/
theorem C73_stack_sound (T : Type) :
    SoundMemory (stackImpl T).late (fun p => stackByRef p.2) ([] : List T) (Spec.late fun xs op => .ok (stackStep xs op))
      (fun xs => 2 * xs.length + min xs.length 1) :=
  sound_of_refines (P := fun _ => True) trivial (late_always _) (fun _ => late_refines stackImpl_refines)
    (fun _ => late_lends stackImpl_refines stackImpl_lends) fun _ _ _ h => ListIs.weight_le h

/-- C73 for `Queue`. -/
theorem C73_queue_sound (T : Type) :
    SoundMemory (queueImpl T).late (fun p => queueByRef p.2) ([] : List T) (Spec.late fun xs op => .ok (queueStep xs op))
      (fun xs => 2 * xs.length + min xs.length 2) :=
  sound_of_refines (P := fun _ => True) trivial (late_always _) (fun _ => late_refines queueImpl_refines)
    (fun _ => late_lends queueImpl_refines queueImpl_lends) fun _ _ _ h => h.weight_le

/-- A queue of three elements and a clone; `dequeue_mut` of the first panics, then `enqueue` of the clone, whose result is lost. -/
def exLateCmds : List (Cmd (Bool × Queue.Op Nat)) :=
  [.new, .run 0 (false, .enqueueMut 1), .run 0 (false, .enqueueMut 2), .run 0 (false, .enqueueMut 3), .run 0 (false, .clone),
    .run 0 (true, .dequeueMut), .run 1 (true, .enqueue 7), .run 0 (false, .peek), .run 1 (false, .peek), .run 0 (false, .len)]

-- the answers
example : (pureClient [] (Spec.late fun xs op => .ok (queueStep xs op)) [] exLateCmds).map (·.1) =
    .ok [none, some (some .unit), some (some .unit), some (some .unit), some (some .unit), some none, some none, some (some (.opt (some 2))),
      some (some (.opt (some 1))), some (some (.nat 2))] := by
  decide +kernel
-- after the two are dropped nothing is left
example : (outcome (bump _) 800 (client (queueImpl Nat).late [] (exLateCmds ++ [.discard 0, .discard 1])) []).map (fun x => live x.2.1) =
    some 0 := by
  decide +kernel

end Props
end Rpds
