import Verif.Props.Nest
import Verif.Heap.NestLinear
/-
Property C45 for lists that several threads drop: how deep destructors can nest at most (the race in `C45_list_drop_race` is the worst case).
-/
set_option autoImplicit false
namespace Rpds
namespace Props
open Heap

/-- C45, several threads: under every schedule destructors nest no deeper than the longest list there is (one level at least). -/
theorem C45_list_drop_bounded_partial (T : Type) :
    DropsFrom 1 (listImpl T) ([] : List T) (fun xs op => .ok (Spec.listStep xs op)) (fun xs => xs.length) :=
  dropsFrom_of fun _ _ h1 _ => listImpl_refinesIn h1

/-- C45, several threads, stacks. -/
theorem C45_stack_drop_bounded_partial (T : Type) :
    DropsFrom 1 (stackImpl T) ([] : List T) (fun xs op => .ok (Spec.stackStep xs op)) (fun xs => xs.length) :=
  dropsFrom_of fun _ _ h1 _ => stackImpl_refinesIn h1

/-- C45, several threads, queues. -/
theorem C45_queue_drop_bounded_partial (T : Type) :
    DropsFrom 1 (queueImpl T) ([] : List T) (fun xs op => .ok (Spec.queueStep xs op)) (fun xs => xs.length) :=
  dropsFrom_of fun _ _ h1 _ => queueImpl_refinesIn h1

/-- C45, several threads, fails, and the bound above is exact: two threads drop the last two handles of a list of `n + 1` elements, and for
some interleaving destructors nest `n + 1` deep. -/
theorem C45_list_drop_race {T : Type} (v : T) (n : Nat) :
    ∃ (A : Allocator (LinLabel T)) (setup : List (Cmd (RList.Op T))) (rs rs' : List (Option (RList.Ret T)))
      (hs : List (Option HList)) (h : Mem (LinLabel T)) (d : Nat),
      pureClient ([] : List T) (fun xs op => .ok (Spec.listStep xs op)) [] setup =
        .ok (rs', [some (List.replicate (n + 1) v), some (List.replicate (n + 1) v)]) ∧
      Runs A (client (listImpl T) [] setup) [] (rs, hs) h d ∧ hs.length = 2 ∧
      ∃ sched ths' h' th, runThreads A sched (threads (listImpl T) id hs 0 [[.discard 0], [.discard 1]]) h = .ok (ths', h') ∧
        th ∈ ths' ∧ n + 1 ≤ th.deepest := by
  obtain ⟨rs, h, e1, e2⟩ := runs_raceSetup v n
  obtain ⟨rs', e3⟩ := pure_raceSetup v n
  exact ⟨bump _, raceSetup v n, rs, rs', _, h, 0, e3, e1, rfl, race v n e2⟩

/-- Three threads with handles of one list of four elements, one of which adds an element: whatever the schedule, at most five levels. -/
example (A : Allocator (LinLabel Nat)) : ∃ (hs : List (Option HList)) (h : Mem (LinLabel Nat)),
    ∀ sched : List Nat, ∃ ths' h', runThreads A sched (threads (listImpl Nat) id hs 0
        [[.discard 0], [.discard 1], [.run 2 (.pushFrontMut 9), .discard 2]]) h = .ok (ths', h') ∧ ∀ (i : Nat) (th : Thread (LinLabel Nat) (List (Option (RList.Ret Nat)) × List (Option HList))),
        ths'[i]? = some th → th.deepest ≤ 5 := by
  have hc : pureClient ([] : List Nat) (fun xs op => .ok (Spec.listStep xs op)) [] (raceSetup 7 3 ++ [.run 0 .clone]) =
      .ok (none :: List.replicate 6 (some .unit), [some [7, 7, 7, 7], some [7, 7, 7, 7], some [7, 7, 7, 7]]) := by decide +kernel
  obtain ⟨hs, h, d, -, -, hall⟩ := C45_list_drop_bounded_partial Nat A 5 (by decide) (by decide) _ _ _ hc
    (stay_of_check (by decide +kernel))
  refine ⟨hs, h, hall id _ [[none], [none], [some .unit, none]] [[none, none, none], [none, none, none], [none, none, none]] rfl rfl ?_⟩
  intro i cmds rs ss' g1 g2 g3
  match i, g1, g2, g3 with
  | 0, g1, g2, g3 => cases g1; cases g2; cases g3; exact ⟨by decide +kernel, stay_of_check (by decide +kernel)⟩
  | 1, g1, g2, g3 => cases g1; cases g2; cases g3; exact ⟨by decide +kernel, stay_of_check (by decide +kernel)⟩
  | 2, g1, g2, g3 => cases g1; cases g2; cases g3; exact ⟨by decide +kernel, stay_of_check (by decide +kernel)⟩
  | _ + 3, g1, _, _ => cases g1

end Props
end Rpds
