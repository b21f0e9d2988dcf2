import Verif.List.Lemmas
import Verif.Stack.Model
/-
Refinement of the `Stack` model to a plain list, top first.
-/
set_option autoImplicit false
namespace Rpds
namespace Spec

/-- A plain LIFO stack (top first) under the operations of `Stack`. -/
def stackStep {T : Type} (l : List T) : Stack.Op T → RList.Ret T × Effect (List T)
  | .push v => (.unit, .fresh (v :: l))
  | .pushMut v => (.unit, .update (v :: l))
  | .pop => match l with
    | [] => (.bool false, .keep)
    | _ :: t => (.bool true, .fresh t)
  | .popMut => match l with
    | [] => (.bool false, .update [])
    | _ :: t => (.bool true, .update t)
  | .clone => (.unit, .fresh l)
  | .peek => (.opt l.head?, .keep)
  | .size => (.nat l.length, .keep)
  | .isEmpty => (.bool l.isEmpty, .keep)
  | .iter n => (.calls l.length (fwRun l n), .keep)

end Spec

variable {T : Type}
namespace Stack

/-- The stack represents `xs`, top first. -/
def Rep (s : Stack T) (xs : List T) : Prop := s.list.Rep xs

theorem rep_new : (new : Stack T).Rep [] := RList.rep_new
theorem rep_fromIter (xs : List T) : (fromIter xs).Rep xs := RList.rep_fromIter xs

theorem rep_stackMacro (xs : List T) : (stackMacro xs).Rep xs.reverse := by
  have key : ∀ (ys zs : List T) (a : Stack T), a.Rep zs →
      (ys.foldl (fun s e => s.pushMut e) a).Rep (ys.reverse ++ zs) := by
    intro ys
    induction ys with
    | nil => intro zs a ha; simpa using ha
    | cons y ys ih => intro zs a ha; simpa using ih (y :: zs) (a.pushMut y) (RList.Rep.pushFrontMut ha y)
  simpa [stackMacro] using key xs [] new rep_new

theorem rep_deserialize {E : Type} (seq : List (Except E T)) :
    match Spec.collectExcept seq with
    | .ok xs => ∃ s, deserialize seq = .ok s ∧ s.Rep xs
    | .error e => deserialize seq = .error e := by
  have := RList.rep_deserialize seq
  split at this
  · obtain ⟨l, h1, h2⟩ := this
    simp only [*]
    exact ⟨⟨l⟩, by simp [deserialize, h1]; rfl, h2⟩
  · simp only [*]
    simp [deserialize, this]
    rfl

theorem Rep.step {s : Stack T} {xs : List T} (h : s.Rep xs) (op : Op T) :
    ∃ e, s.step op = .ok ((Spec.stackStep xs op).1, e) ∧ Effect.Rel Rep e (Spec.stackStep xs op).2 := by
  cases op with
  | push v => exact ⟨_, rfl, .fresh (RList.Rep.pushFront h v)⟩
  | pushMut v => exact ⟨_, rfl, .update (RList.Rep.pushFrontMut h v)⟩
  | pop =>
    cases xs with
    | nil =>
      refine ⟨_, ?_, .keep⟩
      have := (RList.Rep.clone h).dropFirstMut_nil
      simp [Stack.step, Stack.pop, Stack.popMut, Stack.clone, this, Spec.stackStep]
    | cons x xs =>
      obtain ⟨l', h1, h2⟩ := (RList.Rep.clone h).dropFirstMut_cons
      refine ⟨.fresh ⟨l'⟩, ?_, .fresh h2⟩
      simp [Stack.step, Stack.pop, Stack.popMut, Stack.clone, h1, Spec.stackStep]
  | popMut =>
    cases xs with
    | nil => exact ⟨.update s, by simp [Stack.step, Stack.popMut, RList.Rep.dropFirstMut_nil h, Spec.stackStep], .update h⟩
    | cons x xs =>
      obtain ⟨l', h1, h2⟩ := RList.Rep.dropFirstMut_cons h
      exact ⟨.update ⟨l'⟩, by simp [Stack.step, Stack.popMut, h1, Spec.stackStep], .update h2⟩
  | clone => exact ⟨_, rfl, .fresh (RList.Rep.clone h)⟩
  | peek => exact ⟨.keep, by simp [Stack.step, Stack.peek, RList.Rep.first h, Spec.stackStep], .keep⟩
  | size => exact ⟨.keep, by simp [Stack.step, Stack.size, RList.Rep.len h, Spec.stackStep], .keep⟩
  | isEmpty => exact ⟨.keep, by simp [Stack.step, Stack.isEmpty, RList.Rep.isEmpty h, Spec.stackStep], .keep⟩
  | iter n =>
    have h' := RList.Rep.iter h
    exact ⟨.keep, by simp [Stack.step, Stack.iter, h'.calls, Spec.stackStep, h'.length, ListIter.sizeHint], .keep⟩

theorem Rep.display {s : Stack T} {xs : List T} (h : s.Rep xs) (fmt : T → String) :
    s.display fmt = .ok (Spec.bracketed "Stack(" ")" (xs.map fmt)) := by
  have h' := RList.Rep.iter h
  simp only [Stack.display, Stack.iter, RList.Rep.length h]
  rw [h'.drives.iterDisplay _ (by omega)]
  rfl

/-- The ways of creating a stack without another stack. -/
inductive Init : Stack T → Prop where
  | new : Init new
  | fromIter (xs : List T) : Init (fromIter xs)
  | macro (xs : List T) : Init (stackMacro xs)
  | deserialize {E : Type} (seq : List (Except E T)) (s : Stack T) : deserialize seq = .ok s → Init s

/-- All stacks a program can obtain. -/
abbrev Reach (s : Stack T) : Prop := Reachable Init step s

theorem Init.rep {s : Stack T} (hs : Init s) : ∃ xs, s.Rep xs := by
  cases hs with
  | new => exact ⟨_, rep_new⟩
  | fromIter xs => exact ⟨_, rep_fromIter xs⟩
  | «macro» xs => exact ⟨_, rep_stackMacro xs⟩
  | deserialize seq _ hd =>
    have := rep_deserialize seq
    split at this
    · obtain ⟨l, h1, h2⟩ := this; rw [hd] at h1; cases h1; exact ⟨_, h2⟩
    · rw [hd] at this; cases this

theorem Reach.rep {s : Stack T} (h : Reach s) : ∃ xs, s.Rep xs :=
  Reachable.rep (fun _ h => h.rep) (fun _ _ op h => h.step op) h

end Stack
end Rpds
