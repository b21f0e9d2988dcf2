import Verif.Props.PanicReplace
import Verif.Props.RejectsPanic
/-
Wrong programs that C73 rejects: `insert_mut` and `set_mut` that go wrong when the `Drop` of what they replace panics.  Each is right as long as
it does not.
-/
set_option autoImplicit false
namespace Rpds
namespace Props
namespace Rejects
open Heap Spec

/-- A client that gets other answers refutes C73. -/
theorem answers_rejected {L H Op Ret σ : Type} [DecidableEq Ret] {impl : Impl L H Op Ret} {byRef : Op → Bool} {new : σ}
    {step : σ → Op → Res (Ret × Effect σ)} {size : σ → Nat} (n : Nat) (cmds : List (Cmd Op)) (as : List (Option Ret))
    (hx : (pureClient new step [] cmds).map (·.1) = .ok as)
    (hb : (outcome (bump _) n (client impl [] cmds) []).any (fun y => decide (y.1.1 ≠ as)) = true) : ¬ SoundHeap impl byRef new step size := by
  intro h
  cases hp : pureClient new step [] cmds with
  | error e => simp [hp, Except.map] at hx
  | ok x =>
    obtain ⟨hs, m, d, e, -⟩ := h.persistent (bump _) cmds x.1 x.2 hp
    simp only [hp, Except.map, Except.ok.injEq] at hx
    cases e1 : outcome (bump _) n (client impl [] cmds) [] with
    | none => simp [e1] at hb
    | some y =>
      obtain ⟨e2, -⟩ := (runs_of_outcome e1).unique e
      simp only [e1, Option.any_some, e2, hx] at hb
      simp at hb

/-- `RedBlackTreeMap` with `insert_mut` that panics at its end replaced. -/
def rbLateWith (f : HRBMap → RBUser Nat Nat Nat Nat → Nat → Nat → Nat → Prog (RLabel Nat Nat) (Option (MapRet Nat Nat) × Effect HRBMap)) :
    Impl (RLabel Nat Nat) HRBMap (Bool × RBCall Nat Nat Nat Nat) (Option (MapRet Nat Nat)) :=
  let impl := (rbImplU Nat Nat Nat Nat dbg64).lateOf rbReplaces
  { impl with step := fun m p => match p with
      | (true, U, s, .insertMut k v) => f m U s k v
      | p => impl.step m p }

/-- C73 for red-black maps in which replacements may panic. -/
abbrev RBReplaceSound (impl : Impl (RLabel Nat Nat) HRBMap (Bool × RBCall Nat Nat Nat Nat) (Option (MapRet Nat Nat))) : Prop :=
  SoundMemory impl (fun p => userByRef p.2) RBMap.new (Spec.lateOf rbReplaces fun m (p : RBCall Nat Nat Nat Nat) => m.stepU dbg64 p.1 p.2.1 p.2.2)
    fun m => 2 * m.size

example : RBReplaceSound ((rbImplU Nat Nat Nat Nat dbg64).lateOf rbReplaces) := C73_rb_map_replace Nat Nat Nat Nat dbg64
/-- `insert_mut` that works on a copy which would replace the map at the end; the unwinding drops it. -/
def undoesReplace := rbLateWith fun m U s k v =>
  Prog.bind m.clone fun c => Prog.bind (c.insertMutU U k v s) fun x => Prog.bind x.2.dropMap fun _ => .ret (none, .keep)

/-- A replacement that panics. -/
def exReplaced : List (Cmd (Bool × RBCall Nat Nat Nat Nat)) :=
  [.new, .run 0 (false, exBomb, 9, .insertMut 1 10), .run 0 (true, exBomb, 9, .insertMut 1 11), .run 0 (false, exBomb, 9, .get 1)]

-- the right program in this form gets the right answers, and leaves nothing
example : (outcome (bump _) 400 (client (rbLateWith fun m U s k v => Prog.bind (m.insertMutU U k v s) fun x => .ret (none, .update x.2)) []
    (exReplaced ++ [.discard 0])) []).map (fun x => (x.1.1, live x.2.1)) =
    some ([none, some (some .unit), some none, some (some (.optV (some 11))), none], 0) := by
  decide +kernel
-- memory is right, but the old value is still there
theorem undoesReplace_rejected : ¬ RBReplaceSound undoesReplace := fun h =>
  answers_rejected 400 exReplaced [none, some (some .unit), some none, some (some (.optV (some 11)))] (by decide +kernel) (by decide +kernel)
    h.toSoundHeap

/-- The same without the drop of the copy. -/
def forgetsReplace := rbLateWith fun m U s k v =>
  Prog.bind m.clone fun c => Prog.bind (c.insertMutU U k v s) fun _ => .ret (none, .keep)

-- the copy stays in memory
theorem forgetsReplace_rejected : ¬ RBReplaceSound forgetsReplace :=
  leaky_rejected 400 (exReplaced ++ [.discard 0]) (by decide +kernel) (by decide +kernel)

/-- `insert_mut` whose map is dropped by the unwinding, but still there. -/
def dropsReplaced := rbLateWith fun m U s k v =>
  Prog.bind (m.insertMutU U k v s) fun x => Prog.bind x.2.dropMap fun _ => .ret (none, .update x.2)

-- the map is used after it was freed
theorem dropsReplaced_rejected : ¬ RBReplaceSound dropsReplaced := faulty_rejected 400 exReplaced (by decide +kernel)

/-- `Vector` with `set_mut` that panics at its end replaced. -/
def vecLateWith (f : HVector → Nat → Nat → Prog (VLabel Nat) (Option (RVector.Ret Nat) × Effect HVector)) :
    Impl (VLabel Nat) HVector (Bool × VecCall Nat) (Option (RVector.Ret Nat)) :=
  let impl := (vecImplU dbg64 Nat 1).lateOf vecReplaces
  { impl with step := fun v p => match p with
      | (true, _, .setMut i x) => f v i x
      | p => impl.step v p }

/-- C73 for vectors in which replacements may panic. -/
abbrev VecReplaceSound (impl : Impl (VLabel Nat) HVector (Bool × VecCall Nat) (Option (RVector.Ret Nat))) : Prop :=
  SoundHeap impl (fun p => vecUByRef p.2) (vecCap dbg64 1, ([] : List Nat)) (Spec.lateOf vecReplaces vecStepU)
    (fun s => 2 * s.2.length + Nat.log2 s.2.length + 1)

example : VecReplaceSound ((vecImplU dbg64 Nat 1).lateOf vecReplaces) := (C73_vector_replace Nat dbg64 1 (by decide) (by decide)).1

/-- `set_mut` that takes the old element out of its leaf, drops it and then would put the new one there (for vectors of one leaf). -/
def vecDropsFirst := vecLateWith fun v i _ =>
  if i ≥ v.length then .ret (none, .keep)
  else
    Prog.bind (modifyPtr v.root fun c =>
      Prog.bind (lift (vecIndex c.2 i)) fun q => Prog.bind (drop q) fun _ => .ret ((), c.1, c.2.eraseIdx i)) fun r =>
    .ret (none, .update { v with root := r.2 })

/-- A replacement that panics. -/
def exVecReplaced : List (Cmd (Bool × VecCall Nat)) :=
  [.new, .run 0 (false, exVecUser, .extend [10, 20]), .run 0 (true, exVecUser, .setMut 1 21), .run 0 (false, exVecUser, .get 1)]

-- the right program in this form gets the right answers, and leaves nothing
example : (outcome (bump _) 400 (client (vecLateWith fun v i x => Prog.bind (v.setMut dbg64 i x) fun r => .ret (none, .update r.2)) []
    (exVecReplaced ++ [.discard 0])) []).map (fun x => (x.1.1, live x.2.1)) =
    some ([none, some (some .unit), some none, some (some (.opt (some 21))), none], 0) := by
  decide +kernel

-- the vector has a length that its leaf does not have
theorem vecDropsFirst_rejected : ¬ VecReplaceSound vecDropsFirst :=
  faulty_heap_rejected 400 exVecReplaced (by decide +kernel) (by decide +kernel)

/-- `set_mut` that drops the old element in its place before it would write the new one. -/
def vecDropsInPlace := vecLateWith fun v i _ =>
  if i ≥ v.length then .ret (none, .keep)
  else
    Prog.bind (modifyPtr v.root fun c =>
      Prog.bind (lift (vecIndex c.2 i)) fun q => Prog.bind (drop q) fun _ => .ret ((), c.1, c.2)) fun r =>
    .ret (none, .update { v with root := r.2 })

-- the element is used after it was freed
theorem vecDropsInPlace_rejected : ¬ VecReplaceSound vecDropsInPlace :=
  faulty_heap_rejected 400 exVecReplaced (by decide +kernel) (by decide +kernel)

/-- `set_mut` that works on a copy which would replace the vector at the end; the unwinding drops it. -/
def vecUndoes := vecLateWith fun v i x =>
  Prog.bind v.clone fun w => Prog.bind (w.setMut dbg64 i x) fun r => Prog.bind (drop r.2.root) fun _ => .ret (none, .keep)

-- memory is right, but the old element is still there
theorem vecUndoes_rejected : ¬ VecReplaceSound vecUndoes :=
  answers_rejected 400 exVecReplaced [none, some (some .unit), some none, some (some (.opt (some 21)))] (by decide +kernel) (by decide +kernel)

end Rejects
end Props
end Rpds
