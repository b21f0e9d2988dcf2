import Verif.Props.Rejects
import Verif.Props.Counters
import Verif.Props.Glue
/-
More wrong programs that the heap properties reject: counters (C72), memory of hash maps (C70) and nested drops of collision lists (C60).
-/
set_option autoImplicit false
namespace Rpds
namespace Props
namespace Rejects
open Heap HT

theorem not_counters {L H Op Ret σ : Type} {impl : Impl L H Op Ret} {byRef : Op → Bool} {new : σ} {step : σ → Op → Res (Ret × Effect σ)}
    {counters : H → List Nat} {stored : L → Nat} (n : Nat)
    (cmds : List (Cmd Op)) {x : List (Option Ret) × List (Option σ)} (hp : pureClient new step [] cmds = .ok x)
    (hb : (match outcome (bump _) n (client impl [] cmds) [] with
      | some y => y.1.2.any fun v => v.any fun v => (counters v).any fun c => decide (live y.2.1 < c)
      | none => false) = true) : ¬ CountersFit impl byRef new step counters stored := by
  intro h
  split at hb
  · rename_i y e1
    obtain ⟨hs, m, d, r, ⟨hle, -⟩, -⟩ := h (bump _) cmds x.1 x.2 hp
    obtain ⟨e3, e2, -⟩ := r.unique (runs_of_outcome e1)
    rw [← e3, ← e2] at hb
    obtain ⟨v, hv, hv2⟩ := List.any_eq_true.1 hb
    cases v with
    | none => cases hv2
    | some v =>
      simp only [Option.any_some, List.any_eq_true, decide_eq_true_eq] at hv2
      obtain ⟨c, hc, hlt⟩ := hv2
      have := hle v hv c hc
      omega
  · cases hb

/-- `drop_first_mut` that does not count down. -/
def lengthKept := listWith fun l op => match op with
  | .dropFirstMut => some (do
    let x ← l.dropFirstMut
    pure (.bool x.1, .update { x.2 with length := l.length }))
  | _ => none

theorem lengthKept_not_counted : ¬ CountersFit lengthKept listByRef [] spec (fun l => [l.length]) (fun _ => 0) :=
  not_counters 100 [.new, .run 0 (.pushFrontMut 1), .run 0 .dropFirstMut]
    (x := ([none, some .unit, some (.bool true)], [some []])) (by rfl) (by decide +kernel)

/-- `Node::remove` without `compress` and, if `keep`, without the removal of subtrees that became empty. -/
def removeOnly (keep : Bool) (o : HashKeys Nat (Nat × String) Nat) (key : Nat) (keyHash : UInt64) (degree : Nat) :
    (fuel : Nat) → HHNode → Nat → Prog (HLabel (Nat × String) Nat) (Bool × HHNode)
  | 0 => fun _ _ => .panic
  | fuel + 1 => fun n depth =>
    match n with
    | .branch bm ps =>
      Prog.bind (lift (nodeSlot ⟨.debug, 64⟩ keyHash depth degree bm)) fun x =>
        match x.2 with
        | none => .ret (false, .branch bm ps)
        | some i =>
          Prog.bind (lift (vecIndex ps i)) fun p =>
          Prog.bind (modNode p fun n =>
            Prog.bind (removeOnly keep o key keyHash degree fuel n (depth + 1)) fun y =>
            Prog.bind (lift (y.2.isEmpty ⟨.debug, 64⟩)) fun e => .ret ((e, y.1), y.2)) fun y =>
          Prog.bind (lift (SparseArray.writeSlot ⟨bm, ps⟩ i y.2)) fun s =>
            match y.1 with
            | (true, true) =>
              if keep then .ret (true, .branch s.bitmap s.array) else
              Prog.bind (sparseRemove ⟨.debug, 64⟩ s x.1) fun s => .ret (true, .branch s.bitmap s.array)
            | (_, b) => .ret (b, .branch s.bitmap s.array)
    | n => bucketRemove o key keyHash n

/-- `HashTrieMap` with it. -/
def uncompressed (keep : Bool) : Impl (HLabel (Nat × String) Nat) (HHTMap Nat) (HTOp (Nat × String) Nat Nat) (HTRet (Nat × String) Nat) :=
  { htImpl ⟨.debug, 64⟩ exKeys 1 64 with step := fun m op =>
      match op with
      | .base (.removeMut key) =>
        Prog.bind (modNode m.root fun n => removeOnly keep exKeys key (exKeys.hashQ m.hasher key) m.degree trieFuel n 0) fun x =>
          .ret (.base (.bool x.1), .update { m with root := x.2, size := m.size - 1 })
      | _ => htHStepAll ⟨.debug, 64⟩ exKeys m op }

/-- Inserts two keys with the same hash and removes one. -/
def exTwoOne : List (Cmd (HTOp (Nat × String) Nat Nat)) :=
  [.new, .run 0 (.base (.insertMut (10, "") 1)), .run 0 (.base (.insertMut (20, "") 2)), .run 0 (.base (.removeMut 10))]

theorem uncompressed_not_followed : ¬ MemoryFollows (uncompressed false) [] (Spec.finMapStep exKeys)
    (fun l => l.length * (63 / Nat.log2 64 + 9) / 2 + 1) :=
  not_memory 600 exTwoOne (x := ([none, some (.base .unit), some (.base .unit), some (.base (.bool true))], [some [((20, ""), 2)]]))
    (by rfl) (by decide +kernel)

theorem emptiesKept_not_followed : ¬ MemoryFollows (uncompressed true) [] (Spec.finMapStep exKeys)
    (fun l => l.length * (63 / Nat.log2 64 + 9) / 2 + 1) :=
  not_memory 600 [.new, .run 0 (.base (.insertMut (10, "") 1)), .run 0 (.base (.removeMut 10))]
    (x := ([none, some (.base .unit), some (.base (.bool true))], [some []])) (by rfl) (by decide +kernel)

theorem gruns_of_outcome {L α : Type} {lists : L → Bool} {A : Allocator L} {n : Nat} {prog : Prog L α} {h : Mem L} {x : α × Mem L × Nat}
    (e : gOutcome lists A n prog h = some x) : GRuns lists A prog h x.1 x.2.1 x.2.2 := by
  unfold gOutcome at e
  split at e
  · rename_i e1
    cases e
    exact ⟨n, e1⟩
  · cases e

/-- Without the loop of `Drop for List` the nesting depends on the number of keys with the same hash. -/
theorem noLoop_not_flat : ¬ FlatDrops (fun _ => false) (htImpl ⟨.debug, 64⟩ exKeys 10 64) ([] : List ((Nat × String) × Nat))
    (Spec.finMapStep exKeys) (63 / 6 + 4) := by
  intro h
  have hc : (gOutcome (fun _ => false) (bump _) 3000 (client (htImpl ⟨.debug, 64⟩ exKeys 10 64) [] (exHTDrop 6)) []).any
    (fun x => decide (63 / 6 + 4 < x.2.2)) = true := by decide +kernel
  obtain ⟨hs, m, d, -, r, hle, -⟩ := h (bump _) (exHTDrop 6) ((none :: List.replicate 6 (some (.base .unit))) ++ [none])
    [none] (by rfl)
  cases e1 : gOutcome (fun _ => false) (bump _) 3000 (client (htImpl ⟨.debug, 64⟩ exKeys 10 64) [] (exHTDrop 6)) [] with
  | none => simp [e1] at hc
  | some y =>
    obtain ⟨-, -, e2⟩ := r.unique (gruns_of_outcome e1)
    simp only [e1, Option.any_some, decide_eq_true_eq] at hc
    omega

end Rejects
end Props
end Rpds
