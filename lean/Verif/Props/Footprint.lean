import Verif.Props.Space
import Verif.Heap.Weights
/-
Memory follows the contents (C70): what is in use depends on what the handles that are alive hold now, not on what they held before.

`live h` counts the cells of `h` that are in use, and `sumOver f ss` adds up `f` over the values `ss` of the handles that are alive.
-/
set_option autoImplicit false
namespace Rpds
namespace Props
open Heap

section
variable {L H Op Ret σ : Type}

/-- Whatever a client did, and whatever several threads did concurrently: what is in use in the end is at most `size s` cells for each
handle that is alive, where `s` is its value. -/
def MemoryFollows (impl : Impl L H Op Ret) (new : σ) (step : σ → Op → Res (Ret × Effect σ)) (size : σ → Nat) : Prop :=
  ∀ (A : Allocator L) (setup : List (Cmd Op)) (rs : List (Option Ret)) (ss : List (Option σ)),
    pureClient new step [] setup = .ok (rs, ss) →
    ∃ (hs : List (Option H)) (h : Mem L) (d : Nat), Runs A (client impl [] setup) [] (rs, hs) h d ∧ live h ≤ sumOver size ss ∧
      ∀ (owner : Nat → Nat) (cmdss : List (List (Cmd Op))) (rss : List (List (Option Ret))) (sss : List (List (Option σ))),
        rss.length = cmdss.length → sss.length = cmdss.length →
        (∀ (i : Nat) (cmds : List (Cmd Op)) (rs : List (Option Ret)) (ss' : List (Option σ)), cmdss[i]? = some cmds → rss[i]? = some rs → sss[i]? = some ss' →
          pureClient new step (handlesOf owner i ss) cmds = .ok (rs, ss')) →
        ∀ sched : List Nat, ∃ ths' h', runThreads A sched (threads impl owner hs 0 cmdss) h = .ok (ths', h') ∧
          ∀ res : List (List (Option Ret) × List (Option H)), ths'.map Thread.result = res.map some →
            live h' ≤ sumOver size (sss.flatten ++ keepIf (fun j => cmdss.length ≤ owner j) 0 ss)

theorem memory_of_refines {impl : Impl L H Op Ret} {new : σ} {step : σ → Op → Res (Ret × Effect σ)} {R : H → σ → List (Item L) → Prop}
    {size : σ → Nat} (hr : ∀ A, impl.Refines A new step R) (hw : ∀ x s ρ, R x s ρ → weight ρ ≤ size s) : MemoryFollows impl new step size := by
  intro A setup rs ss he
  obtain ⟨hs, h, d, ρ, e1, hh, ho⟩ := (hr A).runs he
  refine ⟨hs, h, d, e1, Nat.le_trans ho.live_le (hh.weight_le hw), ?_⟩
  intro owner cmdss rss sss l1 l2 hp sched
  obtain ⟨ths', h', e2, sys⟩ := ((hr A).system hh ho owner cmdss rss sss l1 l2 hp).run sched
  refine ⟨ths', h', e2, fun res hres => ?_⟩
  obtain ⟨ρ', e3, ho', -⟩ := sys.quiet (hr A) res hres
  exact Nat.le_trans ho'.live_le (e3.weight_le hw)

end

/-- C70 for `List`: two cells per element, and one more unless the list is empty. -/
theorem C70_list_memory (T : Type) :
    MemoryFollows (listImpl T) ([] : List T) (fun xs op => .ok (Spec.listStep xs op)) (fun xs => 2 * xs.length + min xs.length 1) :=
  memory_of_refines (fun _ => listImpl_refines) fun _ _ _ h => h.weight_le

/-- C70 for `Stack`. -/
theorem C70_stack_memory (T : Type) :
    MemoryFollows (stackImpl T) ([] : List T) (fun xs op => .ok (Spec.stackStep xs op)) (fun xs => 2 * xs.length + min xs.length 1) :=
  memory_of_refines (fun _ => stackImpl_refines) fun _ _ _ h => ListIs.weight_le h

/-- C70 for `Queue`: two cells per element, and one more for each of its two lists that is not empty. -/
theorem C70_queue_memory (T : Type) :
    MemoryFollows (queueImpl T) ([] : List T) (fun xs op => .ok (Spec.queueStep xs op)) (fun xs => 2 * xs.length + min xs.length 2) :=
  memory_of_refines (fun _ => queueImpl_refines) fun _ _ _ h => h.weight_le

/-- C70 for `Vector` with `bits`: one cell per element, one node for every `2 ^ bits - 1` of them, and one node for each level. -/
theorem C70_vector_memory (T : Type) (Ar : Arch) (bits : Nat) (h0 : 0 < bits) (hW : bits < Ar.W) :
    MemoryFollows (vecImpl Ar T bits) (vecCap Ar bits, ([] : List T)) Spec.vecStep
      (fun s => s.2.length + s.2.length / (2 ^ bits - 1) + Nat.log2 s.2.length / bits + 1) := by
  refine memory_of_refines (R := fun hv s ρ => VecIs Ar hv s ρ ∧ hv.bits = bits)
    (fun A => (vecImpl_refines Ar A h0 hW).keeping (I := fun v => v.bits = bits) ⟨1, ?_⟩ ?_) ?_
  · refine Allocs.bind allocs_lift ?_
    intro _ n h1
    simp only [Uses] at h1
    refine Allocs.bind (allocs_new (by omega)) fun _ _ _ => rfl
  · rintro hv ⟨cap, xs⟩ ρ op ⟨v, h, ⟨t, rfl, -, -⟩, h2, h3⟩ hb
    have := allocs_vecHStep (Ar := Ar) (by omega) ⟨t.addr, v.bits, v.length⟩ op
    simp only at hb
    refine ⟨_, this.imp fun _ _ h => ?_⟩
    rw [hb] at h
    exact h
  · rintro hv s ρ ⟨h1, h2⟩
    have := h1.weight_le
    rwa [h2] at this

/-- C70 for `RedBlackTreeMap`: two cells per entry. -/
theorem C70_rb_map_memory (K V Q : Type) (Ar : Arch) (o : OrdKeys K Q) (lo : o.Lawful) :
    MemoryFollows (rbImpl Ar o) ([] : List (K × V)) (Spec.ordMapStep Ar.W o) (fun l => 2 * l.length) :=
  memory_of_refines (fun A => rbImpl_refines Ar lo A) fun _ _ _ ⟨_, h1, h2⟩ => Nat.le_of_eq (h1.weight_eq h2)

/-- C70 for `RedBlackTreeSet`. -/
theorem C70_rb_set_memory (T Q : Type) (Ar : Arch) (o : OrdKeys T Q) (lo : o.Lawful) :
    MemoryFollows (rbSetImpl Ar o) ([] : List T) (Spec.ordSetStep Ar.W o) (fun l => 2 * l.length) := by
  refine memory_of_refines (fun A => rbSetImpl_refines Ar lo A) ?_
  rintro x l ρ ⟨_, ⟨m, h1, h2⟩, rfl⟩
  have := h1.weight_eq h2
  rw [show (Spec.unitPairs l).length = l.length by simp [Spec.unitPairs]] at this
  exact Nat.le_of_eq this

section hash
open HT
variable {H : Type}

/-- C70 for `HashTrieMap`: at most four and a half cells per entry, half a branch per entry at each level, and the root. -/
theorem C70_hash_map_memory (K V Q : Type) (Ar : Arch) (o : HashKeys H K Q) (lo : o.Lawful) (hasher : H) (degree : Nat) (h2 : 2 ≤ degree)
    (m : HTMap H K V) (hm : HTMap.newWithDegree Ar hasher degree = .ok m) :
    MemoryFollows (htImpl Ar o hasher degree) ([] : List (K × V)) (Spec.finMapStep o)
      (fun l => l.length * (63 / Nat.log2 degree + 9) / 2 + 1) := by
  obtain ⟨k, rfl, c, hW, rfl⟩ := conf_of_new hm h2
  rw [Nat.log2_two_pow]
  exact memory_of_refines (fun A => htImpl_refines Ar lo c hW hasher A) fun _ _ _ ⟨_, h1, h2⟩ => h1.weight_le h2

/-- C70 for `HashTrieSet`. -/
theorem C70_hash_set_memory (T Q : Type) (Ar : Arch) (o : HashKeys H T Q) (lo : o.Lawful) (hasher : H) (degree : Nat) (h2 : 2 ≤ degree)
    (m : HTMap H T Unit) (hm : HTMap.newWithDegree Ar hasher degree = .ok m) :
    MemoryFollows (htSetImpl Ar o hasher degree) ([] : List T) (Spec.finSetStep o)
      (fun l => l.length * (63 / Nat.log2 degree + 9) / 2 + 1) := by
  obtain ⟨k, rfl, c, hW, rfl⟩ := conf_of_new hm h2
  rw [Nat.log2_two_pow]
  refine memory_of_refines (fun A => htSetImpl_refines Ar lo c hW hasher A) ?_
  rintro x l ρ ⟨_, ⟨m, h1, h2⟩, rfl⟩
  have := h1.weight_le h2
  rwa [show (Spec.unitPairs l).length = l.length by simp [Spec.unitPairs]] at this

end hash

/-! ### Non-vacuity -/

-- a list of three elements, the same list after two removals, and three versions of it
example : inUse (listImpl Nat) 400 exList3 = some 6 ∧ inUse (listImpl Nat) 400 (exList3 ++ [.run 0 .dropFirstMut, .run 0 .dropFirstMut]) = some 2 ∧
    inUse (listImpl Nat) 400 (exList3 ++ [.run 0 .dropFirst, .run 1 .dropFirst]) = some 6 ∧
    sumOver (fun xs : List Nat => 2 * xs.length + min xs.length 1) [some [3, 2, 1], some [2, 1], some [1]] = 15 := by decide +kernel
-- the list of a queue whose nodes are all shared with nobody: the last element is the one that the last node points to
example : inUse (queueImpl Nat) 400 ([.new] ++ (List.range 4).map fun i => .run 0 (.enqueueMut i)) = some 8 ∧
    inUse (queueImpl Nat) 400 ([.new] ++ (List.range 4).map (fun i => .run 0 (.enqueueMut i)) ++ [.run 0 .dequeueMut]) = some 6 := by decide +kernel
-- vectors of 9, 5, 1 and 0 elements, the last two of which had eight before; the bounds are 22, 13, 3 and 1
example : inUse (vecImpl ⟨.debug, 64⟩ Nat 1) 500 (exVecN 9) = some 20 ∧ inUse (vecImpl ⟨.debug, 64⟩ Nat 1) 500 (exVecN 5) = some 11 ∧
    inUse (vecImpl ⟨.debug, 64⟩ Nat 1) 900 (exVecN 8 ++ List.replicate 7 (.run 0 .dropLastMut) ++ [.discard 1]) = some 2 ∧
    inUse (vecImpl ⟨.debug, 64⟩ Nat 1) 900 (exVecN 8 ++ List.replicate 8 (.run 0 .dropLastMut) ++ [.discard 1]) = some 1 ∧
    [9, 5, 1, 0].map (fun n => n + n / (2 ^ 1 - 1) + Nat.log2 n / 1 + 1) = [22, 13, 3, 1] := by decide +kernel
-- a map from which all but one of seven entries are removed
example : inUse (rbImpl ⟨.debug, 64⟩ exOrd) 1700 (exRBN 7 ++ (.discard 1 :: (List.range 6).map fun i => .run 0 (.base (.removeMut i)))) = some 2 := by
  decide +kernel

open HT
-- two keys with the same hash take a branch on each of eleven levels; when all but one of five are removed, the branches are gone; the
-- bounds are 20, 10 and 1
example : inUse (htImpl ⟨.debug, 64⟩ exKeys 1 64) 2500 (exHTN 2) = some 18 ∧
    inUse (htImpl ⟨.debug, 64⟩ exKeys 1 64) 2500 (exHTN 5 ++ (.discard 1 :: (List.range 4).map fun i => .run 0 (.base (.removeMut i)))) = some 2 ∧
    inUse (htImpl ⟨.debug, 64⟩ exKeys 1 64) 2500 (exHTN 5 ++ (.discard 1 :: (List.range 5).map fun i => .run 0 (.base (.removeMut i)))) = some 1 ∧
    [2, 1, 0].map (fun n => n * (63 / Nat.log2 64 + 9) / 2 + 1) = [20, 10, 1] := by decide +kernel

end Props
end Rpds
