import Verif.Props.Footprint
import Verif.Props.Shared
/-
Memory follows the contents (C70), for handles that are lent to several threads through `&`.
-/
set_option autoImplicit false
namespace Rpds
namespace Heap

section
variable {L α : Type} {A : Allocator L}

/-- A property of results that does not depend on the memory may be added to what is known of a program that borrows. -/
theorem SafeB.and_allocs {D : Option Nat} {B : List (Item L)} {Q : α → List (Item L) → Prop} {P : α → Nat → Prop} {prog : Prog L α}
    {ρ : List (Item L)} {n : Nat} (hs : SafeB A D B Q prog ρ) (ha : Allocs P prog n) :
    SafeB A D B (fun x σ => Q x σ ∧ ∃ m, P x m) prog ρ := by
  induction prog generalizing ρ n with
  | ret r =>
    obtain ⟨σ, h1, h2⟩ := hs
    exact ⟨σ, h1, h2, n, ha⟩
  | panic => exact hs
  | op a k ih =>
    refine ⟨hs.1, fun h F ho => ?_⟩
    obtain ⟨x, h', ρ', h1, h2, h3⟩ := hs.2 h F ho
    exact ⟨x, h', ρ', h1, h2, ih x h3 (ha.2 x)⟩
  | drop p k ih =>
    obtain ⟨t, τ, h1, h2, h3, h4⟩ := hs
    exact ⟨t, τ, h1, h2, h3, ih h4 ha⟩

variable {H Op Ret σ : Type} {R : H → σ → List (Item L) → Prop}

/-- A property of handles that all operations keep may be added to the representation of lent handles. -/
theorem Impl.Lends.keeping {impl : Impl L H Op Ret} {step : σ → Op → Res (Ret × Effect σ)} {byRef : Op → Bool} {I : H → Prop}
    (hl : impl.Lends A step R byRef)
    (hc : ∀ h s ρ op, R h s ρ → I h → ∃ n, Allocs (fun x _ => Effect.Keeps I x.2) (impl.step h op) n) :
    impl.Lends A step (fun h s ρ => R h s ρ ∧ I h) byRef where
  step := by
    rintro h s β op r e ⟨h1, h2⟩ hb he
    obtain ⟨n, hc⟩ := hc h s β op h1 h2
    refine ((hl.step h s β op r e h1 hb he).and_allocs hc).imp ?_
    rintro ⟨x, f⟩ τ ⟨⟨rfl, h3⟩, m, h4⟩
    refine ⟨rfl, ?_⟩
    cases h3 with
    | keep => exact .keep
    | fresh h5 => exact .fresh ⟨h5, h4⟩

end
end Heap

namespace Props
open Heap

section
variable {L H Op Ret σ : Type}

/-- As `MemoryFollows`, where the handles at the positions `sh` are lent to all threads at once through `&`, as in `ThreadsShare`: when
the threads have finished, what is in use is at most `size s` cells for each handle that a thread made or was given and still has,
each lent handle, and each handle nobody was given. -/
def MemoryFollowsShared (impl : Impl L H Op Ret) (byRef : Op → Bool) (new : σ) (step : σ → Op → Res (Ret × Effect σ)) (size : σ → Nat) : Prop :=
  ∀ (A : Allocator L) (setup : List (Cmd Op)) (rs : List (Option Ret)) (ss : List (Option σ)),
    pureClient new step [] setup = .ok (rs, ss) →
    ∃ (hs : List (Option H)) (h : Mem L) (d : Nat), Runs A (client impl [] setup) [] (rs, hs) h d ∧
      ∀ (sh : Nat → Bool) (owner : Nat → Nat) (cmdss : List (List (Cmd Op))) (rss : List (List (Option Ret)))
        (sss : List (List (Option σ))), (∀ j, sh j = true → j < ss.length) → (∀ cmds ∈ cmdss, Respects sh byRef cmds) →
        rss.length = cmdss.length → sss.length = cmdss.length →
        (∀ (i : Nat) (cmds : List (Cmd Op)) (rs : List (Option Ret)) (ss' : List (Option σ)), cmdss[i]? = some cmds →
          rss[i]? = some rs → sss[i]? = some ss' → pureClient new step (lentTo sh owner i ss) cmds = .ok (rs, ss')) →
        ∀ sched : List Nat, ∃ ths' h', runThreads A sched (sharingThreads impl sh owner hs 0 cmdss) h = .ok (ths', h') ∧
          ∀ res : List (List (Option Ret) × List (Option H)), ths'.map Thread.result = res.map some →
            live h' ≤ sumOver size ((sss.map (owned sh)).flatten ++ (lentOf sh ss ++ idleOf sh owner cmdss.length ss))

theorem memory_of_lends {impl : Impl L H Op Ret} {byRef : Op → Bool} {new : σ} {step : σ → Op → Res (Ret × Effect σ)}
    {R : H → σ → List (Item L) → Prop} {size : σ → Nat} (hr : ∀ A, impl.Refines A new step R) (hl : ∀ A, impl.Lends A step R byRef)
    (hw : ∀ x s ρ, R x s ρ → weight ρ ≤ size s) : MemoryFollowsShared impl byRef new step size := by
  intro A setup rs ss he
  obtain ⟨hs, h, d, ρ, e1, hh, ho⟩ := (hr A).runs he
  refine ⟨hs, h, d, e1, ?_⟩
  intro sh owner cmdss rss sss hsh hc l1 l2 hp sched
  obtain ⟨ths', h', e2, sys, -⟩ := (Impl.Lends.system (hr A) (hl A) hh ho sh hsh owner cmdss hc rss sss l1 l2 hp).run (hr A) sched
  refine ⟨ths', h', e2, fun res hres => ?_⟩
  obtain ⟨ρ', e3, ho', -⟩ := sys.quiet (hr A) res hres
  exact Nat.le_trans ho'.live_le (e3.weight_le hw)

end

/-- C70 for lent handles of `List`: two cells per element, and one more unless the list is empty. -/
theorem C70_list_memory_shared (T : Type) :
    MemoryFollowsShared (listImpl T) listByRef ([] : List T) (fun xs op => .ok (Spec.listStep xs op)) (fun xs => 2 * xs.length + min xs.length 1) :=
  memory_of_lends (fun _ => listImpl_refines) (fun _ => listImpl_lends) fun _ _ _ h => h.weight_le

/-- C70 for lent handles of `Stack`. -/
theorem C70_stack_memory_shared (T : Type) :
    MemoryFollowsShared (stackImpl T) stackByRef ([] : List T) (fun xs op => .ok (Spec.stackStep xs op)) (fun xs => 2 * xs.length + min xs.length 1) :=
  memory_of_lends (fun _ => stackImpl_refines) (fun _ => stackImpl_lends) fun _ _ _ h => ListIs.weight_le h

/-- C70 for lent handles of `Queue`: two cells per element, and one more for each of its two lists that is not empty. -/
theorem C70_queue_memory_shared (T : Type) :
    MemoryFollowsShared (queueImpl T) queueByRef ([] : List T) (fun xs op => .ok (Spec.queueStep xs op)) (fun xs => 2 * xs.length + min xs.length 2) :=
  memory_of_lends (fun _ => queueImpl_refines) (fun _ => queueImpl_lends) fun _ _ _ h => h.weight_le

/-- C70 for lent handles of `Vector` with `bits`: one cell per element, one node for every `2 ^ bits - 1` of them, and one node for each level. -/
theorem C70_vector_memory_shared (T : Type) (Ar : Arch) (bits : Nat) (h0 : 0 < bits) (hW : bits < Ar.W) :
    MemoryFollowsShared (vecImpl Ar T bits) vecByRef (vecCap Ar bits, ([] : List T)) Spec.vecStep
      (fun s => s.2.length + s.2.length / (2 ^ bits - 1) + Nat.log2 s.2.length / bits + 1) := by
  have hk : ∀ (hv : HVector) (s : Nat × List T) ρ op, VecIs Ar hv s ρ → hv.bits = bits →
      ∃ n, Allocs (fun x _ => Effect.Keeps (fun v : HVector => v.bits = bits) x.2) ((vecImpl Ar T bits).step hv op) n := by
    rintro hv ⟨cap, xs⟩ ρ op ⟨v, h, ⟨t, rfl, -, -⟩, h2, h3⟩ hb
    have := allocs_vecHStep (Ar := Ar) (by omega) ⟨t.addr, v.bits, v.length⟩ op
    simp only at hb
    refine ⟨_, this.imp fun _ _ h => ?_⟩
    rw [hb] at h
    exact h
  refine memory_of_lends (R := fun hv s ρ => VecIs Ar hv s ρ ∧ hv.bits = bits)
    (fun A => (vecImpl_refines Ar A h0 hW).keeping (I := fun v => v.bits = bits) ⟨1, ?_⟩ hk)
    (fun A => (vecImpl_lends h0 hW).keeping (I := fun v => v.bits = bits) hk) ?_
  · refine Allocs.bind allocs_lift ?_
    intro _ n h1
    simp only [Uses] at h1
    refine Allocs.bind (allocs_new (by omega)) fun _ _ _ => rfl
  · rintro hv s ρ ⟨h1, h2⟩
    have := h1.weight_le
    rwa [h2] at this

/-- C70 for lent handles of `RedBlackTreeMap`: two cells per entry. -/
theorem C70_rb_map_memory_shared (K V Q : Type) (Ar : Arch) (o : OrdKeys K Q) (lo : o.Lawful) :
    MemoryFollowsShared (rbImpl Ar o) rbByRef ([] : List (K × V)) (Spec.ordMapStep Ar.W o) (fun l => 2 * l.length) :=
  memory_of_lends (fun A => rbImpl_refines Ar lo A) (fun A => rbImpl_lends Ar lo A) fun _ _ _ ⟨_, h1, h2⟩ => Nat.le_of_eq (h1.weight_eq h2)

/-- C70 for lent handles of `RedBlackTreeSet`. -/
theorem C70_rb_set_memory_shared (T Q : Type) (Ar : Arch) (o : OrdKeys T Q) (lo : o.Lawful) :
    MemoryFollowsShared (rbSetImpl Ar o) rbSetByRef ([] : List T) (Spec.ordSetStep Ar.W o) (fun l => 2 * l.length) := by
  refine memory_of_lends (fun A => rbSetImpl_refines Ar lo A) (fun A => rbSetImpl_lends Ar lo A) ?_
  rintro x l ρ ⟨_, ⟨m, h1, h2⟩, rfl⟩
  have := h1.weight_eq h2
  rw [show (Spec.unitPairs l).length = l.length by simp [Spec.unitPairs]] at this
  exact Nat.le_of_eq this

section hash
open HT
variable {H : Type}

/-- C70 for lent handles of `HashTrieMap`: at most four and a half cells per entry, half a branch per entry at each level, and the root. -/
theorem C70_hash_map_memory_shared (K V Q : Type) (Ar : Arch) (o : HashKeys H K Q) (lo : o.Lawful) (hasher : H) (degree : Nat) (h2 : 2 ≤ degree)
    (m : HTMap H K V) (hm : HTMap.newWithDegree Ar hasher degree = .ok m) :
    MemoryFollowsShared (htImpl Ar o hasher degree) htByRef ([] : List (K × V)) (Spec.finMapStep o)
      (fun l => l.length * (63 / Nat.log2 degree + 9) / 2 + 1) := by
  obtain ⟨k, rfl, c, hW, rfl⟩ := conf_of_new hm h2
  rw [Nat.log2_two_pow]
  exact memory_of_lends (fun A => htImpl_refines Ar lo c hW hasher A) (fun A => htImpl_lends Ar lo c hW hasher A) fun _ _ _ ⟨_, h1, h2⟩ => h1.weight_le h2

/-- C70 for lent handles of `HashTrieSet`. -/
theorem C70_hash_set_memory_shared (T Q : Type) (Ar : Arch) (o : HashKeys H T Q) (lo : o.Lawful) (hasher : H) (degree : Nat) (h2 : 2 ≤ degree)
    (m : HTMap H T Unit) (hm : HTMap.newWithDegree Ar hasher degree = .ok m) :
    MemoryFollowsShared (htSetImpl Ar o hasher degree) htSetByRef ([] : List T) (Spec.finSetStep o)
      (fun l => l.length * (63 / Nat.log2 degree + 9) / 2 + 1) := by
  obtain ⟨k, rfl, c, hW, rfl⟩ := conf_of_new hm h2
  rw [Nat.log2_two_pow]
  refine memory_of_lends (fun A => htSetImpl_refines Ar lo c hW hasher A) (fun A => htSetImpl_lends Ar lo c hW hasher A) ?_
  rintro x l ρ ⟨_, ⟨m, h1, h2⟩, rfl⟩
  have := h1.weight_le h2
  rwa [show (Spec.unitPairs l).length = l.length by simp [Spec.unitPairs]] at this

end hash

/-! ### Non-vacuity -/

-- a list of two elements is lent to two threads; one keeps a list of three made from it, the other a list of one
example : ((interleavedSharing (listImpl Nat) 40 [.new, .run 0 (.pushFrontMut 1), .run 0 (.pushFrontMut 2)]
    [[.run 0 (.pushFront 7), .run 0 (.iter 2)], [.run 0 .reverse, .run 0 .dropFirst, .discard 1]]
    (List.replicate 60 [0, 1]).flatten).map fun x => live x.2) = some 6 ∧
    sumOver (fun xs : List Nat => 2 * xs.length + min xs.length 1) [some [7, 2, 1], some [1], some [2, 1]] = 15 := by decide +kernel
-- a vector of three elements is lent; one thread sets an element, the other drops the last
example : ((interleavedSharing (vecImpl ⟨.debug, 64⟩ Nat 1) 90 (exVecCmds.take 4)
    [[.run 0 (.set 0 7), .run 1 (.get 0), .run 0 (.get 0)], [.run 0 .dropLast, .run 1 .len, .run 0 .len]]
    (List.replicate 60 [0, 1]).flatten).map fun x => live x.2) = some 9 ∧
    [3, 3, 2].map (fun n => n + n / (2 ^ 1 - 1) + Nat.log2 n / 1 + 1) = [8, 8, 6] := by decide +kernel
-- a map of three entries is lent; one thread replaces an entry, the other removes it
example : ((interleavedSharing (rbImpl ⟨.debug, 64⟩ exOrd) 300 (exRBCmds.take 4)
    [[.run 0 (.base (.insert (2, "z") 7)), .run 1 (.base (.get 2)), .run 0 (.base (.get 2))],
      [.run 0 (.base (.remove 2)), .run 1 (.base .size), .run 0 (.base .size)]] (List.replicate 60 [0, 1]).flatten).map fun x => live x.2) =
    some 10 ∧ [3, 3, 2].map (2 * ·) = [6, 6, 4] := by decide +kernel

end Props
end Rpds
