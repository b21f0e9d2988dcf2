import Verif.Props.HeapHash
import Verif.Heap.SharedVector
import Verif.Heap.SharedTrees
/-
Handles shared by threads through `&` (C59).
-/
set_option autoImplicit false
namespace Rpds
namespace Props
open Heap Heap.HT

section
variable {L H Op Ret σ : Type}

/-- One thread makes handles and then lends those at the positions `sh` to any number of threads at once, through `&`, and gives away
others.  Whatever these threads do, where they use the lent handles only in operations that take `&self` (`byRef`) and do not drop
them: every interleaving runs without fault, what is behind the lent handles stays as it is cell by cell at all times, every
thread that finishes got the answers it would have got running alone, namely those of the plain values, every thread that is scheduled
again and again finishes, and when all threads have finished the memory is exactly what the handles they made or own, the
lent handles and the handles nobody was given keep alive. -/
def ThreadsShare (impl : Impl L H Op Ret) (byRef : Op → Bool) (new : σ) (step : σ → Op → Res (Ret × Effect σ)) : Prop :=
  ∀ (A : Allocator L) (setup : List (Cmd Op)) (rs : List (Option Ret)) (ss : List (Option σ)),
    pureClient new step [] setup = .ok (rs, ss) →
    ∃ (hs : List (Option H)) (h : Mem L) (d : Nat), Runs A (client impl [] setup) [] (rs, hs) h d ∧
      ∀ (sh : Nat → Bool) (owner : Nat → Nat) (cmdss : List (List (Cmd Op))) (rss : List (List (Option Ret)))
        (sss : List (List (Option σ))), (∀ j, sh j = true → j < ss.length) → (∀ cmds ∈ cmdss, Respects sh byRef cmds) →
        rss.length = cmdss.length → sss.length = cmdss.length →
        (∀ (i : Nat) (cmds : List (Cmd Op)) (rs : List (Option Ret)) (ss' : List (Option σ)), cmdss[i]? = some cmds →
          rss[i]? = some rs → sss[i]? = some ss' → pureClient new step (lentTo sh owner i ss) cmds = .ok (rs, ss')) →
        (∀ sched : List Nat, ∃ ths' h', runThreads A sched (sharingThreads impl sh owner hs 0 cmdss) h = .ok (ths', h') ∧
          (∀ (j : Nat) (x : H) (t : ATree L), sh j = true → hs[j]? = some (some x) → t.addr ∈ impl.ptrs x → Val h t → Val h' t) ∧
          (∀ (i : Nat) (th : Thread L (List (Option Ret) × List (Option H))) (r : List (Option Ret) × List (Option H)),
            ths'[i]? = some th → th.result = some r → rss[i]? = some r.1) ∧
          (∀ res : List (List (Option Ret) × List (Option H)), ths'.map Thread.result = res.map some →
            Exact h' (ptrsOf impl ((res.map fun r => owned sh r.2).flatten ++ (lentOf sh hs ++ idleOf sh owner cmdss.length hs))))) ∧
        (∀ i, i < cmdss.length → ∀ s : Nat → Nat, (∀ n, ∃ m, n ≤ m ∧ s m = i) →
          ∃ n ths' h' th r, runThreads A (prefixOf s n) (sharingThreads impl sh owner hs 0 cmdss) h = .ok (ths', h') ∧
            ths'[i]? = some th ∧ th.result = some r)

variable {impl : Impl L H Op Ret} {new : σ} {step : σ → Op → Res (Ret × Effect σ)} {R : H → σ → List (Item L) → Prop}
  {byRef : Op → Bool}

theorem share_of_lends (hr : ∀ A, impl.Refines A new step R) (hl : ∀ A, impl.Lends A step R byRef) :
    ThreadsShare impl byRef new step := by
  intro A setup rs ss he
  obtain ⟨hs, h, d, ρ, e1, hh, ho⟩ := (hr A).runs he
  refine ⟨hs, h, d, e1, ?_⟩
  intro sh owner cmdss rss sss hsh hc l1 l2 hp
  have sys := Impl.Lends.system (hr A) (hl A) hh ho sh hsh owner cmdss hc rss sss l1 l2 hp
  refine ⟨?_, ?_⟩
  · intro sched
    obtain ⟨ths', h', e2, sys', e3⟩ := sys.run (hr A) sched
    refine ⟨ths', h', e2, ?_, fun i th r hi hres => sys'.answer hi hres, ?_⟩
    · intro j x t hj hx
      refine e3 j x t ?_
      rw [lentOf, keepIf_getElem?, Nat.zero_add]
      simp only [hj, if_true, hx, Option.map_some]
    · intro res hres
      obtain ⟨_, _, _, e4⟩ := sys'.quiet (hr A) res hres
      exact e4
  · intro i hi s hs'
    exact sys.finishes (by rw [sharingThreads_length]; exact hi) s hs'

end

/-- C59 for `ListSync`. -/
theorem C59_list_shared (T : Type) :
    ThreadsShare (listImpl T) listByRef ([] : List T) fun xs op => .ok (Spec.listStep xs op) :=
  share_of_lends (fun _ => listImpl_refines) fun _ => listImpl_lends

/-- C59 for `StackSync`. -/
theorem C59_stack_shared (T : Type) :
    ThreadsShare (stackImpl T) stackByRef ([] : List T) fun xs op => .ok (Spec.stackStep xs op) :=
  share_of_lends (fun _ => stackImpl_refines) fun _ => stackImpl_lends

/-- C59 for `QueueSync`. -/
theorem C59_queue_shared (T : Type) :
    ThreadsShare (queueImpl T) queueByRef ([] : List T) fun xs op => .ok (Spec.queueStep xs op) :=
  share_of_lends (fun _ => queueImpl_refines) fun _ => queueImpl_lends

/-- C59 for `VectorSync`. -/
theorem C59_vector_shared (T : Type) (Ar : Arch) (bits : Nat) (h0 : 0 < bits) (hW : bits < Ar.W) :
    ThreadsShare (vecImpl Ar T bits) vecByRef (vecCap Ar bits, ([] : List T)) Spec.vecStep :=
  share_of_lends (fun A => vecImpl_refines Ar A h0 hW) fun _ => vecImpl_lends h0 hW

/-- C59 for `RedBlackTreeMapSync`. -/
theorem C59_rb_map_shared (K V Q : Type) (Ar : Arch) (o : OrdKeys K Q) (lo : o.Lawful) :
    ThreadsShare (rbImpl Ar o) rbByRef ([] : List (K × V)) (Spec.ordMapStep Ar.W o) :=
  share_of_lends (fun A => rbImpl_refines Ar lo A) fun A => rbImpl_lends Ar lo A

/-- C59 for `RedBlackTreeSetSync`. -/
theorem C59_rb_set_shared (T Q : Type) (Ar : Arch) (o : OrdKeys T Q) (lo : o.Lawful) :
    ThreadsShare (rbSetImpl Ar o) rbSetByRef ([] : List T) (Spec.ordSetStep Ar.W o) :=
  share_of_lends (fun A => rbSetImpl_refines Ar lo A) fun A => rbSetImpl_lends Ar lo A

/-- C59 for `HashTrieMapSync`. -/
theorem C59_hash_map_shared {H : Type} (K V Q : Type) (Ar : Arch) (o : HashKeys H K Q) (lo : o.Lawful) (hasher : H) (degree : Nat)
    (h2 : 2 ≤ degree) (m : HTMap H K V) (hm : HTMap.newWithDegree Ar hasher degree = .ok m) :
    ThreadsShare (htImpl Ar o hasher degree) htByRef ([] : List (K × V)) (Spec.finMapStep o) ∧
    ThreadsShare (htImpl Ar o hasher degree) htByRef m (HTMap.stepAll Ar o) := by
  obtain ⟨k, rfl, c, hW, rfl⟩ := conf_of_new hm h2
  exact ⟨share_of_lends (fun A => htImpl_refines Ar lo c hW hasher A) fun A => htImpl_lends Ar lo c hW hasher A,
    share_of_lends (fun A => htImpl_refines_model Ar lo c hW hasher A) fun A => htImpl_lends_model Ar lo c hW hasher A⟩

/-- C59 for `HashTrieSetSync`. -/
theorem C59_hash_set_shared {H : Type} (T Q : Type) (Ar : Arch) (o : HashKeys H T Q) (lo : o.Lawful) (hasher : H) (degree : Nat)
    (h2 : 2 ≤ degree) (m : HTMap H T Unit) (hm : HTMap.newWithDegree Ar hasher degree = .ok m) :
    ThreadsShare (htSetImpl Ar o hasher degree) htSetByRef ([] : List T) (Spec.finSetStep o) ∧
    ThreadsShare (htSetImpl Ar o hasher degree) htSetByRef m (htSetStepAll Ar o) := by
  obtain ⟨k, rfl, c, hW, rfl⟩ := conf_of_new hm h2
  exact ⟨share_of_lends (fun A => htSetImpl_refines Ar lo c hW hasher A) fun A => htSetImpl_lends Ar lo c hW hasher A,
    share_of_lends (fun A => htSetImpl_refines_model Ar lo c hW hasher A) fun A => htSetImpl_lends_model Ar lo c hW hasher A⟩

/-! ### Non-vacuity -/

/-- Answers and memory after `setup` in one thread and `sched` in threads that all have the first handle through `&`. -/
def interleavedSharing {L H Op Ret : Type} (impl : Impl L H Op Ret) (n : Nat) (setup : List (Cmd Op))
    (cmdss : List (List (Cmd Op))) (sched : List Nat) : Option (List (Option (List (Option Ret))) × Mem L) :=
  match outcome (bump L) n (client impl [] setup) [] with
  | some (r, h, _) =>
    match runThreads (bump L) sched (sharingThreads impl (· == 0) (fun _ => 2) r.2 0 cmdss) h with
    | .ok (ths, h') => some (ths.map fun th => th.result.map (·.1), h')
    | .error _ => none
  | none => none

-- two threads make new lists from the same list, one drops its own; the lent list keeps its cells (0 to 3), the new node (5)
-- points to it
example : Respects (· == 0) listByRef [.run 0 (.pushFront 7), .run 0 (.iter 2)] ∧
    Respects (· == 0) listByRef [.run 0 .reverse, .run 0 .dropFirst, .run 1 (.pushFrontMut 3), .discard 1] := by
  simp [Respects, listByRef]
set_option synthInstance.maxSize 1000 in
example : interleavedSharing (listImpl Nat) 40 [.new, .run 0 (.pushFrontMut 1), .run 0 (.pushFrontMut 2)]
    [[.run 0 (.pushFront 7), .run 0 (.iter 2)], [.run 0 .reverse, .run 0 .dropFirst, .discard 1]]
    (List.replicate 60 [0, 1]).flatten =
    some ([some [some .unit, some (.calls 2 [(some 2, 1), (some 1, 0)])], some [some .unit, some (.bool true), none]],
      [.closed 4 (.val 1) [], .closed 2 .node [0], .closed 1 (.val 2) [], .closed 2 .node [2, 1], .closed 1 (.val 7) [],
        .closed 1 .node [4, 3], .free, .free]) := by
  decide +kernel
-- not so for operations that take `&mut self`: two threads that reverse the same list in place fault
example : interleavedSharing (listImpl Nat) 40 [.new, .run 0 (.pushFrontMut 1), .run 0 (.pushFrontMut 2)]
    [[.run 0 .reverseMut], [.run 0 .reverseMut]] (List.replicate 60 [0, 1]).flatten = none := by
  decide +kernel
-- queues: both threads take the front element off the same queue
example : (interleavedSharing (queueImpl Nat) 60 [.new, .run 0 (.enqueueMut 1), .run 0 (.enqueueMut 2)]
    [[.run 0 .dequeue, .run 1 .peek], [.run 0 .dequeue, .run 1 .peek, .run 0 .peek]] (List.replicate 80 [0, 1]).flatten).map (·.1) =
    some [some [some (.bool true), some (.opt (some 2))], some [some (.bool true), some (.opt (some 2)), some (.opt (some 1))]] := by
  decide +kernel
-- vectors: the lent vector is in the cells 0 to 5
set_option synthInstance.maxSize 1000 in
example : interleavedSharing (vecImpl ⟨.debug, 64⟩ Nat 1) 90 (exVecCmds.take 4)
    [[.run 0 (.set 0 7), .run 1 (.get 0), .run 0 (.get 0)], [.run 0 .dropLast, .run 1 .len, .run 0 .len]]
    (List.replicate 60 [0, 1]).flatten =
    some ([some [some (.bool true), some (.opt (some 7)), some (.opt (some 1))],
        some [some (.bool true), some (.nat 2), some (.nat 3)]],
      [.closed 2 .leaf [1, 2], .closed 1 (.val 1) [], .closed 2 (.val 2) [], .closed 1 .branch [0, 5], .closed 1 (.val 3) [],
        .closed 2 .leaf [4], .closed 1 .branch [9, 5], .free, .free, .closed 1 .leaf [10, 2], .closed 1 (.val 7) []]) := by
  decide +kernel
-- red-black maps: the lent map is in the cells 0 to 5
set_option synthInstance.maxSize 1000 in
example : interleavedSharing (rbImpl ⟨.debug, 64⟩ exOrd) 300 (exRBCmds.take 4)
    [[.run 0 (.base (.insert (2, "z") 7)), .run 1 (.base (.get 2)), .run 0 (.base (.get 2))],
      [.run 0 (.base (.remove 2)), .run 1 (.base .size), .run 0 (.base .size)]] (List.replicate 60 [0, 1]).flatten =
    some ([some [some (.base .unit), some (.base (.optV (some 7))), some (.base (.optV (some 20)))],
        some [some (.base .unit), some (.base (.nat 2)), some (.base (.nat 3))]],
      [.closed 2 (.entry (1, "a") 10) [], .closed 1 (.node .black true true) [2, 3, 5], .closed 1 (.entry (2, "b") 20) [],
        .closed 2 (.node .black false false) [0], .closed 2 (.entry (3, "c") 30) [], .closed 2 (.node .black false false) [4],
        .closed 1 (.node .black true true) [8, 3, 5], .closed 1 (.node .black false true) [0, 9], .closed 1 (.entry (2, "z") 7) [],
        .closed 1 (.node .red false false) [4], .free]) := by
  decide +kernel
-- hash maps: the root of the lent map (cell 0) stays, the subtree of the colliding keys (cell 2) is in all three maps
set_option synthInstance.maxSize 5000 in
example : (interleavedSharing (htImpl ⟨.debug, 64⟩ exKeys 10 64) 900 (exHTCmds.take 4)
    [[.run 0 (.base (.insert (2, "z") 7)), .run 1 (.base (.get 2)), .run 0 (.base (.get 2))],
      [.run 0 (.base (.remove 2)), .run 1 (.base .size), .run 0 (.base .size)]] (List.replicate 200 [0, 1]).flatten).map
    (fun x => (x.1, x.2[0]?, x.2[2]?, x.2[21]?, x.2[22]?)) =
    some ([some [some (.base .unit), some (.base (.optV (some 7))), some (.base (.optV (some 20)))],
        some [some (.base .unit), some (.base (.nat 2)), some (.base (.nat 3))]],
      some (.closed 1 (.branch 6) [2, 4]), some (.closed 3 (.branch 1) [6]), some (.closed 1 (.branch 2) [2]),
      some (.closed 1 (.branch 6) [2, 24])) := by
  decide +kernel

end Props
end Rpds
