import Verif.Heap.Race
/-
Properties of the structures on the reference counted heap (C42-C45): persistence, exact reference counts, independence of
threads, nesting of destructors.

`client impl hs cmds` is a program that runs any list of commands (create a handle, apply an operation to a handle, drop a
handle) on the heap implementation `impl`; `pureClient` runs the same commands on plain values, where sharing does not
exist at all.
-/
set_option autoImplicit false
namespace Rpds
namespace Props
open Heap

section
variable {L H Op Ret σ : Type}

/-- A client that runs alone gets the answers of the plain values; and whatever operation is applied to, or whatever
handle is dropped next, the memory behind the pointers of all other handles stays as it is, cell by cell. -/
def Persistent (impl : Impl L H Op Ret) (new : σ) (step : σ → Op → Res (Ret × Effect σ)) : Prop :=
  ∀ (A : Allocator L) (cmds : List (Cmd Op)) (rs : List (Option Ret)) (ss : List (Option σ)),
    pureClient new step [] cmds = .ok (rs, ss) →
    ∃ (hs : List (Option H)) (h : Mem L) (d : Nat), Runs A (client impl [] cmds) [] (rs, hs) h d ∧
      (∀ (i : Nat) (x : H) (s : σ) (op : Op) (r : Ret) (e : Effect σ), hs[i]? = some (some x) → ss[i]? = some (some s) → step s op = .ok (r, e) →
        ∃ y h' d', Runs A (impl.step x op) h y h' d' ∧ y.1 = r ∧
          ∀ (j : Nat) (z : H) (t : ATree L), j ≠ i → hs[j]? = some (some z) → t.addr ∈ impl.ptrs z → Val h t → Val h' t) ∧
      (∀ (i : Nat) (x : H), hs[i]? = some (some x) →
        ∃ h' d', Runs A (impl.drop x) h () h' d' ∧
          ∀ (j : Nat) (z : H) (t : ATree L), j ≠ i → hs[j]? = some (some z) → t.addr ∈ impl.ptrs z → Val h t → Val h' t)

/-- Whatever a client did, and whatever several threads did concurrently: all reference counts are exact, every pointer
in a handle or in a cell leads to an allocated cell, and when no handle is left the memory is empty. -/
def CountsExact (impl : Impl L H Op Ret) (new : σ) (step : σ → Op → Res (Ret × Effect σ)) : Prop :=
  ∀ (A : Allocator L) (setup : List (Cmd Op)) (rs : List (Option Ret)) (ss : List (Option σ)),
    pureClient new step [] setup = .ok (rs, ss) →
    ∃ (hs : List (Option H)) (h : Mem L) (d : Nat), Runs A (client impl [] setup) [] (rs, hs) h d ∧ Exact h (ptrsOf impl hs) ∧
      ((∀ s ∈ ss, s = none) → ∀ a, get h a = .free) ∧
      ∀ (owner : Nat → Nat) (cmdss : List (List (Cmd Op))) (rss : List (List (Option Ret))) (sss : List (List (Option σ))),
        rss.length = cmdss.length → sss.length = cmdss.length →
        (∀ (i : Nat) (cmds : List (Cmd Op)) (rs : List (Option Ret)) (ss' : List (Option σ)), cmdss[i]? = some cmds → rss[i]? = some rs → sss[i]? = some ss' →
          pureClient new step (handlesOf owner i ss) cmds = .ok (rs, ss')) →
        ∀ sched : List Nat, ∃ ths' h', runThreads A sched (threads impl owner hs 0 cmdss) h = .ok (ths', h') ∧
          ∀ res : List (List (Option Ret) × List (Option H)), ths'.map Thread.result = res.map some →
            Exact h' (ptrsOf impl ((res.map (·.2)).flatten ++ keepIf (fun j => cmdss.length ≤ owner j) 0 hs)) ∧
            ((∀ s ∈ sss.flatten ++ keepIf (fun j => cmdss.length ≤ owner j) 0 ss, s = none) → ∀ a, get h' a = .free)

/-- Handles made by one thread are given to any number of threads, which then run their own commands.  Every interleaving
runs without fault, every thread that finishes got the answers it would have got running alone, namely those of the
plain values, and every thread that is scheduled again and again finishes. -/
def ThreadsIndependent (impl : Impl L H Op Ret) (new : σ) (step : σ → Op → Res (Ret × Effect σ)) : Prop :=
  ∀ (A : Allocator L) (setup : List (Cmd Op)) (rs : List (Option Ret)) (ss : List (Option σ)),
    pureClient new step [] setup = .ok (rs, ss) →
    ∃ (hs : List (Option H)) (h : Mem L) (d : Nat), Runs A (client impl [] setup) [] (rs, hs) h d ∧
      ∀ (owner : Nat → Nat) (cmdss : List (List (Cmd Op))) (rss : List (List (Option Ret))) (sss : List (List (Option σ))),
        rss.length = cmdss.length → sss.length = cmdss.length →
        (∀ (i : Nat) (cmds : List (Cmd Op)) (rs : List (Option Ret)) (ss' : List (Option σ)), cmdss[i]? = some cmds → rss[i]? = some rs → sss[i]? = some ss' →
          pureClient new step (handlesOf owner i ss) cmds = .ok (rs, ss')) →
        (∀ (i : Nat) (cmds : List (Cmd Op)) (rs : List (Option Ret)), cmdss[i]? = some cmds → rss[i]? = some rs →
          ∃ hs' h' d', Runs A (client impl (handlesOf owner i hs) cmds) h (rs, hs') h' d') ∧
        (∀ sched : List Nat, ∃ ths' h', runThreads A sched (threads impl owner hs 0 cmdss) h = .ok (ths', h') ∧
          ∀ (i : Nat) (th : Thread L (List (Option Ret) × List (Option H))) (r : List (Option Ret) × List (Option H)), ths'[i]? = some th → th.result = some r → rss[i]? = some r.1) ∧
        (∀ i, i < cmdss.length → ∀ s : Nat → Nat, (∀ n, ∃ m, n ≤ m ∧ s m = i) →
          ∃ n ths' h' th r, runThreads A (prefixOf s n) (threads impl owner hs 0 cmdss) h = .ok (ths', h') ∧
            ths'[i]? = some th ∧ th.result = some r)

variable {impl : Impl L H Op Ret} {new : σ} {step : σ → Op → Res (Ret × Effect σ)} {R : H → σ → List (Item L) → Prop}

theorem handles_other {A : Allocator L} (hr : impl.Refines A new step R) {hs : List (Option H)} {ss : List (Option σ)}
    {ρ : List (Item L)} (hh : Handles R hs ss ρ) {i : Nat} {x : H} (hi : hs[i]? = some (some x)) :
    ∃ s ρ₁ ρ₂, ss[i]? = some (some s) ∧ R x s ρ₁ ∧ ρ.Perm (ρ₁ ++ ρ₂) ∧
      ∀ h, Own h ρ → ∀ (j : Nat) (z : H) (t : ATree L), j ≠ i → hs[j]? = some (some z) → t.addr ∈ impl.ptrs z → Val h t → .ptr t ∈ ρ₂ := by
  rcases hh.get i with ⟨x', s, ρ₁, ρ₂, h1, h2, h3, h4, -, ρ₃, h5, h6⟩ | ⟨h1, -⟩
  · rw [hi] at h1
    cases h1
    refine ⟨s, ρ₁, ρ₂, h2, h3, h4, ?_⟩
    intro h ho j z t hj hz ht hv
    have hz' : (hs.set i none)[j]? = some (some z) := by rw [List.getElem?_set_ne (fun e => hj e.symm)]; exact hz
    rcases h6.get j with ⟨z', s', ρ₄, ρ₅, e1, e2, e3, e4, -⟩ | ⟨e1, -⟩
    · rw [hz'] at e1
      cases e1
      obtain ⟨ts, rfl, e5⟩ := hr.ptrs _ _ _ e3
      rw [e5] at ht
      obtain ⟨u, hu, hua⟩ := List.mem_map.1 ht
      have hu2 : .ptr u ∈ ρ₂ := h5.mem_iff.1 (e4.mem_iff.2 (by simp [hu]))
      have : Val h u := ho.val u (h4.mem_iff.2 (by simp [hu2]))
      rwa [val_unique this hv hua] at hu2
    · exact absurd hz' (e1 z)
  · exact absurd hi (h1 x)

theorem persistent_of_refines (hr : ∀ A, impl.Refines A new step R) : Persistent impl new step := by
  intro A cmds rs ss he
  obtain ⟨hs, h, d, ρ, e1, hh, ho⟩ := (hr A).runs he
  refine ⟨hs, h, d, e1, ?_, ?_⟩
  · intro i x s op r e hi hsi hst
    obtain ⟨s', ρ₁, ρ₂, h1, h2, h3, h4⟩ := handles_other (hr A) hh hi
    rw [hsi] at h1
    cases h1
    obtain ⟨y, h', d', τ, e2, ⟨e3, -⟩, ho', -⟩ := ((hr A).step x s ρ₁ op r e h2 hst).runs (F := ρ₂) (ho.perm h3)
    exact ⟨y, h', d', e2, e3, fun j z t hj hz ht hv => ho'.val t (by simp [h4 h ho j z t hj hz ht hv])⟩
  · intro i x hi
    obtain ⟨s', ρ₁, ρ₂, h1, h2, h3, h4⟩ := handles_other (hr A) hh hi
    obtain ⟨y, h', d', τ, e2, rfl, ho', -⟩ := ((hr A).drop x s' ρ₁ h2).runs (F := ρ₂) (ho.perm h3)
    exact ⟨h', d', e2, fun j z t hj hz ht hv => ho'.val t (by simp [h4 h ho j z t hj hz ht hv])⟩

theorem counts_of_refines (hr : ∀ A, impl.Refines A new step R) : CountsExact impl new step := by
  intro A setup rs ss he
  obtain ⟨hs, h, d, ρ, e1, hh, ho⟩ := (hr A).runs he
  refine ⟨hs, h, d, e1, ?_, ?_, ?_⟩
  · obtain ⟨ts, rfl, e2⟩ := hh.ptrs (hr A)
    rw [e2]
    exact ho.exact
  · intro hn a
    obtain rfl := hh.none_live hn
    exact ho.no_leak a
  · intro owner cmdss rss sss l1 l2 hp sched
    obtain ⟨ths', h', e2, sys⟩ := ((hr A).system hh ho owner cmdss rss sss l1 l2 hp).run sched
    refine ⟨ths', h', e2, fun res hres => ?_⟩
    obtain ⟨ρ', e3, ho', hx⟩ := sys.quiet (hr A) res hres
    refine ⟨hx, fun hn a => ?_⟩
    obtain rfl := e3.none_live hn
    exact ho'.no_leak a

theorem threads_of_refines (hr : ∀ A, impl.Refines A new step R) : ThreadsIndependent impl new step := by
  intro A setup rs ss he
  obtain ⟨hs, h, d, ρ, e1, hh, ho⟩ := (hr A).runs he
  refine ⟨hs, h, d, e1, ?_⟩
  intro owner cmdss rss sss l1 l2 hp
  have sys := (hr A).system hh ho owner cmdss rss sss l1 l2 hp
  refine ⟨?_, ?_, ?_⟩
  · intro i cmds rs' hc hrs
    have hi : i < sss.length := by rw [l2]; exact (List.getElem?_eq_some_iff.1 hc).1
    have hpi := hp i cmds rs' sss[i] hc hrs (List.getElem?_eq_getElem hi)
    obtain ⟨ρ₁, ρ₂, h1, h2, -⟩ := hh.split (fun _ => True) (fun j => owner j = i) (fun j => owner j ≠ i)
      (fun j => by simp [Classical.em]) (fun j => by simp) 0 (ρ₀ := ρ) (by
        rw [keepIf_all _ (fun _ => trivial), keepIf_all _ (fun _ => trivial)]; exact hh)
    obtain ⟨⟨r1, r2⟩, h', d', τ, e2, ⟨rfl, -⟩, -⟩ := (safe_client (hr A) cmds h2 hpi).runs (F := ρ₂) (ho.perm h1)
    exact ⟨r2, h', d', e2⟩
  · intro sched
    obtain ⟨ths', h', e2, sys'⟩ := sys.run sched
    exact ⟨ths', h', e2, fun i th r hi hres => sys'.answer hi hres⟩
  · intro i hi s hs'
    exact sys.finishes (by rw [threads_length]; exact hi) s hs'

end

/-! ### C42-C44 for lists, stacks and queues -/

/-- C42 for `List`. -/
theorem C42_list_persistent (T : Type) : Persistent (listImpl T) ([] : List T) fun xs op => .ok (Spec.listStep xs op) :=
  persistent_of_refines fun _ => listImpl_refines
/-- C42 for `Stack`. -/
theorem C42_stack_persistent (T : Type) : Persistent (stackImpl T) ([] : List T) fun xs op => .ok (Spec.stackStep xs op) :=
  persistent_of_refines fun _ => stackImpl_refines
/-- C42 for `Queue`. -/
theorem C42_queue_persistent (T : Type) : Persistent (queueImpl T) ([] : List T) fun xs op => .ok (Spec.queueStep xs op) :=
  persistent_of_refines fun _ => queueImpl_refines

/-- C43 for `List`. -/
theorem C43_list_counts (T : Type) : CountsExact (listImpl T) ([] : List T) fun xs op => .ok (Spec.listStep xs op) :=
  counts_of_refines fun _ => listImpl_refines
/-- C43 for `Stack`. -/
theorem C43_stack_counts (T : Type) : CountsExact (stackImpl T) ([] : List T) fun xs op => .ok (Spec.stackStep xs op) :=
  counts_of_refines fun _ => stackImpl_refines
/-- C43 for `Queue`. -/
theorem C43_queue_counts (T : Type) : CountsExact (queueImpl T) ([] : List T) fun xs op => .ok (Spec.queueStep xs op) :=
  counts_of_refines fun _ => queueImpl_refines

/-- C44 for `ListSync`. -/
theorem C44_list_threads (T : Type) : ThreadsIndependent (listImpl T) ([] : List T) fun xs op => .ok (Spec.listStep xs op) :=
  threads_of_refines fun _ => listImpl_refines
/-- C44 for `StackSync`. -/
theorem C44_stack_threads (T : Type) :
    ThreadsIndependent (stackImpl T) ([] : List T) fun xs op => .ok (Spec.stackStep xs op) :=
  threads_of_refines fun _ => stackImpl_refines
/-- C44 for `QueueSync`. -/
theorem C44_queue_threads (T : Type) :
    ThreadsIndependent (queueImpl T) ([] : List T) fun xs op => .ok (Spec.queueStep xs op) :=
  threads_of_refines fun _ => queueImpl_refines

/-! ### C45 -/

/-- C45, one thread: whatever a client does with lists, in any sharing pattern, destructors nest at most one level
(a node and its element). -/
theorem C45_list_drop_flat_partial (T : Type) (A : Allocator (LinLabel T)) (cmds : List (Cmd (RList.Op T)))
    (rs : List (Option (RList.Ret T))) (ss : List (Option (List T)))
    (he : pureClient [] (fun xs op => .ok (Spec.listStep xs op)) [] cmds = .ok (rs, ss)) :
    ∃ hs h d, Runs A (client (listImpl T) [] cmds) [] (rs, hs) h d ∧ d ≤ 1 := by
  obtain ⟨hs, h, d, ρ, e1, -, -, e2⟩ := listImpl_bounded.client (A := A) cmds .nil (F := []) (m := []) Own.empty he
  exact ⟨hs, h, d, e1, within_some.1 e2⟩

/-- C45, one thread, stacks. -/
theorem C45_stack_drop_flat_partial (T : Type) (A : Allocator (LinLabel T)) (cmds : List (Cmd (Stack.Op T)))
    (rs : List (Option (RList.Ret T))) (ss : List (Option (List T)))
    (he : pureClient [] (fun xs op => .ok (Spec.stackStep xs op)) [] cmds = .ok (rs, ss)) :
    ∃ hs h d, Runs A (client (stackImpl T) [] cmds) [] (rs, hs) h d ∧ d ≤ 1 := by
  obtain ⟨hs, h, d, ρ, e1, -, -, e2⟩ := stackImpl_bounded.client (A := A) cmds .nil (F := []) (m := []) Own.empty he
  exact ⟨hs, h, d, e1, within_some.1 e2⟩

/-- C45, one thread, queues. -/
theorem C45_queue_drop_flat_partial (T : Type) (A : Allocator (LinLabel T)) (cmds : List (Cmd (Queue.Op T)))
    (rs : List (Option (RList.Ret T))) (ss : List (Option (List T)))
    (he : pureClient [] (fun xs op => .ok (Spec.queueStep xs op)) [] cmds = .ok (rs, ss)) :
    ∃ hs h d, Runs A (client (queueImpl T) [] cmds) [] (rs, hs) h d ∧ d ≤ 1 := by
  obtain ⟨hs, h, d, ρ, e1, -, -, e2⟩ := queueImpl_bounded.client (A := A) cmds .nil (F := []) (m := []) Own.empty he
  exact ⟨hs, h, d, e1, within_some.1 e2⟩

/-! ### Non-vacuity -/

/-- Result, memory and nesting after running a program alone, if it is finished after `n` steps. -/
def outcome {L α : Type} (A : Allocator L) (n : Nat) (prog : Prog L α) (h : Mem L) : Option (α × Mem L × Nat) :=
  match runAlone A n (.start prog) h with
  | .ok (th, h') => th.result.map fun r => (r, h', th.deepest)
  | .error _ => none

/-- Answers and memory after `setup` in one thread and `sched` in threads that get the handles in order. -/
def interleaved {L H Op Ret : Type} (impl : Impl L H Op Ret) (n : Nat) (setup : List (Cmd Op))
    (cmdss : List (List (Cmd Op))) (sched : List Nat) : Option (List (Option (List (Option Ret))) × Mem L) :=
  match outcome (bump L) n (client impl [] setup) [] with
  | some (r, h, _) =>
    match runThreads (bump L) sched (threads impl id r.2 0 cmdss) h with
    | .ok (ths, h') => some (ths.map fun th => th.result.map (·.1), h')
    | .error _ => none
  | none => none

/-- A list of two elements, a clone, and the clone reversed in place. -/
def exCmds : List (Cmd (RList.Op Nat)) :=
  [.new, .run 0 (.pushFrontMut 1), .run 0 (.pushFrontMut 2), .run 0 .clone, .run 1 .reverseMut, .run 0 .first]

-- the hypothesis of C42-C44 holds for these commands: the clone was reversed, the original was not
example : pureClient [] (fun xs op => .ok (Spec.listStep xs op)) [] exCmds =
    .ok ([none, some .unit, some .unit, some .unit, some .unit, some (.opt (some 2))], [some [2, 1], some [1, 2]]) := rfl
-- on the heap the two lists share their elements (count 3 = two nodes and a `last` field), and `reverse_mut` copied the nodes
example : (outcome (bump _) 40 (client (listImpl Nat) [] exCmds) []).map (·.2.1) =
    some [.closed 3 (.val 1) [], .closed 1 .node [0], .closed 3 (.val 2) [], .closed 1 .node [2, 1],
      .closed 1 .node [2], .closed 1 .node [0, 4]] := rfl
-- without the clone `reverse_mut` works in place
example : (outcome (bump _) 40 (client (listImpl Nat) []
    [.new, .run 0 (.pushFrontMut 1), .run 0 (.pushFrontMut 2), .run 0 .reverseMut]) []).map (·.2.1) =
    some [.closed 1 (.val 1) [], .closed 1 .node [0, 3], .closed 2 (.val 2) [], .closed 1 .node [2]] := rfl
-- dropping both lists frees everything
example : (outcome (bump _) 60 (client (listImpl Nat) [] (exCmds ++ [.discard 0, .discard 1])) []).map (·.2.1) =
    some [.free, .free, .free, .free, .free, .free] := rfl
-- two threads, one reverses its list in place while the other drops its own; interleaved one step each
example : interleaved (listImpl Nat) 40 [.new, .run 0 (.pushFrontMut 1), .run 0 (.pushFrontMut 2), .run 0 .clone]
    [[.run 0 .reverseMut, .run 0 .first], [.discard 1]] (List.replicate 20 [0, 1]).flatten =
    some ([some [some .unit, some (.opt (some 1))], some [none]],
      [.closed 1 (.val 1) [], .closed 1 .node [0, 3], .closed 2 (.val 2) [], .closed 1 .node [2]]) := rfl
-- dropping a list of four elements through `Drop for List` nests once; plain drop glue would nest four deep
example : (outcome (bump _) 60 (client (listImpl Nat) [] [.new, .run 0 (.pushFrontMut 1), .run 0 (.pushFrontMut 2),
    .run 0 (.pushFrontMut 3), .run 0 (.pushFrontMut 4)]) []).bind (fun x =>
      match x.1.2 with
      | [some l] => (outcome (bump _) 60 l.dropList x.2.1).bind fun y =>
        (outcome (bump _) 60 (dropOpt l.head) x.2.1).map fun z => (y.2.2, z.2.2)
      | _ => none) = some (0, 4) := rfl

end Props
end Rpds
