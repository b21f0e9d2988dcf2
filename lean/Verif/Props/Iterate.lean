import Verif.Props.Shared
import Verif.Heap.IterLinear
import Verif.Heap.IterVector
import Verif.Heap.IterRedBlack
import Verif.Heap.IterHashTrie
/-
Iterators on the heap (C62).
-/
set_option autoImplicit false
namespace Rpds
namespace Props
open Heap Heap.HT Spec

section
variable {L H Op Ret σ J I X Y : Type}

/-- Iterators see a snapshot.  A client keeps any number of iterators while it goes on working with its handles; the borrow checker
(`allowed`) only forbids to change or drop a handle through `&mut` while it has an iterator.  The nodes are read when an item is asked for.
The client then runs without fault, its answers and the items it gets are those of the plain values, where an iterator has the items of
the value its handle had when the iterator was started, whatever is done to handles that share nodes with it, and the
memory left is exactly what the handles keep alive.  The same for threads that iterate over handles lent to them, and over their own:
for every interleaving, every thread that finishes got the items it would have got running alone, what is behind the lent handles
stays as it is, every thread that is scheduled again and again finishes, and nothing is left over in the end. -/
def IteratorsSnapshot (impl : Impl L H Op Ret) (ii : IterImpl L H J I Y) (byRef : Op → Bool) (new : σ)
    (step : σ → Op → Res (Ret × Effect σ)) (seq : σ → J → Res X) (inext : Bool → X → Res (Y × X)) : Prop :=
  (∀ (A : Allocator L) (cmds : List (ICmd Op J)) (rs : List (Option (Ret ⊕ Y))) (ss : List (Option σ)),
    pureIClient new step byRef seq inext [] [] cmds = .ok (rs, ss) →
    ∃ (hs : List (Option H)) (h : Mem L) (d : Nat), Runs A (iclient impl ii [] [] cmds) [] (rs, hs) h d ∧ Exact h (ptrsOf impl hs) ∧
      ((∀ s ∈ ss, s = none) → ∀ a, get h a = .free)) ∧
  ∀ (A : Allocator L) (setup : List (Cmd Op)) (rs : List (Option Ret)) (ss : List (Option σ)),
    pureClient new step [] setup = .ok (rs, ss) →
    ∃ (hs : List (Option H)) (h : Mem L) (d : Nat), Runs A (client impl [] setup) [] (rs, hs) h d ∧
      ∀ (sh : Nat → Bool) (owner : Nat → Nat) (cmdss : List (List (ICmd Op J))) (rss : List (List (Option (Ret ⊕ Y))))
        (sss : List (List (Option σ))), (∀ j, sh j = true → j < ss.length) → (∀ cmds ∈ cmdss, RespectsI sh byRef cmds) →
        rss.length = cmdss.length → sss.length = cmdss.length →
        (∀ (i : Nat) (cmds : List (ICmd Op J)) (rs : List (Option (Ret ⊕ Y))) (ss' : List (Option σ)), cmdss[i]? = some cmds →
          rss[i]? = some rs → sss[i]? = some ss' →
          pureIClient new step byRef seq inext (lentTo sh owner i ss) [] cmds = .ok (rs, ss')) →
        (∀ sched : List Nat, ∃ ths' h', runThreads A sched (iteratingThreads impl ii sh owner hs cmdss) h = .ok (ths', h') ∧
          (∀ (j : Nat) (x : H) (t : ATree L), sh j = true → hs[j]? = some (some x) → t.addr ∈ impl.ptrs x → Val h t → Val h' t) ∧
          (∀ (i : Nat) (th : Thread L (List (Option (Ret ⊕ Y)) × List (Option H))) (r : List (Option (Ret ⊕ Y)) × List (Option H)),
            ths'[i]? = some th → th.result = some r → rss[i]? = some r.1) ∧
          (∀ res : List (List (Option (Ret ⊕ Y)) × List (Option H)), ths'.map Thread.result = res.map some →
            Exact h' (ptrsOf impl ((res.map fun r => owned sh r.2).flatten ++ (lentOf sh hs ++ idleOf sh owner cmdss.length hs))))) ∧
        (∀ i, i < cmdss.length → ∀ s : Nat → Nat, (∀ n, ∃ m, n ≤ m ∧ s m = i) →
          ∃ n ths' h' th r, runThreads A (prefixOf s n) (iteratingThreads impl ii sh owner hs cmdss) h = .ok (ths', h') ∧
            ths'[i]? = some th ∧ th.result = some r)

variable {impl : Impl L H Op Ret} {ii : IterImpl L H J I Y} {new : σ} {step : σ → Op → Res (Ret × Effect σ)} {R : H → σ → List (Item L) → Prop}
  {byRef : Op → Bool} {seq : σ → J → Res X} {inext : Bool → X → Res (Y × X)}

theorem snapshot_of_iterates (hr : ∀ A, impl.Refines A new step R) (hl : ∀ A, impl.Lends A step R byRef)
    (hi : ∀ A, ∃ IR, ii.Iterates A R seq inext IR) : IteratorsSnapshot impl ii byRef new step seq inext := by
  have keep : ∀ {α : Type} (xs : List (Option α)), owned (fun _ => false) xs = xs := by
    intro α xs
    refine List.ext_getElem? fun i => owned_get rfl xs
  refine ⟨?_, ?_⟩
  · intro A cmds rs ss he
    obtain ⟨IR, hi⟩ := hi A
    have h0 : Iterating (H := H) (σ := σ) (I := I) R IR [] (fun _ => false) [] [] [] [] [] :=
      ⟨fun i => by simpa [owned, keepIf] using HRel.out, by simp, .nil⟩
    have hs := safeB_iclient (hr A) (hl A) hi cmds (by intro c _; match c with
      | .cmd .new | .cmd (.run _ _) | .cmd (.discard _) | .iter _ _ | .next _ _ | .stop _ => simp) h0 he
    obtain ⟨n, th, h', τ, r, e1, e2, ⟨rfl, τ', e3, e4⟩, e5, -⟩ := TSafe.alone (B := []) _ [] (.start (iclient impl ii [] [] cmds)) [] [] []
      rfl ⟨rfl, hs, by simp, fun d _ => Nat.zero_le d⟩ Own.empty
    have hh : Handles R r.2 ss τ' := by simpa [keep] using e4.own
    have ho : Own h' τ' := by simpa using e5.perm (by simpa using e3)
    refine ⟨r.2, h', th.deepest, runs_of_alone e1 e2, ?_, ?_⟩
    · obtain ⟨ts, rfl, e6⟩ := hh.ptrs (hr A)
      rw [e6]
      exact ho.exact
    · intro hn a
      obtain rfl := hh.none_live hn
      exact ho.no_leak a
  · intro A setup rs ss he
    obtain ⟨IR, hi⟩ := hi A
    obtain ⟨hs, h, d, ρ, e1, hh, ho⟩ := (hr A).runs he
    refine ⟨hs, h, d, e1, ?_⟩
    intro sh owner cmdss rss sss hsh hc l1 l2 hp
    have sys := IterImpl.Iterates.system (hr A) (hl A) hi hh ho sh hsh owner cmdss hc rss sss l1 l2 hp
    refine ⟨?_, ?_⟩
    · intro sched
      obtain ⟨ths', h', e2, sys', e3⟩ := sys.run (hr A) sched
      refine ⟨ths', h', e2, ?_, fun i th r hi hres => sys'.answer hi hres, ?_⟩
      · intro j x t hj hx
        refine e3 j x t ?_
        rw [lentOf, keepIf_getElem?, Nat.zero_add]
        simp only [hj, if_true, hx, Option.map_some]
      · intro res hres
        obtain ⟨_, _, _, e4⟩ := sys'.quiet (hr A) res hres
        exact e4
    · intro i hi s hs'
      exact sys.finishes (by simpa [iteratingThreads] using hi) s hs'

end

/-- C62 for `List`. -/
theorem C62_list_iterators (T : Type) :
    IteratorsSnapshot (listImpl T) (listIters T) listByRef ([] : List T) (fun xs op => .ok (Spec.listStep xs op)) (fun xs _ => .ok xs)
      fwNext :=
  snapshot_of_iterates (fun _ => listImpl_refines) (fun _ => listImpl_lends) fun _ => ⟨_, listIters_iterates⟩

/-- C62 for `Stack`. -/
theorem C62_stack_iterators (T : Type) :
    IteratorsSnapshot (stackImpl T) (listIters T) stackByRef ([] : List T) (fun xs op => .ok (Spec.stackStep xs op)) (fun xs _ => .ok xs)
      fwNext :=
  snapshot_of_iterates (fun _ => stackImpl_refines) (fun _ => stackImpl_lends) fun _ => ⟨_, listIters_iterates⟩

/-- C62 for `Queue`. -/
theorem C62_queue_iterators (T : Type) :
    IteratorsSnapshot (queueImpl T) (queueIters T) queueByRef ([] : List T) (fun xs op => .ok (Spec.queueStep xs op)) (fun xs _ => .ok xs)
      fwNext :=
  snapshot_of_iterates (fun _ => queueImpl_refines) (fun _ => queueImpl_lends) fun _ => ⟨_, queueIters_iterates⟩

/-- C62 for `Vector`. -/
theorem C62_vector_iterators (T : Type) (Ar : Arch) (bits : Nat) (h0 : 0 < bits) (hW : bits < Ar.W) :
    IteratorsSnapshot (vecImpl Ar T bits) (vecIters Ar T) vecByRef (vecCap Ar bits, ([] : List T)) Spec.vecStep (fun s _ => .ok s.2)
      deNext :=
  snapshot_of_iterates (fun A => vecImpl_refines Ar A h0 hW) (fun _ => vecImpl_lends h0 hW) fun _ => ⟨_, vecIters_iterates⟩

/-- C62 for `RedBlackTreeMap`, with iterators over the whole map and over ranges. -/
theorem C62_rb_map_iterators (K V Q : Type) (Ar : Arch) (o : OrdKeys K Q) (lo : o.Lawful) :
    IteratorsSnapshot (rbImpl Ar o) (rbIters K V Ar o) rbByRef ([] : List (K × V)) (Spec.ordMapStep Ar.W o) (rbSeq Ar.W o) mixNext :=
  snapshot_of_iterates (fun A => rbImpl_refines Ar lo A) (fun A => rbImpl_lends Ar lo A) fun A => ⟨_, rbIters_iterates Ar lo A⟩

/-- C62 for `RedBlackTreeSet`. -/
theorem C62_rb_set_iterators (T Q : Type) (Ar : Arch) (o : OrdKeys T Q) (lo : o.Lawful) :
    IteratorsSnapshot (rbSetImpl Ar o) (rbSetIters T Ar o) rbSetByRef ([] : List T) (Spec.ordSetStep Ar.W o) (rbSetSeq Ar.W o) mixNext :=
  snapshot_of_iterates (fun A => rbSetImpl_refines Ar lo A) (fun A => rbSetImpl_lends Ar lo A) fun A => ⟨_, rbSetIters_iterates Ar lo A⟩

/-- C62 for `HashTrieMap`.  The order of the items is that of the model on plain values; they are the items of the finite map. -/
theorem C62_hash_map_iterators {H : Type} (K V Q : Type) (Ar : Arch) (o : HashKeys H K Q) (lo : o.Lawful) (hasher : H) (degree : Nat)
    (h2 : 2 ≤ degree) (m : HTMap H K V) (hm : HTMap.newWithDegree Ar hasher degree = .ok m) :
    IteratorsSnapshot (htImpl Ar o hasher degree) (htIters H K V) htByRef m (HTMap.stepAll Ar o) (fun m _ => .ok m.items) fwNext ∧
    ∀ (k : Nat) (m : HTMap H K V) (l : List (K × V)), m.Rep Ar o k l → m.items.Perm l := by
  obtain ⟨k, rfl, c, hW, rfl⟩ := conf_of_new hm h2
  exact ⟨snapshot_of_iterates (fun A => htImpl_refines_model Ar lo c hW hasher A) (fun A => htImpl_lends_model Ar lo c hW hasher A)
    fun _ => ⟨_, htIters_iterates⟩, fun _ _ _ h => h.perm⟩

/-- C62 for `HashTrieSet`. -/
theorem C62_hash_set_iterators {H : Type} (T Q : Type) (Ar : Arch) (o : HashKeys H T Q) (lo : o.Lawful) (hasher : H) (degree : Nat)
    (h2 : 2 ≤ degree) (m : HTMap H T Unit) (hm : HTMap.newWithDegree Ar hasher degree = .ok m) :
    IteratorsSnapshot (htSetImpl Ar o hasher degree) (htSetIters H T) htSetByRef m (htSetStepAll Ar o) (fun m _ => .ok (m.items.map Prod.fst))
      fwNext ∧
    ∀ (k : Nat) (m : HTMap H T Unit) (l : List (T × Unit)), m.Rep Ar o k l → (m.items.map Prod.fst).Perm (l.map Prod.fst) := by
  obtain ⟨k, rfl, c, hW, rfl⟩ := conf_of_new hm h2
  exact ⟨snapshot_of_iterates (fun A => htSetImpl_refines_model Ar lo c hW hasher A) (fun A => htSetImpl_lends_model Ar lo c hW hasher A)
    fun _ => ⟨_, htSetIters_iterates⟩, fun _ _ _ h => h.perm.map _⟩

/-! ### Non-vacuity -/

/-- A list is iterated while lists made from it are changed, iterated and shared, and then dropped. -/
def exIterCmds : List (ICmd (RList.Op Nat) Unit) :=
  [.cmd .new, .cmd (.run 0 (.pushFrontMut 1)), .cmd (.run 0 (.pushFrontMut 2)), .iter 0 (), .next 0 false, .cmd (.run 0 .dropFirst),
    .cmd (.run 1 (.pushFrontMut 7)), .cmd (.run 1 .reverseMut), .next 0 false, .iter 1 (), .next 1 false, .next 0 false, .stop 0,
    .cmd (.discard 0), .next 0 false, .next 1 false]

-- the hypothesis of C62 holds for these commands
set_option synthInstance.maxSize 1000 in
example : pureIClient ([] : List Nat) (fun xs op => .ok (Spec.listStep xs op)) listByRef (fun xs _ => .ok xs) fwNext [] [] exIterCmds =
    .ok ([none, some (.inl .unit), some (.inl .unit), none, some (.inr (some 2, 1)), some (.inl (.bool true)), some (.inl .unit),
      some (.inl .unit), some (.inr (some 1, 0)), none, some (.inr (some 1, 1)), some (.inr (none, 0)), none, none, none,
      some (.inr (some 7, 0))], [none, some [1, 7]]) := by
  decide +kernel
-- on the heap
set_option synthInstance.maxSize 1000 in
example : (outcome (bump _) 120 (iclient (listImpl Nat) (listIters Nat) [] [] exIterCmds) []).map (fun x => (x.1.1, x.2.1)) =
    some ([none, some (.inl .unit), some (.inl .unit), none, some (.inr (some 2, 1)), some (.inl (.bool true)), some (.inl .unit),
      some (.inl .unit), some (.inr (some 1, 0)), none, some (.inr (some 1, 1)), some (.inr (none, 0)), none, none, none,
      some (.inr (some 7, 0))],
      [.closed 1 (.val 1) [], .free, .free, .free, .closed 2 (.val 7) [], .closed 1 .node [4], .closed 1 .node [0, 5]]) := by
  decide +kernel
-- what the borrow checker rejects would go wrong: the node the iterator points to is freed
example : outcome (bump _) 120 (iclient (listImpl Nat) (listIters Nat) [] []
    [.cmd .new, .cmd (.run 0 (.pushFrontMut 1)), .cmd (.run 0 (.pushFrontMut 2)), .iter 0 (), .cmd (.run 0 .dropFirstMut), .next 0 false]) [] =
    none := by
  decide +kernel
-- or items are missed although the iterator says that there is one more
example : (outcome (bump _) 120 (iclient (listImpl Nat) (listIters Nat) [] []
    [.cmd .new, .cmd (.run 0 (.pushFrontMut 1)), .cmd (.run 0 (.pushFrontMut 2)), .iter 0 (), .cmd (.run 0 .reverseMut), .next 0 false,
      .next 0 false]) []).map (fun x => x.1.1.drop 5) = some [some (.inr (some 2, 1)), some (.inr (none, 1))] := by
  decide +kernel
/-- Answers and memory after `setup` in one thread and `sched` in threads with iterators that all have the first handle through `&`. -/
def interleavedIterating {L H Op Ret J I Y : Type} (impl : Impl L H Op Ret) (ii : IterImpl L H J I Y) (n : Nat) (setup : List (Cmd Op))
    (cmdss : List (List (ICmd Op J))) (sched : List Nat) : Option (List (Option (List (Option (Ret ⊕ Y)))) × Mem L) :=
  match outcome (bump L) n (client impl [] setup) [] with
  | some (r, h, _) =>
    match runThreads (bump L) sched (iteratingThreads impl ii (· == 0) (fun _ => cmdss.length) r.2 cmdss) h with
    | .ok (ths, h') => some (ths.map fun th => th.result.map (·.1), h')
    | .error _ => none
  | none => none

-- two threads iterate over the same list, and make lists from it and iterate over them
set_option synthInstance.maxSize 1000 in
example : (interleavedIterating (listImpl Nat) (listIters Nat) 40 [.new, .run 0 (.pushFrontMut 1), .run 0 (.pushFrontMut 2)]
    [[.iter 0 (), .next 0 false, .cmd (.run 0 .reverse), .iter 1 (), .next 0 false, .next 1 false],
      [.cmd (.run 0 (.pushFront 7)), .iter 0 (), .next 0 false, .cmd (.run 1 .reverseMut), .iter 1 (), .next 1 false, .next 0 false]]
    (List.replicate 80 [0, 1]).flatten).map (fun x => (x.1, x.2.take 4)) =
    some ([some [none, some (.inr (some 2, 1)), some (.inl .unit), none, some (.inr (some 1, 0)), some (.inr (some 1, 1))],
      some [some (.inl .unit), none, some (.inr (some 2, 1)), some (.inl .unit), none, some (.inr (some 1, 2)), some (.inr (some 1, 0))]],
      [.closed 4 (.val 1) [], .closed 1 .node [0], .closed 4 (.val 2) [], .closed 1 .node [2, 1]]) := by
  decide +kernel

-- vectors, from both ends
set_option synthInstance.maxSize 1000 in
example : (outcome (bump _) 220 (iclient (vecImpl ⟨.debug, 64⟩ Nat 1) (vecIters ⟨.debug, 64⟩ Nat) [] []
    ((exVecCmds.take 4).map .cmd ++ [.iter 0 (), .next 0 true, .cmd (.run 0 (.set 0 7)), .cmd (.run 1 (.setMut 1 8)), .next 0 false,
      .next 0 true, .next 0 true, .iter 1 (), .next 1 false, .cmd (.run 1 .dropLast), .next 1 false])) []).map (fun x => x.1.1.drop 5) =
    some [some (.inr (some 3, 2)), some (.inl (.bool true)), some (.inl (.bool true)), some (.inr (some 1, 1)), some (.inr (some 2, 0)),
      some (.inr (none, 0)), none, some (.inr (some 7, 2)), some (.inl (.bool true)), some (.inr (some 8, 1))] := by
  decide +kernel
-- maps: one iterator over the whole map, and one over a range
set_option synthInstance.maxSize 1000 in
example : (outcome (bump _) 420 (iclient (rbImpl ⟨.debug, 64⟩ exOrd) (rbIters _ _ ⟨.debug, 64⟩ exOrd) [] []
    ((exRBCmds.take 4).map .cmd ++ [.iter 0 .all, .iter 0 (.range (.excluded 1) .unbounded), .next 0 false, .next 1 true,
      .cmd (.run 0 (.base (.remove 2))), .cmd (.run 1 (.base (.insertMut (3, "z") 7))), .next 0 true, .next 1 true, .next 0 false,
      .next 1 false, .next 0 false])) []).map (fun x => x.1.1.drop 6) =
    some [some (.inr (some ((1, "a"), 10), 2)), some (.inr (some ((3, "c"), 30), 0)), some (.inl (.base .unit)), some (.inl (.base .unit)),
      some (.inr (some ((3, "c"), 30), 1)), some (.inr (some ((2, "b"), 20), 0)), some (.inr (some ((2, "b"), 20), 0)),
      some (.inr (none, 0)), some (.inr (none, 0))] := by
  decide +kernel
set_option synthInstance.maxSize 5000 in
example : (outcome (bump _) 920 (iclient (htImpl ⟨.debug, 64⟩ exKeys 10 64) (htIters _ _ _) [] []
    ((exHTCmds.take 4).map .cmd ++ [.iter 0 (), .next 0 false, .cmd (.run 0 (.base (.remove 2))),
      .cmd (.run 1 (.base (.insertMut (11, "z") 7))), .next 0 false, .next 0 false, .next 0 false])) []).map (fun x => x.1.1.drop 5) =
    some [some (.inr (some ((11, "c"), 30), 2)), some (.inl (.base .unit)), some (.inl (.base .unit)), some (.inr (some ((1, "a"), 10), 1)),
      some (.inr (some ((2, "b"), 20), 0)), some (.inr (none, 0))] := by
  decide +kernel

end Props
end Rpds
