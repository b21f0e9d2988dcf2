import Verif.Props.Iterate
import Verif.Heap.IterCostVector
/-
The cost of iteration (C63).
-/
set_option autoImplicit false
namespace Rpds
namespace Props
open Heap Heap.HT Spec

section
variable {L H Op Ret σ J I X Y : Type}

/-- The cost of iteration.  An iterator is started for a handle, and `next` and `next_back` are called on it in any order.  It gives the
items it should, starting it touches at most one memory cell, and `m` calls in a row, wherever in the sequence of calls they are, touch
at most `c + c1 * m` cells, where `c` depends on the value iterated over.  So one call touches at most `c + c1` cells.

This is so also when iterators and other operations alternate, and with threads: all clients and threads of C62 run without
fault and get the same answers if each iterator has a budget of touches, `c0` of the handle in advance and `c1` more at each call, of which it cannot
save more than the `c0` it had at first, and panics when a call needs more. -/
def IteratorsCost (impl : Impl L H Op Ret) (ii : IterImpl L H J I Y) (c : σ → Nat) (c0 : H → Nat) (c1 : Nat) (byRef : Op → Bool) (new : σ)
    (step : σ → Op → Res (Ret × Effect σ)) (seq : σ → J → Res X) (inext : Bool → X → Res (Y × X)) : Prop :=
  (∀ (A : Allocator L) (cmds : List (Cmd Op)) (rs : List (Option Ret)) (ss : List (Option σ)), pureClient new step [] cmds = .ok (rs, ss) →
    ∃ (hs : List (Option H)) (h : Mem L) (d : Nat), Runs A (client impl [] cmds) [] (rs, hs) h d ∧
      ∀ (j : Nat) (x : H) (s : σ) (which : J) (xs : X) (calls : List Bool) (ys : List Y), hs[j]? = some (some x) → ss[j]? = some (some s) →
        seq s which = .ok xs → pureCalls inext xs calls = .ok ys →
        ∃ (k : Nat) (yks : List (Y × Nat)) (h' : Mem L) (d' : Nat), Runs A (ii.session x which calls) h (k, yks) h' d' ∧
          Exact h' (ptrsOf impl hs) ∧ yks.map Prod.fst = ys ∧ k ≤ 1 ∧
          ∀ before row after : List Nat, yks.map Prod.snd = before ++ row ++ after → row.sum ≤ c s + c1 * row.length) ∧
  IteratorsSnapshot impl (ii.meter c0 c1) byRef new step seq inext

variable {impl : Impl L H Op Ret} {ii : IterImpl L H J I Y} {new : σ} {step : σ → Op → Res (Ret × Effect σ)} {R : H → σ → List (Item L) → Prop}
  {byRef : Op → Bool} {seq : σ → J → Res X} {inext : Bool → X → Res (Y × X)} {c : σ → Nat} {c0 : H → Nat}
  {c1 : Nat}

theorem cost_of_iterates (hc : ∀ x s ρ, R x s ρ → c0 x ≤ c s) (hr : ∀ A, impl.Refines A new step R) (hl : ∀ A, impl.Lends A step R byRef)
    (hi : ∀ A, ∃ IR, (ii.meter c0 c1).Iterates A R seq inext IR) : IteratorsCost impl ii c c0 c1 byRef new step seq inext := by
  refine ⟨?_, snapshot_of_iterates hr hl hi⟩
  intro A cmds rs ss he
  obtain ⟨IR, hi⟩ := hi A
  obtain ⟨hs, h, d, ρ, e1, hh, ho⟩ := (hr A).runs he
  refine ⟨hs, h, d, e1, ?_⟩
  intro j x s which xs calls ys hx hs' hq hp
  obtain ⟨ts, e2, e3⟩ := hh.ptrs (hr A)
  obtain ⟨ρs, rfl, hat⟩ := hh.itemsAt
  have hj := hat j
  rw [hx, hs'] at hj
  generalize hβ : ρs[j]? = β at hj
  cases hj with
  | @live _ _ β hR =>
    obtain ⟨hlt, rfl⟩ := List.getElem?_eq_some_iff.mp hβ
    have hperm : ρs.flatten.Perm (ρs[j] ++ ((ρs.take j).flatten ++ (ρs.drop (j + 1)).flatten)) := by
      conv => lhs; rw [← List.take_append_drop j ρs, List.drop_eq_getElem_cons hlt]
      simp only [List.flatten_append, List.flatten_cons]
      rw [← List.append_assoc, ← List.append_assoc]
      exact List.Perm.append_right _ List.perm_append_comm
    have hsafe := hi.session_cost hR hq hp
    obtain ⟨n, th, h', τ, r, e4, e5, ⟨rfl, h1, h2, h3⟩, e6, -⟩ := TSafe.alone _ [] (.start (ii.session x which calls)) []
      ((ρs.take j).flatten ++ (ρs.drop (j + 1)).flatten) h rfl ⟨rfl, hsafe, by simp, fun d _ => Nat.zero_le d⟩
      (by simpa [threadItems] using ho.perm hperm)
    refine ⟨r.1, r.2, h', th.deepest, runs_of_alone e4 e5, ?_, h2, h1,
      fun b r a e => Nat.le_trans (h3 b r a e) (Nat.add_le_add_right (hc _ _ _ hR) _)⟩
    have ho' : Own h' ρs.flatten := by simpa using (e6.perm hperm.symm)
    rw [e3]
    rw [e2] at ho'
    exact ho'.exact

end

/-- C63 for `List`: each call touches at most two cells. -/
theorem C63_list_iteration_cost (T : Type) :
    IteratorsCost (listImpl T) (listIters T) (fun _ => 0) (fun _ => 0) 2 listByRef ([] : List T) (fun xs op => .ok (Spec.listStep xs op))
      (fun xs _ => .ok xs) fwNext :=
  cost_of_iterates (fun _ _ _ _ => Nat.le_refl _) (fun _ => listImpl_refines) (fun _ => listImpl_lends)
    fun _ => listIters_meter listIters_iterates

/-- C63 for `Stack`. -/
theorem C63_stack_iteration_cost (T : Type) :
    IteratorsCost (stackImpl T) (listIters T) (fun _ => 0) (fun _ => 0) 2 stackByRef ([] : List T) (fun xs op => .ok (Spec.stackStep xs op))
      (fun xs _ => .ok xs) fwNext :=
  cost_of_iterates (fun _ _ _ _ => Nat.le_refl _) (fun _ => stackImpl_refines) (fun _ => stackImpl_lends)
    fun _ => listIters_meter listIters_iterates

/-- C63 for `Queue`: two cells per call, and once as many as the items enqueued since they were last moved. -/
theorem C63_queue_iteration_cost (T : Type) :
    IteratorsCost (queueImpl T) (queueIters T) List.length (fun q => q.in_list.length) 2 queueByRef ([] : List T)
      (fun xs op => .ok (Spec.queueStep xs op)) (fun xs _ => .ok xs) fwNext :=
  cost_of_iterates (by
    rintro x s ρ ⟨r, ⟨ρ₁, ρ₂, -, h1, -⟩, os, is, -, h2, rfl⟩
    rw [h1.length, h2.length]
    simp) (fun _ => queueImpl_refines) (fun _ => queueImpl_lends) fun _ => queueIters_meter

/-- C63 for `Vector`: seven cells per call from either end, and a constant for each level of the tree. -/
theorem C63_vector_iteration_cost (T : Type) (Ar : Arch) (bits : Nat) (h0 : 0 < bits) (hW : bits < Ar.W) :
    IteratorsCost (vecImpl Ar T bits) (vecIters Ar T) (fun s => 12 * (s.2.length.log2 + 1)) (fun v => 12 * (v.length.log2 / v.bits + 1)) 7
      vecByRef (vecCap Ar bits, ([] : List T)) Spec.vecStep (fun s _ => .ok s.2) deNext :=
  cost_of_iterates (by
    rintro x s ρ ⟨v, h, ⟨t, rfl, -⟩, hr, -⟩
    rw [← hr.length]
    exact Nat.mul_le_mul_left _ (Nat.succ_le_succ (Nat.div_le_self _ _))) (fun A => vecImpl_refines Ar A h0 hW) (fun _ => vecImpl_lends h0 hW) fun _ => vecIters_meter

/-- C63 for `RedBlackTreeMap`, with iterators over the whole map and over ranges: ten cells per call from either end, and a multiple of the
logarithm of the size. -/
theorem C63_rb_map_iteration_cost (K V Q : Type) (Ar : Arch) (o : OrdKeys K Q) (lo : o.Lawful) :
    IteratorsCost (rbImpl Ar o) (rbIters K V Ar o) (fun l => 32 * (l.length + 1).log2 + 4) (fun m => 32 * (m.size + 1).log2 + 4)
      10 rbByRef ([] : List (K × V)) (Spec.ordMapStep Ar.W o) (rbSeq Ar.W o) mixNext := by
  have h : rbSaved = fun m => 32 * (m.size + 1).log2 + 4 := by
    funext m
    simp only [rbSaved, HRBMap.fuel]
    omega
  rw [← h]
  exact cost_of_iterates (by
    rintro x s ρ ⟨m, ⟨h1, -⟩, h2⟩
    rw [h, ← h2.size, ← h1.2]
    exact Nat.le_refl _) (fun A => rbImpl_refines Ar lo A) (fun A => rbImpl_lends Ar lo A) fun A => rbIters_meter Ar lo A

/-- C63 for `RedBlackTreeSet`. -/
theorem C63_rb_set_iteration_cost (T Q : Type) (Ar : Arch) (o : OrdKeys T Q) (lo : o.Lawful) :
    IteratorsCost (rbSetImpl Ar o) (rbSetIters T Ar o) (fun l => 32 * (l.length + 1).log2 + 4) (fun m => 32 * (m.size + 1).log2 + 4)
      10 rbSetByRef ([] : List T) (Spec.ordSetStep Ar.W o) (rbSetSeq Ar.W o) mixNext := by
  have h : rbSaved = fun m => 32 * (m.size + 1).log2 + 4 := by
    funext m
    simp only [rbSaved, HRBMap.fuel]
    omega
  rw [← h]
  exact cost_of_iterates (by
    rintro x s ρ ⟨_, ⟨m, ⟨h1, -⟩, h2⟩, rfl⟩
    have := h2.size
    simp only [unitPairs, List.length_map] at this
    rw [h, ← this, ← h1.2]
    exact Nat.le_refl _) (fun A => rbSetImpl_refines Ar lo A) (fun A => rbSetImpl_lends Ar lo A) fun A => rbSetIters_meter Ar lo A

/-- C63 for `HashTrieMap`: the number of cells per call does not depend on the map. -/
theorem C63_hash_map_iteration_cost {H : Type} (K V Q : Type) (Ar : Arch) (o : HashKeys H K Q) (lo : o.Lawful) (hasher : H) (degree : Nat)
    (h2 : 2 ≤ degree) (m : HTMap H K V) (hm : HTMap.newWithDegree Ar hasher degree = .ok m) :
    IteratorsCost (htImpl Ar o hasher degree) (htIters H K V) (fun _ => 0) (fun _ => 0) 267 htByRef m (HTMap.stepAll Ar o)
      (fun m _ => .ok m.items) fwNext := by
  obtain ⟨k, rfl, c, hW, rfl⟩ := conf_of_new hm h2
  exact cost_of_iterates (fun _ _ _ _ => Nat.le_refl _) (fun A => htImpl_refines_model Ar lo c hW hasher A)
    (fun A => htImpl_lends_model Ar lo c hW hasher A)
    fun _ => htIters_meter

/-- C63 for `HashTrieSet`. -/
theorem C63_hash_set_iteration_cost {H : Type} (T Q : Type) (Ar : Arch) (o : HashKeys H T Q) (lo : o.Lawful) (hasher : H) (degree : Nat)
    (h2 : 2 ≤ degree) (m : HTMap H T Unit) (hm : HTMap.newWithDegree Ar hasher degree = .ok m) :
    IteratorsCost (htSetImpl Ar o hasher degree) (htSetIters H T) (fun _ => 0) (fun _ => 0) 267 htSetByRef m (htSetStepAll Ar o)
      (fun m _ => .ok (m.items.map Prod.fst)) fwNext := by
  obtain ⟨k, rfl, c, hW, rfl⟩ := conf_of_new hm h2
  exact cost_of_iterates (fun _ _ _ _ => Nat.le_refl _) (fun A => htSetImpl_refines_model Ar lo c hW hasher A)
    (fun A => htSetImpl_lends_model Ar lo c hW hasher A)
    fun _ => htSetIters_meter

/-! ### Non-vacuity -/

/-- Runs `setup` and then an iterator over the first handle; the touches for the start and, with the answers, for each call. -/
def iterated {L H Op Ret J I Y : Type} (impl : Impl L H Op Ret) (ii : IterImpl L H J I Y) (n : Nat) (setup : List (Cmd Op)) (which : J)
    (calls : List Bool) : Option (Nat × List (Y × Nat)) :=
  match outcome (bump L) n (client impl [] setup) [] with
  | some (r, h, _) =>
    match r.2 with
    | some x :: _ => (outcome (bump L) n (ii.session x which calls) h).map fun z => z.1
    | _ => none
  | none => none

-- the hypothesis of C63 on the calls
example : pureCalls (Y := Option Nat × Nat) deNext [1, 2, 3] [false, true, true, false] =
    .ok [(some 1, 2), (some 3, 1), (some 2, 0), (none, 0)] := by decide
-- a vector of height 2, from the left, from the right, and from both ends
def exFiveCmds : List (Cmd (RVector.Op Nat)) := .new :: (List.range 5).map fun i => .run 0 (.pushBackMut i)
example : iterated (vecImpl ⟨.debug, 64⟩ Nat 1) (vecIters ⟨.debug, 64⟩ Nat) 400 exFiveCmds () [false, false, false, false, false, false] =
    some (0, [((some 0, 4), 7), ((some 1, 3), 6), ((some 2, 2), 4), ((some 3, 1), 8), ((some 4, 0), 5), ((none, 0), 0)]) := by
  decide +kernel
example : iterated (vecImpl ⟨.debug, 64⟩ Nat 1) (vecIters ⟨.debug, 64⟩ Nat) 400 exFiveCmds () [true, true, true, true, true, true] =
    some (0, [((some 4, 4), 13), ((some 3, 3), 3), ((some 2, 2), 5), ((some 1, 1), 3), ((some 0, 0), 2), ((none, 0), 0)]) := by
  decide +kernel
example : iterated (vecImpl ⟨.debug, 64⟩ Nat 1) (vecIters ⟨.debug, 64⟩ Nat) 400 exFiveCmds () [true, false, false, true, true, true] =
    some (0, [((some 4, 4), 13), ((some 0, 3), 7), ((some 1, 2), 6), ((some 3, 1), 3), ((some 2, 0), 5), ((none, 0), 0)]) := by
  decide +kernel
-- in a queue the items of the second list are reversed when the first is done
example : iterated (queueImpl Nat) (queueIters Nat) 400 [.new, .run 0 (.enqueueMut 1), .run 0 (.enqueueMut 2), .run 0 .dequeueMut,
    .run 0 (.enqueueMut 3), .run 0 (.enqueueMut 4)] () [false, false, false, false] =
    some (0, [((some 2, 2), 2), ((some 3, 1), 3), ((some 4, 0), 1), ((none, 0), 0)]) := by
  decide +kernel
-- a smaller budget does not do
example : outcome (bump _) 200 (iclient (listImpl Nat) ((listIters Nat).meter (fun _ => 0) 1) [] [] exIterCmds) [] = none := by
  decide +kernel
set_option synthInstance.maxSize 1000 in
example : (outcome (bump _) 200 (iclient (listImpl Nat) ((listIters Nat).meter (fun _ => 0) 2) [] [] exIterCmds) []).map (fun x => x.1.1.drop 13) =
    some [none, none, some (.inr (some 7, 0))] := by
  decide +kernel
-- nor does one without an advance
example : outcome (bump _) 400 (iclient (queueImpl Nat) ((queueIters Nat).meter (fun _ => 0) 2) [] []
    [.cmd .new, .cmd (.run 0 (.enqueueMut 1)), .cmd (.run 0 (.enqueueMut 2)), .cmd (.run 0 .dequeueMut), .cmd (.run 0 (.enqueueMut 3)),
      .cmd (.run 0 (.enqueueMut 4)), .iter 0 (), .next 0 false, .next 0 false, .next 0 false]) [] = none := by
  decide +kernel

end Props
end Rpds
