import Verif.Props.FootprintShared
import Verif.Heap.Counters
/-
Counters cannot overflow (C72): the numbers of elements that handles keep, and the reference counts, are at most the number of cells and
of pointers that are in memory at the same time.
-/
set_option autoImplicit false
namespace Rpds
namespace Props
open Heap

section
variable {L H Op Ret σ : Type}

/-- In the memory `h` with the handles `hs` alive: the counters in handles and those stored in cells are at most the number of cells in use,
and reference counts are at most the number of pointers, in handles and in cells. -/
def Counted (impl : Impl L H Op Ret) (counters : H → List Nat) (stored : L → Nat) (h : Mem L) (hs : List (Option H)) : Prop :=
  (∀ x, some x ∈ hs → ∀ n ∈ counters x, n ≤ live h) ∧
  (∀ (a : Addr) (count : Nat) (l : L) (cs : List Addr), get h a = .closed count l cs →
    stored l ≤ live h ∧ count ≤ (ptrsOf impl hs).length + (refs h).length)

/-- Whatever a client did, and whatever threads did after that with handles of their own and handles lent to all of them. -/
def CountersFit (impl : Impl L H Op Ret) (byRef : Op → Bool) (new : σ) (step : σ → Op → Res (Ret × Effect σ))
    (counters : H → List Nat) (stored : L → Nat) : Prop :=
  ∀ (A : Allocator L) (setup : List (Cmd Op)) (rs : List (Option Ret)) (ss : List (Option σ)),
    pureClient new step [] setup = .ok (rs, ss) →
    ∃ (hs : List (Option H)) (h : Mem L) (d : Nat), Runs A (client impl [] setup) [] (rs, hs) h d ∧ Counted impl counters stored h hs ∧
      ∀ (sh : Nat → Bool) (owner : Nat → Nat) (cmdss : List (List (Cmd Op))) (rss : List (List (Option Ret)))
        (sss : List (List (Option σ))), (∀ j, sh j = true → j < ss.length) → (∀ cmds ∈ cmdss, Respects sh byRef cmds) →
        rss.length = cmdss.length → sss.length = cmdss.length →
        (∀ (i : Nat) (cmds : List (Cmd Op)) (rs : List (Option Ret)) (ss' : List (Option σ)), cmdss[i]? = some cmds →
          rss[i]? = some rs → sss[i]? = some ss' → pureClient new step (lentTo sh owner i ss) cmds = .ok (rs, ss')) →
        ∀ sched : List Nat, ∃ ths' h', runThreads A sched (sharingThreads impl sh owner hs 0 cmdss) h = .ok (ths', h') ∧
          ∀ res : List (List (Option Ret) × List (Option H)), ths'.map Thread.result = res.map some →
            Counted impl counters stored h' ((res.map fun r => owned sh r.2).flatten ++ (lentOf sh hs ++ idleOf sh owner cmdss.length hs))

variable {impl : Impl L H Op Ret} {byRef : Op → Bool} {new : σ} {step : σ → Op → Res (Ret × Effect σ)} {R : H → σ → List (Item L) → Prop}
  {counters : H → List Nat} {stored : L → Nat}

theorem handle_of_mem {hs : List (Option H)} {ss : List (Option σ)} {ρ : List (Item L)} (hh : Handles R hs ss ρ) {x : H} (hx : some x ∈ hs) :
    ∃ s ρ', R x s ρ' ∧ ∀ i ∈ ρ', i ∈ ρ := by
  induction hh with
  | nil => cases hx
  | dead _ ih =>
    rcases List.mem_cons.1 hx with h | h
    · cases h
    · exact ih h
  | live h1 _ ih =>
    rcases List.mem_cons.1 hx with h | h
    · cases h
      exact ⟨_, _, h1, fun _ h => List.mem_append.2 (.inl h)⟩
    · obtain ⟨s, ρ', e1, e2⟩ := ih h
      exact ⟨s, ρ', e1, fun i hi => List.mem_append.2 (.inr (e2 i hi))⟩

theorem handle_of_item {hs : List (Option H)} {ss : List (Option σ)} {ρ : List (Item L)} (hh : Handles R hs ss ρ) {i : Item L} (hi : i ∈ ρ) :
    ∃ x s ρ', R x s ρ' ∧ i ∈ ρ' ∧ ∀ i ∈ ρ', i ∈ ρ := by
  induction hh with
  | nil => cases hi
  | dead _ ih => exact ih hi
  | live h1 _ ih =>
    rcases List.mem_append.1 hi with h | h
    · exact ⟨_, _, _, h1, h, fun _ h => List.mem_append.2 (.inl h)⟩
    · obtain ⟨x, s, ρ', e1, e2, e3⟩ := ih h
      exact ⟨x, s, ρ', e1, e2, fun i hi => List.mem_append.2 (.inr (e3 i hi))⟩

theorem counted_of_handles (hc : ∀ x s ρ, R x s ρ → ∀ n ∈ counters x, Spread ρ n)
    (hs : ∀ x s ρ, R x s ρ → ∀ t u, .ptr t ∈ ρ → Sub u t → Spread ρ (stored u.label)) {h : Mem L} {hs' : List (Option H)} {ss : List (Option σ)}
    {ρ : List (Item L)} (hh : Handles R hs' ss ρ) (ho : Own h ρ) (he : Exact h (ptrsOf impl hs')) : Counted impl counters stored h hs' := by
  refine ⟨?_, ?_⟩
  · intro x hx n hn
    obtain ⟨s, ρ', e1, e2⟩ := handle_of_mem hh hx
    exact (hc x s ρ' e1 n hn).le_live e2 ho
  · intro a count l cs hg
    refine ⟨?_, ?_⟩
    · obtain ⟨t, u, h1, h2, -, rfl⟩ := ho.owned hg
      obtain ⟨x, s, ρ', e1, e2, e3⟩ := handle_of_item hh h1
      exact (hs x s ρ' e1 t u e2 h2).le_live e3 ho
    · rw [(he.1 a count l cs hg).1]
      exact Nat.add_le_add List.count_le_length List.count_le_length

theorem counters_of_lends (hr : ∀ A, impl.Refines A new step R) (hl : ∀ A, impl.Lends A step R byRef)
    (hc : ∀ x s ρ, R x s ρ → ∀ n ∈ counters x, Spread ρ n)
    (hs : ∀ x s ρ, R x s ρ → ∀ t u, .ptr t ∈ ρ → Sub u t → Spread ρ (stored u.label)) :
    CountersFit impl byRef new step counters stored := by
  intro A setup rs ss he
  obtain ⟨hs', h, d, ρ, e1, hh, ho⟩ := (hr A).runs he
  have hx : Exact h (ptrsOf impl hs') := by
    obtain ⟨ts, e2, e3⟩ := hh.ptrs (hr A)
    rw [e3]
    subst e2
    exact ho.exact
  refine ⟨hs', h, d, e1, counted_of_handles hc hs hh ho hx, ?_⟩
  intro sh owner cmdss rss sss hsh hc' l1 l2 hp sched
  obtain ⟨ths', h', e2, sys, -⟩ := (Impl.Lends.system (hr A) (hl A) hh ho sh hsh owner cmdss hc' rss sss l1 l2 hp).run (hr A) sched
  refine ⟨ths', h', e2, fun res hres => ?_⟩
  obtain ⟨ρ', e3, ho', hx'⟩ := sys.quiet (hr A) res hres
  exact counted_of_handles hc hs e3 ho' hx'

end

/-- C72 for `List`. -/
theorem C72_list_counters (T : Type) :
    CountersFit (listImpl T) listByRef ([] : List T) (fun xs op => .ok (Spec.listStep xs op)) (fun l => [l.length]) fun _ => 0 :=
  counters_of_lends (fun _ => listImpl_refines) (fun _ => listImpl_lends)
    (fun _ _ _ h n hn => by rw [List.mem_singleton.1 hn]; exact ListIs.spread h) fun _ _ _ _ _ _ _ _ => .zero _

/-- C72 for `Stack`. -/
theorem C72_stack_counters (T : Type) :
    CountersFit (stackImpl T) stackByRef ([] : List T) (fun xs op => .ok (Spec.stackStep xs op)) (fun l => [l.length]) fun _ => 0 :=
  counters_of_lends (fun _ => stackImpl_refines) (fun _ => stackImpl_lends)
    (fun _ _ _ h n hn => by rw [List.mem_singleton.1 hn]; exact ListIs.spread h) fun _ _ _ _ _ _ _ _ => .zero _

/-- C72 for `Queue`, which has a counter for each of its two lists. -/
theorem C72_queue_counters (T : Type) :
    CountersFit (queueImpl T) queueByRef ([] : List T) (fun xs op => .ok (Spec.queueStep xs op))
      (fun q => [q.in_list.length, q.out_list.length]) fun _ => 0 := by
  refine counters_of_lends (fun _ => queueImpl_refines) (fun _ => queueImpl_lends) ?_ fun _ _ _ _ _ _ _ _ => .zero _
  intro q xs ρ h n hn
  have := QueueIs.spread h
  simp only [List.mem_cons, List.not_mem_nil, or_false] at hn
  rcases hn with rfl | rfl
  · exact this.1
  · exact this.2

/-- C72 for `RedBlackTreeMap`. -/
theorem C72_rb_map_counters (K V Q : Type) (Ar : Arch) (o : OrdKeys K Q) (lo : o.Lawful) :
    CountersFit (rbImpl Ar o) rbByRef ([] : List (K × V)) (Spec.ordMapStep Ar.W o) (fun m => [m.size]) fun _ => 0 := by
  refine counters_of_lends (fun A => rbImpl_refines Ar lo A) (fun A => rbImpl_lends Ar lo A) ?_ fun _ _ _ _ _ _ _ _ => .zero _
  rintro x l ρ ⟨m, h1, h2⟩ n hn
  rw [List.mem_singleton.1 hn]
  exact h1.spread lo h2

/-- C72 for `RedBlackTreeSet`. -/
theorem C72_rb_set_counters (T Q : Type) (Ar : Arch) (o : OrdKeys T Q) (lo : o.Lawful) :
    CountersFit (rbSetImpl Ar o) rbSetByRef ([] : List T) (Spec.ordSetStep Ar.W o) (fun m => [m.size]) fun _ => 0 := by
  refine counters_of_lends (fun A => rbSetImpl_refines Ar lo A) (fun A => rbSetImpl_lends Ar lo A) ?_ fun _ _ _ _ _ _ _ _ => .zero _
  rintro x l ρ ⟨_, ⟨m, h1, h2⟩, rfl⟩ n hn
  rw [List.mem_singleton.1 hn]
  exact h1.spread lo h2

section hash
open HT
variable {H : Type}

/-- C72 for `HashTrieMap`: the counter of the map, and the lengths of the lists in collision leaves. -/
theorem C72_hash_map_counters (K V Q : Type) (Ar : Arch) (o : HashKeys H K Q) (lo : o.Lawful) (hasher : H) (degree : Nat) (h2 : 2 ≤ degree)
    (m : HTMap H K V) (hm : HTMap.newWithDegree Ar hasher degree = .ok m) :
    CountersFit (htImpl Ar o hasher degree) htByRef ([] : List (K × V)) (Spec.finMapStep o) (fun m => [m.size]) storedLength := by
  obtain ⟨k, rfl, c, hW, rfl⟩ := conf_of_new hm h2
  refine counters_of_lends (fun A => htImpl_refines Ar lo c hW hasher A) (fun A => htImpl_lends Ar lo c hW hasher A) ?_ ?_
  · rintro x l ρ ⟨m, h1, h2⟩ n hn
    rw [List.mem_singleton.1 hn]
    exact h1.spread lo h2
  · rintro x l ρ ⟨m, h1, h2⟩ t u ht hs
    exact h1.stored ht hs

/-- C72 for `HashTrieSet`. -/
theorem C72_hash_set_counters (T Q : Type) (Ar : Arch) (o : HashKeys H T Q) (lo : o.Lawful) (hasher : H) (degree : Nat) (h2 : 2 ≤ degree)
    (m : HTMap H T Unit) (hm : HTMap.newWithDegree Ar hasher degree = .ok m) :
    CountersFit (htSetImpl Ar o hasher degree) htSetByRef ([] : List T) (Spec.finSetStep o) (fun m => [m.size]) storedLength := by
  obtain ⟨k, rfl, c, hW, rfl⟩ := conf_of_new hm h2
  refine counters_of_lends (fun A => htSetImpl_refines Ar lo c hW hasher A) (fun A => htSetImpl_lends Ar lo c hW hasher A) ?_ ?_
  · rintro x l ρ ⟨_, ⟨m, h1, h2⟩, rfl⟩ n hn
    rw [List.mem_singleton.1 hn]
    exact h1.spread lo h2
  · rintro x l ρ ⟨_, ⟨m, h1, h2⟩, rfl⟩ t u ht hs
    exact h1.stored ht hs

end hash

/-! ### Non-vacuity -/

/-- The counters of the handles that are alive, the largest one stored in a cell, the cells in use, the largest reference count, and the
number of pointers in handles and in cells, after `cmds` in one thread. -/
def counts {L H Op Ret : Type} (impl : Impl L H Op Ret) (counters : H → List Nat) (stored : L → Nat) (n : Nat) (cmds : List (Cmd Op)) :
    Option (List (List Nat) × Nat × Nat × Nat × Nat) :=
  (outcome (bump L) n (client impl [] cmds) []).map fun x =>
    ((x.1.2.filterMap id).map counters,
      (x.2.1.map fun c => match c with | .closed _ l _ => stored l | _ => 0).foldl max 0, live x.2.1,
      (x.2.1.map fun c => match c with | .closed n _ _ => n | _ => 0).foldl max 0, (ptrsOf impl x.1.2).length + (refs x.2.1).length)

-- two versions of a list, one of three elements and one of two, in six cells
example : counts (listImpl Nat) (fun l => [l.length]) (fun _ => 0) 400 (exList3 ++ [.run 0 .dropFirst]) =
    some ([[3], [2]], 0, 6, 3, 9) := by decide +kernel
-- a queue of four elements, and what is left after one is taken out and another put in
example : counts (queueImpl Nat) (fun q => [q.in_list.length, q.out_list.length]) (fun _ => 0) 400
    ([.new] ++ (List.range 4).map (fun i => .run 0 (.enqueueMut i)) ++ [.run 0 .dequeue, .run 1 (.enqueueMut 9)]) =
    some ([[4, 0], [1, 3]], 0, 13, 3, 19) := by decide +kernel
example : counts (rbImpl ⟨.debug, 64⟩ exOrd) (fun m => [m.size]) (fun _ => 0) 1700 (exRBN 7) = some ([[7], [7]], 0, 14, 2, 15) := by
  decide +kernel
-- three keys with the same hash are in a list of length three
open HT in
example : counts (htImpl ⟨.debug, 64⟩ exKeys 1 64) (fun m => [m.size]) storedLength 2500 (exHTN 3) = some ([[3], [3]], 3, 21, 2, 23) := by
  decide +kernel

end Props
end Rpds
