import Verif.Props.Iterate
import Verif.Heap.OrderRun
/-
Memory orderings (C76).
-/
set_option autoImplicit false
namespace Rpds
namespace Props
open Heap Heap.HT Spec

section
variable {L H Op Ret σ J I X Y : Type}

/-- The orderings of `Arc` are enough.  Threads work and iterate as in C62, but not on sequentially consistent memory: increments of
counts are relaxed, decrements are releases, only a successful test for uniqueness and the last decrement acquire, and a test for
uniqueness may read an old value of the count, any that is not overwritten by a change its thread has seen.  Then for every such run, no
step faults, in particular no test takes an old one for the present count; there are no data races: of two accesses to a cell, one of
which writes its content, borrows it through `&mut`, moves it out or frees it, the earlier one happens before the later one; what is
behind lent handles stays as it is; every thread that finishes has the answers it would have running alone; when all have finished,
the memory is exactly what the handles keep alive; and every thread that is scheduled again and again finishes.  The runs include all
interleavings of C62 (tests that read the newest value). -/
def SoundOrderings (impl : Impl L H Op Ret) (ii : IterImpl L H J I Y) (byRef : Op → Bool) (new : σ)
    (step : σ → Op → Res (Ret × Effect σ)) (seq : σ → J → Res X) (inext : Bool → X → Res (Y × X)) : Prop :=
  ∀ (A : Allocator L) (setup : List (Cmd Op)) (rs : List (Option Ret)) (ss : List (Option σ)),
    pureClient new step [] setup = .ok (rs, ss) →
    ∃ (hs : List (Option H)) (h : Mem L) (d : Nat), Runs A (client impl [] setup) [] (rs, hs) h d ∧
      ∀ (sh : Nat → Bool) (owner : Nat → Nat) (cmdss : List (List (ICmd Op J))) (rss : List (List (Option (Ret ⊕ Y))))
        (sss : List (List (Option σ))), (∀ j, sh j = true → j < ss.length) → (∀ cmds ∈ cmdss, RespectsI sh byRef cmds) →
        rss.length = cmdss.length → sss.length = cmdss.length →
        (∀ (i : Nat) (cmds : List (ICmd Op J)) (rs : List (Option (Ret ⊕ Y))) (ss' : List (Option σ)), cmdss[i]? = some cmds →
          rss[i]? = some rs → sss[i]? = some ss' →
          pureIClient new step byRef seq inext (lentTo sh owner i ss) [] cmds = .ok (rs, ss')) →
        (∀ sched : List (Nat × Nat), Coherent arc A h sched [] (iteratingThreads impl ii sh owner hs cmdss) h →
          ∃ tr ths' h', runWeak A h sched [] (iteratingThreads impl ii sh owner hs cmdss) h = .ok (tr, ths', h') ∧
          RaceFree arc tr ∧
          (∀ (j : Nat) (x : H) (t : ATree L), sh j = true → hs[j]? = some (some x) → t.addr ∈ impl.ptrs x → Val h t → Val h' t) ∧
          (∀ (i : Nat) (th : Thread L (List (Option (Ret ⊕ Y)) × List (Option H))) (r : List (Option (Ret ⊕ Y)) × List (Option H)),
            ths'[i]? = some th → th.result = some r → rss[i]? = some r.1) ∧
          (∀ res : List (List (Option (Ret ⊕ Y)) × List (Option H)), ths'.map Thread.result = res.map some →
            Exact h' (ptrsOf impl ((res.map fun r => owned sh r.2).flatten ++ (lentOf sh hs ++ idleOf sh owner cmdss.length hs))))) ∧
        (∀ i, i < cmdss.length → ∀ s : Nat → Nat × Nat, (∀ n, ∃ m, n ≤ m ∧ (s m).1 = i) →
          (∀ n, Coherent arc A h (prefixOf s n) [] (iteratingThreads impl ii sh owner hs cmdss) h) →
          ∃ n tr ths' h' th r, runWeak A h (prefixOf s n) [] (iteratingThreads impl ii sh owner hs cmdss) h = .ok (tr, ths', h') ∧
            ths'[i]? = some th ∧ th.result = some r) ∧
        (∀ (sched : List Nat) (N : Nat), sched.length ≤ N →
          Coherent arc A h (sched.map fun i => (i, N)) [] (iteratingThreads impl ii sh owner hs cmdss) h ∧
          (runWeak A h (sched.map fun i => (i, N)) [] (iteratingThreads impl ii sh owner hs cmdss) h).map Prod.snd =
            runThreads A sched (iteratingThreads impl ii sh owner hs cmdss) h)

variable {impl : Impl L H Op Ret} {ii : IterImpl L H J I Y} {new : σ} {step : σ → Op → Res (Ret × Effect σ)} {R : H → σ → List (Item L) → Prop}
  {byRef : Op → Bool} {seq : σ → J → Res X} {inext : Bool → X → Res (Y × X)}

theorem orderings_of_iterates (hr : ∀ A, impl.Refines A new step R) (hl : ∀ A, impl.Lends A step R byRef)
    (hi : ∀ A, ∃ IR, ii.Iterates A R seq inext IR) : SoundOrderings impl ii byRef new step seq inext := by
  intro A setup rs ss he
  obtain ⟨IR, hi⟩ := hi A
  obtain ⟨hs, h, d, ρ, e1, hh, ho⟩ := (hr A).runs he
  refine ⟨hs, h, d, e1, ?_⟩
  intro sh owner cmdss rss sss hsh hc l1 l2 hp
  have sys := IterImpl.Iterates.system (hr A) (hl A) hi hh ho sh hsh owner cmdss hc rss sss l1 l2 hp
  refine ⟨?_, ?_, ?_⟩
  · intro sched hco
    obtain ⟨tr, ths', h', e2, e3, sys', e4⟩ := sys.runAt (hr A) sched hco
    refine ⟨tr, ths', h', e2, e3, ?_, fun i th r hi hres => sys'.answer hi hres, ?_⟩
    · intro j x t hj hx
      refine e4 j x t ?_
      rw [lentOf, keepIf_getElem?, Nat.zero_add]
      simp only [hj, if_true, hx, Option.map_some]
    · intro res hres
      obtain ⟨_, _, _, e4⟩ := sys'.quiet (hr A) res hres
      exact e4
  · intro i hi s hs'
    exact sys.finishesAt (by simpa [iteratingThreads] using hi) s hs'
  · intro sched N hN
    exact newest arc h sched N [] _ h (by simpa using hN)

end

/-- C76 for `List`. -/
theorem C76_list_orderings (T : Type) :
    SoundOrderings (listImpl T) (listIters T) listByRef ([] : List T) (fun xs op => .ok (Spec.listStep xs op)) (fun xs _ => .ok xs)
      fwNext :=
  orderings_of_iterates (fun _ => listImpl_refines) (fun _ => listImpl_lends) fun _ => ⟨_, listIters_iterates⟩

/-- C76 for `Stack`. -/
theorem C76_stack_orderings (T : Type) :
    SoundOrderings (stackImpl T) (listIters T) stackByRef ([] : List T) (fun xs op => .ok (Spec.stackStep xs op)) (fun xs _ => .ok xs)
      fwNext :=
  orderings_of_iterates (fun _ => stackImpl_refines) (fun _ => stackImpl_lends) fun _ => ⟨_, listIters_iterates⟩

/-- C76 for `Queue`. -/
theorem C76_queue_orderings (T : Type) :
    SoundOrderings (queueImpl T) (queueIters T) queueByRef ([] : List T) (fun xs op => .ok (Spec.queueStep xs op)) (fun xs _ => .ok xs)
      fwNext :=
  orderings_of_iterates (fun _ => queueImpl_refines) (fun _ => queueImpl_lends) fun _ => ⟨_, queueIters_iterates⟩

/-- C76 for `Vector`. -/
theorem C76_vector_orderings (T : Type) (Ar : Arch) (bits : Nat) (h0 : 0 < bits) (hW : bits < Ar.W) :
    SoundOrderings (vecImpl Ar T bits) (vecIters Ar T) vecByRef (vecCap Ar bits, ([] : List T)) Spec.vecStep (fun s _ => .ok s.2)
      deNext :=
  orderings_of_iterates (fun A => vecImpl_refines Ar A h0 hW) (fun _ => vecImpl_lends h0 hW) fun _ => ⟨_, vecIters_iterates⟩

/-- C76 for `RedBlackTreeMap`. -/
theorem C76_rb_map_orderings (K V Q : Type) (Ar : Arch) (o : OrdKeys K Q) (lo : o.Lawful) :
    SoundOrderings (rbImpl Ar o) (rbIters K V Ar o) rbByRef ([] : List (K × V)) (Spec.ordMapStep Ar.W o) (rbSeq Ar.W o) mixNext :=
  orderings_of_iterates (fun A => rbImpl_refines Ar lo A) (fun A => rbImpl_lends Ar lo A) fun A => ⟨_, rbIters_iterates Ar lo A⟩

/-- C76 for `RedBlackTreeSet`. -/
theorem C76_rb_set_orderings (T Q : Type) (Ar : Arch) (o : OrdKeys T Q) (lo : o.Lawful) :
    SoundOrderings (rbSetImpl Ar o) (rbSetIters T Ar o) rbSetByRef ([] : List T) (Spec.ordSetStep Ar.W o) (rbSetSeq Ar.W o) mixNext :=
  orderings_of_iterates (fun A => rbSetImpl_refines Ar lo A) (fun A => rbSetImpl_lends Ar lo A) fun A => ⟨_, rbSetIters_iterates Ar lo A⟩

/-- C76 for `HashTrieMap`. -/
theorem C76_hash_map_orderings {H : Type} (K V Q : Type) (Ar : Arch) (o : HashKeys H K Q) (lo : o.Lawful) (hasher : H) (degree : Nat)
    (h2 : 2 ≤ degree) (m : HTMap H K V) (hm : HTMap.newWithDegree Ar hasher degree = .ok m) :
    SoundOrderings (htImpl Ar o hasher degree) (htIters H K V) htByRef m (HTMap.stepAll Ar o) (fun m _ => .ok m.items) fwNext := by
  obtain ⟨k, rfl, c, hW, rfl⟩ := conf_of_new hm h2
  exact orderings_of_iterates (fun A => htImpl_refines_model Ar lo c hW hasher A) (fun A => htImpl_lends_model Ar lo c hW hasher A)
    fun _ => ⟨_, htIters_iterates⟩

/-- C76 for `HashTrieSet`. -/
theorem C76_hash_set_orderings {H : Type} (T Q : Type) (Ar : Arch) (o : HashKeys H T Q) (lo : o.Lawful) (hasher : H) (degree : Nat)
    (h2 : 2 ≤ degree) (m : HTMap H T Unit) (hm : HTMap.newWithDegree Ar hasher degree = .ok m) :
    SoundOrderings (htSetImpl Ar o hasher degree) (htSetIters H T) htSetByRef m (htSetStepAll Ar o) (fun m _ => .ok (m.items.map Prod.fst))
      fwNext := by
  obtain ⟨k, rfl, c, hW, rfl⟩ := conf_of_new hm h2
  exact orderings_of_iterates (fun A => htSetImpl_refines_model Ar lo c hW hasher A) (fun A => htSetImpl_lends_model Ar lo c hW hasher A)
    fun _ => ⟨_, htSetIters_iterates⟩

/-- What the events stand for.  A step without an event does not touch memory, and its result does not depend on it.  A step with an event
touches only the cell of the event: no other is changed, and the result depends on no other (but for the choice of the allocator).
It is exclusive exactly if it does anything else to the cell than to change its count, if it changes the count it counts, it
frees exactly if the cell is free afterwards, and it is an allocation exactly if the cell was
free before. -/
theorem C76_events {L α : Type} (A : Allocator L) (th th' : Thread L α) (h h' : Mem L) (he : th.step A h = .ok (th', h')) :
    match th.event A h with
    | none => h' = h ∧ ∀ h₂, th.step A h₂ = .ok (th', h₂)
    | some (k, p) =>
      (∀ q, q ≠ p → get h' q = get h q) ∧
      (∀ h₂, get h₂ p = get h p → (k = .alloc → A.pick h₂ = p) → ∃ h₂', th.step A h₂ = .ok (th', h₂') ∧ get h₂' p = get h' p) ∧
      (k.exclusive = false ↔ ∃ n m l cs, get h p = .closed n l cs ∧ get h' p = .closed m l cs) ∧
      ((get h' p).count ≠ (get h p).count → k.counts = true) ∧
      (k.frees = true ↔ get h' p = .free) ∧ (k = .alloc ↔ get h p = .free) := by
  have loc : ∀ {h₂ : Mem L}, match th.event A h with
    | none => th.step A h₂ = .ok (th', h₂)
    | some (k, p) => get h₂ p = get h p → (k = .alloc → A.pick h₂ = p) → ∃ h₂', th.step A h₂ = .ok (th', h₂') ∧ get h₂' p = get h' p := by
    intro h₂
    obtain ⟨pd, deep, prog⟩ := th
    cases pd with
    | cons x ps =>
      obtain ⟨d, p⟩ := x
      simp only [Thread.step, decr] at he
      simp only [Thread.event]
      intro h1 _
      simp only [Thread.step, decr, h1]
      cases hg : get h p with
      | free => simp [hg] at he
      | opened => simp [hg] at he
      | closed n l cs =>
        simp only [hg] at he
        by_cases hn : n = 1
        · simp only [hn, if_true, Except.ok.injEq, Prod.mk.injEq] at he
          obtain ⟨rfl, rfl⟩ := he
          simp [hn]
        · simp only [if_neg hn, Except.ok.injEq, Prod.mk.injEq] at he
          obtain ⟨rfl, rfl⟩ := he
          simp [hn]
    | nil =>
      cases prog with
      | ret r =>
        simp only [Thread.step, Except.ok.injEq, Prod.mk.injEq] at he
        obtain ⟨rfl, rfl⟩ := he
        rfl
      | panic => simp [Thread.step] at he
      | drop p k =>
        simp only [Thread.step, Except.ok.injEq, Prod.mk.injEq] at he
        obtain ⟨rfl, rfl⟩ := he
        rfl
      | op a k =>
        simp only [Thread.step] at he
        cases ha : act A a h with
        | error e => simp [ha] at he
        | ok y =>
          obtain ⟨x, h''⟩ := y
          simp only [ha, Except.ok.injEq, Prod.mk.injEq] at he
          obtain ⟨rfl, rfl⟩ := he
          simp only [Thread.event, Thread.step]
          cases a with
          | new l cs =>
            intro _ h2
            simp only [Act.event, forall_const] at h2
            simp only [act, Except.ok.injEq, Prod.mk.injEq] at ha
            obtain ⟨rfl, rfl⟩ := ha
            simp [act, h2, Act.event]
          | newOpen =>
            intro _ h2
            simp only [Act.event, forall_const] at h2
            simp only [act, Except.ok.injEq, Prod.mk.injEq] at ha
            obtain ⟨rfl, rfl⟩ := ha
            simp [act, h2, Act.event]
          | clone p | read p | tryOpen p | close p l' cs' | tryTake p =>
            intro h1 _
            simp only [Act.event] at h1 ⊢
            simp only [act, h1]
            simp only [act] at ha
            cases hg : get h p with
            | free => simp [hg] at ha
            | opened =>
              simp only [hg] at ha
              first
              | (cases ha; done)
              | (cases ha; simp)
            | closed n l cs =>
              simp only [hg] at ha
              first
              | (cases ha; done)
              | (cases ha; simp [h1, hg])
              | (cases ha; simp)
              | (by_cases hn : n = 1
                 · simp only [hn, if_true] at ha
                   cases ha
                   simp [hn]
                 · simp only [if_neg hn] at ha
                   cases ha
                   simp [hn, h1, hg])
  have eff := step_effects he
  revert eff loc
  cases th.event A h with
  | none => exact fun loc eff => ⟨eff, fun h₂ => loc⟩
  | some kp =>
    obtain ⟨k, p⟩ := kp
    intro loc eff
    have hput : ∀ {c : Cell L}, ∀ q, q ≠ p → get (put h p c) q = get h q := fun q hq => by rw [get_put, if_neg hq]
    refine ⟨?_, fun h₂ => loc, ?_⟩
    · cases k with
      | alloc => obtain ⟨-, c, rfl, -⟩ := eff; exact hput
      | incr => obtain ⟨n, l, cs, -, rfl⟩ := eff; exact hput
      | read => obtain ⟨n, l, cs, -, rfl⟩ := eff; exact fun _ _ => rfl
      | test => obtain ⟨n, l, cs, -, rfl⟩ := eff; exact fun _ _ => rfl
      | own => obtain ⟨l, cs, -, rfl⟩ := eff; exact hput
      | write => obtain ⟨-, l, cs, rfl⟩ := eff; exact hput
      | take => obtain ⟨l, cs, -, rfl⟩ := eff; exact hput
      | last => obtain ⟨l, cs, -, rfl⟩ := eff; exact hput
      | decr => obtain ⟨n, l, cs, -, -, rfl⟩ := eff; exact hput
    · cases k with
      | alloc =>
        obtain ⟨e, c, rfl, hc⟩ := eff
        cases c with
        | free => exact absurd rfl hc
        | opened => simp [Kind.exclusive, Kind.counts, Kind.frees, e, Cell.count]
        | closed n l cs => simp [Kind.exclusive, Kind.counts, Kind.frees, e, Cell.count]
      | incr =>
        obtain ⟨n, l, cs, e, rfl⟩ := eff
        exact ⟨⟨fun _ => ⟨n, n + 1, l, cs, e, by simp⟩, fun _ => rfl⟩, fun _ => rfl, by simp [Kind.frees], by simp [e]⟩
      | read | test =>
        obtain ⟨n, l, cs, e, rfl⟩ := eff
        exact ⟨⟨fun _ => ⟨_, _, _, _, e, e⟩, fun _ => rfl⟩, fun h => absurd rfl h, by simp [Kind.frees, e], by simp [e]⟩
      | own =>
        obtain ⟨l, cs, e, rfl⟩ := eff
        simp [Kind.exclusive, Kind.counts, Kind.frees, e, Cell.count]
      | write =>
        obtain ⟨e, l, cs, rfl⟩ := eff
        simp [Kind.exclusive, Kind.counts, Kind.frees, e, Cell.count]
      | take | last =>
        obtain ⟨l, cs, e, rfl⟩ := eff
        simp [Kind.exclusive, Kind.counts, Kind.frees, e, Cell.count]
      | decr =>
        obtain ⟨n, l, cs, e, hn, rfl⟩ := eff
        exact ⟨⟨fun _ => ⟨n, n - 1, l, cs, e, by simp⟩, fun _ => rfl⟩, fun _ => rfl, by simp [Kind.frees], by simp [e]⟩

/-! ### Non-vacuity -/

/-- Events, answers and memory after `setup` in one thread and `sched` in threads that get the handles in order, if the run is coherent. -/
def weakly {L H Op Ret J I Y : Type} (impl : Impl L H Op Ret) (ii : IterImpl L H J I Y) (n : Nat) (setup : List (Cmd Op))
    (cmdss : List (List (ICmd Op J))) (sched : List (Nat × Nat)) :
    Option (List Event × List (Option (List (Option (Ret ⊕ Y)))) × Mem L) :=
  match outcome (bump L) n (client impl [] setup) [] with
  | some (r, h, _) =>
    if coherently arc (bump L) h sched [] (iteratingThreads impl ii (fun _ => false) id r.2 cmdss) h then
      match runWeak (bump L) h sched [] (iteratingThreads impl ii (fun _ => false) id r.2 cmdss) h with
      | .ok (tr, ths, h') => some (tr, ths.map fun th => th.result.map (·.1), h')
      | .error _ => none
    else none
  | none => none

/-- Two handles of the same list: one thread reverses it in place, after another one has read its clone and dropped it. -/
def exWeak (t : Nat) : Option (List Event × List (Option (List (Option (RList.Ret Nat ⊕ (Option Nat × Nat))))) × Mem (LinLabel Nat)) :=
  weakly (listImpl Nat) (listIters Nat) 40 [.new, .run 0 (.pushFrontMut 1), .run 0 .clone]
    [[.cmd (.run 0 .reverseMut)], [.iter 1 (), .next 0 false, .stop 0, .cmd (.discard 1)]]
    (List.replicate 12 (1, 99) ++ List.replicate 20 (0, t))

/-- Its events if the test for uniqueness reads the newest value: the node (cell 1) read by thread 1 is written by thread 0. -/
def exTrace : List Event :=
  [⟨1, .read, 1, 2⟩, ⟨1, .read, 0, 3⟩, ⟨1, .test, 1, 2⟩, ⟨1, .decr, 1, 1⟩, ⟨1, .decr, 0, 2⟩, ⟨0, .read, 1, 1⟩, ⟨0, .incr, 0, 3⟩,
    ⟨0, .decr, 0, 2⟩, ⟨0, .own, 1, 1⟩, ⟨0, .write, 1, 1⟩]

set_option synthInstance.maxSize 10000 in
example : exWeak 99 = some (exTrace,
    [some [some (.inl .unit)], some [none, some (.inr (some 1, 0)), none, none]],
    [.closed 2 (.val 1) [], .closed 1 .node [0]]) := by
  decide +kernel
-- the read and the write are ordered by the decrement (event 3) and the test (event 8) of the count
example : Before arc exTrace 0 9 :=
  .trans (.program (x := ⟨1, .read, 1, 2⟩) (y := ⟨1, .decr, 1, 1⟩) (b := 3) (by decide) rfl rfl rfl)
    (.trans (.sync (x := ⟨1, .decr, 1, 1⟩) (y := ⟨0, .own, 1, 1⟩) (b := 8) (by decide) rfl rfl rfl rfl rfl (by
      intro c z h1 h2 hz _
      have : ∀ z ∈ exTrace, z.kind ≠ .alloc := by decide
      exact this z (List.mem_of_getElem? hz)))
      (.program (x := ⟨0, .own, 1, 1⟩) (y := ⟨0, .write, 1, 1⟩) (by decide) rfl rfl rfl))
-- with relaxed decrements or relaxed tests this is a data race
example (o : Orderings) (ho : o.release = false ∨ o.acquire = false) : ¬ RaceFree o exTrace := by
  intro h
  obtain ⟨x, y, hx, hy, hxy⟩ := (h 0 9 ⟨1, .read, 1, 2⟩ ⟨0, .write, 1, 1⟩ (by decide) rfl rfl rfl (.inr rfl)).alone ho (by decide)
  cases hx
  cases hy
  exact absurd hxy (by decide)
-- the test may also read the old count two (thread 0 has not seen the decrement yet): the node is copied although it is unique, and the
-- answers are the same
set_option synthInstance.maxSize 10000 in
example : exWeak 0 = some (
    exTrace.take 8 ++ [⟨0, .test, 1, 1⟩, ⟨0, .read, 1, 1⟩, ⟨0, .incr, 0, 3⟩, ⟨0, .alloc, 2, 1⟩, ⟨0, .last, 1, 0⟩, ⟨0, .decr, 0, 2⟩,
      ⟨0, .write, 2, 1⟩],
    [some [some (.inl .unit)], some [none, some (.inr (some 1, 0)), none, none]],
    [.closed 2 (.val 1) [], .free, .closed 1 .node [0]]) := by
  decide +kernel
-- a run where a test reads a value overwritten by a change its own thread made is not coherent
example : weakly (listImpl Nat) (listIters Nat) 40 [.new, .run 0 (.pushFrontMut 1)] [[.cmd (.run 0 .clone), .cmd (.run 0 .reverseMut)]]
    (List.replicate 20 (0, 0)) = none := by
  decide +kernel

end Props
end Rpds
