import Verif.Props.Nest
import Verif.Heap.HashTrieGlue
/-
How deep destructors nest when hash maps and sets are dropped, with the loop of `Drop for List` in the leaves with collisions (C60).

The heap programs of all structures can be run by two machines: `Thread.step`, where everything a freed cell holds is dropped by recursion, and
`GThread.step`, where a `List` in a freed cell is dropped by the loop of its `Drop` (list/mod.rs:404-421).  They are told apart by nothing but the
nesting of destructors.
-/
set_option autoImplicit false
namespace Rpds
namespace Props
open Heap

/-- The threads of `threads`, for the machine with the loop. -/
def gthreads {L H Op Ret : Type} (impl : Impl L H Op Ret) (owner : Nat → Nat) (hs : List (Option H)) :
    (i : Nat) → (cmdss : List (List (Cmd Op))) → List (GThread L (List (Option Ret) × List (Option H)))
  | _, [] => []
  | i, cmds :: cmdss => .start (client impl (handlesOf owner i hs) cmds) :: gthreads impl owner hs (i + 1) cmdss

theorem gthreads_sim {L H Op Ret : Type} (impl : Impl L H Op Ret) (owner : Nat → Nat) (hs : List (Option H)) (cmdss : List (List (Cmd Op))) :
    ∀ i, List.Forall₂ GThread.Sim (gthreads impl owner hs i cmdss) (threads impl owner hs i cmdss) := by
  induction cmdss with
  | nil => intro i; exact .nil
  | cons cmds cmdss ih => intro i; exact .cons (GThread.sim_start _) (ih _)

/-- C60: the loop changes no more than the nesting.  Whatever cells hold lists, and whatever the threads and the schedule are, the threads with the loop
do to memory what the threads without it do under a part of the schedule: there is the same fault, or the same memory with the same programs
left to run (in particular the same results), and no deeper nesting. -/
theorem C60_glue_same_memory {L α : Type} (lists : L → Bool) (A : Allocator L) (progs : List (Prog L α)) (h : Mem L) (sched : List Nat) :
    ∃ sched' : List Nat, sched'.Sublist sched ∧
      match gThreads lists A sched (progs.map .start) h with
      | .error e => runThreads A sched' (progs.map .start) h = .error e
      | .ok (gs, h') => ∃ ths, runThreads A sched' (progs.map .start) h = .ok (ths, h') ∧
          List.Forall₂ (fun (g : GThread L α) (th : Thread L α) =>
            g.prog = th.prog ∧ g.pending.map (·.2.2) = th.pending.map (·.2) ∧ g.deepest ≤ th.deepest) gs ths := by
  have start : List.Forall₂ GThread.Sim (progs.map (GThread.start (L := L))) (progs.map .start) := by
    induction progs with
    | nil => exact .nil
    | cons p ps ih => exact .cons (GThread.sim_start p) ih
  obtain ⟨sched', h1, h2⟩ := gThreads_sim (lists := lists) (A := A) sched _ _ h start
  refine ⟨sched', h1, ?_⟩
  cases hg : gThreads lists A sched (progs.map .start) h with
  | error e => rw [hg] at h2; exact h2
  | ok x =>
    obtain ⟨gs, h'⟩ := x
    rw [hg] at h2
    obtain ⟨ths, h3, h4⟩ := h2
    refine ⟨ths, h3, ?_⟩
    clear h3 hg start h1
    induction h4 with
    | nil => exact .nil
    | @cons g th gs ths hs _ ih =>
      refine .cons ⟨hs.prog, ?_, hs.deepest⟩ ih
      have := hs.pending
      revert this
      generalize g.pending = a
      generalize th.pending = b
      intro this
      induction this with
      | nil => rfl
      | cons h1 _ ih => simp [h1.1, ih]

/-- A program that runs alone ends with the same result and the same memory, and nests no deeper. -/
theorem C60_glue_same_result {L α : Type} (lists : L → Bool) (A : Allocator L) (prog : Prog L α) (h h' : Mem L) (r : α) (d : Nat)
    (e : Runs A prog h r h' d) :
    (∃ d', GRuns lists A prog h r h' d' ∧ d' ≤ d) ∧ ∀ r' h'' d'', GRuns lists A prog h r' h'' d'' → r' = r ∧ h'' = h' ∧ d'' ≤ d := by
  obtain ⟨d', h1, h2⟩ := e.glue (lists := lists)
  refine ⟨⟨d', h1, h2⟩, fun r' h'' d'' h3 => ?_⟩
  obtain ⟨e1, e2, e3⟩ := h3.unique h1
  exact ⟨e1, e2, e3 ▸ h2⟩

/-- `DropsFrom`, for the machine with the loop. -/
def GDropsFrom {L H Op Ret σ : Type} (lists : L → Bool) (base : Nat) (impl : Impl L H Op Ret) (new : σ) (step : σ → Op → Res (Ret × Effect σ))
    (lim : σ → Nat) : Prop :=
  ∀ (A : Allocator L) (n : Nat), base ≤ n → lim new ≤ n →
  ∀ (setup : List (Cmd Op)) (rs : List (Option Ret)) (ss : List (Option σ)),
    pureClient new step [] setup = .ok (rs, ss) → Stay (fun s => lim s ≤ n) new step [] setup →
    ∃ (hs : List (Option H)) (h : Mem L) (d : Nat), GRuns lists A (client impl [] setup) [] (rs, hs) h d ∧ d ≤ n ∧
      ∀ (owner : Nat → Nat) (cmdss : List (List (Cmd Op))) (rss : List (List (Option Ret))) (sss : List (List (Option σ))),
        rss.length = cmdss.length → sss.length = cmdss.length →
        (∀ (i : Nat) (cmds : List (Cmd Op)) (rs : List (Option Ret)) (ss' : List (Option σ)), cmdss[i]? = some cmds → rss[i]? = some rs →
          sss[i]? = some ss' → pureClient new step (handlesOf owner i ss) cmds = .ok (rs, ss') ∧
            Stay (fun s => lim s ≤ n) new step (handlesOf owner i ss) cmds) →
        ∀ sched : List Nat, ∃ ths' h', gThreads lists A sched (gthreads impl owner hs 0 cmdss) h = .ok (ths', h') ∧
          ∀ (i : Nat) (th : GThread L (List (Option Ret) × List (Option H))), ths'[i]? = some th → th.deepest ≤ n

theorem DropsFrom.glue {L H Op Ret σ : Type} {base : Nat} {impl : Impl L H Op Ret} {new : σ} {step : σ → Op → Res (Ret × Effect σ)}
    {lim : σ → Nat} (hd : DropsFrom base impl new step lim) (lists : L → Bool) : GDropsFrom lists base impl new step lim := by
  intro A n h3 h0 setup rs ss he hst
  obtain ⟨hs, h, d, e1, hn, ht⟩ := hd A n h3 h0 setup rs ss he hst
  obtain ⟨d', e2, h4⟩ := e1.glue (lists := lists)
  refine ⟨hs, h, d', e2, by omega, ?_⟩
  intro owner cmdss rss sss l1 l2 hp sched
  obtain ⟨sched', -, hsim⟩ := gThreads_sim (lists := lists) (A := A) sched _ _ h (gthreads_sim impl owner hs cmdss 0)
  obtain ⟨ths, h', e3, h5⟩ := ht owner cmdss rss sss l1 l2 hp sched'
  cases hg : gThreads lists A sched (gthreads impl owner hs 0 cmdss) h with
  | error e =>
    rw [hg] at hsim
    simp only at hsim
    rw [e3] at hsim
    cases hsim
  | ok x =>
    obtain ⟨gs, h''⟩ := x
    rw [hg] at hsim
    obtain ⟨ths', h6, h7⟩ := hsim
    rw [e3] at h6
    cases h6
    refine ⟨gs, h', rfl, ?_⟩
    clear hg e3
    induction h7 with
    | nil => intro i th hi; simp at hi
    | @cons g th gs ths hs _ ih =>
      intro i u hi
      cases i with
      | zero =>
        cases hi
        exact Nat.le_trans hs.deepest (h5 0 th rfl)
      | succ i => exact ih (fun i u hu => h5 (i + 1) u hu) i u hi

/-- A client that runs alone nests destructors at most `n` deep, whatever values it has; and its results and the memory are those of the machine
without the loop. -/
def FlatDrops {L H Op Ret σ : Type} (lists : L → Bool) (impl : Impl L H Op Ret) (new : σ) (step : σ → Op → Res (Ret × Effect σ)) (n : Nat) : Prop :=
  ∀ (A : Allocator L) (cmds : List (Cmd Op)) (rs : List (Option Ret)) (ss : List (Option σ)), pureClient new step [] cmds = .ok (rs, ss) →
    ∃ (hs : List (Option H)) (h : Mem L) (d d' : Nat), GRuns lists A (client impl [] cmds) [] (rs, hs) h d ∧ d ≤ n ∧
      Runs A (client impl [] cmds) [] (rs, hs) h d' ∧ d ≤ d'

theorem flatDrops_of {L H Op Ret σ : Type} {lists : L → Bool} {impl : Impl L H Op Ret} {new : σ} {step : σ → Op → Res (Ret × Effect σ)} {n : Nat}
    {R R' : H → σ → List (Item L) → Prop} (hb : ∀ A, impl.GBounded lists A (some n) new step R) (hr : ∀ A, impl.Refines A new step R') :
    FlatDrops lists impl new step n := by
  intro A cmds rs ss he
  obtain ⟨hs, m, d, e1, hw⟩ := (hb A).client cmds he
  obtain ⟨hs', m', d', -, e2, -, -⟩ := (hr A).runs he
  obtain ⟨d'', e3, hl⟩ := e2.glue (lists := lists)
  obtain ⟨h1, rfl, rfl⟩ := e1.unique e3
  simp only [Prod.mk.injEq, true_and] at h1
  subst h1
  exact ⟨hs, m, d, d', e1, within_some.1 hw, e2, hl⟩

open Heap.HT

section
variable {H K V Q : Type}

theorem htImpl_gbounded (Ar : Arch) {o : HashKeys H K Q} (lo : o.Lawful) {k : Nat} (c : HConf Ar k) (hW : 2 ^ k ≤ Ar.W % 256)
    (hasher : H) (A : Allocator (HLabel K V)) :
    (htImpl Ar o hasher (2 ^ k) : Impl (HLabel K V) _ _ _).GBounded collisionList A (some (63 / k + 4)) ([] : List (K × V)) (Spec.finMapStep o)
      (fun hm l ρ => ∃ m, HTIs Ar o k hm m ρ ∧ m.Rep Ar o k l) :=
  (htImpl_gbounded_model Ar lo c hW hasher A).trans (HTMap.rep_empty c hasher) fun _ _ op _ _ hr he => htMap_stepAll lo hr op he

end

/-- C60 for `HashTrieMap` with degree `2 ^ k`, run by one thread: destructors nest at most `63 / k + 4` deep, however many pairs there are and
whatever their hashes. -/
theorem C60_hash_map_drop_flat {H : Type} (K V Q : Type) (Ar : Arch) (o : HashKeys H K Q) (lo : o.Lawful) (hasher : H) (k : Nat) (h1 : 1 ≤ k)
    (m : HTMap H K V) (hm : HTMap.newWithDegree Ar hasher (2 ^ k) = .ok m) :
    FlatDrops collisionList (htImpl Ar o hasher (2 ^ k)) ([] : List (K × V)) (Spec.finMapStep o) (63 / k + 4) := by
  obtain ⟨k', e, c, hW, rfl⟩ := conf_of_new hm (Nat.le_self_pow (by omega) 2)
  obtain rfl := (Nat.pow_right_inj (a := 2) (by omega)).1 e
  exact flatDrops_of (fun A => htImpl_gbounded Ar lo c hW hasher A) fun A => htImpl_refines Ar lo c hW hasher A

/-- C60 for `HashTrieSet`, run by one thread. -/
theorem C60_hash_set_drop_flat {H : Type} (T Q : Type) (Ar : Arch) (o : HashKeys H T Q) (lo : o.Lawful) (hasher : H) (k : Nat) (h1 : 1 ≤ k)
    (m : HTMap H T Unit) (hm : HTMap.newWithDegree Ar hasher (2 ^ k) = .ok m) :
    FlatDrops collisionList (htSetImpl Ar o hasher (2 ^ k)) ([] : List T) (Spec.finSetStep o) (63 / k + 4) := by
  obtain ⟨k', e, c, hW, rfl⟩ := conf_of_new hm (Nat.le_self_pow (by omega) 2)
  obtain rfl := (Nat.pow_right_inj (a := 2) (by omega)).1 e
  refine flatDrops_of (fun A => ((htImpl_gbounded Ar lo c hW hasher A).adapt htSetOp htSetRet).trans (S := fun s l => s = Spec.unitPairs l) rfl ?_)
    fun A => htSetImpl_refines Ar lo c hW hasher A
  rintro _ l op x f rfl he
  obtain ⟨y, g, h1, h2, h3⟩ := finMap_set l op he
  exact ⟨g, by simp [h1, h2], h3⟩

/-- C60 for `HashTrieMap`, by several threads: a thread may be unable to take a list apart (the nodes are still shared), and then the last owner
drops them by recursion, so the keys with the same hash count. -/
theorem C60_hash_map_drop_threads {H : Type} (K V Q : Type) (Ar : Arch) (o : HashKeys H K Q) (lo : o.Lawful) (hasher : H) (k : Nat) (h1 : 1 ≤ k)
    (m : HTMap H K V) (hm : HTMap.newWithDegree Ar hasher (2 ^ k) = .ok m) :
    GDropsFrom collisionList 3 (htImpl Ar o hasher (2 ^ k)) ([] : List (K × V)) (Spec.finMapStep o)
      (fun l => 63 / k + 3 + crowd (l.map fun x => o.hashK hasher x.1)) :=
  DropsFrom.glue (C60_hash_map_drop_shallow K V Q Ar o lo hasher k h1 m hm) _

/-- C60 for `HashTrieSet`, by several threads. -/
theorem C60_hash_set_drop_threads {H : Type} (T Q : Type) (Ar : Arch) (o : HashKeys H T Q) (lo : o.Lawful) (hasher : H) (k : Nat) (h1 : 1 ≤ k)
    (m : HTMap H T Unit) (hm : HTMap.newWithDegree Ar hasher (2 ^ k) = .ok m) :
    GDropsFrom collisionList 3 (htSetImpl Ar o hasher (2 ^ k)) ([] : List T) (Spec.finSetStep o)
      (fun l => 63 / k + 3 + crowd (l.map (o.hashK hasher))) :=
  DropsFrom.glue (C60_hash_set_drop_shallow T Q Ar o lo hasher k h1 m hm) _

/-! ### Examples -/

/-- `outcome`, for the machine with the loop. -/
def gOutcome {L α : Type} (lists : L → Bool) (A : Allocator L) (n : Nat) (prog : Prog L α) (h : Mem L) : Option (α × Mem L × Nat) :=
  match gAlone lists A n (.start prog) h with
  | .ok ({ pending := [], deepest, prog := .ret r }, h') => some (r, h', deepest)
  | _ => none

-- the bound at degree 64 is `63 / 6 + 4 = 14`, for any number of keys with the same hash
example (n : Nat) (rs ss) (he : pureClient [] (Spec.finMapStep exKeys) [] (exHTDrop n) = .ok (rs, ss)) :
    ∃ hs h d, GRuns collisionList (bump _) (client (htImpl ⟨.debug, 64⟩ exKeys 10 64) [] (exHTDrop n)) [] (rs, hs) h d ∧ d ≤ 14 := by
  obtain ⟨hs, h, d, _, h1, h2, -⟩ := C60_hash_map_drop_flat (Nat × String) Nat Nat ⟨.debug, 64⟩ exKeys exKeys_lawful 10 6 (by decide) _ rfl
    (bump _) (exHTDrop n) rs ss he
  exact ⟨hs, h, d, h1, h2⟩

-- and it is reached, by 2 keys as well as by 6; without the loop the nesting was 14 and 18
example : (gOutcome collisionList (bump _) 3000 (client (htImpl ⟨.debug, 64⟩ exKeys 10 64) [] (exHTDrop 2)) []).any
    (fun x => decide (x.2.2 = 14)) = true := by decide +kernel
example : (gOutcome collisionList (bump _) 3000 (client (htImpl ⟨.debug, 64⟩ exKeys 10 64) [] (exHTDrop 6)) []).any
    (fun x => decide (x.2.2 = 14)) = true := by decide +kernel

/-- Makes two versions that share all but the first of `n` keys with the same hash. -/
def exHTShare (n : Nat) : List (Cmd (HTOp (Nat × String) Nat Nat)) :=
  .new :: (List.range n).map (fun i => .run 0 (.base (.insertMut (10 * i, "") i))) ++
    [.run 0 (.base .clone), .run 1 (.base (.getMut (10 * (n - 1)) fun x => x + 1))]

/-- Two threads drop the two versions: how deep they nest, and whether every cell is free in the end. -/
def exHTRace (n : Nat) (sched : List Nat) : Option (List Nat × Bool) :=
  match gOutcome collisionList (bump _) 4000 (client (htImpl ⟨.debug, 64⟩ exKeys 10 64) [] (exHTShare n)) [] with
  | some (x, h, _) =>
    match gThreads collisionList (bump _) sched (gthreads (htImpl ⟨.debug, 64⟩ exKeys 10 64) id x.2 0 [[.discard 0], [.discard 1]]) h with
    | .ok (gs, h') => some (gs.map (·.deepest), h'.all fun c => match c with | .free => true | _ => false)
    | .error _ => none
  | none => none

-- one after the other: 14; but if the second thread has just failed to take the shared nodes apart when the first one drops its version, then it
-- drops them one inside the other, and the nesting grows with the number of keys that have the same hash (`ArcTK` maps only, as in C45)
example : exHTRace 6 (List.replicate 40 0 ++ List.replicate 60 1) = some ([14, 14], true) := by decide +kernel
example : exHTRace 6 (List.replicate 17 1 ++ List.replicate 40 0 ++ List.replicate 60 1) = some ([14, 17], true) := by decide +kernel
example : exHTRace 9 (List.replicate 17 1 ++ List.replicate 40 0 ++ List.replicate 60 1) = some ([14, 20], true) := by decide +kernel

-- both machines free everything
example : (gOutcome collisionList (bump _) 3000 (client (htImpl ⟨.debug, 64⟩ exKeys 10 64) [] (exHTDrop 6)) []).map (·.2.1) =
    (outcome (bump _) 3000 (client (htImpl ⟨.debug, 64⟩ exKeys 10 64) [] (exHTDrop 6)) []).map (·.2.1) := by decide +kernel

end Props
end Rpds
