import Verif.Props.Shared
import Verif.Heap.OrderRun
/-
Handles shared by threads, with the memory orderings of `Arc` (for C73; C76 is about threads with iterators).
-/
set_option autoImplicit false
namespace Rpds
namespace Props
open Heap Heap.HT

section
variable {L H Op Ret σ : Type}

/-- As `ThreadsShare`, where tests for uniqueness may read old values of the reference count (`runWeak`, `Coherent`).  There are no
data races, and everything else is as for interleavings. -/
def SharesWeakly (impl : Impl L H Op Ret) (byRef : Op → Bool) (new : σ) (step : σ → Op → Res (Ret × Effect σ)) : Prop :=
  ∀ (A : Allocator L) (setup : List (Cmd Op)) (rs : List (Option Ret)) (ss : List (Option σ)),
    pureClient new step [] setup = .ok (rs, ss) →
    ∃ (hs : List (Option H)) (h : Mem L) (d : Nat), Runs A (client impl [] setup) [] (rs, hs) h d ∧
      ∀ (sh : Nat → Bool) (owner : Nat → Nat) (cmdss : List (List (Cmd Op))) (rss : List (List (Option Ret)))
        (sss : List (List (Option σ))), (∀ j, sh j = true → j < ss.length) → (∀ cmds ∈ cmdss, Respects sh byRef cmds) →
        rss.length = cmdss.length → sss.length = cmdss.length →
        (∀ (i : Nat) (cmds : List (Cmd Op)) (rs : List (Option Ret)) (ss' : List (Option σ)), cmdss[i]? = some cmds →
          rss[i]? = some rs → sss[i]? = some ss' → pureClient new step (lentTo sh owner i ss) cmds = .ok (rs, ss')) →
        (∀ sched : List (Nat × Nat), Coherent arc A h sched [] (sharingThreads impl sh owner hs 0 cmdss) h →
          ∃ tr ths' h', runWeak A h sched [] (sharingThreads impl sh owner hs 0 cmdss) h = .ok (tr, ths', h') ∧
          RaceFree arc tr ∧
          (∀ (j : Nat) (x : H) (t : ATree L), sh j = true → hs[j]? = some (some x) → t.addr ∈ impl.ptrs x → Val h t → Val h' t) ∧
          (∀ (i : Nat) (th : Thread L (List (Option Ret) × List (Option H))) (r : List (Option Ret) × List (Option H)),
            ths'[i]? = some th → th.result = some r → rss[i]? = some r.1) ∧
          (∀ res : List (List (Option Ret) × List (Option H)), ths'.map Thread.result = res.map some →
            Exact h' (ptrsOf impl ((res.map fun r => owned sh r.2).flatten ++ (lentOf sh hs ++ idleOf sh owner cmdss.length hs))))) ∧
        (∀ i, i < cmdss.length → ∀ s : Nat → Nat × Nat, (∀ n, ∃ m, n ≤ m ∧ (s m).1 = i) →
          (∀ n, Coherent arc A h (prefixOf s n) [] (sharingThreads impl sh owner hs 0 cmdss) h) →
          ∃ n tr ths' h' th r, runWeak A h (prefixOf s n) [] (sharingThreads impl sh owner hs 0 cmdss) h = .ok (tr, ths', h') ∧
            ths'[i]? = some th ∧ th.result = some r)

variable {impl : Impl L H Op Ret} {new : σ} {step : σ → Op → Res (Ret × Effect σ)} {R : H → σ → List (Item L) → Prop}
  {byRef : Op → Bool}

theorem weakly_of_lends (hr : ∀ A, impl.Refines A new step R) (hl : ∀ A, impl.Lends A step R byRef) :
    SharesWeakly impl byRef new step := by
  intro A setup rs ss he
  obtain ⟨hs, h, d, ρ, e1, hh, ho⟩ := (hr A).runs he
  refine ⟨hs, h, d, e1, ?_⟩
  intro sh owner cmdss rss sss hsh hc l1 l2 hp
  have sys := Impl.Lends.system (hr A) (hl A) hh ho sh hsh owner cmdss hc rss sss l1 l2 hp
  refine ⟨?_, ?_⟩
  · intro sched hco
    obtain ⟨tr, ths', h', e2, e3, sys', e4⟩ := sys.runAt (hr A) sched hco
    refine ⟨tr, ths', h', e2, e3, ?_, fun i th r hi hres => sys'.answer hi hres, ?_⟩
    · intro j x t hj hx
      refine e4 j x t ?_
      rw [lentOf, keepIf_getElem?, Nat.zero_add]
      simp only [hj, if_true, hx, Option.map_some]
    · intro res hres
      obtain ⟨_, _, _, e4⟩ := sys'.quiet (hr A) res hres
      exact e4
  · intro i hi s hs'
    exact sys.finishesAt (by rw [sharingThreads_length]; exact hi) s hs'

end
end Props
end Rpds
