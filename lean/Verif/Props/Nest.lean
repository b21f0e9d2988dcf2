import Verif.Props.PtrEq
import Verif.Heap.Nest
/-
How deep destructors nest when vectors, maps and sets are dropped (C60).
-/
set_option autoImplicit false
namespace Rpds
namespace Props
open Heap

/-- A client whose values `s` all have `lim s ≤ n`, for `n` at least `base`, alone or as several threads under any schedule, runs without
fault, and no destructor it runs nests deeper than `n`.  `Stay` says that every value any handle has at any time has `lim s ≤ n`. -/
def DropsFrom {L H Op Ret σ : Type} (base : Nat) (impl : Impl L H Op Ret) (new : σ) (step : σ → Op → Res (Ret × Effect σ))
    (lim : σ → Nat) : Prop :=
  ∀ (A : Allocator L) (n : Nat), base ≤ n → lim new ≤ n →
  ∀ (setup : List (Cmd Op)) (rs : List (Option Ret)) (ss : List (Option σ)),
    pureClient new step [] setup = .ok (rs, ss) → Stay (fun s => lim s ≤ n) new step [] setup →
    ∃ (hs : List (Option H)) (h : Mem L) (d : Nat), Runs A (client impl [] setup) [] (rs, hs) h d ∧ d ≤ n ∧
      ∀ (owner : Nat → Nat) (cmdss : List (List (Cmd Op))) (rss : List (List (Option Ret))) (sss : List (List (Option σ))),
        rss.length = cmdss.length → sss.length = cmdss.length →
        (∀ (i : Nat) (cmds : List (Cmd Op)) (rs : List (Option Ret)) (ss' : List (Option σ)), cmdss[i]? = some cmds → rss[i]? = some rs →
          sss[i]? = some ss' → pureClient new step (handlesOf owner i ss) cmds = .ok (rs, ss') ∧
            Stay (fun s => lim s ≤ n) new step (handlesOf owner i ss) cmds) →
        ∀ sched : List Nat, ∃ ths' h', runThreads A sched (threads impl owner hs 0 cmdss) h = .ok (ths', h') ∧
          ∀ (i : Nat) (th : Thread L (List (Option Ret) × List (Option H))), ths'[i]? = some th → th.deepest ≤ n

/-- The same, allowing at least 3 levels. -/
def DropsShallow {L H Op Ret σ : Type} (impl : Impl L H Op Ret) (new : σ) (step : σ → Op → Res (Ret × Effect σ)) (lim : σ → Nat) : Prop :=
  DropsFrom 3 impl new step lim

/-- `Stay`, computed. -/
def stayCheck {Op Ret σ : Type} (P : σ → Bool) (new : σ) (step : σ → Op → Res (Ret × Effect σ)) (ss : List (Option σ)) (cmds : List (Cmd Op)) :
    Bool :=
  (List.range (cmds.length + 1)).all fun k =>
    match pureClient new step ss (cmds.take k) with
    | .ok x => x.2.all fun s => s.all P
    | .error _ => true

theorem stay_of_check {Op Ret σ : Type} {P : σ → Prop} [DecidablePred P] {new : σ} {step : σ → Op → Res (Ret × Effect σ)}
    {ss : List (Option σ)} {cmds : List (Cmd Op)} (h : stayCheck (fun s => decide (P s)) new step ss cmds = true) :
    Stay P new step ss cmds := by
  intro k rs ss' he s hs
  have h1 := List.all_eq_true.1 h (min k cmds.length) (by simp; omega)
  have h2 : cmds.take (min k cmds.length) = cmds.take k := by
    rcases Nat.le_total k cmds.length with h3 | h3
    · rw [Nat.min_eq_left h3]
    · rw [Nat.min_eq_right h3, List.take_length, List.take_of_length_le h3]
  rw [h2, he] at h1
  simpa using List.all_eq_true.1 h1 _ hs

/-- One client alone, whose values are computed. -/
theorem DropsShallow.alone {L H Op Ret σ : Type} {impl : Impl L H Op Ret} {new : σ} {step : σ → Op → Res (Ret × Effect σ)} {lim : σ → Nat}
    (hd : DropsShallow impl new step lim) (A : Allocator L) (n : Nat) (h3 : 3 ≤ n) (h0 : lim new ≤ n) (cmds : List (Cmd Op))
    (hok : (pureClient new step [] cmds).toBool = true) (hs : stayCheck (fun s => decide (lim s ≤ n)) new step [] cmds = true) :
    ∃ x h d, Runs A (client impl [] cmds) [] x h d ∧ d ≤ n := by
  cases e : pureClient new step [] cmds with
  | error p => simp [e, Except.toBool] at hok
  | ok x =>
    obtain ⟨hs, h, d, e1, hd, -⟩ := hd A n h3 h0 cmds x.1 x.2 e (stay_of_check hs)
    exact ⟨_, h, d, e1, hd⟩

theorem dropsFrom_of {L H Op Ret σ : Type} {base : Nat} {impl : Impl L H Op Ret} {new : σ} {step : σ → Op → Res (Ret × Effect σ)}
    {lim : σ → Nat} {R : Nat → H → σ → List (Item L) → Prop}
    (hr : ∀ A n, base ≤ n → lim new ≤ n → impl.RefinesIn A (some n) new (within (fun s => lim s ≤ n) step) (R n)) :
    DropsFrom base impl new step lim := by
  intro A n h3 h0 setup rs ss he hst
  have hr := hr A n h3 h0
  obtain ⟨hs, h, d, ρ, e1, hh, ho, hd⟩ := hr.runsIn (hst.within setup he)
  refine ⟨hs, h, d, e1, hd n rfl, ?_⟩
  intro owner cmdss rss sss l1 l2 hp sched
  obtain ⟨ths', h', e2, sys⟩ := (hr.system hh ho owner cmdss rss sss l1 l2 fun i cmds rs ss' h1 h2 h4 =>
    (hp i cmds rs ss' h1 h2 h4).2.within cmds (hp i cmds rs ss' h1 h2 h4).1).run sched
  exact ⟨ths', h', e2, fun i th hi => sys.deepest hi n rfl⟩

theorem shallow_of_nests {L H Op Ret σ : Type} {impl : Impl L H Op Ret} {new : σ} {step : σ → Op → Res (Ret × Effect σ)} {lim : σ → Nat}
    {R : H → σ → List (Item L) → Prop} (hn : ∀ A, impl.Nests A new step R lim) : DropsShallow impl new step lim :=
  dropsFrom_of fun A _ h3 h0 => (hn A).refinesIn h3 h0

/-! ### Vectors -/

/-- C60 for `Vector` (and `VectorSync`), with any valid `bits`: destructors nest at most `log2 (len + 1) + 1` deep, for the longest
vector there is. -/
theorem C60_vector_drop_shallow (T : Type) (Ar : Arch) (bits : Nat) (h0 : 0 < bits) (hW : bits < Ar.W) :
    DropsShallow (vecImpl Ar T bits) (vecCap Ar bits, ([] : List T)) Spec.vecStep (fun v => Nat.log2 (v.2.length + 1) + 1) :=
  shallow_of_nests fun A => vecImpl_nests Ar A h0 hW

/-- Makes a vector of `n` elements and drops it. -/
def exVecDrop (n : Nat) : List (Cmd (RVector.Op Nat)) :=
  .new :: (List.range n).map (fun i => .run 0 (.pushBackMut i)) ++ [.discard 0]

-- with 8 elements and `bits = 1` the bound is 4: the destructors of the three levels do nest
example : ∃ x h d, Runs (bump _) (client (vecImpl ⟨.debug, 64⟩ Nat 1) [] (exVecDrop 8)) [] x h d ∧ d ≤ 4 :=
  (C60_vector_drop_shallow Nat ⟨.debug, 64⟩ 1 (by decide) (by decide)).alone (bump _) 4 (by decide) (by decide) (exVecDrop 8)
    (by decide +kernel) (by decide +kernel)

example : (outcome (bump _) 1000 (client (vecImpl ⟨.debug, 64⟩ Nat 1) [] (exVecDrop 8)) []).any (fun x => decide (x.2.2 = 3)) = true := by
  decide +kernel

-- the bound is reached: 9 elements
example : (outcome (bump _) 1000 (client (vecImpl ⟨.debug, 64⟩ Nat 1) [] (exVecDrop 9)) []).any (fun x => decide (x.2.2 = 4)) = true := by
  decide +kernel

/-! ### Red-black tree maps and sets -/

/-- C60 for `RedBlackTreeMap`: destructors nest at most `2 * log2 (size + 1)` deep. -/
theorem C60_rb_map_drop_shallow (K V Q : Type) (Ar : Arch) (o : OrdKeys K Q) (lo : o.Lawful) :
    DropsShallow (rbImpl Ar o) ([] : List (K × V)) (Spec.ordMapStep Ar.W o) (fun l => 2 * Nat.log2 (l.length + 1)) :=
  shallow_of_nests fun A => (rbImpl_nests_model Ar lo A).trans RBMap.new_rep (fun _ _ op _ _ hr he => rbMap_stepAll lo hr op he)
    fun _ _ hr => by rw [hr.size]; exact Nat.le_refl _

/-- C60 for `RedBlackTreeSet`. -/
theorem C60_rb_set_drop_shallow (T Q : Type) (Ar : Arch) (o : OrdKeys T Q) (lo : o.Lawful) :
    DropsShallow (rbSetImpl Ar o) ([] : List T) (Spec.ordSetStep Ar.W o) (fun l => 2 * Nat.log2 (l.length + 1)) :=
  shallow_of_nests fun A => (((rbImpl_nests_model Ar lo A).trans (lim' := fun l => 2 * Nat.log2 (l.length + 1)) RBMap.new_rep
    (fun _ _ op _ _ hr he => rbMap_stepAll lo hr op he) fun _ _ hr => by rw [hr.size]; exact Nat.le_refl _).adapt rbSetOp rbSetRet).trans
    (S := fun s l => s = Spec.unitPairs l) rfl (by
      rintro _ l op x f rfl he
      obtain ⟨y, g, h1, h2, h3⟩ := ordMap_set Ar.W l op he
      exact ⟨g, by simp [h1, h2], h3⟩) (by
      rintro _ l rfl
      simp [Spec.unitPairs])

/-- Makes a map with the keys `0, …, n - 1` and drops it. -/
def exRBDrop (n : Nat) : List (Cmd (RBOp (Nat × String) Nat Nat)) :=
  .new :: (List.range n).map (fun i => .run 0 (.base (.insertMut (i, "") i))) ++ [.discard 0]

-- 14 pairs: the bound is `2 * log2 15 = 6`, and is reached
example : ∃ x h d, Runs (bump _) (client (rbImpl ⟨.debug, 64⟩ exOrd) [] (exRBDrop 14)) [] x h d ∧ d ≤ 6 :=
  (C60_rb_map_drop_shallow (Nat × String) Nat Nat ⟨.debug, 64⟩ exOrd exOrd_lawful).alone (bump _) 6 (by decide) (by decide) (exRBDrop 14)
    (by decide +kernel) (by decide +kernel)

example : (outcome (bump _) 3000 (client (rbImpl ⟨.debug, 64⟩ exOrd) [] (exRBDrop 14)) []).any (fun x => decide (x.2.2 = 6)) = true := by
  decide +kernel

/-! ### Hash maps and sets -/

open Heap.HT

section
variable {H K V Q : Type}

theorem htImpl_nests (Ar : Arch) {o : HashKeys H K Q} (lo : o.Lawful) {k : Nat} (c : HConf Ar k) (hW : 2 ^ k ≤ Ar.W % 256)
    (hasher : H) (A : Allocator (HLabel K V)) :
    (htImpl Ar o hasher (2 ^ k) : Impl (HLabel K V) _ _ _).Nests A ([] : List (K × V)) (Spec.finMapStep o)
      (fun hm l ρ => ∃ m, HTIs Ar o k hm m ρ ∧ m.Rep Ar o k l ∧ m.hasher = hasher)
      (fun l => 63 / k + 3 + crowd (l.map fun x => o.hashK hasher x.1)) :=
  (htImpl_nests_model Ar lo c hW hasher A).trans (S := fun m l => m.Rep Ar o k l ∧ m.hasher = hasher) ⟨HTMap.rep_empty c hasher, rfl⟩
    (by
      rintro m l op r f ⟨hr, hm⟩ he
      obtain ⟨e, h1, h2⟩ := htMap_stepAll lo hr op he
      refine ⟨e, h1, ?_⟩
      have h3 := stepAll_hasher hm h1
      cases h2 with
      | keep => exact .keep
      | fresh h4 => cases h3 with | fresh h5 => exact .fresh ⟨h4, h5.2⟩
      | update h4 => cases h3 with | update h5 => exact .update ⟨h4, h5.2⟩)
    (by
      rintro m l ⟨hr, rfl⟩
      rw [nestLim, crowd_rep hr]
      exact Nat.le_refl _)

end

/-- C60 for `HashTrieMap` with degree `2 ^ k`: destructors nest at most `63 / k + 3` deep, plus the largest number of keys with the
same hash (`crowd`). -/
theorem C60_hash_map_drop_shallow {H : Type} (K V Q : Type) (Ar : Arch) (o : HashKeys H K Q) (lo : o.Lawful) (hasher : H) (k : Nat) (h1 : 1 ≤ k)
    (m : HTMap H K V) (hm : HTMap.newWithDegree Ar hasher (2 ^ k) = .ok m) :
    DropsShallow (htImpl Ar o hasher (2 ^ k)) ([] : List (K × V)) (Spec.finMapStep o)
      (fun l => 63 / k + 3 + crowd (l.map fun x => o.hashK hasher x.1)) := by
  obtain ⟨k', e, c, hW, rfl⟩ := conf_of_new hm (Nat.le_self_pow (by omega) 2)
  obtain rfl := (Nat.pow_right_inj (a := 2) (by omega)).1 e
  exact shallow_of_nests fun A => htImpl_nests Ar lo c hW hasher A

/-- C60 for `HashTrieSet`. -/
theorem C60_hash_set_drop_shallow {H : Type} (T Q : Type) (Ar : Arch) (o : HashKeys H T Q) (lo : o.Lawful) (hasher : H) (k : Nat) (h1 : 1 ≤ k)
    (m : HTMap H T Unit) (hm : HTMap.newWithDegree Ar hasher (2 ^ k) = .ok m) :
    DropsShallow (htSetImpl Ar o hasher (2 ^ k)) ([] : List T) (Spec.finSetStep o)
      (fun l => 63 / k + 3 + crowd (l.map (o.hashK hasher))) := by
  obtain ⟨k', e, c, hW, rfl⟩ := conf_of_new hm (Nat.le_self_pow (by omega) 2)
  obtain rfl := (Nat.pow_right_inj (a := 2) (by omega)).1 e
  exact shallow_of_nests fun A => ((htImpl_nests Ar lo c hW hasher A).adapt htSetOp htSetRet).trans (S := fun s l => s = Spec.unitPairs l) rfl (by
      rintro _ l op x f rfl he
      obtain ⟨y, g, h1, h2, h3⟩ := finMap_set l op he
      exact ⟨g, by simp [h1, h2], h3⟩) (by
      rintro _ l rfl
      simp [Spec.unitPairs, Function.comp_def])

/-- Makes a map with `n` keys that all have the same hash under the hasher 10, and drops it. -/
def exHTDrop (n : Nat) : List (Cmd (HTOp (Nat × String) Nat Nat)) :=
  .new :: (List.range n).map (fun i => .run 0 (.base (.insertMut (10 * i, "") i))) ++ [.discard 0]

-- 4 such keys at degree 64: the bound is `63 / 6 + 3 + 4 = 17`
example : ∃ x h d, Runs (bump _) (client (htImpl ⟨.debug, 64⟩ exKeys 10 64) [] (exHTDrop 4)) [] x h d ∧ d ≤ 17 :=
  (C60_hash_map_drop_shallow (Nat × String) Nat Nat ⟨.debug, 64⟩ exKeys exKeys_lawful 10 6 (by decide) _ rfl).alone
    (bump _) 17 (by decide) (by decide) (exHTDrop 4) (by decide +kernel) (by decide +kernel)

-- if the list of a leaf is dropped by recursion the keys with the same hash count: 16 for 4 of them, 18 for 6; see `Props/Glue.lean` for the
-- loop that the code has
example : (outcome (bump _) 3000 (client (htImpl ⟨.debug, 64⟩ exKeys 10 64) [] (exHTDrop 4)) []).any (fun x => decide (x.2.2 = 16)) = true := by
  decide +kernel
example : (outcome (bump _) 3000 (client (htImpl ⟨.debug, 64⟩ exKeys 10 64) [] (exHTDrop 6)) []).any (fun x => decide (x.2.2 = 18)) = true := by
  decide +kernel

end Props
end Rpds
