import Verif.Basic
import Batteries.Data.List.Basic
/-
Histories of operations over any number of versions of a persistent structure.

A history is a list of pairs (version number, operation).  A persistent operation adds a new version at the end of
the list of versions and leaves all others alone; a mutating (`_mut`) operation replaces the version it is applied to.
-/
set_option autoImplicit false
namespace Rpds

/-- What an operation does to the list of live versions. -/
inductive Effect (σ : Type) where
  /-- read only -/
  | keep
  /-- returns a new version -/
  | fresh (s : σ)
  /-- replaces the version it is applied to (`&mut self`) -/
  | update (s : σ)

def Effect.apply {σ : Type} (vs : List σ) (i : Nat) : Effect σ → List σ
  | .keep => vs
  | .fresh s => vs ++ [s]
  | .update s => vs.set i s

/-- Runs a history and collects the answers.  An operation on a version number that does not exist (yet) answers `none`. -/
def runHistory {σ Op Ret : Type} (step : σ → Op → Res (Ret × Effect σ)) :
    List σ → List (Nat × Op) → Res (List (Option Ret) × List σ)
  | vs, [] => .ok ([], vs)
  | vs, (i, op) :: h =>
    match vs[i]? with
    | none => do
      let (rs, ws) ← runHistory step vs h
      pure (none :: rs, ws)
    | some s => do
      let (r, e) ← step s op
      let (rs, ws) ← runHistory step (e.apply vs i) h
      pure (some r :: rs, ws)

/-- The states that can be reached from the initial ones by operations. -/
inductive Reachable {σ Op Ret : Type} (init : σ → Prop) (step : σ → Op → Res (Ret × Effect σ)) : σ → Prop where
  | init {s} : init s → Reachable init step s
  | fresh {s op r s'} : Reachable init step s → step s op = .ok (r, .fresh s') → Reachable init step s'
  | update {s op r s'} : Reachable init step s → step s op = .ok (r, .update s') → Reachable init step s'

/-- Effects related pointwise. -/
inductive Effect.Rel {σ α : Type} (R : σ → α → Prop) : Effect σ → Effect α → Prop where
  | keep : Effect.Rel R .keep .keep
  | fresh {s a} : R s a → Effect.Rel R (.fresh s) (.fresh a)
  | update {s a} : R s a → Effect.Rel R (.update s) (.update a)

theorem Effect.Rel.imp {σ α : Type} {R S : σ → α → Prop} (hi : ∀ s a, R s a → S s a) {e : Effect σ} {f : Effect α}
    (h : Effect.Rel R e f) : Effect.Rel S e f := by
  cases h with
  | keep => exact .keep
  | fresh h => exact .fresh (hi _ _ h)
  | update h => exact .update (hi _ _ h)

theorem Effect.Rel.apply {σ α : Type} {R : σ → α → Prop} {e : Effect σ} {f : Effect α} (h : Effect.Rel R e f)
    {vs : List σ} {ws : List α} (hv : List.Forall₂ R vs ws) (i : Nat) :
    List.Forall₂ R (e.apply vs i) (f.apply ws i) := by
  cases h with
  | keep => exact hv
  | fresh h =>
    simp only [Effect.apply]
    induction hv with
    | nil => exact .cons h .nil
    | cons h1 _ ih => exact .cons h1 ih
  | update h =>
    simp only [Effect.apply]
    induction hv generalizing i with
    | nil => simp
    | cons h1 h2 ih =>
      cases i with
      | zero => exact .cons h h2
      | succ i => exact .cons h1 (ih i)

/-- Simulation: if every operation of the implementation succeeds, answers like the specification and keeps the
versions related, then every history runs without panic and answers like the specification. -/
theorem runHistory_sim {σ α Op Ret : Type} {R : σ → α → Prop}
    {step : σ → Op → Res (Ret × Effect σ)} {spec : α → Op → Ret × Effect α}
    (hstep : ∀ s a op, R s a → ∃ e, step s op = .ok ((spec a op).1, e) ∧ Effect.Rel R e (spec a op).2)
    (h : List (Nat × Op)) : ∀ (vs : List σ) (ws : List α), List.Forall₂ R vs ws →
    ∃ rs vs' ws', runHistory step vs h = .ok (rs, vs') ∧
      runHistory (fun a op => .ok (spec a op)) ws h = .ok (rs, ws') ∧ List.Forall₂ R vs' ws' := by
  induction h with
  | nil => intro vs ws hv; exact ⟨[], vs, ws, rfl, rfl, hv⟩
  | cons p h ih =>
    obtain ⟨i, op⟩ := p
    intro vs ws hv
    have hlook : (vs[i]? = none ∧ ws[i]? = none) ∨ ∃ s a, vs[i]? = some s ∧ ws[i]? = some a ∧ R s a := by
      clear ih
      induction hv generalizing i with
      | nil => left; simp
      | cons h1 h2 ih2 =>
        cases i with
        | zero => right; exact ⟨_, _, rfl, rfl, h1⟩
        | succ i => simpa using ih2 i
    rcases hlook with ⟨h1, h2⟩ | ⟨s, a, h1, h2, hR⟩
    · obtain ⟨rs, vs', ws', e1, e2, e3⟩ := ih vs ws hv
      exact ⟨none :: rs, vs', ws', by simp [runHistory, h1, e1], by simp [runHistory, h2, e2], e3⟩
    · obtain ⟨e, he, hrel⟩ := hstep s a op hR
      obtain ⟨rs, vs', ws', e1, e2, e3⟩ := ih _ _ (hrel.apply hv i)
      exact ⟨some (spec a op).1 :: rs, vs', ws', by simp [runHistory, h1, he, e1],
        by simp [runHistory, h2, e2], e3⟩

/-- Simulation of a partial specification: as long as the specification allows the operations (does not answer with an
error), the implementation does the same without panic. -/
theorem runHistory_simP {σ α Op Ret : Type} {R : σ → α → Prop}
    {step : σ → Op → Res (Ret × Effect σ)} {spec : α → Op → Res (Ret × Effect α)}
    (hstep : ∀ s a op r f, R s a → spec a op = .ok (r, f) → ∃ e, step s op = .ok (r, e) ∧ Effect.Rel R e f)
    (h : List (Nat × Op)) : ∀ (vs : List σ) (ws ws' : List α) (rs : List (Option Ret)), List.Forall₂ R vs ws →
    runHistory spec ws h = .ok (rs, ws') →
    ∃ vs', runHistory step vs h = .ok (rs, vs') ∧ List.Forall₂ R vs' ws' := by
  induction h with
  | nil => intro vs ws ws' rs hv hs; cases hs; exact ⟨vs, rfl, hv⟩
  | cons p h ih =>
    obtain ⟨i, op⟩ := p
    intro vs ws ws' rs hv hs
    have hlook : (vs[i]? = none ∧ ws[i]? = none) ∨ ∃ s a, vs[i]? = some s ∧ ws[i]? = some a ∧ R s a := by
      clear ih hs
      induction hv generalizing i with
      | nil => left; simp
      | cons h1 h2 ih2 =>
        cases i with
        | zero => right; exact ⟨_, _, rfl, rfl, h1⟩
        | succ i => simpa using ih2 i
    rcases hlook with ⟨h1, h2⟩ | ⟨s, a, h1, h2, hR⟩
    · simp only [runHistory, h2] at hs
      cases hr : runHistory spec ws h with
      | error e => rw [hr] at hs; simp at hs
      | ok p =>
        obtain ⟨rs', wsx⟩ := p
        rw [hr] at hs
        simp only [Res.ok_bind, Res.pure_eq, Except.ok.injEq, Prod.mk.injEq] at hs
        obtain ⟨rfl, rfl⟩ := hs
        obtain ⟨vs', e1, e2⟩ := ih vs ws _ _ hv hr
        exact ⟨vs', by simp [runHistory, h1, e1], e2⟩
    · simp only [runHistory, h2] at hs
      cases hq : spec a op with
      | error e => rw [hq] at hs; simp at hs
      | ok q =>
        obtain ⟨r, f⟩ := q
        rw [hq] at hs
        simp only [Res.ok_bind] at hs
        obtain ⟨e, he, hrel⟩ := hstep s a op r f hR hq
        cases hr : runHistory spec (f.apply ws i) h with
        | error e => rw [hr] at hs; simp at hs
        | ok p =>
          obtain ⟨rs', wsx⟩ := p
          rw [hr] at hs
          simp only [Res.ok_bind, Res.pure_eq, Except.ok.injEq, Prod.mk.injEq] at hs
          obtain ⟨rfl, rfl⟩ := hs
          obtain ⟨vs', e1, e2⟩ := ih _ _ _ _ (hrel.apply hv i) hr
          exact ⟨vs', by simp [runHistory, h1, he, e1], e2⟩

/-- Reachable states satisfy every invariant established initially and kept by the operations. -/
theorem Reachable.inv {σ Op Ret : Type} {init : σ → Prop} {step : σ → Op → Res (Ret × Effect σ)} {Inv : σ → Prop}
    (h0 : ∀ s, init s → Inv s)
    (hf : ∀ s op r s', Inv s → step s op = .ok (r, .fresh s') → Inv s')
    (hu : ∀ s op r s', Inv s → step s op = .ok (r, .update s') → Inv s')
    {s : σ} (h : Reachable init step s) : Inv s := by
  induction h with
  | init h => exact h0 _ h
  | fresh _ h ih => exact hf _ _ _ _ ih h
  | update _ h ih => exact hu _ _ _ _ ih h

/-- Reachable states represent some specification state, when the initial ones do and each step is simulated. -/
theorem Reachable.rep {σ α Op Ret : Type} {init : σ → Prop} {step : σ → Op → Res (Ret × Effect σ)}
    {spec : α → Op → Ret × Effect α} {R : σ → α → Prop} (h0 : ∀ s, init s → ∃ a, R s a)
    (hstep : ∀ s a op, R s a → ∃ e, step s op = .ok ((spec a op).1, e) ∧ Effect.Rel R e (spec a op).2)
    {s : σ} (h : Reachable init step s) : ∃ a, R s a := by
  refine Reachable.inv (Inv := fun s => ∃ a, R s a) h0 ?_ ?_ h
  all_goals
    rintro s op r s' ⟨a, ha⟩ hs
    obtain ⟨e, h1, h2⟩ := hstep s a op ha
    rw [hs] at h1
    cases h1
    cases hq : (spec a op).2 <;> rw [hq] at h2 <;> cases h2
    exact ⟨_, ‹_›⟩

end Rpds
