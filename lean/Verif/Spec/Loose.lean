import Verif.Spec.Map
/-
What maps may do when the comparisons of the keys keep no law at all (an `Ord`, `Eq` or `Hash` that contradicts itself, or keys that
change inside): the contents are still a well-defined list of pairs, changed by one pair at a time, and an answer is still a pair of
the contents that was compared equal to the key asked for.
-/
set_option autoImplicit false
namespace Rpds.Spec
variable {K V Q : Type}

/-- `l'` is `l` with one pair more, or with one pair whose key was found to be the same replaced. -/
inductive LooseInsert (same : K → K → Bool) (k : K) (v : V) (l l' : List (K × V)) : Prop where
  | added : l'.Perm ((k, v) :: l) → LooseInsert same k v l l'
  | replaced (e : K × V) (rest : List (K × V)) :
      same e.1 k = true → l.Perm (e :: rest) → l'.Perm ((k, v) :: rest) → LooseInsert same k v l l'

/-- `l'` is `l` without one pair that was hit (`found`), or `l` itself. -/
inductive LooseRemove (hits : K → Q → Bool) (q : Q) (l l' : List (K × V)) : (found : Bool) → Prop where
  | absent : l'.Perm l → LooseRemove hits q l l' false
  | removed (e : K × V) : hits e.1 q = true → l.Perm (e :: l') → LooseRemove hits q l l' true

/-- `l'` is `l` with the value of one pair that was hit changed, and this value was the answer; or `l` itself. -/
inductive LooseModify (hits : K → Q → Bool) (q : Q) (f : V → V) (l l' : List (K × V)) : Option V → Prop where
  | absent : l'.Perm l → LooseModify hits q f l l' none
  | modified (e : K × V) (rest : List (K × V)) :
      hits e.1 q = true → l.Perm (e :: rest) → l'.Perm ((e.1, f e.2) :: rest) → LooseModify hits q f l l' (some e.2)

/-- What an operation may answer and do. -/
inductive LooseStep (same : K → K → Bool) (hits : K → Q → Bool) (l : List (K × V)) :
    MapOp K V Q → MapRet K V → Effect (List (K × V)) → Prop where
  | insert {k v l'} : LooseInsert same k v l l' → LooseStep same hits l (.insert k v) .unit (.fresh l')
  | insertMut {k v l'} : LooseInsert same k v l l' → LooseStep same hits l (.insertMut k v) .unit (.update l')
  | remove {q l' b} : LooseRemove hits q l l' b → LooseStep same hits l (.remove q) .unit (.fresh l')
  | removeMut {q l' b} : LooseRemove hits q l l' b → LooseStep same hits l (.removeMut q) (.bool b) (.update l')
  | getMut {q f l' x} : LooseModify hits q f l l' x → LooseStep same hits l (.getMut q f) (.optV x) (.update l')
  | clone : LooseStep same hits l .clone .unit (.fresh l)
  | get {q x} : (∀ v, x = some v → ∃ e ∈ l, hits e.1 q = true ∧ e.2 = v) → LooseStep same hits l (.get q) (.optV x) .keep
  | getKeyValue {q x} : (∀ e, x = some e → e ∈ l ∧ hits e.1 q = true) → LooseStep same hits l (.getKeyValue q) (.optKV x) .keep
  | containsKey {q b} : (b = true → ∃ e ∈ l, hits e.1 q = true) → LooseStep same hits l (.containsKey q) (.bool b) .keep
  | index {q e} : e ∈ l → hits e.1 q = true → LooseStep same hits l (.index q) (.optV (some e.2)) .keep
  | indexPanic {q} : LooseStep same hits l (.index q) .panicked .keep
  | size : LooseStep same hits l .size (.nat l.length) .keep
  | isEmpty : LooseStep same hits l .isEmpty (.bool l.isEmpty) .keep

/-- Histories of operations whose answers and effects are not determined by the specification, only allowed by it. -/
inductive LooseHistory {α Op Ret : Type} (allowed : α → Op → Ret → Effect α → Prop) :
    List α → List (Nat × Op) → List (Option Ret) → List α → Prop where
  | nil {ws} : LooseHistory allowed ws [] [] ws
  | missing {ws ws' i op h rs} : ws[i]? = none → LooseHistory allowed ws h rs ws' → LooseHistory allowed ws ((i, op) :: h) (none :: rs) ws'
  | step {ws ws' i op h rs a r f} : ws[i]? = some a → allowed a op r f → LooseHistory allowed (f.apply ws i) h rs ws' →
      LooseHistory allowed ws ((i, op) :: h) (some r :: rs) ws'

end Rpds.Spec

namespace Rpds
open Spec

/-- If every operation succeeds and does something allowed, every history succeeds and is allowed. -/
theorem runHistory_loose {σ α Op Ret : Type} {R : σ → α → Prop} {step : σ → Op → Res (Ret × Effect σ)}
    {allowed : α → Op → Ret → Effect α → Prop}
    (hstep : ∀ s a op, R s a → ∃ r e f, step s op = .ok (r, e) ∧ allowed a op r f ∧ Effect.Rel R e f)
    (h : List (Nat × Op)) : ∀ (vs : List σ) (ws : List α), List.Forall₂ R vs ws →
    ∃ rs vs' ws', runHistory step vs h = .ok (rs, vs') ∧ LooseHistory allowed ws h rs ws' ∧ List.Forall₂ R vs' ws' := by
  induction h with
  | nil => intro vs ws hv; exact ⟨[], vs, ws, rfl, .nil, hv⟩
  | cons p h ih =>
    obtain ⟨i, op⟩ := p
    intro vs ws hv
    have hlook : (vs[i]? = none ∧ ws[i]? = none) ∨ ∃ s a, vs[i]? = some s ∧ ws[i]? = some a ∧ R s a := by
      clear ih
      induction hv generalizing i with
      | nil => left; simp
      | cons h1 h2 ih2 =>
        cases i with
        | zero => right; exact ⟨_, _, rfl, rfl, h1⟩
        | succ i => simpa using ih2 i
    rcases hlook with ⟨h1, h2⟩ | ⟨s, a, h1, h2, hR⟩
    · obtain ⟨rs, vs', ws', e1, e2, e3⟩ := ih vs ws hv
      exact ⟨none :: rs, vs', ws', by simp [runHistory, h1, e1], .missing h2 e2, e3⟩
    · obtain ⟨r, e, f, he, hal, hrel⟩ := hstep s a op hR
      obtain ⟨rs, vs', ws', e1, e2, e3⟩ := ih _ _ (hrel.apply hv i)
      exact ⟨some r :: rs, vs', ws', by simp [runHistory, h1, he, e1], .step h2 hal e2, e3⟩

/-- One related value for each. -/
theorem forall₂_choose {σ α : Type} {R : σ → α → Prop} {vs : List σ} (h : ∀ s ∈ vs, ∃ a, R s a) : ∃ ws, List.Forall₂ R vs ws := by
  induction vs with
  | nil => exact ⟨[], .nil⟩
  | cons s vs ih =>
    obtain ⟨a, ha⟩ := h s (by simp)
    obtain ⟨ws, hws⟩ := ih fun s hs => h s (by simp [hs])
    exact ⟨a :: ws, .cons ha hws⟩

end Rpds
