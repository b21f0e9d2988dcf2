import Verif.HashTrie.Shape
/-
Maps of degree one.  Every fragment of every hash is 0, so the root has at most one child, and the tree can hold one entry only:
`Node::insert` of a second key never ends.  Everything else works.
-/
set_option autoImplicit false
namespace Rpds

/-- Simulation of a specification that may fail: the implementation fails in the same way at the same place. -/
theorem runHistory_simE {σ α Op Ret : Type} {R : σ → α → Prop}
    {step : σ → Op → Res (Ret × Effect σ)} {spec : α → Op → Res (Ret × Effect α)}
    (hstep : ∀ s a op, R s a → (∃ p, spec a op = .error p ∧ step s op = .error p) ∨
      ∃ r e f, spec a op = .ok (r, f) ∧ step s op = .ok (r, e) ∧ Effect.Rel R e f)
    (h : List (Nat × Op)) : ∀ (vs : List σ) (ws : List α), List.Forall₂ R vs ws →
    (∃ p, runHistory spec ws h = .error p ∧ runHistory step vs h = .error p) ∨
    ∃ rs vs' ws', runHistory spec ws h = .ok (rs, ws') ∧ runHistory step vs h = .ok (rs, vs') ∧ List.Forall₂ R vs' ws' := by
  induction h with
  | nil => intro vs ws hv; exact .inr ⟨[], vs, ws, rfl, rfl, hv⟩
  | cons p h ih =>
    obtain ⟨i, op⟩ := p
    intro vs ws hv
    have hlook : (vs[i]? = none ∧ ws[i]? = none) ∨ ∃ s a, vs[i]? = some s ∧ ws[i]? = some a ∧ R s a := by
      clear ih
      induction hv generalizing i with
      | nil => left; simp
      | cons h1 h2 ih2 =>
        cases i with
        | zero => right; exact ⟨_, _, rfl, rfl, h1⟩
        | succ i => simpa using ih2 i
    rcases hlook with ⟨h1, h2⟩ | ⟨s, a, h1, h2, hR⟩
    · rcases ih vs ws hv with ⟨p, e1, e2⟩ | ⟨rs, vs', ws', e1, e2, e3⟩
      · exact .inl ⟨p, by simp [runHistory, h2, e1], by simp [runHistory, h1, e2]⟩
      · exact .inr ⟨none :: rs, vs', ws', by simp [runHistory, h2, e1], by simp [runHistory, h1, e2], e3⟩
    · rcases hstep s a op hR with ⟨p, e1, e2⟩ | ⟨r, e, f, g1, g2, g3⟩
      · exact .inl ⟨p, by simp [runHistory, h2, e1], by simp [runHistory, h1, e2]⟩
      · rcases ih _ _ (g3.apply hv i) with ⟨p, e1, e2⟩ | ⟨rs, vs', ws', e1, e2, e3⟩
        · exact .inl ⟨p, by simp [runHistory, h2, g1, e1], by simp [runHistory, h1, g2, e2]⟩
        · exact .inr ⟨some r :: rs, vs', ws', by simp [runHistory, h2, g1, e1], by simp [runHistory, h1, g2, e2], e3⟩

/-- A history fails as one of its operations does. -/
theorem runHistory_error {σ Op Ret : Type} {step : σ → Op → Res (Ret × Effect σ)} {P : Panic → Prop}
    (hstep : ∀ s op p, step s op = .error p → P p) {p : Panic} : ∀ {h : List (Nat × Op)} {vs : List σ},
    runHistory step vs h = .error p → P p
  | [], _, e => by cases e
  | (i, op) :: h, vs, e => by
    rw [runHistory] at e
    split at e
    · cases hr : runHistory step vs h with
      | error q => rw [hr] at e; cases e; exact runHistory_error hstep hr
      | ok _ => rw [hr] at e; cases e
    · rename_i s _
      cases hs : step s op with
      | error q => rw [hs] at e; cases e; exact hstep _ _ _ hs
      | ok x =>
        rw [hs] at e
        simp only [Res.ok_bind] at e
        cases hr : runHistory step (x.2.apply vs i) h with
        | error q => rw [hr] at e; cases e; exact runHistory_error hstep hr
        | ok _ => rw [hr] at e; cases e

theorem forall₂_refl_eq {α : Type} : ∀ l : List α, List.Forall₂ Eq l l
  | [] => .nil
  | _ :: l => .cons rfl (forall₂_refl_eq l)

namespace Spec
variable {K V Q : Type}

/-- What the maps of degree one do: the same as finite maps, but an insertion that would give two keys never ends. -/
def oneStep (same : K → K → Bool) (hits : K → Q → Bool) (l : List (K × V)) : MapOp K V Q → Res (MapRet K V × Effect (List (K × V)))
  | .insert k v => if (mapInsert same l k v).length ≤ 1 then .ok (mapStep same hits l (.insert k v)) else .error .diverge
  | .insertMut k v => if (mapInsert same l k v).length ≤ 1 then .ok (mapStep same hits l (.insertMut k v)) else .error .diverge
  | op => .ok (mapStep same hits l op)

theorem oneStep_ok {same : K → K → Bool} {hits : K → Q → Bool} {l : List (K × V)} {op : MapOp K V Q} {r : MapRet K V}
    {f : Effect (List (K × V))} (h : oneStep same hits l op = .ok (r, f)) : mapStep same hits l op = (r, f) := by
  cases op <;> simp only [oneStep] at h <;> first | (injection h) | (split at h <;> first | (injection h) | cases h)

theorem oneStep_error {same : K → K → Bool} {hits : K → Q → Bool} {l : List (K × V)} {op : MapOp K V Q} {p : Panic}
    (h : oneStep same hits l op = .error p) : p = .diverge := by
  cases op <;> simp only [oneStep] at h <;> first | cases h | (split at h <;> cases h) <;> rfl

end Spec

namespace HTMap
open Spec
variable {H K V Q : Type} {A : Arch} {o : HashKeys H K Q}

/-- The maps of degree one: empty, or one entry right below the root. -/
inductive One (o : HashKeys H K Q) : HTMap H K V → List (K × V) → Prop where
  | empty (hasher : H) : One o ⟨.branch 0 [], 0, 1, hasher⟩ []
  | single (hasher : H) (e : HEntry K V) : e.keyHash = o.hashK hasher e.key →
      One o ⟨.branch 1 [.leaf (.single e)], 1, 1, hasher⟩ [(e.key, e.value)]

theorem slot_empty (hW : 1 ≤ A.W) : SparseArray.slot A 0 0 = .ok none := by
  simp [SparseArray.slot_eq (A := A) (bm := 0) (i := 0) hW]

theorem slot_single (hW : 1 ≤ A.W) : SparseArray.slot A 1 0 = .ok (some 0) := by
  have hbelow : (SparseArray.below 1 0).length = 0 := rfl
  simp [SparseArray.slot_eq (A := A) (bm := 1) (i := 0) hW, hbelow]

theorem One.lookup {m : HTMap H K V} {l : List (K × V)} (r : One o m l) (lo : o.Lawful) (hW : 1 ≤ A.W) (q : Q) :
    ∃ x, m.lookup A o q = .ok x ∧ x.map (fun e => (e.key, e.value)) = mapGet o.eqKQ l q := by
  cases r with
  | empty hasher =>
    exact ⟨none, by simp [HTMap.lookup, HNode.get, HNode.indexFromHash_one, slot_empty hW], rfl⟩
  | single hasher e he =>
    refine ⟨if o.eqKQ e.key q then some e else none, ?_, ?_⟩
    · simp [HTMap.lookup, HNode.get, HNode.indexFromHash_one, slot_single hW, HNode.getAt, Bucket.get, HNode.matches_eq lo he]
    · simp only [mapGet, List.find?_cons, List.find?_nil]
      cases o.eqKQ e.key q <;> rfl

/-- An insertion that leaves at most one key works, whatever the fuel as long as it is at least two. -/
theorem One.insert_ok {m : HTMap H K V} {l : List (K × V)} (r : One o m l) (lo : o.Lawful) (hW : 1 ≤ A.W) (k : K) (v : V)
    (hl : (mapInsert o.eqK l k v).length ≤ 1) :
    ∃ m', m.insertMut A o k v = .ok m' ∧ One o m' (mapInsert o.eqK l k v) ∧ m'.hasher = m.hasher := by
  cases r with
  | empty hasher =>
    refine ⟨⟨.branch 1 [.leaf (.single (HEntry.new o hasher k v))], 1, 1, hasher⟩, ?_, .single hasher _ rfl, rfl⟩
    have := HNode.insert_empty_one (o := o) hW 129 (HEntry.new o hasher k v) 0
    simp only [HNode.newEmptyBranch, SparseArray.new] at this
    simp only [HTMap.insertMut, HNode.clone_eq, insertFuel, this]
    rfl
  | single hasher e he =>
    have hk : o.eqK e.key k = true := by
      cases h : o.eqK e.key k with
      | true => rfl
      | false => simp [mapInsert, h] at hl
    have hm : e.matches o.self k (o.hashK hasher k) = true := by
      rw [show o.hashK hasher k = o.self.hashQ hasher k from rfl, HNode.matches_eq lo.self he]
      exact hk
    have he' : mapInsert o.eqK [(e.key, e.value)] k v = [(k, v)] := by simp [mapInsert, hk]
    rw [he']
    refine ⟨⟨.branch 1 [.leaf (.single (HEntry.new o hasher k v))], 1, 1, hasher⟩, ?_, .single hasher (HEntry.new o hasher k v) rfl, rfl⟩
    simp only [HTMap.insertMut, HNode.clone_eq, insertFuel]
    rw [HNode.insert]
    simp only [HNode.indexFromHash_one, Res.ok_bind, unwrap_some, slot_single hW]
    rw [vecIndex_ok (a := HNode.leaf (.single e)) (by rfl)]
    simp only [Res.ok_bind]
    rw [HNode.insert]
    simp [HNode.indexFromHash_one, Bucket.containsKey, Bucket.get, Bucket.insert, HEntry.new, hm, SparseArray.writeSlot, vecSet]

/-- An insertion that would give a second key never ends: whatever the fuel, it runs out. -/
theorem One.insert_diverges {m : HTMap H K V} {l : List (K × V)} (r : One o m l) (lo : o.Lawful) (hW : 1 ≤ A.W) (k : K) (v : V)
    (hl : 1 < (mapInsert o.eqK l k v).length) (fuel : Nat) :
    m.root.clone.insert A o m.degree fuel (HEntry.new o m.hasher k v) 0 = .error .diverge := by
  cases r with
  | empty hasher => simp [mapInsert] at hl
  | single hasher e he =>
    have hk : o.eqK e.key k = false := by
      cases h : o.eqK e.key k with
      | false => rfl
      | true => simp [mapInsert, h] at hl
    rw [HNode.clone_eq]
    exact HTMap.insertMut_one_diverges lo hW hasher e k v hk fuel

theorem size_zero : (⟨0, []⟩ : SparseArray (HNode K V)).size A = 0 := by
  simp [SparseArray.size, Arch.countOnes]

theorem One.removeMut {m : HTMap H K V} {l : List (K × V)} (r : One o m l) (lo : o.Lawful) (hW : 1 ≤ A.W) (q : Q) :
    ∃ m', m.removeMut A o q = .ok ((mapGet o.eqKQ l q).isSome, m') ∧ One o m' (mapRemove o.eqKQ l q) := by
  cases r with
  | empty hasher =>
    refine ⟨⟨.branch 0 [], 0, 1, hasher⟩, ?_, .empty hasher⟩
    simp [HTMap.removeMut, HNode.clone_eq, HNode.remove, HNode.indexFromHash_one, slot_empty hW, mapGet]
  | single hasher e he =>
    cases hq : o.eqKQ e.key q with
    | true =>
      refine ⟨⟨.branch 0 [], 0, 1, hasher⟩, ?_, ?_⟩
      · have hrem : (⟨1, [HNode.newEmptyBranch]⟩ : SparseArray (HNode K V)).remove A 0 = .ok ⟨1 ^^^ 2 ^ 0, [] ++ []⟩ :=
          SparseArray.remove_old (R := fun _ _ => True) (s := ⟨1, [HNode.newEmptyBranch]⟩) (lo := []) (hi := [])
            (a := HNode.newEmptyBranch) hW (by simp) (by simp [SparseArray.below]) rfl
        have hemp : (HNode.newEmptyBranch : HNode K V).isEmpty A = .ok true := by
          simp [HNode.newEmptyBranch, HNode.isEmpty, SparseArray.new, size_zero]
        have hcom : (HNode.branch 0 [] : HNode K V).compress A = .ok (.branch 0 []) := by
          simp [HNode.compress, size_zero]
        simp [HTMap.removeMut, HNode.clone_eq, HNode.remove, HNode.removeAt, HNode.indexFromHash_one, slot_single hW, mapGet,
          Bucket.remove, HNode.matches_eq lo he, hq, SparseArray.writeSlot, vecSet, hrem, hemp, hcom, csub]
      · have : mapRemove o.eqKQ [(e.key, e.value)] q = [] := by simp [mapRemove, hq]
        rw [this]; exact .empty hasher
    | false =>
      refine ⟨⟨.branch 1 [.leaf (.single e)], 1, 1, hasher⟩, ?_, ?_⟩
      · have hemp : (HNode.leaf (.single e) : HNode K V).isEmpty A = .ok false := rfl
        simp [HTMap.removeMut, HNode.clone_eq, HNode.remove, HNode.removeAt, HNode.indexFromHash_one, slot_single hW, mapGet,
          Bucket.remove, HNode.matches_eq lo he, hq, SparseArray.writeSlot, vecSet, hemp]
      · have : mapRemove o.eqKQ [(e.key, e.value)] q = [(e.key, e.value)] := by simp [mapRemove, hq]
        rw [this]; exact .single hasher e he

theorem One.getMut {m : HTMap H K V} {l : List (K × V)} (r : One o m l) (lo : o.Lawful) (hW : 1 ≤ A.W) (q : Q) (f : V → V) :
    ∃ m', m.getMut A o q f = .ok ((mapGet o.eqKQ l q).map (·.2), m') ∧ One o m' (mapModify o.eqKQ l q f) := by
  cases r with
  | empty hasher =>
    refine ⟨⟨.branch 0 [], 0, 1, hasher⟩, ?_, .empty hasher⟩
    simp [HTMap.getMut, HNode.clone_eq, HNode.getMut, HNode.indexFromHash_one, slot_empty hW, mapGet]
  | single hasher e he =>
    refine ⟨⟨.branch 1 [.leaf (.single (if o.eqKQ e.key q then e.valueMut f else e))], 1, 1, hasher⟩, ?_, ?_⟩
    · cases hq : o.eqKQ e.key q <;>
      simp [HTMap.getMut, HNode.clone_eq, HNode.getMut, HNode.getMutAt, HNode.indexFromHash_one, slot_single hW, mapGet,
        Bucket.getMut, HNode.matches_eq lo he, hq, SparseArray.writeSlot, vecSet]
    · have : mapModify o.eqKQ [(e.key, e.value)] q f =
          [((if o.eqKQ e.key q then e.valueMut f else e).key, (if o.eqKQ e.key q then e.valueMut f else e).value)] := by
        cases hq : o.eqKQ e.key q <;> simp [mapModify, hq, HEntry.valueMut]
      rw [this]
      refine .single hasher _ ?_
      cases hq : o.eqKQ e.key q <;> simp [HEntry.valueMut, he]

theorem One.size {m : HTMap H K V} {l : List (K × V)} (r : One o m l) : m.size = l.length := by cases r <;> rfl

theorem One.step {m : HTMap H K V} {l : List (K × V)} (r : One o m l) (lo : o.Lawful) (hW : 1 ≤ A.W) (op : MapOp K V Q) :
    (∃ p, oneStep o.eqK o.eqKQ l op = .error p ∧ m.step A o op = .error p) ∨
    ∃ x e f, oneStep o.eqK o.eqKQ l op = .ok (x, f) ∧ m.step A o op = .ok (x, e) ∧ Effect.Rel (One o) e f := by
  have hc : m.clone = m := rfl
  have hins : ∀ k v, ¬ (mapInsert o.eqK l k v).length ≤ 1 → m.insertMut A o k v = .error .diverge := by
    intro k v h
    simp only [HTMap.insertMut, r.insert_diverges lo hW k v (by omega)]
    rfl
  have hget : ∀ q, m.get A o q = .ok ((mapGet o.eqKQ l q).map (·.2)) := by
    intro q
    obtain ⟨x, h1, h2⟩ := r.lookup lo hW q
    simp only [HTMap.get, h1, Res.ok_bind, ← h2, Option.map_map]
    rfl
  cases op with
  | insert k v =>
    by_cases h : (mapInsert o.eqK l k v).length ≤ 1
    · obtain ⟨m', h1, h2, _⟩ := r.insert_ok lo hW k v h
      exact .inr ⟨.unit, .fresh m', .fresh _, by simp [oneStep, h, mapStep], by simp [HTMap.step, HTMap.insert, hc, h1], .fresh h2⟩
    · exact .inl ⟨.diverge, by simp [oneStep, h], by simp [HTMap.step, HTMap.insert, hc, hins k v h]⟩
  | insertMut k v =>
    by_cases h : (mapInsert o.eqK l k v).length ≤ 1
    · obtain ⟨m', h1, h2, _⟩ := r.insert_ok lo hW k v h
      exact .inr ⟨.unit, .update m', .update _, by simp [oneStep, h, mapStep], by simp [HTMap.step, h1], .update h2⟩
    · exact .inl ⟨.diverge, by simp [oneStep, h], by simp [HTMap.step, hins k v h]⟩
  | remove q =>
    obtain ⟨m', h1, h2⟩ := r.removeMut lo hW q
    right
    cases hq : mapGet o.eqKQ l q with
    | some p =>
      rw [hq] at h1
      exact ⟨.unit, .fresh m', .fresh _, rfl, by simp [HTMap.step, HTMap.remove, hc, h1], .fresh h2⟩
    | none =>
      rw [hq] at h1
      have : mapRemove o.eqKQ l q = l := by
        rw [mapRemove, List.filter_eq_self]
        intro p hp
        simpa using List.find?_eq_none.1 hq p hp
      refine ⟨.unit, .fresh m, .fresh l, ?_, by simp [HTMap.step, HTMap.remove, hc, h1], .fresh r⟩
      simp [oneStep, mapStep, this]
  | removeMut q =>
    obtain ⟨m', h1, h2⟩ := r.removeMut lo hW q
    exact .inr ⟨_, _, _, rfl, by simp only [HTMap.step, h1]; rfl, .update h2⟩
  | getMut q f =>
    obtain ⟨m', h1, h2⟩ := r.getMut lo hW q f
    exact .inr ⟨_, _, _, rfl, by simp only [HTMap.step, h1]; rfl, .update h2⟩
  | clone => exact .inr ⟨_, _, _, rfl, rfl, .fresh r⟩
  | get q => exact .inr ⟨_, _, _, rfl, by simp only [HTMap.step, hget]; rfl, .keep⟩
  | getKeyValue q =>
    obtain ⟨x, h1, h2⟩ := r.lookup lo hW q
    exact .inr ⟨_, _, _, rfl, by simp only [HTMap.step, HTMap.getKeyValue, h1, Res.ok_bind, Res.pure_eq, h2], .keep⟩
  | containsKey q =>
    exact .inr ⟨_, _, _, rfl, by simp [HTMap.step, HTMap.containsKey, hget], .keep⟩
  | index q =>
    refine .inr ⟨_, _, _, rfl, ?_, .keep⟩
    simp only [HTMap.step, HTMap.index, hget, Res.ok_bind]
    cases mapGet o.eqKQ l q <;> rfl
  | size => exact .inr ⟨_, _, _, rfl, by simp only [HTMap.step, HTMap.getSize, r.size]; rfl, .keep⟩
  | isEmpty =>
    refine .inr ⟨_, _, _, rfl, ?_, .keep⟩
    cases r <;> rfl

/-- Iterating gives the pair, if there is one. -/
theorem One.serialize {m : HTMap H K V} {l : List (K × V)} (r : One o m l) :
    drain iterNext (m.getSize + 1) m.iter = .ok l := by
  cases r <;> rfl

theorem One.length_le {m : HTMap H K V} {l : List (K × V)} (r : One o m l) : l.length ≤ 1 := by cases r <;> simp

end HTMap
end Rpds
