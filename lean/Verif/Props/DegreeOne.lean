import Verif.Props.Unlawful
import Verif.HashTrie.DegreeOne
/-
Property C23 for degree one, exactly: what works, and what never ends.
-/
set_option autoImplicit false
namespace Rpds.Props
open Spec
variable {H K V Q : Type}

/-- C23 for degree one, exactly.  Start from any empty maps of degree one and run any history of operations over any number of
versions.  Up to the first insertion that would give a version two different keys, the maps answer as finite maps do and iterate to
the same pairs; that insertion never ends (for every bound on the recursive calls of `Node::insert`, it is exceeded), and it is the
only operation that does not end. -/
theorem C23_hash_degree_one_exact (A : Arch) (hA : HTMap.StdWord A) (o : HashKeys H K Q) (lo : o.Lawful) (hashers : List H) :
    ∃ ms : List (HTMap H K V), hashers.mapM (fun h => HTMap.newWithDegree A h 1) = .ok ms ∧ ∀ h : List (Nat × MapOp K V Q),
      (runHistory (oneStep o.eqK o.eqKQ) (hashers.map fun _ => []) h = .error .diverge ∧
        runHistory (HTMap.step A o) ms h = .error .diverge) ∨
      ∃ answers versions maps,
        runHistory (oneStep o.eqK o.eqKQ) (hashers.map fun _ => []) h = .ok (answers, maps) ∧
        runHistory (fun l op => .ok (mapStep o.eqK o.eqKQ l op)) (hashers.map fun _ => []) h = .ok (answers, maps) ∧
        runHistory (HTMap.step A o) ms h = .ok (answers, versions) ∧
        List.Forall₂ (fun m l => mapItems m = .ok l ∧ l.length ≤ 1 ∧
          ∀ k v, 1 < (mapInsert o.eqK l k v).length →
            ∀ fuel, m.root.clone.insert A o m.degree fuel (HEntry.new o m.hasher k v) 0 = .error .diverge) versions maps := by
  have hW : 1 ≤ A.W ∧ A.W % 256 = A.W := by rcases hA with h | h | h <;> rw [h] <;> decide
  have hnew : ∀ h : H, HTMap.newWithDegree (K := K) (V := V) A h 1 = .ok ⟨.branch 0 [], 0, 1, h⟩ := by
    intro h
    have h1 : isPow2 1 = true := by decide
    simp only [HTMap.newWithDegree, h1, assertRt, if_true, Res.ok_bind, hW.2, hW.1, decide_true]
    rfl
  have h0 : ∃ ms : List (HTMap H K V), hashers.mapM (fun h => HTMap.newWithDegree A h 1) = .ok ms ∧
      List.Forall₂ (HTMap.One o) ms (hashers.map fun _ => []) := by
    induction hashers with
    | nil => exact ⟨[], rfl, .nil⟩
    | cons h hs ih =>
      obtain ⟨ms, e1, e2⟩ := ih
      exact ⟨_ :: ms, by rw [List.mapM_cons, hnew, e1]; rfl, .cons (.empty h) e2⟩
  obtain ⟨ms, e1, e2⟩ := h0
  refine ⟨ms, e1, fun h => ?_⟩
  rcases runHistory_simE (fun s a op r => HTMap.One.step r lo hW.1 op) h ms _ e2 with ⟨p, g1, g2⟩ | ⟨rs, vs, ws, g1, g2, g3⟩
  · left
    have hp : p = .diverge := runHistory_error (fun _ _ _ h => oneStep_error h) g1
    subst hp
    exact ⟨g1, g2⟩
  · right
    obtain ⟨ws', q1, q2⟩ := runHistory_simP (R := Eq) (step := fun l op => .ok (mapStep o.eqK o.eqKQ l op))
      (fun s a op r f hR hs => ⟨f, by rw [hR, oneStep_ok hs], by cases f <;> constructor <;> rfl⟩) h
      (hashers.map fun _ => []) _ _ _ (forall₂_refl_eq _) g1
    have : ws' = ws := by
      clear g1 g2 g3 q1
      induction q2 with
      | nil => rfl
      | cons h _ ih => rw [h, ih]
    subst this
    exact ⟨rs, vs, ws', g1, q1, g2, forall₂_imp (fun m l r => ⟨r.serialize, r.length_le, fun k v hl fuel =>
      r.insert_diverges lo hW.1 k v hl fuel⟩) g3⟩

/-- Two versions: one key inserted, overwritten, changed in place, looked up, removed; another key inserted after that. -/
def exOneHistory : List (Nat × MapOp (Nat × String) Nat Nat) :=
  [(0, .insert (1, "a") 10), (1, .insertMut (1, "b") 11), (1, .getMut 1 (· + 1)), (1, .getKeyValue 1), (1, .index 2),
   (1, .removeMut 1), (1, .insertMut (2, "c") 20), (1, .getKeyValue 2), (0, .size)]

example : ((HTMap.newWithDegree (K := Nat × String) (V := Nat) dbg64 1 1).bind fun m =>
      (runHistory (HTMap.step dbg64 exKeys) [m] exOneHistory).bind fun p => p.2.mapM mapItems) = .ok [[], [((2, "c"), 20)]] ∧
    ((HTMap.newWithDegree (K := Nat × String) (V := Nat) dbg64 1 1).bind fun m =>
      (runHistory (HTMap.step dbg64 exKeys) [m] exOneHistory).map (·.1)) =
      .ok [some .unit, some .unit, some (.optV (some 11)), some (.optKV (some ((1, "b"), 12))), some .panicked, some (.bool true),
        some .unit, some (.optKV (some ((2, "c"), 20))), some (.nat 0)] ∧
    ((HTMap.newWithDegree (K := Nat × String) (V := Nat) dbg64 1 1).bind fun m =>
      (runHistory (HTMap.step dbg64 exKeys) [m] (exOneHistory ++ [(0, .insertMut (7, "x") 1), (1, .insert (7, "x") 1)])).map (·.1)) =
      .error .diverge ∧
    ((runHistory (oneStep exKeys.eqK exKeys.eqKQ) [[]] (exOneHistory ++ [(0, .insertMut (7, "x") 1), (1, .insert (7, "x") 1)])).map (·.1)) =
      .error .diverge := by
  refine ⟨?_, ?_, ?_, ?_⟩ <;> decide +kernel

end Rpds.Props
