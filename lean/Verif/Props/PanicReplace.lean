import Verif.Drop.Replace
import Verif.Heap.Late
import Verif.Props.PanicVector
/-
Property C73 for replacements: the `Drop` of the pair that `RedBlackTreeMap::insert_mut` replaces, and of the element that `Vector::set_mut`
or a write through `index_mut` or `get_mut` replaces.  It is called at the end of the operation (`C74_rb_map_insert_mut`, `C74_vector_set_mut`).
-/
set_option autoImplicit false
namespace Rpds
namespace Props
open Heap Spec

theorem lateOf_always {Op Ret σ : Type} {P : σ → Prop} {step : σ → Op → Res (Option Ret × Effect σ)} (may : Op → Bool) (h : Always P step) :
    Always P (Spec.lateOf may step) := by
  rintro s ⟨b, op⟩ hs
  obtain ⟨r, e, h1, h2⟩ := h s op hs
  simp only [Spec.lateOf, h1, Except.map]
  cases b && may op with
  | false => exact ⟨r, e, rfl, h2⟩
  | true =>
    refine ⟨none, e.unwound, rfl, ?_⟩
    rcases h2 with rfl | ⟨t, rfl | rfl, h2⟩
    · exact .inl rfl
    · exact .inl rfl
    · exact .inr ⟨t, .inr rfl, h2⟩

/-- The operation of red-black trees in place that replaces. -/
def rbReplaces {S K V Q : Type} (p : RBCall S K V Q) : Bool :=
  match p.2.2 with
  | .insertMut _ _ => true
  | _ => false

/-- The same for sets. -/
def rbSetReplaces {S T Q : Type} (p : RBSetCall S T Q) : Bool := rbReplaces (p.1, p.2.1, p.2.2.onMap)

/-- C73 for `RedBlackTreeMap` when also the `Drop` of a pair that `insert_mut` replaces may panic. -/
theorem C73_rb_map_replace (S K V Q : Type) (Ar : Arch) :
    SoundMemory ((rbImplU S K V Q Ar).lateOf rbReplaces) (fun p => userByRef p.2) (RBMap.new : RBMap K V)
      (Spec.lateOf rbReplaces fun m (p : RBCall S K V Q) => m.stepU Ar p.1 p.2.1 p.2.2) (fun m => 2 * m.size) :=
  sound_of_refines ⟨[], RBMap.new_loose⟩ (lateOf_always _ (rb_always S K V Q Ar)) (fun A => lateOf_refines _ (rbImplU_refines S K V Q Ar A))
    (fun A => lateOf_lends _ (rbImplU_refines S K V Q Ar A) (rbImplU_lends S K V Q Ar A)) fun _ _ _ h => RBLooseIs_weight h

/-- C73 for `RedBlackTreeSet` when also the `Drop` of an element that `insert_mut` replaces may panic. -/
theorem C73_rb_set_replace (S T Q : Type) (Ar : Arch) :
    SoundMemory ((rbSetImplU S T Q Ar).lateOf rbSetReplaces) (fun p => userSetByRef p.2) (⟨RBMap.new⟩ : RBSet T)
      (Spec.lateOf rbSetReplaces fun c (p : RBSetCall S T Q) => c.stepU Ar p.1 p.2.1 p.2.2) (fun c => 2 * c.map.size) :=
  sound_of_refines (P := fun c : RBSet T => ∃ l, c.map.Loose l) ⟨[], RBMap.new_loose⟩ (lateOf_always _ (rbSet_always S T Q Ar))
    (fun A => lateOf_refines _ (rbSetImplU_refines S T Q Ar A))
    (fun A => lateOf_lends _ (rbSetImplU_refines S T Q Ar A) (rbSetImplU_lends S T Q Ar A))
    (by rintro x c ρ ⟨m, h, rfl⟩; exact RBLooseIs_weight h)

/-- The operations of vectors in place that replace. -/
def vecReplaces {T : Type} (p : VecCall T) : Bool :=
  match p.2 with
  | .setMut _ _ | .getMut _ _ | .indexMut _ _ => true
  | _ => false

theorem vec_replace_total {T : Type} : TotalWithRoom (fun p => vecAdds p.2) (Spec.lateOf vecReplaces (vecStepU (T := T))) := by
  rintro s ⟨b, p⟩ h
  obtain ⟨r, e, h1, h2⟩ := vec_step_total s p h
  simp only [Spec.lateOf, h1, Except.map]
  cases b && vecReplaces p with
  | false => exact ⟨r, e, rfl, h2⟩
  | true =>
    refine ⟨none, e.unwound, rfl, ?_⟩
    rcases h2 with rfl | ⟨t, rfl | rfl, h2⟩
    · exact .inl rfl
    · exact .inl rfl
    · exact .inr ⟨t, .inr rfl, h2⟩

/-- C73 for `Vector` when also the `Drop` of an element that is replaced in place may panic. -/
theorem C73_vector_replace (T : Type) (Ar : Arch) (bits : Nat) (h0 : 0 < bits) (hW : bits < Ar.W) :
    SoundHeap ((vecImplU Ar T bits).lateOf vecReplaces) (fun p => vecUByRef p.2) (vecCap Ar bits, ([] : List T)) (Spec.lateOf vecReplaces vecStepU)
      (fun s => 2 * s.2.length + Nat.log2 s.2.length + 1) ∧
    ∀ (cmds : List (Cmd (Bool × VecCall T))) (ss : List (Option (Nat × List T))), cmdAdds (fun p => vecAdds p.2) cmds ≤ vecCap Ar bits →
      (∀ t, some t ∈ ss → t.1 = vecCap Ar bits ∧ t.2.length + cmdAdds (fun p => vecAdds p.2) cmds ≤ vecCap Ar bits) →
      ∃ rs ss', pureClient (vecCap Ar bits, []) (Spec.lateOf vecReplaces vecStepU) ss cmds = .ok (rs, ss') := by
  refine ⟨heap_of_refines (fun A => lateOf_refines _ (vecImplU_refines Ar A h0 hW))
    (fun A => lateOf_lends _ (vecImplU_refines Ar A h0 hW) (vecImplU_lends Ar A h0 hW)) ?_, fun cmds ss h1 h2 =>
    vec_client_total vec_replace_total _ cmds h1 ss h2⟩
  intro x s ρ h
  have h1 := h.weight_le
  have h2 := Nat.div_le_self s.2.length (2 ^ x.bits - 1)
  have h3 := Nat.div_le_self (Nat.log2 s.2.length) x.bits
  omega

/-- Why the drop may be put at the end: with user code that does what it wants, on a map that any calls and panics left (`RBMap.Loose`),
`insert_mut` whose replaced pair panics while it is dropped (`insertMutUD`) leaves what it leaves without that panic, and a pair is
replaced if and only if the size stays.  (Otherwise nothing is dropped that held a pair.) -/
theorem C73_rb_map_replace_last {S K V Q : Type} (m : RBMap K V) (l : List (K × V)) (h : m.Loose l) (U : RBUser S K V Q) (k : K) (v : V) (s : S)
    (m' : RBMap K V) : m.insertMutUD U k v s = some m' ↔ m.insertMutU U k v s = .ok (some (), m') ∧ m'.size = m.size :=
  h.insertMutUD_iff U k v s m'

/-- A map of two entries and a clone.  The value of 2 is replaced in the clone and then in the map, of which the latter frees the old pair
and panics; then the comparison panics before anything is replaced, and the clone is asked. -/
def exReplaceCmds : List (Cmd (Bool × RBCall Nat Nat Nat Nat)) :=
  [.new, .run 0 (false, exBomb, 9, .insertMut 1 10), .run 0 (false, exBomb, 9, .insertMut 2 20), .run 0 (false, exBomb, 9, .clone),
    .run 1 (false, exBomb, 9, .insertMut 2 21), .run 0 (true, exBomb, 9, .insertMut 2 22), .run 0 (true, exBomb, 1, .insertMut 2 23),
    .run 0 (false, exBomb, 9, .get 2), .run 0 (false, exBomb, 9, .size), .run 1 (false, exBomb, 9, .get 2), .run 0 (true, exBomb, 9, .get 2)]

-- the replacement that panicked was made, the other one was not, and what does not replace does not panic
example : (pureClient RBMap.new (Spec.lateOf rbReplaces fun m (p : RBCall Nat Nat Nat Nat) => m.stepU dbg64 p.1 p.2.1 p.2.2) [] exReplaceCmds).map (·.1) =
    .ok [none, some (some .unit), some (some .unit), some (some .unit), some (some .unit), some none, some none, some (some (.optV (some 22))),
      some (some (.nat 2)), some (some (.optV (some 21))), some (some (.optV (some 22)))] := by
  decide +kernel
-- the old pair is freed all the same, and after the two are dropped nothing is left
example : (outcome (bump _) 400 (client ((rbImplU Nat Nat Nat Nat dbg64).lateOf rbReplaces) [] exReplaceCmds) []).map
    (fun x => (live x.2.1, x.2.1.contains (.closed 1 (.entry 2 20) []))) = some (7, false) := by
  decide +kernel
example : (outcome (bump _) 800 (client ((rbImplU Nat Nat Nat Nat dbg64).lateOf rbReplaces) [] (exReplaceCmds ++ [.discard 0, .discard 1])) []).map
    (fun x => live x.2.1) = some 0 := by
  decide +kernel

/-- A vector of three elements and a clone.  A replacement in the vector panics, one past the end does nothing. -/
def exVecReplaceCmds : List (Cmd (Bool × VecCall Nat)) :=
  [.new, .run 0 (false, exVecUser, .extend [10, 20, 30]), .run 0 (false, exVecUser, .clone), .run 0 (true, exVecUser, .setMut 1 21),
    .run 0 (true, exVecUser, .indexMut 0 11), .run 0 (true, exVecUser, .pushBackMut 40), .run 0 (false, exVecUser, .get 1),
    .run 0 (false, exVecUser, .get 0), .run 0 (false, exVecUser, .get 3), .run 1 (false, exVecUser, .get 1)]

example : (pureClient (vecCap dbg64 1, []) (Spec.lateOf vecReplaces vecStepU) [] exVecReplaceCmds).map (·.1) =
    .ok [none, some (some .unit), some (some .unit), some none, some none, some (some .unit), some (some (.opt (some 21))),
      some (some (.opt (some 11))), some (some (.opt (some 40))), some (some (.opt (some 20)))] := by
  decide +kernel
example : (outcome (bump _) 800 (client ((vecImplU dbg64 Nat 1).lateOf vecReplaces) [] (exVecReplaceCmds ++ [.discard 0, .discard 1])) []).map
    (fun x => live x.2.1) = some 0 := by
  decide +kernel

end Props
end Rpds
