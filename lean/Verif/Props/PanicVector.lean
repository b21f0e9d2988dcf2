import Verif.Heap.VectorPanic
import Verif.Props.PanicHeap
/-
Property C73 for `Vector`: the `Clone` of elements and the iterators given to `extend` may do what they want.
-/
set_option autoImplicit false
namespace Rpds
namespace Props
open Heap Spec

section
variable {T : Type}

/-- How many items a call may add. -/
def vecAdds (p : VecCall T) : Nat :=
  match p.2 with
  | .pushBack _ | .pushBackMut _ => 1
  | .extend ys => ys.length
  | _ => 0

/-- How many items the commands may add. -/
def cmdAdds {Op : Type} (adds : Op → Nat) : List (Cmd Op) → Nat
  | [] => 0
  | .run _ p :: cmds => adds p + cmdAdds adds cmds
  | _ :: cmds => cmdAdds adds cmds

/-- Operations on sequences of bounded length have an outcome if there is room for what they add. -/
def TotalWithRoom {Op Ret : Type} (adds : Op → Nat) (step : Nat × List T → Op → Res (Ret × Effect (Nat × List T))) : Prop :=
  ∀ (s : Nat × List T) (p : Op), s.2.length + adds p ≤ s.1 → ∃ r e, step s p = .ok (r, e) ∧
    (e = .keep ∨ ∃ t : Nat × List T, (e = .fresh t ∨ e = .update t) ∧ t.1 = s.1 ∧ t.2.length ≤ s.2.length + adds p)

theorem vec_step_total : TotalWithRoom vecAdds (vecStepU (T := T)) := by
  intro s p h
  obtain ⟨cap, xs⟩ := s
  obtain ⟨U, op⟩ := p
  cases op with
  | pushBack x =>
    simp only [vecAdds] at h
    have : xs.length < cap := by omega
    exact ⟨_, _, by simp only [vecStepU, vecStep, if_pos this]; rfl, .inr ⟨(cap, xs ++ [x]), .inl rfl, rfl, by simp [vecAdds]⟩⟩
  | pushBackMut x =>
    simp only [vecAdds] at h
    have : xs.length < cap := by omega
    exact ⟨_, _, by simp only [vecStepU, vecStep, if_pos this]; rfl, .inr ⟨(cap, xs ++ [x]), .inr rfl, rfl, by simp [vecAdds]⟩⟩
  | set i x =>
    by_cases hi : i < xs.length
    · exact ⟨_, _, by simp only [vecStepU, vecStep, if_pos hi]; rfl, .inr ⟨(cap, xs.set i x), .inl rfl, rfl, by simp⟩⟩
    · exact ⟨_, _, by simp only [vecStepU, vecStep, if_neg hi]; rfl, .inl rfl⟩
  | setMut i x => exact ⟨_, _, rfl, .inr ⟨(cap, xs.set i x), .inr rfl, rfl, by simp⟩⟩
  | dropLast =>
    by_cases hi : xs = []
    · exact ⟨_, _, by simp only [vecStepU, vecStep, if_pos hi]; rfl, .inl rfl⟩
    · exact ⟨_, _, by simp only [vecStepU, vecStep, if_neg hi]; rfl, .inr ⟨(cap, xs.dropLast), .inl rfl, rfl, by simp only [List.length_dropLast]; omega⟩⟩
  | dropLastMut => exact ⟨_, _, rfl, .inr ⟨(cap, xs.dropLast), .inr rfl, rfl, by simp only [List.length_dropLast]; omega⟩⟩
  | getMut i f =>
    simp only [vecStepU]
    cases xs[i]? with
    | none => exact ⟨_, _, rfl, .inl rfl⟩
    | some x =>
      cases hc : U.clone x with
      | none => exact ⟨none, .update (cap, xs), by simp only [hc], .inr ⟨(cap, xs), .inr rfl, rfl, by simp⟩⟩
      | some y => exact ⟨some (.bool true), .update (cap, xs.set i (f y)), by simp only [hc], .inr ⟨(cap, xs.set i (f y)), .inr rfl, rfl, by simp⟩⟩
  | indexMut i z =>
    simp only [vecStepU]
    cases xs[i]? with
    | none => exact ⟨_, _, rfl, .inl rfl⟩
    | some x =>
      cases hc : U.clone x with
      | none => exact ⟨none, .update (cap, xs), by simp only [hc], .inr ⟨(cap, xs), .inr rfl, rfl, by simp⟩⟩
      | some y => exact ⟨some .unit, .update (cap, xs.set i z), by simp only [hc], .inr ⟨(cap, xs.set i z), .inr rfl, rfl, by simp⟩⟩
  | extend ys =>
    simp only [vecAdds] at h
    exact ⟨if U.iterPanics then none else some .unit, .update (cap, xs ++ ys), by simp only [vecStepU, if_pos h], .inr ⟨(cap, xs ++ ys), .inr rfl, rfl, by simp [vecAdds]⟩⟩
  | clone => exact ⟨_, _, rfl, .inr ⟨(cap, xs), .inl rfl, rfl, by simp⟩⟩
  | index i =>
    simp only [vecStepU, vecStep]
    cases xs[i]? with
    | none => exact ⟨_, _, rfl, .inl rfl⟩
    | some x => exact ⟨_, _, rfl, .inl rfl⟩
  | _ => exact ⟨_, _, rfl, .inl rfl⟩

/-- C73.  The room that is asked for is no more than needed: on a sequence that is not too long, a call has an outcome if and only if what it
adds fits. -/
theorem C73_vector_room (s : Nat × List T) (p : VecCall T) (hs : s.2.length ≤ s.1) :
    (∃ y, vecStepU s p = .ok y) ↔ s.2.length + vecAdds p ≤ s.1 := by
  constructor
  · rintro ⟨y, h⟩
    obtain ⟨cap, xs⟩ := s
    obtain ⟨U, op⟩ := p
    cases op <;> simp only [vecAdds] <;> first | exact hs | skip
    all_goals
      simp only [vecStepU, vecStep] at h
      split at h
      · simp_all; try omega
      · cases h
  · intro h
    obtain ⟨r, e, h1, _⟩ := vec_step_total s p h
    exact ⟨_, h1⟩

theorem vec_client_total {Op Ret : Type} {adds : Op → Nat} {step : Nat × List T → Op → Res (Ret × Effect (Nat × List T))}
    (hs : TotalWithRoom adds step) (cap : Nat) (cmds : List (Cmd Op)) : cmdAdds adds cmds ≤ cap → ∀ ss : List (Option (Nat × List T)),
    (∀ t, some t ∈ ss → t.1 = cap ∧ t.2.length + cmdAdds adds cmds ≤ cap) → ∃ rs ss', pureClient (cap, []) step ss cmds = .ok (rs, ss') := by
  induction cmds with
  | nil => exact fun _ ss _ => ⟨_, _, rfl⟩
  | cons c cmds ih =>
    intro hcap ss h
    cases c with
    | new =>
      obtain ⟨rs, ss', h1⟩ := ih hcap (ss ++ [some (cap, [])]) (fun t ht => by
        rcases List.mem_append.1 ht with ht | ht
        · exact h t ht
        · cases List.mem_singleton.1 ht; exact ⟨rfl, by simpa [cmdAdds] using hcap⟩)
      exact ⟨_, _, by simp only [pureClient, h1]; rfl⟩
    | run i op =>
      simp only [cmdAdds] at hcap h
      have h' : ∀ t, some t ∈ ss → t.1 = cap ∧ t.2.length + cmdAdds adds cmds ≤ cap := fun t ht => ⟨(h t ht).1, by have := (h t ht).2; omega⟩
      rcases hi : ss[i]? with _ | _ | s
      · obtain ⟨rs, ss', h1⟩ := ih (by omega) ss h'
        exact ⟨_, _, by simp only [pureClient, hi, h1]; rfl⟩
      · obtain ⟨rs, ss', h1⟩ := ih (by omega) ss h'
        exact ⟨_, _, by simp only [pureClient, hi, h1]; rfl⟩
      · obtain ⟨hs1, hs2⟩ := h s (List.mem_of_getElem? hi)
        obtain ⟨r, e, h3, h4⟩ := hs s op (by omega)
        obtain ⟨rs, ss', h1⟩ := ih (by omega) (Effect.applyOpt ss i e) (fun t ht => by
          rcases h4 with rfl | ⟨u, rfl | rfl, h4, h5⟩
          · exact h' t ht
          · rcases List.mem_append.1 ht with ht | ht
            · exact h' t ht
            · cases List.mem_singleton.1 ht; exact ⟨h4.trans hs1, by omega⟩
          · rcases List.mem_or_eq_of_mem_set ht with ht | ht
            · exact h' t ht
            · cases ht; exact ⟨h4.trans hs1, by omega⟩)
        exact ⟨some r :: rs, ss', by simp only [pureClient, hi, h3, Res.ok_bind, h1]⟩
    | discard i =>
      simp only [cmdAdds] at hcap h
      rcases hi : ss[i]? with _ | _ | s
      · obtain ⟨rs, ss', h1⟩ := ih hcap ss h
        exact ⟨_, _, by simp only [pureClient, hi, h1]; rfl⟩
      · obtain ⟨rs, ss', h1⟩ := ih hcap ss h
        exact ⟨_, _, by simp only [pureClient, hi, h1]; rfl⟩
      · obtain ⟨rs, ss', h1⟩ := ih hcap (ss.set i none) (fun t ht => by
          rcases List.mem_or_eq_of_mem_set ht with ht | ht
          · exact h t ht
          · cases ht)
        exact ⟨_, _, by simp only [pureClient, hi, h1]; rfl⟩

end

/-- C73 for `Vector` with `bits`: whatever `Clone` of the elements does inside `get_mut` and `index_mut`, and wherever the iterator given to
`extend` panics; a call that panics in `Clone` leaves the contents as they were (`vecStepU`).  Calls have an outcome as long as the items added
to the vectors have room (`vecCap`). -/
theorem C73_vector_sound (T : Type) (Ar : Arch) (bits : Nat) (h0 : 0 < bits) (hW : bits < Ar.W) :
    SoundHeap (vecImplU Ar T bits) vecUByRef (vecCap Ar bits, ([] : List T)) vecStepU
      (fun s => 2 * s.2.length + Nat.log2 s.2.length + 1) ∧
    ∀ (cmds : List (Cmd (VecCall T))) (ss : List (Option (Nat × List T))), cmdAdds vecAdds cmds ≤ vecCap Ar bits →
      (∀ t, some t ∈ ss → t.1 = vecCap Ar bits ∧ t.2.length + cmdAdds vecAdds cmds ≤ vecCap Ar bits) →
      ∃ rs ss', pureClient (vecCap Ar bits, []) vecStepU ss cmds = .ok (rs, ss') := by
  refine ⟨heap_of_refines (fun A => vecImplU_refines Ar A h0 hW) (fun A => vecImplU_lends Ar A h0 hW) ?_, fun cmds ss h1 h2 =>
    vec_client_total vec_step_total _ cmds h1 ss h2⟩
  intro x s ρ h
  have h1 := h.weight_le
  have h2 := Nat.div_le_self s.2.length (2 ^ x.bits - 1)
  have h3 := Nat.div_le_self (Nat.log2 s.2.length) x.bits
  omega

/-- `Clone` panics on 30 and adds one to everything else. -/
def exVecUser : VecUser Nat := { clone := fun x => if x = 30 then none else some (x + 1) }

/-- A vector of three elements and a clone.  In the clone `Clone` panics, then lies; then an iterator panics after two items. -/
def exVecUCmds : List (Cmd (VecCall Nat)) :=
  [.new, .run 0 (exVecUser, .extend [10, 20, 30]), .run 0 (exVecUser, .clone), .run 1 (exVecUser, .getMut 2 (· + 5)),
    .run 1 (exVecUser, .getMut 1 (· + 5)), .run 1 (exVecUser, .indexMut 7 0), .run 0 ({ exVecUser with iterPanics := true }, .extend [40, 50]),
    .run 0 (exVecUser, .get 4), .run 1 (exVecUser, .get 2), .run 1 (exVecUser, .get 1), .run 0 (exVecUser, .get 1)]

-- five items are added: three and two
example : cmdAdds vecAdds exVecUCmds = 5 := by decide +kernel
-- a full vector: another item does not fit, everything else goes on
example : (match vecStepU (2, [10, 20]) (exVecUser, .pushBackMut 30) with | .ok _ => true | .error _ => false) = false ∧
    (match vecStepU (2, [10, 20]) (exVecUser, .setMut 0 30) with | .ok _ => true | .error _ => false) = true := by decide +kernel
-- the answers
example : (pureClient (vecCap dbg64 1, []) vecStepU [] exVecUCmds).map (·.1) =
    .ok [none, some (some .unit), some (some .unit), some none, some (some (.bool true)), some (some .panicked), some none,
      some (some (.opt (some 50))), some (some (.opt (some 30))), some (some (.opt (some 26))), some (some (.opt (some 20)))] := by
  decide +kernel
-- the call that panicked left a copy of the root and of one leaf, with the element still shared
example : (outcome (bump _) 400 (client (vecImplU dbg64 Nat 1) [] (exVecUCmds.take 4)) []).map (·.2.1) =
    some [.closed 2 .leaf [1, 2], .closed 1 (.val 10) [], .closed 1 (.val 20) [], .closed 1 .branch [0, 5], .closed 2 (.val 30) [],
      .closed 1 .leaf [4], .closed 1 .branch [0, 7], .closed 1 .leaf [4]] := by
  decide +kernel
-- after the two are dropped nothing is left
example : (outcome (bump _) 800 (client (vecImplU dbg64 Nat 1) [] (exVecUCmds ++ [.discard 0, .discard 1])) []).map (fun x => live x.2.1) =
    some 0 := by
  decide +kernel

-- one thread panics in its clone while the other changes and drops its own vector
set_option synthInstance.maxSize 1000 in
example : (interleaved (vecImplU dbg64 Nat 1) 300 (exVecUCmds.take 3)
    [[.run 0 (exVecUser, .setMut 0 11), .discard 0], [.run 1 (exVecUser, .getMut 2 (· + 5)), .run 1 (exVecUser, .get 2)]]
    (List.replicate 60 [0, 1]).flatten).map (fun x => (x.1, live x.2)) =
    some ([some [some (some (.bool true)), none], some [some none, some (some (.opt (some 30)))]], 6) := by
  decide +kernel

end Props
end Rpds
