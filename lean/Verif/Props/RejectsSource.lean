import Verif.Props.Source
/-
Wrong programs for which the statements of C71 are false.
-/
set_option autoImplicit false
namespace Rpds.Props.Rejects

/-- The state of the sources used here: what they will answer. -/
abbrev Script := List (Pull String Nat)

/-- What C71 says of lists, for some way of building them. -/
def ListGathers (build : (Script → Pull String Nat × Script) → Nat → Script → Res (Built String (RList Nat) Script)) : Prop :=
  ∀ next fuel s, Gathers next fuel s (build next fuel s) fun xs l => l = RList.fromIter xs ∧ listItems l = .ok xs

/-- It is true of the model. -/
theorem fromSource_gathers : ListGathers RList.fromSource := fun next fuel s => C71_list_from_source next fuel s

/-- Wrong: asks the source once more after it said that it ended. -/
def asksAgain (next : Script → Pull String Nat × Script) (fuel : Nat) (s : Script) : Res (Built String (RList Nat) Script) :=
  (RList.fromSource next fuel s).map fun r => match r with
    | .over (.ok l) s => .over (.ok l) (next s).2
    | r => r

theorem asksAgain_rejected : ¬ ListGathers asksAgain := by
  intro h
  obtain ⟨c, e, _⟩ := (h exScript 9 [.stop none, .item 3]).1 [] [.item 3] (.stop rfl) (by decide)
  have : exSeen listItems (asksAgain exScript 9 [.stop none, .item 3]) = .ok (some (.ok [], [])) := by rfl
  rw [e] at this
  cases hc : listItems c <;> simp [exSeen, hc, Except.map] at this

/-- Wrong: after a failure the collection of the items so far is given as the result. -/
def swallowsFailure (next : Script → Pull String Nat × Script) (fuel : Nat) (s : Script) : Res (Built String (RList Nat) Script) := do
  match ← forLoop next (fun (vec : List Nat) e => pure (vec ++ [e])) fuel [] s with
  | .running => pure .running
  | .left _ vec s => pure (.over (.ok (RList.fromIter vec)) s)

theorem swallowsFailure_rejected : ¬ ListGathers swallowsFailure := by
  intro h
  have e := (h exScript 9 [.item 1, .stop (some (.error "bad"))]).2.1 [1] (.error "bad") [] (.item rfl (.stop rfl)) (by decide)
  have : exSeen listItems (swallowsFailure exScript 9 [.item 1, .stop (some (.error "bad"))]) = .ok (some (.ok [1], [])) := by rfl
  rw [e] at this
  simp [exSeen] at this

/-- Wrong: leaves the items in the order in which pushing to the front puts them. -/
def pushesAtOnce (next : Script → Pull String Nat × Script) (fuel : Nat) (s : Script) : Res (Built String (RList Nat) Script) := do
  let r ← forLoop next (fun (l : RList Nat) e => pure (l.pushFrontMut e)) fuel RList.new s
  pure (r.finish id)

theorem pushesAtOnce_rejected : ¬ ListGathers pushesAtOnce := by
  intro h
  obtain ⟨c, e, _, hc⟩ := (h exScript 9 [.item 1, .item 2, .stop none]).1 [1, 2] [] (.item rfl (.item rfl (.stop rfl))) (by decide)
  have : exSeen listItems (pushesAtOnce exScript 9 [.item 1, .item 2, .stop none]) = .ok (some (.ok [2, 1], [])) := by rfl
  rw [e] at this
  simp [exSeen, hc, Except.map] at this

/-- What C71 says of extending a vector up to the point where the source stops. -/
def VecExtends (ext : (Script → Pull String Nat × Script) → Nat → RVector Nat → Script → Res (Looped String (RVector Nat) Script)) : Prop :=
  ∀ (v : RVector Nat), RVector.Reach dbg64 v → ∀ next fuel, v.len + fuel ≤ vecCap dbg64 v.bits → ∀ s xs k s', Feeds next s xs k s' →
    xs.length < fuel → ∃ w old, ext next fuel v s = .ok (.left k w s') ∧ v.extend dbg64 xs = .ok w ∧ vecItems dbg64 v = .ok old ∧
      vecItems dbg64 w = .ok (old ++ xs)

/-- It is true of the model. -/
theorem extendFrom_extends : VecExtends fun next fuel v s => v.extendFrom dbg64 next fuel s :=
  fun v hv next fuel hf s xs k s' => (C71_vector_extend dbg64 v hv next fuel hf s).1 xs k s'

/-- Wrong: collects all items before it pushes the first, so that a panic of the source leaves the vector as it was. -/
def collectsFirst (next : Script → Pull String Nat × Script) (fuel : Nat) (v : RVector Nat) (s : Script) :
    Res (Looped String (RVector Nat) Script) := do
  match ← forLoop next (fun (vec : List Nat) e => pure (vec ++ [e])) fuel [] s with
  | .running => pure .running
  | .left none vec s => (v.extend dbg64 vec).map fun w => .left none w s
  | .left (some e) _ s => pure (.left (some e) v s)

theorem collectsFirst_rejected : ¬ VecExtends collectsFirst := by
  intro h
  obtain ⟨w, old, h1, _, h3, h4⟩ := h vec5 vec5_reach exScript 9 (by decide) [.item 6, .stop (some .panic)] [6] (some .panic) []
    (.item rfl (.stop rfl)) (by decide)
  have e : collectsFirst exScript 9 vec5 [.item 6, .stop (some .panic)] = .ok (.left (some .panic) vec5 []) := by rfl
  rw [e] at h1
  cases h1
  rw [h3] at h4
  simp at h4

/-- What C71 says of `get_mut` when `Clone` panics. -/
def CloneSafe (modify : RVector Nat → (Nat → Nat → Option Nat × Nat) → Nat → (Nat → Nat) → Nat → Res (Option Bool × RVector Nat × Nat)) : Prop :=
  ∀ (v : RVector Nat), RVector.Reach dbg64 v → ∀ clone i f s xs x s', vecItems dbg64 v = .ok xs → xs[i]? = some x → clone s x = (none, s') →
    modify v clone i f s = .ok (none, v, s')

/-- It is true of the model. -/
theorem modifyU_safe : CloneSafe fun v clone i f s => v.modifyU dbg64 clone true i f s := by
  intro v hv clone i f s xs x s' h1 h2 h3
  obtain ⟨xs', g1, _, g2, _⟩ := C71_vector_get_mut dbg64 v hv clone true i f s
  rw [h1] at g1
  cases g1
  exact g2 x h2 rfl s' h3

/-- Wrong: takes the last element off and puts the changed one in its place. -/
def takesOut (v : RVector Nat) (clone : Nat → Nat → Option Nat × Nat) (i : Nat) (f : Nat → Nat) (s : Nat) :
    Res (Option Bool × RVector Nat × Nat) := do
  let x ← v.get dbg64 i
  match x with
  | none => pure (some false, v, s)
  | some x =>
    if i + 1 = v.len then
      let w ← v.dropLast dbg64
      match clone s x, w with
      | (some y, s), some w => do
        let w ← w.pushBackMut dbg64 (f y)
        pure (some true, w, s)
      | (_, s), some w => pure (none, w, s)
      | (_, s), none => pure (none, v, s)
    else v.modifyU dbg64 clone true i f s

theorem takesOut_rejected : ¬ CloneSafe takesOut := by
  intro h
  have e := h vec5 vec5_reach (fun s _ => (none, s)) 4 id 0 [1, 2, 3, 4, 5] 5 0 (by decide +kernel) rfl rfl
  have : ((takesOut vec5 (fun s _ => (none, s)) 4 id 0).map fun r => r.2.1.len) = .ok 4 := by decide +kernel
  rw [e] at this
  exact absurd this (by decide +kernel)

end Rpds.Props.Rejects
