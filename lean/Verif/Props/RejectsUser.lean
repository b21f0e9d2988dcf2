import Verif.Props.Ask
import Verif.Props.Sink
/-
Wrong programs for which the statements of C67 and C68 are false.
-/
set_option autoImplicit false
namespace Rpds.Props.Rejects
open Spec Ask

/-! ### C67 -/

abbrev ToText := Emit String Unit

/-- What C67 says of displaying lists, for some way of doing so. -/
def ListDisplays (display : (String → ToText) → (Nat → ToText) → RList Nat → ToText) : Prop :=
  ∀ write fmt (l : RList Nat), RList.Reach l → ∃ xs, listItems l = .ok xs ∧
    display write fmt l = runAll (pieces write "[" "]" (xs.map fun x => [fmt x]))

/-- It is true of the model. -/
theorem displayTo_displays : ListDisplays RList.displayTo := fun write fmt => (C67_sequences_display dbg64 write fmt).1

/-- The list `[1, 2, 3]`. -/
theorem list3 : RList.Reach (RList.fromIter [1, 2, 3]) ∧ listItems (RList.fromIter [1, 2, 3]) = .ok [1, 2, 3] :=
  ⟨.init (.fromIter _), by decide +kernel⟩

/-- A way of displaying that does something else with `[1, 2, 3]` than is said is rejected. -/
theorem display_rejected {display : (String → ToText) → (Nat → ToText) → RList Nat → ToText} (write : String → ToText) (fmt : Nat → ToText)
    (h : display write fmt (RList.fromIter [1, 2, 3]) "" ≠ runAll (pieces write "[" "]" [[fmt 1], [fmt 2], [fmt 3]]) "") :
    ¬ ListDisplays display := by
  intro hd
  obtain ⟨xs, h1, h2⟩ := hd write fmt _ list3.1
  obtain rfl : [1, 2, 3] = xs := Except.ok.inj (list3.2.symm.trans h1)
  exact h (by rw [h2]; rfl)

/-- Wrong: a separator after each item. -/
def separatesAfter (write : String → ToText) (fmt : Nat → ToText) (l : RList Nat) : ToText :=
  Emit.andThen (write "[") (Emit.andThen
    (fun s => serializeLoop ListIter.step (fun x => Emit.andThen (fmt x) (write ", ")) (l.length + 1) l.iter s) (write "]"))

theorem separatesAfter_rejected : ¬ ListDisplays separatesAfter :=
  display_rejected (smallBuffer 99) (fun x => smallBuffer 99 (toString x)) (by decide +kernel)

/-- Wrong: goes on when an item cannot be displayed. -/
def skipsFailing (write : String → ToText) (fmt : Nat → ToText) (l : RList Nat) : ToText :=
  l.displayTo write fun x s => (fmt x s).map fun r => (.ok (), r.2)

theorem skipsFailing_rejected : ¬ ListDisplays skipsFailing :=
  display_rejected (smallBuffer 99) (fun _ s => .ok (.error (), s)) (by decide +kernel)

/-- Wrong: writes the closing delimiter also after a failure, and then returns the error. -/
def closesAlways (write : String → ToText) (fmt : Nat → ToText) (l : RList Nat) : ToText := fun s => do
  match ← Emit.andThen (write "[") (fun s => displayLoop ListIter.step write fmt (l.length + 1) l.iter true s) s with
  | (.ok (), s) => write "]" s
  | (.error e, s) => do let r ← write "]" s; pure (.error e, r.2)

theorem closesAlways_rejected : ¬ ListDisplays closesAlways :=
  display_rejected (smallBuffer 99) (fun _ s => .ok (.error (), s)) (by decide +kernel)

/-- Wrong: displays into a text of its own and hands that over at the end, so that the items do not see the formatter. -/
def buffersFirst (write : String → ToText) (fmt : Nat → ToText) (l : RList Nat) : ToText := fun s => do
  match ← l.displayTo (fun t s => pure (.ok (), s ++ t)) fmt "" with
  | (.ok (), t) => write t s
  | (.error e, _) => pure (.error e, s)

theorem buffersFirst_rejected : ¬ ListDisplays buffersFirst :=
  display_rejected (smallBuffer 4) (fun x => smallBuffer 4 (toString x)) (by decide +kernel)

/-- What C67 says of serializing lists. -/
def ListSerializes (serialize : (Option Nat → ToText) → (Nat → ToText) → ToText → RList Nat → ToText) : Prop :=
  ∀ start elem finish (l : RList Nat), RList.Reach l → ∃ xs, listItems l = .ok xs ∧
    serialize start elem finish l = runAll (start (some xs.length) :: xs.map elem ++ [finish])

/-- It is true of the model. -/
theorem serializeTo_serializes : ListSerializes RList.serializeTo :=
  fun start elem finish => (C67_serialize (K := Nat) (V := Nat) (H := Nat) (Q := Nat) dbg64 start finish elem fun _ => finish).1

theorem serialize_rejected {serialize : (Option Nat → ToText) → (Nat → ToText) → ToText → RList Nat → ToText} (start : Option Nat → ToText)
    (elem : Nat → ToText) (finish : ToText) (h : serialize start elem finish (RList.fromIter [1, 2, 3]) "" ≠
      runAll [start (some 3), elem 1, elem 2, elem 3, finish] "") : ¬ ListSerializes serialize := by
  intro hd
  obtain ⟨xs, h1, h2⟩ := hd start elem finish _ list3.1
  obtain rfl : [1, 2, 3] = xs := Except.ok.inj (list3.2.symm.trans h1)
  exact h (by rw [h2]; rfl)

/-- A serializer that writes down what it is asked. -/
def notesStart (n : Option Nat) : ToText := smallBuffer 99 (match n with | some n => "start " ++ toString n ++ ";" | none => "start;")
def notesElem (x : Nat) : ToText := smallBuffer 99 (toString x ++ ";")
def notesEnd : ToText := smallBuffer 99 "end"

/-- Wrong: does not announce the length. -/
def announcesNothing (start : Option Nat → ToText) (elem : Nat → ToText) (finish : ToText) (l : RList Nat) : ToText :=
  collectEmit ListIter.step start elem finish (l.length + 1) l.iter none

theorem announcesNothing_rejected : ¬ ListSerializes announcesNothing :=
  serialize_rejected notesStart notesElem notesEnd (by decide +kernel)

/-- Wrong: ends the sequence also after a failure. -/
def endsAlways (start : Option Nat → ToText) (elem : Nat → ToText) (finish : ToText) (l : RList Nat) : ToText := fun s => do
  match ← Emit.andThen (start (some l.length)) (fun s => serializeLoop ListIter.step elem (l.length + 1) l.iter s) s with
  | (.ok (), s) => finish s
  | (.error e, s) => do let r ← finish s; pure (.error e, r.2)

theorem endsAlways_rejected : ¬ ListSerializes endsAlways :=
  serialize_rejected notesStart (fun _ s => .ok (.error (), s)) notesEnd (by decide +kernel)

/-! ### C68 -/

/-- For counting: what is computed from two collected sets is computed from reachable sets that fit. -/
theorem twoSets {β : Type} (xs ys : List Nat) (f : RBSet Nat → RBSet Nat → Res β) (b : β)
    (h : (RBSet.fromIter exUsual xs).bind (fun s => (RBSet.fromIter exUsual ys).bind fun t =>
      if s.size < 100 ∧ t.size < 100 then f s t else .error .diverge) = .ok b) :
    ∃ s t, RBSetReachAny dbg64 Nat s ∧ RBSetReachAny dbg64 Nat t ∧ RBMap.Fits dbg64 s.map ∧ RBMap.Fits dbg64 t.map ∧ f s t = .ok b := by
  cases hs : RBSet.fromIter exUsual xs with
  | error e => rw [hs] at h; cases h
  | ok s =>
    cases ht : RBSet.fromIter exUsual ys with
    | error e => rw [hs, ht] at h; cases h
    | ok t =>
      rw [hs, ht] at h
      simp only [Except.bind] at h
      split at h
      · rename_i hl
        have hf : ∀ u : RBSet Nat, u.size < 100 → RBMap.Fits dbg64 u.map :=
          fun u hu => ⟨by decide, Nat.lt_of_lt_of_le (by simp only [RBSet.size, RBMap.getSize] at hu; omega : u.map.size + 1 < 200) (by decide)⟩
        exact ⟨s, t, .init ⟨exUsual, .fromIter hs⟩, .init ⟨exUsual, .fromIter ht⟩, hf s hl.1, hf t hl.2, h⟩
      · cases h

/-- The calls counted by `exCalls` are among those that `CallsAtMost` bounds. -/
theorem exCalls_le {α : Type} {n : Nat} {x : RBAsk Nat Unit Nat α} (h : CallsAtMost anyCall n x) : (exCalls anyCall exUsual x).2 ≤ n := by
  have h1 := (h Unit (fun u i => (some (RBQuestion.answer exUsual (fun _ _ => true) (fun _ _ => .eq) i), u)) ()).2
  have h2 : ∀ (x : RBAsk Nat Unit Nat α) c, (x.runState (fun (s : Unit × Nat) i =>
      (some (RBQuestion.answer exUsual (fun _ _ => true) (fun _ _ => .eq) i), s.1, if anyCall i then s.2 + 1 else s.2)) ((), c)).2.2 =
      (x.runState (fun (n : Nat) i => (some (RBQuestion.answer exUsual (fun _ _ => true) (fun _ _ => .eq) i), if anyCall i then n + 1 else n)) c).2 := by
    intro x
    induction x with
    | ret r => intro c; rfl
    | ask i k ih => intro c; exact ih _ _
  rw [h2] at h1
  exact h1

/-- What C68 says of the calls of `is_disjoint`. -/
def DisjointCalls (disjoint : RBSet Nat → RBSet Nat → RBAsk Nat Unit Nat Bool) : Prop :=
  ∀ s t, RBSetReachAny dbg64 Nat s → RBSetReachAny dbg64 Nat t → RBMap.Fits dbg64 s.map → RBMap.Fits dbg64 t.map →
    CallsAtMost anyCall (s.size + t.size - 1) (disjoint s t)

/-- It is true of the model. -/
theorem isDisjointA_calls : DisjointCalls (RBSet.isDisjointA dbg64) :=
  fun s t hs ht hf hf' => (C68_rb_set dbg64 s t hs ht hf hf').2.2.2.1

/-- Wrong: looks each element up in the other set. -/
def looksUp (s t : RBSet Nat) : RBAsk Nat Unit Nat Bool :=
  iterAllA (RBSet.iterNextA dbg64) (fun x => do
    match ← t.map.root.getA x with
    | none => pure true
    | some _ => pure false) (s.size + 1) s.iter

theorem looksUp_rejected : ¬ DisjointCalls looksUp := by
  intro h
  obtain ⟨s, t, hs, ht, hf, hf', e⟩ := twoSets [1, 3, 5, 7, 9, 11, 13] [2, 4, 6, 8, 10, 12, 14]
    (fun s t => .ok (s.size, t.size, (exCalls anyCall exUsual (looksUp s t)).2)) (7, 7, 21) (by decide +kernel)
  simp only [Except.ok.injEq, Prod.mk.injEq] at e
  have := exCalls_le (h s t hs ht hf hf')
  omega

/-- What C68 says of the calls of `cmp` of sets. -/
def CmpCalls (cmp : RBSet Nat → RBSet Nat → RBAsk Nat Unit Nat Ordering) : Prop :=
  ∀ s t, RBSetReachAny dbg64 Nat s → RBSetReachAny dbg64 Nat t → RBMap.Fits dbg64 s.map → RBMap.Fits dbg64 t.map →
    CallsAtMost anyCall (min s.size t.size) (cmp s t)

/-- It is true of the model. -/
theorem cmpA_calls : CmpCalls (RBSet.cmpA dbg64) :=
  fun s t hs ht hf hf' => (C68_rb_set_compare dbg64 s t hs ht hf hf').2.2.2.2.2.1

/-- Wrong: asks `a < b` and then `a == b`. -/
def cmpTwice (s t : RBSet Nat) : RBAsk Nat Unit Nat Ordering :=
  iterCmpA (RBSet.iterNextA dbg64) (fun a b => do
    match ← askKeys a b with
    | .lt => pure .lt
    | _ => askKeys a b) (s.size + 1) s.iter t.iter

theorem cmpTwice_rejected : ¬ CmpCalls cmpTwice := by
  intro h
  obtain ⟨s, t, hs, ht, hf, hf', e⟩ := twoSets [1, 2] [1, 2]
    (fun s t => .ok (s.size, t.size, (exCalls anyCall exUsual (cmpTwice s t)).2)) (2, 2, 4) (by decide +kernel)
  simp only [Except.ok.injEq, Prod.mk.injEq] at e
  have := exCalls_le (h s t hs ht hf hf')
  omega

/-- What C68 says of the calls of `==` of sets of different sizes. -/
def EqCalls (eq : Bool → RBSet Nat → RBSet Nat → RBAsk Nat Unit Nat Bool) : Prop :=
  ∀ s t, RBSetReachAny dbg64 Nat s → RBSetReachAny dbg64 Nat t → RBMap.Fits dbg64 s.map → RBMap.Fits dbg64 t.map →
    ∀ same, same = true ∨ s.size ≠ t.size → CallsAtMost anyCall 0 (eq same s t)

/-- It is true of the model. -/
theorem eqA_calls : EqCalls (RBSet.eqA dbg64) :=
  fun s t hs ht hf hf' => (C68_rb_set_compare dbg64 s t hs ht hf hf').2.2.2.2.1

/-- Wrong: compares the elements first and the sizes afterwards. -/
def sizesLast (same : Bool) (s t : RBSet Nat) : RBAsk Nat Unit Nat Bool :=
  if same then pure true else do
    let all ← iterAllA (RBSet.iterNextA dbg64) (fun x => do
      match ← t.map.root.getA x with
      | none => pure false
      | some _ => pure true) (s.size + 1) s.iter
    pure (all && s.size == t.size)

theorem sizesLast_rejected : ¬ EqCalls sizesLast := by
  intro h
  obtain ⟨s, t, hs, ht, hf, hf', e⟩ := twoSets [1, 2] [1, 2, 3]
    (fun s t => .ok (s.size, t.size, (exCalls anyCall exUsual (sizesLast false s t)).2)) (2, 3, 3) (by decide +kernel)
  simp only [Except.ok.injEq, Prod.mk.injEq] at e
  have := exCalls_le (h s t hs ht hf hf' false (.inr (by omega)))
  omega

/-- Wrong: does not look at the addresses. -/
def noAddresses (_ : Bool) (s t : RBSet Nat) : RBAsk Nat Unit Nat Bool := s.eqA dbg64 false t

theorem noAddresses_rejected : ¬ EqCalls noAddresses := by
  intro h
  obtain ⟨s, t, hs, ht, hf, hf', e⟩ := twoSets [1, 2] [1, 2]
    (fun s t => .ok ((exCalls anyCall exUsual (noAddresses true s t)).2)) 5 (by decide +kernel)
  simp only [Except.ok.injEq] at e
  have := exCalls_le (h s t hs ht hf hf' true (.inl rfl))
  omega

end Rpds.Props.Rejects
