import Verif.Heap.RedBlackMap
import Verif.Spec.Ordered
import Verif.Props.RedBlack
/-
`RedBlackTreeMap` and `RedBlackTreeSet` on the heap refine ordered finite maps and sets.
-/
set_option autoImplicit false
namespace Rpds
namespace Spec
open Heap Props
variable {K V Q : Type}

/-- The items of a map in increasing order of the keys. -/
def mapItems (o : OrdKeys K Q) (l : List (K × V)) : List (K × V) := sortBy (fun a b => o.cmpK a.1 b.1 == .lt) l

/-- The bounds `range` panics for. -/
def badRange (o : OrdKeys K Q) : Bound Q → Bound Q → Bool
  | .included s, .included e => o.cmpQ s e == .gt
  | .included s, .excluded e => o.cmpQ s e == .gt
  | .excluded s, .included e => o.cmpQ s e == .gt
  | .excluded s, .excluded e => o.cmpQ s e != .lt
  | _, _ => false

/-- What an ordered finite map answers.  Iterators are specified while the number of items fits in a word (of `W` bits). -/
def ordMapStep (W : Nat) (o : OrdKeys K Q) (l : List (K × V)) : RBOp K V Q → Res (RBRet K V × Effect (List (K × V)))
  | .base op => .ok (.base (mapStep o.same o.hits l op).1, (mapStep o.same o.hits l op).2)
  | .first => .ok (.base (.optKV (mapItems o l).head?), .keep)
  | .last => .ok (.base (.optKV (mapItems o l).getLast?), .keep)
  | .iter cs =>
    if 3 ≤ W ∧ l.length + 1 < 2 ^ W then .ok (.calls l.length (deRun (mapItems o l) cs), .keep) else .error .overflow
  | .range start end_ cs =>
    if badRange o start end_ then .ok (.panicked, .keep)
    else if 3 ≤ W ∧ l.length + 1 < 2 ^ W then
      .ok (.items ((deRun ((mapItems o l).filter fun p => AboveStart o start p.1 && BelowEnd o end_ p.1) cs).map Prod.fst), .keep)
    else .error .overflow

end Spec

namespace Heap
open Spec Props
variable {K V Q : Type} {o : OrdKeys K Q} {Ar : Arch}

theorem mapItems_eq (lo : o.Lawful) {m : RBMap K V} {l : List (K × V)} (r : m.Rep o l) : mapItems o l = m.root.toList := by
  have hlt : ∀ a b c : K × V, (o.cmpK a.1 b.1 == .lt) = true → (o.cmpK b.1 c.1 == .lt) = true → (o.cmpK a.1 c.1 == .lt) = true := by
    intro a b c h1 h2
    simp only [beq_iff_eq] at h1 h2 ⊢
    exact OrdKeys.lt_trans' lo.ordK h1 h2
  have hd : l.Pairwise fun a b : K × V => (o.cmpK a.1 b.1 == .lt) = true ∨ (o.cmpK b.1 a.1 == .lt) = true := by
    refine (r.distinct lo).imp ?_
    intro a b hab
    rw [OrdKeys.same] at hab
    rw [lo.swapK a.1 b.1]
    cases h : o.cmpK a.1 b.1 <;> simp_all
  refine sorted_unique (lt := fun a b => o.cmpK a.1 b.1 == .lt) ?_ ((sortBy_perm _ l).trans r.perm.symm) (sortBy_sorted hd hlt) ?_
  · intro a b hab
    simp only [beq_iff_eq] at hab
    rw [lo.swapK a.1 b.1, hab]; rfl
  · exact r.ok.sorted.imp fun h => by simpa using h

theorem badRange_iff (lo : o.Lawful) (m : RBMap K V) (start end_ : Bound Q) :
    badRange o start end_ = true ↔ m.range o start end_ = .error .assertFailed := by
  rw [(C35_rb_map_range_panics o lo m start end_).1]
  cases start with
  | included s =>
    cases end_ with
    | included e => simp [badRange]
    | excluded e => simp [badRange]
    | unbounded => simp [badRange]
  | excluded s =>
    cases end_ with
    | included e => simp [badRange]
    | excluded e => simp [badRange]; cases o.cmpQ s e <;> simp
    | unbounded => simp [badRange]
  | unbounded => cases end_ <;> simp [badRange]

/-- The value model of the map does what an ordered finite map does. -/
theorem rbMap_stepAll (lo : o.Lawful) {m : RBMap K V} {l : List (K × V)} (hr : m.Rep o l) (op : RBOp K V Q) {x : RBRet K V}
    {f : Effect (List (K × V))} (he : ordMapStep Ar.W o l op = .ok (x, f)) :
    ∃ e, RBMap.stepAll Ar o m op = .ok (x, e) ∧ Effect.Rel (fun m l => m.Rep o l) e f := by
  have hreach := mapItems_eq lo hr
  cases op with
  | base op =>
    obtain ⟨e, h1, h2⟩ := hr.step (A := Ar) lo op
    cases he
    exact ⟨e, by simp [RBMap.stepAll, h1], h2⟩
  | first =>
    cases he
    exact ⟨.keep, by simp [RBMap.stepAll, hr.first, hreach], .keep⟩
  | last =>
    cases he
    exact ⟨.keep, by simp [RBMap.stepAll, hr.last, hreach], .keep⟩
  | iter cs =>
    simp only [ordMapStep] at he
    split at he
    · next hw =>
      cases he
      have hf : RBMap.Fits Ar m := ⟨hw.1, by rw [hr.size]; exact hw.2⟩
      have : deCalls (RBMap.iterNext Ar o) (RBMap.iterNextBack Ar o) (fun it => .ok it.sizeHint) cs m.iter =
          .ok (deRun m.root.toList cs) := by
        have h := hr.iterRel (A := Ar) hf (fun e => (e.1, e.2))
        rw [RBMap.pairFun_eq, List.map_id] at h
        refine deCalls_eq (R := RBIter.MapRel Ar o m (fun e => (e.1, e.2))) ?_ ?_ ?_ cs _ _ h
        · intro s l hs; exact RBIter.mapNext_rel lo hf.word hs
        · intro s l hs; exact RBIter.mapNextBack_rel lo hf.word hs
        · rintro s l ⟨r, rfl, h⟩; simpa [RBIter.sizeHint] using h.size
      refine ⟨.keep, ?_, .keep⟩
      simp only [RBMap.stepAll, this, Res.ok_bind, hreach]
      simp [RBMap.iter, RBIter.new, RBIter.sizeHint, RBMap.getSize, hr.size, pure, Except.pure]
    · cases he
  | range start end_ cs =>
    simp only [ordMapStep] at he
    split at he
    · next hb =>
      cases he
      rw [badRange_iff lo m] at hb
      exact ⟨.keep, by simp [RBMap.stepAll, hb], .keep⟩
    · next hb =>
      split at he
      · next hw =>
        cases he
        have hf : RBMap.Fits Ar m := ⟨hw.1, by rw [hr.size]; exact hw.2⟩
        rw [badRange_iff lo m] at hb
        obtain ⟨it, hit⟩ := ((C35_rb_map_range_panics o lo m start end_).2).resolve_right hb
        have hn : it = RBRangeIter.new m start end_ := by
          have hit := hit
          simp only [RBMap.range] at hit
          split at hit
          · cases hit
          · split at hit
            · cases hit
            · exact (Except.ok.inj hit).symm
        subst hn
        have := RBRangeIter.new_rel (A := Ar) (start := start) (end_ := end_) hr.ok.sorted hf.size
        obtain ⟨it', l', h1, _⟩ := deAnswers_eq (next := RBRangeIter.next Ar o) (nextBack := RBRangeIter.nextBack Ar o)
          (R := fun it rem => RBRangeIter.Rel Ar o m start end_ it rem) (fun s l hs => RBRangeIter.next_rel lo hf.word hs)
          (fun s l hs => RBRangeIter.nextBack_rel lo hf.word hs) cs _ _ this
        refine ⟨.keep, ?_, .keep⟩
        simp only [RBMap.stepAll, hit, h1, Res.ok_bind, hreach, RBRangeIter.rangeList, inRange_eq lo]
        rfl
      · cases he

/-- The heap version of `RedBlackTreeMap` refines an ordered finite map. -/
theorem rbImpl_refines (Ar : Arch) {o : OrdKeys K Q} (lo : o.Lawful) (A : Allocator (RLabel K V)) :
    (rbImpl Ar o : Impl (RLabel K V) _ _ _).Refines A ([] : List (K × V)) (ordMapStep Ar.W o)
      (fun hm l ρ => ∃ m, RBIs o hm m ρ ∧ m.Rep o l) :=
  (rbImpl_refines_model Ar lo A).trans RBMap.new_rep fun _ _ op _ _ hr he => rbMap_stepAll lo hr op he

/-! ### Sets -/

/-- `RedBlackTreeSet<T, P>` is a struct with a `RedBlackTreeMap<T, (), P>` as its only field, and each of its operations is one
operation on that map (red_black_tree_set/mod.rs:94-100, 130-186, 257-278, 286-288). -/
inductive RBSetOp (T Q : Type) where
  | base (op : SetOp T Q)
  | first
  | last
  | iter (cs : List Spec.End)
  | range (start end_ : Bound Q) (cs : List Spec.End)

/-- Answers of operations on sets. -/
inductive RBSetRet (T : Type) where
  | base (r : SetRet T)
  | calls (n : Nat) (rs : List (Option T × Nat))
  | items (rs : List (Option T))
  | panicked
  deriving DecidableEq, Repr

/-- The operation on the map: `insert` (135-141), `remove` (144-158), `get` (161-167), `contains` (170-176), `size`, `is_empty`
(257-265), `clone` (286-288). -/
def setBaseOp {T Q : Type} : SetOp T Q → MapOp T Unit Q
  | .insert v => .insert v ()
  | .insertMut v => .insertMut v ()
  | .remove q => .remove q
  | .removeMut q => .removeMut q
  | .clone => .clone
  | .get q => .getKeyValue q
  | .contains q => .containsKey q
  | .size => .size
  | .isEmpty => .isEmpty

/-- The answer of the set, from the answer of the map. -/
def setBaseRet {T : Type} : MapRet T Unit → SetRet T
  | .bool b => .bool b
  | .nat n => .nat n
  | .optKV x => .opt (x.map fun e => e.1)
  | _ => .unit

/-- `first`, `last` (179-186), `iter` (267-269, with `Iter` of line 12: the keys of the map), `range` (271-278). -/
def rbSetOp {T Q : Type} : RBSetOp T Q → RBOp T Unit Q
  | .base op => .base (setBaseOp op)
  | .first => .first
  | .last => .last
  | .iter cs => .iter cs
  | .range start end_ cs => .range start end_ cs

/-- The answer of the set, from the answer of the map. -/
def rbSetRet {T : Type} : RBRet T Unit → RBSetRet T
  | .base r => .base (setBaseRet r)
  | .calls n rs => .calls n (rs.map fun x => (x.1.map fun e => e.1, x.2))
  | .items rs => .items (rs.map fun x => x.map fun e => e.1)
  | .panicked => .panicked

/-- `RedBlackTreeSet` for clients. -/
def rbSetImpl {T Q : Type} (Ar : Arch) (o : OrdKeys T Q) : Impl (RLabel T Unit) HRBMap (RBSetOp T Q) (RBSetRet T) :=
  (rbImpl Ar o).adapt rbSetOp rbSetRet

end Heap

namespace Spec
open Heap Props
variable {T Q : Type}

/-- The elements in increasing order. -/
def setItems (o : OrdKeys T Q) (l : List T) : List T := sortBy (fun a b => o.cmpK a b == .lt) l

/-- What an ordered finite set answers. -/
def ordSetStep (W : Nat) (o : OrdKeys T Q) (l : List T) : RBSetOp T Q → Res (RBSetRet T × Effect (List T))
  | .base op => .ok (.base (setStep o.same o.hits l op).1, (setStep o.same o.hits l op).2)
  | .first => .ok (.base (.opt (setItems o l).head?), .keep)
  | .last => .ok (.base (.opt (setItems o l).getLast?), .keep)
  | .iter cs =>
    if 3 ≤ W ∧ l.length + 1 < 2 ^ W then .ok (.calls l.length (deRun (setItems o l) cs), .keep) else .error .overflow
  | .range start end_ cs =>
    if badRange o start end_ then .ok (.panicked, .keep)
    else if 3 ≤ W ∧ l.length + 1 < 2 ^ W then
      .ok (.items ((deRun ((setItems o l).filter fun v => AboveStart o start v && BelowEnd o end_ v) cs).map Prod.fst), .keep)
    else .error .overflow

theorem insertBy_map {α β : Type} {lt : α → α → Bool} {lt' : β → β → Bool} (f : α → β) (h : ∀ a b, lt' (f a) (f b) = lt a b) (a : α)
    (l : List α) : insertBy lt' (f a) (l.map f) = (insertBy lt a l).map f := by
  induction l with
  | nil => rfl
  | cons b l ih =>
    simp only [insertBy, List.map_cons, h, ih]
    split <;> rfl

theorem sortBy_map {α β : Type} {lt : α → α → Bool} {lt' : β → β → Bool} (f : α → β) (h : ∀ a b, lt' (f a) (f b) = lt a b)
    (l : List α) : sortBy lt' (l.map f) = (sortBy lt l).map f := by
  induction l with
  | nil => rfl
  | cons a l ih =>
    have : sortBy lt' ((a :: l).map f) = insertBy lt' (f a) (sortBy lt' (l.map f)) := rfl
    rw [this, ih, insertBy_map f h]
    rfl

theorem deRun_map {α β : Type} (f : α → β) (l : List α) (cs : List End) :
    deRun (l.map f) cs = (deRun l cs).map fun x => (x.1.map f, x.2) := by
  induction cs generalizing l with
  | nil => rfl
  | cons c cs ih => cases c <;> simp [deRun, deStep, ih, ← List.map_tail, ← List.map_dropLast]

end Spec

namespace Heap
open Spec Props
variable {T Q : Type}

theorem setItems_eq (o : OrdKeys T Q) (l : List T) : mapItems o (unitPairs l) = unitPairs (setItems o l) :=
  sortBy_map (fun v => (v, ())) (fun _ _ => rfl) l

/-- The map of a set does what the set does. -/
theorem ordMap_set (W : Nat) {o : OrdKeys T Q} (l : List T) (op : RBSetOp T Q) {x : RBSetRet T} {f : Effect (List T)}
    (he : ordSetStep W o l op = .ok (x, f)) : ∃ y g, ordMapStep W o (unitPairs l) (rbSetOp op) = .ok (y, g) ∧ rbSetRet y = x ∧
      Effect.Rel (fun m s => m = unitPairs s) g f := by
  have hlen : (unitPairs l).length = l.length := by simp [unitPairs]
  cases op with
  | base op =>
    cases he
    refine ⟨_, _, rfl, ?_⟩
    cases op with
    | insert v => exact ⟨rfl, .fresh (unitPairs_insert ..)⟩
    | insertMut v => exact ⟨rfl, .update (unitPairs_insert ..)⟩
    | remove q => exact ⟨rfl, .fresh (unitPairs_remove ..)⟩
    | removeMut q => exact ⟨by simp [setBaseOp, mapStep, setStep, rbSetRet, setBaseRet, unitPairs_get], .update (unitPairs_remove ..)⟩
    | clone => exact ⟨rfl, .fresh rfl⟩
    | get q =>
      refine ⟨?_, .keep⟩
      simp only [setBaseOp, mapStep, setStep, rbSetRet, setBaseRet, unitPairs_get]
      cases setGet o.hits l q <;> rfl
    | contains q => exact ⟨by simp [setBaseOp, mapStep, setStep, rbSetRet, setBaseRet, unitPairs_get], .keep⟩
    | size => exact ⟨by simp [setBaseOp, mapStep, setStep, rbSetRet, setBaseRet, hlen], .keep⟩
    | isEmpty => exact ⟨by simp [setBaseOp, mapStep, setStep, rbSetRet, setBaseRet, unitPairs], .keep⟩
  | first =>
    cases he
    exact ⟨_, _, rfl, by rw [setItems_eq]; simp [rbSetRet, setBaseRet, unitPairs, Function.comp_def], .keep⟩
  | last =>
    cases he
    exact ⟨_, _, rfl, by rw [setItems_eq]; simp [rbSetRet, setBaseRet, unitPairs, Function.comp_def], .keep⟩
  | iter cs =>
    simp only [ordSetStep] at he
    split at he
    · next hw =>
      cases he
      refine ⟨.calls l.length (deRun (mapItems o (unitPairs l)) cs), .keep, ?_, ?_, .keep⟩
      · simp only [rbSetOp, ordMapStep, hlen, if_pos hw]
      · rw [setItems_eq]; simp [rbSetRet, unitPairs, deRun_map, Function.comp_def]
    · cases he
  | range start end_ cs =>
    simp only [ordSetStep] at he
    split at he
    · next hb =>
      cases he
      exact ⟨.panicked, .keep, by simp [rbSetOp, ordMapStep, hb], rfl, .keep⟩
    · next hb =>
      split at he
      · next hw =>
        cases he
        refine ⟨.items ((deRun ((mapItems o (unitPairs l)).filter fun p => AboveStart o start p.1 && BelowEnd o end_ p.1) cs).map
          Prod.fst), .keep, ?_, ?_, .keep⟩
        · simp only [rbSetOp, ordMapStep, hlen, if_pos hw, if_neg hb]
        · rw [setItems_eq]; simp [rbSetRet, unitPairs, deRun_map, List.filter_map, Function.comp_def]
      · cases he

/-- The heap version of `RedBlackTreeSet` refines an ordered finite set. -/
theorem rbSetImpl_refines (Ar : Arch) {o : OrdKeys T Q} (lo : o.Lawful) (A : Allocator (RLabel T Unit)) :
    (rbSetImpl Ar o).Refines A ([] : List T) (ordSetStep Ar.W o)
      (fun hm l ρ => ∃ s, (∃ m, RBIs o hm m ρ ∧ m.Rep o s) ∧ s = unitPairs l) := by
  refine ((rbImpl_refines Ar lo A).adapt rbSetOp rbSetRet).trans (S := fun s l => s = unitPairs l) rfl ?_
  rintro _ l op x f rfl he
  obtain ⟨y, g, h1, h2, h3⟩ := ordMap_set Ar.W l op he
  exact ⟨g, by simp [h1, h2], h3⟩

end Heap
end Rpds
