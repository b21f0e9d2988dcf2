import Verif.Spec.Seq
/-
Invariant and refinement of the `List` model.
-/
set_option autoImplicit false
namespace Rpds

/-- The values along the chain of nodes. -/
def Link.toList {T : Type} : Link T → List T
  | .none => []
  | .some v n => v :: n.toList

/-- The list represents the sequence `xs`: nodes, cached last element and cached length all agree with it. -/
structure RList.Rep {T : Type} (l : RList T) (xs : List T) : Prop where
  head : l.head.toList = xs
  last : l.last = xs.getLast?
  length : l.length = xs.length

/-- The iterator has exactly the items `xs` left. -/
structure ListIter.Rep {T : Type} (it : ListIter T) (xs : List T) : Prop where
  next : it.next.toList = xs
  length : it.length = xs.length

variable {T : Type}

theorem Link.toList_eq_nil {l : Link T} (h : l.toList = []) : l = .none := by
  cases l <;> simp_all [Link.toList]

theorem Link.toList_eq_cons {l : Link T} {x : T} {xs : List T} (h : l.toList = x :: xs) :
    ∃ n, l = .some x n ∧ n.toList = xs := by
  cases l <;> simp_all [Link.toList]

namespace ListIter

theorem Rep.step_nil {it : ListIter T} (h : it.Rep []) : ∃ it', it.step = .ok (none, it') ∧ it'.Rep [] := by
  have := Link.toList_eq_nil h.next
  exact ⟨it, by simp [step, this], h⟩

theorem Rep.step_cons {it : ListIter T} {x : T} {xs : List T} (h : it.Rep (x :: xs)) :
    ∃ it', it.step = .ok (some x, it') ∧ it'.Rep xs := by
  obtain ⟨n, hn, hxs⟩ := Link.toList_eq_cons h.next
  refine ⟨⟨n, xs.length⟩, ?_, ⟨hxs, rfl⟩⟩
  simp [step, hn, h.length]

theorem Rep.drives {it : ListIter T} {xs : List T} (h : it.Rep xs) : Drives ListIter.step it xs :=
  drives_of_rel (R := Rep) (fun _ h => h.step_nil) (fun _ _ _ h => h.step_cons) _ _ h

theorem Rep.calls {it : ListIter T} {xs : List T} (h : it.Rep xs) (n : Nat) :
    fwCalls ListIter.step ListIter.sizeHint n it = .ok (Spec.fwRun xs n) :=
  fwCalls_eq (R := Rep) (fun _ h => h.step_nil) (fun _ _ _ h => h.step_cons) (fun _ _ h => h.length) _ _ _ h

end ListIter

namespace RList

theorem rep_new : (new : RList T).Rep [] := ⟨rfl, rfl, rfl⟩

theorem Rep.iter {l : RList T} {xs : List T} (h : l.Rep xs) : l.iter.Rep xs := ⟨h.head, h.length⟩

theorem Rep.clone {l : RList T} {xs : List T} (h : l.Rep xs) : l.clone.Rep xs := ⟨h.head, h.last, h.length⟩

theorem Rep.pushFrontPtrMut {l : RList T} {xs : List T} (h : l.Rep xs) (v : T) : (l.pushFrontPtrMut v).Rep (v :: xs) := by
  refine ⟨by simp [RList.pushFrontPtrMut, Link.toList, h.head], ?_, by simp [RList.pushFrontPtrMut, h.length]⟩
  cases xs with
  | nil => simp [RList.pushFrontPtrMut, h.length]
  | cons x xs => simp [RList.pushFrontPtrMut, h.length, h.last, List.getLast?_cons]

theorem Rep.pushFrontMut {l : RList T} {xs : List T} (h : l.Rep xs) (v : T) : (l.pushFrontMut v).Rep (v :: xs) :=
  h.pushFrontPtrMut v

theorem Rep.pushFront {l : RList T} {xs : List T} (h : l.Rep xs) (v : T) : (l.pushFront v).Rep (v :: xs) :=
  h.clone.pushFrontMut v

theorem Rep.first {l : RList T} {xs : List T} (h : l.Rep xs) : l.first = xs.head? := by
  have := h.head
  cases hh : l.head <;> simp_all [RList.first, Link.toList] <;> subst this <;> simp

theorem Rep.getLast {l : RList T} {xs : List T} (h : l.Rep xs) : l.getLast = xs.getLast? := h.last
theorem Rep.len {l : RList T} {xs : List T} (h : l.Rep xs) : l.len = xs.length := h.length
theorem Rep.isEmpty {l : RList T} {xs : List T} (h : l.Rep xs) : l.isEmpty = xs.isEmpty := by
  cases xs <;> simp [RList.isEmpty, h.len]

theorem Rep.dropFirstMut_nil {l : RList T} (h : l.Rep []) : l.dropFirstMut = .ok (false, l) := by
  have := Link.toList_eq_nil h.head
  cases l; simp_all [RList.dropFirstMut]

theorem Rep.dropFirstMut_cons {l : RList T} {x : T} {xs : List T} (h : l.Rep (x :: xs)) :
    ∃ l', l.dropFirstMut = .ok (true, l') ∧ l'.Rep xs := by
  obtain ⟨n, hn, hxs⟩ := Link.toList_eq_cons h.head
  refine ⟨_, by simp [RList.dropFirstMut, hn, h.length]; rfl, ⟨hxs, ?_, rfl⟩⟩
  cases xs <;> simp [h.last]

theorem Rep.reverse {l : RList T} {xs : List T} (h : l.Rep xs) : ∃ l', l.reverse = .ok l' ∧ l'.Rep xs.reverse := by
  have key : ∀ (ys zs : List T) (a : RList T), a.Rep zs →
      (ys.foldl (fun n v => n.pushFrontPtrMut v) a).Rep (ys.reverse ++ zs) := by
    intro ys
    induction ys with
    | nil => intro zs a ha; simpa using ha
    | cons y ys ih => intro zs a ha; simpa using ih (y :: zs) _ (ha.pushFrontPtrMut y)
  refine ⟨_, h.iter.drives.iterFold (fun _ => True) (fun _ _ _ => trivial) (fun a x _ => rfl) _ trivial
    (by simp [h.length]), ?_⟩
  simpa using key xs [] new rep_new

theorem reverseLoop_toList (prev cur : Link T) : (reverseLoop prev cur).toList = cur.toList.reverse ++ prev.toList := by
  induction cur generalizing prev with
  | none => simp [reverseLoop, Link.toList]
  | some v n ih => simp [reverseLoop, Link.toList, ih]

theorem Rep.reverseMut {l : RList T} {xs : List T} (h : l.Rep xs) : l.reverseMut.Rep xs.reverse := by
  refine ⟨by simp [RList.reverseMut, reverseLoop_toList, Link.toList, h.head], ?_,
    by simp [RList.reverseMut, h.length]⟩
  have := h.first
  simpa [RList.reverseMut, RList.first] using this

theorem foldl_snoc {α : Type} (xs acc : List α) : xs.foldl (fun v e => v ++ [e]) acc = acc ++ xs := by
  induction xs generalizing acc with
  | nil => simp
  | cons x xs ih => simp [ih]

theorem rep_foldl_push (ys zs : List T) (a : RList T) (ha : a.Rep zs) :
    (ys.foldl (fun l e => l.pushFrontMut e) a).Rep (ys.reverse ++ zs) := by
  induction ys generalizing zs a with
  | nil => simpa using ha
  | cons y ys ih => simpa using ih (y :: zs) _ (ha.pushFrontMut y)

theorem rep_fromIter (xs : List T) : (fromIter xs).Rep xs := by
  have := rep_foldl_push xs.reverse [] new rep_new
  simp only [fromIter, foldl_snoc, List.nil_append]
  simpa using this

theorem rep_listReverseMacro (xs ys : List T) : (listReverseMacro xs ys).Rep (ys.reverse ++ xs) := by
  induction xs generalizing ys with
  | nil => simpa [listReverseMacro] using rep_foldl_push ys [] new rep_new
  | cons x xs ih => simpa [listReverseMacro] using ih (x :: ys)

theorem rep_listMacro (xs : List T) : (listMacro xs).Rep xs := by
  simpa [listMacro] using rep_listReverseMacro xs []

theorem visitLoop_eq {E : Type} (seq : List (Except E T)) (acc : List T) :
    visitLoop seq acc = match Spec.collectExcept seq with
      | .ok l => .ok (acc ++ l)
      | .error e => .error e := by
  induction seq generalizing acc with
  | nil => simp [visitLoop, Spec.collectExcept]
  | cons x s ih =>
    cases x with
    | error e => simp [visitLoop, Spec.collectExcept]
    | ok v =>
      simp only [visitLoop, Spec.collectExcept, ih]
      cases Spec.collectExcept s <;> simp

theorem rep_deserialize {E : Type} (seq : List (Except E T)) :
    match Spec.collectExcept seq with
    | .ok xs => ∃ l, deserialize seq = .ok l ∧ l.Rep xs
    | .error e => deserialize seq = .error e := by
  simp only [deserialize, visitLoop_eq]
  cases h : Spec.collectExcept seq with
  | error e => rfl
  | ok xs =>
    refine ⟨_, rfl, ?_⟩
    simpa using rep_foldl_push xs.reverse [] new rep_new

theorem Rep.serialize {l : RList T} {xs : List T} (h : l.Rep xs) : l.serialize = .ok xs :=
  h.iter.drives.drain (by simp [h.length])

theorem Rep.step {l : RList T} {xs : List T} (h : l.Rep xs) (op : Op T) :
    ∃ e, l.step op = .ok ((Spec.listStep xs op).1, e) ∧ Effect.Rel Rep e (Spec.listStep xs op).2 := by
  cases op with
  | pushFront v => exact ⟨_, rfl, .fresh (h.pushFront v)⟩
  | pushFrontMut v => exact ⟨_, rfl, .update (h.pushFrontMut v)⟩
  | dropFirst =>
    cases xs with
    | nil =>
      refine ⟨_, ?_, .keep⟩
      simp [RList.step, RList.dropFirst, h.clone.dropFirstMut_nil, Spec.listStep]
    | cons x xs =>
      obtain ⟨l', h1, h2⟩ := h.clone.dropFirstMut_cons
      refine ⟨.fresh l', ?_, .fresh h2⟩
      simp [RList.step, RList.dropFirst, h1, Spec.listStep]
  | dropFirstMut =>
    cases xs with
    | nil => exact ⟨.update l, by simp [RList.step, h.dropFirstMut_nil, Spec.listStep], .update h⟩
    | cons x xs =>
      obtain ⟨l', h1, h2⟩ := h.dropFirstMut_cons
      exact ⟨.update l', by simp [RList.step, h1, Spec.listStep], .update h2⟩
  | reverse =>
    obtain ⟨l', h1, h2⟩ := h.reverse
    exact ⟨.fresh l', by simp [RList.step, h1, Spec.listStep], .fresh h2⟩
  | reverseMut => exact ⟨_, rfl, .update h.reverseMut⟩
  | clone => exact ⟨_, rfl, .fresh h.clone⟩
  | first => exact ⟨.keep, by simp [RList.step, h.first, Spec.listStep], .keep⟩
  | last => exact ⟨.keep, by simp [RList.step, h.getLast, Spec.listStep], .keep⟩
  | len => exact ⟨.keep, by simp [RList.step, h.len, Spec.listStep], .keep⟩
  | isEmpty => exact ⟨.keep, by simp [RList.step, h.isEmpty, Spec.listStep], .keep⟩
  | iter n =>
    exact ⟨.keep, by simp [RList.step, h.iter.calls, Spec.listStep, h.iter.length, ListIter.sizeHint], .keep⟩

theorem Rep.eq {a b : RList T} {xs ys : List T} (ha : a.Rep xs) (hb : b.Rep ys) (eqT : T → T → Bool) :
    a.eq eqT b = .ok (Spec.seqEq eqT xs ys) := by
  simp only [RList.eq, ha.length, hb.length]
  split
  · exact ha.iter.drives.iterEq hb.iter.drives (by omega)
  · rename_i hne
    have : Spec.seqEq eqT xs ys = false := by
      cases h : Spec.seqEq eqT xs ys
      · rfl
      · exact absurd (Spec.seqEq_length h) (by simpa using hne)
    simp [this]

theorem Rep.partialCmp {a b : RList T} {xs ys : List T} (ha : a.Rep xs) (hb : b.Rep ys) (c : T → T → Option Ordering) :
    a.partialCmp c b = .ok (Spec.lexPartialCmp c xs ys) := by
  simp only [RList.partialCmp, ha.length]
  exact ha.iter.drives.iterPartialCmp hb.iter.drives (by omega)

theorem Rep.cmp {a b : RList T} {xs ys : List T} (ha : a.Rep xs) (hb : b.Rep ys) (c : T → T → Ordering) :
    a.cmp c b = .ok (Spec.lexCmp c xs ys) := by
  simp only [RList.cmp, ha.length]
  exact ha.iter.drives.iterCmp hb.iter.drives (by omega)

theorem Rep.hash {S : Type} {a : RList T} {xs : List T} (ha : a.Rep xs) (hl : S → Nat → S) (ht : S → T → S) (st : S) :
    a.hash hl ht st = .ok (xs.foldl ht (hl st xs.length)) := by
  simp only [RList.hash, ha.length, ha.len]
  exact ha.iter.drives.iterHash _ (by omega)

theorem Rep.display {a : RList T} {xs : List T} (ha : a.Rep xs) (fmt : T → String) :
    a.display fmt = .ok (Spec.bracketed "[" "]" (xs.map fmt)) := by
  simp only [RList.display, ha.length]
  rw [ha.iter.drives.iterDisplay _ (by omega)]
  rfl

/-- The ways of creating a list without another list. -/
inductive Init : RList T → Prop where
  | new : Init new
  | fromIter (xs : List T) : Init (fromIter xs)
  | macro (xs : List T) : Init (listMacro xs)
  | deserialize {E : Type} (seq : List (Except E T)) (l : RList T) : deserialize seq = .ok l → Init l

/-- All lists a program can obtain. -/
abbrev Reach (l : RList T) : Prop := Reachable Init step l

theorem Init.rep {l : RList T} (hs : Init l) : ∃ xs, l.Rep xs := by
  cases hs with
  | new => exact ⟨_, rep_new⟩
  | fromIter xs => exact ⟨_, rep_fromIter xs⟩
  | «macro» xs => exact ⟨_, rep_listMacro xs⟩
  | deserialize seq _ hd =>
    have := rep_deserialize seq
    split at this
    · obtain ⟨l, h1, h2⟩ := this; rw [hd] at h1; cases h1; exact ⟨_, h2⟩
    · rw [hd] at this; cases this

theorem Reach.rep {l : RList T} (h : Reach l) : ∃ xs, l.Rep xs :=
  Reachable.rep (fun _ h => h.rep) (fun _ _ op h => h.step op) h

end RList
end Rpds
