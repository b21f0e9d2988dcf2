import Verif.List.Lemmas
import Verif.Queue.Model
/-
Refinement of the `Queue` model to a plain list, next to be dequeued first.
-/
set_option autoImplicit false
namespace Rpds
namespace Spec

/-- A plain FIFO queue under the operations of `Queue`. -/
def queueStep {T : Type} (l : List T) : Queue.Op T → RList.Ret T × Effect (List T)
  | .enqueue v => (.unit, .fresh (l ++ [v]))
  | .enqueueMut v => (.unit, .update (l ++ [v]))
  | .dequeue => match l with
    | [] => (.bool false, .keep)
    | _ :: t => (.bool true, .fresh t)
  | .dequeueMut => match l with
    | [] => (.bool false, .update [])
    | _ :: t => (.bool true, .update t)
  | .clone => (.unit, .fresh l)
  | .peek => (.opt l.head?, .keep)
  | .len => (.nat l.length, .keep)
  | .isEmpty => (.bool l.isEmpty, .keep)
  | .iter n => (.calls l.length (fwRun l n), .keep)

end Spec

variable {T : Type}

/-- The lazily reversing iterator has exactly the items `xs` left. -/
inductive LazyRevIter.Rep : LazyRevIter T → List T → Prop where
  | uninit {l : RList T} {ys : List T} : l.Rep ys → Rep (.uninitialized l) ys.reverse
  | done {vec : List T} : Rep (.initialized vec none) []
  | at {vec : List T} {i : Nat} : i < vec.length → Rep (.initialized vec (some i)) (vec.take (i + 1)).reverse

namespace LazyRevIter

theorem stepInit_none (vec : List T) : stepInit vec none = .ok (none, .initialized vec none) := by
  simp [stepInit]

theorem stepInit_some {vec : List T} {i : Nat} (h : i < vec.length) :
    ∃ it, stepInit vec (some i) = .ok (some vec[i], it) ∧ Rep it (vec.take i).reverse := by
  cases i with
  | zero =>
    exact ⟨.initialized vec none, by simp [stepInit, vecIndex_ok (List.getElem?_eq_getElem h)], by simpa using .done⟩
  | succ i =>
    exact ⟨.initialized vec (some i), by simp [stepInit, vecIndex_ok (List.getElem?_eq_getElem h)],
      .at (by omega)⟩

theorem Rep.step_init {vec : List T} {c : Option Nat} {xs : List T} (h : Rep (.initialized vec c) xs) :
    ∃ it', stepInit vec c = .ok (xs.head?, it') ∧ it'.Rep xs.tail := by
  cases h with
  | done => exact ⟨_, stepInit_none vec, .done⟩
  | @«at» _ i hi =>
    obtain ⟨it, h1, h2⟩ := stepInit_some hi
    have e : (vec.take (i + 1)).reverse = vec[i] :: (vec.take i).reverse := by
      rw [List.take_add_one, List.getElem?_eq_getElem hi, List.reverse_append]; rfl
    exact ⟨it, by rw [h1, e]; rfl, by rw [e]; exact h2⟩

theorem Rep.step' {it : LazyRevIter T} {xs : List T} (h : it.Rep xs) :
    ∃ it', it.step = .ok (xs.head?, it') ∧ it'.Rep xs.tail := by
  cases it with
  | initialized vec c => exact h.step_init
  | uninitialized l =>
    cases h with
    | @uninit _ ys h =>
      have hv : iterFold ListIter.step (fun vec v => Except.ok (vec ++ [v])) (l.length + 1) l.iter [] = .ok ys := by
        have := h.iter.drives.iterFold (f := fun vec v => Except.ok (vec ++ [v])) (g := fun vec v => vec ++ [v])
          (fun _ => True) (fun _ _ _ => trivial) (fun a x _ => rfl) [] trivial (fuel := l.length + 1) (by simp [h.length])
        rw [this, RList.foldl_snoc]; rfl
      simp only [LazyRevIter.step, hv, Res.ok_bind, h.len]
      by_cases hy : ys.length > 0
      · simp only [hy, if_true, csub_ok (show 1 ≤ ys.length by omega), Res.ok_bind, Res.pure_eq]
        have hr : Rep (.initialized ys (some (ys.length - 1))) (ys.take (ys.length - 1 + 1)).reverse :=
          .at (by omega)
        rw [show ys.length - 1 + 1 = ys.length by omega, List.take_length] at hr
        exact hr.step_init
      · have : ys = [] := by cases ys <;> simp_all
        subst this
        simp only [List.length_nil, Nat.lt_irrefl, if_false, Res.pure_eq, Res.ok_bind, gt_iff_lt]
        exact ⟨_, stepInit_none _, .done⟩

theorem Rep.sizeHint {it : LazyRevIter T} {xs : List T} (h : it.Rep xs) : it.sizeHint = xs.length := by
  cases h with
  | uninit h => simp [LazyRevIter.sizeHint, h.len]
  | done => rfl
  | «at» h => simp [LazyRevIter.sizeHint]; omega

end LazyRevIter

/-- The queue iterator has exactly the items `xs` left. -/
inductive QueueIter.Rep : QueueIter T → List T → Prop where
  | front {a b ys zs} : ListIter.Rep a ys → LazyRevIter.Rep b zs → Rep ⟨some a, b⟩ (ys ++ zs)
  | back {b zs} : LazyRevIter.Rep b zs → Rep ⟨none, b⟩ zs

namespace QueueIter

theorem Rep.step' {it : QueueIter T} {xs : List T} (h : it.Rep xs) :
    ∃ it', it.step = .ok (xs.head?, it') ∧ it'.Rep xs.tail := by
  cases h with
  | back hb =>
    obtain ⟨b', h1, h2⟩ := hb.step'
    exact ⟨⟨none, b'⟩, by simp [QueueIter.step, h1], .back h2⟩
  | @front a b ys zs ha hb =>
    cases ys with
    | nil =>
      obtain ⟨a', h1, _⟩ := ha.step_nil
      obtain ⟨b', h3, h4⟩ := hb.step'
      exact ⟨⟨none, b'⟩, by simp [QueueIter.step, h1, h3], .back h4⟩
    | cons y ys =>
      obtain ⟨a', h1, h2⟩ := ha.step_cons
      exact ⟨⟨some a', b⟩, by simp [QueueIter.step, h1], .front h2 hb⟩

theorem Rep.sizeHint {it : QueueIter T} {xs : List T} (h : it.Rep xs) : it.sizeHint = xs.length := by
  cases h with
  | back hb => simp [QueueIter.sizeHint, hb.sizeHint]
  | front ha hb => simp [QueueIter.sizeHint, hb.sizeHint, ha.length, ListIter.sizeHint]

theorem Rep.drives {it : QueueIter T} {xs : List T} (h : it.Rep xs) : Drives QueueIter.step it xs :=
  drives_of_rel (R := Rep) (fun _ h => h.step') (fun _ _ _ h => h.step') _ _ h

theorem Rep.calls {it : QueueIter T} {xs : List T} (h : it.Rep xs) (n : Nat) :
    fwCalls QueueIter.step QueueIter.sizeHint n it = .ok (Spec.fwRun xs n) :=
  fwCalls_eq (R := Rep) (fun _ h => h.step') (fun _ _ _ h => h.step') (fun _ _ h => h.sizeHint) _ _ _ h

end QueueIter

namespace Queue

/-- The queue represents `xs`: the out list followed by the reverse of the in list. -/
def Rep (q : Queue T) (xs : List T) : Prop :=
  ∃ os is, q.out_list.Rep os ∧ q.in_list.Rep is ∧ xs = os ++ is.reverse

theorem rep_new : (new : Queue T).Rep [] := ⟨[], [], RList.rep_new, RList.rep_new, rfl⟩
theorem rep_fromIter (xs : List T) : (fromIter xs).Rep xs :=
  ⟨xs, [], RList.rep_fromIter xs, RList.rep_new, by simp⟩

theorem Rep.clone {q : Queue T} {xs : List T} (h : q.Rep xs) : q.clone.Rep xs := by
  obtain ⟨os, is, h1, h2, h3⟩ := h
  exact ⟨os, is, h1.clone, h2.clone, h3⟩

theorem Rep.enqueueMut {q : Queue T} {xs : List T} (h : q.Rep xs) (v : T) : (q.enqueueMut v).Rep (xs ++ [v]) := by
  obtain ⟨os, is, h1, h2, rfl⟩ := h
  exact ⟨os, v :: is, h1, h2.pushFrontMut v, by simp⟩

theorem Rep.len {q : Queue T} {xs : List T} (h : q.Rep xs) : q.len = xs.length := by
  obtain ⟨os, is, h1, h2, rfl⟩ := h
  simp [Queue.len, h1.len, h2.len]; omega

theorem Rep.isEmpty {q : Queue T} {xs : List T} (h : q.Rep xs) : q.isEmpty = xs.isEmpty := by
  cases xs <;> simp [Queue.isEmpty, h.len]

theorem Rep.peek {q : Queue T} {xs : List T} (h : q.Rep xs) : q.peek = xs.head? := by
  obtain ⟨os, is, h1, h2, rfl⟩ := h
  cases os with
  | nil => simp [Queue.peek, h1.isEmpty, h2.getLast]
  | cons o os => simp [Queue.peek, h1.isEmpty, h1.first]

theorem Rep.dequeueMut_nil {q : Queue T} (h : q.Rep []) : q.dequeueMut = .ok (false, q) := by
  obtain ⟨os, is, h1, h2, h3⟩ := h
  obtain ⟨rfl, hi⟩ := List.append_eq_nil_iff.1 h3.symm
  obtain rfl := List.reverse_eq_nil_iff.1 hi
  simp [Queue.dequeueMut, h1.isEmpty, h2.isEmpty]

theorem Rep.dequeueMut_cons {q : Queue T} {x : T} {xs : List T} (h : q.Rep (x :: xs)) :
    ∃ q', q.dequeueMut = .ok (true, q') ∧ q'.Rep xs := by
  obtain ⟨os, is, h1, h2, h3⟩ := h
  cases os with
  | cons o os =>
    obtain ⟨l', h4, h5⟩ := h1.dropFirstMut_cons
    refine ⟨{ q with out_list := l' }, by simp [Queue.dequeueMut, h1.isEmpty, h4], os, is, h5, h2, ?_⟩
    simp at h3; exact h3.2
  | nil =>
    have hr := h2.reverseMut
    simp only [List.nil_append] at h3
    rw [← h3] at hr
    obtain ⟨l', h4, h5⟩ := hr.dropFirstMut_cons
    have hne : is.isEmpty = false := by cases is <;> simp_all
    refine ⟨⟨q.out_list, l'⟩, by simp [Queue.dequeueMut, h1.isEmpty, h2.isEmpty, hne, h4], xs, [], h5, h1, by simp⟩

theorem Rep.iter {q : Queue T} {xs : List T} (h : q.Rep xs) : q.iter.Rep xs := by
  obtain ⟨os, is, h1, h2, rfl⟩ := h
  exact .front h1.iter (.uninit h2)

theorem rep_queueMacro (xs : List T) : (queueMacro xs).Rep xs := by
  have key : ∀ (ys zs : List T) (a : Queue T), a.Rep zs →
      (ys.foldl (fun s e => s.enqueueMut e) a).Rep (zs ++ ys) := by
    intro ys
    induction ys with
    | nil => intro zs a ha; simpa using ha
    | cons y ys ih => intro zs a ha; simpa using ih (zs ++ [y]) _ (ha.enqueueMut y)
  simpa [queueMacro] using key xs [] new rep_new

theorem rep_deserialize {E : Type} (seq : List (Except E T)) :
    match Spec.collectExcept seq with
    | .ok xs => ∃ s, deserialize seq = .ok s ∧ s.Rep xs
    | .error e => deserialize seq = .error e := by
  have := RList.rep_deserialize seq
  split at this
  · obtain ⟨l, h1, h2⟩ := this
    simp only [*]
    exact ⟨⟨RList.new, l⟩, by simp [deserialize, h1]; rfl, _, [], h2, RList.rep_new, by simp⟩
  · simp only [*]
    simp [deserialize, this]
    rfl

theorem Rep.step {s : Queue T} {xs : List T} (h : s.Rep xs) (op : Op T) :
    ∃ e, s.step op = .ok ((Spec.queueStep xs op).1, e) ∧ Effect.Rel Rep e (Spec.queueStep xs op).2 := by
  cases op with
  | enqueue v => exact ⟨_, rfl, .fresh (h.clone.enqueueMut v)⟩
  | enqueueMut v => exact ⟨_, rfl, .update (h.enqueueMut v)⟩
  | dequeue =>
    cases xs with
    | nil =>
      refine ⟨_, ?_, .keep⟩
      simp [Queue.step, Queue.dequeue, h.clone.dequeueMut_nil, Spec.queueStep]
    | cons x xs =>
      obtain ⟨l', h1, h2⟩ := h.clone.dequeueMut_cons
      refine ⟨.fresh l', ?_, .fresh h2⟩
      simp [Queue.step, Queue.dequeue, h1, Spec.queueStep]
  | dequeueMut =>
    cases xs with
    | nil => exact ⟨.update s, by simp [Queue.step, h.dequeueMut_nil, Spec.queueStep], .update h⟩
    | cons x xs =>
      obtain ⟨l', h1, h2⟩ := h.dequeueMut_cons
      exact ⟨.update l', by simp [Queue.step, h1, Spec.queueStep], .update h2⟩
  | clone => exact ⟨_, rfl, .fresh h.clone⟩
  | peek => exact ⟨.keep, by simp [Queue.step, h.peek, Spec.queueStep], .keep⟩
  | len => exact ⟨.keep, by simp [Queue.step, h.len, Spec.queueStep], .keep⟩
  | isEmpty => exact ⟨.keep, by simp [Queue.step, h.isEmpty, Spec.queueStep], .keep⟩
  | iter n =>
    exact ⟨.keep, by simp [Queue.step, h.iter.calls, Spec.queueStep, h.iter.sizeHint], .keep⟩

theorem Rep.serialize {l : Queue T} {xs : List T} (h : l.Rep xs) : l.serialize = .ok xs :=
  h.iter.drives.drain (by simp [h.len])

theorem Rep.eq {a b : Queue T} {xs ys : List T} (ha : a.Rep xs) (hb : b.Rep ys) (eqT : T → T → Bool) :
    a.eq eqT b = .ok (Spec.seqEq eqT xs ys) := by
  simp only [Queue.eq, ha.len, hb.len]
  split
  · exact ha.iter.drives.iterEq hb.iter.drives (by omega)
  · rename_i hne
    have : Spec.seqEq eqT xs ys = false := by
      cases h : Spec.seqEq eqT xs ys
      · rfl
      · exact absurd (Spec.seqEq_length h) (by simpa using hne)
    simp [this]

theorem Rep.partialCmp {a b : Queue T} {xs ys : List T} (ha : a.Rep xs) (hb : b.Rep ys) (c : T → T → Option Ordering) :
    a.partialCmp c b = .ok (Spec.lexPartialCmp c xs ys) := by
  simp only [Queue.partialCmp, ha.len]
  exact ha.iter.drives.iterPartialCmp hb.iter.drives (by omega)

theorem Rep.cmp {a b : Queue T} {xs ys : List T} (ha : a.Rep xs) (hb : b.Rep ys) (c : T → T → Ordering) :
    a.cmp c b = .ok (Spec.lexCmp c xs ys) := by
  simp only [Queue.cmp, ha.len]
  exact ha.iter.drives.iterCmp hb.iter.drives (by omega)

theorem Rep.hash {S : Type} {a : Queue T} {xs : List T} (ha : a.Rep xs) (hl : S → Nat → S) (ht : S → T → S) (st : S) :
    a.hash hl ht st = .ok (xs.foldl ht (hl st xs.length)) := by
  simp only [Queue.hash, ha.len]
  exact ha.iter.drives.iterHash _ (by omega)

theorem Rep.display {a : Queue T} {xs : List T} (ha : a.Rep xs) (fmt : T → String) :
    a.display fmt = .ok (Spec.bracketed "Queue(" ")" (xs.map fmt)) := by
  simp only [Queue.display, ha.len]
  rw [ha.iter.drives.iterDisplay _ (by omega)]
  rfl

/-- The ways of creating a queue without another queue. -/
inductive Init : Queue T → Prop where
  | new : Init new
  | fromIter (xs : List T) : Init (fromIter xs)
  | macro (xs : List T) : Init (queueMacro xs)
  | deserialize {E : Type} (seq : List (Except E T)) (s : Queue T) : deserialize seq = .ok s → Init s

/-- All queues a program can obtain. -/
abbrev Reach (s : Queue T) : Prop := Reachable Init step s

theorem Init.rep {s : Queue T} (hs : Init s) : ∃ xs, s.Rep xs := by
  cases hs with
  | new => exact ⟨_, rep_new⟩
  | fromIter xs => exact ⟨_, rep_fromIter xs⟩
  | «macro» xs => exact ⟨_, rep_queueMacro xs⟩
  | deserialize seq _ hd =>
    have := rep_deserialize seq
    split at this
    · obtain ⟨l, h1, h2⟩ := this; rw [hd] at h1; cases h1; exact ⟨_, h2⟩
    · rw [hd] at this; cases this

theorem Reach.rep {s : Queue T} (h : Reach s) : ∃ xs, s.Rep xs :=
  Reachable.rep (fun _ h => h.rep) (fun _ _ op h => h.step op) h

end Queue
end Rpds
