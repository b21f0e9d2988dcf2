import Verif.RedBlack.Unlawful
/-
Iterators of red-black trees under comparisons that keep no law.
-/
set_option autoImplicit false
namespace Rpds
open Spec

namespace IterStack
variable {K V Q : Type} {A : Arch} {o : OrdKeys K Q} {start end_ : Bound Q}

theorem current_items (b : Bool) (s : IterStack K V) : s.current = (items b s.stack).head? := by
  rw [IterStack.current]
  cases s.stack with
  | nil => rfl
  | cons n rest => rw [items_cons]; rfl

theorem clear_loose (s : IterStack K V) (b : Bool) :
    (s.clearIfFinished o start end_).backwards = s.backwards ∧ (items b (s.clearIfFinished o start end_).stack).Sublist (items b s.stack) := by
  unfold clearIfFinished
  cases s.current with
  | none => exact ⟨rfl, List.Sublist.refl _⟩
  | some e =>
    simp only
    generalize (if s.backwards = true then afterStart o start e.1 else beforeEnd o end_ e.1) = b'
    cases b'
    · exact ⟨rfl, by simp⟩
    · exact ⟨rfl, List.Sublist.refl _⟩

theorem clear_unbounded (s : IterStack K V) : s.clearIfFinished o .unbounded .unbounded = s := by
  unfold clearIfFinished
  cases s.current with
  | none => rfl
  | some e => simp [afterStart, beforeEnd]

theorem digTowards_unbounded (t : RBTree K V) (s : IterStack K V) : s.digTowards o .unbounded .unbounded t = s.digChild t := by
  induction t generalizing s with
  | none => rfl
  | some e c l r ihl ihr =>
    rw [digTowards, digChild]
    cases hb : s.backwards <;> simp [beforeEnd, afterStart, ihl, ihr]

theorem digTowards_loose (t : RBTree K V) (s : IterStack K V) :
    (s.digTowards o start end_ t).backwards = s.backwards ∧
      (items s.backwards (s.digTowards o start end_ t).stack).Sublist (RBTree.treeItems s.backwards t ++ items s.backwards s.stack) := by
  induction t generalizing s with
  | none => exact ⟨rfl, by simp [digTowards, RBTree.treeItems]⟩
  | some e c l r ihl ihr =>
    rw [digTowards, RBTree.treeItems_some]
    have drop : ∀ a b x : List (K × V), (b ++ x).Sublist (a ++ (e :: b) ++ x) := fun a b x => by
      rw [List.append_assoc]
      exact (List.sublist_cons_self e (b ++ x)).trans (List.sublist_append_right a _)
    cases hb : s.backwards with
    | false =>
      simp only [Bool.false_eq_true, if_false]
      cases hi : afterStart o start e.1 with
      | false =>
        simp only [Bool.false_eq_true, if_false, hb]
        obtain ⟨h1, h2⟩ := ihr s
        rw [hb] at h1 h2
        exact ⟨h1, h2.trans (drop _ _ _)⟩
      | true =>
        simp only [if_true]
        obtain ⟨h1, h2⟩ := ihl { s with stack := ⟨e, c, l, r⟩ :: s.stack }
        simp only [hb] at h1 h2
        rw [items_cons] at h2
        refine ⟨h1, ?_⟩
        simpa using h2
    | true =>
      simp only [if_true]
      cases hi : beforeEnd o end_ e.1 with
      | false =>
        simp only [hb, Bool.false_eq_true, if_false]
        obtain ⟨h1, h2⟩ := ihl s
        rw [hb] at h1 h2
        exact ⟨h1, h2.trans (drop _ _ _)⟩
      | true =>
        simp only [if_true]
        obtain ⟨h1, h2⟩ := ihr { s with stack := ⟨e, c, l, r⟩ :: s.stack }
        simp only [hb] at h1 h2
        rw [items_cons] at h2
        refine ⟨h1, ?_⟩
        simpa using h2

theorem new_loose (hW : 3 ≤ A.W) {m : RBMap K V} (hsz : m.size + 1 < 2 ^ A.W) (b : Bool) :
    ∃ s, IterStack.new A o m start end_ b = .ok s ∧ s.backwards = b ∧ (items b s.stack).Sublist (RBTree.treeItems b m.root) ∧
      (start = .unbounded → end_ = .unbounded → items b s.stack = RBTree.treeItems b m.root) := by
  obtain ⟨h1, h2⟩ := conservativeHeight_ok hW hsz
  refine ⟨(({ stack := [], backwards := b, cap := 2 * Nat.log2 (m.size + 1) + 1 } : IterStack K V).digTowards o start end_ m.root).clearIfFinished
    o start end_, ?_, ?_, ?_, ?_⟩
  · simp only [IterStack.new, h1, Res.ok_bind, Arch.uadd]
    rw [if_pos h2]
    rfl
  · exact (clear_loose _ b).1.trans (digTowards_loose _ _).1
  · refine (clear_loose _ b).2.trans ?_
    have := (digTowards_loose (o := o) (start := start) (end_ := end_) m.root
      ({ stack := [], backwards := b, cap := 2 * Nat.log2 (m.size + 1) + 1 } : IterStack K V)).2
    simpa using this
  · rintro rfl rfl
    rw [clear_unbounded, digTowards_unbounded]
    have := (digChild_ok m.root ({ stack := [], backwards := b, cap := 2 * Nat.log2 (m.size + 1) + 1 } : IterStack K V)).2.2
    simpa using this

theorem advance_loose (s : IterStack K V) (b : Bool) (hb : s.backwards = b) :
    (s.advance o start end_).backwards = b ∧ (items b (s.advance o start end_).stack).Sublist (items b s.stack).tail ∧
      (start = .unbounded → end_ = .unbounded → items b (s.advance o start end_).stack = (items b s.stack).tail) := by
  cases hst : s.stack with
  | nil =>
    have : s.advance o start end_ = s := by simp [IterStack.advance, hst]
    rw [this, hst]
    exact ⟨hb, by simp, fun _ _ => rfl⟩
  | cons n rest =>
    have hadv : s.advance o start end_ =
        (({ s with stack := rest } : IterStack K V).digChild (if s.backwards then n.left else n.right)).clearIfFinished o start end_ := by
      simp only [IterStack.advance, hst]
      rw [← dig_push]
      cases (if s.backwards then n.left else n.right) <;> rfl
    have h := digChild_ok (if b then n.left else n.right) { s with stack := rest }
    simp only [hb] at h hadv
    have hi : (items b (n :: rest)).tail = RBTree.treeItems b (if b then n.left else n.right) ++ items b rest := by
      rw [items_cons]; rfl
    rw [hi, ← h.2.2, hadv]
    refine ⟨(clear_loose _ b).1.trans h.1, (clear_loose _ b).2, ?_⟩
    rintro rfl rfl
    rw [clear_unbounded]

end IterStack

namespace RBRangeIter
variable {K V Q : Type} {A : Arch} {o : OrdKeys K Q} {start end_ : Bound Q}

/-- What a stack of the iterator still holds: everything before it is set up. -/
def Holds (m : RBMap K V) (b : Bool) (st : Option (IterStack K V)) (R : List (K × V)) : Prop :=
  match st with
  | none => R = RBTree.treeItems b m.root
  | some s => s.backwards = b ∧ IterStack.items b s.stack = R

/-- The iterator may still give a sublist of `F` from the front and a sublist of `B` from the back. -/
structure LooseRel (A : Arch) (m : RBMap K V) (start end_ : Bound Q) (it : RBRangeIter K V Q) (F B : List (K × V)) : Prop where
  word : 3 ≤ A.W
  fits : m.size + 1 < 2 ^ A.W
  map : it.map = m
  startEq : it.start = start
  endEq : it.end_ = end_
  fwd : Holds m false it.stackForward F
  bwd : Holds m true it.stackBackward B

theorem next_loose {m : RBMap K V} {it : RBRangeIter K V Q} {F B : List (K × V)} (h : LooseRel A m start end_ it F B) :
    ∃ x it' F', it.next A o = .ok (x, it') ∧ LooseRel A m start end_ it' F' B ∧ (x.toList ++ F').Sublist F ∧
      it'.stackBackward = it.stackBackward ∧
      (start = .unbounded → end_ = .unbounded → it.stackBackward = none → x = F.head? ∧ F' = F.tail) := by
  have hinit : ∃ it1 s F1, it.initIfNeeded A o false = .ok it1 ∧ it1.map = m ∧ it1.start = start ∧ it1.end_ = end_ ∧
      it1.stackBackward = it.stackBackward ∧ it1.stackForward = some s ∧ s.backwards = false ∧ IterStack.items false s.stack = F1 ∧
      F1.Sublist F ∧ (start = .unbounded → end_ = .unbounded → F1 = F) := by
    simp only [initIfNeeded, Bool.false_eq_true, if_false]
    have hf := h.fwd
    cases hs : it.stackForward with
    | none =>
      rw [hs] at hf
      have hf : F = _ := hf
      obtain ⟨s, g1, g2, g3, g4⟩ := IterStack.new_loose (o := o) (start := start) (end_ := end_) h.word h.fits false
      refine ⟨{ it with stackForward := some s }, s, _, ?_, h.map, h.startEq, h.endEq, rfl, rfl, g2, rfl, by rw [hf]; exact g3,
        fun a b => by rw [hf]; exact g4 a b⟩
      rw [h.map, h.startEq, h.endEq]
      simp [g1]
    | some s =>
      rw [hs] at hf
      exact ⟨it, s, F, by simp, h.map, h.startEq, h.endEq, rfl, hs, hf.1, hf.2, List.Sublist.refl _, fun _ _ => rfl⟩
  obtain ⟨it1, s, F1, e1, e2, e3, e4, e5, e6, e7, e8, e9, e10⟩ := hinit
  obtain ⟨a1, a2, a3⟩ := IterStack.advance_loose (o := o) (start := start) (end_ := end_) s false e7
  have hcur : ∃ x, it1.currentForward o = .ok x ∧ (x = none ∨ x = F1.head?) ∧ (it.stackBackward = none → x = F1.head?) := by
    simp only [currentForward]
    cases hr : it1.isRemainingRangeEmpty o with
    | true =>
      refine ⟨none, rfl, .inl rfl, fun hn => ?_⟩
      rw [isRemainingRangeEmpty, e5, hn, e6] at hr
      cases hr
    | false =>
      refine ⟨F1.head?, ?_, .inr rfl, fun _ => rfl⟩
      simp [e6, unwrap, IterStack.current_items false, e8]
  obtain ⟨x, c1, c2, c3⟩ := hcur
  refine ⟨x, { it1 with stackForward := some (s.advance o start end_) }, IterStack.items false (s.advance o start end_).stack, ?_, ?_, ?_, e5, ?_⟩
  · simp [next, e1, c1, advanceForward, e6, unwrap, e3, e4]
  · exact ⟨h.word, h.fits, e2, e3, e4, ⟨a1, rfl⟩, by rw [e5]; exact h.bwd⟩
  · rw [e8] at a2
    refine List.Sublist.trans ?_ e9
    rcases c2 with rfl | rfl
    · exact a2.trans (List.tail_sublist _)
    · cases F1 with
      | nil => simpa using a2
      | cons a F1 => simpa using a2
  · intro u1 u2 hn
    rw [c3 hn, a3 u1 u2, e8, e10 u1 u2]
    exact ⟨rfl, rfl⟩

theorem nextBack_loose {m : RBMap K V} {it : RBRangeIter K V Q} {F B : List (K × V)} (h : LooseRel A m start end_ it F B) :
    ∃ x it' B', it.nextBack A o = .ok (x, it') ∧ LooseRel A m start end_ it' F B' ∧ (x.toList ++ B').Sublist B ∧
      it'.stackForward = it.stackForward ∧
      (start = .unbounded → end_ = .unbounded → it.stackForward = none → x = B.head? ∧ B' = B.tail) := by
  have hinit : ∃ it1 s F1, it.initIfNeeded A o true = .ok it1 ∧ it1.map = m ∧ it1.start = start ∧ it1.end_ = end_ ∧
      it1.stackForward = it.stackForward ∧ it1.stackBackward = some s ∧ s.backwards = true ∧ IterStack.items true s.stack = F1 ∧
      F1.Sublist B ∧ (start = .unbounded → end_ = .unbounded → F1 = B) := by
    simp only [initIfNeeded, if_true]
    have hf := h.bwd
    cases hs : it.stackBackward with
    | none =>
      rw [hs] at hf
      have hf : B = _ := hf
      obtain ⟨s, g1, g2, g3, g4⟩ := IterStack.new_loose (o := o) (start := start) (end_ := end_) h.word h.fits true
      refine ⟨{ it with stackBackward := some s }, s, _, ?_, h.map, h.startEq, h.endEq, rfl, rfl, g2, rfl, by rw [hf]; exact g3,
        fun a b => by rw [hf]; exact g4 a b⟩
      rw [h.map, h.startEq, h.endEq]
      simp [g1]
    | some s =>
      rw [hs] at hf
      exact ⟨it, s, B, by simp, h.map, h.startEq, h.endEq, rfl, hs, hf.1, hf.2, List.Sublist.refl _, fun _ _ => rfl⟩
  obtain ⟨it1, s, F1, e1, e2, e3, e4, e5, e6, e7, e8, e9, e10⟩ := hinit
  obtain ⟨a1, a2, a3⟩ := IterStack.advance_loose (o := o) (start := start) (end_ := end_) s true e7
  have hcur : ∃ x, it1.currentBackward o = .ok x ∧ (x = none ∨ x = F1.head?) ∧ (it.stackForward = none → x = F1.head?) := by
    simp only [currentBackward]
    cases hr : it1.isRemainingRangeEmpty o with
    | true =>
      refine ⟨none, rfl, .inl rfl, fun hn => ?_⟩
      rw [isRemainingRangeEmpty, e5, hn, e6] at hr
      cases hr
    | false =>
      refine ⟨F1.head?, ?_, .inr rfl, fun _ => rfl⟩
      simp [e6, unwrap, IterStack.current_items true, e8]
  obtain ⟨x, c1, c2, c3⟩ := hcur
  refine ⟨x, { it1 with stackBackward := some (s.advance o start end_) }, IterStack.items true (s.advance o start end_).stack, ?_, ?_, ?_, e5, ?_⟩
  · simp [nextBack, e1, c1, advanceBackward, e6, unwrap, e3, e4]
  · exact ⟨h.word, h.fits, e2, e3, e4, by rw [e5]; exact h.fwd, ⟨a1, rfl⟩⟩
  · rw [e8] at a2
    refine List.Sublist.trans ?_ e9
    rcases c2 with rfl | rfl
    · exact a2.trans (List.tail_sublist _)
    · cases F1 with
      | nil => simpa using a2
      | cons a F1 => simpa using a2
  · intro u1 u2 hn
    rw [c3 hn, a3 u1 u2, e8, e10 u1 u2]
    exact ⟨rfl, rfl⟩

theorem new_looseRel {m : RBMap K V} (hW : 3 ≤ A.W) (hf : m.size + 1 < 2 ^ A.W) :
    LooseRel A m start end_ (RBRangeIter.new m start end_) m.root.toList m.root.toList.reverse :=
  ⟨hW, hf, rfl, rfl, rfl, rfl, rfl⟩

/-- The items given by the calls at one end. -/
def answersAt {α : Type} (c : End) : List End → List (Option α) → List α
  | c' :: cs, x :: xs => (if c' = c then x.toList else []) ++ answersAt c cs xs
  | _, _ => []

theorem deAnswers_loose (o : OrdKeys K Q) {m : RBMap K V} (cs : List End) {it : RBRangeIter K V Q} {F B : List (K × V)}
    (h : LooseRel A m start end_ it F B) :
    ∃ xs it', deAnswers (RBRangeIter.next A o) (RBRangeIter.nextBack A o) cs it = .ok (xs, it') ∧
      (answersAt .front cs xs).Sublist F ∧ (answersAt .back cs xs).Sublist B := by
  induction cs generalizing it F B with
  | nil => exact ⟨[], it, rfl, by simp [answersAt], by simp [answersAt]⟩
  | cons c cs ih =>
    cases c with
    | front =>
      obtain ⟨x, it', F', h1, h2, h3, _⟩ := next_loose (o := o) h
      obtain ⟨xs, it'', g1, g2, g3⟩ := ih h2
      refine ⟨x :: xs, it'', by simp [deAnswers, h1, g1], ?_, ?_⟩
      · simp only [answersAt, if_true]
        exact ((List.Sublist.refl _).append g2).trans h3
      · simpa [answersAt] using g3
    | back =>
      obtain ⟨x, it', F', h1, h2, h3, _⟩ := nextBack_loose (o := o) h
      obtain ⟨xs, it'', g1, g2, g3⟩ := ih h2
      refine ⟨x :: xs, it'', by simp [deAnswers, h1, g1], ?_, ?_⟩
      · simpa [answersAt] using g2
      · simp only [answersAt, if_true]
        exact ((List.Sublist.refl _).append g3).trans h3

end RBRangeIter

namespace RBIter
variable {K V Q : Type} {A : Arch} {o : OrdKeys K Q}

/-- The iterator over the whole of `m` may still give `F` from the front, `B` from the back, and no more than its size altogether. -/
structure LooseRel (A : Arch) (m : RBMap K V) (it : RBIter K V) (F B : List (K × V)) : Prop where
  range : RBRangeIter.LooseRel A m .unbounded .unbounded it.rangeIter F B

theorem next_loose {m : RBMap K V} {it : RBIter K V} {F B : List (K × V)} (h : LooseRel A m it F B) :
    ∃ x it' F', it.next A o = .ok (x, it') ∧ LooseRel A m it' F' B ∧ (x.toList ++ F').Sublist F ∧ x.toList.length + it'.size ≤ it.size := by
  by_cases h0 : it.size > 0
  · obtain ⟨x, r, F', h1, h2, h3, _⟩ := RBRangeIter.next_loose (o := o.self) h.range
    have hc : csub it.size 1 = .ok (it.size - 1) := by simp [csub]; omega
    refine ⟨x, ⟨r, it.size - 1⟩, F', by simp [next, h0, hc, h1], ⟨h2⟩, h3, ?_⟩
    cases x <;> simp <;> omega
  · exact ⟨none, it, F, by simp [next, h0], h, by simp, by simp⟩

theorem nextBack_loose {m : RBMap K V} {it : RBIter K V} {F B : List (K × V)} (h : LooseRel A m it F B) :
    ∃ x it' B', it.nextBack A o = .ok (x, it') ∧ LooseRel A m it' F B' ∧ (x.toList ++ B').Sublist B ∧ x.toList.length + it'.size ≤ it.size := by
  by_cases h0 : it.size > 0
  · obtain ⟨x, r, F', h1, h2, h3, _⟩ := RBRangeIter.nextBack_loose (o := o.self) h.range
    have hc : csub it.size 1 = .ok (it.size - 1) := by simp [csub]; omega
    refine ⟨x, ⟨r, it.size - 1⟩, F', by simp [nextBack, h0, hc, h1], ⟨h2⟩, h3, ?_⟩
    cases x <;> simp <;> omega
  · exact ⟨none, it, B, by simp [nextBack, h0], h, by simp, by simp⟩

theorem deAnswers_loose (o : OrdKeys K Q) {m : RBMap K V} (cs : List End) {it : RBIter K V} {F B : List (K × V)} (h : LooseRel A m it F B) :
    ∃ xs it', deAnswers (RBIter.next A o) (RBIter.nextBack A o) cs it = .ok (xs, it') ∧
      (RBRangeIter.answersAt .front cs xs).Sublist F ∧ (RBRangeIter.answersAt .back cs xs).Sublist B ∧
      (RBRangeIter.answersAt .front cs xs).length + (RBRangeIter.answersAt .back cs xs).length ≤ it.size := by
  induction cs generalizing it F B with
  | nil => exact ⟨[], it, rfl, by simp [RBRangeIter.answersAt], by simp [RBRangeIter.answersAt], by simp [RBRangeIter.answersAt]⟩
  | cons c cs ih =>
    cases c with
    | front =>
      obtain ⟨x, it', F', h1, h2, h3, h4⟩ := next_loose (o := o) h
      obtain ⟨xs, it'', g1, g2, g3, g4⟩ := ih h2
      refine ⟨x :: xs, it'', by simp [deAnswers, h1, g1], ?_, ?_, ?_⟩
      · simp only [RBRangeIter.answersAt, if_true]
        exact ((List.Sublist.refl _).append g2).trans h3
      · simpa [RBRangeIter.answersAt] using g3
      · simp only [RBRangeIter.answersAt, if_true, List.length_append, reduceCtorEq, if_false, List.length_nil]; omega
    | back =>
      obtain ⟨x, it', F', h1, h2, h3, h4⟩ := nextBack_loose (o := o) h
      obtain ⟨xs, it'', g1, g2, g3, g4⟩ := ih h2
      refine ⟨x :: xs, it'', by simp [deAnswers, h1, g1], ?_, ?_, ?_⟩
      · simpa [RBRangeIter.answersAt] using g2
      · simp only [RBRangeIter.answersAt, if_true]
        exact ((List.Sublist.refl _).append g3).trans h3
      · simp only [RBRangeIter.answersAt, if_true, List.length_append, reduceCtorEq, if_false, List.length_nil]; omega

/-- Iterating from the front only never compares keys. -/
theorem drives_loose {β : Type} (o : OrdKeys K Q) {m : RBMap K V} (f : K × V → β) (F : List (K × V)) {it : RBIter K V} {B : List (K × V)}
    (h : RBRangeIter.LooseRel A m .unbounded .unbounded it.rangeIter F B) (hb : it.rangeIter.stackBackward = none)
    (hs : it.size = F.length) : Drives (RBIter.mapNext A o f) it (F.map f) := by
  induction F generalizing it with
  | nil =>
    refine .nil (s' := it) ?_
    simp only [List.length_nil] at hs
    simp [mapNext, next, hs]
  | cons a F ih =>
    obtain ⟨x, r, F', h1, h2, h3, h4, h5⟩ := RBRangeIter.next_loose (o := o.self) h
    obtain ⟨hx, hF⟩ := h5 rfl rfl hb
    rw [hF] at h2
    rw [hx] at h1
    simp only [List.length_cons] at hs
    refine .cons (s' := ⟨r, F.length⟩) ?_ (ih h2 (h4.trans hb) rfl)
    simp [mapNext, next, hs, h1, csub]

/-- Iterating from the back only never compares keys. -/
theorem drivesBack_loose {β : Type} (o : OrdKeys K Q) {m : RBMap K V} (f : K × V → β) (B : List (K × V)) {it : RBIter K V} {F : List (K × V)}
    (h : RBRangeIter.LooseRel A m .unbounded .unbounded it.rangeIter F B) (hb : it.rangeIter.stackForward = none)
    (hs : it.size = B.length) : Drives (RBIter.mapNextBack A o f) it (B.map f) := by
  induction B generalizing it with
  | nil =>
    refine .nil (s' := it) ?_
    simp only [List.length_nil] at hs
    simp [mapNextBack, nextBack, hs]
  | cons a F ih =>
    obtain ⟨x, r, F', h1, h2, h3, h4, h5⟩ := RBRangeIter.nextBack_loose (o := o.self) h
    obtain ⟨hx, hF⟩ := h5 rfl rfl hb
    rw [hF] at h2
    rw [hx] at h1
    simp only [List.length_cons] at hs
    refine .cons (s' := ⟨r, F.length⟩) ?_ (ih h2 (h4.trans hb) rfl)
    simp [mapNextBack, nextBack, hs, h1, csub]

end RBIter

namespace RBMap
variable {K V Q : Type} {A : Arch} {m : RBMap K V} {l : List (K × V)}

theorem Loose.iterRel (h : m.Loose l) (hf : Fits A m) : RBIter.LooseRel A m m.iter l l.reverse := by
  have := RBRangeIter.new_looseRel (start := (.unbounded : Bound K)) (end_ := .unbounded) hf.word hf.size
  rw [h.list] at this
  exact ⟨this⟩

theorem Loose.drives (h : m.Loose l) (hf : Fits A m) (o : OrdKeys K Q) {β : Type} (f : K × V → β) :
    Drives (RBIter.mapNext A o f) m.iter (l.map f) := RBIter.drives_loose o f l (h.iterRel hf).range rfl h.size

theorem Loose.drivesBack (h : m.Loose l) (hf : Fits A m) (o : OrdKeys K Q) {β : Type} (f : K × V → β) :
    Drives (RBIter.mapNextBack A o f) m.iter (l.reverse.map f) :=
  RBIter.drivesBack_loose o f l.reverse (h.iterRel hf).range rfl (by rw [List.length_reverse]; exact h.size)

theorem Loose.iterDrives (h : m.Loose l) (hf : Fits A m) (o : OrdKeys K Q) : Drives (RBMap.iterNext A o) m.iter l := by
  have := h.drives hf o (fun e => (e.1, e.2))
  rw [pairFun_eq, List.map_id] at this
  exact this

theorem Loose.iterDrivesBack (h : m.Loose l) (hf : Fits A m) (o : OrdKeys K Q) : Drives (RBMap.iterNextBack A o) m.iter l.reverse := by
  have := h.drivesBack hf o (fun e => (e.1, e.2))
  rw [pairFun_eq, List.map_id] at this
  exact this

end RBMap
end Rpds
