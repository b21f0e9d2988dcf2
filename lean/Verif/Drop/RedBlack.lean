import Verif.RedBlack.UnlawfulIter
import Verif.RedBlack.Map
/-
`RedBlackTreeMap::remove_mut` when the `Drop` of the removed pair panics and the panic is caught.

The pair is dropped where `remove_fuse` overwrites the node that held it (`utils::replace`, 446, 450), where the pointer to that node goes
out of scope (503, 534: `l_ptr` after `swap(l, node)`), or where `del` assigns `None` (744).  An assignment whose old value panics while
it is dropped still writes the new value.  Unwinding then leaves every enclosing call at once: what the calls would have done after the
drop is skipped, and the local pointers `l_ptr` and `r_ptr` of `remove_fuse`, which hold parts of the subtree being fused, are dropped.
The case modelled is that this one drop panics and no other: a second panic during unwinding aborts the process.
-/
set_option autoImplicit false
namespace Rpds

namespace RBNode
variable {K V : Type} (A : Arch)

/-- `Node::remove_fuse` (433-545) when the drop of the entry it overwrites panics: whether that drop happened in this call, and what is in
`node` afterwards.  With no children nothing is dropped yet (the caller drops the node). -/
def removeFuseD (node : RBNode K V) (left right : RBTree K V) : Res (Bool × RBNode K V) :=
  match left, right with
  | .none, .none => pure (false, node)
  | .none, .some re rc rl rr => pure (true, ⟨re, rc, rl, rr⟩)
  | .some le lc ll lr, .none => pure (true, ⟨le, lc, ll, lr⟩)
  | .some le lc ll lr, .some re rc rl rr =>
    match lc, rc with
    | .black, .red => do
      -- `r_ptr` is dropped by the unwinding (453-463).
      let (_, node) ← removeFuseD node (.some le lc ll lr) rl
      pure (true, node)
    | .red, .black => do
      -- `l_ptr` is dropped by the unwinding (464-474).
      let (_, node) ← removeFuseD node lr (.some re rc rl rr)
      pure (true, node)
    | .red, .red => do
      let r : RBNode K V := ⟨re, rc, .none, rr⟩
      let l : RBNode K V := ⟨le, lc, ll, .none⟩
      let (dropped, node) ← removeFuseD node lr rl
      -- If the inner call panicked, `l_ptr` and `r_ptr` are lost; otherwise the drop is that of `l_ptr` at the end (475-505).
      pure (true, if dropped then node else fuseSwap false node l r)
    | .black, .black => do
      let r : RBNode K V := ⟨re, rc, .none, rr⟩
      let l : RBNode K V := ⟨le, lc, ll, .none⟩
      let (dropped, node) ← removeFuseD node lr rl
      if dropped then pure (true, node)
      else do
        let node ← { fuseSwap false node l r with color := .red }.removeBalanceLeft A
        pure (true, node)
termination_by left.count + right.count
decreasing_by all_goals simp only [RBTree.count]; omega

end RBNode

namespace RBTree
variable {K V Q : Type} (A : Arch) (o : OrdKeys K Q)

/-- `del` (711-749) when the drop of the removed pair panics: the tree afterwards, `none` if the key is not there (then nothing is
dropped).  The recolouring and rebalancing after the inner calls (682-686, 701-705, 735-737) are not reached. -/
def delD (key : Q) : RBTree K V → Res (Option (RBTree K V))
  | .none => pure Option.none
  | .some e c l r =>
    match o.cmpQ key (o.borrow e.1) with
    | .lt => do
      let l' ← delD key l
      pure (l'.map fun l' => .some e c l' r)
    | .eq => do
      let (dropped, node) ← RBNode.removeFuseD A ⟨e, c, .none, .none⟩ l r
      pure (Option.some (if dropped then node.ptr else .none))
    | .gt => do
      let r' ← delD key r
      pure (r'.map fun r' => .some e c l r')

end RBTree

/-- `RedBlackTreeMap::remove_mut` (872-887) when the drop of the removed pair panics: `self.size -= 1` is not reached. -/
def RBMap.removeMutD {K V Q : Type} (A : Arch) (o : OrdKeys K Q) (m : RBMap K V) (key : Q) : Res (Option (RBMap K V)) := do
  let r ← m.root.delD A o key
  pure (r.map fun r => { m with root := r })

namespace RBTree
variable {K V Q : Type} {A : Arch} {o : OrdKeys K Q}

theorem small_of_bh0 {t : RBTree K V} (h : t.BH 0) (hr : t.NoRR) : t.toList.length ≤ 1 := by
  rcases t with _ | ⟨e, _ | _, l, r⟩
  · simp
  · obtain ⟨h1, h2, _, _⟩ := hr
    obtain ⟨g1, g2⟩ := h
    have e1 : l = .none := by
      rcases l with _ | ⟨e, _ | _, a, b⟩
      · rfl
      · simp at h1
      · exact g1.elim
    have e2 : r = .none := by
      rcases r with _ | ⟨e, _ | _, a, b⟩
      · rfl
      · simp at h2
      · exact g2.elim
    subst e1 e2; simp
  · exact h.elim

theorem bh_none {n : Nat} (h : (RBTree.none : RBTree K V).BH n) : n = 0 := h

theorem removeFuseD_aux (node : RBNode K V) (N : Nat) : ∀ (l r : RBTree K V), l.count + r.count < N → ∀ {n : Nat}, l.BH n → r.BH n →
    l.NoRR → r.NoRR →
    ∃ b x, RBNode.removeFuseD A node l r = .ok (b, x) ∧ (b = false → l = .none ∧ r = .none) ∧
      (RBNode.fusedTree b x).toList.Sublist (l.toList ++ r.toList) ∧ (RBNode.fusedTree b x).toList.length ≤ 4 ∧
      (l = .none ∨ r = .none → (RBNode.fusedTree b x).toList = l.toList ++ r.toList) := by
  induction N with
  | zero => intro l r h; omega
  | succ N ih =>
    intro l r hN n hl hr h1 h2
    rcases l with _ | ⟨le, lc, ll, lr⟩
    · have h0 := bh_none hl
      subst h0
      rcases r with _ | ⟨re, rc, rl, rr⟩
      · exact ⟨false, node, by rw [RBNode.removeFuseD]; rfl, fun _ => ⟨rfl, rfl⟩, by simp [RBNode.fusedTree], by simp [RBNode.fusedTree],
          fun _ => rfl⟩
      · have := small_of_bh0 hr h2
        exact ⟨true, ⟨re, rc, rl, rr⟩, by rw [RBNode.removeFuseD]; rfl, by simp, List.Sublist.refl _, Nat.le_trans this (by omega), fun _ => rfl⟩
    · rcases r with _ | ⟨re, rc, rl, rr⟩
      · have h0 := bh_none hr
        subst h0
        have := small_of_bh0 hl h1
        exact ⟨true, ⟨le, lc, ll, lr⟩, by rw [RBNode.removeFuseD]; rfl, by simp, by simp [RBNode.fusedTree, RBNode.ptr],
          Nat.le_trans this (by omega), fun _ => by simp [RBNode.fusedTree, RBNode.ptr]⟩
      · cases lc <;> cases rc
        · -- red, red
          obtain ⟨a1, a2, a3, a4⟩ := h1
          obtain ⟨b1, b2, b3, b4⟩ := h2
          obtain ⟨b, x, e1, e2, e3, e4, e5⟩ := ih lr rl (by simp only [count] at hN; omega) hl.2 hr.1 a4 b3
          rw [RBNode.removeFuseD]
          simp only [e1, Res.ok_bind, Res.pure_eq]
          refine ⟨true, _, rfl, by simp, ?_, ?_, by simp⟩
          · cases b with
            | true =>
              rw [RBNode.fusedTree_true] at e3
              simp only [RBNode.fusedTree_true, if_true, toList_some]
              refine e3.trans ?_
              refine (((List.sublist_cons_self _ _).trans (List.sublist_append_right _ _))).append
                (List.sublist_append_left _ _)
            | false =>
              obtain ⟨rfl, rfl⟩ := e2 rfl
              simp [RBNode.fusedTree_true, RBNode.fuseSwap, RBNode.ptr]
          · cases b with
            | true => simpa [RBNode.fusedTree_true] using e4
            | false =>
              obtain ⟨rfl, rfl⟩ := e2 rfl
              have h0 := bh_none hl.2
              subst h0
              have g1 := small_of_bh0 hl.1 a3
              have g2 := small_of_bh0 hr.2 b4
              simp [RBNode.fusedTree_true, RBNode.fuseSwap, RBNode.ptr]; omega
        · -- red, black
          obtain ⟨a1, a2, a3, a4⟩ := h1
          obtain ⟨b, x, e1, e2, e3, e4, e5⟩ := ih lr (.some re .black rl rr) (by simp only [count] at hN ⊢; omega) hl.2 hr a4 h2
          have hb : b = true := by
            cases b with
            | true => rfl
            | false => simp at e2
          subst hb
          rw [RBNode.removeFuseD]
          simp only [e1, Res.ok_bind, Res.pure_eq]
          refine ⟨true, _, rfl, by simp, ?_, e4, by simp⟩
          refine e3.trans (List.Sublist.append ?_ (List.Sublist.refl _))
          exact (List.sublist_cons_self _ _).trans (List.sublist_append_right _ _)
        · -- black, red
          obtain ⟨b1, b2, b3, b4⟩ := h2
          obtain ⟨b, x, e1, e2, e3, e4, e5⟩ := ih (.some le .black ll lr) rl (by simp only [count] at hN ⊢; omega) hl hr.1 h1 b3
          have hb : b = true := by
            cases b with
            | true => rfl
            | false => simp at e2
          subst hb
          rw [RBNode.removeFuseD]
          simp only [e1, Res.ok_bind, Res.pure_eq]
          refine ⟨true, _, rfl, by simp, ?_, e4, by simp⟩
          exact e3.trans (List.Sublist.append (List.Sublist.refl _) (List.sublist_append_left _ _))
        · -- black, black
          obtain ⟨a3, a4⟩ := h1
          obtain ⟨b3, b4⟩ := h2
          match n, hl, hr with
          | 0, hl, _ => exact hl.elim
          | n + 1, hl, hr =>
          obtain ⟨b, x, e1, e2, e3, e4, e5⟩ := ih lr rl (by simp only [count] at hN; omega) hl.2 hr.1 a4 b3
          rw [RBNode.removeFuseD]
          simp only [e1, Res.ok_bind, Res.pure_eq]
          cases b with
          | true =>
            simp only [if_true]
            refine ⟨true, _, rfl, by simp, ?_, e4, by simp⟩
            refine e3.trans ?_
            exact (((List.sublist_cons_self _ _).trans (List.sublist_append_right _ _))).append (List.sublist_append_left _ _)
          | false =>
            obtain ⟨rfl, rfl⟩ := e2 rfl
            have h0 := bh_none hl.2
            subst h0
            have hs : RBNode.fuseSwap false x ⟨le, .black, ll, .none⟩ ⟨re, .black, .none, rr⟩ = ⟨le, .black, ll, .some re .black .none rr⟩ := rfl
            obtain ⟨y, g1, g2, _, _, _⟩ := RBNode.removeBalanceLeft_ok (A := A) (e := le) (c := .red) (l := ll)
              (r := .some re .black .none rr) hl.1 ⟨rfl, hr.2⟩ a3.weaken ⟨trivial, b4⟩
            simp only [hs, g1, Res.ok_bind, Bool.false_eq_true, if_false]
            have q1 := small_of_bh0 hl.1 a3
            have q2 := small_of_bh0 hr.2 b4
            refine ⟨true, y, rfl, by simp, ?_, ?_, by simp⟩
            · rw [RBNode.fusedTree_true, g2]; simp
            · rw [RBNode.fusedTree_true, g2]; simp; omega

/-- Fusing with a panicking drop: nothing new appears, at most four entries survive, and none is lost if a child is missing. -/
theorem removeFuseD_ok (node : RBNode K V) (l r : RBTree K V) {n : Nat} (hl : l.BH n) (hr : r.BH n) (h1 : l.NoRR) (h2 : r.NoRR) :
    ∃ b x, RBNode.removeFuseD A node l r = .ok (b, x) ∧
      (RBNode.fusedTree b x).toList.Sublist (l.toList ++ r.toList) ∧ (RBNode.fusedTree b x).toList.length ≤ 4 ∧
      (l = .none ∨ r = .none → (RBNode.fusedTree b x).toList = l.toList ++ r.toList) := by
  obtain ⟨b, x, h, _, h4, h5, h6⟩ := removeFuseD_aux (A := A) node _ l r (Nat.lt_succ_self _) hl hr h1 h2
  exact ⟨b, x, h, h4, h5, h6⟩

/-- What `del` leaves behind when the drop of the removed pair panics. -/
theorem delD_ok (lo : o.Lawful) (q : Q) (t : RBTree K V) {n : Nat} (hb : t.BH n) (h1 : t.NoRR) (hs : KeysSorted o t.toList) :
    (Spec.mapGet o.hits t.toList q = Option.none ∧ t.delD A o q = .ok Option.none) ∨
    ∃ t' p pre l kept r post, t.delD A o q = .ok (Option.some t') ∧ Spec.mapGet o.hits t.toList q = Option.some p ∧
      t.toList = pre ++ (l ++ p :: r) ++ post ∧ t'.toList = pre ++ kept ++ post ∧ kept.Sublist (l ++ r) ∧ kept.length ≤ 4 ∧
      (l = [] ∨ r = [] → kept = l ++ r) ∧
      (∀ e c tl tr, t = .some e c tl tr → o.cmpQ q (o.borrow e.1) = .eq → pre = [] ∧ post = []) := by
  induction t generalizing n with
  | none => exact .inl ⟨rfl, rfl⟩
  | some e c l r ihl ihr =>
    have hs' := hs
    obtain ⟨s1, s2, s3, s4⟩ := KeysSorted.split hs
    have hbs : ∃ k, l.BH k ∧ r.BH k := by
      cases c with
      | red => exact ⟨n, hb⟩
      | black => cases n with
        | zero => exact hb.elim
        | succ n => exact ⟨n, hb⟩
    obtain ⟨k, bl, br⟩ := hbs
    have hnn : l.NoRR ∧ r.NoRR := by
      cases c with
      | red => exact ⟨h1.2.2.1, h1.2.2.2⟩
      | black => exact h1
    obtain ⟨nl, nr⟩ := hnn
    rw [← get_eq lo q _ hs']
    rw [get, delD]
    cases hc : o.cmpQ q (o.borrow e.1) with
    | lt =>
      simp only
      rw [get_eq lo q _ s1]
      rcases ihl bl nl s1 with ⟨g1, g2⟩ | ⟨t', p, pre, a, kept, b, post, g1, g2, g3, g4, g5, g6, g7, _⟩
      · exact .inl ⟨g1, by simp [g2]⟩
      · exact .inr ⟨.some e c t' r, p, pre, a, kept, b, post ++ e :: r.toList, by simp [g1], g2, by simp [g3], by simp [g4], g5, g6, g7, by
          rintro _ _ _ _ ⟨⟩ h; rw [hc] at h; cases h⟩
    | gt =>
      simp only
      rw [get_eq lo q _ s2]
      rcases ihr br nr s2 with ⟨g1, g2⟩ | ⟨t', p, pre, a, kept, b, post, g1, g2, g3, g4, g5, g6, g7, _⟩
      · exact .inl ⟨g1, by simp [g2]⟩
      · exact .inr ⟨.some e c l t', p, l.toList ++ e :: pre, a, kept, b, post, by simp [g1], g2, by simp [g3], by simp [g4], g5, g6, g7, by
          rintro _ _ _ _ ⟨⟩ h; rw [hc] at h; cases h⟩
    | eq =>
      obtain ⟨b, x, g1, g2, g3, g4⟩ := removeFuseD_ok (A := A) ⟨e, c, .none, .none⟩ l r bl br nl nr
      refine .inr ⟨RBNode.fusedTree b x, e, [], l.toList, (RBNode.fusedTree b x).toList, r.toList, [], ?_, rfl, by simp, by simp, g2, g3, ?_, fun _ _ _ _ _ _ => ⟨rfl, rfl⟩⟩
      · simp only [g1, Res.ok_bind, Res.pure_eq]; rfl
      · intro h
        apply g4
        rcases h with h | h
        · exact .inl (by cases l <;> simp_all)
        · exact .inr (by cases r <;> simp_all)

end RBTree

namespace RBIter
variable {K V Q : Type} {A : Arch}

/-- Iterating from the front, with a counter that is too large. -/
theorem drives_long {β : Type} (o : OrdKeys K Q) {m : RBMap K V} (f : K × V → β) (F : List (K × V)) {it : RBIter K V} {B : List (K × V)}
    (h : RBRangeIter.LooseRel A m .unbounded .unbounded it.rangeIter F B) (hb : it.rangeIter.stackBackward = none)
    (hs : F.length ≤ it.size) : Drives (RBIter.mapNext A o f) it (F.map f) := by
  induction F generalizing it with
  | nil =>
    by_cases h0 : it.size > 0
    · obtain ⟨x, r, F', h1, h2, h3, h4, h5⟩ := RBRangeIter.next_loose (o := o.self) h
      obtain ⟨hx, hF⟩ := h5 rfl rfl hb
      rw [hx] at h1
      have hc : csub it.size 1 = .ok (it.size - 1) := by simp [csub]; omega
      exact .nil (s' := ⟨r, it.size - 1⟩) (by simp [mapNext, next, h0, h1, hc])
    · exact .nil (s' := it) (by simp [mapNext, next, h0])
  | cons a F ih =>
    obtain ⟨x, r, F', h1, h2, h3, h4, h5⟩ := RBRangeIter.next_loose (o := o.self) h
    obtain ⟨hx, hF⟩ := h5 rfl rfl hb
    rw [hF] at h2
    rw [hx] at h1
    simp only [List.length_cons] at hs
    have hc : csub it.size 1 = .ok (it.size - 1) := by simp [csub]; omega
    have h0 : it.size > 0 := by omega
    refine .cons (s' := ⟨r, it.size - 1⟩) ?_ (ih h2 (h4.trans hb) (by simp only; omega))
    simp [mapNext, next, h0, h1, hc]

end RBIter
end Rpds
