import Verif.RedBlack.Model
/-
Red-black invariants, and what balancing does to contents and invariants.
-/
set_option autoImplicit false
namespace Rpds

namespace RBTree
variable {K V : Type}

/-- Entries in order. -/
def toList : RBTree K V → List (K × V)
  | .none => []
  | .some e _ l r => l.toList ++ e :: r.toList

/-- Every path from here to a leaf has `n` black nodes. -/
def BH : RBTree K V → Nat → Prop
  | .none, n => n = 0
  | .some _ .red l r, n => l.BH n ∧ r.BH n
  | .some _ .black _ _, 0 => False
  | .some _ .black l r, n + 1 => l.BH n ∧ r.BH n

/-- Not a red node (so `none` or black). -/
def NotRed (t : RBTree K V) : Prop := t.color ≠ Option.some .red

/-- No red node has a red child. -/
def NoRR : RBTree K V → Prop
  | .none => True
  | .some _ .red l r => l.NotRed ∧ r.NotRed ∧ l.NoRR ∧ r.NoRR
  | .some _ .black l r => l.NoRR ∧ r.NoRR

/-- No red node has a red child, except perhaps the root. -/
def NoRR2 : RBTree K V → Prop
  | .none => True
  | .some _ _ l r => l.NoRR ∧ r.NoRR

theorem NoRR.weaken {t : RBTree K V} (h : t.NoRR) : t.NoRR2 := by
  cases t with
  | none => trivial
  | some e c l r => cases c <;> simp_all [NoRR, NoRR2]

@[simp] theorem notRed_none : (RBTree.none : RBTree K V).NotRed := by simp [NotRed, color]
@[simp] theorem notRed_black {e : K × V} {l r : RBTree K V} : (RBTree.some e .black l r).NotRed := by simp [NotRed, color]
@[simp] theorem notRed_red {e : K × V} {l r : RBTree K V} : ¬ (RBTree.some e .red l r).NotRed := by simp [NotRed, color]

@[simp] theorem toList_none : (RBTree.none : RBTree K V).toList = [] := rfl
@[simp] theorem toList_some {e : K × V} {c : Color} {l r : RBTree K V} : (RBTree.some e c l r).toList = l.toList ++ e :: r.toList := rfl

end RBTree

namespace RBNode
open RBTree
variable {K V : Type}

/-! The four rotations, and the cases where nothing happens. -/

theorem balance_1 (e e1 e2 : K × V) (a b c r : RBTree K V) :
    balance ⟨e, .black, .some e1 .red (.some e2 .red a b) c, r⟩ = .ok ⟨e1, .red, .some e2 .black a b, .some e .black c r⟩ := by
  rfl

theorem balance_2 (e e1 e2 : K × V) (a b c r : RBTree K V) (ha : a.NotRed) :
    balance ⟨e, .black, .some e1 .red a (.some e2 .red b c), r⟩ = .ok ⟨e2, .red, .some e1 .black a b, .some e .black c r⟩ := by
  cases a with
  | none => rfl
  | some _ ca _ _ => cases ca <;> first | rfl | simp at ha

theorem balance_3 (e e1 e2 : K × V) (l b c d : RBTree K V) (hl : l.NoRR) :
    balance ⟨e, .black, l, .some e1 .red (.some e2 .red b c) d⟩ = .ok ⟨e2, .red, .some e .black l b, .some e1 .black c d⟩ := by
  rcases l with _ | ⟨_, _ | _, _ | ⟨_, _ | _, _, _⟩, _ | ⟨_, _ | _, _, _⟩⟩ <;> first | rfl | simp [NoRR] at hl

theorem balance_4 (e e1 e2 : K × V) (l b c d : RBTree K V) (hl : l.NoRR) (hb : b.NotRed) :
    balance ⟨e, .black, l, .some e1 .red b (.some e2 .red c d)⟩ = .ok ⟨e1, .red, .some e .black l b, .some e2 .black c d⟩ := by
  rcases l with _ | ⟨_, _ | _, _ | ⟨_, _ | _, _, _⟩, _ | ⟨_, _ | _, _, _⟩⟩ <;> rcases b with _ | ⟨_, _ | _, _, _⟩ <;>
    first | rfl | (simp [NoRR] at hl; done) | exact absurd hb notRed_red

theorem balance_0 (e : K × V) (l r : RBTree K V) (hl : l.NoRR) (hr : r.NoRR) :
    balance ⟨e, .black, l, r⟩ = .ok ⟨e, .black, l, r⟩ := by
  rcases l with _ | ⟨_, _ | _, _ | ⟨_, _ | _, _, _⟩, _ | ⟨_, _ | _, _, _⟩⟩ <;> first | (simp [NoRR] at hl; done) | skip
  all_goals
    rcases r with _ | ⟨_, _ | _, _ | ⟨_, _ | _, _, _⟩, _ | ⟨_, _ | _, _, _⟩⟩ <;> first | rfl | simp [NoRR] at hr

/-- A tree that is fine except perhaps at the root: fine, or with a red root and a red left child, or with a red root and a red
right child. -/
theorem _root_.Rpds.RBTree.NoRR2.cases {t : RBTree K V} (h : t.NoRR2) :
    t.NoRR ∨ (∃ e e' a b c, t = .some e .red (.some e' .red a b) c) ∨
      (∃ e e' a b c, t = .some e .red a (.some e' .red b c) ∧ a.NotRed) := by
  rcases t with _ | ⟨e, _ | _, l, r⟩
  · exact .inl trivial
  · rcases l with _ | ⟨e', _ | _, a, b⟩
    · rcases r with _ | ⟨e', _ | _, a, b⟩
      · left; simp [NoRR]
      · right; right; exact ⟨_, _, _, _, _, rfl, by simp⟩
      · left; simp_all [NoRR, NoRR2]
    · right; left; exact ⟨_, _, _, _, _, rfl⟩
    · rcases r with _ | ⟨e', _ | _, a, b⟩
      · left; simp_all [NoRR, NoRR2]
      · right; right; exact ⟨_, _, _, _, _, rfl, by simp⟩
      · left; simp_all [NoRR, NoRR2]
  · left; simpa [NoRR, NoRR2] using h

/-- Balancing: `self` is black and at most one child has a red root with a red child. -/
theorem balance_ok {e : K × V} {l r : RBTree K V} {n : Nat} (hl : l.BH n) (hr : r.BH n)
    (h : (l.NoRR2 ∧ r.NoRR) ∨ (l.NoRR ∧ r.NoRR2)) :
    ∃ x, balance ⟨e, .black, l, r⟩ = .ok x ∧ x.ptr.toList = l.toList ++ e :: r.toList ∧ x.ptr.BH (n + 1) ∧ x.ptr.NoRR := by
  have h0 : l.NoRR → r.NoRR → ∃ x, balance ⟨e, .black, l, r⟩ = .ok x ∧ x.ptr.toList = l.toList ++ e :: r.toList ∧ x.ptr.BH (n + 1) ∧
      x.ptr.NoRR := fun h1 h2 => ⟨_, balance_0 e l r h1 h2, rfl, ⟨hl, hr⟩, ⟨h1, h2⟩⟩
  rcases h with ⟨h1, h2⟩ | ⟨h1, h2⟩
  · rcases h1.cases with h3 | ⟨e1, e2, a, b, c, rfl⟩ | ⟨e1, e2, a, b, c, rfl, ha⟩
    · exact h0 h3 h2
    · refine ⟨_, balance_1 .., ?_, ?_, ?_⟩ <;> simp_all [ptr, BH, NoRR, NoRR2]
    · refine ⟨_, balance_2 _ _ _ _ _ _ _ ha, ?_, ?_, ?_⟩ <;> simp_all [ptr, BH, NoRR, NoRR2]
  · rcases h2.cases with h3 | ⟨e1, e2, a, b, c, rfl⟩ | ⟨e1, e2, a, b, c, rfl, ha⟩
    · exact h0 h1 h3
    · refine ⟨_, balance_3 _ _ _ _ _ _ _ h1, ?_, ?_, ?_⟩ <;> simp_all [ptr, BH, NoRR, NoRR2]
    · refine ⟨_, balance_4 _ _ _ _ _ _ _ h1 ha, ?_, ?_, ?_⟩ <;> simp_all [ptr, BH, NoRR, NoRR2]

theorem _root_.Rpds.RBTree.NoRR2.noRR {t : RBTree K V} (h : t.NoRR2) (hn : t.NotRed) : t.NoRR := by
  rcases t with _ | ⟨e, _ | _, l, r⟩
  · trivial
  · simp at hn
  · exact h

/-- A tree of positive black height with no red root has a black root. -/
theorem _root_.Rpds.RBTree.BH.black {t : RBTree K V} {n : Nat} (h : t.BH (n + 1)) (hn : t.NotRed) :
    ∃ e l r, t = .some e .black l r ∧ l.BH n ∧ r.BH n := by
  rcases t with _ | ⟨e, _ | _, l, r⟩
  · simp [BH] at h
  · simp at hn
  · exact ⟨e, l, r, rfl, h⟩

variable {A : Arch}

theorem removeBalance_ok {e : K × V} {l r : RBTree K V} {n : Nat} (hl : l.BH n) (hr : r.BH n)
    (h : (l.NoRR2 ∧ r.NoRR) ∨ (l.NoRR ∧ r.NoRR2)) :
    ∃ x, removeBalance A ⟨e, .black, l, r⟩ = .ok x ∧ x.ptr.toList = l.toList ++ e :: r.toList ∧ x.ptr.BH (n + 1) ∧ x.ptr.NoRR := by
  by_cases hc : l.color = Option.some .red ∧ r.color = Option.some .red
  · rcases l with _ | ⟨el, _ | _, ll, lr⟩ <;> simp [RBTree.color] at hc
    rcases r with _ | ⟨er, _ | _, rl, rr⟩ <;> simp [RBTree.color] at hc
    have h1 : ll.NoRR ∧ lr.NoRR := by rcases h with ⟨h, _⟩ | ⟨h, _⟩ <;> simp_all [NoRR, NoRR2]
    have h2 : rl.NoRR ∧ rr.NoRR := by rcases h with ⟨_, h⟩ | ⟨_, h⟩ <;> simp_all [NoRR, NoRR2]
    refine ⟨⟨e, .red, .some el .black ll lr, .some er .black rl rr⟩, rfl, ?_, ?_, ?_⟩ <;> simp_all [ptr, BH, NoRR]
  · have : removeBalance A ⟨e, .black, l, r⟩ = balance ⟨e, .black, l, r⟩ := by
      simp only [removeBalance, leftColor, rightColor]
      split
      · rename_i h1 h2; exact absurd ⟨h1, h2⟩ hc
      · simp
    rw [this]
    exact balance_ok hl hr h

/-- Rebalancing after the left child lost a black level. -/
theorem removeBalanceLeft_ok {e : K × V} {c : Color} {l r : RBTree K V} {n : Nat} (hl : l.BH n) (hr : r.BH (n + 1))
    (h1 : l.NoRR2) (h2 : r.NoRR) :
    ∃ x, removeBalanceLeft A ⟨e, c, l, r⟩ = .ok x ∧ x.ptr.toList = l.toList ++ e :: r.toList ∧ x.ptr.BH (n + 1) ∧ x.ptr.NoRR2 ∧
      (r.NotRed → x.ptr.NoRR) := by
  by_cases hc : l.NotRed
  · have hc' : l.color ≠ Option.some .red := hc
    have h1' := h1.noRR hc
    by_cases hcr : r.NotRed
    · obtain ⟨er, rl, rr, rfl, g1, g2⟩ := hr.black hcr
      obtain ⟨x, e1, e2, e3, e4⟩ := removeBalance_ok (A := A) (e := e) (l := l) (r := .some er .red rl rr) (n := n) hl ⟨g1, g2⟩
        (.inr ⟨h1', h2⟩)
      refine ⟨x, ?_, e2, e3, e4.weaken, fun _ => e4⟩
      rw [← e1]
      rcases l with _ | ⟨el, _ | _, ll, lr⟩
      · rfl
      · exact absurd hc notRed_red
      · rfl
    · rcases r with _ | ⟨er, _ | _, rl, rr⟩
      · simp at hcr
      · obtain ⟨h3, h4, h5, h6⟩ := h2
        obtain ⟨e5, a, b, rfl, g1, g2⟩ := hr.1.black h3
        obtain ⟨e6, a', b', rfl, g3, g4⟩ := hr.2.black h4
        obtain ⟨x, e1, e2, e3, e4⟩ := removeBalance_ok (A := A) (e := er) (l := b) (r := .some e6 .red a' b') (n := n) g2 ⟨g3, g4⟩
          (.inr ⟨h5.2, h6⟩)
        refine ⟨⟨e5, .red, .some e .black l a, x.ptr⟩, ?_, ?_, ?_, ?_, fun h => by simp at h⟩
        · rcases l with _ | ⟨el, _ | _, ll, lr⟩
          · simp [removeBalanceLeft, leftColor, rightColor, RBTree.color, RBTree.leftColor, removeBalanceLeft3, node?, setColor, e1, ptr]
          · exact absurd hc notRed_red
          · simp [removeBalanceLeft, leftColor, rightColor, RBTree.color, RBTree.leftColor, removeBalanceLeft3, node?, setColor, e1, ptr]
        · show (l.toList ++ e :: a.toList) ++ e5 :: x.ptr.toList = _
          rw [e2]; simp
        · exact ⟨⟨hl, g1⟩, e3⟩
        · exact ⟨⟨h1', h5.1⟩, e4⟩
      · simp at hcr
  · rcases l with _ | ⟨el, _ | _, ll, lr⟩
    · simp at hc
    · refine ⟨⟨e, .red, .some el .black ll lr, r⟩, rfl, ?_, ?_, ?_, ?_⟩
      · simp [ptr]
      · exact ⟨hl, hr⟩
      · exact ⟨h1, h2⟩
      · intro h; exact ⟨by simp, h, h1, h2⟩
    · simp at hc

/-- Rebalancing after the right child lost a black level. -/
theorem removeBalanceRight_ok {e : K × V} {c : Color} {l r : RBTree K V} {n : Nat} (hl : l.BH (n + 1)) (hr : r.BH n)
    (h1 : l.NoRR) (h2 : r.NoRR2) :
    ∃ x, removeBalanceRight A ⟨e, c, l, r⟩ = .ok x ∧ x.ptr.toList = l.toList ++ e :: r.toList ∧ x.ptr.BH (n + 1) ∧ x.ptr.NoRR2 ∧
      (l.NotRed → x.ptr.NoRR) := by
  by_cases hc : r.NotRed
  · have h2' := h2.noRR hc
    by_cases hcl : l.NotRed
    · obtain ⟨el, ll, lr, rfl, g1, g2⟩ := hl.black hcl
      obtain ⟨x, e1, e2, e3, e4⟩ := removeBalance_ok (A := A) (e := e) (l := .some el .red ll lr) (r := r) (n := n) ⟨g1, g2⟩ hr
        (.inl ⟨h1, h2'⟩)
      refine ⟨x, ?_, by simpa using e2, e3, e4.weaken, fun _ => e4⟩
      rw [← e1]
      rcases r with _ | ⟨er, _ | _, rl, rr⟩
      · rfl
      · exact absurd hc notRed_red
      · rfl
    · rcases l with _ | ⟨el, _ | _, ll, lr⟩
      · simp at hcl
      · obtain ⟨h3, h4, h5, h6⟩ := h1
        obtain ⟨e5, a, b, rfl, g1, g2⟩ := hl.1.black h3
        obtain ⟨e6, a', b', rfl, g3, g4⟩ := hl.2.black h4
        obtain ⟨x, e1, e2, e3, e4⟩ := removeBalance_ok (A := A) (e := el) (l := .some e5 .red a b) (r := a') (n := n) ⟨g1, g2⟩ g3
          (.inl ⟨h5, h6.1⟩)
        refine ⟨⟨e6, .red, x.ptr, .some e .black b' r⟩, ?_, ?_, ?_, ?_, fun h => by simp at h⟩
        · rcases r with _ | ⟨er, _ | _, rl, rr⟩
          · simp [removeBalanceRight, leftColor, rightColor, RBTree.color, RBTree.rightColor, removeBalanceRight3, node?, setColor, e1, ptr]
          · exact absurd hc notRed_red
          · simp [removeBalanceRight, leftColor, rightColor, RBTree.color, RBTree.rightColor, removeBalanceRight3, node?, setColor, e1, ptr]
        · show x.ptr.toList ++ e6 :: (b'.toList ++ e :: r.toList) = _
          rw [e2]; simp
        · exact ⟨e3, g4, hr⟩
        · exact ⟨e4, h6.2, h2'⟩
      · simp at hcl
  · rcases r with _ | ⟨er, _ | _, rl, rr⟩
    · simp at hc
    · refine ⟨⟨e, .red, l, .some er .black rl rr⟩, ?_, ?_, ?_, ?_, ?_⟩
      · simp [removeBalanceRight, leftColor, rightColor, RBTree.color, setColor]
      · simp [ptr]
      · exact ⟨hl, hr⟩
      · exact ⟨h1, h2⟩
      · intro h; exact ⟨h, by simp, h1, h2⟩
    · simp at hc

/-- The tree written by `remove_fuse`. -/
def fusedTree (b : Bool) (x : RBNode K V) : RBTree K V := if b then x.ptr else .none

theorem fusedTree_false (x : RBNode K V) : fusedTree false x = .none := rfl
theorem fusedTree_true (x : RBNode K V) : fusedTree true x = x.ptr := rfl

/-- Fusing two trees of the same black height, by induction on a bound of their sizes. -/
theorem removeFuse_aux (node : RBNode K V) (N : Nat) : ∀ (l r : RBTree K V), l.count + r.count < N → ∀ {n : Nat}, l.BH n → r.BH n →
    l.NoRR → r.NoRR →
    ∃ b x, removeFuse A node l r = .ok (b, x) ∧ (fusedTree b x).toList = l.toList ++ r.toList ∧ (fusedTree b x).BH n ∧
      (fusedTree b x).NoRR2 ∧ (l.NotRed → r.NotRed → (fusedTree b x).NoRR) := by
  induction N with
  | zero => intro l r h; omega
  | succ N ih =>
    intro l r hN n hl hr h1 h2
    rcases l with _ | ⟨le, lc, ll, lr⟩
    · rcases r with _ | ⟨re, rc, rl, rr⟩
      · exact ⟨false, node, by rw [removeFuse]; rfl, rfl, hl, trivial, fun _ _ => trivial⟩
      · exact ⟨true, ⟨re, rc, rl, rr⟩, by rw [removeFuse]; rfl, rfl, hr, h2.weaken, fun _ _ => h2⟩
    · rcases r with _ | ⟨re, rc, rl, rr⟩
      · exact ⟨true, ⟨le, lc, ll, lr⟩, by rw [removeFuse]; rfl, by simp [fusedTree, ptr], hl, h1.weaken, fun _ _ => h1⟩
      · cases lc <;> cases rc
        · -- red, red
          obtain ⟨a1, a2, a3, a4⟩ := h1
          obtain ⟨b1, b2, b3, b4⟩ := h2
          obtain ⟨b, x, e1, e2, e3, e4, e5⟩ := ih lr rl (by simp only [count] at hN; omega) hl.2 hr.1 a4 b3
          have e5 := e5 a2 b1
          rw [removeFuse]
          simp only [e1, Res.ok_bind]
          by_cases hx : (x.color == .red && b) = true
          · simp only [hx, if_true, Res.pure_eq]
            obtain ⟨xe, xc, xl, xr⟩ := x
            simp only [Bool.and_eq_true, beq_iff_eq] at hx
            obtain ⟨rfl, rfl⟩ := hx
            simp only [fusedTree_true, ptr, toList_some] at e2 e3 e5
            obtain ⟨c1, c2, c3, c4⟩ := e5
            refine ⟨true, _, rfl, ?_, ?_, ?_, fun h => by simp at h⟩
            · simp only [fusedTree_true, fuseRed, ptr, toList_some, List.append_assoc, List.cons_append]
              simpa using congrArg (· ++ re :: rr.toList) e2
            · exact ⟨⟨hl.1, e3.1⟩, e3.2, hr.2⟩
            · exact ⟨⟨a1, c1, a3, c3⟩, c2, b2, c4, b4⟩
          · simp only [hx, Bool.false_eq_true, if_false, Res.pure_eq]
            have hn : (fusedTree b x).NotRed := by
              cases b with
              | false => simp [fusedTree_false]
              | true =>
                obtain ⟨xe, xc, xl, xr⟩ := x
                cases xc with
                | red => simp at hx
                | black => simp [fusedTree_true, ptr]
            have hs : fuseSwap b x ⟨le, .red, ll, .none⟩ ⟨re, .red, .none, rr⟩ = ⟨le, .red, ll, .some re .red (fusedTree b x) rr⟩ := by
              cases b <;> rfl
            rw [hs]
            refine ⟨true, _, rfl, ?_, ?_, ?_, fun h => by simp at h⟩
            · simp only [fusedTree_true, ptr, toList_some, e2]; simp
            · exact ⟨hl.1, e3, hr.2⟩
            · exact ⟨a3, hn, b2, e5, b4⟩
        · -- red, black
          obtain ⟨a1, a2, a3, a4⟩ := h1
          obtain ⟨b, x, e1, e2, e3, e4, e5⟩ := ih lr (.some re .black rl rr) (by simp only [count] at hN ⊢; omega) hl.2 hr a4 h2
          have e5 := e5 a2 (by simp)
          have hb : b = true := by
            cases b with
            | true => rfl
            | false => simp [fusedTree_false] at e2
          subst hb
          rw [removeFuse]
          simp only [e1, Res.ok_bind, Res.pure_eq]
          refine ⟨true, _, rfl, ?_, ?_, ?_, fun h => by simp at h⟩
          · rw [fusedTree_true] at e2
            simp only [fusedTree_true, ptr, toList_some] at e2 ⊢
            rw [e2]; simp
          · exact ⟨hl.1, e3⟩
          · exact ⟨a3, e5⟩
        · -- black, red
          obtain ⟨b1, b2, b3, b4⟩ := h2
          obtain ⟨b, x, e1, e2, e3, e4, e5⟩ := ih (.some le .black ll lr) rl (by simp only [count] at hN ⊢; omega) hl hr.1 h1 b3
          have e5 := e5 (by simp) b1
          have hb : b = true := by
            cases b with
            | true => rfl
            | false => simp [fusedTree_false] at e2
          subst hb
          rw [removeFuse]
          simp only [e1, Res.ok_bind, Res.pure_eq]
          refine ⟨true, _, rfl, ?_, ?_, ?_, fun _ h => by simp at h⟩
          · rw [fusedTree_true] at e2
            simp only [fusedTree_true, ptr, toList_some] at e2 ⊢
            rw [e2]; simp
          · exact ⟨e3, hr.2⟩
          · exact ⟨e5, b4⟩
        · -- black, black
          obtain ⟨a3, a4⟩ := h1
          obtain ⟨b3, b4⟩ := h2
          match n, hl, hr with
          | 0, hl, _ => exact hl.elim
          | n + 1, hl, hr =>
          obtain ⟨b, x, e1, e2, e3, e4, e5⟩ := ih lr rl (by simp only [count] at hN; omega) hl.2 hr.1 a4 b3
          rw [removeFuse]
          simp only [e1, Res.ok_bind]
          by_cases hx : (x.color == .red && b) = true
          · simp only [hx, if_true, Res.pure_eq]
            obtain ⟨xe, xc, xl, xr⟩ := x
            simp only [Bool.and_eq_true, beq_iff_eq] at hx
            obtain ⟨rfl, rfl⟩ := hx
            simp only [fusedTree_true, ptr, toList_some] at e2 e3 e4
            have hN : (fusedTree true (fuseRed ⟨xe, .red, xl, xr⟩ ⟨le, .black, ll, .none⟩ ⟨re, .black, .none, rr⟩)).NoRR :=
              ⟨notRed_black, notRed_black, ⟨a3, e4.1⟩, e4.2, b4⟩
            refine ⟨true, _, rfl, ?_, ?_, hN.weaken, fun _ _ => hN⟩
            · simp only [fusedTree_true, fuseRed, ptr, toList_some, List.append_assoc, List.cons_append]
              simpa using congrArg (· ++ re :: rr.toList) e2
            · exact ⟨⟨hl.1, e3.1⟩, e3.2, hr.2⟩
          · simp only [hx, Bool.false_eq_true, if_false, Res.pure_eq]
            have hn : (fusedTree b x).NotRed := by
              cases b with
              | false => simp [fusedTree_false]
              | true =>
                obtain ⟨xe, xc, xl, xr⟩ := x
                cases xc with
                | red => simp at hx
                | black => simp [fusedTree_true, ptr]
            have hs : fuseSwap b x ⟨le, .black, ll, .none⟩ ⟨re, .black, .none, rr⟩ = ⟨le, .black, ll, .some re .black (fusedTree b x) rr⟩ := by
              cases b <;> rfl
            rw [hs]
            obtain ⟨y, g1, g2, g3, g4, g5⟩ := removeBalanceLeft_ok (A := A) (e := le) (c := .red) (l := ll)
              (r := .some re .black (fusedTree b x) rr) hl.1 ⟨e3, hr.2⟩ a3.weaken ⟨e4.noRR hn, b4⟩
            simp only [g1, Res.ok_bind]
            refine ⟨true, _, rfl, ?_, g3, g4, fun _ _ => g5 (by simp)⟩
            rw [fusedTree_true, g2]
            simp [e2]

/-- Fusing two trees of the same black height. -/
theorem removeFuse_ok (node : RBNode K V) (l r : RBTree K V) {n : Nat} (hl : l.BH n) (hr : r.BH n) (h1 : l.NoRR) (h2 : r.NoRR) :
    ∃ b x, removeFuse A node l r = .ok (b, x) ∧ (fusedTree b x).toList = l.toList ++ r.toList ∧ (fusedTree b x).BH n ∧
      (fusedTree b x).NoRR2 ∧ (l.NotRed → r.NotRed → (fusedTree b x).NoRR) :=
  removeFuse_aux node _ l r (Nat.lt_succ_self _) hl hr h1 h2

end RBNode
end Rpds
