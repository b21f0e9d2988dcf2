import Verif.RedBlack.Update
import Verif.Iter
/-
The iterators over red-black trees: the stack of one direction, ranges from both ends, the capacity reserved.
-/
set_option autoImplicit false
namespace Rpds
open Spec

namespace RBTree
variable {K V Q : Type} {o : OrdKeys K Q}

/-- Number of nodes on the longest path down. -/
def height : RBTree K V → Nat
  | .none => 0
  | .some _ _ l r => 1 + max l.height r.height

/-- `min` number of nodes below a black height. -/
theorem BH.size_ge {t : RBTree K V} {n : Nat} (h : t.BH n) : 2 ^ n ≤ t.toList.length + 1 := by
  induction t generalizing n with
  | none => have h : n = 0 := h; subst h; simp
  | some e c l r ihl ihr =>
    cases c with
    | red =>
      have h1 := ihl h.1
      have h2 := ihr h.2
      simp only [toList_some, List.length_append, List.length_cons]; omega
    | black =>
      cases n with
      | zero => exact h.elim
      | succ n =>
        have h1 := ihl h.1
        have h2 := ihr h.2
        simp only [toList_some, List.length_append, List.length_cons, Nat.pow_succ]; omega

/-- Red nodes at most double the black height. -/
theorem BH.height_le {t : RBTree K V} {n : Nat} (h : t.BH n) (hn : t.NoRR) : t.height ≤ 2 * n + (if t.color = Option.some .red then 1 else 0) := by
  induction t generalizing n with
  | none => simp [height]
  | some e c l r ihl ihr =>
    cases c with
    | red =>
      have h1 := ihl h.1 hn.2.2.1
      have h2 := ihr h.2 hn.2.2.2
      rw [if_neg hn.1] at h1
      rw [if_neg hn.2.1] at h2
      simp only [height, color, if_true]; omega
    | black =>
      cases n with
      | zero => exact h.elim
      | succ n =>
        have h1 := ihl h.1 hn.1
        have h2 := ihr h.2 hn.2
        simp only [height, color]
        split at h1 <;> split at h2 <;> (simp; omega)

theorem OK.height_le {t : RBTree K V} (h : t.OK o) : t.height ≤ 2 * Nat.log2 (t.toList.length + 1) := by
  obtain ⟨n, hn⟩ := h.bh
  have h1 := hn.height_le h.noRR
  rw [if_neg h.root] at h1
  have h2 := hn.size_ge
  have h3 : n ≤ Nat.log2 (t.toList.length + 1) := (Nat.le_log2 (by omega)).2 h2
  omega

/-- Entries in the order of a direction. -/
def treeItems (b : Bool) (t : RBTree K V) : List (K × V) := if b then t.toList.reverse else t.toList

theorem treeItems_some (b : Bool) (e : K × V) (c : Color) (l r : RBTree K V) :
    treeItems b (.some e c l r) = treeItems b (if b then r else l) ++ e :: treeItems b (if b then l else r) := by
  cases b <;> simp [treeItems]

end RBTree

theorem lgFloor_ok {A : Arch} {n : Nat} (h0 : 0 < n) (h : n < 2 ^ A.W) : lgFloor A n = .ok (Nat.log2 n) := by
  have h1 : Nat.log2 n < A.W := (Nat.log2_lt (by omega)).2 h
  have hb : bitLen n = Nat.log2 n + 1 := by simp [bitLen]; omega
  simp only [lgFloor, Arch.leadingZeros, hb, h0, decide_true, Arch.debugAssert_true, Res.ok_bind, Arch.usub]
  rw [if_pos (by omega)]
  simp only [Res.ok_bind]
  rw [if_pos (by omega)]
  congr 1; omega

theorem conservativeHeight_ok {A : Arch} {n : Nat} (hW : 3 ≤ A.W) (h : n + 1 < 2 ^ A.W) :
    conservativeHeight A n = .ok (2 * Nat.log2 (n + 1)) ∧ 2 * Nat.log2 (n + 1) + 1 < 2 ^ A.W := by
  have h1 : Nat.log2 (n + 1) < A.W := (Nat.log2_lt (by omega)).2 h
  have h2 : ∀ w, 3 ≤ w → 2 * w ≤ 2 ^ w := by
    intro w
    induction w with
    | zero => intro h; omega
    | succ w ih =>
      intro hw
      rw [Nat.pow_succ]
      by_cases h3 : w = 2
      · subst h3; decide
      · have := ih (by omega); omega
  have h3 := h2 A.W hW
  refine ⟨?_, by omega⟩
  unfold conservativeHeight
  split
  · simp only [Arch.uadd, if_pos h, Res.ok_bind, lgFloor_ok (show 0 < n + 1 by omega) h, Arch.umul]
    rw [if_pos (by omega)]
  · have : n = 0 := by omega
    subst this; rfl

namespace IterStack
variable {K V Q : Type} {A : Arch} {o : OrdKeys K Q} {start end_ : Bound Q}

/-- The test an entry has to pass to be pushed when the stack is set up. -/
def enter (o : OrdKeys K Q) (start end_ : Bound Q) (b : Bool) (k : K) : Bool := if b then beforeEnd o end_ k else afterStart o start k

/-- The test an entry has to pass for the iteration to go on. -/
def exit (o : OrdKeys K Q) (start end_ : Bound Q) (b : Bool) (k : K) : Bool := if b then afterStart o start k else beforeEnd o end_ k

/-- Comes earlier in the direction of iteration. -/
def DirLt (o : OrdKeys K Q) (b : Bool) (x y : K × V) : Prop := if b then o.cmpK y.1 x.1 = .lt else o.cmpK x.1 y.1 = .lt

theorem afterStart_mono (lo : o.Lawful) {a b : K} (hab : o.cmpK a b = .lt) (h : afterStart o start a = true) : afterStart o start b = true := by
  cases start with
  | unbounded => rfl
  | included v =>
    simp only [afterStart, bne_iff_ne, ne_eq] at h ⊢
    intro hb
    exact h (OrdKeys.lt_trans' lo.ordQ (by rw [lo.borrow]; exact hab) hb)
  | excluded v =>
    simp only [afterStart, beq_iff_eq] at h ⊢
    have h1 : o.cmpQ v (o.borrow a) = .lt := by rw [lo.ordQ.oriented, h]; rfl
    have := OrdKeys.lt_trans' lo.ordQ h1 (show o.cmpQ (o.borrow a) (o.borrow b) = .lt by rw [lo.borrow]; exact hab)
    rw [lo.ordQ.oriented, this]; rfl

theorem beforeEnd_mono (lo : o.Lawful) {a b : K} (hab : o.cmpK a b = .lt) (h : beforeEnd o end_ b = true) : beforeEnd o end_ a = true := by
  cases end_ with
  | unbounded => rfl
  | included v =>
    simp only [beforeEnd, bne_iff_ne, ne_eq] at h ⊢
    intro ha
    have h1 : o.cmpQ v (o.borrow a) = .lt := by rw [lo.ordQ.oriented, ha]; rfl
    have := OrdKeys.lt_trans' lo.ordQ h1 (show o.cmpQ (o.borrow a) (o.borrow b) = .lt by rw [lo.borrow]; exact hab)
    exact h (by rw [lo.ordQ.oriented, this]; rfl)
  | excluded v =>
    simp only [beforeEnd, beq_iff_eq] at h ⊢
    exact OrdKeys.lt_trans' lo.ordQ (by rw [lo.borrow]; exact hab) h

theorem enter_mono (lo : o.Lawful) {b : Bool} {x y : K × V} (h : DirLt o b x y) (hx : enter o start end_ b x.1 = true) :
    enter o start end_ b y.1 = true := by
  cases b
  · exact afterStart_mono lo h hx
  · exact beforeEnd_mono lo h hx

theorem exit_mono (lo : o.Lawful) {b : Bool} {x y : K × V} (h : DirLt o b x y) (hy : exit o start end_ b y.1 = true) :
    exit o start end_ b x.1 = true := by
  cases b
  · exact beforeEnd_mono lo h hy
  · exact afterStart_mono lo h hy

/-- What is still to come from a stack, without regard to the bound where the iteration ends. -/
def items (b : Bool) (st : List (RBNode K V)) : List (K × V) := st.flatMap fun n => n.entry :: RBTree.treeItems b (if b then n.left else n.right)

@[simp] theorem items_nil (b : Bool) : items b ([] : List (RBNode K V)) = [] := rfl
theorem items_cons (b : Bool) (n : RBNode K V) (st : List (RBNode K V)) :
    items b (n :: st) = n.entry :: (RBTree.treeItems b (if b then n.left else n.right) ++ items b st) := by
  simp [items]

theorem digChild_ok (t : RBTree K V) (s : IterStack K V) :
    (s.digChild t).backwards = s.backwards ∧ (s.digChild t).cap = s.cap ∧
      items s.backwards (s.digChild t).stack = RBTree.treeItems s.backwards t ++ items s.backwards s.stack := by
  induction t generalizing s with
  | none => simp [digChild, RBTree.treeItems]
  | some e c l r ihl ihr =>
    rw [digChild, RBTree.treeItems_some]
    cases hb : s.backwards with
    | false =>
      obtain ⟨h1, h2, h3⟩ := ihl { s with stack := ⟨e, c, l, r⟩ :: s.stack }
      simp only [hb] at h1 h2 h3
      simp only [Bool.false_eq_true, if_false]
      refine ⟨h1, h2, ?_⟩
      rw [h3, items_cons]; simp
    | true =>
      obtain ⟨h1, h2, h3⟩ := ihr { s with stack := ⟨e, c, l, r⟩ :: s.stack }
      simp only [hb] at h1 h2 h3
      simp only [if_true]
      refine ⟨h1, h2, ?_⟩
      rw [h3, items_cons]; simp

theorem dig_push (s : IterStack K V) (t : RBTree K V) :
    (match t with | .none => s | .some e c l r => dig { s with stack := ⟨e, c, l, r⟩ :: s.stack }) = s.digChild t := by
  cases t with
  | none => rfl
  | some e c l r =>
    simp only [dig, digChild]
    cases s.backwards <;> simp

theorem digTowards_ok (lo : o.Lawful) (t : RBTree K V) (s : IterStack K V)
    (hs : (RBTree.treeItems s.backwards t).Pairwise (DirLt o s.backwards)) :
    (s.digTowards o start end_ t).backwards = s.backwards ∧ (s.digTowards o start end_ t).cap = s.cap ∧
      items s.backwards (s.digTowards o start end_ t).stack =
        (RBTree.treeItems s.backwards t).filter (fun e => enter o start end_ s.backwards e.1) ++ items s.backwards s.stack := by
  induction t generalizing s with
  | none => simp [digTowards, RBTree.treeItems]
  | some e c l r ihl ihr =>
    rw [RBTree.treeItems_some] at hs ⊢
    rw [List.filter_append, List.filter_cons]
    have hp := List.pairwise_append.1 hs
    have hp2 := List.pairwise_cons.1 hp.2.1
    by_cases hin : enter o start end_ s.backwards e.1 = true
    · -- the far part passes the test too
      have hfar : (RBTree.treeItems s.backwards (if s.backwards then l else r)).filter (fun e => enter o start end_ s.backwards e.1) =
          RBTree.treeItems s.backwards (if s.backwards then l else r) := by
        rw [List.filter_eq_self]; intro x hx; exact enter_mono lo (hp2.1 x hx) hin
      rw [if_pos hin, hfar]
      cases hb : s.backwards with
      | false =>
        simp only [hb, Bool.false_eq_true, if_false] at hp hin ⊢
        have hin' : afterStart o start e.1 = true := hin
        obtain ⟨h1, h2, h3⟩ := ihl { s with stack := ⟨e, c, l, r⟩ :: s.stack } (by simpa [hb] using hp.1)
        simp only [hb] at h1 h2 h3
        simp only [digTowards, hb, Bool.false_eq_true, if_false, hin', if_true]
        refine ⟨h1, h2, ?_⟩
        rw [h3, items_cons]; simp
      | true =>
        simp only [hb, if_true] at hp hin ⊢
        have hin' : beforeEnd o end_ e.1 = true := hin
        obtain ⟨h1, h2, h3⟩ := ihr { s with stack := ⟨e, c, l, r⟩ :: s.stack } (by simpa [hb] using hp.1)
        simp only [hb] at h1 h2 h3
        simp only [digTowards, hb, hin', if_true]
        refine ⟨h1, h2, ?_⟩
        rw [h3, items_cons]; simp
    · -- the near part fails the test too
      have hnear : (RBTree.treeItems s.backwards (if s.backwards then r else l)).filter (fun e => enter o start end_ s.backwards e.1) = [] := by
        rw [List.filter_eq_nil_iff]; intro x hx hx'
        exact hin (enter_mono lo (hp.2.2 x hx e (by simp)) hx')
      rw [if_neg hin, hnear, List.nil_append]
      cases hb : s.backwards with
      | false =>
        simp only [hb, Bool.false_eq_true, if_false] at hp2 hin ⊢
        have hin' : afterStart o start e.1 = false := by simpa [enter] using hin
        obtain ⟨h1, h2, h3⟩ := ihr s (by simpa [hb] using hp2.2)
        simp only [hb] at h1 h2 h3
        simp only [digTowards, hb, Bool.false_eq_true, if_false, hin']
        exact ⟨h1, h2, h3⟩
      | true =>
        simp only [hb, if_true] at hp2 hin ⊢
        have hin' : beforeEnd o end_ e.1 = false := by simpa [enter] using hin
        obtain ⟨h1, h2, h3⟩ := ihl s (by simpa [hb] using hp2.2)
        simp only [hb] at h1 h2 h3
        simp only [digTowards, hb, if_true, hin', Bool.false_eq_true, if_false]
        exact ⟨h1, h2, h3⟩

/-- The stack `s` of direction `b` is going to produce exactly `R`. -/
structure Eff (o : OrdKeys K Q) (start end_ : Bound Q) (b : Bool) (s : IterStack K V) (R : List (K × V)) : Prop where
  dir : s.backwards = b
  sorted : (items b s.stack).Pairwise (DirLt o b)
  eff : (items b s.stack).filter (fun e => exit o start end_ b e.1) = R
  top : ∀ n rest, s.stack = n :: rest → exit o start end_ b n.entry.1 = true

theorem Eff.current {b : Bool} {s : IterStack K V} {R : List (K × V)} (h : Eff o start end_ b s R) : s.current = R.head? := by
  rw [← h.eff, IterStack.current]
  cases hs : s.stack with
  | nil => rfl
  | cons n rest =>
    rw [items_cons, List.filter_cons, if_pos (h.top n rest hs)]
    rfl

theorem clear_ok (lo : o.Lawful) {b : Bool} {s : IterStack K V} (hd : s.backwards = b) (hs : (items b s.stack).Pairwise (DirLt o b)) :
    Eff o start end_ b (s.clearIfFinished o start end_) ((items b s.stack).filter fun e => exit o start end_ b e.1) := by
  unfold clearIfFinished
  have hif : ∀ k : K, (if s.backwards then afterStart o start k else beforeEnd o end_ k) = exit o start end_ b k := by
    intro k; rw [exit, hd]
  cases hst : s.stack with
  | nil =>
    simp only [current, hst, List.head?_nil, Option.map_none]
    exact ⟨hd, by simp [hst], by simp [hst], by simp [hst]⟩
  | cons n rest =>
    simp only [current, hst, List.head?_cons, Option.map_some, hif]
    rw [hst, items_cons] at hs
    cases he : exit o start end_ b n.entry.1 with
    | true =>
      simp only [Bool.not_true, Bool.false_eq_true, if_false]
      refine ⟨hd, by rw [hst, items_cons]; exact hs, by rw [hst], ?_⟩
      intro n' rest' h'
      rw [hst] at h'
      cases h'
      exact he
    | false =>
      simp only [Bool.not_false, if_true]
      refine ⟨hd, by simp, ?_, by simp⟩
      symm
      simp only [items_nil, List.filter_nil]
      rw [List.filter_eq_nil_iff, items_cons]
      intro x hx hx'
      have hx'' : exit o start end_ b n.entry.1 = true := by
        rcases List.mem_cons.1 hx with rfl | hx
        · exact hx'
        · exact exit_mono lo ((List.pairwise_cons.1 hs).1 x hx) hx'
      rw [he] at hx''; cases hx''

theorem Eff.advance (lo : o.Lawful) {b : Bool} {s : IterStack K V} {R : List (K × V)} (h : Eff o start end_ b s R) :
    Eff o start end_ b (s.advance o start end_) R.tail := by
  cases hst : s.stack with
  | nil =>
    have hR : R = [] := by rw [← h.eff, hst]; rfl
    have : s.advance o start end_ = s := by simp [IterStack.advance, hst]
    rw [this, hR]
    rw [hR] at h
    exact h
  | cons n rest =>
    have ht := h.top n rest hst
    have hadv : s.advance o start end_ =
        (({ s with stack := rest } : IterStack K V).digChild (if s.backwards then n.left else n.right)).clearIfFinished o start end_ := by
      simp only [IterStack.advance, hst]
      rw [← dig_push]
      cases (if s.backwards then n.left else n.right) <;> rfl
    obtain ⟨h1, h2, h3⟩ := digChild_ok (if s.backwards then n.left else n.right) ({ s with stack := rest } : IterStack K V)
    simp only [h.dir] at h1 h3 hadv
    have hs := h.sorted
    rw [hst, items_cons] at hs
    have hR : R.tail = (RBTree.treeItems b (if b then n.left else n.right) ++ items b rest).filter (fun e => exit o start end_ b e.1) := by
      rw [← h.eff, hst, items_cons, List.filter_cons, if_pos ht]
      rfl
    rw [hadv, hR, ← h3]
    exact clear_ok lo h1 (by rw [h3]; exact (List.pairwise_cons.1 hs).2)

theorem treeItems_sorted {t : RBTree K V} (h : KeysSorted o t.toList) (b : Bool) : (RBTree.treeItems b t).Pairwise (DirLt o b) := by
  cases b
  · exact h
  · simp only [RBTree.treeItems, if_true]
    rw [List.pairwise_reverse]
    exact h

/-- Setting up a stack does not panic and will produce the entries within the bounds, in the order of the direction. -/
theorem new_ok (lo : o.Lawful) (hW : 3 ≤ A.W) {m : RBMap K V} (hs : KeysSorted o m.root.toList) (hsz : m.size + 1 < 2 ^ A.W) (b : Bool) :
    ∃ s, IterStack.new A o m start end_ b = .ok s ∧
      Eff o start end_ b s ((RBTree.treeItems b m.root).filter fun e => enter o start end_ b e.1 && exit o start end_ b e.1) := by
  obtain ⟨h1, h2⟩ := conservativeHeight_ok hW hsz
  refine ⟨(({ stack := [], backwards := b, cap := 2 * Nat.log2 (m.size + 1) + 1 } : IterStack K V).digTowards o start end_ m.root).clearIfFinished
    o start end_, ?_, ?_⟩
  · simp only [IterStack.new, h1, Res.ok_bind, Arch.uadd]
    rw [if_pos h2]
    rfl
  · obtain ⟨g1, g2, g3⟩ := digTowards_ok (start := start) (end_ := end_) lo m.root
      ({ stack := [], backwards := b, cap := 2 * Nat.log2 (m.size + 1) + 1 } : IterStack K V) (treeItems_sorted hs b)
    simp only [items_nil, List.append_nil] at g1 g3
    have := clear_ok (start := start) (end_ := end_) lo g1 (by rw [g3]; exact List.Pairwise.filter _ (treeItems_sorted hs b))
    rw [g3, List.filter_filter] at this
    simpa only [Bool.and_comm] using this

/-! ### The capacity reserved for the stack is never exceeded -/

/-- The nodes on the stack lie on one path down from a tree of height `H`. -/
def Chain (H : Nat) (st : List (RBNode K V)) : Prop :=
  st.Pairwise (fun a b => a.ptr.height < b.ptr.height) ∧ ∀ n ∈ st, n.ptr.height ≤ H

theorem Chain.length_le {H : Nat} {st : List (RBNode K V)} (h : Chain H st) : st.length ≤ H := by
  have key : ∀ (st : List (RBNode K V)) (n : RBNode K V), Chain H (n :: st) → st.length + n.ptr.height ≤ H := by
    intro st
    induction st with
    | nil => intro n h; simpa using h.2 n (by simp)
    | cons a st ih =>
      intro n h
      have h1 := List.pairwise_cons.1 h.1
      have h2 := ih a ⟨h1.2, fun x hx => h.2 x (by simp [hx])⟩
      have h3 := h1.1 a (by simp)
      simp only [List.length_cons]; omega
  cases st with
  | nil => simp
  | cons n st =>
    have := key st n h
    have h1 : 1 ≤ n.ptr.height := by simp only [RBNode.ptr, RBTree.height]; omega
    simp only [List.length_cons]; omega

theorem Chain.push {H : Nat} {st : List (RBNode K V)} (h : Chain H st) {n : RBNode K V} (hH : n.ptr.height ≤ H)
    (hlt : ∀ x ∈ st, n.ptr.height < x.ptr.height) : Chain H (n :: st) := by
  refine ⟨List.pairwise_cons.2 ⟨hlt, h.1⟩, ?_⟩
  intro x hx
  rcases List.mem_cons.1 hx with rfl | hx
  · exact hH
  · exact h.2 x hx

theorem digChild_chain {H : Nat} (t : RBTree K V) (s : IterStack K V) (h : Chain H s.stack) (hH : t.height ≤ H)
    (hlt : ∀ x ∈ s.stack, t.height < x.ptr.height) : Chain H (s.digChild t).stack := by
  induction t generalizing s with
  | none => exact h
  | some e c l r ihl ihr =>
    have hp : Chain H ((⟨e, c, l, r⟩ : RBNode K V) :: s.stack) := h.push hH hlt
    simp only [RBTree.height] at hH hlt
    rw [digChild]
    split
    · refine ihr _ hp (by omega) ?_
      intro x hx
      rcases List.mem_cons.1 hx with rfl | hx
      · simp only [RBNode.ptr, RBTree.height]; omega
      · have := hlt x hx; omega
    · refine ihl _ hp (by omega) ?_
      intro x hx
      rcases List.mem_cons.1 hx with rfl | hx
      · simp only [RBNode.ptr, RBTree.height]; omega
      · have := hlt x hx; omega

theorem digTowards_chain {H : Nat} (t : RBTree K V) (s : IterStack K V) (h : Chain H s.stack) (hH : t.height ≤ H)
    (hlt : ∀ x ∈ s.stack, t.height < x.ptr.height) : Chain H (s.digTowards o start end_ t).stack := by
  induction t generalizing s with
  | none => exact h
  | some e c l r ihl ihr =>
    have hp : Chain H ((⟨e, c, l, r⟩ : RBNode K V) :: s.stack) := h.push hH hlt
    simp only [RBTree.height] at hH hlt
    have hl : ∀ x ∈ ((⟨e, c, l, r⟩ : RBNode K V) :: s.stack), l.height < x.ptr.height := by
      intro x hx
      rcases List.mem_cons.1 hx with rfl | hx
      · simp only [RBNode.ptr, RBTree.height]; omega
      · have := hlt x hx; omega
    have hr : ∀ x ∈ ((⟨e, c, l, r⟩ : RBNode K V) :: s.stack), r.height < x.ptr.height := by
      intro x hx
      rcases List.mem_cons.1 hx with rfl | hx
      · simp only [RBNode.ptr, RBTree.height]; omega
      · have := hlt x hx; omega
    rw [digTowards]
    cases hb : s.backwards
    · cases hin : afterStart o start e.1
      · simp only [hb, Bool.false_eq_true, if_false]
        exact ihr _ h (by omega) (fun x hx => hr x (by simp [hx]))
      · simp only [hb, hin, Bool.false_eq_true, if_false, if_true]
        exact ihl _ hp (by omega) hl
    · cases hin : beforeEnd o end_ e.1
      · simp only [hb, hin, Bool.false_eq_true, if_false, if_true]
        exact ihl _ h (by omega) (fun x hx => hl x (by simp [hx]))
      · simp only [hb, hin, if_true]
        exact ihr _ hp (by omega) hr

theorem clear_chain {H : Nat} (s : IterStack K V) (h : Chain H s.stack) :
    Chain H (s.clearIfFinished o start end_).stack ∧ (s.clearIfFinished o start end_).cap = s.cap := by
  have hnil : Chain H ([] : List (RBNode K V)) := ⟨.nil, by simp⟩
  unfold clearIfFinished
  cases s.current with
  | none => exact ⟨h, rfl⟩
  | some e =>
    simp only
    generalize (if s.backwards then afterStart o start e.1 else beforeEnd o end_ e.1) = b
    cases b
    · exact ⟨hnil, rfl⟩
    · exact ⟨h, rfl⟩

theorem advance_chain {H : Nat} (s : IterStack K V) (h : Chain H s.stack) :
    Chain H (s.advance o start end_).stack ∧ (s.advance o start end_).cap = s.cap := by
  cases hst : s.stack with
  | nil =>
    have : s.advance o start end_ = s := by simp [IterStack.advance, hst]
    rw [this]; exact ⟨h, rfl⟩
  | cons n rest =>
    have hadv : s.advance o start end_ =
        (({ s with stack := rest } : IterStack K V).digChild (if s.backwards then n.left else n.right)).clearIfFinished o start end_ := by
      simp only [IterStack.advance, hst]
      rw [← dig_push]
      cases (if s.backwards then n.left else n.right) <;> rfl
    rw [hadv]
    rw [hst] at h
    have h1 := List.pairwise_cons.1 h.1
    have hc : (if s.backwards then n.left else n.right).height < n.ptr.height := by
      simp only [RBNode.ptr, RBTree.height]; split <;> omega
    have hn := h.2 n (by simp)
    have := clear_chain (o := o) (start := start) (end_ := end_) (H := H)
      (({ s with stack := rest } : IterStack K V).digChild (if s.backwards then n.left else n.right))
      (digChild_chain _ _ ⟨h1.2, fun x hx => h.2 x (by simp [hx])⟩ (by omega) (fun x hx => by have := h1.1 x hx; omega))
    exact ⟨this.1, this.2.trans (digChild_ok _ _).2.1⟩

/-- The stack stays within a capacity of `C` entries, on a tree of height `H`. -/
structure Room (H C : Nat) (s : IterStack K V) : Prop where
  chain : Chain H s.stack
  cap : s.cap = C

theorem Room.advance {H C : Nat} {s : IterStack K V} (h : Room H C s) : Room H C (s.advance o start end_) :=
  ⟨(advance_chain s h.chain).1, (advance_chain s h.chain).2.trans h.cap⟩

theorem new_room (hW : 3 ≤ A.W) {m : RBMap K V} (hs : KeysSorted o m.root.toList) (lo : o.Lawful) (hsz : m.size + 1 < 2 ^ A.W) (b : Bool)
    {s : IterStack K V} (h : IterStack.new A o m start end_ b = .ok s) : Room m.root.height (2 * Nat.log2 (m.size + 1) + 1) s := by
  obtain ⟨h1, h2⟩ := conservativeHeight_ok hW hsz
  simp only [IterStack.new, h1, Res.ok_bind, Arch.uadd] at h
  rw [if_pos h2] at h
  have h := Except.ok.inj h
  obtain ⟨g1, g2, g3⟩ := digTowards_ok (start := start) (end_ := end_) lo m.root
    ({ stack := [], backwards := b, cap := 2 * Nat.log2 (m.size + 1) + 1 } : IterStack K V) (treeItems_sorted hs b)
  have hc := digTowards_chain (o := o) (start := start) (end_ := end_) (H := m.root.height) m.root
    ({ stack := [], backwards := b, cap := 2 * Nat.log2 (m.size + 1) + 1 } : IterStack K V) ⟨.nil, by simp⟩ (Nat.le_refl _) (by simp)
  have := clear_chain (o := o) (start := start) (end_ := end_) _ hc
  subst h
  exact ⟨this.1, this.2.trans g2⟩

end IterStack

/-! ### Ranges -/

/-- `k` lies within the bounds. -/
def InRange {K Q : Type} (o : OrdKeys K Q) (start end_ : Bound Q) (k : K) : Bool :=
  IterStack.afterStart o start k && IterStack.beforeEnd o end_ k

namespace RBRangeIter
variable {K V Q : Type} {A : Arch} {o : OrdKeys K Q} {start end_ : Bound Q}

/-- The entries of the range, in increasing order. -/
def rangeList (o : OrdKeys K Q) (m : RBMap K V) (start end_ : Bound Q) : List (K × V) :=
  m.root.toList.filter fun e => InRange o start end_ e.1

/-- The iterator `it` over the range `start..end_` of `m` has exactly `rem` left. -/
structure Rel (A : Arch) (o : OrdKeys K Q) (m : RBMap K V) (start end_ : Bound Q) (it : RBRangeIter K V Q) (rem : List (K × V)) : Prop where
  map : it.map = m
  startEq : it.start = start
  endEq : it.end_ = end_
  sorted : KeysSorted o m.root.toList
  fits : m.size + 1 < 2 ^ A.W
  stacks : ∃ i j, j ≤ (rangeList o m start end_).length ∧ rem = ((rangeList o m start end_).take j).drop i ∧
    (match it.stackForward with
      | none => i = 0
      | some s => IterStack.Eff o start end_ false s ((rangeList o m start end_).drop i) ∧
          IterStack.Room m.root.height (2 * Nat.log2 (m.size + 1) + 1) s) ∧
    (match it.stackBackward with
      | none => j = (rangeList o m start end_).length
      | some s => IterStack.Eff o start end_ true s ((rangeList o m start end_).take j).reverse ∧
          IterStack.Room m.root.height (2 * Nat.log2 (m.size + 1) + 1) s)

theorem new_rel {m : RBMap K V} (hs : KeysSorted o m.root.toList) (hf : m.size + 1 < 2 ^ A.W) :
    Rel A o m start end_ (RBRangeIter.new m start end_) (rangeList o m start end_) :=
  ⟨rfl, rfl, rfl, hs, hf, 0, _, Nat.le_refl _, by simp, rfl, rfl⟩

theorem initIfNeeded_rel (lo : o.Lawful) (hW : 3 ≤ A.W) {m : RBMap K V} {it : RBRangeIter K V Q} {rem : List (K × V)}
    (h : Rel A o m start end_ it rem) (b : Bool) :
    ∃ it', it.initIfNeeded A o b = .ok it' ∧ Rel A o m start end_ it' rem ∧ (if b then it'.stackBackward else it'.stackForward).isSome := by
  obtain ⟨h1, h2, h3, h4, h5, i, j, h6, h7, h8, h9⟩ := h
  obtain ⟨s, g1, g2⟩ := IterStack.new_ok (start := start) (end_ := end_) lo hW h4 h5 b
  have g3 := IterStack.new_room hW h4 lo h5 b g1
  cases b with
  | false =>
    cases hst : it.stackForward with
    | none =>
      refine ⟨{ it with stackForward := some s }, ?_, ?_, rfl⟩
      · simp [initIfNeeded, hst, h1, h2, h3, g1]
      · rw [hst] at h8
        have h8 : i = 0 := h8
        subst h8
        refine ⟨h1, h2, h3, h4, h5, 0, j, h6, h7, ⟨?_, g3⟩, h9⟩
        simpa [rangeList, InRange, RBTree.treeItems, IterStack.enter, IterStack.exit] using g2
    | some s' =>
      refine ⟨it, by simp [initIfNeeded, hst], ⟨h1, h2, h3, h4, h5, i, j, h6, h7, h8, h9⟩, by simp [hst]⟩
  | true =>
    cases hst : it.stackBackward with
    | none =>
      refine ⟨{ it with stackBackward := some s }, ?_, ?_, rfl⟩
      · simp [initIfNeeded, hst, h1, h2, h3, g1]
      · rw [hst] at h9
        have h9 : j = (rangeList o m start end_).length := h9
        refine ⟨h1, h2, h3, h4, h5, i, j, h6, h7, h8, ?_, g3⟩
        subst h9
        rw [List.take_length]
        simp only [RBTree.treeItems, IterStack.enter, IterStack.exit, if_true, List.filter_reverse] at g2
        simpa only [rangeList, InRange, Bool.and_comm] using g2
    | some s' =>
      refine ⟨it, by simp [initIfNeeded, hst], ⟨h1, h2, h3, h4, h5, i, j, h6, h7, h8, h9⟩, by simp [hst]⟩

theorem rangeList_sorted {m : RBMap K V} (hs : KeysSorted o m.root.toList) : KeysSorted o (rangeList o m start end_) :=
  List.Pairwise.filter _ hs

/-- With both stacks set up, the range is seen to be empty exactly when nothing remains. -/
theorem isRemainingRangeEmpty_rel (lo : o.Lawful) {m : RBMap K V} {it : RBRangeIter K V Q} {i j : Nat} {sf sb : IterStack K V}
    (hs : KeysSorted o m.root.toList) (hf : it.stackForward = some sf) (hb : it.stackBackward = some sb)
    (hj : j ≤ (rangeList o m start end_).length)
    (ef : IterStack.Eff o start end_ false sf ((rangeList o m start end_).drop i))
    (eb : IterStack.Eff o start end_ true sb ((rangeList o m start end_).take j).reverse) :
    it.isRemainingRangeEmpty o = decide (j ≤ i) ∨ ((rangeList o m start end_).length ≤ i ∧ it.isRemainingRangeEmpty o = true) := by
  have hL := rangeList_sorted (start := start) (end_ := end_) hs
  simp only [isRemainingRangeEmpty, hf, hb, ef.current, eb.current, List.head?_drop, List.head?_reverse]
  generalize rangeList o m start end_ = L at *
  by_cases hi : i < L.length
  · left
    rw [List.getElem?_eq_getElem hi]
    cases j with
    | zero => simp
    | succ j =>
      have hlast : (L.take (j + 1)).getLast? = some (L[j]) := by
        rw [List.getLast?_eq_getElem?, List.length_take, List.getElem?_take]
        rw [show min (j + 1) L.length - 1 = j by omega]
        simp
      rw [hlast]
      simp only
      have hp := List.pairwise_iff_getElem.1 hL
      by_cases hij : j < i
      · have := hp j i (by omega) hi hij
        have h2 : o.cmpK L[i].1 L[j].1 = .gt := by rw [lo.swapK, this]; rfl
        rw [h2]
        have : j + 1 ≤ i := hij
        simp [this]
      · have hne : o.cmpK L[i].1 L[j].1 ≠ .gt := by
          rcases Nat.lt_or_ge i j with h3 | h3
          · rw [hp i j hi (by omega) h3]; simp
          · have : i = j := by omega
            subst this
            rw [(lo.ordK.refl _)]; simp
        have : ¬ (j + 1 ≤ i) := by omega
        simp [this, hne]
  · right
    refine ⟨by omega, ?_⟩
    rw [List.getElem?_eq_none (by omega)]

theorem next_rel (lo : o.Lawful) (hW : 3 ≤ A.W) {m : RBMap K V} {it : RBRangeIter K V Q} {rem : List (K × V)}
    (h : Rel A o m start end_ it rem) :
    ∃ it', it.next A o = .ok (rem.head?, it') ∧ Rel A o m start end_ it' rem.tail := by
  obtain ⟨it1, e1, hr, hsome⟩ := initIfNeeded_rel lo hW h false
  obtain ⟨h1, h2, h3, h4, h5, i, j, h6, h7, h8, h9⟩ := hr
  obtain ⟨sf, hsf⟩ := Option.isSome_iff_exists.1 hsome
  simp only [Bool.false_eq_true, if_false] at hsf
  simp only [hsf] at h8
  have hcur : it1.currentForward o = .ok rem.head? := by
    unfold currentForward
    cases hsb : it1.stackBackward with
    | none =>
      simp only [hsb] at h9
      have : it1.isRemainingRangeEmpty o = false := by simp [isRemainingRangeEmpty, hsf, hsb]
      simp only [this, hsf, unwrap, Res.ok_bind, h8.1.current, h7, h9, List.take_length]
      rfl
    | some sb =>
      simp only [hsb] at h9
      have hcase := isRemainingRangeEmpty_rel lo h4 hsf hsb h6 h8.1 h9.1
      by_cases hji : j ≤ i
      · have hrem : rem = [] := by rw [h7, List.drop_eq_nil_iff, List.length_take]; omega
        have : it1.isRemainingRangeEmpty o = true := by
          rcases hcase with h | h
          · rw [h]; simpa using hji
          · exact h.2
        simp [this, hrem]
      · have : it1.isRemainingRangeEmpty o = false := by
          rcases hcase with h | h
          · rw [h]; simpa using hji
          · omega
        simp only [this, hsf, unwrap, Res.ok_bind, h8.1.current, h7, List.head?_drop, List.getElem?_take]
        rw [if_pos (by omega)]
        rfl
  refine ⟨{ it1 with stackForward := some (sf.advance o it1.start it1.end_) }, ?_, ?_⟩
  · simp only [next, e1, Res.ok_bind, hcur, advanceForward, hsf, unwrap]
    rfl
  · refine ⟨h1, h2, h3, h4, h5, i + 1, j, h6, ?_, ⟨?_, ?_⟩, h9⟩
    · rw [h7, List.tail_drop]
    · have := h8.1.advance lo
      rw [List.tail_drop] at this
      rw [h2, h3]; exact this
    · exact h8.2.advance

theorem nextBack_rel (lo : o.Lawful) (hW : 3 ≤ A.W) {m : RBMap K V} {it : RBRangeIter K V Q} {rem : List (K × V)}
    (h : Rel A o m start end_ it rem) :
    ∃ it', it.nextBack A o = .ok (rem.getLast?, it') ∧ Rel A o m start end_ it' rem.dropLast := by
  obtain ⟨it1, e1, hr, hsome⟩ := initIfNeeded_rel lo hW h true
  obtain ⟨h1, h2, h3, h4, h5, i, j, h6, h7, h8, h9⟩ := hr
  obtain ⟨sb, hsb⟩ := Option.isSome_iff_exists.1 hsome
  simp only [if_true] at hsb
  simp only [hsb] at h9
  have hcur : it1.currentBackward o = .ok rem.getLast? := by
    unfold currentBackward
    cases hsf : it1.stackForward with
    | none =>
      simp only [hsf] at h8
      have : it1.isRemainingRangeEmpty o = false := by simp [isRemainingRangeEmpty, hsf]
      simp only [this, hsb, unwrap, Res.ok_bind, h9.1.current, h7, h8, List.drop_zero]
      rw [List.head?_reverse]
      rfl
    | some sf =>
      simp only [hsf] at h8
      have hcase := isRemainingRangeEmpty_rel lo h4 hsf hsb h6 h8.1 h9.1
      by_cases hji : j ≤ i
      · have hrem : rem = [] := by rw [h7, List.drop_eq_nil_iff, List.length_take]; omega
        have : it1.isRemainingRangeEmpty o = true := by
          rcases hcase with h | h
          · rw [h]; simpa using hji
          · exact h.2
        simp [this, hrem]
      · have : it1.isRemainingRangeEmpty o = false := by
          rcases hcase with h | h
          · rw [h]; simpa using hji
          · omega
        simp only [this, hsb, unwrap, Res.ok_bind, h9.1.current, h7, List.head?_reverse]
        rw [List.getLast?_drop, if_neg (by rw [List.length_take]; omega)]
        rfl
  refine ⟨{ it1 with stackBackward := some (sb.advance o it1.start it1.end_) }, ?_, ?_⟩
  · simp only [nextBack, e1, Res.ok_bind, hcur, advanceBackward, hsb, unwrap]
    rfl
  · have htake : (List.take j (rangeList o m start end_)).dropLast = (rangeList o m start end_).take (j - 1) := by
      rw [List.dropLast_eq_take, List.take_take, List.length_take]
      congr 1; omega
    refine ⟨h1, h2, h3, h4, h5, i, j - 1, by omega, ?_, h8, ⟨?_, ?_⟩⟩
    · rw [h7, ← htake]
      generalize List.take j (rangeList o m start end_) = X
      rw [List.dropLast_eq_take, List.dropLast_eq_take, List.drop_take, List.length_drop]
      congr 1; omega
    · have := h9.1.advance lo
      rw [List.tail_reverse, htake] at this
      rw [h2, h3]; exact this
    · exact h9.2.advance

end RBRangeIter

/-! ### Whole maps -/

namespace RBIter
variable {K V Q : Type} {A : Arch} {o : OrdKeys K Q}

/-- The iterator over the whole of `m` has exactly `rem` left. -/
structure Rel (A : Arch) (o : OrdKeys K Q) (m : RBMap K V) (it : RBIter K V) (rem : List (K × V)) : Prop where
  range : RBRangeIter.Rel A o.self m .unbounded .unbounded it.rangeIter rem
  size : it.size = rem.length

theorem rangeList_all {m : RBMap K V} : RBRangeIter.rangeList o m .unbounded .unbounded = m.root.toList := by
  simp [RBRangeIter.rangeList, InRange, IterStack.afterStart, IterStack.beforeEnd]

theorem new_rel {m : RBMap K V} (hs : KeysSorted o m.root.toList) (hsz : m.size = m.root.toList.length) (hf : m.size + 1 < 2 ^ A.W) :
    Rel A o m (RBIter.new m) m.root.toList := by
  have := RBRangeIter.new_rel (A := A) (o := o.self) (start := .unbounded) (end_ := .unbounded) (m := m) hs hf
  rw [rangeList_all] at this
  exact ⟨this, hsz⟩

theorem next_rel (lo : o.Lawful) (hW : 3 ≤ A.W) {m : RBMap K V} {it : RBIter K V} {rem : List (K × V)} (h : Rel A o m it rem) :
    ∃ it', it.next A o = .ok (rem.head?, it') ∧ Rel A o m it' rem.tail := by
  unfold next
  cases rem with
  | nil =>
    have : it.size = 0 := h.size
    exact ⟨it, by simp [this], h⟩
  | cons a rem =>
    obtain ⟨r, h1, h2⟩ := RBRangeIter.next_rel lo.self hW h.range
    have hsz : it.size = rem.length + 1 := h.size
    refine ⟨⟨r, rem.length⟩, ?_, h2, rfl⟩
    simp [hsz, csub, h1]

theorem nextBack_rel (lo : o.Lawful) (hW : 3 ≤ A.W) {m : RBMap K V} {it : RBIter K V} {rem : List (K × V)} (h : Rel A o m it rem) :
    ∃ it', it.nextBack A o = .ok (rem.getLast?, it') ∧ Rel A o m it' rem.dropLast := by
  unfold nextBack
  cases rem with
  | nil =>
    have : it.size = 0 := h.size
    exact ⟨it, by simp [this], h⟩
  | cons a rem =>
    obtain ⟨r, h1, h2⟩ := RBRangeIter.nextBack_rel lo.self hW h.range
    have hsz : it.size = rem.length + 1 := h.size
    refine ⟨⟨r, rem.length⟩, ?_, h2, by simp⟩
    simp [hsz, csub, h1]

/-- What is left of a `core::iter::Map` over the iterator. -/
def MapRel {β : Type} (A : Arch) (o : OrdKeys K Q) (m : RBMap K V) (f : K × V → β) (it : RBIter K V) (rem : List β) : Prop :=
  ∃ r, rem = r.map f ∧ Rel A o m it r

theorem mapNext_rel {β : Type} (lo : o.Lawful) (hW : 3 ≤ A.W) {m : RBMap K V} {f : K × V → β} {it : RBIter K V} {rem : List β}
    (h : MapRel A o m f it rem) : ∃ it', it.mapNext A o f = .ok (rem.head?, it') ∧ MapRel A o m f it' rem.tail := by
  obtain ⟨r, rfl, h⟩ := h
  obtain ⟨it', h1, h2⟩ := next_rel lo hW h
  exact ⟨it', by simp [mapNext, h1], r.tail, by simp, h2⟩

theorem mapNextBack_rel {β : Type} (lo : o.Lawful) (hW : 3 ≤ A.W) {m : RBMap K V} {f : K × V → β} {it : RBIter K V} {rem : List β}
    (h : MapRel A o m f it rem) : ∃ it', it.mapNextBack A o f = .ok (rem.getLast?, it') ∧ MapRel A o m f it' rem.dropLast := by
  obtain ⟨r, rfl, h⟩ := h
  obtain ⟨it', h1, h2⟩ := nextBack_rel lo hW h
  exact ⟨it', by simp [mapNextBack, h1], r.dropLast, by simp [List.map_dropLast], h2⟩

theorem drives {β : Type} (lo : o.Lawful) (hW : 3 ≤ A.W) {m : RBMap K V} {f : K × V → β} {it : RBIter K V} {rem : List β}
    (h : MapRel A o m f it rem) : Drives (RBIter.mapNext A o f) it rem := by
  refine drives_of_rel (R := MapRel A o m f) ?_ ?_ it rem h
  · intro s hs; exact mapNext_rel lo hW hs
  · intro s a l hs; exact mapNext_rel lo hW hs

end RBIter
end Rpds
