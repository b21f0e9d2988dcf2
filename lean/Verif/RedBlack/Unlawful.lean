import Verif.RedBlack.Map
import Verif.Spec.Loose
/-
Red-black trees under comparisons that keep no law: nothing here assumes that `cmp` is an order, and every operation may be given
different comparisons.
-/
set_option autoImplicit false
namespace Rpds
open Spec

namespace RBTree
variable {K V Q : Type} {A : Arch} {o : OrdKeys K Q}

/-- Red-black trees without the order of the keys. -/
structure Shape (t : RBTree K V) : Prop where
  bh : ∃ n, t.BH n
  noRR : t.NoRR
  root : t.NotRed

/-- One pair inserted somewhere (`true`), or put in the place of one it was found equal to (`false`). -/
inductive InsAt (o : OrdKeys K Q) (k : K) (v : V) (l l' : List (K × V)) : Bool → Prop where
  | added (a c : List (K × V)) : l = a ++ c → l' = a ++ (k, v) :: c → InsAt o k v l l' true
  | replaced (a : List (K × V)) (e : K × V) (c : List (K × V)) :
      o.cmpK k e.1 = .eq → l = a ++ e :: c → l' = a ++ (k, v) :: c → InsAt o k v l l' false

theorem InsAt.left {k : K} {v : V} {l l' : List (K × V)} {b : Bool} (h : InsAt o k v l l' b) (x : List (K × V)) :
    InsAt o k v (l ++ x) (l' ++ x) b := by
  cases h with
  | added a c h1 h2 => exact .added a (c ++ x) (by simp [h1]) (by simp [h2])
  | replaced a e c h1 h2 h3 => exact .replaced a e (c ++ x) h1 (by simp [h2]) (by simp [h3])

theorem InsAt.right {k : K} {v : V} {l l' : List (K × V)} {b : Bool} (h : InsAt o k v l l' b) (x : List (K × V)) :
    InsAt o k v (x ++ l) (x ++ l') b := by
  cases h with
  | added a c h1 h2 => exact .added (x ++ a) c (by simp [h1]) (by simp [h2])
  | replaced a e c h1 h2 h3 => exact .replaced (x ++ a) e c h1 (by simp [h2]) (by simp [h3])

/-- What `ins` below the root does, for any comparison. -/
theorem ins_shape (k : K) (v : V) (t : RBTree K V) {n : Nat} (hb : t.BH n) (hn : t.NoRR) :
    ∃ b t', ins o k v t false = .ok (b, t') ∧ InsAt o k v t.toList t'.toList b ∧ t'.BH n ∧ t'.NoRR2 ∧ (t.NotRed → t'.NoRR) ∧
      (b = false → t'.color = t.color ∧ t'.NoRR) := by
  induction t generalizing n with
  | none =>
    refine ⟨true, (RBNode.newRed (k, v)).ptr, rfl, .added [] [] rfl rfl, ?_, ?_, ?_, by simp⟩
    · exact ⟨hb, hb⟩
    · exact ⟨trivial, trivial⟩
    · intro _; exact ⟨notRed_none, notRed_none, trivial, trivial⟩
  | some e c l r ihl ihr =>
    have hlb : ∃ m, l.BH m ∧ r.BH m ∧ n = m + (if c = .black then 1 else 0) := by
      cases c with
      | red => exact ⟨n, hb.1, hb.2, by simp⟩
      | black =>
        cases n with
        | zero => exact hb.elim
        | succ n => exact ⟨n, hb.1, hb.2, by simp⟩
    obtain ⟨m, hlm, hrm, hnm⟩ := hlb
    have hnn : l.NoRR ∧ r.NoRR := by cases c <;> simp_all [NoRR]
    simp only [ins]
    cases hc : o.cmpK k e.1 with
    | lt =>
      obtain ⟨b, l', e1, e2, e3, e4, e5, e6⟩ := ihl hlm hnn.1
      have hl := e2.left (e :: r.toList)
      simp only [e1, Res.ok_bind, insDone]
      cases b with
      | false =>
        obtain ⟨e8, e9⟩ := e6 rfl
        refine ⟨false, .some e c l' r, rfl, hl, ?_, ⟨e9, hnn.2⟩, ?_, ?_⟩
        · cases c <;> simp_all [BH]
        · intro _
          cases c with
          | red => simp_all [NoRR, NotRed]
          | black => exact ⟨e9, hnn.2⟩
        · intro _
          refine ⟨rfl, ?_⟩
          cases c with
          | red =>
            refine ⟨?_, hn.2.1, e9, hnn.2⟩
            rw [NotRed, e8]; exact hn.1
          | black => exact ⟨e9, hnn.2⟩
      | true =>
        cases c with
        | red =>
          refine ⟨true, .some e .red l' r, rfl, hl, ?_, ⟨e5 hn.1, hnn.2⟩, by simp, by simp⟩
          simp_all [BH]
        | black =>
          obtain ⟨x, g1, g2, g3, g4⟩ := RBNode.balance_ok (e := e) e3 hrm (.inl ⟨e4, hnn.2⟩)
          refine ⟨true, x.ptr, by simp [g1], ?_, ?_, g4.weaken, fun _ => g4, by simp⟩
          · rw [g2]; exact hl
          · simpa [hnm] using g3
    | eq =>
      refine ⟨false, .some (k, v) c l r, rfl, .replaced l.toList e r.toList hc rfl rfl, ?_, hnn, ?_, ?_⟩
      · cases c with
        | red => exact hb
        | black => cases n with
          | zero => exact hb.elim
          | succ n => exact hb
      · intro _; cases c <;> exact hn
      · intro _; exact ⟨rfl, by cases c <;> exact hn⟩
    | gt =>
      obtain ⟨b, r', e1, e2, e3, e4, e5, e6⟩ := ihr hrm hnn.2
      have hr : InsAt o k v (RBTree.some e c l r).toList (l.toList ++ e :: r'.toList) b := by
        have := e2.right (l.toList ++ [e])
        simpa using this
      simp only [e1, Res.ok_bind, insDone]
      cases b with
      | false =>
        obtain ⟨e8, e9⟩ := e6 rfl
        refine ⟨false, .some e c l r', rfl, hr, ?_, ⟨hnn.1, e9⟩, ?_, ?_⟩
        · cases c <;> simp_all [BH]
        · intro _
          cases c with
          | red => simp_all [NoRR, NotRed]
          | black => exact ⟨hnn.1, e9⟩
        · intro _
          refine ⟨rfl, ?_⟩
          cases c with
          | red =>
            refine ⟨hn.1, ?_, hnn.1, e9⟩
            rw [NotRed, e8]; exact hn.2.1
          | black => exact ⟨hnn.1, e9⟩
      | true =>
        cases c with
        | red =>
          refine ⟨true, .some e .red l r', rfl, hr, ?_, ⟨hnn.1, e5 hn.2.1⟩, by simp, by simp⟩
          simp_all [BH]
        | black =>
          obtain ⟨x, g1, g2, g3, g4⟩ := RBNode.balance_ok (e := e) hlm e3 (.inr ⟨hnn.1, e4⟩)
          refine ⟨true, x.ptr, by simp [g1], ?_, ?_, g4.weaken, fun _ => g4, by simp⟩
          · rw [g2]; exact hr
          · simpa [hnm] using g3

theorem Shape.insert {t : RBTree K V} (h : t.Shape) (o : OrdKeys K Q) (k : K) (v : V) :
    ∃ b t', t.insert o k v = .ok (b, t') ∧ InsAt o k v t.toList t'.toList b ∧ t'.Shape := by
  obtain ⟨n, hn⟩ := h.bh
  obtain ⟨b, t', e1, e2, e3, e4, e5, e6⟩ := ins_shape (o := o) k v t hn h.noRR
  refine ⟨b, t'.blacken, ?_, by rw [toList_blacken]; exact e2, bh_blacken e3, noRR_blacken e4, notRed_blacken t'⟩
  rw [RBTree.insert, ins_root, e1]; rfl

/-- One pair that was hit taken out (`true`), or nothing done (`false`). -/
inductive DelAt (o : OrdKeys K Q) (q : Q) (l l' : List (K × V)) : Bool → Prop where
  | absent : l' = l → DelAt o q l l' false
  | removed (a : List (K × V)) (e : K × V) (c : List (K × V)) :
      o.hits e.1 q = true → l = a ++ e :: c → l' = a ++ c → DelAt o q l l' true

theorem DelAt.left {q : Q} {l l' : List (K × V)} {b : Bool} (h : DelAt o q l l' b) (x : List (K × V)) : DelAt o q (l ++ x) (l' ++ x) b := by
  cases h with
  | absent h => exact .absent (by rw [h])
  | removed a e c h1 h2 h3 => exact .removed a e (c ++ x) h1 (by simp [h2]) (by simp [h3])

theorem DelAt.right {q : Q} {l l' : List (K × V)} {b : Bool} (h : DelAt o q l l' b) (x : List (K × V)) : DelAt o q (x ++ l) (x ++ l') b := by
  cases h with
  | absent h => exact .absent (by rw [h])
  | removed a e c h1 h2 h3 => exact .removed (x ++ a) e c h1 (by simp [h2]) (by simp [h3])

/-- What `del` below the root does, for any comparison. -/
theorem del_shape (q : Q) (t : RBTree K V) {n : Nat} (hb : t.BH n) (hn : t.NoRR) :
    ∃ b t', del A o q t false = .ok (b, t') ∧ DelAt o q t.toList t'.toList b ∧ t'.NoRR2 ∧
      match t with
      | .none => t' = .none
      | .some _ .red _ _ => t'.BH n ∧ t'.NoRR
      | .some _ .black _ _ => t'.BH (n - 1) := by
  induction t generalizing n with
  | none => exact ⟨false, .none, rfl, .absent rfl, trivial, rfl⟩
  | some e c l r ihl ihr =>
    have hlb : ∃ m, l.BH m ∧ r.BH m ∧ n = m + (if c = .black then 1 else 0) := by
      cases c with
      | red => exact ⟨n, hb.1, hb.2, by simp⟩
      | black =>
        cases n with
        | zero => exact hb.elim
        | succ n => exact ⟨n, hb.1, hb.2, by simp⟩
    obtain ⟨m, hlm, hrm, hnm⟩ := hlb
    have hnn : l.NoRR ∧ r.NoRR := by cases c <;> simp_all [NoRR]
    simp only [del]
    cases hc : o.cmpQ q (o.borrow e.1) with
    | lt =>
      obtain ⟨b, l', e1, e2, e3, e4⟩ := ihl hlm hnn.1
      have hl : DelAt o q (RBTree.some e c l r).toList (l'.toList ++ e :: r.toList) b := e2.left (e :: r.toList)
      simp only [e1, Res.ok_bind]
      rcases l with _ | ⟨el, _ | _, ll, lr⟩
      · have e4 : l' = .none := e4
        subst e4
        refine ⟨b, _, rfl, hl, ⟨trivial, hnn.2⟩, ?_⟩
        cases c with
        | red => exact ⟨hb, hn⟩
        | black => simp only [hnm]; exact ⟨hlm, hrm⟩
      · simp only at e4
        cases c with
        | red => exact absurd hn.1 notRed_red
        | black =>
          refine ⟨b, _, rfl, hl, ⟨e4.2, hnn.2⟩, ?_⟩
          simp only [hnm]
          exact ⟨e4.1, hrm⟩
      · simp only at e4
        match m, hlm, hrm, e4, hnm with
        | 0, hlm, _, _, _ => exact hlm.elim
        | m + 1, hlm, hrm, e4, hnm =>
        obtain ⟨x, g1, g2, g3, g4, g5⟩ := RBNode.removeBalanceLeft_ok (A := A) (e := e) (c := .red) e4 hrm e3 hnn.2
        have : delLeft A (RBTree.some el .black ll lr).color e c l' r = .ok x := by
          simp only [delLeft, RBTree.color]; exact g1
        rw [this]
        refine ⟨b, x.ptr, rfl, by rw [g2]; exact hl, g4, ?_⟩
        cases c with
        | red => exact ⟨by simpa [hnm] using g3, g5 hn.2.1⟩
        | black => simpa [hnm] using g3
    | eq =>
      have he : o.hits e.1 q = true := by simp [OrdKeys.hits, hc]
      obtain ⟨b, x, g1, g2, g3, g4, g5⟩ := RBNode.removeFuse_ok (A := A) ⟨e, c, .none, .none⟩ l r hlm hrm hnn.1 hnn.2
      have hd : delDone false (!b) x = RBNode.fusedTree b x := by cases b <;> rfl
      refine ⟨true, RBNode.fusedTree b x, ?_, .removed l.toList e r.toList he rfl g2, g4, ?_⟩
      · simp [g1, hd]
      · cases c with
        | red => exact ⟨by simpa [hnm] using g3, g5 hn.1 hn.2.1⟩
        | black => simpa [hnm] using g3
    | gt =>
      obtain ⟨b, r', e1, e2, e3, e4⟩ := ihr hrm hnn.2
      have hr : DelAt o q (RBTree.some e c l r).toList (l.toList ++ e :: r'.toList) b := by
        have := e2.right (l.toList ++ [e])
        simpa using this
      simp only [e1, Res.ok_bind]
      rcases r with _ | ⟨er, _ | _, rl, rr⟩
      · have e4 : r' = .none := e4
        subst e4
        refine ⟨b, _, rfl, hr, ⟨hnn.1, trivial⟩, ?_⟩
        cases c with
        | red => exact ⟨hb, hn⟩
        | black => simp only [hnm]; exact ⟨hlm, hrm⟩
      · simp only at e4
        cases c with
        | red => exact absurd hn.2.1 notRed_red
        | black =>
          refine ⟨b, _, rfl, hr, ⟨hnn.1, e4.2⟩, ?_⟩
          simp only [hnm]
          exact ⟨hlm, e4.1⟩
      · simp only at e4
        match m, hlm, hrm, e4, hnm with
        | 0, _, hrm, _, _ => exact hrm.elim
        | m + 1, hlm, hrm, e4, hnm =>
        obtain ⟨x, g1, g2, g3, g4, g5⟩ := RBNode.removeBalanceRight_ok (A := A) (e := e) (c := .red) hlm e4 hnn.1 e3
        have : delRight A (RBTree.some er .black rl rr).color e c l r' = .ok x := by
          simp only [delRight, RBTree.color]; exact g1
        rw [this]
        refine ⟨b, x.ptr, rfl, by rw [g2]; exact hr, g4, ?_⟩
        cases c with
        | red => exact ⟨by simpa [hnm] using g3, g5 hn.1⟩
        | black => simpa [hnm] using g3

theorem Shape.remove {t : RBTree K V} (h : t.Shape) (A : Arch) (o : OrdKeys K Q) (q : Q) :
    ∃ b t', t.remove A o q = .ok (b, t') ∧ DelAt o q t.toList t'.toList b ∧ t'.Shape := by
  obtain ⟨n, hn⟩ := h.bh
  obtain ⟨b, t', e1, e2, e3, e4⟩ := del_shape (A := A) (o := o) q t hn h.noRR
  have hbh : ∃ m, t'.BH m := by
    rcases t with _ | ⟨e, _ | _, l, r⟩
    · simp only at e4; exact ⟨0, by rw [e4]; rfl⟩
    · exact ⟨_, e4.1⟩
    · exact ⟨_, e4⟩
  obtain ⟨m, hm⟩ := hbh
  refine ⟨b, t'.blacken, ?_, by rw [toList_blacken]; exact e2, bh_blacken hm, noRR_blacken e3, notRed_blacken t'⟩
  rw [RBTree.remove, del_root, e1]; rfl

theorem get_loose (q : Q) (t : RBTree K V) (e : K × V) (h : t.get o q = Option.some e) : e ∈ t.toList ∧ o.hits e.1 q = true := by
  induction t with
  | none => cases h
  | some e' c l r ihl ihr =>
    simp only [get] at h
    cases hc : o.cmpQ q (o.borrow e'.1) with
    | lt => rw [hc] at h; have := ihl h; simp [this]
    | eq =>
      rw [hc] at h
      cases h
      simp [OrdKeys.hits, hc]
    | gt => rw [hc] at h; have := ihr h; simp [this]

/-- The value of one pair that was hit changed, this value being the answer; or nothing done. -/
inductive ModAt (o : OrdKeys K Q) (q : Q) (f : V → V) (l l' : List (K × V)) : Option V → Prop where
  | absent : l' = l → ModAt o q f l l' Option.none
  | modified (a : List (K × V)) (e : K × V) (c : List (K × V)) :
      o.hits e.1 q = true → l = a ++ e :: c → l' = a ++ (e.1, f e.2) :: c → ModAt o q f l l' (Option.some e.2)

theorem ModAt.left {q : Q} {f : V → V} {l l' : List (K × V)} {b : Option V} (h : ModAt o q f l l' b) (x : List (K × V)) :
    ModAt o q f (l ++ x) (l' ++ x) b := by
  cases h with
  | absent h => exact .absent (by rw [h])
  | modified a e c h1 h2 h3 => exact .modified a e (c ++ x) h1 (by simp [h2]) (by simp [h3])

theorem ModAt.right {q : Q} {f : V → V} {l l' : List (K × V)} {b : Option V} (h : ModAt o q f l l' b) (x : List (K × V)) :
    ModAt o q f (x ++ l) (x ++ l') b := by
  cases h with
  | absent h => exact .absent (by rw [h])
  | modified a e c h1 h2 h3 => exact .modified (x ++ a) e c h1 (by simp [h2]) (by simp [h3])

theorem getMut_loose (q : Q) (f : V → V) (t : RBTree K V) : ModAt o q f t.toList (t.getMut o q f).2.toList (t.getMut o q f).1 := by
  induction t with
  | none => exact .absent rfl
  | some e c l r ihl ihr =>
    simp only [getMut]
    cases hc : o.cmpQ q (o.borrow e.1) with
    | lt => exact ihl.left (e :: r.toList)
    | eq => exact .modified l.toList e r.toList (by simp [OrdKeys.hits, hc]) rfl rfl
    | gt =>
      have := ihr.right (l.toList ++ [e])
      simpa using this

theorem Shape.getMut {t : RBTree K V} (h : t.Shape) (o : OrdKeys K Q) (q : Q) (f : V → V) : (t.getMut o q f).2.Shape := by
  obtain ⟨h1, h2, h3⟩ := getMut_shape (o := o) q f t
  obtain ⟨n, hn⟩ := h.bh
  refine ⟨⟨n, (h2 n).2 hn⟩, h3.2 h.noRR, ?_⟩
  rw [NotRed, h1]; exact h.root

theorem Shape.height_le {t : RBTree K V} (h : t.Shape) : t.height ≤ 2 * Nat.log2 (t.toList.length + 1) := by
  obtain ⟨n, hn⟩ := h.bh
  have h1 := hn.height_le h.noRR
  rw [if_neg h.root] at h1
  have h2 := hn.size_ge
  have h3 : n ≤ Nat.log2 (t.toList.length + 1) := (Nat.le_log2 (by omega)).2 h2
  omega

end RBTree

namespace RBMap
variable {K V Q : Type} {A : Arch} {m : RBMap K V} {l : List (K × V)}

/-- A map of the right shape that counts its entries right and contains `l`. -/
structure Loose (m : RBMap K V) (l : List (K × V)) : Prop where
  shape : m.root.Shape
  list : m.root.toList = l
  size : m.size = l.length

/-- The key comparison made by an insertion, stored key first. -/
abbrev looseSame (o : OrdKeys K Q) (stored new : K) : Bool := o.cmpK new stored == .eq

theorem new_loose : (new : RBMap K V).Loose [] := ⟨⟨⟨0, rfl⟩, trivial, RBTree.notRed_none⟩, rfl, rfl⟩

theorem Loose.insertMut (h : m.Loose l) (o : OrdKeys K Q) (k : K) (v : V) :
    ∃ m' l', m.insertMut o k v = .ok m' ∧ m'.Loose l' ∧ LooseInsert (looseSame o) k v l l' := by
  obtain ⟨b, t', h1, h2, h3⟩ := h.shape.insert o k v
  rw [h.list] at h2
  refine ⟨⟨t', if b then m.size + 1 else m.size⟩, _, by simp [RBMap.insertMut, h1], ⟨h3, rfl, ?_⟩, ?_⟩
  · cases h2 with
    | added a c e1 e2 => simp [e2, h.size, e1]; omega
    | replaced a e c _ e1 e2 => simp [e2, h.size, e1]
  · cases h2 with
    | added a c e1 e2 => refine .added ?_; rw [e2, e1]; exact List.perm_middle
    | replaced a e c e0 e1 e2 =>
      refine .replaced e (a ++ c) (by simp [e0]) ?_ ?_
      · rw [e1]; exact List.perm_middle
      · rw [e2]; exact List.perm_middle

theorem Loose.removeMut (h : m.Loose l) (A : Arch) (o : OrdKeys K Q) (q : Q) :
    ∃ b m' l', m.removeMut A o q = .ok (b, m') ∧ m'.Loose l' ∧ LooseRemove o.hits q l l' b := by
  obtain ⟨b, t', h1, h2, h3⟩ := h.shape.remove A o q
  rw [h.list] at h2
  cases h2 with
  | absent e => exact ⟨false, ⟨t', m.size⟩, _, by simp [RBMap.removeMut, h1], ⟨h3, rfl, by rw [h.size, e]⟩, .absent (by rw [e])⟩
  | removed a e c e0 e1 e2 =>
    refine ⟨true, ⟨t', m.size - 1⟩, _, ?_, ⟨h3, rfl, ?_⟩, .removed e e0 ?_⟩
    · have : 1 ≤ m.size := by rw [h.size, e1]; simp; omega
      simp [RBMap.removeMut, h1, csub, this]
    · simp [h.size, e1, e2]
    · rw [e1, e2]; exact List.perm_middle

theorem Loose.getMut (h : m.Loose l) (o : OrdKeys K Q) (q : Q) (f : V → V) :
    ∃ l', (m.getMut o q f).2.Loose l' ∧ LooseModify o.hits q f l l' (m.getMut o q f).1 := by
  have h1 := RBTree.getMut_loose (o := o) q f m.root
  refine ⟨_, ⟨h.shape.getMut o q f, rfl, ?_⟩, ?_⟩
  · simp only [RBMap.getMut, h.size, ← h.list]
    generalize (m.root.getMut o q f).1 = x at h1
    cases h1 with
    | absent e => rw [e]
    | modified a e c e0 e1 e2 => rw [e1, e2]; simp
  · simp only [RBMap.getMut]
    rw [h.list] at h1
    generalize (m.root.getMut o q f).1 = x at h1
    cases h1 with
    | absent e => exact .absent (by rw [e])
    | modified a e c e0 e1 e2 =>
      refine .modified e (a ++ c) e0 ?_ ?_
      · rw [e1]; exact List.perm_middle
      · rw [e2]; exact List.perm_middle

theorem Loose.step (h : m.Loose l) (A : Arch) (o : OrdKeys K Q) (op : MapOp K V Q) :
    ∃ r e f, m.step A o op = .ok (r, e) ∧ LooseStep (looseSame o) o.hits l op r f ∧ Effect.Rel (fun m l => m.Loose l) e f := by
  have hget : ∀ q e, m.root.get o q = some e → e ∈ l ∧ o.hits e.1 q = true := fun q e he => by
    have := RBTree.get_loose (o := o) q m.root e he
    rwa [h.list] at this
  cases op with
  | insert k v =>
    obtain ⟨m', l', h1, h2, h3⟩ := h.insertMut o k v
    exact ⟨_, _, _, by simp only [RBMap.step, RBMap.insert, clone_eq, h1]; rfl, .insert h3, .fresh h2⟩
  | insertMut k v =>
    obtain ⟨m', l', h1, h2, h3⟩ := h.insertMut o k v
    exact ⟨_, _, _, by simp only [RBMap.step, h1]; rfl, .insertMut h3, .update h2⟩
  | remove q =>
    obtain ⟨b, m', l', h1, h2, h3⟩ := h.removeMut A o q
    cases b with
    | true => exact ⟨_, _, _, by simp only [RBMap.step, RBMap.remove, clone_eq, h1]; rfl, .remove h3, .fresh h2⟩
    | false => exact ⟨_, _, _, by simp only [RBMap.step, RBMap.remove, clone_eq, h1]; rfl, .remove (.absent (.refl _)), .fresh h⟩
  | removeMut q =>
    obtain ⟨b, m', l', h1, h2, h3⟩ := h.removeMut A o q
    exact ⟨_, _, _, by simp only [RBMap.step, h1]; rfl, .removeMut h3, .update h2⟩
  | getMut q f =>
    obtain ⟨l', h1, h2⟩ := h.getMut o q f
    exact ⟨_, _, _, rfl, .getMut h2, .update h1⟩
  | clone => exact ⟨_, _, _, rfl, .clone, .fresh h⟩
  | get q =>
    refine ⟨_, _, _, rfl, .get ?_, .keep⟩
    intro v hv
    simp only [RBMap.get] at hv
    cases hg : m.root.get o q with
    | none => rw [hg] at hv; cases hv
    | some e => rw [hg] at hv; cases hv; exact ⟨e, (hget q e hg).1, (hget q e hg).2, rfl⟩
  | getKeyValue q =>
    refine ⟨_, _, _, rfl, .getKeyValue ?_, .keep⟩
    intro v hv
    simp only [RBMap.getKeyValue] at hv
    cases hg : m.root.get o q with
    | none => rw [hg] at hv; cases hv
    | some e => rw [hg] at hv; cases hv; exact hget q e hg
  | containsKey q =>
    refine ⟨_, _, _, rfl, .containsKey ?_, .keep⟩
    intro hv
    simp only [RBMap.containsKey, RBMap.get] at hv
    cases hg : m.root.get o q with
    | none => rw [hg] at hv; cases hv
    | some e => exact ⟨e, hget q e hg⟩
  | index q =>
    cases hg : m.root.get o q with
    | none => exact ⟨.panicked, .keep, .keep, by simp [RBMap.step, RBMap.index, RBMap.get, hg, unwrap], .indexPanic, .keep⟩
    | some e =>
      exact ⟨.optV (some e.2), .keep, .keep, by simp [RBMap.step, RBMap.index, RBMap.get, hg, unwrap],
        .index (hget q e hg).1 (hget q e hg).2, .keep⟩
  | size =>
    refine ⟨_, .keep, .keep, ?_, .size, .keep⟩
    simp [RBMap.step, RBMap.getSize, h.size]
  | isEmpty =>
    refine ⟨_, .keep, .keep, ?_, .isEmpty, .keep⟩
    simp only [RBMap.step, RBMap.isEmpty, RBMap.getSize, h.size]
    cases l <;> rfl

theorem Loose.insertAll (h : m.Loose l) (o : OrdKeys K Q) (kvs : List (K × V)) : ∃ m' l', m.insertAll o kvs = .ok m' ∧ m'.Loose l' := by
  induction kvs generalizing m l with
  | nil => exact ⟨m, l, rfl, h⟩
  | cons p kvs ih =>
    obtain ⟨k, v⟩ := p
    obtain ⟨m', l', h1, h2, _⟩ := h.insertMut o k v
    obtain ⟨m'', l'', h3, h4⟩ := ih h2
    exact ⟨m'', l'', by simp only [RBMap.insertAll, h1]; exact h3, h4⟩

theorem Loose.visitLoop {E : Type} (h : m.Loose l) (o : OrdKeys K Q) (input : List (Except E (K × V))) :
    ∃ x, m.visitLoop o input = .ok x ∧ ∀ m', x = .ok m' → ∃ l', m'.Loose l' := by
  induction input generalizing m l with
  | nil => exact ⟨.ok m, rfl, fun m' h' => by cases h'; exact ⟨l, h⟩⟩
  | cons p input ih =>
    cases p with
    | error e => exact ⟨.error e, rfl, fun m' h' => by cases h'⟩
    | ok p =>
      obtain ⟨k, v⟩ := p
      obtain ⟨m', l', h1, h2, _⟩ := h.insertMut o k v
      obtain ⟨x, h3, h4⟩ := ih h2
      exact ⟨x, by simp only [RBMap.visitLoop, h1]; exact h3, h4⟩

/-- All maps a program can obtain when every operation may compare keys in its own way. -/
abbrev ReachAny (A : Arch) (Q : Type) (m : RBMap K V) : Prop :=
  Reachable (fun m => ∃ o : OrdKeys K Q, Init o m) (fun m (p : OrdKeys K Q × MapOp K V Q) => RBMap.step A p.1 m p.2) m

theorem ReachAny.loose (h : ReachAny A Q m) : ∃ l, m.Loose l := by
  refine Reachable.inv (Inv := fun m => ∃ l, m.Loose l) ?_ ?_ ?_ h
  · rintro m ⟨o, hi⟩
    cases hi with
    | new => exact ⟨[], new_loose⟩
    | @fromIter kvs _ h =>
      obtain ⟨m', l', h1, h2⟩ := new_loose.insertAll o kvs
      rw [RBMap.fromIter, h1] at h; cases h; exact ⟨l', h2⟩
    | @deserialize E input _ h =>
      obtain ⟨x, h1, h2⟩ := new_loose.visitLoop o input
      rw [RBMap.deserialize, h1] at h; cases h; exact h2 _ rfl
  all_goals
    rintro m ⟨o, op⟩ r m' ⟨l, hl⟩ hs
    obtain ⟨r', e, f, h1, h2, h3⟩ := hl.step A o op
    simp only at hs
    rw [h1] at hs
    cases hs
    cases h3
    exact ⟨_, ‹_›⟩

theorem Loose.fits_height (h : m.Loose l) : m.root.height ≤ 2 * Nat.log2 (m.size + 1) := by
  have := h.shape.height_le
  rwa [h.list, ← h.size] at this

end RBMap
end Rpds
