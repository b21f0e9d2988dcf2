import Verif.RedBlack.Balance
/-
Lookup, insertion, removal and `get_mut` on red-black search trees.
-/
set_option autoImplicit false
namespace Rpds
open Spec

namespace OrdKeys
variable {K V Q : Type} {o : OrdKeys K Q}

theorem Lawful.self (lo : o.Lawful) : o.self.Lawful where
  ordK := lo.ordK
  ordQ := lo.ordK
  borrow _ _ := rfl

theorem Lawful.equivK (lo : o.Lawful) : LawfulEquiv o.same := lo.ordK.equiv

theorem Lawful.swapK (lo : o.Lawful) (a b : K) : o.cmpK b a = (o.cmpK a b).swap := lo.ordK.oriented a b

section ord
variable {α : Type} {cmp : α → α → Ordering} {eq : α → α → Bool}

theorem lt_trans' (h : LawfulOrd cmp eq) {a b c : α} (h1 : cmp a b = .lt) (h2 : cmp b c = .lt) : cmp a c = .lt := by
  have t := h.trans a b c (by simp [h1]) (by simp [h2])
  cases hc : cmp a c with
  | lt => rfl
  | gt => rw [hc] at t; simp at t
  | eq =>
    have o1 := h.oriented a b
    have o2 := h.oriented a c
    have t2 := h.trans b c a (by simp [h2]) (by rw [o2, hc]; simp)
    rw [o1, h1] at t2; simp at t2

theorem eq_lt_trans' (h : LawfulOrd cmp eq) {a b c : α} (h1 : cmp a b = .eq) : cmp a c = cmp b c := by
  have key : ∀ a b c, cmp a b = .eq → (cmp b c).isLE = true → (cmp a c).isLE = true := fun a b c h1 h2 => h.trans a b c (by simp [h1]) h2
  have key2 : ∀ a b c, cmp a b = .eq → (cmp c a).isLE = true → (cmp c b).isLE = true := fun a b c h1 h2 => h.trans c a b h2 (by simp [h1])
  have hs : cmp b a = .eq := by rw [h.oriented a b, h1]; rfl
  have k1 := key a b c h1
  have k2 := key b a c hs
  have k3 := key2 a b c h1
  have k4 := key2 b a c hs
  rw [h.oriented a c, h.oriented b c] at k3 k4
  cases hac : cmp a c <;> cases hbc : cmp b c <;> simp_all

theorem lt_eq_trans' (h : LawfulOrd cmp eq) {a b c : α} (h2 : cmp b c = .eq) : cmp a b = cmp a c := by
  have h2' : cmp c b = .eq := by rw [h.oriented b c, h2]; rfl
  rw [h.oriented b a, h.oriented c a, eq_lt_trans' h h2]

end ord

theorem Lawful.keyLaws (lo : o.Lawful) : KeyLaws o.same o.hits where
  equiv := lo.equivK
  hits_congr k k' q h := by
    have h1 : o.cmpQ (o.borrow k) (o.borrow k') = .eq := by rw [lo.borrow]; exact (beq_iff_eq).1 h
    simp only [OrdKeys.hits]
    rw [lt_eq_trans' lo.ordQ h1]
  hits_inj k k' q h1 h2 := by
    simp only [OrdKeys.hits, beq_iff_eq] at h1 h2
    simp only [OrdKeys.same, beq_iff_eq]
    rw [← lo.borrow, ← eq_lt_trans' lo.ordQ h1]
    exact h2

theorem Lawful.q_lt (lo : o.Lawful) {q : Q} {a b : K} (h1 : o.cmpQ q (o.borrow a) = .lt) (h2 : o.cmpK a b = .lt) :
    o.cmpQ q (o.borrow b) = .lt := lt_trans' lo.ordQ h1 (by rw [lo.borrow]; exact h2)

theorem Lawful.q_gt (lo : o.Lawful) {q : Q} {a b : K} (h1 : o.cmpQ q (o.borrow b) = .gt) (h2 : o.cmpK a b = .lt) :
    o.cmpQ q (o.borrow a) = .gt := by
  have h3 : o.cmpQ (o.borrow b) q = .lt := by rw [lo.ordQ.oriented q, h1]; rfl
  have := lt_trans' lo.ordQ (show o.cmpQ (o.borrow a) (o.borrow b) = .lt by rw [lo.borrow]; exact h2) h3
  rw [lo.ordQ.oriented, this]; rfl

end OrdKeys

/-- Keys strictly increasing. -/
def KeysSorted {K V Q : Type} (o : OrdKeys K Q) (l : List (K × V)) : Prop := l.Pairwise fun a b => o.cmpK a.1 b.1 = .lt

namespace KeysSorted
variable {K V Q : Type} {o : OrdKeys K Q}

theorem split {a b : List (K × V)} {e : K × V} (h : KeysSorted o (a ++ e :: b)) :
    KeysSorted o a ∧ KeysSorted o b ∧ (∀ x ∈ a, o.cmpK x.1 e.1 = .lt) ∧ (∀ x ∈ b, o.cmpK e.1 x.1 = .lt) := by
  have h' := List.pairwise_append.1 h
  have h2 := List.pairwise_cons.1 h'.2.1
  exact ⟨h'.1, h2.2, fun x hx => h'.2.2 x hx e (by simp), h2.1⟩

theorem distinct {l : List (K × V)} (h : KeysSorted o l) : Distinct o.same l :=
  h.imp fun hab => by simp [OrdKeys.same, hab]

/-- Below the first key that is greater, nothing is found any more. -/
theorem no_hit_right (lo : o.Lawful) {b : List (K × V)} {e : K × V} {q : Q} (hq : o.cmpQ q (o.borrow e.1) = .lt)
    (hb : ∀ x ∈ b, o.cmpK e.1 x.1 = .lt) : ∀ x ∈ b, o.cmpQ q (o.borrow x.1) = .lt := fun x hx => lo.q_lt hq (hb x hx)

theorem no_hit_left (lo : o.Lawful) {a : List (K × V)} {e : K × V} {q : Q} (hq : o.cmpQ q (o.borrow e.1) = .gt)
    (ha : ∀ x ∈ a, o.cmpK x.1 e.1 = .lt) : ∀ x ∈ a, o.cmpQ q (o.borrow x.1) = .gt := fun x hx => lo.q_gt hq (ha x hx)

/-- Two increasing lists with the same entries are the same list. -/
theorem perm_eq (lo : o.Lawful) : ∀ {l l' : List (K × V)}, KeysSorted o l → KeysSorted o l' → l.Perm l' → l = l'
  | [], l', _, _, hp => by simpa using hp.symm.eq_nil
  | a :: l, [], _, _, hp => by simpa using hp.eq_nil
  | a :: l, b :: l', h, h', hp => by
    have h1 := List.pairwise_cons.1 h
    have h2 := List.pairwise_cons.1 h'
    have hab : a = b := by
      rcases List.mem_cons.1 (hp.mem_iff.1 (List.mem_cons_self : a ∈ a :: l)) with h3 | h3
      · exact h3
      · rcases List.mem_cons.1 (hp.mem_iff.2 (List.mem_cons_self : b ∈ b :: l')) with h4 | h4
        · exact h4.symm
        · have e1 := h2.1 a h3
          have e2 := h1.1 b h4
          rw [lo.swapK, e2] at e1; simp at e1
    subst hab
    rw [perm_eq lo h1.2 h2.2 (List.perm_cons _ |>.1 hp)]

end KeysSorted

namespace RBTree
variable {K V Q : Type} {o : OrdKeys K Q} {A : Arch}

/-- A red-black search tree with black root: what the map keeps. -/
structure OK (o : OrdKeys K Q) (t : RBTree K V) : Prop where
  sorted : KeysSorted o t.toList
  bh : ∃ n, t.BH n
  noRR : t.NoRR
  root : t.NotRed

theorem get_eq (lo : o.Lawful) (q : Q) (t : RBTree K V) (h : KeysSorted o t.toList) : t.get o q = mapGet o.hits t.toList q := by
  induction t with
  | none => rfl
  | some e c l r ihl ihr =>
    obtain ⟨h1, h2, h3, h4⟩ := KeysSorted.split h
    simp only [get, toList_some, mapGet, List.find?_append, List.find?_cons]
    cases hc : o.cmpQ q (o.borrow e.1) with
    | lt =>
      have hr : r.toList.find? (fun p => o.hits p.1 q) = Option.none := by
        rw [List.find?_eq_none]; intro x hx
        simp [OrdKeys.hits, KeysSorted.no_hit_right lo hc h4 x hx]
      have he : o.hits e.1 q = false := by simp [OrdKeys.hits, hc]
      simp only [ihl h1, mapGet, hr, he]
      simp
    | eq =>
      have hl : l.toList.find? (fun p => o.hits p.1 q) = Option.none := by
        rw [List.find?_eq_none]; intro x hx hx'
        have := lo.keyLaws.hits_inj x.1 e.1 q hx' (by simp [OrdKeys.hits, hc])
        rw [OrdKeys.same, h3 x hx] at this; cases this
      have he : o.hits e.1 q = true := by simp [OrdKeys.hits, hc]
      simp [hl, he]
    | gt =>
      have hl : l.toList.find? (fun p => o.hits p.1 q) = Option.none := by
        rw [List.find?_eq_none]; intro x hx
        simp [OrdKeys.hits, KeysSorted.no_hit_left lo hc h3 x hx]
      have he : o.hits e.1 q = false := by simp [OrdKeys.hits, hc]
      simp only [ihr h2, mapGet, hl, he]
      simp

theorem first_eq (t : RBTree K V) : t.first = t.toList.head? := by
  induction t with
  | none => rfl
  | some e c l r ihl ihr =>
    cases l with
    | none => rfl
    | some e' c' l' r' =>
      rw [first]
      · rw [ihl]; simp
      · simp

theorem last_eq (t : RBTree K V) : t.last = t.toList.getLast? := by
  induction t with
  | none => rfl
  | some e c l r ihl ihr =>
    cases r with
    | none => simp [last]
    | some e' c' l' r' =>
      rw [last]
      · rw [ihr]; simp [List.getLast?_append, List.getLast?_cons]
      · simp

/-! ### Insertion -/

/-- The contents after inserting: smaller entries, the new one, greater entries. -/
def insertedList (o : OrdKeys K Q) (l : List (K × V)) (k : K) (v : V) : List (K × V) :=
  (l.filter fun p => o.cmpK k p.1 == .gt) ++ (k, v) :: (l.filter fun p => o.cmpK k p.1 == .lt)

theorem insertedList_sorted (lo : o.Lawful) {l : List (K × V)} (h : KeysSorted o l) (k : K) (v : V) :
    KeysSorted o (insertedList o l k v) := by
  refine List.pairwise_append.2 ⟨List.Pairwise.filter _ h, List.pairwise_cons.2 ⟨?_, List.Pairwise.filter _ h⟩, ?_⟩
  · intro x hx
    simpa using (List.mem_filter.1 hx).2
  · intro x hx y hy
    have h1 : o.cmpK k x.1 = .gt := by simpa using (List.mem_filter.1 hx).2
    have h1' : o.cmpK x.1 k = .lt := by rw [lo.swapK k, h1]; rfl
    rcases List.mem_cons.1 hy with rfl | hy
    · exact h1'
    · exact OrdKeys.lt_trans' lo.ordK h1' (by simpa using (List.mem_filter.1 hy).2)

theorem insertedList_perm (lo : o.Lawful) (l : List (K × V)) (k : K) (v : V) :
    (insertedList o l k v).Perm (mapInsert o.same l k v) := by
  refine (List.perm_middle).trans (List.Perm.cons _ ?_)
  have h2 := List.filter_append_perm (fun p : K × V => o.cmpK k p.1 == .gt) (l.filter fun p => !o.same p.1 k)
  refine List.Perm.trans (List.Perm.of_eq ?_) h2
  rw [List.filter_filter, List.filter_filter]
  congr 1
  all_goals
    refine List.filter_congr ?_
    intro x _
    simp only [OrdKeys.same, lo.swapK k x.1]
    cases o.cmpK k x.1 <;> rfl

theorem insertedList_lt (lo : o.Lawful) {a b : List (K × V)} {e : K × V} {k : K} (v : V) (hc : o.cmpK k e.1 = .lt)
    (hb : ∀ x ∈ b, o.cmpK e.1 x.1 = .lt) : insertedList o (a ++ e :: b) k v = insertedList o a k v ++ e :: b := by
  have hb' : ∀ x ∈ b, o.cmpK k x.1 = .lt := fun x hx => OrdKeys.lt_trans' lo.ordK hc (hb x hx)
  have e1 : b.filter (fun p => o.cmpK k p.1 == .gt) = [] := by
    rw [List.filter_eq_nil_iff]; intro x hx; simp [hb' x hx]
  have e2 : b.filter (fun p => o.cmpK k p.1 == .lt) = b := by
    rw [List.filter_eq_self]; intro x hx; simp [hb' x hx]
  simp [insertedList, List.filter_append, List.filter_cons, hc, e1, e2]

theorem insertedList_gt (lo : o.Lawful) {a b : List (K × V)} {e : K × V} {k : K} (v : V) (hc : o.cmpK k e.1 = .gt)
    (ha : ∀ x ∈ a, o.cmpK x.1 e.1 = .lt) : insertedList o (a ++ e :: b) k v = a ++ e :: insertedList o b k v := by
  have ha' : ∀ x ∈ a, o.cmpK k x.1 = .gt := fun x hx => lo.self.q_gt hc (ha x hx)
  have e1 : a.filter (fun p => o.cmpK k p.1 == .gt) = a := by
    rw [List.filter_eq_self]; intro x hx; simp [ha' x hx]
  have e2 : a.filter (fun p => o.cmpK k p.1 == .lt) = [] := by
    rw [List.filter_eq_nil_iff]; intro x hx; simp [ha' x hx]
  simp [insertedList, List.filter_append, List.filter_cons, hc, e1, e2]

theorem insertedList_eq (lo : o.Lawful) {a b : List (K × V)} {e : K × V} {k : K} (v : V) (hc : o.cmpK k e.1 = .eq)
    (ha : ∀ x ∈ a, o.cmpK x.1 e.1 = .lt) (hb : ∀ x ∈ b, o.cmpK e.1 x.1 = .lt) :
    insertedList o (a ++ e :: b) k v = a ++ (k, v) :: b := by
  have hb' : ∀ x ∈ b, o.cmpK k x.1 = .lt := fun x hx => by rw [OrdKeys.eq_lt_trans' lo.ordK hc]; exact hb x hx
  have ha' : ∀ x ∈ a, o.cmpK k x.1 = .gt := fun x hx => by
    rw [OrdKeys.eq_lt_trans' lo.ordK hc, lo.swapK, ha x hx]; rfl
  have e1 : b.filter (fun p => o.cmpK k p.1 == .gt) = [] := by
    rw [List.filter_eq_nil_iff]; intro x hx; simp [hb' x hx]
  have e2 : b.filter (fun p => o.cmpK k p.1 == .lt) = b := by
    rw [List.filter_eq_self]; intro x hx; simp [hb' x hx]
  have e3 : a.filter (fun p => o.cmpK k p.1 == .gt) = a := by
    rw [List.filter_eq_self]; intro x hx; simp [ha' x hx]
  have e4 : a.filter (fun p => o.cmpK k p.1 == .lt) = [] := by
    rw [List.filter_eq_nil_iff]; intro x hx; simp [ha' x hx]
  simp [insertedList, List.filter_append, List.filter_cons, hc, e1, e2, e3, e4]

/-- What `ins` below the root does.  `b` tells whether the key is new; if not, colors do not change at all. -/
theorem ins_ok (lo : o.Lawful) (k : K) (v : V) (t : RBTree K V) (h : KeysSorted o t.toList) {n : Nat} (hb : t.BH n) (hn : t.NoRR) :
    ∃ b t', ins o k v t false = .ok (b, t') ∧ t'.toList = insertedList o t.toList k v ∧ t'.BH n ∧ t'.NoRR2 ∧ (t.NotRed → t'.NoRR) ∧
      (b = false → t'.color = t.color ∧ t'.NoRR) ∧ b = !(t.toList.any fun p => o.same p.1 k) := by
  induction t generalizing n with
  | none =>
    refine ⟨true, (RBNode.newRed (k, v)).ptr, rfl, rfl, ?_, ?_, ?_, by simp, rfl⟩
    · exact ⟨hb, hb⟩
    · exact ⟨trivial, trivial⟩
    · intro _; exact ⟨notRed_none, notRed_none, trivial, trivial⟩
  | some e c l r ihl ihr =>
    obtain ⟨h1, h2, h3, h4⟩ := KeysSorted.split h
    have hsame : ∀ x : K × V, o.same x.1 k = (o.cmpK k x.1 == .eq) := by
      intro x; simp only [OrdKeys.same]; rw [lo.swapK k]; cases o.cmpK k x.1 <;> rfl
    have hlb : ∃ m, l.BH m ∧ r.BH m ∧ n = m + (if c = .black then 1 else 0) := by
      cases c with
      | red => exact ⟨n, hb.1, hb.2, by simp⟩
      | black =>
        cases n with
        | zero => exact hb.elim
        | succ n => exact ⟨n, hb.1, hb.2, by simp⟩
    obtain ⟨m, hlm, hrm, hnm⟩ := hlb
    have hnn : l.NoRR ∧ r.NoRR := by cases c <;> simp_all [NoRR]
    simp only [ins]
    cases hc : o.cmpK k e.1 with
    | lt =>
      obtain ⟨b, l', e1, e2, e3, e4, e5, e6, e7⟩ := ihl h1 hlm hnn.1
      have hany : (!((RBTree.some e c l r).toList.any fun p => o.same p.1 k)) = b := by
        have hr : r.toList.any (fun p => o.same p.1 k) = false := by
          rw [List.any_eq_false]; intro x hx
          rw [hsame, OrdKeys.lt_trans' lo.ordK hc (h4 x hx)]; simp
        have he : o.same e.1 k = false := by rw [hsame, hc]; rfl
        simp [e7, hr, he]
      simp only [e1, Res.ok_bind, insDone]
      cases b with
      | false =>
        obtain ⟨e8, e9⟩ := e6 rfl
        refine ⟨false, .some e c l' r, rfl, ?_, ?_, ⟨e9, hnn.2⟩, ?_, ?_, hany.symm⟩
        · rw [toList_some, toList_some, e2, insertedList_lt lo v hc h4]
        · cases c <;> simp_all [BH]
        · intro _
          cases c with
          | red => simp_all [NoRR, NotRed]
          | black => exact ⟨e9, hnn.2⟩
        · intro _
          refine ⟨rfl, ?_⟩
          cases c with
          | red =>
            refine ⟨?_, hn.2.1, e9, hnn.2⟩
            rw [NotRed, e8]; exact hn.1
          | black => exact ⟨e9, hnn.2⟩
      | true =>
        cases c with
        | red =>
          refine ⟨true, .some e .red l' r, rfl, ?_, ?_, ⟨e5 hn.1, hnn.2⟩, by simp, by simp, hany.symm⟩
          · rw [toList_some, toList_some, e2, insertedList_lt lo v hc h4]
          · simp_all [BH]
        | black =>
          obtain ⟨x, g1, g2, g3, g4⟩ := RBNode.balance_ok (e := e) e3 hrm (.inl ⟨e4, hnn.2⟩)
          refine ⟨true, x.ptr, by simp [g1], ?_, ?_, g4.weaken, fun _ => g4, by simp, hany.symm⟩
          · rw [g2, toList_some, e2, insertedList_lt lo v hc h4]
          · simpa [hnm] using g3
    | eq =>
      refine ⟨false, .some (k, v) c l r, rfl, ?_, ?_, hnn, ?_, ?_, ?_⟩
      · rw [toList_some, toList_some, insertedList_eq lo v hc h3 h4]
      · cases c with
        | red => exact hb
        | black => cases n with
          | zero => exact hb.elim
          | succ n => exact hb
      · intro _; cases c <;> exact hn
      · intro _; exact ⟨rfl, by cases c <;> exact hn⟩
      · simp [hsame, hc]
    | gt =>
      obtain ⟨b, r', e1, e2, e3, e4, e5, e6, e7⟩ := ihr h2 hrm hnn.2
      have hany : (!((RBTree.some e c l r).toList.any fun p => o.same p.1 k)) = b := by
        have hl : l.toList.any (fun p => o.same p.1 k) = false := by
          rw [List.any_eq_false]; intro x hx
          rw [hsame]
          have : o.cmpK k x.1 = .gt := lo.self.q_gt hc (h3 x hx)
          simp [this]
        have he : o.same e.1 k = false := by rw [hsame, hc]; rfl
        simp [e7, hl, he]
      simp only [e1, Res.ok_bind, insDone]
      cases b with
      | false =>
        obtain ⟨e8, e9⟩ := e6 rfl
        refine ⟨false, .some e c l r', rfl, ?_, ?_, ⟨hnn.1, e9⟩, ?_, ?_, hany.symm⟩
        · rw [toList_some, toList_some, e2, insertedList_gt lo v hc h3]
        · cases c <;> simp_all [BH]
        · intro _
          cases c with
          | red => simp_all [NoRR, NotRed]
          | black => exact ⟨hnn.1, e9⟩
        · intro _
          refine ⟨rfl, ?_⟩
          cases c with
          | red =>
            refine ⟨hn.1, ?_, hnn.1, e9⟩
            rw [NotRed, e8]; exact hn.2.1
          | black => exact ⟨hnn.1, e9⟩
      | true =>
        cases c with
        | red =>
          refine ⟨true, .some e .red l r', rfl, ?_, ?_, ⟨hnn.1, e5 hn.2.1⟩, by simp, by simp, hany.symm⟩
          · rw [toList_some, toList_some, e2, insertedList_gt lo v hc h3]
          · simp_all [BH]
        | black =>
          obtain ⟨x, g1, g2, g3, g4⟩ := RBNode.balance_ok (e := e) hlm e3 (.inr ⟨hnn.1, e4⟩)
          refine ⟨true, x.ptr, by simp [g1], ?_, ?_, g4.weaken, fun _ => g4, by simp, hany.symm⟩
          · rw [g2, toList_some, e2, insertedList_gt lo v hc h3]
          · simpa [hnm] using g3

/-- The tree with its root made black. -/
def blacken : RBTree K V → RBTree K V
  | .none => .none
  | .some e _ l r => .some e .black l r

@[simp] theorem toList_blacken (t : RBTree K V) : t.blacken.toList = t.toList := by cases t <;> rfl
theorem notRed_blacken (t : RBTree K V) : t.blacken.NotRed := by cases t <;> simp [blacken]
theorem noRR_blacken {t : RBTree K V} (h : t.NoRR2) : t.blacken.NoRR := by cases t <;> exact h
theorem bh_blacken {t : RBTree K V} {n : Nat} (h : t.BH n) : ∃ m, t.blacken.BH m := by
  rcases t with _ | ⟨e, _ | _, l, r⟩
  · exact ⟨0, rfl⟩
  · exact ⟨n + 1, h⟩
  · exact ⟨n, h⟩

theorem ins_root (k : K) (v : V) (t : RBTree K V) :
    ins o k v t true = (fun p => (p.1, p.2.blacken)) <$> ins o k v t false := by
  have hd : ∀ (b : Bool) (x : RBNode K V), insDone true b x = (fun p => (p.1, p.2.blacken)) <$> insDone false b x := by
    intro b x
    cases b with
    | false => rfl
    | true =>
      simp only [insDone]
      cases x.balance <;> rfl
  cases t with
  | none => rfl
  | some e c l r =>
    simp only [ins]
    cases o.cmpK k e.1 with
    | lt =>
      cases hi : ins o k v l false with
      | error e => rfl
      | ok p => simp only [Res.ok_bind, hd]
    | eq => simp only [hd]
    | gt =>
      cases hi : ins o k v r false with
      | error e => rfl
      | ok p => simp only [Res.ok_bind, hd]

theorem OK.insert {t : RBTree K V} (h : t.OK o) (lo : o.Lawful) (k : K) (v : V) :
    ∃ t', t.insert o k v = .ok (!(t.toList.any fun p => o.same p.1 k), t') ∧ t'.toList = insertedList o t.toList k v ∧ t'.OK o := by
  obtain ⟨n, hn⟩ := h.bh
  obtain ⟨b, t', e1, e2, e3, e4, e5, e6, e7⟩ := ins_ok lo k v t h.sorted hn h.noRR
  subst e7
  refine ⟨t'.blacken, ?_, by simp [e2], ⟨?_, bh_blacken e3, noRR_blacken e4, notRed_blacken t'⟩⟩
  · rw [RBTree.insert, ins_root, e1]; rfl
  · rw [toList_blacken, e2]; exact insertedList_sorted lo h.sorted k v

/-! ### Removal -/

theorem del_root (key : Q) (t : RBTree K V) :
    del A o key t true = (fun p => (p.1, p.2.blacken)) <$> del A o key t false := by
  have hd : ∀ (b : Bool) (x : RBNode K V), delDone true b x = (delDone false b x).blacken := by
    intro b x; cases b <;> rfl
  cases t with
  | none => rfl
  | some e c l r =>
    simp only [del]
    cases o.cmpQ key (o.borrow e.1) with
    | lt =>
      cases hi : del A o key l false with
      | error e => rfl
      | ok p =>
        obtain ⟨b, l'⟩ := p
        simp only [Res.ok_bind]
        cases delLeft A l.color e c l' r with
        | error e => rfl
        | ok x => simp [hd]
    | eq =>
      simp only
      cases RBNode.removeFuse A ⟨e, c, .none, .none⟩ l r with
      | error e => rfl
      | ok p => simp [hd]
    | gt =>
      cases hi : del A o key r false with
      | error e => rfl
      | ok p =>
        obtain ⟨b, r'⟩ := p
        simp only [Res.ok_bind]
        cases delRight A r.color e c l r' with
        | error e => rfl
        | ok x => simp [hd]

/-- What `del` below the root does: a tree with a black root loses one black level, one with a red root keeps its height. -/
theorem del_ok (lo : o.Lawful) (q : Q) (t : RBTree K V) (h : KeysSorted o t.toList) {n : Nat} (hb : t.BH n) (hn : t.NoRR) :
    ∃ t', del A o q t false = .ok (t.toList.any (fun p => o.hits p.1 q), t') ∧ t'.toList = t.toList.filter (fun p => !o.hits p.1 q) ∧
      t'.NoRR2 ∧
      match t with
      | .none => t' = .none
      | .some _ .red _ _ => t'.BH n ∧ t'.NoRR
      | .some _ .black _ _ => t'.BH (n - 1) := by
  induction t generalizing n with
  | none => exact ⟨.none, rfl, rfl, trivial, rfl⟩
  | some e c l r ihl ihr =>
    obtain ⟨h1, h2, h3, h4⟩ := KeysSorted.split h
    have hlb : ∃ m, l.BH m ∧ r.BH m ∧ n = m + (if c = .black then 1 else 0) := by
      cases c with
      | red => exact ⟨n, hb.1, hb.2, by simp⟩
      | black =>
        cases n with
        | zero => exact hb.elim
        | succ n => exact ⟨n, hb.1, hb.2, by simp⟩
    obtain ⟨m, hlm, hrm, hnm⟩ := hlb
    have hnn : l.NoRR ∧ r.NoRR := by cases c <;> simp_all [NoRR]
    simp only [del]
    cases hc : o.cmpQ q (o.borrow e.1) with
    | lt =>
      obtain ⟨l', e1, e2, e3, e4⟩ := ihl h1 hlm hnn.1
      have hr := KeysSorted.no_hit_right lo hc h4
      have hfr : r.toList.filter (fun p => !o.hits p.1 q) = r.toList := by
        rw [List.filter_eq_self]; intro x hx; simp [OrdKeys.hits, hr x hx]
      have har : r.toList.any (fun p => o.hits p.1 q) = false := by
        rw [List.any_eq_false]; intro x hx; simp [OrdKeys.hits, hr x hx]
      have he : o.hits e.1 q = false := by simp [OrdKeys.hits, hc]
      have hany : (RBTree.some e c l r).toList.any (fun p => o.hits p.1 q) = l.toList.any (fun p => o.hits p.1 q) := by simp [har, he]
      have hfil : (RBTree.some e c l r).toList.filter (fun p => !o.hits p.1 q) = l'.toList ++ e :: r.toList := by simp [hfr, he, e2]
      rw [hany, hfil]
      simp only [e1, Res.ok_bind]
      rcases l with _ | ⟨el, _ | _, ll, lr⟩
      · -- nothing on the left
        have e4 : l' = .none := e4
        subst e4
        refine ⟨_, rfl, rfl, ⟨trivial, hnn.2⟩, ?_⟩
        cases c with
        | red => exact ⟨hb, hn⟩
        | black => simp only [hnm]; exact ⟨hlm, hrm⟩
      · -- red left child, so this node is black
        simp only at e4
        cases c with
        | red => exact absurd hn.1 notRed_red
        | black =>
          refine ⟨_, rfl, rfl, ⟨e4.2, hnn.2⟩, ?_⟩
          simp only [hnm]
          exact ⟨e4.1, hrm⟩
      · -- black left child
        simp only at e4
        match m, hlm, hrm, e4, hnm with
        | 0, hlm, _, _, _ => exact hlm.elim
        | m + 1, hlm, hrm, e4, hnm =>
        obtain ⟨x, g1, g2, g3, g4, g5⟩ := RBNode.removeBalanceLeft_ok (A := A) (e := e) (c := .red) e4 hrm e3 hnn.2
        have : delLeft A (RBTree.some el .black ll lr).color e c l' r = .ok x := by
          simp only [delLeft, RBTree.color]; exact g1
        rw [this]
        refine ⟨x.ptr, rfl, g2, g4, ?_⟩
        cases c with
        | red => exact ⟨by simpa [hnm] using g3, g5 hn.2.1⟩
        | black => simpa [hnm] using g3
    | eq =>
      have hno : ∀ x, (x ∈ l.toList ∨ x ∈ r.toList) → o.hits x.1 q = false := by
        intro x hx
        cases hxq : o.hits x.1 q with
        | false => rfl
        | true =>
          have := lo.keyLaws.hits_inj x.1 e.1 q hxq (by simp [OrdKeys.hits, hc])
          simp only [OrdKeys.same, beq_iff_eq] at this
          rcases hx with hx | hx
          · rw [h3 x hx] at this; cases this
          · have h5 := h4 x hx
            rw [lo.swapK, this] at h5; cases h5
      have hfl : l.toList.filter (fun p => !o.hits p.1 q) = l.toList := by
        rw [List.filter_eq_self]; intro x hx; simp [hno x (.inl hx)]
      have hfr : r.toList.filter (fun p => !o.hits p.1 q) = r.toList := by
        rw [List.filter_eq_self]; intro x hx; simp [hno x (.inr hx)]
      have he : o.hits e.1 q = true := by simp [OrdKeys.hits, hc]
      obtain ⟨b, x, g1, g2, g3, g4, g5⟩ := RBNode.removeFuse_ok (A := A) ⟨e, c, .none, .none⟩ l r hlm hrm hnn.1 hnn.2
      have hd : delDone false (!b) x = RBNode.fusedTree b x := by cases b <;> rfl
      refine ⟨RBNode.fusedTree b x, ?_, ?_, g4, ?_⟩
      · simp [g1, hd, he]
      · simp [g2, hfl, hfr, he]
      · cases c with
        | red => exact ⟨by simpa [hnm] using g3, g5 hn.1 hn.2.1⟩
        | black => simpa [hnm] using g3
    | gt =>
      obtain ⟨r', e1, e2, e3, e4⟩ := ihr h2 hrm hnn.2
      have hl := KeysSorted.no_hit_left lo hc h3
      have hfl : l.toList.filter (fun p => !o.hits p.1 q) = l.toList := by
        rw [List.filter_eq_self]; intro x hx; simp [OrdKeys.hits, hl x hx]
      have hal : l.toList.any (fun p => o.hits p.1 q) = false := by
        rw [List.any_eq_false]; intro x hx; simp [OrdKeys.hits, hl x hx]
      have he : o.hits e.1 q = false := by simp [OrdKeys.hits, hc]
      have hany : (RBTree.some e c l r).toList.any (fun p => o.hits p.1 q) = r.toList.any (fun p => o.hits p.1 q) := by simp [hal, he]
      have hfil : (RBTree.some e c l r).toList.filter (fun p => !o.hits p.1 q) = l.toList ++ e :: r'.toList := by simp [hfl, he, e2]
      rw [hany, hfil]
      simp only [e1, Res.ok_bind]
      rcases r with _ | ⟨er, _ | _, rl, rr⟩
      · have e4 : r' = .none := e4
        subst e4
        refine ⟨_, rfl, rfl, ⟨hnn.1, trivial⟩, ?_⟩
        cases c with
        | red => exact ⟨hb, hn⟩
        | black => simp only [hnm]; exact ⟨hlm, hrm⟩
      · simp only at e4
        cases c with
        | red => exact absurd hn.2.1 notRed_red
        | black =>
          refine ⟨_, rfl, rfl, ⟨hnn.1, e4.2⟩, ?_⟩
          simp only [hnm]
          exact ⟨hlm, e4.1⟩
      · simp only at e4
        match m, hlm, hrm, e4, hnm with
        | 0, _, hrm, _, _ => exact hrm.elim
        | m + 1, hlm, hrm, e4, hnm =>
        obtain ⟨x, g1, g2, g3, g4, g5⟩ := RBNode.removeBalanceRight_ok (A := A) (e := e) (c := .red) hlm e4 hnn.1 e3
        have : delRight A (RBTree.some er .black rl rr).color e c l r' = .ok x := by
          simp only [delRight, RBTree.color]; exact g1
        rw [this]
        refine ⟨x.ptr, rfl, g2, g4, ?_⟩
        cases c with
        | red => exact ⟨by simpa [hnm] using g3, g5 hn.1⟩
        | black => simpa [hnm] using g3

theorem OK.remove {t : RBTree K V} (h : t.OK o) (lo : o.Lawful) (q : Q) :
    ∃ t', t.remove A o q = .ok (t.toList.any (fun p => o.hits p.1 q), t') ∧ t'.toList = t.toList.filter (fun p => !o.hits p.1 q) ∧
      t'.OK o := by
  obtain ⟨n, hn⟩ := h.bh
  obtain ⟨t', e1, e2, e3, e4⟩ := del_ok (A := A) lo q t h.sorted hn h.noRR
  have hbh : ∃ m, t'.BH m := by
    rcases t with _ | ⟨e, _ | _, l, r⟩
    · simp only at e4; exact ⟨0, by rw [e4]; rfl⟩
    · exact ⟨_, e4.1⟩
    · exact ⟨_, e4⟩
  obtain ⟨m, hm⟩ := hbh
  refine ⟨t'.blacken, ?_, by simp [e2], ⟨?_, bh_blacken hm, noRR_blacken e3, notRed_blacken t'⟩⟩
  · rw [RBTree.remove, del_root, e1]; rfl
  · rw [toList_blacken, e2]; exact List.Pairwise.filter _ h.sorted

/-! ### `get_mut` -/

theorem getMut_shape (q : Q) (f : V → V) (t : RBTree K V) :
    (t.getMut o q f).2.color = t.color ∧ (∀ n, (t.getMut o q f).2.BH n ↔ t.BH n) ∧ ((t.getMut o q f).2.NoRR ↔ t.NoRR) := by
  induction t with
  | none => exact ⟨rfl, fun _ => Iff.rfl, Iff.rfl⟩
  | some e c l r ihl ihr =>
    simp only [getMut]
    obtain ⟨a1, a2, a3⟩ := ihl
    obtain ⟨b1, b2, b3⟩ := ihr
    cases o.cmpQ q (o.borrow e.1) with
    | lt =>
      refine ⟨rfl, fun n => ?_, ?_⟩
      · cases c <;> cases n <;> simp [BH, a2]
      · cases c <;> simp [NoRR, NotRed, a1, a3]
    | eq =>
      refine ⟨rfl, fun n => ?_, ?_⟩
      · cases c <;> cases n <;> simp [BH]
      · cases c <;> simp [NoRR]
    | gt =>
      refine ⟨rfl, fun n => ?_, ?_⟩
      · cases c <;> cases n <;> simp [BH, b2]
      · cases c <;> simp [NoRR, NotRed, b1, b3]

theorem map_noHit {l : List (K × V)} {q : Q} {f : V → V} (h : ∀ x ∈ l, o.hits x.1 q = false) :
    l.map (fun p => if o.hits p.1 q then (p.1, f p.2) else p) = l := by
  rw [List.map_congr_left (g := id)]
  · simp
  · intro x hx; simp [h x hx]

theorem getMut_list (lo : o.Lawful) (q : Q) (f : V → V) (t : RBTree K V) (h : KeysSorted o t.toList) :
    (t.getMut o q f).1 = (mapGet o.hits t.toList q).map (·.2) ∧ (t.getMut o q f).2.toList = mapModify o.hits t.toList q f := by
  rw [← get_eq lo q t h]
  induction t with
  | none => exact ⟨rfl, rfl⟩
  | some e c l r ihl ihr =>
    obtain ⟨h1, h2, h3, h4⟩ := KeysSorted.split h
    simp only [getMut, get, mapModify, toList_some, List.map_append, List.map_cons]
    obtain ⟨a1, a2⟩ := ihl h1
    obtain ⟨b1, b2⟩ := ihr h2
    rw [mapModify] at a2 b2
    cases hc : o.cmpQ q (o.borrow e.1) with
    | lt =>
      refine ⟨a1, ?_⟩
      have hr := KeysSorted.no_hit_right lo hc h4
      rw [map_noHit (l := r.toList) (fun x hx => by simp [OrdKeys.hits, hr x hx])]
      simp [a2, OrdKeys.hits, hc]
    | eq =>
      refine ⟨rfl, ?_⟩
      have hno : ∀ x, (x ∈ l.toList ∨ x ∈ r.toList) → o.hits x.1 q = false := by
        intro x hx
        cases hxq : o.hits x.1 q with
        | false => rfl
        | true =>
          have := lo.keyLaws.hits_inj x.1 e.1 q hxq (by simp [OrdKeys.hits, hc])
          simp only [OrdKeys.same, beq_iff_eq] at this
          rcases hx with hx | hx
          · rw [h3 x hx] at this; cases this
          · have h5 := h4 x hx
            rw [lo.swapK, this] at h5; cases h5
      rw [map_noHit (l := r.toList) (fun x hx => hno x (.inr hx)), map_noHit (l := l.toList) (fun x hx => hno x (.inl hx))]
      simp [OrdKeys.hits, hc]
    | gt =>
      refine ⟨b1, ?_⟩
      have hl := KeysSorted.no_hit_left lo hc h3
      rw [map_noHit (l := l.toList) (fun x hx => by simp [OrdKeys.hits, hl x hx])]
      simp [b2, OrdKeys.hits, hc]

theorem OK.getMut {t : RBTree K V} (h : t.OK o) (lo : o.Lawful) (q : Q) (f : V → V) :
    (t.getMut o q f).1 = (mapGet o.hits t.toList q).map (·.2) ∧ (t.getMut o q f).2.toList = mapModify o.hits t.toList q f ∧
      (t.getMut o q f).2.OK o := by
  obtain ⟨e1, e2⟩ := getMut_list lo q f t h.sorted
  obtain ⟨s1, s2, s3⟩ := getMut_shape (o := o) q f t
  refine ⟨e1, e2, ⟨?_, ?_, s3.2 h.noRR, ?_⟩⟩
  · rw [e2, KeysSorted, mapModify, List.pairwise_map]
    refine h.sorted.imp ?_
    intro a b hab
    split <;> split <;> exact hab
  · obtain ⟨n, hn⟩ := h.bh
    exact ⟨n, (s2 n).2 hn⟩
  · rw [NotRed, s1]; exact h.root

end RBTree
end Rpds
