import Verif.RedBlack.Unlawful
/-
Red-black tree maps whose keys' `cmp` (and `Clone`) may panic, change their answers from call to call, or do anything else: user code
as a stateful function.

The functions of `Verif/RedBlack/Model.lean` again, with every call of user code written as such.  The result is `none` if user code
panicked; the tree is then what the code leaves behind in `*root` when the panic unwinds (line numbers of
/repo/src/map/red_black_tree_map/mod.rs).
-/
set_option autoImplicit false
namespace Rpds
open Spec

/-- User code with a state of its own: `Ord` for keys, `Ord` for borrowed keys against stored ones, and the `Clone`s of key and value in
`make_mut` of an entry (when it is shared).  `none`: it panics. -/
structure RBUser (S K V Q : Type) where
  cmpK : S → K → K → Option Ordering × S
  cmpQ : S → Q → K → Option Ordering × S
  clone : S → K × V → Option Unit × S

namespace RBUser
variable {S K V Q : Type}

/-- Functions that keep no state and never panic. -/
def pure (o : OrdKeys K Q) : RBUser S K V Q where
  cmpK s a b := (some (o.cmpK a b), s)
  cmpQ s q k := (some (o.cmpQ q (o.borrow k)), s)
  clone s _ := (some (), s)

/-- The user code can find the new key equal to the stored one. -/
noncomputable def same (U : RBUser S K V Q) (stored new : K) : Bool := open Classical in decide (∃ s, (U.cmpK s new stored).1 = some .eq)

/-- The user code can find the borrowed key equal to the stored one. -/
noncomputable def hits (U : RBUser S K V Q) (stored : K) (q : Q) : Bool := open Classical in decide (∃ s, (U.cmpQ s q stored).1 = some .eq)

theorem same_of {U : RBUser S K V Q} {s : S} {stored new : K} (h : (U.cmpK s new stored).1 = some .eq) : U.same stored new = true := by
  simp only [same, decide_eq_true_eq]; exact ⟨s, h⟩

theorem hits_of {U : RBUser S K V Q} {s : S} {stored : K} {q : Q} (h : (U.cmpQ s q stored).1 = some .eq) : U.hits stored q = true := by
  simp only [hits, decide_eq_true_eq]; exact ⟨s, h⟩

end RBUser

namespace RBTree
variable {S K V Q : Type} {A : Arch} {U : RBUser S K V Q}

/-- `Node::get` (169-179). -/
def getU (U : RBUser S K V Q) (key : Q) : RBTree K V → S → Option (Option (K × V)) × S
  | .none, s => (Option.some Option.none, s)
  | .some e _ l r, s =>
    match U.cmpQ s key e.1 with
    | (Option.none, s) => (Option.none, s)
    | (Option.some .lt, s) => l.getU U key s
    | (Option.some .eq, s) => (Option.some (Option.some e), s)
    | (Option.some .gt, s) => r.getU U key s

/-- `ins` inside `Node::insert` (373-427). -/
def insU (U : RBUser S K V Q) (k : K) (v : V) : RBTree K V → (is_root : Bool) → S → Res (Option Bool × RBTree K V × S)
  | .none, is_root, s => .ok (Option.some true, (if is_root then RBNode.newBlack (k, v) else RBNode.newRed (k, v)).ptr, s)
  | .some e c l r, is_root, s =>
    match U.cmpK s k e.1 with
    | (Option.none, s) => .ok (Option.none, .some e c l r, s)
    | (Option.some .lt, s) => do
      match ← insU U k v l false s with
      | (Option.none, l, s) => .ok (Option.none, .some e c l r, s)
      | (Option.some is_new_key, l, s) => do
        let (b, t) ← insDone is_root is_new_key ⟨e, c, l, r⟩
        .ok (Option.some b, t, s)
    | (Option.some .eq, s) => do
      let (b, t) ← insDone is_root false ⟨(k, v), c, l, r⟩
      .ok (Option.some b, t, s)
    | (Option.some .gt, s) => do
      match ← insU U k v r false s with
      | (Option.none, r, s) => .ok (Option.none, .some e c l r, s)
      | (Option.some is_new_key, r, s) => do
        let (b, t) ← insDone is_root is_new_key ⟨e, c, l, r⟩
        .ok (Option.some b, t, s)

/-- `del` inside `Node::remove` (711-752). -/
def delU (A : Arch) (U : RBUser S K V Q) (key : Q) : RBTree K V → (is_root : Bool) → S → Res (Option Bool × RBTree K V × S)
  | .none, _, s => .ok (Option.some false, .none, s)
  | .some e c l r, is_root, s =>
    match U.cmpQ s key e.1 with
    | (Option.none, s) => .ok (Option.none, .some e c l r, s)
    | (Option.some .lt, s) => do
      match ← delU A U key l false s with
      | (Option.none, l, s) => .ok (Option.none, .some e c l r, s)
      | (Option.some removed, l', s) => do
        let node ← delLeft A l.color e c l' r
        .ok (Option.some removed, delDone is_root false node, s)
    | (Option.some .eq, s) => do
      let (fused, node) ← RBNode.removeFuse A ⟨e, c, .none, .none⟩ l r
      .ok (Option.some true, delDone is_root (!fused) node, s)
    | (Option.some .gt, s) => do
      match ← delU A U key r false s with
      | (Option.none, r, s) => .ok (Option.none, .some e c l r, s)
      | (Option.some removed, r', s) => do
        let node ← delRight A r.color e c l r'
        .ok (Option.some removed, delDone is_root false node, s)

/-- `Node::get_mut` (764-778) and a write through the reference; `make_mut` of the entry may call `Clone`. -/
def getMutU (U : RBUser S K V Q) (key : Q) (f : V → V) : RBTree K V → S → Option (Option V) × RBTree K V × S
  | .none, s => (Option.some Option.none, .none, s)
  | .some e c l r, s =>
    match U.cmpQ s key e.1 with
    | (Option.none, s) => (Option.none, .some e c l r, s)
    | (Option.some .lt, s) => let (x, l, s) := l.getMutU U key f s; (x, .some e c l r, s)
    | (Option.some .eq, s) =>
      match U.clone s e with
      | (Option.none, s) => (Option.none, .some e c l r, s)
      | (Option.some _, s) => (Option.some (Option.some e.2), .some (e.1, f e.2) c l r, s)
    | (Option.some .gt, s) => let (x, r, s) := r.getMutU U key f s; (x, .some e c l r, s)

/-! ### Functions that do not panic: the model -/

theorem getU_pure (o : OrdKeys K Q) (q : Q) (t : RBTree K V) (s : S) : t.getU (RBUser.pure o) q s = (Option.some (t.get o q), s) := by
  induction t with
  | none => rfl
  | some e c l r ihl ihr =>
    simp only [getU, get, RBUser.pure]
    cases o.cmpQ q (o.borrow e.1) with
    | lt => exact ihl
    | eq => rfl
    | gt => exact ihr

theorem insU_pure (o : OrdKeys K Q) (k : K) (v : V) (t : RBTree K V) (root : Bool) (s : S) :
    t.insU (RBUser.pure o) k v root s = (t.ins o k v root).map fun p => (Option.some p.1, p.2, s) := by
  induction t generalizing root with
  | none => rfl
  | some e c l r ihl ihr =>
    simp only [insU, ins, RBUser.pure]
    cases o.cmpK k e.1 with
    | lt =>
      have ihl := ihl false
      simp only [RBUser.pure] at ihl
      simp only [ihl]
      cases l.ins o k v false with
      | error e => rfl
      | ok p =>
        simp only [Except.map, Res.ok_bind]
        cases insDone root p.1 ⟨e, c, p.2, r⟩ <;> rfl
    | eq => simp only; cases insDone root false ⟨(k, v), c, l, r⟩ <;> rfl
    | gt =>
      have ihr := ihr false
      simp only [RBUser.pure] at ihr
      simp only [ihr]
      cases r.ins o k v false with
      | error e => rfl
      | ok p =>
        simp only [Except.map, Res.ok_bind]
        cases insDone root p.1 ⟨e, c, l, p.2⟩ <;> rfl

theorem delU_pure (o : OrdKeys K Q) (q : Q) (t : RBTree K V) (root : Bool) (s : S) :
    t.delU A (RBUser.pure o) q root s = (t.del A o q root).map fun p => (Option.some p.1, p.2, s) := by
  induction t generalizing root with
  | none => rfl
  | some e c l r ihl ihr =>
    simp only [delU, del, RBUser.pure]
    cases o.cmpQ q (o.borrow e.1) with
    | lt =>
      have ihl := ihl false
      simp only [RBUser.pure] at ihl
      simp only [ihl]
      cases l.del A o q false with
      | error e => rfl
      | ok p =>
        simp only [Except.map, Res.ok_bind]
        cases delLeft A l.color e c p.2 r <;> rfl
    | eq => simp only; cases RBNode.removeFuse A ⟨e, c, .none, .none⟩ l r <;> rfl
    | gt =>
      have ihr := ihr false
      simp only [RBUser.pure] at ihr
      simp only [ihr]
      cases r.del A o q false with
      | error e => rfl
      | ok p =>
        simp only [Except.map, Res.ok_bind]
        cases delRight A r.color e c l p.2 <;> rfl

theorem getMutU_pure (o : OrdKeys K Q) (q : Q) (f : V → V) (t : RBTree K V) (s : S) :
    t.getMutU (RBUser.pure o) q f s = (Option.some (t.getMut o q f).1, (t.getMut o q f).2, s) := by
  induction t with
  | none => rfl
  | some e c l r ihl ihr =>
    simp only [getMutU, getMut]
    cases hc : o.cmpQ q (o.borrow e.1) with
    | lt => simp only [RBUser.pure, hc] at ihl ⊢; rw [ihl]
    | eq => simp only [RBUser.pure, hc]
    | gt => simp only [RBUser.pure, hc] at ihr ⊢; rw [ihr]

/-! ### Any user code -/

/-- One pair inserted somewhere (`true`), or put in the place of one it was found equal to (`false`). -/
inductive InsAtU (U : RBUser S K V Q) (k : K) (v : V) (l l' : List (K × V)) : Bool → Prop where
  | added (a c : List (K × V)) : l = a ++ c → l' = a ++ (k, v) :: c → InsAtU U k v l l' true
  | replaced (a : List (K × V)) (e : K × V) (c : List (K × V)) :
      U.same e.1 k = true → l = a ++ e :: c → l' = a ++ (k, v) :: c → InsAtU U k v l l' false

theorem InsAtU.left {k : K} {v : V} {l l' : List (K × V)} {b : Bool} (h : InsAtU U k v l l' b) (x : List (K × V)) :
    InsAtU U k v (l ++ x) (l' ++ x) b := by
  cases h with
  | added a c h1 h2 => exact .added a (c ++ x) (by simp [h1]) (by simp [h2])
  | replaced a e c h1 h2 h3 => exact .replaced a e (c ++ x) h1 (by simp [h2]) (by simp [h3])

theorem InsAtU.right {k : K} {v : V} {l l' : List (K × V)} {b : Bool} (h : InsAtU U k v l l' b) (x : List (K × V)) :
    InsAtU U k v (x ++ l) (x ++ l') b := by
  cases h with
  | added a c h1 h2 => exact .added (x ++ a) c (by simp [h1]) (by simp [h2])
  | replaced a e c h1 h2 h3 => exact .replaced (x ++ a) e c h1 (by simp [h2]) (by simp [h3])

/-- What `ins` below the root does, for any comparison. -/
theorem insU_shape (k : K) (v : V) (t : RBTree K V) {n : Nat} (hb : t.BH n) (hn : t.NoRR) (s : S) :
    (∃ s', insU U k v t false s = .ok (Option.none, t, s')) ∨
    ∃ b t' s', insU U k v t false s = .ok (Option.some b, t', s') ∧ InsAtU U k v t.toList t'.toList b ∧ t'.BH n ∧ t'.NoRR2 ∧ (t.NotRed → t'.NoRR) ∧
      (b = false → t'.color = t.color ∧ t'.NoRR) := by
  induction t generalizing n s with
  | none =>
    refine .inr ⟨true, (RBNode.newRed (k, v)).ptr, s, rfl, .added [] [] rfl rfl, ?_, ?_, ?_, by simp⟩
    · exact ⟨hb, hb⟩
    · exact ⟨trivial, trivial⟩
    · intro _; exact ⟨notRed_none, notRed_none, trivial, trivial⟩
  | some e c l r ihl ihr =>
    have hlb : ∃ m, l.BH m ∧ r.BH m ∧ n = m + (if c = .black then 1 else 0) := by
      cases c with
      | red => exact ⟨n, hb.1, hb.2, by simp⟩
      | black =>
        cases n with
        | zero => exact hb.elim
        | succ n => exact ⟨n, hb.1, hb.2, by simp⟩
    obtain ⟨m, hlm, hrm, hnm⟩ := hlb
    have hnn : l.NoRR ∧ r.NoRR := by cases c <;> simp_all [NoRR]
    simp only [insU]
    rcases hc : U.cmpK s k e.1 with ⟨_ | x, s⟩
    · exact .inl ⟨s, rfl⟩
    cases x with
    | lt =>
      rcases ihl hlm hnn.1 s with ⟨s', h1⟩ | ⟨b, l', s', e1, e2, e3, e4, e5, e6⟩
      · exact .inl ⟨s', by simp only [h1, Res.ok_bind]⟩
      right
      have hl := e2.left (e :: r.toList)
      simp only [e1, Res.ok_bind, insDone]
      cases b with
      | false =>
        obtain ⟨e8, e9⟩ := e6 rfl
        refine ⟨false, .some e c l' r, s', rfl, hl, ?_, ⟨e9, hnn.2⟩, ?_, ?_⟩
        · cases c <;> simp_all [BH]
        · intro _
          cases c with
          | red => simp_all [NoRR, NotRed]
          | black => exact ⟨e9, hnn.2⟩
        · intro _
          refine ⟨rfl, ?_⟩
          cases c with
          | red =>
            refine ⟨?_, hn.2.1, e9, hnn.2⟩
            rw [NotRed, e8]; exact hn.1
          | black => exact ⟨e9, hnn.2⟩
      | true =>
        cases c with
        | red =>
          refine ⟨true, .some e .red l' r, s', rfl, hl, ?_, ⟨e5 hn.1, hnn.2⟩, by simp, by simp⟩
          simp_all [BH]
        | black =>
          obtain ⟨x, g1, g2, g3, g4⟩ := RBNode.balance_ok (e := e) e3 hrm (.inl ⟨e4, hnn.2⟩)
          refine ⟨true, x.ptr, s', by simp [g1], ?_, ?_, g4.weaken, fun _ => g4, by simp⟩
          · rw [g2]; exact hl
          · simpa [hnm] using g3
    | eq =>
      refine .inr ⟨false, .some (k, v) c l r, s, rfl, .replaced l.toList e r.toList (RBUser.same_of (by rw [hc])) rfl rfl, ?_, hnn, ?_, ?_⟩
      · cases c with
        | red => exact hb
        | black => cases n with
          | zero => exact hb.elim
          | succ n => exact hb
      · intro _; cases c <;> exact hn
      · intro _; exact ⟨rfl, by cases c <;> exact hn⟩
    | gt =>
      rcases ihr hrm hnn.2 s with ⟨s', h1⟩ | ⟨b, r', s', e1, e2, e3, e4, e5, e6⟩
      · exact .inl ⟨s', by simp only [h1, Res.ok_bind]⟩
      right
      have hr : InsAtU U k v (RBTree.some e c l r).toList (l.toList ++ e :: r'.toList) b := by
        have := e2.right (l.toList ++ [e])
        simpa using this
      simp only [e1, Res.ok_bind, insDone]
      cases b with
      | false =>
        obtain ⟨e8, e9⟩ := e6 rfl
        refine ⟨false, .some e c l r', s', rfl, hr, ?_, ⟨hnn.1, e9⟩, ?_, ?_⟩
        · cases c <;> simp_all [BH]
        · intro _
          cases c with
          | red => simp_all [NoRR, NotRed]
          | black => exact ⟨hnn.1, e9⟩
        · intro _
          refine ⟨rfl, ?_⟩
          cases c with
          | red =>
            refine ⟨hn.1, ?_, hnn.1, e9⟩
            rw [NotRed, e8]; exact hn.2.1
          | black => exact ⟨hnn.1, e9⟩
      | true =>
        cases c with
        | red =>
          refine ⟨true, .some e .red l r', s', rfl, hr, ?_, ⟨hnn.1, e5 hn.2.1⟩, by simp, by simp⟩
          simp_all [BH]
        | black =>
          obtain ⟨x, g1, g2, g3, g4⟩ := RBNode.balance_ok (e := e) hlm e3 (.inr ⟨hnn.1, e4⟩)
          refine ⟨true, x.ptr, s', by simp [g1], ?_, ?_, g4.weaken, fun _ => g4, by simp⟩
          · rw [g2]; exact hr
          · simpa [hnm] using g3

/-- One pair that was hit taken out (`true`), or nothing done (`false`). -/
inductive DelAtU (U : RBUser S K V Q) (q : Q) (l l' : List (K × V)) : Bool → Prop where
  | absent : l' = l → DelAtU U q l l' false
  | removed (a : List (K × V)) (e : K × V) (c : List (K × V)) :
      U.hits e.1 q = true → l = a ++ e :: c → l' = a ++ c → DelAtU U q l l' true

theorem DelAtU.left {q : Q} {l l' : List (K × V)} {b : Bool} (h : DelAtU U q l l' b) (x : List (K × V)) : DelAtU U q (l ++ x) (l' ++ x) b := by
  cases h with
  | absent h => exact .absent (by rw [h])
  | removed a e c h1 h2 h3 => exact .removed a e (c ++ x) h1 (by simp [h2]) (by simp [h3])

theorem DelAtU.right {q : Q} {l l' : List (K × V)} {b : Bool} (h : DelAtU U q l l' b) (x : List (K × V)) : DelAtU U q (x ++ l) (x ++ l') b := by
  cases h with
  | absent h => exact .absent (by rw [h])
  | removed a e c h1 h2 h3 => exact .removed (x ++ a) e c h1 (by simp [h2]) (by simp [h3])

/-- What `del` below the root does, for any comparison. -/
theorem delU_shape (q : Q) (t : RBTree K V) {n : Nat} (hb : t.BH n) (hn : t.NoRR) (s : S) :
    (∃ s', delU A U q t false s = .ok (Option.none, t, s')) ∨
    ∃ b t' s', delU A U q t false s = .ok (Option.some b, t', s') ∧ DelAtU U q t.toList t'.toList b ∧ t'.NoRR2 ∧
      match t with
      | .none => t' = .none
      | .some _ .red _ _ => t'.BH n ∧ t'.NoRR
      | .some _ .black _ _ => t'.BH (n - 1) := by
  induction t generalizing n s with
  | none => exact .inr ⟨false, .none, s, rfl, .absent rfl, trivial, rfl⟩
  | some e c l r ihl ihr =>
    have hlb : ∃ m, l.BH m ∧ r.BH m ∧ n = m + (if c = .black then 1 else 0) := by
      cases c with
      | red => exact ⟨n, hb.1, hb.2, by simp⟩
      | black =>
        cases n with
        | zero => exact hb.elim
        | succ n => exact ⟨n, hb.1, hb.2, by simp⟩
    obtain ⟨m, hlm, hrm, hnm⟩ := hlb
    have hnn : l.NoRR ∧ r.NoRR := by cases c <;> simp_all [NoRR]
    simp only [delU]
    rcases hc : U.cmpQ s q e.1 with ⟨_ | x, s⟩
    · exact .inl ⟨s, rfl⟩
    cases x with
    | lt =>
      rcases ihl hlm hnn.1 s with ⟨s', h1⟩ | ⟨b, l', s', e1, e2, e3, e4⟩
      · exact .inl ⟨s', by simp only [h1, Res.ok_bind]⟩
      right
      have hl : DelAtU U q (RBTree.some e c l r).toList (l'.toList ++ e :: r.toList) b := e2.left (e :: r.toList)
      simp only [e1, Res.ok_bind]
      rcases l with _ | ⟨el, _ | _, ll, lr⟩
      · have e4 : l' = .none := e4
        subst e4
        refine ⟨b, _, s', rfl, hl, ⟨trivial, hnn.2⟩, ?_⟩
        cases c with
        | red => exact ⟨hb, hn⟩
        | black => simp only [hnm]; exact ⟨hlm, hrm⟩
      · simp only at e4
        cases c with
        | red => exact absurd hn.1 notRed_red
        | black =>
          refine ⟨b, _, s', rfl, hl, ⟨e4.2, hnn.2⟩, ?_⟩
          simp only [hnm]
          exact ⟨e4.1, hrm⟩
      · simp only at e4
        match m, hlm, hrm, e4, hnm with
        | 0, hlm, _, _, _ => exact hlm.elim
        | m + 1, hlm, hrm, e4, hnm =>
        obtain ⟨x, g1, g2, g3, g4, g5⟩ := RBNode.removeBalanceLeft_ok (A := A) (e := e) (c := .red) e4 hrm e3 hnn.2
        have : delLeft A (RBTree.some el .black ll lr).color e c l' r = .ok x := by
          simp only [delLeft, RBTree.color]; exact g1
        rw [this]
        refine ⟨b, x.ptr, s', rfl, by rw [g2]; exact hl, g4, ?_⟩
        cases c with
        | red => exact ⟨by simpa [hnm] using g3, g5 hn.2.1⟩
        | black => simpa [hnm] using g3
    | eq =>
      have he : U.hits e.1 q = true := RBUser.hits_of (by rw [hc])
      obtain ⟨b, x, g1, g2, g3, g4, g5⟩ := RBNode.removeFuse_ok (A := A) ⟨e, c, .none, .none⟩ l r hlm hrm hnn.1 hnn.2
      have hd : delDone false (!b) x = RBNode.fusedTree b x := by cases b <;> rfl
      refine .inr ⟨true, RBNode.fusedTree b x, s, ?_, .removed l.toList e r.toList he rfl g2, g4, ?_⟩
      · simp [g1, hd]
      · cases c with
        | red => exact ⟨by simpa [hnm] using g3, g5 hn.1 hn.2.1⟩
        | black => simpa [hnm] using g3
    | gt =>
      rcases ihr hrm hnn.2 s with ⟨s', h1⟩ | ⟨b, r', s', e1, e2, e3, e4⟩
      · exact .inl ⟨s', by simp only [h1, Res.ok_bind]⟩
      right
      have hr : DelAtU U q (RBTree.some e c l r).toList (l.toList ++ e :: r'.toList) b := by
        have := e2.right (l.toList ++ [e])
        simpa using this
      simp only [e1, Res.ok_bind]
      rcases r with _ | ⟨er, _ | _, rl, rr⟩
      · have e4 : r' = .none := e4
        subst e4
        refine ⟨b, _, s', rfl, hr, ⟨hnn.1, trivial⟩, ?_⟩
        cases c with
        | red => exact ⟨hb, hn⟩
        | black => simp only [hnm]; exact ⟨hlm, hrm⟩
      · simp only at e4
        cases c with
        | red => exact absurd hn.2.1 notRed_red
        | black =>
          refine ⟨b, _, s', rfl, hr, ⟨hnn.1, e4.2⟩, ?_⟩
          simp only [hnm]
          exact ⟨hlm, e4.1⟩
      · simp only at e4
        match m, hlm, hrm, e4, hnm with
        | 0, _, hrm, _, _ => exact hrm.elim
        | m + 1, hlm, hrm, e4, hnm =>
        obtain ⟨x, g1, g2, g3, g4, g5⟩ := RBNode.removeBalanceRight_ok (A := A) (e := e) (c := .red) hlm e4 hnn.1 e3
        have : delRight A (RBTree.some er .black rl rr).color e c l r' = .ok x := by
          simp only [delRight, RBTree.color]; exact g1
        rw [this]
        refine ⟨b, x.ptr, s', rfl, by rw [g2]; exact hr, g4, ?_⟩
        cases c with
        | red => exact ⟨by simpa [hnm] using g3, g5 hn.1⟩
        | black => simpa [hnm] using g3

/-- The value of one pair that was hit changed, this value being the answer; or nothing done. -/
inductive ModAtU (U : RBUser S K V Q) (q : Q) (f : V → V) (l l' : List (K × V)) : Option V → Prop where
  | absent : l' = l → ModAtU U q f l l' Option.none
  | modified (a : List (K × V)) (e : K × V) (c : List (K × V)) :
      U.hits e.1 q = true → l = a ++ e :: c → l' = a ++ (e.1, f e.2) :: c → ModAtU U q f l l' (Option.some e.2)

theorem ModAtU.left {q : Q} {f : V → V} {l l' : List (K × V)} {b : Option V} (h : ModAtU U q f l l' b) (x : List (K × V)) :
    ModAtU U q f (l ++ x) (l' ++ x) b := by
  cases h with
  | absent h => exact .absent (by rw [h])
  | modified a e c h1 h2 h3 => exact .modified a e (c ++ x) h1 (by simp [h2]) (by simp [h3])

theorem ModAtU.right {q : Q} {f : V → V} {l l' : List (K × V)} {b : Option V} (h : ModAtU U q f l l' b) (x : List (K × V)) :
    ModAtU U q f (x ++ l) (x ++ l') b := by
  cases h with
  | absent h => exact .absent (by rw [h])
  | modified a e c h1 h2 h3 => exact .modified (x ++ a) e c h1 (by simp [h2]) (by simp [h3])

theorem insDone_root (b : Bool) (x : RBNode K V) : insDone true b x = (insDone false b x).map fun p => (p.1, p.2.blacken) := by
  cases b with
  | false => rfl
  | true =>
    simp only [insDone]
    cases x.balance <;> rfl

/-- What is done at the root besides. -/
def rootDone (p : Option Bool × RBTree K V × S) : Option Bool × RBTree K V × S :=
  if p.1.isSome then (p.1, p.2.1.blacken, p.2.2) else p

theorem insU_root (k : K) (v : V) (t : RBTree K V) (s : S) : insU U k v t true s = (insU U k v t false s).map rootDone := by
  cases t with
  | none => rfl
  | some e c l r =>
    simp only [insU]
    rcases U.cmpK s k e.1 with ⟨_ | x, s⟩
    · rfl
    cases x with
    | eq => simp only [insDone_root]; cases insDone false false ⟨(k, v), c, l, r⟩ <;> rfl
    | lt =>
      simp only
      cases insU U k v l false s with
      | error e => rfl
      | ok p =>
        obtain ⟨_ | b, l', s'⟩ := p
        · rfl
        · simp only [Res.ok_bind, insDone_root]; cases insDone false b ⟨e, c, l', r⟩ <;> rfl
    | gt =>
      simp only
      cases insU U k v r false s with
      | error e => rfl
      | ok p =>
        obtain ⟨_ | b, r', s'⟩ := p
        · rfl
        · simp only [Res.ok_bind, insDone_root]; cases insDone false b ⟨e, c, l, r'⟩ <;> rfl

theorem delU_root (q : Q) (t : RBTree K V) (s : S) : delU A U q t true s = (delU A U q t false s).map rootDone := by
  have hd : ∀ (b : Bool) (x : RBNode K V), delDone true b x = (delDone false b x).blacken := by
    intro b x; cases b <;> rfl
  cases t with
  | none => rfl
  | some e c l r =>
    simp only [delU]
    rcases U.cmpQ s q e.1 with ⟨_ | x, s⟩
    · rfl
    cases x with
    | eq => simp only [hd]; cases RBNode.removeFuse A ⟨e, c, .none, .none⟩ l r <;> rfl
    | lt =>
      simp only
      cases delU A U q l false s with
      | error e => rfl
      | ok p =>
        obtain ⟨_ | b, l', s'⟩ := p
        · rfl
        · simp only [Res.ok_bind, hd]; cases delLeft A l.color e c l' r <;> rfl
    | gt =>
      simp only
      cases delU A U q r false s with
      | error e => rfl
      | ok p =>
        obtain ⟨_ | b, r', s'⟩ := p
        · rfl
        · simp only [Res.ok_bind, hd]; cases delRight A r.color e c l r' <;> rfl

/-- An insertion that panics leaves the tree as it was. -/
theorem Shape.insertU {t : RBTree K V} (h : t.Shape) (U : RBUser S K V Q) (k : K) (v : V) (s : S) :
    (∃ s', t.insU U k v true s = .ok (Option.none, t, s')) ∨
    ∃ b t' s', t.insU U k v true s = .ok (Option.some b, t', s') ∧ InsAtU U k v t.toList t'.toList b ∧ t'.Shape := by
  obtain ⟨n, hn⟩ := h.bh
  rcases insU_shape (U := U) k v t hn h.noRR s with ⟨s', h1⟩ | ⟨b, t', s', e1, e2, e3, e4, e5, e6⟩
  · exact .inl ⟨s', by rw [insU_root, h1]; rfl⟩
  · refine .inr ⟨b, t'.blacken, s', by rw [insU_root, e1]; rfl, by rw [toList_blacken]; exact e2, bh_blacken e3, noRR_blacken e4, notRed_blacken t'⟩

/-- A removal that panics leaves the tree as it was. -/
theorem Shape.removeU {t : RBTree K V} (h : t.Shape) (A : Arch) (U : RBUser S K V Q) (q : Q) (s : S) :
    (∃ s', t.delU A U q true s = .ok (Option.none, t, s')) ∨
    ∃ b t' s', t.delU A U q true s = .ok (Option.some b, t', s') ∧ DelAtU U q t.toList t'.toList b ∧ t'.Shape := by
  obtain ⟨n, hn⟩ := h.bh
  rcases delU_shape (A := A) (U := U) q t hn h.noRR s with ⟨s', h1⟩ | ⟨b, t', s', e1, e2, e3, e4⟩
  · exact .inl ⟨s', by rw [delU_root, h1]; rfl⟩
  · have hbh : ∃ m, t'.BH m := by
      rcases t with _ | ⟨e, _ | _, l, r⟩
      · simp only at e4; exact ⟨0, by rw [e4]; rfl⟩
      · exact ⟨_, e4.1⟩
      · exact ⟨_, e4⟩
    obtain ⟨m, hm⟩ := hbh
    exact .inr ⟨b, t'.blacken, s', by rw [delU_root, e1]; rfl, by rw [toList_blacken]; exact e2, bh_blacken hm, noRR_blacken e3, notRed_blacken t'⟩

theorem getU_loose (q : Q) (t : RBTree K V) (s : S) (e : K × V) (h : (t.getU U q s).1 = Option.some (Option.some e)) :
    e ∈ t.toList ∧ U.hits e.1 q = true := by
  induction t generalizing s with
  | none => cases h
  | some e' c l r ihl ihr =>
    simp only [getU] at h
    rcases hc : U.cmpQ s q e'.1 with ⟨_ | x, s'⟩
    · rw [hc] at h; cases h
    rw [hc] at h
    cases x with
    | lt => have := ihl s' h; simp [this]
    | eq => cases h; exact ⟨by simp, RBUser.hits_of (by rw [hc])⟩
    | gt => have := ihr s' h; simp [this]

/-- `get_mut` leaves the tree as it was if user code panics; else it changes one value. -/
theorem getMutU_loose (q : Q) (f : V → V) (t : RBTree K V) (s : S) :
    ((t.getMutU U q f s).1 = Option.none ∧ (t.getMutU U q f s).2.1 = t) ∨
    ∃ x, (t.getMutU U q f s).1 = Option.some x ∧ ModAtU U q f t.toList (t.getMutU U q f s).2.1.toList x := by
  induction t generalizing s with
  | none => exact .inr ⟨Option.none, rfl, .absent rfl⟩
  | some e c l r ihl ihr =>
    simp only [getMutU]
    rcases hc : U.cmpQ s q e.1 with ⟨_ | x, s'⟩
    · exact .inl ⟨rfl, rfl⟩
    cases x with
    | lt =>
      rcases ihl s' with ⟨h1, h2⟩ | ⟨x, h1, h2⟩
      · exact .inl ⟨h1, by simp only [h2]⟩
      · exact .inr ⟨x, h1, h2.left (e :: r.toList)⟩
    | eq =>
      simp only
      rcases U.clone s' e with ⟨_ | _, s''⟩
      · exact .inl ⟨rfl, rfl⟩
      · exact .inr ⟨Option.some e.2, rfl, .modified l.toList e r.toList (RBUser.hits_of (by rw [hc])) rfl rfl⟩
    | gt =>
      rcases ihr s' with ⟨h1, h2⟩ | ⟨x, h1, h2⟩
      · exact .inl ⟨h1, by simp only [h2]⟩
      · have := h2.right (l.toList ++ [e])
        exact .inr ⟨x, h1, by simpa using this⟩

theorem getMutU_shape (q : Q) (f : V → V) (t : RBTree K V) (s : S) :
    (t.getMutU U q f s).2.1.color = t.color ∧ (∀ n, (t.getMutU U q f s).2.1.BH n ↔ t.BH n) ∧ ((t.getMutU U q f s).2.1.NoRR ↔ t.NoRR) := by
  induction t generalizing s with
  | none => exact ⟨rfl, fun _ => Iff.rfl, Iff.rfl⟩
  | some e c l r ihl ihr =>
    simp only [getMutU]
    rcases U.cmpQ s q e.1 with ⟨_ | x, s'⟩
    · exact ⟨rfl, fun _ => Iff.rfl, Iff.rfl⟩
    obtain ⟨a1, a2, a3⟩ := ihl s'
    obtain ⟨b1, b2, b3⟩ := ihr s'
    cases x with
    | lt =>
      refine ⟨rfl, fun n => ?_, ?_⟩
      · cases c <;> cases n <;> simp [BH, a2]
      · cases c <;> simp [NoRR, NotRed, a1, a3]
    | eq =>
      simp only
      rcases U.clone s' e with ⟨_ | _, s''⟩
      · exact ⟨rfl, fun _ => Iff.rfl, Iff.rfl⟩
      · refine ⟨rfl, fun n => ?_, ?_⟩
        · cases c <;> cases n <;> simp [BH]
        · cases c <;> simp [NoRR, NotRed]
    | gt =>
      refine ⟨rfl, fun n => ?_, ?_⟩
      · cases c <;> cases n <;> simp [BH, b2]
      · cases c <;> simp [NoRR, NotRed, b1, b3]

theorem Shape.getMutU {t : RBTree K V} (h : t.Shape) (U : RBUser S K V Q) (q : Q) (f : V → V) (s : S) : (t.getMutU U q f s).2.1.Shape := by
  obtain ⟨h1, h2, h3⟩ := getMutU_shape (U := U) q f t s
  obtain ⟨n, hn⟩ := h.bh
  refine ⟨⟨n, (h2 n).2 hn⟩, h3.2 h.noRR, ?_⟩
  rw [NotRed, h1]; exact h.root

end RBTree

namespace RBMap
variable {S K V Q : Type} {A : Arch} {m : RBMap K V} {l : List (K × V)}

/-- `RedBlackTreeMap::insert_mut` (848-854). -/
def insertMutU (U : RBUser S K V Q) (m : RBMap K V) (key : K) (value : V) (s : S) : Res (Option Unit × RBMap K V) := do
  match ← m.root.insU U key value true s with
  | (none, root, _) => .ok (none, { m with root })
  | (some is_new_key, root, _) => .ok (some (), { root, size := if is_new_key then m.size + 1 else m.size })

/-- `RedBlackTreeMap::remove_mut` (872-887). -/
def removeMutU (A : Arch) (U : RBUser S K V Q) (m : RBMap K V) (key : Q) (s : S) : Res (Option Bool × RBMap K V) := do
  match ← m.root.delU A U key true s with
  | (none, root, _) => .ok (none, { m with root })
  | (some true, root, _) => do
    let size ← csub m.size 1
    .ok (some true, { root, size })
  | (some false, root, _) => .ok (some false, { m with root })

/-- An operation on a map (see `RBMap.step`).  The answer is `none` if user code panicked; the panic is then caught somewhere outside and
the program goes on with the maps it has: the new map of `insert` or `remove` is lost, an updated map stays as it was left. -/
def stepU (A : Arch) (U : RBUser S K V Q) (s : S) (m : RBMap K V) : MapOp K V Q → Res (Option (MapRet K V) × Effect (RBMap K V))
  | .insert k v => do
    match ← m.clone.insertMutU U k v s with
    | (none, _) => .ok (none, .keep)
    | (some _, m') => .ok (some .unit, .fresh m')
  | .insertMut k v => do
    match ← m.insertMutU U k v s with
    | (none, m') => .ok (none, .update m')
    | (some _, m') => .ok (some .unit, .update m')
  | .remove q => do
    match ← m.clone.removeMutU A U q s with
    | (none, _) => .ok (none, .keep)
    | (some b, m') => .ok (some .unit, .fresh (if b then m' else m.clone))
  | .removeMut q => do
    match ← m.removeMutU A U q s with
    | (none, m') => .ok (none, .update m')
    | (some b, m') => .ok (some (.bool b), .update m')
  | .getMut q f =>
    match m.root.getMutU U q f s with
    | (none, root, _) => .ok (none, .update { m with root })
    | (some x, root, _) => .ok (some (.optV x), .update { m with root })
  | .clone => .ok (some .unit, .fresh m.clone)
  | .get q => .ok ((m.root.getU U q s).1.map fun x => .optV (x.map (·.2)), .keep)
  | .getKeyValue q => .ok ((m.root.getU U q s).1.map fun x => .optKV x, .keep)
  | .containsKey q => .ok ((m.root.getU U q s).1.map fun x => .bool x.isSome, .keep)
  | .index q =>
    .ok ((m.root.getU U q s).1.map fun x => match x with | none => .panicked | some e => .optV (some e.2), .keep)
  | .size => .ok (some (.nat m.getSize), .keep)
  | .isEmpty => .ok (some (.bool m.isEmpty), .keep)

/-- With functions that do not panic this is the model. -/
theorem stepU_pure (A : Arch) (o : OrdKeys K Q) (s : S) (m : RBMap K V) (op : MapOp K V Q) :
    m.stepU A (RBUser.pure o) s op = (m.step A o op).map fun p => (some p.1, p.2) := by
  cases op with
  | insert k v =>
    simp only [stepU, step, RBMap.insert, insertMut, insertMutU, RBTree.insU_pure, RBTree.insert]
    cases m.clone.root.ins o k v true <;> rfl
  | insertMut k v =>
    simp only [stepU, step, insertMut, insertMutU, RBTree.insU_pure, RBTree.insert]
    cases m.root.ins o k v true <;> rfl
  | remove q =>
    simp only [stepU, step, RBMap.remove, removeMut, removeMutU, RBTree.delU_pure, RBTree.remove]
    cases m.clone.root.del A o q true with
    | error e => rfl
    | ok p =>
      obtain ⟨_ | _, t⟩ := p
      · rfl
      · simp only [Except.map, Res.ok_bind, if_true]; cases csub m.clone.size 1 <;> rfl
  | removeMut q =>
    simp only [stepU, step, removeMut, removeMutU, RBTree.delU_pure, RBTree.remove]
    cases m.root.del A o q true with
    | error e => rfl
    | ok p =>
      obtain ⟨_ | _, t⟩ := p
      · rfl
      · simp only [Except.map, Res.ok_bind, if_true]; cases csub m.size 1 <;> rfl
  | getMut q f => simp only [stepU, step, getMut, RBTree.getMutU_pure]; rfl
  | clone => rfl
  | get q =>
    simp only [stepU, step, RBTree.getU_pure, RBMap.get]
    cases m.root.get o q <;> rfl
  | getKeyValue q =>
    simp only [stepU, step, RBTree.getU_pure, RBMap.getKeyValue]
    cases m.root.get o q <;> rfl
  | containsKey q =>
    simp only [stepU, step, RBTree.getU_pure, RBMap.containsKey, RBMap.get]
    cases m.root.get o q <;> rfl
  | index q =>
    simp only [stepU, step, RBTree.getU_pure, RBMap.index, RBMap.get]
    cases m.root.get o q <;> rfl
  | size => rfl
  | isEmpty => rfl

/-- What an operation may answer and do, with any user code: a panic changes nothing. -/
inductive AllowedU (U : RBUser S K V Q) (l : List (K × V)) (op : MapOp K V Q) : Option (MapRet K V) → Effect (List (K × V)) → Prop where
  | done {r f} : LooseStep U.same U.hits l op r f → AllowedU U l op (some r) f
  | panicked : AllowedU U l op none .keep
  | panickedMut : AllowedU U l op none (.update l)

theorem Loose.insertMutU (h : m.Loose l) (U : RBUser S K V Q) (k : K) (v : V) (s : S) :
    m.insertMutU U k v s = .ok (none, m) ∨
    ∃ m' l', m.insertMutU U k v s = .ok (some (), m') ∧ m'.Loose l' ∧ LooseInsert U.same k v l l' := by
  rcases h.shape.insertU U k v s with ⟨s', h1⟩ | ⟨b, t', s', h1, h2, h3⟩
  · exact .inl (by simp [RBMap.insertMutU, h1])
  rw [h.list] at h2
  refine .inr ⟨⟨t', if b then m.size + 1 else m.size⟩, _, by simp [RBMap.insertMutU, h1], ⟨h3, rfl, ?_⟩, ?_⟩
  · cases h2 with
    | added a c e1 e2 => simp [e2, h.size, e1]; omega
    | replaced a e c _ e1 e2 => simp [e2, h.size, e1]
  · cases h2 with
    | added a c e1 e2 => refine .added ?_; rw [e2, e1]; exact List.perm_middle
    | replaced a e c e0 e1 e2 =>
      refine .replaced e (a ++ c) e0 ?_ ?_
      · rw [e1]; exact List.perm_middle
      · rw [e2]; exact List.perm_middle

theorem Loose.removeMutU (h : m.Loose l) (A : Arch) (U : RBUser S K V Q) (q : Q) (s : S) :
    m.removeMutU A U q s = .ok (none, m) ∨
    ∃ b m' l', m.removeMutU A U q s = .ok (some b, m') ∧ m'.Loose l' ∧ LooseRemove U.hits q l l' b := by
  rcases h.shape.removeU A U q s with ⟨s', h1⟩ | ⟨b, t', s', h1, h2, h3⟩
  · exact .inl (by simp [RBMap.removeMutU, h1])
  rw [h.list] at h2
  right
  cases h2 with
  | absent e => exact ⟨false, ⟨t', m.size⟩, _, by simp [RBMap.removeMutU, h1], ⟨h3, rfl, by rw [h.size, e]⟩, .absent (by rw [e])⟩
  | removed a e c e0 e1 e2 =>
    refine ⟨true, ⟨t', m.size - 1⟩, _, ?_, ⟨h3, rfl, ?_⟩, .removed e e0 ?_⟩
    · have : 1 ≤ m.size := by rw [h.size, e1]; simp; omega
      simp [RBMap.removeMutU, h1, csub, this]
    · simp [h.size, e1, e2]
    · rw [e1, e2]; exact List.perm_middle

theorem Loose.stepU (h : m.Loose l) (A : Arch) (U : RBUser S K V Q) (s : S) (op : MapOp K V Q) :
    ∃ r e f, m.stepU A U s op = .ok (r, e) ∧ AllowedU U l op r f ∧ Effect.Rel (fun m l => m.Loose l) e f ∧
      (r = none → e = .keep ∨ e = .update m) := by
  have hget : ∀ q e, (m.root.getU U q s).1 = some (some e) → e ∈ l ∧ U.hits e.1 q = true := fun q e he => by
    have := RBTree.getU_loose (U := U) q m.root s e he
    rwa [h.list] at this
  cases op with
  | insert k v =>
    rcases h.insertMutU U k v s with h1 | ⟨m', l', h1, h2, h3⟩
    · exact ⟨none, .keep, .keep, by simp only [RBMap.stepU, clone_eq, h1]; rfl, .panicked, .keep, fun _ => .inl rfl⟩
    · exact ⟨some .unit, .fresh m', .fresh l', by simp only [RBMap.stepU, clone_eq, h1]; rfl, .done (.insert h3), .fresh h2, by simp⟩
  | insertMut k v =>
    rcases h.insertMutU U k v s with h1 | ⟨m', l', h1, h2, h3⟩
    · exact ⟨none, .update m, .update l, by simp only [RBMap.stepU, h1]; rfl, .panickedMut, .update h, fun _ => .inr rfl⟩
    · exact ⟨some .unit, .update m', .update l', by simp only [RBMap.stepU, h1]; rfl, .done (.insertMut h3), .update h2, by simp⟩
  | remove q =>
    rcases h.removeMutU A U q s with h1 | ⟨b, m', l', h1, h2, h3⟩
    · exact ⟨none, .keep, .keep, by simp only [RBMap.stepU, clone_eq, h1]; rfl, .panicked, .keep, fun _ => .inl rfl⟩
    · cases b with
      | true => exact ⟨some .unit, .fresh m', .fresh l', by simp only [RBMap.stepU, clone_eq, h1]; rfl, .done (.remove h3), .fresh h2, by simp⟩
      | false =>
        exact ⟨some .unit, .fresh m, .fresh l, by simp only [RBMap.stepU, clone_eq, h1]; rfl, .done (.remove (.absent (.refl _))), .fresh h, by simp⟩
  | removeMut q =>
    rcases h.removeMutU A U q s with h1 | ⟨b, m', l', h1, h2, h3⟩
    · exact ⟨none, .update m, .update l, by simp only [RBMap.stepU, h1]; rfl, .panickedMut, .update h, fun _ => .inr rfl⟩
    · exact ⟨some (.bool b), .update m', .update l', by simp only [RBMap.stepU, h1]; rfl, .done (.removeMut h3), .update h2, by simp⟩
  | getMut q f =>
    have hs := h.shape.getMutU U q f s
    rcases hr : m.root.getMutU U q f s with ⟨x, root, s'⟩
    rw [hr] at hs
    rcases RBTree.getMutU_loose (U := U) q f m.root s with ⟨h1, h2⟩ | ⟨y, h1, h2⟩
    · rw [hr] at h1 h2
      simp only at h1 h2
      subst h1 h2
      exact ⟨none, .update m, .update l, by simp only [RBMap.stepU, hr], .panickedMut, .update h, fun _ => .inr rfl⟩
    · rw [hr, h.list] at h2
      rw [hr] at h1
      simp only at h1 h2
      subst h1
      refine ⟨some (.optV y), .update ⟨root, m.size⟩, .update root.toList, by simp only [RBMap.stepU, hr], .done (.getMut ?_),
        .update ⟨hs, rfl, ?_⟩, by simp⟩
      · cases h2 with
        | absent e => exact .absent (by rw [e])
        | modified a e c e0 e1 e2 =>
          refine .modified e (a ++ c) e0 ?_ ?_
          · rw [e1]; exact List.perm_middle
          · rw [e2]; exact List.perm_middle
      · simp only [h.size]
        cases h2 with
        | absent e => rw [e]
        | modified a e c e0 e1 e2 => rw [e1, e2]; simp
  | clone => exact ⟨_, _, _, rfl, .done .clone, .fresh h, by simp⟩
  | get q =>
    cases hg : (m.root.getU U q s).1 with
    | none => exact ⟨none, .keep, .keep, by simp [RBMap.stepU, hg], .panicked, .keep, fun _ => .inl rfl⟩
    | some x =>
      refine ⟨some (.optV (x.map (·.2))), .keep, .keep, by simp [RBMap.stepU, hg], .done (.get ?_), .keep, by simp⟩
      intro v hv
      cases x with
      | none => cases hv
      | some e => cases hv; exact ⟨e, (hget q e hg).1, (hget q e hg).2, rfl⟩
  | getKeyValue q =>
    cases hg : (m.root.getU U q s).1 with
    | none => exact ⟨none, .keep, .keep, by simp [RBMap.stepU, hg], .panicked, .keep, fun _ => .inl rfl⟩
    | some x =>
      refine ⟨some (.optKV x), .keep, .keep, by simp [RBMap.stepU, hg], .done (.getKeyValue ?_), .keep, by simp⟩
      intro e he
      subst he
      exact hget q e hg
  | containsKey q =>
    cases hg : (m.root.getU U q s).1 with
    | none => exact ⟨none, .keep, .keep, by simp [RBMap.stepU, hg], .panicked, .keep, fun _ => .inl rfl⟩
    | some x =>
      refine ⟨some (.bool x.isSome), .keep, .keep, by simp [RBMap.stepU, hg], .done (.containsKey ?_), .keep, by simp⟩
      intro hv
      cases x with
      | none => cases hv
      | some e => exact ⟨e, hget q e hg⟩
  | index q =>
    cases hg : (m.root.getU U q s).1 with
    | none => exact ⟨none, .keep, .keep, by simp [RBMap.stepU, hg], .panicked, .keep, fun _ => .inl rfl⟩
    | some x =>
      cases x with
      | none => exact ⟨some .panicked, .keep, .keep, by simp [RBMap.stepU, hg], .done .indexPanic, .keep, by simp⟩
      | some e =>
        exact ⟨some (.optV (some e.2)), .keep, .keep, by simp [RBMap.stepU, hg], .done (.index (hget q e hg).1 (hget q e hg).2), .keep, by simp⟩
  | size =>
    refine ⟨_, .keep, .keep, ?_, .done .size, .keep, by simp⟩
    simp [RBMap.stepU, RBMap.getSize, h.size]
  | isEmpty =>
    refine ⟨_, .keep, .keep, ?_, .done .isEmpty, .keep, by simp⟩
    simp only [RBMap.stepU, RBMap.isEmpty, RBMap.getSize, h.size]
    cases l <;> rfl

end RBMap
end Rpds
