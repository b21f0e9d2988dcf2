import Verif.Heap.HashTrie
/-
The heap versions of the functions of `HashTrieMap` do what the functions of `Verif/HashTrie/Model.lean` do, whatever else is in the
memory and whatever other threads do.
-/
set_option autoImplicit false
set_option linter.unusedSectionVars false
namespace Rpds
namespace Heap
namespace HT
variable {H K V Q : Type}

/-- An entry cell. -/
def entIs (t : ATree (HLabel K V)) (x : HEntry K V) : Prop := t.label = .entry x.key x.value ∧ t.kids = []

/-- A cell with an `EntryWithHash`. -/
def ewhIs (t : ATree (HLabel K V)) (x : HEntry K V) : Prop := ∃ te, t.label = .ewh x.keyHash ∧ t.kids = [te] ∧ entIs te x

/-- An `EntryWithHash` that points to the cell `t`. -/
def EIs (e : HEnt) (x : HEntry K V) (t : ATree (HLabel K V)) : Prop := e.hash = x.keyHash ∧ e.ptr = t.addr ∧ entIs t x

/-- A list of entries with its items. -/
def LIs (l : HList) (r : RList (HEntry K V)) (ρ : List (Item (HLabel K V))) : Prop :=
  l.Is .lnode ewhIs r ρ ∧ r.head.toList.length = r.length

mutual
/-- The cell `t` represents a node of the value model. -/
def IsN : HNode K V → ATree (HLabel K V) → Prop
  | .branch bm arr, t => t.label = .branch bm ∧ IsNs arr t.kids
  | .leaf (.single x), t => t.label = .single x.keyHash ∧ ∃ te, t.kids = [te] ∧ entIs te x
  | .leaf (.collision r), t =>
    ∃ th tl, t.label = .collision th.isSome tl.isSome r.length ∧ t.kids = th.toList ++ tl.toList ∧
      IsLink .lnode ewhIs th r.head ∧ OptRel ewhIs tl r.last ∧ r.head.toList.length = r.length
/-- Several cells represent nodes of the value model. -/
def IsNs : List (HNode K V) → List (ATree (HLabel K V)) → Prop
  | [], ts => ts = []
  | n :: ns, ts => ∃ t ts', ts = t :: ts' ∧ IsN n t ∧ IsNs ns ts'
end

theorem isNs_iff {ns : List (HNode K V)} {ts : List (ATree (HLabel K V))} :
    IsNs ns ts ↔ List.Forall₂ (fun t n => IsN n t) ts ns := by
  induction ns generalizing ts with
  | nil =>
    constructor
    · intro h; rw [IsNs] at h; subst h; exact .nil
    · intro h; cases h; rw [IsNs]
  | cons n ns ih =>
    constructor
    · intro h
      rw [IsNs] at h
      obtain ⟨t, ts', rfl, h1, h2⟩ := h
      exact .cons h1 (ih.1 h2)
    · intro h
      cases h with
      | cons h1 h2 => rw [IsNs]; exact ⟨_, _, rfl, h1, ih.2 h2⟩

/-- A node held by value represents a node of the value model. -/
inductive NIs : HHNode → HNode K V → List (Item (HLabel K V)) → Prop where
  | branch {bm : Nat} {arr : List (HNode K V)} {ts : List (ATree (HLabel K V))} (h : List.Forall₂ (fun t n => IsN n t) ts arr) :
      NIs (.branch bm (ts.map ATree.addr)) (.branch bm arr) (ts.map .ptr)
  | single {e : HEnt} {x : HEntry K V} {te : ATree (HLabel K V)} (h : EIs e x te) : NIs (.single e) (.leaf (.single x)) [.ptr te]
  | collision {l : HList} {r : RList (HEntry K V)} {ρ : List (Item (HLabel K V))} (h : LIs l r ρ) :
      NIs (.collision l) (.leaf (.collision r)) ρ

theorem NIs.empty : NIs (.branch 0 []) (HNode.newEmptyBranch : HNode K V) [] := NIs.branch (ts := []) .nil

theorem NIs.tree {hn : HHNode} {n : HNode K V} {ρ : List (Item (HLabel K V))} (h : NIs hn n ρ) :
    ∃ ts : List (ATree (HLabel K V)), hn.ptrs = ts.map ATree.addr ∧ ρ = ts.map .ptr ∧ ∀ a, IsN n (.node a hn.label ts) := by
  cases h with
  | @branch bm arr ts h => exact ⟨ts, rfl, rfl, fun a => by rw [IsN]; exact ⟨rfl, isNs_iff.2 h⟩⟩
  | @single e x te h =>
    refine ⟨[te], by simp [HHNode.ptrs, h.2.1], rfl, fun a => ?_⟩
    rw [IsN]
    exact ⟨by simp [ATree.label, HHNode.label, h.1], te, rfl, h.2.2⟩
  | @collision l r ρ h =>
    obtain ⟨⟨th, tl, rfl, rfl, h1, h2⟩, h3⟩ := h
    refine ⟨th.toList ++ tl.toList, by cases th <;> cases tl <;> rfl, by simp [optPtr], fun a => ?_⟩
    rw [IsN]
    exact ⟨th, tl, by simp [ATree.label, HHNode.label], rfl, h1, h2, h3⟩

theorem IsN.opened {n : HNode K V} {t : ATree (HLabel K V)} (h : IsN n t) :
    ∃ hn, HHNode.ofContent (t.label, t.kids.map ATree.addr) = some hn ∧ NIs hn n (t.kids.map .ptr) := by
  cases n with
  | branch bm arr =>
    rw [IsN] at h
    rw [h.1]
    exact ⟨_, rfl, .branch (isNs_iff.1 h.2)⟩
  | leaf b =>
    cases b with
    | single x =>
      rw [IsN] at h
      obtain ⟨h1, te, h2, h3⟩ := h
      rw [h1, h2]
      exact ⟨_, rfl, .single ⟨rfl, rfl, h3⟩⟩
    | collision r =>
      rw [IsN] at h
      obtain ⟨th, tl, h1, h2, h3, h4, h5⟩ := h
      rw [h1, h2]
      refine ⟨.collision ⟨th.map ATree.addr, tl.map ATree.addr, r.length⟩, by cases th <;> cases tl <;> rfl, .collision ⟨?_, h5⟩⟩
      exact ⟨th, tl, rfl, by simp [optPtr], h3, h4⟩

variable {A : Allocator (HLabel K V)} {ρ σ F : List (Item (HLabel K V))} {Ar : Arch} {o : HashKeys H K Q} {D : Option Nat} [Roomy D]

theorem nest_ewh {t : ATree (HLabel K V)} {x : HEntry K V} (h : ewhIs t x) (H : List Addr) : nest H t ≤ 1 := by
  obtain ⟨te, -, h2, h3⟩ := h
  obtain ⟨a, l, ts⟩ := t
  cases h2
  have := nest_no_kids h3.2 (H := H)
  simp only [nest, nest.go]
  split <;> omega

theorem elemOK : HList.ElemOK D (ewhIs (K := K) (V := V)) := fun _ _ h => within_roomy (by have := nest_ewh h []; omega)

/-! ### Reading -/

theorem safe_readNode {n : HNode K V} {s t : ATree (HLabel K V)} (h : IsN n s) (hs : Sub s t) (ht : .ptr t ∈ ρ) :
    Safe A D (fun r σ => (∃ τ, NIs r n τ ∧ ∀ u, .ptr u ∈ τ → u ∈ s.kids) ∧ σ = ρ) (readNode s.addr) ρ := by
  obtain ⟨hn, h1, h2⟩ := h.opened
  refine Safe.bind (safe_read hs ht) ?_
  rintro _ _ ⟨rfl, rfl⟩
  rw [h1]
  exact Safe.ret ⟨⟨_, h2, by simp⟩, rfl⟩

theorem safe_readEntry {s t : ATree (HLabel K V)} {x : HEntry K V} (he : entIs s x) (hs : Sub s t) (ht : .ptr t ∈ ρ) :
    Safe A D (fun r σ => r = (x.key, x.value) ∧ σ = ρ) (readEntry s.addr) ρ := by
  refine Safe.bind (safe_read hs ht) ?_
  rintro _ _ ⟨rfl, rfl⟩
  rw [he.1]
  exact Safe.ret ⟨rfl, rfl⟩

theorem safe_readEwh {s te t : ATree (HLabel K V)} {x : HEntry K V} (h1 : s.label = .ewh x.keyHash) (h2 : s.kids = [te])
    (hs : Sub s t) (ht : .ptr t ∈ ρ) :
    Safe A D (fun r σ => r = ⟨x.keyHash, te.addr⟩ ∧ σ = ρ) (readEwh s.addr) ρ := by
  refine Safe.bind (safe_read hs ht) ?_
  rintro _ _ ⟨rfl, rfl⟩
  rw [h1, h2]
  exact Safe.ret ⟨rfl, rfl⟩

theorem safe_hmatches {e : HEnt} {x : HEntry K V} {s t : ATree (HLabel K V)} (h : EIs e x s) (hs : Sub s t) (ht : .ptr t ∈ ρ)
    (key : Q) (kh : UInt64) :
    Safe A D (fun r σ => r = x.matches o key kh ∧ σ = ρ) (hmatches o key kh e) ρ := by
  obtain ⟨h1, h2, h3⟩ := h
  unfold hmatches
  rw [h1, h2]
  simp only [HEntry.matches]
  cases x.keyHash == kh with
  | false => exact Safe.ret ⟨rfl, rfl⟩
  | true =>
    refine Safe.bind (safe_readEntry h3 hs ht) ?_
    rintro _ _ ⟨rfl, rfl⟩
    exact Safe.ret ⟨rfl, rfl⟩

theorem safe_dropPtr {t : ATree (HLabel K V)} (ht : t.kids = []) : Safe A D (fun _ σ => σ = ρ) (drop t.addr) (.ptr t :: ρ) :=
  safe_drop (within_roomy (by have := nest_no_kids ht (H := reach ρ); omega))

/-! ### Writing -/

/-- `make_mut` on a pointer to a node and work on the node, with more items `E` that end up in the node. -/
theorem safe_modNode {α : Type} {n n' : HNode K V} {t : ATree (HLabel K V)} {a : α} {E : List (Item (HLabel K V))}
    {f : HHNode → Prog (HLabel K V) (α × HHNode)} (h : IsN n t)
    (hf : ∀ hn τ, NIs hn n τ → Safe A D (fun r σ => r.1 = a ∧ NIs r.2 n' σ) (f hn) (τ ++ E)) :
    Safe A D (fun r σ => r.1 = a ∧ ∃ t', r.2 = t'.addr ∧ IsN n' t' ∧ σ = [.ptr t']) (modNode t.addr f) (.ptr t :: E) := by
  obtain ⟨hn, h1, h2⟩ := h.opened
  refine (safe_modifyPtrPlus (within_roomy (by omega)) t (ρ := E)
    (P := fun r l ts E' => r = a ∧ E' = [] ∧ ∀ b, IsN n' (.node b l ts)) ?_).imp ?_
  · simp only [h1]
    refine Safe.bind (hf hn _ h2) ?_
    rintro ⟨x, hn'⟩ σ ⟨rfl, h3⟩
    obtain ⟨ts, h4, rfl, h5⟩ := h3.tree
    exact Safe.ret ⟨ts, [], h4, by simp, rfl, rfl, h5⟩
  · rintro ⟨x, p⟩ σ ⟨l, ts, E', rfl, rfl, rfl, h3⟩
    exact ⟨rfl, .node p l ts, rfl, h3 p, rfl⟩

theorem safe_modEntry (f : V → V) {x : HEntry K V} {t : ATree (HLabel K V)} (h : entIs t x) :
    Safe A D (fun r σ => r.1 = x.value ∧ ∃ t', r.2 = t'.addr ∧ entIs t' (x.valueMut f) ∧ σ = [.ptr t']) (modEntry f t.addr) [.ptr t] := by
  refine (safe_modifyPtr (within_roomy (by omega)) t (P := fun r l ts => r = x.value ∧ l = .entry x.key (f x.value) ∧ ts = []) ?_).imp ?_
  · rw [h.1, h.2]
    exact Safe.ret ⟨[], rfl, rfl, rfl, rfl, rfl⟩
  · rintro ⟨r, p⟩ σ ⟨l, ts, rfl, rfl, rfl, rfl⟩
    exact ⟨rfl, _, rfl, ⟨rfl, rfl⟩, rfl⟩

/-! ### Lists of entries -/

theorem safe_pushEnt {l : HList} {r : RList (HEntry K V)} {e : HEnt} {x : HEntry K V} {te : ATree (HLabel K V)} (h : LIs l r ρ)
    (he : EIs e x te) : Safe A D (fun l' σ => LIs l' (r.pushFrontMut x) σ) (pushEnt l e) (.ptr te :: ρ) := by
  obtain ⟨h1, h2, h3⟩ := he
  rw [pushEnt, h1, h2]
  refine Safe.bindFrame (F := ρ) (safe_new (HLabel.ewh x.keyHash) [te]) (.refl _) ?_
  rintro v _ rfl
  refine (HList.safe_pushFrontPtrMut elemOK h.1 (tv := .node v (.ewh x.keyHash) [te]) (v := x) ⟨te, rfl, rfl, h3⟩).imp ?_
  intro l' σ hl
  exact ⟨hl, by simp [RList.pushFrontMut, RList.pushFrontPtrMut, Link.toList, h.2]⟩

/-- Entries owned one by one. -/
inductive Ents : List HEnt → List (HEntry K V) → List (Item (HLabel K V)) → Prop where
  | nil : Ents [] [] []
  | cons {e : HEnt} {x : HEntry K V} {t : ATree (HLabel K V)} {es : List HEnt} {xs : List (HEntry K V)}
      {ρ : List (Item (HLabel K V))} (h : EIs e x t) (ht : Ents es xs ρ) : Ents (e :: es) (x :: xs) (.ptr t :: ρ)

theorem Ents.append {es fs : List HEnt} {xs ys : List (HEntry K V)} (h : Ents es xs ρ) (h' : Ents fs ys σ) :
    Ents (es ++ fs) (xs ++ ys) (ρ ++ σ) := by
  induction h with
  | nil => exact h'
  | cons h1 h2 ih => exact .cons h1 ih

theorem Ents.reverse {es : List HEnt} {xs : List (HEntry K V)} (h : Ents es xs ρ) :
    Ents es.reverse xs.reverse ρ.reverse := by
  induction h with
  | nil => exact .nil
  | cons h1 h2 ih => simp only [List.reverse_cons]; exact ih.append (.cons h1 .nil)

theorem safe_pushAll {es : List HEnt} {xs : List (HEntry K V)} {τ : List (Item (HLabel K V))} (hes : Ents es xs τ) {l : HList}
    {r : RList (HEntry K V)} (h : LIs l r ρ) :
    Safe A D (fun l' σ => LIs l' (xs.foldl (fun l e => l.pushFrontMut e) r) σ) (pushAll es l) (τ ++ ρ) := by
  induction hes generalizing l r ρ with
  | nil => exact Safe.ret h
  | @cons e x t es xs τ h1 h2 ih =>
    refine Safe.bindFrame (F := τ) (safe_pushEnt h h1) (by perm_tac) ?_
    intro l' υ hl
    exact Safe.perm (ih hl) List.perm_append_comm

/-- An optional entry that is owned. -/
inductive OptEnt : Option HEnt → Option (HEntry K V) → List (Item (HLabel K V)) → Prop where
  | none : OptEnt none none []
  | some {e : HEnt} {x : HEntry K V} {t : ATree (HLabel K V)} (h : EIs e x t) : OptEnt (some e) (some x) [.ptr t]

theorem OptEnt.isSome {e : Option HEnt} {x : Option (HEntry K V)} (h : OptEnt e x ρ) : e.isSome = x.isSome := by cases h <;> rfl

theorem safe_dropEnt {e : Option HEnt} {x : Option (HEntry K V)} (h : OptEnt e x σ) :
    Safe A D (fun _ τ => τ = ρ) (dropEnt e) (σ ++ ρ) := by
  cases h with
  | none => exact Safe.ret rfl
  | some h => rw [dropEnt, h.2.1]; exact safe_dropPtr h.2.2.2

/-- The first entry of a list, cloned. -/
theorem safe_firstEnt {β : Type} {R : β → List (Item (HLabel K V)) → Prop} {l : HList} {r : RList (HEntry K V)} (h : LIs l r ρ)
    {x : HEntry K V} (hx : r.first = some x) {f : HEnt → Prog (HLabel K V) β} {F : List (Item (HLabel K V))} (hp : σ.Perm (ρ ++ F))
    (hf : ∀ e te, EIs e x te → Safe A D R (f e) (.ptr te :: (ρ ++ F))) :
    Safe A D R (Prog.bind l.first fun v => Prog.bind (lift (unwrap v)) fun v => Prog.bind (readEwh v) fun e =>
      Prog.bind (clone e.ptr) fun _ => f e) σ := by
  refine Safe.perm ?_ hp
  obtain ⟨⟨th, tl, rfl, rfl, h1, h2⟩, h3⟩ := h
  obtain ⟨hd, la, len⟩ := r
  simp only at h1 h2
  cases h1 with
  | none => simp [RList.first] at hx
  | @some a tv tn v next hv hn =>
    simp only [RList.first, Option.some.injEq] at hx
    subst hx
    obtain ⟨te, g1, g2, g3⟩ := hv
    have hm : (.ptr (.node a .lnode (tv :: tn.toList)) : Item (HLabel K V)) ∈
        (optPtr (some (.node a .lnode (tv :: tn.toList))) ++ optPtr tl) ++ F := by simp
    have hsub : Sub tv (.node a .lnode (tv :: tn.toList)) := .of_kid (by simp [ATree.kids])
    refine Safe.bind (Q := fun x τ => x = some tv.addr ∧ τ = (optPtr (some (.node a .lnode (tv :: tn.toList))) ++ optPtr tl) ++ F) ?_ ?_
    · refine Safe.bind (HList.safe_readNode rfl (.refl _) hm) ?_
      rintro _ _ ⟨rfl, rfl⟩
      exact Safe.ret ⟨rfl, rfl⟩
    · rintro _ _ ⟨rfl, rfl⟩
      refine Safe.liftBind rfl ?_
      refine Safe.bind (safe_readEwh g1 g2 hsub hm) ?_
      rintro _ _ ⟨rfl, rfl⟩
      refine Safe.bind (Heap.safe_clone (.kid hsub (by simp [g2] : te ∈ tv.kids)) hm) ?_
      rintro _ _ rfl
      exact hf _ te ⟨rfl, rfl, g3⟩

theorem safe_removeLoop (key : Q) (kh : UInt64) (fuel : Nat) {l : HList} {r r' : RList (HEntry K V)} {es : List HEnt}
    {xs xs' : List (HEntry K V)} {τ : List (Item (HLabel K V))} {ov : Option (HEntry K V)} (h : LIs l r ρ) (hes : Ents es xs τ)
    (he : listRemoveLoop (fun e => e.matches o key kh) fuel r xs = .ok (ov, r', xs')) :
    Safe A D (fun y σ => ∃ γ ρ' τ', σ = γ ++ ρ' ++ τ' ∧ OptEnt y.1 ov γ ∧ LIs y.2.1 r' ρ' ∧ Ents y.2.2 xs' τ')
      (removeLoop o key kh fuel l es) (ρ ++ τ) := by
  induction fuel generalizing l r es xs ρ τ with
  | zero => cases he
  | succ fuel ih =>
    have hlen : l.length = r.length := by
      obtain ⟨⟨th, tl, rfl, -⟩, -⟩ := h
      rfl
    simp only [listRemoveLoop, RList.isEmpty, RList.len] at he
    rw [removeLoop, hlen]
    cases hz : r.length == 0 with
    | true =>
      simp only [hz, Bool.not_true, Bool.false_eq_true, if_false] at he
      cases he
      simp only [if_true]
      exact Safe.ret ⟨[], ρ, τ, rfl, .none, h, hes⟩
    | false =>
      simp only [hz, Bool.not_false, if_true] at he
      simp only [Bool.false_eq_true, if_false]
      cases hf : r.first with
      | none => rw [hf] at he; cases he
      | some x =>
        rw [hf] at he
        simp only [unwrap_some, Res.ok_bind] at he
        obtain ⟨⟨b, r1⟩, h1, he⟩ := res_bind_ok he
        refine safe_firstEnt h hf (F := τ) (.refl _) ?_
        intro e te hee
        refine Safe.bindFrame (F := .ptr te :: τ) (HList.safe_dropFirstMut elemOK h.1 h1) (by perm_tac) ?_
        rintro ⟨b', l1⟩ υ ⟨rfl, h2⟩
        have h2 : LIs l1 r1 υ := ⟨h2, (HList.length_dropFirstMut h.2 h1).1⟩
        refine Safe.bind (safe_hmatches hee (.refl te) (by simp) key kh) ?_
        rintro _ _ ⟨rfl, rfl⟩
        cases hm : x.matches o key kh with
        | true =>
          simp only [hm, if_true] at he ⊢
          cases he
          exact Safe.perm (Safe.ret ⟨[.ptr te], υ, τ, rfl, .some hee, h2, hes⟩) (by perm_tac)
        | false =>
          simp only [hm, Bool.false_eq_true, if_false] at he ⊢
          exact Safe.perm (ih h2 (hes.append (.cons hee .nil)) he) (by perm_tac)

theorem safe_removeFirst (key : Q) (kh : UInt64) {l : HList} {r r' : RList (HEntry K V)} {ov : Option (HEntry K V)} (h : LIs l r ρ)
    (he : listRemoveFirst (fun e => e.matches o key kh) r = .ok (ov, r')) :
    Safe A D (fun y σ => ∃ γ ρ', σ = γ ++ ρ' ∧ OptEnt y.1 ov γ ∧ LIs y.2 r' ρ') (removeFirst o key kh l) ρ := by
  obtain ⟨⟨ov', r1, xs⟩, h1, h2⟩ := res_bind_ok he
  cases h2
  have hlen : l.length = r.length := by
    obtain ⟨⟨th, tl, rfl, -⟩, -⟩ := h
    rfl
  rw [removeFirst, hlen]
  refine Safe.bindFrame (F := []) (safe_removeLoop key kh _ h .nil h1) (by simp) ?_
  rintro ⟨ov, l1, es⟩ _ ⟨γ, ρ', τ', rfl, h3, h4, h5⟩
  refine Safe.bindFrame (F := γ) (safe_pushAll h5.reverse h4) ?_ ?_
  · have : (γ ++ ρ' ++ τ' ++ []).Perm (γ ++ ρ' ++ τ'.reverse) := by
      rw [List.append_nil]; exact (List.reverse_perm _).symm.append_left _
    exact this.trans (by perm_tac)
  · intro l2 υ hl
    exact Safe.perm (Safe.ret ⟨γ, υ, rfl, h3, hl⟩) (by perm_tac)

theorem safe_findEnt (key : Q) (kh : UInt64) {th : Option (ATree (HLabel K V))} {hd : Link (HEntry K V)}
    (h : IsLink .lnode ewhIs th hd) {t : ATree (HLabel K V)} (hin : ∀ s, th = some s → Sub s t) (ht : .ptr t ∈ ρ)
    {ov : Option (HEntry K V)} {n : Nat} (hn : hd.toList.length = n)
    (he : iterFind ListIter.step (fun e => e.matches o key kh) (n + 1) ⟨hd, n⟩ = .ok ov) :
    Safe A D (fun r σ => r = ov.map (fun x => (x.key, x.value)) ∧ σ = ρ) (findEnt o key kh n (th.map ATree.addr)) ρ := by
  induction h generalizing n with
  | none =>
    cases he
    cases n <;> exact Safe.ret ⟨rfl, rfl⟩
  | @some a tv tn x next hv hl ih =>
    simp only [Link.toList, List.length_cons] at hn
    subst hn
    have hs := hin _ rfl
    obtain ⟨te, g1, g2, g3⟩ := hv
    have hsv : Sub tv t := .kid hs (by simp [ATree.kids])
    have hse : Sub te t := .kid hsv (by simp [g2])
    simp only [iterFind, ListIter.step] at he
    rw [csub_ok (by omega)] at he
    simp only [Res.ok_bind, Nat.add_sub_cancel] at he
    refine Safe.bind (HList.safe_readNode rfl hs ht) ?_
    rintro _ _ ⟨rfl, rfl⟩
    refine Safe.bind (safe_readEwh g1 g2 hsv ht) ?_
    rintro _ _ ⟨rfl, rfl⟩
    refine Safe.bind (safe_hmatches ⟨rfl, rfl, g3⟩ hse ht key kh) ?_
    rintro _ _ ⟨rfl, rfl⟩
    cases hm : x.matches o key kh with
    | true =>
      simp only [hm, if_true] at he ⊢
      cases he
      refine Safe.bind (safe_readEntry g3 hse ht) ?_
      rintro _ _ ⟨rfl, rfl⟩
      exact Safe.ret ⟨rfl, rfl⟩
    | false =>
      simp only [hm, Bool.false_eq_true, if_false] at he ⊢
      refine ih ?_ rfl he
      rintro s rfl
      exact .kid hs (by simp [ATree.kids])

theorem safe_firstMut (f : V → V) {l : HList} {r r' : RList (HEntry K V)} {x : HEntry K V} (h : LIs l r ρ) (hx : r.first = some x)
    (he : r.firstMutSet (fun e => e.valueMut f) = some r') :
    Safe A D (fun y σ => y.1 = some x.value ∧ LIs y.2 r' σ) (firstMut f l) ρ := by
  obtain ⟨⟨th, tl, rfl, rfl, h1, h2⟩, h3⟩ := h
  obtain ⟨hd, la, len⟩ := r
  simp only at h1 h2 h3
  cases h1 with
  | none => simp [RList.first] at hx
  | @some a tv tn v next hv hn =>
    simp only [RList.first, Option.some.injEq] at hx
    subst hx
    cases he
    obtain ⟨te, g1, g2, g3⟩ := hv
    refine Safe.bindFrame (F := optPtr tl) (Q := fun r σ => r.1 = v.value ∧ ∃ tv', ewhIs tv' (v.valueMut f) ∧
      σ = [.ptr (.node r.2 .lnode (tv' :: tn.toList))]) ?_ (.refl _) ?_
    · refine (safe_modifyPtr (within_roomy (D := D) (by omega)) (.node a .lnode (tv :: tn.toList))
        (P := fun r l ts => r = v.value ∧ l = .lnode ∧ ∃ tv', ewhIs tv' (v.valueMut f) ∧ ts = tv' :: tn.toList) ?_).imp ?_
      · simp only [ATree.kids, ATree.label, List.map_cons]
        refine Safe.bindFrame (F := tn.toList.map .ptr) (ρ := [.ptr tv]) (Q := fun r σ => r.1 = v.value ∧ ∃ tv', ewhIs tv' (v.valueMut f) ∧
          r.2 = tv'.addr ∧ σ = [.ptr tv']) ?_ (.refl _) ?_
        · refine (safe_modifyPtr (within_roomy (by omega)) tv
            (P := fun r l ts => r = v.value ∧ l = .ewh v.keyHash ∧ ∃ te', entIs te' (v.valueMut f) ∧ ts = [te']) ?_).imp ?_
          · rw [g1, g2]
            refine Safe.bind (safe_modEntry f g3) ?_
            rintro ⟨_, p⟩ _ ⟨rfl, te', rfl, h4, rfl⟩
            exact Safe.ret ⟨[te'], rfl, rfl, rfl, rfl, te', h4, rfl⟩
          · rintro ⟨_, p⟩ _ ⟨l, ts, rfl, rfl, rfl, te', h4, rfl⟩
            exact ⟨rfl, _, ⟨te', rfl, rfl, h4⟩, rfl, rfl⟩
        · rintro ⟨_, p⟩ _ ⟨rfl, tv', h4, rfl, rfl⟩
          exact Safe.ret ⟨tv' :: tn.toList, rfl, rfl, rfl, rfl, tv', h4, rfl⟩
      · rintro ⟨_, p⟩ _ ⟨l, ts, rfl, rfl, rfl, tv', h4, rfl⟩
        exact ⟨rfl, tv', h4, rfl⟩
    · rintro ⟨_, p⟩ _ ⟨rfl, tv', h4, rfl⟩
      refine Safe.ret ⟨rfl, ⟨some (.node p .lnode (tv' :: tn.toList)), tl, rfl, rfl, .some h4 hn, h2⟩, ?_⟩
      simpa [Link.toList] using h3

/-! ### Buckets -/

/-- What is in an entry. -/
def kv (x : HEntry K V) : K × V := (x.key, x.value)

theorem safe_bucketGet (key : Q) (kh : UInt64) {hn : HHNode} {b : Bucket K V} {τ : List (Item (HLabel K V))} (h : NIs hn (.leaf b) τ)
    (hin : ∀ s, .ptr s ∈ τ → ∃ t, Sub s t ∧ .ptr t ∈ ρ) {ov : Option (HEntry K V)} (he : b.get o key kh = .ok ov) :
    Safe A D (fun r σ => r = ov.map kv ∧ σ = ρ) (bucketGet o key kh hn) ρ := by
  cases h with
  | @single e x te h =>
    obtain ⟨t, hs, ht⟩ := hin te (by simp)
    simp only [bucketGet]
    refine Safe.bind (safe_hmatches h hs ht key kh) ?_
    rintro _ _ ⟨rfl, rfl⟩
    cases he
    cases hm : x.matches o key kh with
    | true =>
      simp only [if_true]
      rw [h.2.1]
      refine Safe.bind (safe_readEntry h.2.2 hs ht) ?_
      rintro _ _ ⟨rfl, rfl⟩
      exact Safe.ret ⟨rfl, rfl⟩
    | false => exact Safe.ret ⟨rfl, rfl⟩
  | @collision l r _ h =>
    obtain ⟨⟨th, tl, rfl, rfl, h1, h2⟩, h3⟩ := h
    simp only [bucketGet]
    simp only [Bucket.get, RList.len, RList.iter, ListIter.new] at he
    cases hth : th with
    | none =>
      subst hth
      have : r.head = .none := by
        generalize r.head = hd at *
        cases h1; rfl
      rw [this] at he h3
      simp only [Link.toList, List.length_nil] at h3
      rw [← h3] at he
      cases he
      rw [← h3]
      exact Safe.ret ⟨rfl, rfl⟩
    | some s =>
      subst hth
      obtain ⟨t, hs, ht⟩ := hin s (by simp)
      refine safe_findEnt key kh h1 ?_ ht h3 he
      intro u hu
      cases hu
      exact hs

theorem safe_bucketGetMut (key : Q) (kh : UInt64) (f : V → V) {hn : HHNode} {b b' : Bucket K V} (h : NIs hn (.leaf b) ρ)
    {ov : Option (HEntry K V)} (he : b.getMut o key kh (fun e => e.valueMut f) = .ok (ov, b')) :
    Safe A D (fun y σ => y.1 = ov.map (·.value) ∧ NIs y.2 (.leaf b') σ) (bucketGetMut o key kh f hn) ρ := by
  cases h with
  | @single e x te h =>
    simp only [bucketGetMut]
    refine Safe.bind (safe_hmatches h (.refl te) (by simp) key kh) ?_
    rintro _ _ ⟨rfl, rfl⟩
    simp only [Bucket.getMut] at he
    cases hm : x.matches o key kh with
    | true =>
      simp only [hm, if_true] at he ⊢
      cases he
      rw [h.2.1]
      refine Safe.bind (safe_modEntry f h.2.2) ?_
      rintro ⟨_, p⟩ _ ⟨rfl, t', rfl, h4, rfl⟩
      exact Safe.ret ⟨rfl, .single ⟨h.1, rfl, h4⟩⟩
    | false =>
      simp only [hm, Bool.false_eq_true, if_false] at he ⊢
      cases he
      exact Safe.ret ⟨rfl, .single h⟩
  | @collision l r _ h =>
    obtain ⟨⟨ov', r1⟩, h1, h2⟩ := res_bind_ok he
    simp only [bucketGetMut]
    refine Safe.bind (safe_removeFirst key kh h h1) ?_
    rintro ⟨oe, l1⟩ _ ⟨γ, ρ', rfl, h3, h4⟩
    cases h3 with
    | none =>
      cases h2
      exact Safe.ret ⟨rfl, .collision h4⟩
    | @some e x te h3 =>
      cases h2
      refine Safe.bind (safe_pushEnt h4 h3) ?_
      intro l2 σ hl
      refine Safe.bind (safe_firstMut f hl (x := x) rfl rfl) ?_
      rintro ⟨_, l3⟩ σ' ⟨rfl, hl3⟩
      exact Safe.ret ⟨rfl, .collision hl3⟩

theorem safe_bucketInsert {hn : HHNode} {b b' : Bucket K V} {e : HEnt} {x : HEntry K V} {te : ATree (HLabel K V)}
    (h : NIs hn (.leaf b) ρ) (hx : EIs e x te) {isNew : Bool} (he : b.insert o x = .ok (isNew, b')) :
    Safe A D (fun y σ => y.1 = isNew ∧ NIs y.2 (.leaf b') σ) (bucketInsert o e hn) (.ptr te :: ρ) := by
  cases h with
  | @single e0 x0 t0 h =>
    simp only [bucketInsert]
    rw [hx.2.1]
    refine Safe.bind (safe_readEntry hx.2.2 (.refl te) (by simp)) ?_
    rintro _ _ ⟨rfl, rfl⟩
    simp only
    refine Safe.bind (safe_hmatches (o := o.self) h (.refl t0) (by simp) x.key e.hash) ?_
    rintro _ _ ⟨rfl, rfl⟩
    simp only [Bucket.insert] at he
    rw [← hx.1] at he
    cases hm : x0.matches o.self x.key e.hash with
    | true =>
      simp only [hm, if_true] at he ⊢
      cases he
      rw [h.2.1]
      refine Safe.bind (Safe.perm (safe_dropPtr h.2.2.2 (ρ := [.ptr te])) (.swap _ _ _)) ?_
      rintro _ _ rfl
      exact Safe.ret ⟨rfl, .single hx⟩
    | false =>
      simp only [hm, Bool.false_eq_true, if_false] at he ⊢
      cases he
      rw [h.2.1]
      refine Safe.bind (Heap.safe_clone (.refl t0) (ρ := [.ptr te, .ptr t0]) (by simp)) ?_
      rintro _ _ rfl
      refine Safe.bindFrame (F := [.ptr te, .ptr t0]) (safe_pushEnt (r := RList.new) ⟨HList.is_new _ _, rfl⟩ h) (.refl _) ?_
      intro l1 σ1 hl1
      refine Safe.bindFrame (F := [.ptr t0]) (safe_pushEnt hl1 hx) (by perm_tac) ?_
      intro l2 σ2 hl2
      refine Safe.bind (Safe.perm (safe_dropPtr h.2.2.2 (ρ := σ2)) (List.perm_append_singleton _ _)) ?_
      rintro _ _ rfl
      exact Safe.ret ⟨rfl, .collision hl2⟩
  | @collision l r _ h =>
    obtain ⟨⟨ov', r1⟩, h1, h2⟩ := res_bind_ok he
    cases h2
    simp only [bucketInsert]
    rw [hx.2.1]
    refine Safe.bind (safe_readEntry hx.2.2 (.refl te) (by simp)) ?_
    rintro _ _ ⟨rfl, rfl⟩
    simp only
    rw [hx.1]
    refine Safe.bindFrame (F := [.ptr te]) (safe_removeFirst x.key x.keyHash h h1) (List.perm_append_singleton _ _).symm ?_
    rintro ⟨oe, l1⟩ _ ⟨γ, ρ', rfl, h3, h4⟩
    refine Safe.bind (Safe.perm (safe_dropEnt h3 (ρ := .ptr te :: ρ')) (by perm_tac)) ?_
    rintro _ _ rfl
    refine Safe.bind (safe_pushEnt h4 hx) ?_
    intro l2 σ2 hl2
    exact Safe.ret ⟨by rw [h3.isSome], .collision hl2⟩

/-- The node left over by `Bucket::remove`. -/
def leftover : Option (Bucket K V) → HNode K V
  | none => HNode.newEmptyBranch
  | some b => .leaf b

theorem safe_bucketRemove (key : Q) (kh : UInt64) {hn : HHNode} {b : Bucket K V} (h : NIs hn (.leaf b) ρ) {removed : Bool}
    {ob : Option (Bucket K V)} (he : b.remove o key kh = .ok (removed, ob)) :
    Safe A D (fun y σ => y.1 = removed ∧ NIs y.2 (leftover ob) σ) (bucketRemove o key kh hn) ρ := by
  cases h with
  | @single e x te h =>
    simp only [bucketRemove]
    refine Safe.bind (safe_hmatches h (.refl te) (by simp) key kh) ?_
    rintro _ _ ⟨rfl, rfl⟩
    simp only [Bucket.remove] at he
    cases hm : x.matches o key kh with
    | true =>
      simp only [hm, if_true] at he ⊢
      cases he
      rw [h.2.1]
      refine Safe.bind (safe_dropPtr h.2.2.2) ?_
      rintro _ _ rfl
      exact Safe.ret ⟨rfl, NIs.empty⟩
    | false =>
      simp only [hm, Bool.false_eq_true, if_false] at he ⊢
      cases he
      exact Safe.ret ⟨rfl, .single h⟩
  | @collision l r _ h =>
    obtain ⟨⟨ov', r1⟩, h1, h2⟩ := res_bind_ok he
    simp only [bucketRemove]
    refine Safe.bind (safe_removeFirst key kh h h1) ?_
    rintro ⟨oe, l1⟩ _ ⟨γ, ρ', rfl, h3, h4⟩
    refine Safe.bind (safe_dropEnt h3) ?_
    rintro _ _ rfl
    have hlen : l1.length = r1.length := by
      obtain ⟨⟨th, tl, rfl, -⟩, -⟩ := h4
      rfl
    simp only [RList.len] at h2
    rw [hlen, h3.isSome]
    match hr : r1.length with
    | 0 => simp only [hr] at h2; cases h2
    | 1 =>
      simp only [hr] at h2
      obtain ⟨x, h5, h6⟩ := res_bind_ok h2
      cases h6
      have hx : r1.first = some x := by
        cases hf : r1.first with
        | none => rw [hf] at h5; cases h5
        | some y => rw [hf] at h5; cases h5; rfl
      refine safe_firstEnt h4 hx (F := []) (by simp) ?_
      intro e te hee
      refine Safe.bindFrame (F := [.ptr te]) (HList.safe_dropShort elemOK h4.1 h4.2 (.inr (by omega))) (by perm_tac) ?_
      rintro _ _ rfl
      exact Safe.ret ⟨rfl, .single hee⟩
    | n + 2 =>
      simp only [hr] at h2
      cases h2
      exact Safe.ret ⟨rfl, .collision h4⟩

/-! ### Nodes -/

/-- A tree that is not higher than the number given. -/
def Shallow : Nat → HNode K V → Prop
  | 0, _ => False
  | f + 1, .branch _ arr => ∀ c ∈ arr, Shallow f c
  | _ + 1, .leaf _ => True

section unfold
variable (key : Q) (kh : UInt64) (deg depth bm : Nat) (arr : List (HNode K V))

theorem get_branch : (HNode.branch bm arr).get Ar o key kh deg depth = (do
    let x ← nodeSlot Ar kh depth deg bm
    match x.2 with
    | none => pure none
    | some i => do
      let c ← vecIndex arr i
      c.get Ar o key kh deg (depth + 1)) := by
  simp only [Rpds.HNode.get, nodeSlot, bind_assoc, pure_bind]
  congr; funext a; congr; funext b; congr; funext s
  cases s with
  | none => rfl
  | some i => simp only [Rpds.HNode.getAt_eq]

theorem getMut_branch (f : HEntry K V → HEntry K V) : (HNode.branch bm arr).getMut Ar o key kh deg f depth = (do
    let x ← nodeSlot Ar kh depth deg bm
    match x.2 with
    | none => pure (none, .branch bm arr)
    | some i => do
      let c ← vecIndex arr i
      let y ← c.getMut Ar o key kh deg f (depth + 1)
      let s ← SparseArray.writeSlot ⟨bm, arr⟩ i y.2
      pure (y.1, .branch s.bitmap s.array)) := by
  simp only [Rpds.HNode.getMut, nodeSlot, bind_assoc, pure_bind]
  congr; funext a; congr; funext b; congr; funext s
  cases s with
  | none => rfl
  | some i => simp only [Rpds.HNode.getMutAt_eq, bind_assoc]

theorem insert_branch (fuel : Nat) (x : HEntry K V) : (HNode.branch bm arr).insert Ar o deg (fuel + 1) x depth = (do
    let y ← nodeSlot Ar x.keyHash depth deg bm
    match y.2 with
    | some i => do
      let c ← vecIndex arr i
      let z ← HNode.insert Ar o deg fuel x c (depth + 1)
      let s ← SparseArray.writeSlot ⟨bm, arr⟩ i z.2
      pure (z.1, .branch s.bitmap s.array)
    | none => do
      let s ← SparseArray.set Ar ⟨bm, arr⟩ y.1 (.leaf (.single x))
      pure (true, .branch s.bitmap s.array)) := by
  simp only [Rpds.HNode.insert, nodeSlot, bind_assoc, pure_bind]
  congr

theorem insert_leaf (fuel : Nat) (x : HEntry K V) (b : Bucket K V) : (HNode.leaf b).insert Ar o deg (fuel + 1) x depth = (do
    let i ← indexFromHash Ar x.keyHash depth deg
    let c ← b.get o.self x.key x.keyHash
    if !i.isNone then
      if c.isSome then do
        let y ← b.insert o x
        pure (y.1, .leaf y.2)
      else
        match b with
        | .collision _ => .error .unreachable
        | .single e => do
          let z ← HNode.insert Ar o deg fuel e HNode.newEmptyBranch depth
          let w ← HNode.insert Ar o deg fuel x z.2 depth
          pure (true, w.2)
    else do
      let y ← b.insert o x
      pure (y.1, .leaf y.2)) := by
  cases b <;> simp only [Rpds.HNode.insert, Bucket.containsKey, bind_assoc, pure_bind] <;> rfl

/-- What `Node::remove` does with the array after the recursive call. -/
def afterRemove (Ar : Arch) (subtrees : SparseArray (HNode K V)) (index : Nat) : Bool → Bool → Res (Bool × HNode K V)
  | _, false => pure (false, .branch subtrees.bitmap subtrees.array)
  | false, true => do
    let n ← HNode.compress Ar (.branch subtrees.bitmap subtrees.array)
    pure (true, n)
  | true, true => do
    let subtrees ← subtrees.remove Ar index
    let n ← HNode.compress Ar (.branch subtrees.bitmap subtrees.array)
    pure (true, n)

theorem remove_branch : (HNode.branch bm arr).remove Ar o key kh deg depth = (do
    let x ← nodeSlot Ar kh depth deg bm
    match x.2 with
    | none => pure (false, .branch bm arr)
    | some i => do
      let c ← vecIndex arr i
      let y ← c.remove Ar o key kh deg (depth + 1)
      let s ← SparseArray.writeSlot ⟨bm, arr⟩ i y.2
      let e ← y.2.isEmpty Ar
      afterRemove Ar s x.1 e y.1) := by
  simp only [Rpds.HNode.remove, nodeSlot, bind_assoc, pure_bind]
  congr; funext a; congr; funext b; congr; funext s
  cases s with
  | none => rfl
  | some i =>
    simp only [Rpds.HNode.removeAt_eq, bind_assoc]
    congr; funext c; congr; funext y; congr; funext s; congr; funext e
    obtain ⟨r, n⟩ := y
    cases e <;> cases r <;> rfl

end unfold

theorem slot_none {bm i : Nat} (h : SparseArray.slot Ar bm i = .ok none) :
    Ar.debugAssert (decide (i < Ar.W)) = .ok () ∧ SparseArray.mapIndex Ar bm i = .ok none := by
  obtain ⟨_, h1, h2⟩ := res_bind_ok h
  exact ⟨h1, h2⟩

theorem vecIndex_some {α : Type} {l : List α} {i : Nat} {a : α} (h : vecIndex l i = .ok a) : l[i]? = some a := by
  unfold vecIndex at h
  cases hl : l[i]? with
  | none => rw [hl] at h; cases h
  | some b => rw [hl] at h; cases h; rfl

theorem f2_mem {α β : Type} {R : α → β → Prop} {l : List α} {m : List β} (h : List.Forall₂ R l m) :
    List.Forall₂ (fun a b => a ∈ l ∧ b ∈ m ∧ R a b) l m := by
  induction h with
  | nil => exact .nil
  | cons h1 h2 ih => exact .cons (by simp [h1]) (f2_imp ih fun a b _ h => ⟨by simp [h.1], by simp [h.2.1], h.2.2⟩)

theorem f2_getR {α β : Type} {R : α → β → Prop} {l : List α} {m : List β} (h : List.Forall₂ R l m) {i : Nat} {b : β}
    (hb : m[i]? = some b) : ∃ a, l[i]? = some a ∧ R a b := by
  rcases f2_get h i with ⟨-, h2⟩ | ⟨a, b', h1, h2, h3⟩
  · rw [hb] at h2; cases h2
  · rw [hb] at h2; cases h2; exact ⟨a, h1, h3⟩

theorem f2_insertIdx {α β : Type} {R : α → β → Prop} {l : List α} {m : List β} (h : List.Forall₂ R l m) {a : α} {b : β} (hab : R a b)
    (i : Nat) : List.Forall₂ R (l.insertIdx i a) (m.insertIdx i b) := by
  induction h generalizing i with
  | nil =>
    cases i with
    | zero => exact .cons hab .nil
    | succ i => exact .nil
  | cons h1 h2 ih =>
    cases i with
    | zero => exact .cons hab (.cons h1 h2)
    | succ i => exact .cons h1 (ih i)

theorem map_insertIdx {α β : Type} (f : α → β) (l : List α) (i : Nat) (a : α) : (l.insertIdx i a).map f = (l.map f).insertIdx i (f a) := by
  induction l generalizing i with
  | nil => cases i <;> rfl
  | cons b l ih => cases i with
    | zero => rfl
    | succ i => simp [List.insertIdx_succ_cons, ih]

theorem map_eraseIdx {α β : Type} (f : α → β) (l : List α) (i : Nat) : (l.eraseIdx i).map f = (l.map f).eraseIdx i := by
  induction l generalizing i with
  | nil => rfl
  | cons b l ih => cases i with
    | zero => rfl
    | succ i => simp [ih]

theorem perm_insertIdx {α : Type} (l : List α) {i : Nat} (hi : i ≤ l.length) (a : α) : (l.insertIdx i a).Perm (a :: l) := by
  induction l generalizing i with
  | nil => cases Nat.le_zero.mp hi; exact .refl _
  | cons b l ih => cases i with
    | zero => exact .refl _
    | succ i =>
      rw [List.insertIdx_succ_cons]
      exact ((ih (Nat.le_of_succ_le_succ hi)).cons b).trans (.swap _ _ _)

theorem writeSlot_some {α : Type} {bm i : Nat} {arr : List α} {x : α} {s : SparseArray α} (h : SparseArray.writeSlot ⟨bm, arr⟩ i x = .ok s) :
    i < arr.length ∧ s = ⟨bm, arr.set i x⟩ := by
  obtain ⟨a, h1, h2⟩ := res_bind_ok h
  unfold vecSet at h1
  split at h1
  · cases h1; cases h2; exact ⟨by assumption, rfl⟩
  · cases h1

theorem writeSlot_ptr {bm i : Nat} {ts : List (ATree (HLabel K V))} {t : ATree (HLabel K V)} (h : i < ts.length) :
    SparseArray.writeSlot ⟨bm, ts.map ATree.addr⟩ i t.addr = .ok ⟨bm, (ts.set i t).map ATree.addr⟩ := by
  simp [SparseArray.writeSlot, vecSet_ok, h, List.map_set]

theorem safe_hget (key : Q) (kh : UInt64) (deg : Nat) {t : ATree (HLabel K V)} (ht : .ptr t ∈ ρ) (fuel : Nat) {n : HNode K V}
    {s : ATree (HLabel K V)} (hs : Sub s t) {depth : Nat} (hf : Shallow fuel n) (h : IsN n s) {ov : Option (HEntry K V)}
    (he : n.get Ar o key kh deg depth = .ok ov) :
    Safe A D (fun r σ => r = ov.map kv ∧ σ = ρ) (hget o Ar key kh deg fuel s.addr depth) ρ := by
  induction fuel generalizing n s depth with
  | zero => cases hf
  | succ fuel ih =>
    refine Safe.bind (safe_readNode h hs ht) ?_
    rintro hn _ ⟨⟨τ, h1, h2⟩, rfl⟩
    cases h1 with
    | @branch bm arr ts h3 =>
      rw [get_branch] at he
      obtain ⟨⟨index, oi⟩, g1, g2⟩ := res_bind_ok he
      refine Safe.liftBind g1 ?_
      cases oi with
      | none => cases g2; exact Safe.ret ⟨rfl, rfl⟩
      | some i =>
        obtain ⟨c, g3, g4⟩ := res_bind_ok g2
        have g3 := vecIndex_some g3
        obtain ⟨u, g5, g6⟩ := f2_getR h3 g3
        refine Safe.liftBind (vecIndex_map _ g5) ?_
        refine ih (.kid hs (h2 u ?_)) (hf c (List.mem_of_getElem? g3)) g6 g4
        exact List.mem_map_of_mem (List.mem_of_getElem? g5)
    | @single e x te h3 =>
      rw [Rpds.HNode.get] at he
      exact safe_bucketGet key kh (.single h3) (fun u hu => ⟨t, .kid hs (h2 u hu), ht⟩) he
    | @collision l r _ h3 =>
      rw [Rpds.HNode.get] at he
      exact safe_bucketGet key kh (.collision h3) (fun u hu => ⟨t, .kid hs (h2 u hu), ht⟩) he

theorem safe_hgetMut (key : Q) (kh : UInt64) (deg : Nat) (f : V → V) (fuel : Nat) {hn : HHNode} {n n' : HNode K V} {depth : Nat}
    (hf : Shallow fuel n) (h : NIs hn n ρ) {ov : Option (HEntry K V)}
    (he : n.getMut Ar o key kh deg (fun e => e.valueMut f) depth = .ok (ov, n')) :
    Safe A D (fun y σ => y.1 = ov.map (·.value) ∧ NIs y.2 n' σ) (hgetMut o Ar key kh deg f fuel hn depth) ρ := by
  induction fuel generalizing hn n n' depth ρ with
  | zero => cases hf
  | succ fuel ih =>
    cases h with
    | @branch bm arr ts h3 =>
      rw [getMut_branch] at he
      obtain ⟨⟨index, oi⟩, g1, g2⟩ := res_bind_ok he
      simp only [hgetMut, hgetMutStep]
      refine Safe.liftBind g1 ?_
      cases oi with
      | none => cases g2; exact Safe.ret ⟨rfl, .branch h3⟩
      | some i =>
        obtain ⟨c, g3, g4⟩ := res_bind_ok g2
        obtain ⟨⟨ov', c'⟩, g5, g6⟩ := res_bind_ok g4
        obtain ⟨s, g7, g8⟩ := res_bind_ok g6
        cases g8
        obtain ⟨g9, rfl⟩ := writeSlot_some g7
        have g3 := vecIndex_some g3
        obtain ⟨u, e1, e2⟩ := f2_getR h3 g3
        obtain ⟨F, p1, p2, -⟩ := perm_take e1
        refine Safe.liftBind (vecIndex_map _ e1) ?_
        refine Safe.bindFrame (F := F) (safe_modNode e2 (a := ov'.map (·.value)) (n' := c') (E := []) fun hn' τ hτ => ?_) p1 ?_
        · rw [List.append_nil]
          exact ih (hf c (List.mem_of_getElem? g3)) hτ g5
        · rintro ⟨_, p⟩ _ ⟨rfl, t', rfl, h4, rfl⟩
          refine Safe.liftBind (writeSlot_ptr (by rw [f2_length h3]; exact g9)) ?_
          exact Safe.perm (Safe.ret ⟨rfl, .branch (f2_set h3 h4 i)⟩) (p2 t').symm
    | @single e x te h3 =>
      rw [Rpds.HNode.getMut] at he
      obtain ⟨⟨ov', b'⟩, g1, g2⟩ := res_bind_ok he
      cases g2
      exact safe_bucketGetMut key kh f (.single h3) g1
    | @collision l r _ h3 =>
      rw [Rpds.HNode.getMut] at he
      obtain ⟨⟨ov', b'⟩, g1, g2⟩ := res_bind_ok he
      cases g2
      exact safe_bucketGetMut key kh f (.collision h3) g1

theorem safe_hinsert (deg : Nat) (fuel : Nat) {hn : HHNode} {n n' : HNode K V} {depth : Nat} {e : HEnt} {x : HEntry K V}
    {te : ATree (HLabel K V)} (h : NIs hn n ρ) (hx : EIs e x te) {isNew : Bool}
    (he : n.insert Ar o deg fuel x depth = .ok (isNew, n')) :
    Safe A D (fun y σ => y.1 = isNew ∧ NIs y.2 n' σ) (hinsert o Ar deg fuel e hn depth) (.ptr te :: ρ) := by
  induction fuel generalizing hn n n' depth ρ isNew e x te with
  | zero => cases he
  | succ fuel ih =>
    have leaf : ∀ {b : Bucket K V}, NIs hn (.leaf b) ρ → (HNode.leaf b).insert Ar o deg (fuel + 1) x depth = .ok (isNew, n') →
        (∀ bm ps, hn ≠ .branch bm ps) →
        Safe A D (fun y σ => y.1 = isNew ∧ NIs y.2 n' σ) (hinsert o Ar deg (fuel + 1) e hn depth) (.ptr te :: ρ) := by
      intro b hb he hnb
      rw [insert_leaf] at he
      obtain ⟨oi, g1, g2⟩ := res_bind_ok he
      obtain ⟨og, g5, g4⟩ := res_bind_ok g2
      have key : Safe A D (fun y σ => y.1 = isNew ∧ NIs y.2 n' σ)
          (Prog.bind (lift (indexFromHash Ar e.hash depth deg)) fun x =>
            Prog.bind (readEntry e.ptr) fun kv =>
            Prog.bind (bucketGet o.self kv.1 e.hash hn) fun y =>
            if !x.isNone then
              if y.isSome then bucketInsert o e hn
              else
                match hn with
                | .single e0 =>
                  Prog.bind (clone e0.ptr) fun _ =>
                  Prog.bind (drop e0.ptr) fun _ =>
                  Prog.bind (hinsert o Ar deg fuel e0 (.branch 0 []) depth) fun z =>
                  Prog.bind (hinsert o Ar deg fuel e z.2 depth) fun w => .ret (true, w.2)
                | _ => .panic
            else bucketInsert o e hn) (.ptr te :: ρ) := by
        rw [hx.1, hx.2.1]
        refine Safe.liftBind g1 ?_
        refine Safe.bind (safe_readEntry hx.2.2 (.refl te) (by simp)) ?_
        rintro _ _ ⟨rfl, rfl⟩
        refine Safe.bind (safe_bucketGet (o := o.self) x.key x.keyHash hb (fun s hs => ⟨s, .refl s, by simp [hs]⟩) g5) ?_
        rintro _ _ ⟨rfl, rfl⟩
        simp only [Option.isSome_map]
        have ins : ∀ {bb : Bool} {b' : Bucket K V}, b.insert o x = .ok (bb, b') →
            Safe A D (fun y σ => y.1 = bb ∧ NIs y.2 (.leaf b') σ) (bucketInsert o e hn) (.ptr te :: ρ) :=
          fun hi => safe_bucketInsert hb hx hi
        cases hoi : oi.isNone with
        | true =>
          simp only [hoi, Bool.not_true, Bool.false_eq_true, if_false] at g4 ⊢
          obtain ⟨⟨bb, b'⟩, g7, g8⟩ := res_bind_ok g4
          cases g8
          exact ins g7
        | false =>
          simp only [hoi, Bool.not_false, if_true] at g4 ⊢
          cases hog : og.isSome with
          | true =>
            simp only [hog, if_true] at g4 ⊢
            obtain ⟨⟨bb, b'⟩, g7, g8⟩ := res_bind_ok g4
            cases g8
            exact ins g7
          | false =>
            simp only [hog, Bool.false_eq_true, if_false] at g4 ⊢
            cases hb with
            | @collision l r _ h3 => cases g4
            | @single e0 x0 t0 h3 =>
              simp only at g4 ⊢
              obtain ⟨⟨b1, n1⟩, g7, g8⟩ := res_bind_ok g4
              obtain ⟨⟨b2, n2⟩, g9, g10⟩ := res_bind_ok g8
              cases g10
              rw [h3.2.1]
              refine Safe.bind (Heap.safe_clone (.refl t0) (ρ := [.ptr te, .ptr t0]) (by simp)) ?_
              rintro _ _ rfl
              refine Safe.bind (Safe.perm (safe_dropPtr h3.2.2.2 (t := t0) (ρ := [.ptr t0, .ptr te])) (by perm_tac)) ?_
              rintro _ _ rfl
              refine Safe.bindFrame (F := [.ptr te]) (ih NIs.empty h3 g7) (.refl _) ?_
              rintro ⟨_, hn1⟩ σ1 ⟨rfl, k1⟩
              refine Safe.bind (Safe.perm (ih k1 hx g9) (List.perm_append_singleton _ _)) ?_
              rintro ⟨_, hn2⟩ σ2 ⟨rfl, k2⟩
              exact Safe.ret ⟨rfl, k2⟩
      cases hn with
      | branch bm ps => exact absurd rfl (hnb bm ps)
      | single e0 => exact key
      | collision l => exact key
    cases h with
    | @branch bm arr ts h3 =>
      rw [insert_branch] at he
      obtain ⟨⟨index, oi⟩, g1, g2⟩ := res_bind_ok he
      simp only [hinsert, hinsertStep]
      rw [hx.1]
      refine Safe.liftBind g1 ?_
      cases oi with
      | some i =>
        obtain ⟨c, g3, g4⟩ := res_bind_ok g2
        obtain ⟨⟨ov', c'⟩, g5, g6⟩ := res_bind_ok g4
        obtain ⟨s, g7, g8⟩ := res_bind_ok g6
        cases g8
        obtain ⟨g9, rfl⟩ := writeSlot_some g7
        have g3 := vecIndex_some g3
        obtain ⟨u, e1, e2⟩ := f2_getR h3 g3
        obtain ⟨F, p1, p2, -⟩ := perm_take e1
        refine Safe.liftBind (vecIndex_map _ e1) ?_
        refine Safe.bindFrame (F := F) (safe_modNode e2 (a := ov') (n' := c') (E := [.ptr te]) fun hn' τ hτ => ?_)
          ((p1.cons _).trans (.swap _ _ _)) ?_
        · exact Safe.perm (ih hτ hx g5) (List.perm_append_singleton _ _)
        · rintro ⟨_, p⟩ _ ⟨rfl, t', rfl, h4, rfl⟩
          refine Safe.liftBind (writeSlot_ptr (by rw [f2_length h3]; exact g9)) ?_
          exact Safe.perm (Safe.ret ⟨rfl, .branch (f2_set h3 h4 i)⟩) (p2 t').symm
      | none =>
        obtain ⟨s, g3, g4⟩ := res_bind_ok g2
        cases g4
        have g5 : SparseArray.slot Ar bm index = .ok none := by
          simp only [nodeSlot] at g1
          obtain ⟨_, _, g1⟩ := res_bind_ok g1
          obtain ⟨_, _, g1⟩ := res_bind_ok g1
          obtain ⟨s', g1, g6⟩ := res_bind_ok g1
          cases g6
          exact g1
        obtain ⟨g6, g7⟩ := slot_none g5
        simp only [SparseArray.set, g6, g7, Res.ok_bind] at g3
        obtain ⟨rk, g8, g9⟩ := res_bind_ok g3
        obtain ⟨bit, g10, g11⟩ := res_bind_ok g9
        obtain ⟨arr', g12, g13⟩ := res_bind_ok g11
        cases g13
        unfold vecInsert at g12
        split at g12
        · next hle =>
          cases g12
          rw [hx.2.1]
          refine Safe.bindFrame (F := ts.map .ptr) (safe_new (HLabel.single x.keyHash) [te]) (.refl _) ?_
          rintro p _ rfl
          refine Safe.liftBind (x := ⟨bm ||| bit, (ts.insertIdx rk (.node p (.single x.keyHash) [te])).map ATree.addr⟩) ?_ ?_
          · simp only [SparseArray.set, g6, g7, Res.ok_bind, g8, g10, vecInsert, List.length_map]
            rw [if_pos (by rw [f2_length h3]; exact hle)]
            simp [map_insertIdx, ATree.addr]
          · refine Safe.perm (Safe.ret ⟨rfl, .branch (f2_insertIdx h3 (a := .node p (.single x.keyHash) [te]) ?_ rk)⟩) ?_
            · rw [IsN]
              exact ⟨rfl, te, rfl, hx.2.2⟩
            · rw [map_insertIdx]
              exact (perm_insertIdx (ts.map Item.ptr) (by rw [List.length_map, f2_length h3]; exact hle) _).symm
        · cases g12
    | @single e x te h3 => exact leaf (.single h3) he (by intros; simp)
    | @collision l r _ h3 => exact leaf (.collision h3) he (by intros; simp)

theorem safe_hreplace {dest : HHNode} {d n : HNode K V} {τ : List (Item (HLabel K V))} (hd : NIs dest d τ) {t : ATree (HLabel K V)}
    (h : IsN n t) (hD : D = none ∨ dest.ptrs = []) : Safe A D (fun r σ => NIs r n σ) (hreplace dest t.addr) (.ptr t :: τ) := by
  obtain ⟨hn, h1, h2⟩ := h.opened
  refine Safe.bindFrame (F := τ) (safe_makeMut t (within_roomy (by omega))) (.refl _) ?_
  rintro ⟨a, c⟩ _ ⟨h3, rfl⟩
  simp only at h3 ⊢
  rw [h3, h1]
  simp only
  obtain ⟨ts, h4, rfl, h5⟩ := hd.tree
  rw [h4]
  refine Safe.bindFrame (F := t.kids.map .ptr) (safe_close a dest.label ts) (by perm_tac) ?_
  rintro _ _ rfl
  refine Safe.bind (safe_drop (t := .node a dest.label ts) ?_) ?_
  · rcases hD with rfl | hD
    · exact within_none _
    · rw [hD] at h4
      rw [nest_no_kids (List.map_eq_nil_iff.1 h4.symm)]
      exact within_roomy (by omega)
  rintro _ _ rfl
  exact Safe.ret h2

theorem getLast_split {α : Type} {l : List α} {a : α} (h : l.getLast? = some a) : l = l.dropLast ++ [a] := by
  obtain ⟨l', rfl⟩ := List.getLast?_eq_some_iff.1 h
  simp

theorem f2_unsnoc {α β : Type} {R : α → β → Prop} {l : List α} {m : List β} {b : β} (h : List.Forall₂ R l (m ++ [b])) :
    ∃ l' a, l = l' ++ [a] ∧ List.Forall₂ R l' m ∧ R a b := by
  induction m generalizing l with
  | nil =>
    cases h with
    | cons h1 h2 => cases h2; exact ⟨[], _, rfl, .nil, h1⟩
  | cons c m ih =>
    cases h with
    | cons h1 h2 =>
      obtain ⟨l', a, rfl, h3, h4⟩ := ih h2
      exact ⟨_ :: l', a, rfl, .cons h1 h3, h4⟩

theorem safe_hcompress {bm : Nat} {arr : List (HNode K V)} {ts : List (ATree (HLabel K V))}
    (h : List.Forall₂ (fun t n => IsN n t) ts arr) {n : HNode K V} (he : HNode.compress Ar (.branch bm arr) = .ok n)
    (hD : D = none ∨ Ar.countOnes bm = arr.length) :
    Safe A D (fun r σ => NIs r n σ) (hcompress Ar ⟨bm, ts.map ATree.addr⟩) (ts.map .ptr) := by
  simp only [Rpds.HNode.compress, SparseArray.size] at he
  simp only [hcompress, SparseArray.size]
  split at he
  · next hs =>
    simp only [hs]
    obtain ⟨c, g1, g2⟩ := res_bind_ok he
    cases h with
    | nil => cases g1
    | @cons t c0 ts arr h1 h2 =>
      cases g1
      refine Safe.liftBind (x := t.addr) rfl ?_
      refine Safe.bind (safe_readNode h1 (.refl t) (by simp)) ?_
      rintro hn _ ⟨⟨τ, k1, -⟩, rfl⟩
      cases k1 with
      | branch k =>
        cases g2
        exact Safe.ret (.branch (.cons h1 h2))
      | collision k =>
        cases g2
        exact Safe.ret (.branch (.cons h1 h2))
      | @single e x te k =>
        simp only [SparseArray.pop] at g2 ⊢
        obtain ⟨la, hla⟩ : ∃ la, (HNode.leaf (.single x) :: arr).getLast? = some la := by
          rw [List.getLast?_cons]; exact ⟨_, rfl⟩
        rw [hla] at g2
        cases g2
        have hF : List.Forall₂ (fun t n => IsN n t) (t :: ts) (HNode.leaf (.single x) :: arr) := .cons h1 h2
        rw [getLast_split hla] at hF
        obtain ⟨l', u, e1, e2, e3⟩ := f2_unsnoc hF
        rw [e1]
        simp only [List.map_append, List.map_cons, List.map_nil, List.getLast?_concat, List.dropLast_concat]
        refine Safe.perm (safe_hreplace (NIs.branch (bm := bm) e2) e3 (hD.imp id fun hD => ?_)) (List.perm_append_singleton _ _)
        have hl := congrArg List.length e1
        have hl2 := f2_length h2
        simp only [List.length_cons, List.length_append, List.length_nil] at hl hD
        have : l' = [] := List.eq_nil_of_length_eq_zero (by omega)
        simp [this, HHNode.ptrs]
  · next hs =>
    cases he
    split
    · next hs' => exact absurd hs' hs
    · exact Safe.ret (NIs.branch h)

theorem remove_sparse {bm : Nat} {arr : List (HNode K V)} {index : Nat} {s : SparseArray (HNode K V)}
    (h : SparseArray.remove Ar ⟨bm, arr⟩ index = .ok s) :
    (SparseArray.mapIndex Ar bm index = .ok none ∧ s = ⟨bm, arr⟩) ∨
    ∃ i bit, SparseArray.mapIndex Ar bm index = .ok (some i) ∧ Ar.ushl 1 index = .ok bit ∧ i < arr.length ∧
      s = ⟨bm ^^^ bit, arr.eraseIdx i⟩ := by
  obtain ⟨oi, h1, h2⟩ := res_bind_ok h
  cases oi with
  | none => cases h2; exact .inl ⟨h1, rfl⟩
  | some i =>
    obtain ⟨bit, h3, h4⟩ := res_bind_ok h2
    obtain ⟨arr', h5, h6⟩ := res_bind_ok h4
    cases h6
    unfold vecRemove at h5
    split at h5
    · cases h5; exact .inr ⟨i, bit, h1, h3, by assumption, rfl⟩
    · cases h5

theorem safe_sparseRemove {bm : Nat} {arr : List (HNode K V)} {ts : List (ATree (HLabel K V))}
    (h : List.Forall₂ (fun t n => IsN n t) ts arr) {index : Nat} {s : SparseArray (HNode K V)}
    (he : SparseArray.remove Ar ⟨bm, arr⟩ index = .ok s)
    (hD : D = none ∨ ∀ i c, SparseArray.mapIndex Ar bm index = .ok (some i) → arr[i]? = some c → ∃ b, c = .branch b []) :
    Safe A D (fun r σ => ∃ ts' : List (ATree (HLabel K V)), r = ⟨s.bitmap, ts'.map ATree.addr⟩ ∧ σ = ts'.map .ptr ∧
      List.Forall₂ (fun t n => IsN n t) ts' s.array) (sparseRemove Ar ⟨bm, ts.map ATree.addr⟩ index) (ts.map .ptr) := by
  rcases remove_sparse he with ⟨h1, rfl⟩ | ⟨i, bit, h1, h2, h3, rfl⟩
  · refine Safe.liftBind h1 ?_
    exact Safe.ret ⟨ts, rfl, rfl, h⟩
  · refine Safe.liftBind h1 ?_
    have hi : i < ts.length := by rw [f2_length h]; exact h3
    have e1 : ts[i]? = some ts[i] := List.getElem?_eq_getElem hi
    obtain ⟨F, p1, -, p3⟩ := perm_take e1
    refine Safe.liftBind (vecIndex_map _ e1) ?_
    refine Safe.liftBind (x := ⟨bm ^^^ bit, (ts.eraseIdx i).map ATree.addr⟩) ?_ ?_
    · simp only [SparseArray.remove, h1, Res.ok_bind, h2, vecRemove, List.length_map, if_pos hi]
      rw [map_eraseIdx]; rfl
    · refine Safe.bind (Safe.perm (safe_drop (t := ts[i]) (ρ := F) ?_) p1) ?_
      · rcases hD with rfl | hD
        · exact within_none _
        · obtain ⟨c, k1, k2⟩ : ∃ c, arr[i]? = some c ∧ IsN c ts[i] := by
            rcases f2_get h i with ⟨k1, -⟩ | ⟨a, b, k1, k2, k3⟩
            · rw [e1] at k1; cases k1
            · rw [e1] at k1; cases k1; exact ⟨b, k2, k3⟩
          obtain ⟨b, rfl⟩ := hD i c h1 k1
          rw [IsN, IsNs] at k2
          rw [nest_no_kids k2.2]
          exact within_roomy (by omega)
      rintro _ _ rfl
      exact Safe.perm (Safe.ret ⟨ts.eraseIdx i, rfl, rfl, f2_eraseIdx h i⟩) p3.symm

theorem NIs.isEmpty {hn : HHNode} {n : HNode K V} {τ : List (Item (HLabel K V))} (h : NIs hn n τ) : hn.isEmpty Ar = n.isEmpty Ar := by
  cases h with
  | branch h => rfl
  | single h => rfl
  | @collision l r _ h =>
    obtain ⟨⟨th, tl, rfl, -⟩, -⟩ := h
    rfl

theorem remove_leaf (key : Q) (kh : UInt64) (deg depth : Nat) (b : Bucket K V) : (HNode.leaf b).remove Ar o key kh deg depth = (do
    let x ← b.remove o key kh
    pure (x.1, leftover x.2)) := by
  simp only [Rpds.HNode.remove]
  congr; funext x
  obtain ⟨r, ob⟩ := x
  cases ob <;> rfl

/-- What is asked of a node for its removals to drop no node with subtrees. -/
def Kept (Ar : Arch) (o : HashKeys H K Q) (D : Option Nat) (key : Q) (kh : UInt64) (deg : Nat) (n : HNode K V) (depth : Nat) : Prop :=
  D = none ∨ ∃ (h : H) (k : Nat), o.Lawful ∧ HConf Ar k ∧ deg = 2 ^ k ∧ kh = o.hashQ h key ∧ depth ≤ 64 ∧ n.OK Ar k true depth ∧
    Rpds.HNode.Good o h n.entries ∧ Rpds.HNode.Apart o n.entries

theorem branch_empty {n : HNode K V} {k d : Nat} (hok : n.OK Ar k true d ∨ (n = .newEmptyBranch ∧ 64 ≤ d * k))
    (he : n.isEmpty Ar = .ok true) : ∃ b, n = .branch b [] := by
  rcases hok with hok | ⟨rfl, -⟩
  · rw [Rpds.HNode.isEmpty_ok hok] at he
    simp only [Except.ok.injEq, List.isEmpty_iff] at he
    cases n with
    | branch bm arr =>
      cases arr with
      | nil => exact ⟨_, rfl⟩
      | cons c arr =>
        obtain ⟨i, _, hc⟩ := SparseArray.forall₂_mem (Rpds.HNode.ok_branch.1 hok).2 (b := c) (by simp)
        rw [Rpds.HNode.entries_branch, List.flatMap_cons, List.append_eq_nil_iff] at he
        exact absurd he.1 hc.nonempty
    | leaf b =>
      cases b with
      | single e => simp [Bucket.entries] at he
      | collision l =>
        rw [Rpds.HNode.OK] at hok
        simp [Bucket.entries] at he
        rw [he] at hok
        simp at hok
  · exact ⟨_, rfl⟩

theorem Kept.child {key : Q} {kh : UInt64} {deg depth bm : Nat} {arr : List (HNode K V)} (h : Kept Ar o D key kh deg (.branch bm arr) depth)
    {c : HNode K V} (hc : c ∈ arr) : Kept Ar o D key kh deg c (depth + 1) := by
  rcases h with h | ⟨hs, k, lo, c', rfl, rfl, hd, hok, hg, ha⟩
  · exact .inl h
  · rw [Rpds.HNode.ok_branch] at hok
    obtain ⟨i, -, hi⟩ := SparseArray.forall₂_mem hok.2 hc
    obtain ⟨l1, l2, rfl⟩ := List.append_of_mem hc
    simp only [Rpds.HNode.entries_branch, List.flatMap_append, List.flatMap_cons] at hg ha
    rw [Rpds.HNode.Good.append, Rpds.HNode.Good.append] at hg
    exact .inr ⟨hs, k, lo, c', rfl, rfl, Rpds.HNode.depth_succ c' hok.1, hi.ok, hg.2.1, ha.append_right.append_left⟩

theorem Kept.index {key : Q} {kh : UInt64} {deg depth bm : Nat} {arr : List (HNode K V)} (h : Kept Ar o D key kh deg (.branch bm arr) depth)
    {index : Nat} {oi : Option Nat} (hs : nodeSlot Ar kh depth deg bm = .ok (index, oi)) :
    D = none ∨ (index < Ar.W ∧ Ar.countOnes bm = arr.length) := by
  rcases h with h | ⟨hs', k, lo, c, rfl, rfl, hd, hok, -⟩
  · exact .inl h
  · rw [Rpds.HNode.ok_branch] at hok
    simp only [nodeSlot, indexFromHash_eq c.small hd, hok.1, if_true, Res.ok_bind, unwrap_some] at hs
    obtain ⟨_, -, e⟩ := res_bind_ok hs
    cases e
    exact .inr ⟨c.idx_lt depth _, hok.2.size⟩

theorem Kept.emptied {key : Q} {kh : UInt64} {deg depth bm : Nat} {arr : List (HNode K V)} (h : Kept Ar o D key kh deg (.branch bm arr) depth)
    {c c' : HNode K V} (hc : c ∈ arr) {b : Bool} (hr : c.remove Ar o key kh deg (depth + 1) = .ok (b, c')) (he : c'.isEmpty Ar = .ok true) :
    D = none ∨ ∃ b, c' = .branch b [] := by
  rcases h.child hc with h | ⟨hs, k, lo, cf, rfl, rfl, hd, hok, hg, ha⟩
  · exact .inl h
  · obtain ⟨n', h1, -, h3, -⟩ := Rpds.HNode.remove_ok lo cf hs key c (depth + 1) hd hok hg ha
    rw [h1] at hr
    cases hr
    exact .inr (branch_empty h3 he)

theorem f2_true {α β : Type} {l : List α} {m : List β} (h : l.length = m.length) : List.Forall₂ (fun _ _ => True) l m := by
  induction l generalizing m with
  | nil => cases m with
    | nil => exact .nil
    | cons _ _ => simp at h
  | cons a l ih => cases m with
    | nil => simp at h
    | cons b m => exact .cons trivial (ih (by simpa using h))

theorem ones_remove {T : Type} {s s' : SparseArray T} {i : Nat} (hi : i < Ar.W) (h : Ar.countOnes s.bitmap = s.array.length)
    (he : s.remove Ar i = .ok s') : Ar.countOnes s'.bitmap = s'.array.length := by
  have hrel : s.Rel Ar fun _ _ => True := by
    rw [SparseArray.countOnes_eq] at h
    exact f2_true h
  obtain ⟨lo, hi', h1, h2, ⟨h3, h4⟩ | ⟨a, h3, h4, -⟩⟩ := hrel.cases hi
  · rw [SparseArray.remove_none hi h3] at he
    cases he
    exact h
  · rw [SparseArray.remove_old hi h3 h1 h4] at he
    cases he
    rw [SparseArray.countOnes_eq, SparseArray.bits_xor hi h3]
    exact SparseArray.forall₂_length (SparseArray.forall₂_append h1 h2)

theorem safe_hremove (key : Q) (kh : UInt64) (deg : Nat) (fuel : Nat) {hn : HHNode} {n n' : HNode K V} {depth : Nat}
    (hf : Shallow fuel n) (hN : Kept Ar o D key kh deg n depth) (h : NIs hn n ρ) {removed : Bool} (he : n.remove Ar o key kh deg depth = .ok (removed, n')) :
    Safe A D (fun y σ => y.1 = removed ∧ NIs y.2 n' σ) (hremove o Ar key kh deg fuel hn depth) ρ := by
  induction fuel generalizing hn n n' depth ρ removed with
  | zero => cases hf
  | succ fuel ih =>
    cases h with
    | @branch bm arr ts h3 =>
      rw [remove_branch] at he
      obtain ⟨⟨index, oi⟩, g1, g2⟩ := res_bind_ok he
      simp only [hremove, hremoveStep]
      refine Safe.liftBind g1 ?_
      cases oi with
      | none => cases g2; exact Safe.ret ⟨rfl, .branch h3⟩
      | some i =>
        obtain ⟨c, g3, g4⟩ := res_bind_ok g2
        obtain ⟨⟨rm, c'⟩, g5, g6⟩ := res_bind_ok g4
        obtain ⟨s, g7, g8⟩ := res_bind_ok g6
        obtain ⟨em, g10, g11⟩ := res_bind_ok g8
        obtain ⟨g9, rfl⟩ := writeSlot_some g7
        have g3 := vecIndex_some g3
        obtain ⟨u, e1, e2⟩ := f2_getR h3 g3
        obtain ⟨F, p1, p2, -⟩ := perm_take e1
        refine Safe.liftBind (vecIndex_map _ e1) ?_
        refine Safe.bindFrame (F := F) (safe_modNode e2 (a := (em, rm)) (n' := c') (E := []) fun hn' τ hτ => ?_) p1 ?_
        · rw [List.append_nil]
          refine Safe.bind (ih (hf c (List.mem_of_getElem? g3)) (hN.child (List.mem_of_getElem? g3)) hτ g5) ?_
          rintro ⟨_, hn2⟩ σ2 ⟨rfl, k2⟩
          refine Safe.liftBind (x := em) (by rw [k2.isEmpty]; exact g10) ?_
          exact Safe.ret ⟨rfl, k2⟩
        · rintro ⟨_, p⟩ _ ⟨rfl, t', rfl, h4, rfl⟩
          refine Safe.liftBind (writeSlot_ptr (by rw [f2_length h3]; exact g9)) ?_
          refine Safe.perm ?_ (p2 t').symm
          have hset := f2_set h3 h4 i
          cases rm with
          | false =>
            cases g11
            exact Safe.ret ⟨rfl, .branch hset⟩
          | true =>
            cases em with
            | false =>
              obtain ⟨n2, k1, k2⟩ := res_bind_ok g11
              cases k2
              refine Safe.bind (safe_hcompress hset k1 ((hN.index g1).imp id fun hi => by rw [List.length_set]; exact hi.2)) ?_
              intro r σ hr
              exact Safe.ret ⟨rfl, hr⟩
            | true =>
              obtain ⟨s2, k0, k1⟩ := res_bind_ok g11
              obtain ⟨n2, k1, k2⟩ := res_bind_ok k1
              cases k2
              have hk0 : D = none ∨ Ar.countOnes s2.bitmap = s2.array.length :=
                (hN.index g1).imp id fun hi => ones_remove hi.1 (by simp only [List.length_set]; exact hi.2) k0
              refine Safe.bind (safe_sparseRemove hset k0
                ((hN.emptied (List.mem_of_getElem? g3) g5 g10).imp id ?_)) ?_
              · rintro ⟨b, hb⟩ j cj hj hcj
                have hji : j = i := by
                  simp only [nodeSlot] at g1
                  obtain ⟨_, _, g1⟩ := res_bind_ok g1
                  obtain ⟨_, _, g1⟩ := res_bind_ok g1
                  obtain ⟨s', g1, g12⟩ := res_bind_ok g1
                  cases g12
                  obtain ⟨_, -, g1⟩ := res_bind_ok g1
                  rw [g1] at hj
                  cases hj
                  rfl
                subst hji
                rw [List.getElem?_set_self g9] at hcj
                cases hcj
                exact ⟨b, hb⟩
              rintro _ _ ⟨ts', rfl, rfl, k3⟩
              refine Safe.bind (safe_hcompress k3 k1 hk0) ?_
              intro r σ hr
              exact Safe.ret ⟨rfl, hr⟩
    | @single e x te h3 =>
      rw [remove_leaf] at he
      obtain ⟨⟨rm, ob⟩, g1, g2⟩ := res_bind_ok he
      cases g2
      exact safe_bucketRemove key kh (.single h3) g1
    | @collision l r _ h3 =>
      rw [remove_leaf] at he
      obtain ⟨⟨rm, ob⟩, g1, g2⟩ := res_bind_ok he
      cases g2
      exact safe_bucketRemove key kh (.collision h3) g1

/-! ### Reading everything -/

theorem safe_viewEnt {e : HEnt} {x : HEntry K V} {s t : ATree (HLabel K V)} (h : EIs e x s) (hs : Sub s t) (ht : .ptr t ∈ ρ) :
    Safe A D (fun r σ => r = x ∧ σ = ρ) (viewEnt e) ρ := by
  obtain ⟨h1, h2, h3⟩ := h
  unfold viewEnt
  rw [h2]
  refine Safe.bind (safe_readEntry h3 hs ht) ?_
  rintro _ _ ⟨rfl, rfl⟩
  rw [h1]
  exact Safe.ret ⟨rfl, rfl⟩

theorem safe_viewEwh {s t : ATree (HLabel K V)} {x : HEntry K V} (h : ewhIs s x) (hs : Sub s t) (ht : .ptr t ∈ ρ) :
    Safe A D (fun r σ => r = x ∧ σ = ρ) (Prog.bind (readEwh s.addr) viewEnt) ρ := by
  obtain ⟨te, h1, h2, h3⟩ := h
  refine Safe.bind (safe_readEwh h1 h2 hs ht) ?_
  rintro _ _ ⟨rfl, rfl⟩
  exact safe_viewEnt ⟨rfl, rfl, h3⟩ (.kid hs (by rw [h2]; simp)) ht

theorem safe_viewLink {th : Option (ATree (HLabel K V))} {hd : Link (HEntry K V)}
    (h : IsLink .lnode ewhIs th hd) {t : ATree (HLabel K V)} (hin : ∀ s, th = some s → Sub s t) (ht : .ptr t ∈ ρ)
    {n : Nat} (hn : hd.toList.length ≤ n) :
    Safe A D (fun r σ => r = hd ∧ σ = ρ) (viewLink n (th.map ATree.addr)) ρ := by
  induction h generalizing n with
  | none => cases n <;> exact Safe.ret ⟨rfl, rfl⟩
  | @some a tv tn x next hv hl ih =>
    simp only [Link.toList, List.length_cons] at hn
    obtain ⟨n, rfl⟩ : ∃ m, n = m + 1 := ⟨n - 1, by omega⟩
    have hs := hin _ rfl
    have hsv : Sub tv t := .kid hs (by simp [ATree.kids])
    obtain ⟨te, g1, g2, g3⟩ := hv
    refine Safe.bind (HList.safe_readNode rfl hs ht) ?_
    rintro _ _ ⟨rfl, rfl⟩
    refine Safe.bind (safe_readEwh g1 g2 hsv ht) ?_
    rintro _ _ ⟨rfl, rfl⟩
    refine Safe.bind (safe_viewEnt (s := te) ⟨rfl, rfl, g3⟩ (.kid hsv (by rw [g2]; simp)) ht) ?_
    rintro _ _ ⟨rfl, rfl⟩
    refine Safe.bind (ih ?_ (by omega)) ?_
    · rintro s rfl
      exact .kid hs (by simp [ATree.kids])
    · rintro _ _ ⟨rfl, rfl⟩
      exact Safe.ret ⟨rfl, rfl⟩

theorem safe_viewLast {tl : Option (ATree (HLabel K V))} {ol : Option (HEntry K V)} (h : OptRel ewhIs tl ol) {t : ATree (HLabel K V)}
    (hin : ∀ s, tl = some s → Sub s t) (ht : .ptr t ∈ ρ) :
    Safe A D (fun r σ => r = ol ∧ σ = ρ) (viewLast (tl.map ATree.addr)) ρ := by
  cases h with
  | none => exact Safe.ret ⟨rfl, rfl⟩
  | @some s x h =>
    obtain ⟨te, g1, g2, g3⟩ := h
    have hs := hin _ rfl
    refine Safe.bind (safe_readEwh g1 g2 hs ht) ?_
    rintro _ _ ⟨rfl, rfl⟩
    refine Safe.bind (safe_viewEnt (s := te) ⟨rfl, rfl, g3⟩ (.kid hs (by rw [g2]; simp)) ht) ?_
    rintro _ _ ⟨rfl, rfl⟩
    exact Safe.ret ⟨rfl, rfl⟩

theorem safe_hview (fuel : Nat) {t : ATree (HLabel K V)} (ht : .ptr t ∈ ρ) {n : HNode K V} {s : ATree (HLabel K V)} (hs : Sub s t)
    (hf : Shallow fuel n) (h : IsN n s) : Safe A D (fun r σ => r = n ∧ σ = ρ) (hview fuel s.addr) ρ := by
  induction fuel generalizing n s with
  | zero => cases hf
  | succ fuel ih =>
    refine Safe.bind (safe_readNode h hs ht) ?_
    rintro hn _ ⟨⟨τ, h1, h2⟩, rfl⟩
    cases h1 with
    | @branch bm arr ts h3 =>
      refine Safe.bind (safe_forAll (bs := arr) (R := fun p n => ∃ u ∈ ts, p = u.addr ∧ n ∈ arr ∧ IsN n u) ?_ ?_) ?_
      · exact f2_map_left (f2_imp (f2_mem h3) fun u n hu h => ⟨u, hu, rfl, h.2⟩)
      · rintro p n hp ⟨u, hu, rfl, hn, hun⟩
        exact ih (.kid hs (h2 u (List.mem_map_of_mem hu))) (hf n hn) hun
      · rintro _ _ ⟨rfl, rfl⟩
        exact Safe.ret ⟨rfl, rfl⟩
    | @single e x te h3 =>
      refine Safe.bind (safe_viewEnt h3 (.kid hs (h2 te (by simp))) ht) ?_
      rintro _ _ ⟨rfl, rfl⟩
      exact Safe.ret ⟨rfl, rfl⟩
    | @collision l r _ h3 =>
      obtain ⟨⟨th, tl, rfl, rfl, k1, k2⟩, k3⟩ := h3
      refine Safe.bind (safe_viewLink k1 (t := t) ?_ ht (n := r.length) (by omega)) ?_
      · rintro u rfl
        exact .kid hs (h2 u (by simp [optPtr]))
      rintro _ _ ⟨rfl, rfl⟩
      refine Safe.bind (safe_viewLast k2 (t := t) ?_ ht) ?_
      · rintro u rfl
        exact .kid hs (h2 u (by simp [optPtr]))
      rintro _ _ ⟨rfl, rfl⟩
      exact Safe.ret ⟨rfl, rfl⟩

end HT
end Heap
end Rpds
