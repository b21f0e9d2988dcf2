import Verif.Heap.InPlace
import Verif.Heap.SharedLinear
/-
Lists, stacks and queues work in place.

An element can have two pointers to it: from its node, and from `last`.  The nodes have one each, and that is what matters: the uniqueness
tests are all on nodes.  `Alone` is `WP` with the items owned, as in `Safe`, because whether a pointer leads to a node is known from there.
-/
set_option autoImplicit false
namespace Rpds
namespace Heap
variable {T : Type}

/-- All nodes have exactly one pointer to them. -/
def NodesSingle (m : Mem (LinLabel T)) : Prop := ∀ a n cs, get m a = .closed n .node cs → n = 1

theorem NodesSingle.empty : NodesSingle ([] : Mem (LinLabel T)) := by
  intro a n cs h
  simp [get] at h

theorem NodesSingle.put {m : Mem (LinLabel T)} (u : NodesSingle m) {a : Addr} {c : Cell (LinLabel T)}
    (hc : ∀ n cs, c = .closed n .node cs → n = 1) : NodesSingle (put m a c) := by
  intro b n cs e
  rw [get_put] at e
  split at e
  · exact hc _ _ e
  · exact u b n cs e

theorem NodesSingle.drops {ps : List Addr} {m m' : Mem (LinLabel T)} (d : Drops ps m m') (u : NodesSingle m) : NodesSingle m' := by
  induction d with
  | nil h => exact u
  | @cons p ps cs h h₁ h₂ e ds ih =>
    refine ih ?_
    unfold decr at e
    split at e
    · next n l cs' hg =>
      split at e
      · cases e
        exact u.put (by simp)
      · next hn =>
        cases e
        refine u.put ?_
        rintro n' cs'' h
        cases h
        exact absurd (u _ _ _ hg) hn
    · cases e

/-- Dropping pointers that are held. -/
theorem Own.drops {L : Type} {m m' : Mem L} : ∀ {ps : List Addr} (_ : Drops ps m m') {ts : List (ATree L)} {F : List (Item L)},
    ts.map ATree.addr = ps → Own m (ts.map .ptr ++ F) → Own m' F := by
  intro ps d
  induction d with
  | nil h => intro ts F e ho; simpa [List.map_eq_nil_iff.1 e] using ho
  | @cons p ps cs h h₁ h₂ e ds ih =>
    intro ts F e' ho
    cases ts with
    | nil => cases e'
    | cons t ts =>
      simp only [List.map_cons, List.cons.injEq] at e'
      obtain ⟨rfl, rfl⟩ := e'
      simp only [List.map_cons, List.cons_append] at ho
      have hv : Val h t := ho.val t (by simp)
      obtain ⟨n, hg, -⟩ := ho.mem_ptr_closed hv
      unfold Heap.decr at e
      rw [hg] at e
      simp only at e
      split at e
      · next hn =>
        subst hn
        cases e
        have h2 := Own.release (σ := []) ho hg (.inl ⟨rfl, rfl⟩)
        exact ih (ts := t.kids ++ ts) (by simp) (by simpa using h2)
      · next hn =>
        cases e
        exact ih rfl (ho.decr hg hn)

section alone
variable {A : Allocator (LinLabel T)} {E : LinLabel T → Bool} {α β : Type} {c d : Nat}

/-- `prog`, running alone with the items `ρ` in a memory where all nodes have one pointer to them, is not changed by being watched; it allocates
at most `c` cells, and its answer and its items satisfy `Q`. -/
def Alone (A : Allocator (LinLabel T)) (E : LinLabel T → Bool) (Q : α → List (Item (LinLabel T)) → Prop) (c : Nat) (prog : Prog (LinLabel T) α)
    (ρ : List (Item (LinLabel T))) : Prop :=
  ∀ k m F, Own m (ρ ++ F) → NodesSingle m →
    WP A E (fun r n m' => k ≤ n ∧ NodesSingle m' ∧ ∃ σ, Own m' (σ ++ F) ∧ Q r σ) prog (k + c) m

theorem Alone.perm {Q : α → List (Item (LinLabel T)) → Prop} {prog : Prog (LinLabel T) α} {ρ σ : List (Item (LinLabel T))}
    (h : Alone A E Q c prog ρ) (hp : σ.Perm ρ) : Alone A E Q c prog σ :=
  fun k m F ho hn => h k m F (ho.perm (hp.append_right F)) hn

theorem Alone.imp {Q R : α → List (Item (LinLabel T)) → Prop} {prog : Prog (LinLabel T) α} {ρ : List (Item (LinLabel T))}
    (h : Alone A E Q c prog ρ) (hq : ∀ r σ, Q r σ → R r σ) : Alone A E R c prog ρ :=
  fun k m F ho hn => (h k m F ho hn).imp fun _ _ _ ⟨h1, h2, σ, h3, h4⟩ => ⟨h1, h2, σ, h3, hq _ _ h4⟩

theorem Alone.le {Q : α → List (Item (LinLabel T)) → Prop} {prog : Prog (LinLabel T) α} {ρ : List (Item (LinLabel T))}
    (h : Alone A E Q c prog ρ) (hd : c ≤ d) : Alone A E Q d prog ρ := by
  intro k m F ho hn
  have := h (k + (d - c)) m F ho hn
  rw [show k + (d - c) + c = k + d by omega] at this
  exact this.imp fun _ _ _ ⟨h1, h2⟩ => ⟨by omega, h2⟩

theorem Alone.bind {Q : α → List (Item (LinLabel T)) → Prop} {R : β → List (Item (LinLabel T)) → Prop} {prog : Prog (LinLabel T) α}
    {f : α → Prog (LinLabel T) β} {ρ : List (Item (LinLabel T))} (h : Alone A E Q c prog ρ)
    (hf : ∀ r σ, Q r σ → Alone A E R d (f r) σ) : Alone A E R (c + d) (prog.bind f) ρ := by
  intro k m F ho hn
  refine WP.bind ?_
  have := h (k + d) m F ho hn
  rw [show k + (c + d) = k + d + c by omega]
  refine this.imp ?_
  rintro r n m' ⟨h1, h2, σ, h3, h4⟩
  obtain ⟨j, rfl⟩ := Nat.exists_eq_add_of_le h1
  have := hf r σ h4 (k + j) m' F h3 h2
  rw [show k + d + j = k + j + d by omega]
  exact this.imp fun _ _ _ ⟨h1, h2⟩ => ⟨by omega, h2⟩

/-- Sequential composition with a first part that allocates nothing. -/
theorem Alone.bind0 {Q : α → List (Item (LinLabel T)) → Prop} {R : β → List (Item (LinLabel T)) → Prop} {prog : Prog (LinLabel T) α}
    {f : α → Prog (LinLabel T) β} {ρ : List (Item (LinLabel T))} (h : Alone A E Q 0 prog ρ)
    (hf : ∀ r σ, Q r σ → Alone A E R d (f r) σ) : Alone A E R d (prog.bind f) ρ := by
  simpa using h.bind hf

theorem Alone.frame {Q : α → List (Item (LinLabel T)) → Prop} {prog : Prog (LinLabel T) α} {ρ : List (Item (LinLabel T))}
    (h : Alone A E Q c prog ρ) (R : List (Item (LinLabel T))) : Alone A E (fun r σ => ∃ τ, σ = τ ++ R ∧ Q r τ) c prog (ρ ++ R) := by
  intro k m F ho hn
  rw [List.append_assoc] at ho
  exact (h k m _ ho hn).imp fun _ _ _ ⟨h1, h2, σ, h3, h4⟩ => ⟨h1, h2, σ ++ R, by rw [List.append_assoc]; exact h3, σ, rfl, h4⟩

theorem Alone.bindFrame {Q : α → List (Item (LinLabel T)) → Prop} {R : β → List (Item (LinLabel T)) → Prop} {prog : Prog (LinLabel T) α}
    {f : α → Prog (LinLabel T) β} {ρ σ F : List (Item (LinLabel T))} (h : Alone A E Q c prog ρ) (hp : σ.Perm (ρ ++ F))
    (hf : ∀ r τ, Q r τ → Alone A E R d (f r) (τ ++ F)) : Alone A E R (c + d) (prog.bind f) σ :=
  ((h.frame F).perm hp).bind fun r τ h => by
    obtain ⟨υ, rfl, h2⟩ := h
    exact hf r υ h2

theorem Alone.bindFrame0 {Q : α → List (Item (LinLabel T)) → Prop} {R : β → List (Item (LinLabel T)) → Prop} {prog : Prog (LinLabel T) α}
    {f : α → Prog (LinLabel T) β} {ρ σ F : List (Item (LinLabel T))} (h : Alone A E Q 0 prog ρ) (hp : σ.Perm (ρ ++ F))
    (hf : ∀ r τ, Q r τ → Alone A E R d (f r) (τ ++ F)) : Alone A E R d (prog.bind f) σ := by
  simpa using h.bindFrame hp hf

theorem alone_ret {Q : α → List (Item (LinLabel T)) → Prop} {r : α} {ρ σ : List (Item (LinLabel T))} (h : Q r σ) (hp : ρ.Perm σ) :
    Alone A E Q c (.ret r) ρ :=
  fun k m F ho hn => ⟨by omega, hn, σ, ho.perm (hp.append_right F), h⟩

theorem alone_new (l : LinLabel T) (ts : List (ATree (LinLabel T))) :
    Alone A E (fun a ρ => ρ = [.ptr (.node a l ts)]) 1 (new l (ts.map ATree.addr)) (ts.map .ptr) := by
  intro k m F ho hn
  refine .inr ⟨rfl, by simp [Act.cells], rfl, by simp [Act.cells], hn.put ?_, [.ptr (.node (A.pick m) l ts)], ho.new (A.fresh m) l, rfl⟩
  rintro n cs h
  cases h
  rfl

theorem alone_read {s t : ATree (LinLabel T)} (hs : Sub s t) {ρ : List (Item (LinLabel T))} (ht : .ptr t ∈ ρ) :
    Alone A E (fun c σ => c = (s.label, s.kids.map ATree.addr) ∧ σ = ρ) 0 (read s.addr) ρ := by
  intro k m F ho hn
  have hv : Val m s := hs.val (ho.val t (by simp [ht]))
  obtain ⟨n, e, -⟩ := ho.mem_ptr_closed hv
  show WP A E _ (.op (.read s.addr) .ret) _ _
  simp only [WP, act, e]
  exact .inr ⟨rfl, by simp [Act.cells], rfl, by simp [Act.cells], hn, ρ, ho, by simp⟩

/-- Cloning a pointer to an element. -/
theorem alone_clone {s t : ATree (LinLabel T)} (hs : Sub s t) {ρ : List (Item (LinLabel T))} (ht : .ptr t ∈ ρ) (hl : s.label ≠ .node) :
    Alone A E (fun _ σ => σ = .ptr s :: ρ) 0 (clone s.addr) ρ := by
  intro k m F ho hn
  have hv : Val m s := hs.val (ho.val t (by simp [ht]))
  obtain ⟨n, e, -⟩ := ho.mem_ptr_closed hv
  show WP A E _ (.op (.clone s.addr) .ret) _ _
  simp only [WP, act, e]
  refine .inr ⟨rfl, by simp [Act.cells], rfl, by simp [Act.cells], hn.put ?_, .ptr s :: ρ, ho.clone hv e, rfl⟩
  rintro n cs h
  simp only [Cell.closed.injEq] at h
  exact absurd h.2.1 hl

theorem alone_drop {t : ATree (LinLabel T)} {ρ : List (Item (LinLabel T))} :
    Alone A E (fun _ σ => σ = ρ) 0 (drop t.addr) (.ptr t :: ρ) := by
  intro k m F ho hn m' d
  exact ⟨by omega, hn.drops d, ρ, ho.drops d (ts := [t]) rfl, rfl⟩

theorem alone_dropOpt {o : Option (ATree (LinLabel T))} {ρ : List (Item (LinLabel T))} :
    Alone A E (fun _ σ => σ = ρ) 0 (dropOpt (o.map ATree.addr)) (optPtr o ++ ρ) := by
  cases o with
  | none => exact alone_ret rfl (.refl _)
  | some t => exact alone_drop

/-- `make_mut` on a node. -/
theorem alone_makeMut (t : ATree (LinLabel T)) (hl : t.label = .node) :
    Alone A E (fun r σ => r.2 = (t.label, t.kids.map ATree.addr) ∧ σ = .opn r.1 :: t.kids.map .ptr) 0 (makeMut t.addr) [.ptr t] := by
  intro k m F ho hn
  have hv : Val m t := ho.val t (by simp)
  obtain ⟨n, e, -⟩ := ho.mem_ptr_closed hv
  obtain rfl : n = 1 := hn _ _ _ (by rw [e, hl])
  show WP A E _ (.op (.tryOpen t.addr) _) _ _
  simp only [WP, act, e, if_true]
  refine .inr ⟨rfl, by simp [Act.cells], rfl, by simp [Act.cells], hn.put (by simp), .opn t.addr :: t.kids.map .ptr, ?_, rfl, rfl⟩
  have := Own.release (σ := [.opn t.addr]) ho e (.inr ⟨rfl, rfl⟩)
  simpa using this

/-- `try_unwrap` of a node. -/
theorem alone_tryTake (t : ATree (LinLabel T)) (hl : t.label = .node) :
    Alone A E (fun r σ => r = some (t.label, t.kids.map ATree.addr) ∧ σ = t.kids.map .ptr) 0 (tryTake t.addr) [.ptr t] := by
  intro k m F ho hn
  have hv : Val m t := ho.val t (by simp)
  obtain ⟨n, e, -⟩ := ho.mem_ptr_closed hv
  obtain rfl : n = 1 := hn _ _ _ (by rw [e, hl])
  show WP A E _ (.op (.tryTake t.addr) .ret) _ _
  simp only [WP, act, e, if_true]
  refine .inr ⟨rfl, by simp [Act.cells], rfl, by simp [Act.cells], hn.put (by simp), t.kids.map .ptr, ?_, by simp⟩
  have := Own.release (σ := []) ho e (.inl ⟨rfl, rfl⟩)
  simpa using this

theorem alone_close (a : Addr) (l : LinLabel T) (ts : List (ATree (LinLabel T))) :
    Alone A E (fun _ σ => σ = [.ptr (.node a l ts)]) 0 (close a l (ts.map ATree.addr)) (.opn a :: ts.map .ptr) := by
  intro k m F ho hn
  obtain ⟨e, h1⟩ := Own.close (F := F) (by simpa using ho) l
  show WP A E _ (.op (.close a l _) .ret) _ _
  simp only [WP, act, e]
  refine .inr ⟨rfl, by simp [Act.cells], rfl, by simp [Act.cells], hn.put ?_, [.ptr (.node a l ts)], h1, rfl⟩
  rintro n cs h
  cases h
  rfl

theorem wp_readsOnly {L : Type} {A : Allocator L} {E : L → Bool} {prog : Prog L α} (h : prog.ReadsOnly) {n : Nat} {m : Mem L} {J : Mem L → Prop}
    (hj : J m) : WP A E (fun _ _ m => J m) prog n m := by
  induction prog generalizing n with
  | ret r => exact hj
  | panic => trivial
  | drop p k ih => exact h.elim
  | op a k ih =>
    cases a with
    | read p =>
      simp only [WP, act]
      split
      · trivial
      · next x m' e =>
        split at e
        · cases e
          exact .inr ⟨rfl, by simp [Act.cells], rfl, ih _ (h _)⟩
        · cases e
    | _ => exact h.elim

/-- The successor of a node is cloned and the node is dropped. -/
theorem alone_next {a : Addr} {tv tn : ATree (LinLabel T)} {v : T} (hv : linDec tv v) (hn : tn.label = .node)
    {ρ : List (Item (LinLabel T))} :
    Alone A E (fun _ σ => σ = .ptr tn :: ρ) 0 ((clone tn.addr).bind fun _ => drop a) (.ptr (.node a .node [tv, tn]) :: ρ) := by
  intro k m F ho hns
  have hval : Val m (.node a .node [tv, tn]) := ho.val _ (by simp)
  have hvv : Val m tv := val_kids hval _ (by simp [ATree.kids])
  have hvn : Val m tn := val_kids hval _ (by simp [ATree.kids])
  obtain ⟨n0, e0, -⟩ := ho.mem_ptr_closed hval
  obtain ⟨n1, e1, -⟩ := ho.mem_ptr_closed hvv
  obtain ⟨n2, e2, -⟩ := ho.mem_ptr_closed hvn
  have hne : tn.addr ≠ a := val_kid_ne hval (by simp [ATree.kids])
  have hne' : tv.addr ≠ a := val_kid_ne hval (by simp [ATree.kids])
  obtain rfl : n0 = 1 := hns _ _ _ e0
  obtain rfl : n2 = 1 := hns _ _ _ (by rw [e2, hn])
  have hvt : tv.addr ≠ tn.addr := by
    intro h
    rw [h, e2, hn, hv.1] at e1
    cases e1
  have hc := ho.clone hvn e2
  show WP A E _ (.op (.clone tn.addr) _) _ _
  simp only [WP, act, e2]
  refine .inr ⟨rfl, by simp [Act.cells], rfl, ?_⟩
  intro m' hd
  refine ⟨by simp [Act.cells], ?_, .ptr tn :: ρ, ?_, rfl⟩
  · replace e0 : get m a = .closed 1 .node [tv.addr, tn.addr] := e0
    rw [hv.1, hv.2] at e1
    simp only [List.map_nil] at e1
    cases hd with
    | cons d1 ds1 =>
      simp only [decr, get_put, if_neg hne.symm, e0, if_true, Except.ok.injEq, Prod.mk.injEq] at d1
      obtain ⟨rfl, rfl⟩ := d1
      cases ds1 with
      | cons d2 ds2 =>
        simp only [decr, get_put, if_neg hne', if_neg hvt, e1] at d2
        have key : ∀ c : Cell (LinLabel T), (∀ n cs, c ≠ .closed n .node cs) →
            Drops [tn.addr] (Heap.put (Heap.put (Heap.put m tn.addr (.closed (1 + 1) tn.label (tn.kids.map ATree.addr))) a .free) tv.addr c) m' →
            NodesSingle m' := by
          intro c hc ds
          cases ds with
          | cons d3 ds3 =>
            simp only [decr, get_put, if_neg hvt.symm, if_neg hne, if_true] at d3
            cases d3
            cases ds3
            intro b n cs hb
            simp only [get_put] at hb
            split at hb
            · simp only [Cell.closed.injEq] at hb
              exact hb.1.symm
            split at hb
            · exact absurd hb (hc _ _)
            split at hb
            · cases hb
            exact hns _ _ _ hb
        split at d2
        · cases d2
          exact key _ (by simp) ds2
        · cases d2
          exact key _ (by simp) ds2
  · exact Own.drops (ts := [.node a .node [tv, tn]]) (F := .ptr tn :: ρ ++ F) hd rfl (hc.perm (List.Perm.swap _ _ _))

end alone

/-! ### Lists -/

section
variable {A : Allocator (LinLabel T)} {E : LinLabel T → Bool}

theorem linDec.label_ne {t : ATree (LinLabel T)} {v : T} (h : linDec t v) : t.label ≠ .node := by
  rw [h.1]
  simp

namespace HList

theorem alone_readNode {s t tv : ATree (LinLabel T)} {tn : Option (ATree (LinLabel T))} {a : Addr} {ρ : List (Item (LinLabel T))}
    (e : s = .node a .node (tv :: tn.toList)) (hs : Sub s t) (ht : .ptr t ∈ ρ) :
    Alone A E (fun r σ => r = (tv.addr, tn.map ATree.addr) ∧ σ = ρ) 0 (readNode s.addr) ρ := by
  refine Alone.bind0 (alone_read hs ht) ?_
  rintro c σ ⟨rfl, rfl⟩
  subst e
  cases tn <;> exact alone_ret ⟨rfl, rfl⟩ (.refl _)

theorem alone_dropFirstMut {l : HList} {r : RList T} {ρ : List (Item (LinLabel T))} (h : l.Is .node linDec r ρ)
    (hl : r.head.toList.length = r.length) {b : Bool} {r' : RList T} (he : r.dropFirstMut = .ok (b, r')) :
    Alone A E (fun x σ => x.1 = b ∧ x.2.Is .node linDec r' σ) 0 l.dropFirstMut ρ := by
  obtain ⟨th, tl, rfl, rfl, h1, h2⟩ := h
  obtain ⟨hd, la, len⟩ := r
  simp only at h1 h2 hl
  cases h1 with
  | none =>
    simp only [RList.dropFirstMut] at he
    cases he
    exact alone_ret ⟨rfl, none, tl, rfl, rfl, .none, h2⟩ (.refl _)
  | @some a tv tn v next hv hn =>
    simp only [Link.toList, List.length_cons] at hl
    subst hl
    simp only [RList.dropFirstMut, csub_succ_one, Res.ok_bind] at he
    cases he
    refine Alone.bind0 (alone_readNode (s := .node a .node (tv :: tn.toList)) rfl (.refl _) (by simp)) ?_
    rintro c σ ⟨rfl, rfl⟩
    simp only
    cases hn with
    | none =>
      refine Alone.bind0 (Q := fun _ σ => σ = optPtr (some (.node a .node [tv])) ++ optPtr tl) (alone_ret rfl (.refl _)) ?_
      rintro _ _ rfl
      simp only [Link.toList, List.length_nil, csub_succ_one, beq_self_eq_true, if_true]
      refine Alone.bind0 (Q := fun la' σ => la' = none ∧ σ = [.ptr (.node a .node [tv])]) ?_ ?_
      · refine Alone.bindFrame0 (ρ := optPtr tl ++ []) (F := [.ptr (.node a .node [tv])]) alone_dropOpt ?_ ?_
        · simp only [optPtr_some]; perm_tac
        · rintro _ _ rfl
          exact alone_ret ⟨rfl, rfl⟩ (.refl _)
      rintro _ _ ⟨rfl, rfl⟩
      refine Alone.bind0 (alone_drop (t := .node a .node [tv])) ?_
      rintro _ _ rfl
      exact alone_ret ⟨rfl, none, none, rfl, rfl, .none, .none⟩ (.refl _)
    | @some a' tv' tn' v' next' hv' hn' =>
      have key := (alone_next (A := A) (E := E) (a := a) (tn := .node a' .node (tv' :: tn'.toList)) (ρ := optPtr tl) hv rfl).bind0
        (d := 0) (R := fun x σ => x.1 = true ∧ x.2.Is .node linDec ⟨.some v' next', la, next'.toList.length + 1⟩ σ)
        (f := fun _ => .ret (true, (⟨some a', tl.map ATree.addr, next'.toList.length + 1⟩ : HList))) (by
          rintro _ _ rfl
          exact alone_ret ⟨rfl, some (.node a' .node (tv' :: tn'.toList)), tl, rfl, rfl, .some hv' hn', h2⟩ (.refl _))
      rw [Prog.bind_assoc] at key
      simp only [Link.toList, List.length_cons, csub_succ_one, Nat.add_eq_zero_iff, Nat.one_ne_zero, and_false, beq_iff_eq, if_false]
      exact key

theorem alone_pushFrontPtrMut {l : HList} {r : RList T} {ρ : List (Item (LinLabel T))} (h : l.Is .node linDec r ρ)
    {tv : ATree (LinLabel T)} {v : T} (hv : linDec tv v) :
    Alone A E (fun l' σ => l'.Is .node linDec (r.pushFrontPtrMut v) σ) 1 (l.pushFrontPtrMut .node tv.addr) (.ptr tv :: ρ) := by
  obtain ⟨th, tl, rfl, rfl, h1, h2⟩ := h
  obtain ⟨hd, la, len⟩ := r
  simp only at h1 h2
  refine Alone.bind0 (Q := fun la' σ => ∃ tl', la' = tl'.map ATree.addr ∧
    OptRel linDec tl' (if len == 0 then some v else la) ∧ σ.Perm (.ptr tv :: optPtr th ++ optPtr tl')) ?_ ?_
  · by_cases hl : len = 0
    · subst hl
      simp only [beq_self_eq_true, if_true]
      refine Alone.bind0 (alone_clone (.refl tv) (by simp) hv.label_ne) ?_
      rintro _ _ rfl
      refine Alone.bindFrame0 (ρ := optPtr tl ++ []) (F := .ptr tv :: .ptr tv :: optPtr th) alone_dropOpt ?_ ?_
      · perm_tac
      · rintro _ _ rfl
        refine alone_ret ⟨some tv, rfl, .some hv, ?_⟩ (.refl _)
        simp only [optPtr_some]; perm_tac
    · have hb : (len == 0) = false := by simpa using hl
      simp only [hb]
      refine alone_ret ⟨tl, rfl, h2, ?_⟩ (.refl _)
      perm_tac
  · rintro la' σ ⟨tl', rfl, h3, hp⟩
    simp only [nodePtrs_addr]
    refine Alone.bindFrame (d := 0) (F := optPtr tl') (alone_new .node (tv :: th.toList)) (by rw [ptr_node]; exact hp) ?_
    rintro q _ rfl
    exact alone_ret ⟨some (.node q .node (tv :: th.toList)), tl', rfl, rfl, .some hv h1, h3⟩ (.refl _)

theorem alone_pushFrontMut {l : HList} {r : RList T} {ρ : List (Item (LinLabel T))} (h : l.Is .node linDec r ρ) (v : T) :
    Alone A E (fun l' σ => l'.Is .node linDec (r.pushFrontMut v) σ) 2 (l.pushFrontMut .node (.val v)) ρ := by
  refine Alone.bindFrame (d := 1) (ρ := []) (F := ρ) (alone_new (.val v) []) (by simp) ?_
  rintro q _ rfl
  exact alone_pushFrontPtrMut h (tv := .node q (.val v) []) ⟨rfl, rfl⟩

theorem alone_reverseLoop {t : ATree (LinLabel T)} {R : List (Item (LinLabel T))} (ht : .ptr t ∈ R) (tn : Option (ATree (LinLabel T)))
    (next : Link T) (hn : IsLink .node linDec tn next) (hs : ∀ s, tn = some s → Sub s t) (fuel : Nat) (l : HList) (r : RList T)
    (ρ : List (Item (LinLabel T))) (h : l.Is .node linDec r ρ) :
    Alone A E (fun _ _ => True) fuel (reverseLoop .node fuel (tn.map ATree.addr) l) (ρ ++ R) := by
  induction hn generalizing fuel l r ρ with
  | none => cases fuel <;> exact alone_ret trivial (.refl _)
  | @some a tv tn v next hv hn ih =>
    cases fuel with
    | zero => exact fun _ _ _ _ _ => trivial
    | succ fuel =>
      have hsub := hs _ rfl
      refine Alone.bind0 (alone_readNode (s := .node a .node (tv :: tn.toList)) rfl hsub (by simp [ht])) ?_
      rintro c σ ⟨rfl, rfl⟩
      simp only
      refine Alone.bind0 (alone_clone (s := tv) (t := t) (.kid hsub (by simp [ATree.kids])) (by simp [ht]) hv.label_ne) ?_
      rintro _ _ rfl
      rw [Nat.add_comm]
      refine Alone.bindFrame (F := R) (alone_pushFrontPtrMut h hv) (by perm_tac) ?_
      intro l' τ h'
      refine ih ?_ fuel l' _ τ h'
      rintro s rfl
      exact .kid hsub (by simp [ATree.kids])

theorem alone_reverse {l : HList} {r : RList T} {ρ : List (Item (LinLabel T))} (h : l.Is .node linDec r ρ) :
    Alone A E (fun _ _ => True) l.length (l.reverse .node) ρ := by
  obtain ⟨th, tl, rfl, rfl, h1, h2⟩ := h
  cases th with
  | none =>
    generalize hr : r.head = hd at *
    cases h1
    simp only [reverse]
    cases r.length <;> exact alone_ret trivial (.refl _)
  | some t =>
    exact alone_reverseLoop (R := optPtr (some t) ++ optPtr tl) (t := t) (by simp) (some t) _ h1
      (by rintro s e; cases e; exact .refl t) r.length HList.new _ [] (is_new .node linDec)

theorem alone_reverseMutLoop (tc : Option (ATree (LinLabel T))) (cur : Link T) (hc : IsLink .node linDec tc cur) (fuel : Nat)
    (tp : Option (ATree (LinLabel T))) (prev : Link T) (hp : IsLink .node linDec tp prev) :
    Alone A E (fun p σ => ∃ t, p = t.map ATree.addr ∧ σ = optPtr t ∧ IsLink .node linDec t (RList.reverseLoop prev cur)) 0
      (reverseMutLoop fuel (tp.map ATree.addr) (tc.map ATree.addr)) (optPtr tp ++ optPtr tc) := by
  induction hc generalizing fuel tp prev with
  | none => cases fuel <;> exact alone_ret ⟨tp, rfl, by simp, hp⟩ (.refl _)
  | @some a tv tn v next hv hn ih =>
    cases fuel with
    | zero => exact fun _ _ _ _ _ => trivial
    | succ fuel =>
      refine Alone.bindFrame0 (F := optPtr tp) (alone_makeMut (.node a .node (tv :: tn.toList)) rfl)
        (by simp only [optPtr_some]; perm_tac) ?_
      rintro ⟨q, lab, cs⟩ τ ⟨e1, rfl⟩
      simp only [ATree.label, ATree.kids, Prod.mk.injEq] at e1
      obtain ⟨rfl, rfl⟩ := e1
      have key : Alone A E (fun p σ => ∃ t, p = t.map ATree.addr ∧ σ = optPtr t ∧
          IsLink .node linDec t (RList.reverseLoop prev (.some v next))) 0
          (Prog.bind (close q .node (nodePtrs tv.addr (tp.map ATree.addr))) fun _ =>
            reverseMutLoop fuel (some q) (tn.map ATree.addr))
          (.opn q :: .ptr tv :: optPtr tn ++ optPtr tp) := by
        rw [nodePtrs_addr]
        refine Alone.bindFrame0 (F := optPtr tn) (alone_close q .node (tv :: tp.toList)) ?_ ?_
        · rw [ptr_node]; perm_tac
        · rintro _ _ rfl
          exact ih fuel (some (.node q .node (tv :: tp.toList))) (.some v prev) (.some hv hp)
      cases tn with
      | none => exact key
      | some tn => exact key

theorem alone_reverseMut {l : HList} {r : RList T} {ρ : List (Item (LinLabel T))} (h : l.Is .node linDec r ρ) :
    Alone A E (fun l' σ => l'.Is .node linDec r.reverseMut σ) 0 l.reverseMut ρ := by
  obtain ⟨th, tl, rfl, rfl, h1, h2⟩ := h
  obtain ⟨hd, la, len⟩ := r
  simp only at h1 h2
  refine Alone.bind0 (Q := fun la' σ => ∃ tl', la' = tl'.map ATree.addr ∧
    OptRel linDec tl' (match hd with | .none => none | .some v _ => some v) ∧
    σ = optPtr tl' ++ (optPtr th ++ optPtr tl)) ?_ ?_
  · cases h1 with
    | none => exact alone_ret ⟨none, rfl, .none, rfl⟩ (.refl _)
    | @some a tv tn v next hv hn =>
      refine Alone.bind0 (alone_readNode (s := .node a .node (tv :: tn.toList)) rfl (.refl _) (by simp)) ?_
      rintro c σ ⟨rfl, rfl⟩
      simp only
      refine Alone.bind0 (alone_clone (s := tv) (t := .node a .node (tv :: tn.toList)) (Sub.of_kid (by simp [ATree.kids]))
        (by simp) hv.label_ne) ?_
      rintro _ _ rfl
      exact alone_ret ⟨some tv, rfl, .some hv, rfl⟩ (.refl _)
  · rintro la' _ ⟨tl', rfl, h3, rfl⟩
    refine Alone.bindFrame0 (ρ := optPtr tl ++ []) (F := optPtr th ++ optPtr tl') alone_dropOpt (by perm_tac) ?_
    rintro _ _ rfl
    refine Alone.bindFrame0 (F := optPtr tl') (alone_reverseMutLoop th hd h1 len none .none .none) (by simp) ?_
    rintro p _ ⟨t, rfl, rfl, h4⟩
    exact alone_ret ⟨t, tl', rfl, rfl, h4, h3⟩ (.refl _)

theorem alone_dropLoop (tc : Option (ATree (LinLabel T))) (cur : Link T) (hc : IsLink .node linDec tc cur) (fuel : Nat) :
    Alone A E (fun _ σ => σ = []) 0 (dropLoop fuel (tc.map ATree.addr)) (optPtr tc) := by
  induction hc generalizing fuel with
  | none => cases fuel <;> exact alone_ret rfl (.refl _)
  | @some a tv tn v next hv hn ih =>
    cases fuel with
    | zero => exact fun _ _ _ _ _ => trivial
    | succ fuel =>
      refine Alone.bind0 (alone_tryTake (.node a .node (tv :: tn.toList)) rfl) ?_
      rintro r σ ⟨rfl, rfl⟩
      simp only [ATree.label, ATree.kids]
      have key : Alone A E (fun _ σ => σ = []) 0 (Prog.bind (drop tv.addr) fun _ => dropLoop fuel (tn.map ATree.addr))
          (.ptr tv :: optPtr tn) := by
        refine Alone.bind0 alone_drop ?_
        rintro _ _ rfl
        exact ih fuel
      cases tn with
      | none => exact key
      | some tn => exact key

theorem alone_dropList {l : HList} {r : RList T} {ρ : List (Item (LinLabel T))} (h : l.Is .node linDec r ρ) :
    Alone A E (fun _ σ => σ = []) 0 l.dropList ρ := by
  obtain ⟨th, tl, rfl, rfl, h1, h2⟩ := h
  refine Alone.bindFrame0 (F := optPtr tl) (alone_dropLoop th r.head h1 r.length) (.refl _) ?_
  rintro _ _ rfl
  have := alone_dropOpt (A := A) (E := E) (o := tl) (ρ := [])
  simpa using this

end HList

theorem Alone.wp {α : Type} {Q : α → List (Item (LinLabel T)) → Prop} {c : Nat} {prog : Prog (LinLabel T) α} {ρ F : List (Item (LinLabel T))}
    (h : Alone A E Q c prog ρ) {m : Mem (LinLabel T)} (ho : Own m (ρ ++ F)) (hn : NodesSingle m) :
    WP A E (fun _ _ m => NodesSingle m) prog c m := by
  have := h 0 m F ho hn
  rw [Nat.zero_add] at this
  exact this.imp fun _ _ _ h => h.2.1

/-- The operations of `List` that do not share nodes. -/
def listInPlace : RList.Op T → Bool
  | .pushFront _ | .dropFirst | .clone => false
  | _ => true

/-- How many cells an operation on a list allocates at most. -/
def listCells (l : HList) : RList.Op T → Nat
  | .pushFrontMut _ => 2
  | .reverse => l.length
  | _ => 0

theorem wp_listHStep {l : HList} {xs : List T} {ρ F : List (Item (LinLabel T))} (h : ListIs l xs ρ) {op : RList.Op T}
    (ok : listInPlace op = true) {m : Mem (LinLabel T)} (ho : Own m (ρ ++ F)) (hn : NodesSingle m) :
    WP A E (fun _ _ m => NodesSingle m) (listHStep l op) (listCells l op) m := by
  obtain ⟨r, hi, hr⟩ := h
  have hl : r.head.toList.length = r.length := by rw [hr.head, hr.length]
  cases op with
  | pushFront v => cases ok
  | dropFirst => cases ok
  | clone => cases ok
  | pushFrontMut v =>
    exact (Alone.bind (d := 0) (HList.alone_pushFrontMut hi v) fun l' σ _ =>
      alone_ret (Q := fun _ _ => True) trivial (.refl _)).wp ho hn
  | dropFirstMut =>
    have key : ∀ b r', r.dropFirstMut = .ok (b, r') → WP A E (fun _ _ m => NodesSingle m) (listHStep l .dropFirstMut) 0 m := fun b r' he =>
      (Alone.bind (d := 0) (HList.alone_dropFirstMut hi hl he) fun l' σ _ =>
        alone_ret (Q := fun _ _ => True) trivial (.refl _)).wp ho hn
    cases xs with
    | nil => exact key _ _ hr.dropFirstMut_nil
    | cons x xs =>
      obtain ⟨r', h1, -⟩ := hr.dropFirstMut_cons
      exact key _ _ h1
  | reverse =>
    exact (Alone.bind (d := 0) (HList.alone_reverse hi) fun l' σ _ => alone_ret (Q := fun _ _ => True) trivial (.refl _)).wp ho hn
  | reverseMut =>
    exact (Alone.bind (d := 0) (HList.alone_reverseMut hi) fun l' σ _ =>
      alone_ret (Q := fun _ _ => True) trivial (.refl _)).wp ho hn
  | first =>
    refine wp_readsOnly (prog := listHStep l .first) ?_ hn
    exact (Prog.ReadsOnly.bind (HList.readsOnly_first l) fun _ => (readsOnly_readValOpt _).bind fun _ => trivial)
  | last =>
    refine wp_readsOnly (prog := listHStep l .last) ?_ hn
    exact Prog.ReadsOnly.bind (readsOnly_readValOpt _) fun _ => trivial
  | len => exact hn
  | isEmpty => exact hn
  | iter n =>
    refine wp_readsOnly (prog := listHStep l (.iter n)) ?_ hn
    refine Prog.ReadsOnly.bind ((readsOnly_viewLink _ _).bind fun _ => ?_) fun _ => trivial
    split <;> trivial

/-! ### Stacks and queues -/

/-- The operations of `Stack` that do not share nodes. -/
def stackInPlace : Stack.Op T → Bool
  | .push _ | .pop | .clone => false
  | _ => true

/-- How many cells an operation on a stack allocates at most. -/
def stackCells : Stack.Op T → Nat
  | .pushMut _ => 2
  | _ => 0

theorem wp_stackHStep {l : HList} {xs : List T} {ρ F : List (Item (LinLabel T))} (h : ListIs l xs ρ) {op : Stack.Op T}
    (ok : stackInPlace op = true) {m : Mem (LinLabel T)} (ho : Own m (ρ ++ F)) (hn : NodesSingle m) :
    WP A E (fun _ _ m => NodesSingle m) (stackHStep l op) (stackCells op) m := by
  cases op with
  | push v => cases ok
  | pop => cases ok
  | clone => cases ok
  | pushMut v => exact wp_listHStep h (op := .pushFrontMut v) rfl ho hn
  | popMut => exact wp_listHStep h (op := .dropFirstMut) rfl ho hn
  | peek => exact wp_listHStep h (op := .first) rfl ho hn
  | size => exact wp_listHStep h (op := .len) rfl ho hn
  | isEmpty => exact wp_listHStep h (op := .isEmpty) rfl ho hn
  | iter n => exact wp_listHStep h (op := .iter n) rfl ho hn

/-- The operations of `Queue` that do not share nodes. -/
def queueInPlace : Queue.Op T → Bool
  | .enqueue _ | .dequeue | .clone => false
  | _ => true

/-- How many cells an operation on a queue allocates at most. -/
def queueCells : Queue.Op T → Nat
  | .enqueueMut _ => 2
  | _ => 0

theorem alone_dequeueMut {q : HQueue} {r : Queue T} {ρ : List (Item (LinLabel T))} (h : q.Is r ρ) {b : Bool} {r' : Queue T}
    (he : r.dequeueMut = .ok (b, r')) : Alone A E (fun _ _ => True) 0 q.dequeueMut ρ := by
  obtain ⟨ρ₁, ρ₂, rfl, h1, h2, h3, h4⟩ := h
  obtain ⟨ql, qo⟩ := q
  obtain ⟨rl, ro⟩ := r
  simp only at h1 h2 h3 h4
  have e1 := h1.length
  have e2 := h2.length
  unfold Queue.dequeueMut at he
  unfold HQueue.dequeueMut
  simp only [RList.isEmpty, RList.len] at he
  simp only [e1, e2]
  by_cases ho : ro.length = 0
  · simp only [ho, beq_self_eq_true, Bool.not_true, Bool.false_eq_true, if_false] at he ⊢
    by_cases hi : rl.length = 0
    · simp only [hi, beq_self_eq_true, Bool.not_true, Bool.false_eq_true, if_false]
      exact alone_ret trivial (.refl _)
    · have hb : (rl.length == 0) = false := by simpa using hi
      simp only [hb, Bool.not_false, if_true] at he ⊢
      cases hd : rl.reverseMut.dropFirstMut with
      | error e => simp [hd] at he
      | ok y =>
        obtain ⟨b', l'⟩ := y
        refine Alone.bindFrame0 (F := ρ₂) (HList.alone_reverseMut h1) (.refl _) ?_
        intro l1 τ h1'
        refine Alone.bindFrame0 (F := ρ₂) (HList.alone_dropFirstMut h1' (length_reverseMut h3) hd) (.refl _) ?_
        intro _ _ _
        exact alone_ret trivial (.refl _)
  · have hb : (ro.length == 0) = false := by simpa using ho
    simp only [hb, Bool.not_false, if_true] at he ⊢
    cases hd : ro.dropFirstMut with
    | error e => simp [hd] at he
    | ok y =>
      obtain ⟨b', l'⟩ := y
      refine Alone.bindFrame0 (F := ρ₁) (HList.alone_dropFirstMut h2 h4 hd) List.perm_append_comm ?_
      intro _ _ _
      exact alone_ret trivial (.refl _)

theorem alone_dropQueue {q : HQueue} {r : Queue T} {ρ : List (Item (LinLabel T))} (h : q.Is r ρ) :
    Alone A E (fun _ σ => σ = []) 0 q.dropQueue ρ := by
  obtain ⟨ρ₁, ρ₂, rfl, h1, h2, h3, h4⟩ := h
  refine Alone.bindFrame0 (F := ρ₂) (HList.alone_dropList h1) (.refl _) ?_
  rintro _ _ rfl
  exact HList.alone_dropList h2

theorem wp_queueHStep {q : HQueue} {xs : List T} {ρ F : List (Item (LinLabel T))} (h : QueueIs q xs ρ) {op : Queue.Op T}
    (ok : queueInPlace op = true) {m : Mem (LinLabel T)} (ho : Own m (ρ ++ F)) (hn : NodesSingle m) :
    WP A E (fun _ _ m => NodesSingle m) (queueHStep q op) (queueCells op) m := by
  obtain ⟨r, hi, hr⟩ := h
  cases op with
  | enqueue v => cases ok
  | dequeue => cases ok
  | clone => cases ok
  | enqueueMut v =>
    obtain ⟨ρ₁, ρ₂, rfl, h1, h2, h3, h4⟩ := hi
    have h5 : Alone A E (fun _ _ => True) (2 + 0) (q.enqueueMut v) (ρ₁ ++ ρ₂) :=
      Alone.bindFrame (F := ρ₂) (HList.alone_pushFrontMut h1 v) (.refl _) fun _ _ _ => alone_ret trivial (.refl _)
    exact (Alone.bind (d := 0) h5 fun l' σ _ => alone_ret (Q := fun _ _ => True) trivial (.refl _)).wp ho hn
  | dequeueMut =>
    have key : ∀ b r', r.dequeueMut = .ok (b, r') → WP A E (fun _ _ m => NodesSingle m) (queueHStep q .dequeueMut) 0 m := fun b r' he =>
      (Alone.bind (d := 0) (alone_dequeueMut hi he) fun l' σ _ => alone_ret (Q := fun _ _ => True) trivial (.refl _)).wp ho hn
    cases xs with
    | nil => exact key _ _ hr.dequeueMut_nil
    | cons x xs =>
      obtain ⟨r', h1, -⟩ := hr.dequeueMut_cons
      exact key _ _ h1
  | peek =>
    refine wp_readsOnly (prog := queueHStep q .peek) ?_ hn
    refine Prog.ReadsOnly.bind ?_ fun _ => (readsOnly_readValOpt _).bind fun _ => trivial
    unfold HQueue.peek
    split
    · exact HList.readsOnly_first _
    · trivial
  | len => exact hn
  | isEmpty => exact hn
  | iter n =>
    refine wp_readsOnly (prog := queueHStep q (.iter n)) ?_ hn
    refine Prog.ReadsOnly.bind ((readsOnly_viewLink _ _).bind fun _ => (readsOnly_viewLink _ _).bind fun _ => ?_) fun _ => trivial
    dsimp only
    split <;> trivial

/-- Lists work in place. -/
theorem listImpl_inPlace (A : Allocator (LinLabel T)) (E : LinLabel T → Bool) :
    (listImpl T).InPlace A E ListIs NodesSingle (fun op => listInPlace op = true) 0 listCells where
  new _ _ _ u := u
  step _ _ _ _ ok h _ _ ho u := wp_listHStep h ok ho u
  drop _ _ _ h _ _ ho u := by
    obtain ⟨r, hi, -⟩ := h
    exact (HList.alone_dropList hi).wp ho u

/-- Stacks work in place. -/
theorem stackImpl_inPlace (A : Allocator (LinLabel T)) (E : LinLabel T → Bool) :
    (stackImpl T).InPlace A E ListIs NodesSingle (fun op => stackInPlace op = true) 0 (fun _ => stackCells) where
  new _ _ _ u := u
  step _ _ _ _ ok h _ _ ho u := wp_stackHStep h ok ho u
  drop _ _ _ h _ _ ho u := by
    obtain ⟨r, hi, -⟩ := h
    exact (HList.alone_dropList hi).wp ho u

/-- Queues work in place. -/
theorem queueImpl_inPlace (A : Allocator (LinLabel T)) (E : LinLabel T → Bool) :
    (queueImpl T).InPlace A E QueueIs NodesSingle (fun op => queueInPlace op = true) 0 (fun _ => queueCells) where
  new _ _ _ u := u
  step _ _ _ _ ok h _ _ ho u := wp_queueHStep h ok ho u
  drop _ _ _ h _ _ ho u := by
    obtain ⟨r, hi, -⟩ := h
    exact (alone_dropQueue hi).wp ho u

end

end Heap
end Rpds
