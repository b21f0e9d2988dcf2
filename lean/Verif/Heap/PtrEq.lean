import Verif.Heap.HashTrieSpec
import Verif.Heap.System
/-
`ptr_eq` of maps on the heap: what a cell stands for is determined by its address.
-/
set_option autoImplicit false
namespace Rpds
namespace Heap

section
variable {L H Op Ret σ : Type} {R : H → σ → List (Item L) → Prop}

/-- A live handle stands for its value and owns some of the items. -/
theorem Handles.at {hs : List (Option H)} {ss : List (Option σ)} {ρ : List (Item L)} (h : Handles R hs ss ρ) {i : Nat} {x : H} {s : σ}
    (hx : hs[i]? = some (some x)) (hs' : ss[i]? = some (some s)) : ∃ ρ₁ ρ₂, R x s ρ₁ ∧ ρ.Perm (ρ₁ ++ ρ₂) := by
  rcases h.get i with ⟨x', s', ρ₁, ρ₂, h1, h2, h3, h4, -⟩ | ⟨h1, -⟩
  · rw [hx] at h1
    rw [hs'] at h2
    cases h1; cases h2
    exact ⟨ρ₁, ρ₂, h3, h4⟩
  · exact absurd hx (h1 x)

end

/-! ### What a cell stands for -/

theorem OptRel.unique {α β : Type} {S : α → β → Prop} (hd : ∀ a b b', S a b → S a b' → b = b') {a : Option α} {b b' : Option β}
    (h : OptRel S a b) (h' : OptRel S a b') : b = b' := by
  cases h with
  | none => cases h'; rfl
  | some h => cases h' with | some h' => rw [hd _ _ _ h h']

theorem IsLink.unique {L T : Type} {nd : L} {dec : ATree L → T → Prop} (hd : ∀ t x y, dec t x → dec t y → x = y)
    {t : Option (ATree L)} {l l' : Link T} (h : IsLink nd dec t l) (h' : IsLink nd dec t l') : l = l' := by
  induction h generalizing l' with
  | none => cases h'; rfl
  | @some a tv tn v next hv hn ih =>
    generalize ht : Option.some (ATree.node a nd (tv :: tn.toList)) = t' at h'
    cases h' with
    | none => cases ht
    | @some a' tv' tn' v' next' hv' hn' =>
      simp only [Option.some.injEq, ATree.node.injEq, List.cons.injEq, true_and] at ht
      obtain ⟨-, rfl, ht⟩ := ht
      have : tn = tn' := by cases tn <;> cases tn' <;> simp_all
      subst this
      rw [hd _ _ _ hv hv', ih hn']

/-- `RedBlackTreeMap::ptr_eq` (red_black_tree_map/mod.rs:902-914): the roots are the same cell, or there is none in either map. -/
def HRBMap.ptrEq (a b : HRBMap) : Bool := a.root == b.root

section
variable {K V Q : Type}

theorem entIs.unique {t : ATree (RLabel K V)} {e e' : K × V} (h : entIs t e) (h' : entIs t e') : e = e' := by
  have := h.1.symm.trans h'.1
  simp only [RLabel.entry.injEq] at this
  exact Prod.ext this.1 this.2

theorem treeOf_inj {a a' : Addr} {te te' : ATree (RLabel K V)} {c c' : Color} {tl tl' tr tr' : Option (ATree (RLabel K V))}
    (h : treeOf a te c tl tr = treeOf a' te' c' tl' tr') : te = te' ∧ c = c' ∧ tl = tl' ∧ tr = tr' := by
  simp only [treeOf, ATree.node.injEq, RLabel.node.injEq, List.cons.injEq] at h
  obtain ⟨-, ⟨rfl, h1, h2⟩, rfl, h3⟩ := h
  refine ⟨rfl, rfl, ?_⟩
  cases tl <;> cases tl' <;> cases tr <;> cases tr' <;> simp_all

theorem IsT.unique {t : Option (ATree (RLabel K V))} {v v' : RBTree K V} (h : IsT t v) (h' : IsT t v') : v = v' := by
  induction h generalizing v' with
  | none => cases h'; rfl
  | @some a te tl tr e c l r he hl hr ihl ihr =>
    generalize ht : Option.some (treeOf a te c tl tr) = t' at h'
    cases h' with
    | none => cases ht
    | @some a' te' tl' tr' e' c' l' r' he' hl' hr' =>
      obtain ⟨rfl, rfl, rfl, rfl⟩ := treeOf_inj (Option.some.inj ht)
      rw [he.unique he', ihl hl', ihr hr']

/-- Two maps with the same root are the same map. -/
theorem RBIs.ptrEq {o : OrdKeys K Q} {x y : HRBMap} {m m' : RBMap K V} {ρ ρ' : List (Item (RLabel K V))} {h : Mem (RLabel K V)}
    (hx : RBIs o x m ρ) (hy : RBIs o y m' ρ') (h1 : ∀ u, .ptr u ∈ ρ → Val h u) (h2 : ∀ u, .ptr u ∈ ρ' → Val h u)
    (he : x.ptrEq y = true) : m = m' := by
  obtain ⟨⟨⟨t, e1, rfl, i1⟩, s1⟩, l, r⟩ := hx
  obtain ⟨⟨⟨t', e2, rfl, i2⟩, s2⟩, l', r'⟩ := hy
  have he : x.root = y.root := by simpa [HRBMap.ptrEq] using he
  have hroot : m.root = m'.root := by
    rw [e1, e2] at he
    cases t with
    | none =>
      cases t' with
      | none => exact i1.unique i2
      | some t' => simp at he
    | some t =>
      cases t' with
      | none => simp at he
      | some t' =>
        obtain rfl := val_unique (h1 t (by simp)) (h2 t' (by simp)) (by simpa using he)
        exact i1.unique i2
  have hsize : m.size = m'.size := by rw [r.size', r'.size', hroot]
  cases m; cases m'
  simp only at hroot hsize
  rw [hroot, hsize]

variable {A : Allocator (RLabel K V)} {Ar : Arch} {o : OrdKeys K Q} {hm : HRBMap} {m : RBMap K V} {ρ : List (Item (RLabel K V))}

/-- A clone has the same root. -/
theorem safe_rbClone_same (h : hm.Is m ρ) : Safe A none (fun r σ => r = hm ∧ σ = ρ ++ ρ) hm.clone ρ := by
  obtain ⟨⟨t, e1, rfl, h2⟩, h3⟩ := h
  obtain ⟨root, size⟩ := hm
  simp only at e1 h3
  subst e1 h3
  refine Safe.bind (safe_cloneOpt' (o := t) (fun s e => by subst e; simp)) ?_
  rintro _ _ rfl
  exact Safe.ret ⟨rfl, rfl⟩

/-- Removing an absent key answers a map with the same root. -/
theorem safe_rbRemove_same (h : hm.Is m ρ) (hc : 2 * m.root.height ≤ 4 * Nat.log2 (m.size + 1)) {q : Q} {m1 : RBMap K V}
    (he : m.removeMut Ar o q = .ok (false, m1)) : Safe A none (fun r _ => r = hm) (hm.remove Ar o q) ρ := by
  refine Safe.bind (safe_rbClone h) ?_
  rintro hm' _ ⟨τ, τ', rfl, h3, h4⟩
  refine Safe.bindFrame (F := τ') (safe_rbRemoveMut h3 hc he) (.refl _) ?_
  rintro ⟨b, hm1⟩ σ ⟨hb, h5⟩
  simp only at hb h5 ⊢
  subst hb
  simp only [Bool.false_eq_true, if_false]
  refine Safe.bindFrame (F := σ) (safe_rbClone_same h4) (by perm_tac) ?_
  rintro _ _ ⟨rfl, rfl⟩
  refine Safe.bind (Safe.perm (safe_rbDrop h5 (within_none _) (τ' ++ τ')) (by perm_tac)) ?_
  rintro _ _ rfl
  exact Safe.ret rfl

end

namespace HT
variable {H K V Q : Type}

/-- `HashTrieMap::ptr_eq` (hash_trie_map/mod.rs:850-858): the roots are the same cell. -/
def HHTMap.ptrEq (a b : HHTMap H) : Bool := a.root == b.root

theorem entIs.unique {t : ATree (HLabel K V)} {x y : HEntry K V} (h : entIs t x) (h' : entIs t y) : x.key = y.key ∧ x.value = y.value := by
  have := h.1.symm.trans h'.1
  simpa only [HLabel.entry.injEq] using this

theorem ewhIs.unique {t : ATree (HLabel K V)} {x y : HEntry K V} (h : ewhIs t x) (h' : ewhIs t y) : x = y := by
  obtain ⟨te, h1, h2, h3⟩ := h
  obtain ⟨te', h1', h2', h3'⟩ := h'
  rw [h2, List.cons.injEq] at h2'
  obtain ⟨rfl, -⟩ := h2'
  have e1 := h1.symm.trans h1'
  simp only [HLabel.ewh.injEq] at e1
  obtain ⟨e2, e3⟩ := h3.unique h3'
  cases x; cases y
  simp_all

theorem forall2_unique {α β : Type} {S : α → β → Prop} {as : List α} {bs bs' : List β}
    (hd : ∀ a ∈ as, ∀ b b', S a b → S a b' → b = b') (h : List.Forall₂ S as bs) (h' : List.Forall₂ S as bs') : bs = bs' := by
  induction h generalizing bs' with
  | nil => cases h'; rfl
  | @cons a b as bs h1 h2 ih =>
    cases h' with
    | cons h1' h2' =>
      rw [hd a (by simp) _ _ h1 h1', ih (fun c hc => hd c (by simp [hc])) h2']

/-- A cell stands for one node only. -/
theorem IsN.unique {t : ATree (HLabel K V)} {n n' : HNode K V} (h : IsN n t) (h' : IsN n' t) : n = n' := by
  induction t using ATree.ind generalizing n n' with
  | h a l ts ih =>
    cases n with
    | branch bm arr =>
      rw [IsN] at h
      cases n' with
      | branch bm' arr' =>
        rw [IsN] at h'
        have e1 := h.1.symm.trans h'.1
        simp only [HLabel.branch.injEq] at e1
        have h2 := isNs_iff.1 h.2
        have h2' := isNs_iff.1 h'.2
        rw [e1, forall2_unique (fun t ht _ _ => ih t ht) h2 h2']
      | leaf b =>
        cases b with
        | single x => rw [IsN] at h'; exact absurd (h.1.symm.trans h'.1) (by simp)
        | collision r => rw [IsN] at h'; obtain ⟨_, _, h1, -⟩ := h'; exact absurd (h.1.symm.trans h1) (by simp)
    | leaf b =>
      cases b with
      | single x =>
        rw [IsN] at h
        obtain ⟨h1, te, h2, h3⟩ := h
        cases n' with
        | branch bm' arr' => rw [IsN] at h'; exact absurd (h1.symm.trans h'.1) (by simp)
        | leaf b =>
          cases b with
          | single y =>
            rw [IsN] at h'
            obtain ⟨h1', te', h2', h3'⟩ := h'
            rw [h2, List.cons.injEq] at h2'
            obtain ⟨rfl, -⟩ := h2'
            have e1 := h1.symm.trans h1'
            simp only [HLabel.single.injEq] at e1
            obtain ⟨e2, e3⟩ := h3.unique h3'
            cases x; cases y
            simp_all
          | collision r => rw [IsN] at h'; obtain ⟨_, _, h4, -⟩ := h'; exact absurd (h1.symm.trans h4) (by simp)
      | collision r =>
        rw [IsN] at h
        obtain ⟨th, tl, h1, h2, h3, h4, -⟩ := h
        cases n' with
        | branch bm' arr' => rw [IsN] at h'; exact absurd (h1.symm.trans h'.1) (by simp)
        | leaf b =>
          cases b with
          | single y => rw [IsN] at h'; exact absurd (h1.symm.trans h'.1) (by simp)
          | collision r' =>
            rw [IsN] at h'
            obtain ⟨th', tl', h1', h2', h3', h4', -⟩ := h'
            have e1 := h1.symm.trans h1'
            simp only [HLabel.collision.injEq] at e1
            obtain ⟨e1, e2, e3⟩ := e1
            have e4 := h2.symm.trans h2'
            obtain ⟨rfl, rfl⟩ : th = th' ∧ tl = tl' := by
              cases th <;> cases th' <;> cases tl <;> cases tl' <;> simp_all
            have e5 := h3.unique (fun t x y (h : ewhIs t x) (h' : ewhIs t y) => h.unique h') h3'
            have e6 := h4.unique (fun t x y (h : ewhIs t x) (h' : ewhIs t y) => h.unique h') h4'
            cases r; cases r'
            simp_all

/-- Two maps with the same root are the same map, if they have the same hasher. -/
theorem HTIs.ptrEq {Ar : Arch} {o : HashKeys H K Q} {k : Nat} {x y : HHTMap H} {m m' : HTMap H K V} {ρ ρ' : List (Item (HLabel K V))}
    {h : Mem (HLabel K V)} (hx : HTIs Ar o k x m ρ) (hy : HTIs Ar o k y m' ρ') (h1 : ∀ u, .ptr u ∈ ρ → Val h u)
    (h2 : ∀ u, .ptr u ∈ ρ' → Val h u) (hh : m.hasher = m'.hasher) (he : x.ptrEq y = true) : m = m' := by
  obtain ⟨⟨⟨t, e1, rfl, i1⟩, -, -, -⟩, l, r⟩ := hx
  obtain ⟨⟨⟨t', e2, rfl, i2⟩, -, -, -⟩, l', r'⟩ := hy
  have he : x.root = y.root := by simpa [HHTMap.ptrEq] using he
  rw [e1, e2] at he
  obtain rfl := val_unique (h1 t (by simp)) (h2 t' (by simp)) he
  have hroot := i1.unique i2
  have hsize : m.size = m'.size := by rw [r.size, r'.size, ← r.length, ← r'.length, hroot]
  have hdeg := r.degree.trans r'.degree.symm
  cases m; cases m'
  simp_all

variable {A : Allocator (HLabel K V)} {Ar : Arch} {o : HashKeys H K Q} {hm : HHTMap H} {m : HTMap H K V} {ρ : List (Item (HLabel K V))}

/-- A clone has the same root. -/
theorem safe_htClone_same (h : hm.Is m ρ) : Safe A none (fun r σ => r = hm ∧ σ = ρ ++ ρ) hm.clone ρ := by
  obtain ⟨⟨t, h1, rfl, h2⟩, h3, h4, h5⟩ := h
  unfold HHTMap.clone
  rw [h1]
  refine Safe.bind (Heap.safe_clone (.refl t) (ρ := [.ptr t]) (by simp)) ?_
  rintro _ _ rfl
  exact Safe.ret ⟨rfl, rfl⟩

/-- Removing an absent key answers a map with the same root. -/
theorem safe_htRemove_same (h : hm.Is m ρ) (hf : Shallow trieFuel m.root) {q : Q} {m1 : HTMap H K V}
    (he : m.removeMut Ar o q = .ok (false, m1)) : Safe A none (fun r _ => r = hm) (hm.remove Ar o q) ρ := by
  refine Safe.bind (safe_htClone h) ?_
  rintro hm' _ ⟨τ, τ', rfl, h3, h4⟩
  refine Safe.bindFrame (F := τ') (safe_htRemoveMut (k := 0) h3 hf (.inl rfl) he) (.refl _) ?_
  rintro ⟨b, hm1⟩ σ ⟨hb, h5⟩
  simp only at hb h5 ⊢
  subst hb
  simp only [Bool.false_eq_true, if_false]
  refine Safe.bindFrame (F := σ) (safe_htClone_same h4) (by perm_tac) ?_
  rintro _ _ ⟨rfl, rfl⟩
  refine Safe.bind (Safe.perm (safe_htDrop (Ar := Ar) (o := o) (k := 0) h5 (.inl rfl) (τ' ++ τ')) (by perm_tac)) ?_
  rintro _ _ rfl
  exact Safe.ret rfl

end HT
end Heap
end Rpds
