import Verif.Heap.RedBlackLemmas
/-
`RedBlackTreeMap` on the heap refines `RedBlackTreeMap` of the value model.
-/
set_option autoImplicit false
set_option linter.unusedSectionVars false
namespace Rpds
namespace Heap
variable {K V Q : Type}

/-- A map on the heap represents a map of the value model. -/
def HRBMap.Is (hm : HRBMap) (m : RBMap K V) (ρ : List (Item (RLabel K V))) : Prop := TreeIs hm.root m.root ρ ∧ hm.size = m.size

/-- A map on the heap represents a well-formed map of the value model. -/
def RBIs (o : OrdKeys K Q) (hm : HRBMap) (m : RBMap K V) (ρ : List (Item (RLabel K V))) : Prop :=
  hm.Is m ρ ∧ ∃ l, m.Rep o l

theorem count_eq (t : RBTree K V) : t.count = t.toList.length := by
  induction t with
  | none => rfl
  | some e c l r ihl ihr => simp [RBTree.count, RBTree.toList, ihl, ihr]; omega

section
variable {A : Allocator (RLabel K V)} {D : Option Nat} [Roomy D] {Ar : Arch} {o : OrdKeys K Q} {hm : HRBMap} {m : RBMap K V} {ρ : List (Item (RLabel K V))}

theorem safe_rbClone (h : hm.Is m ρ) : Safe A D (fun r σ => ∃ τ τ', σ = τ ++ τ' ∧ r.Is m τ ∧ hm.Is m τ') hm.clone ρ := by
  obtain ⟨⟨t, e1, rfl, h2⟩, h3⟩ := h
  obtain ⟨root, size⟩ := hm
  simp only at e1 h3
  subst e1 h3
  refine Safe.bind (safe_cloneOpt' (o := t) (fun s e => by subst e; simp)) ?_
  rintro _ _ rfl
  exact Safe.ret ⟨optPtr t, optPtr t, rfl, ⟨⟨t, rfl, rfl, h2⟩, rfl⟩, ⟨⟨t, rfl, rfl, h2⟩, rfl⟩⟩

theorem safe_rbDrop (h : hm.Is m ρ) (hD : Within D m.root.height) (F : List (Item (RLabel K V))) : Safe A D (fun _ σ => σ = F) hm.dropMap (ρ ++ F) := by
  obtain ⟨⟨t, e1, rfl, h2⟩, h3⟩ := h
  rw [HRBMap.dropMap, e1]
  exact safe_dropOpt fun s e => hD.mono (h2.nest.2 s e)

/-- The fuel is enough. -/
theorem _root_.Rpds.RBMap.Rep.fuel {l : List (K × V)} (r : m.Rep o l) : 2 * m.root.height ≤ 4 * Nat.log2 (m.size + 1) := by
  have := r.ok.height_le
  rw [r.size']
  omega

theorem safe_rbInsertMut (h : hm.Is m ρ) (hc : 2 * m.root.height ≤ 4 * Nat.log2 (m.size + 1)) {k : K} {v : V} {m' : RBMap K V}
    (he : m.insertMut o k v = .ok m') : Safe A D (fun r σ => r.Is m' σ) (hm.insertMut o k v) ρ := by
  obtain ⟨⟨t, e1, rfl, h2⟩, h3⟩ := h
  obtain ⟨⟨b, t'⟩, h4, h5⟩ := res_bind_ok he
  cases h5
  unfold HRBMap.insertMut HRBMap.fuel
  rw [e1, h3]
  refine Safe.bind (safe_hins o k v h2 h4 (by omega)) ?_
  rintro ⟨_, p⟩ σ ⟨rfl, h6⟩
  exact Safe.ret ⟨h6, rfl⟩

theorem safe_rbRemoveMut (h : hm.Is m ρ) (hc : 2 * m.root.height ≤ 4 * Nat.log2 (m.size + 1)) {q : Q} {b : Bool} {m' : RBMap K V}
    (he : m.removeMut Ar o q = .ok (b, m')) : Safe A D (fun r σ => r.1 = b ∧ r.2.Is m' σ) (hm.removeMut Ar o q) ρ := by
  obtain ⟨⟨t, e1, rfl, h2⟩, h3⟩ := h
  obtain ⟨⟨b', t'⟩, h4, h5⟩ := res_bind_ok he
  unfold HRBMap.removeMut HRBMap.fuel
  rw [e1, h3]
  refine Safe.bind (safe_hdel o q h2 h4 hc) ?_
  rintro ⟨_, p⟩ σ ⟨rfl, h6⟩
  simp only at h5 h6 ⊢
  split
  · next hb =>
    rw [if_pos hb] at h5
    obtain ⟨size, h7, h8⟩ := res_bind_ok h5
    cases h8
    exact Safe.liftBind h7 (Safe.ret ⟨rfl, h6, rfl⟩)
  · next hb =>
    rw [if_neg hb] at h5
    cases h5
    exact Safe.ret ⟨rfl, h6, rfl⟩

theorem safe_rbInsert (h : hm.Is m ρ) (hc : 2 * m.root.height ≤ 4 * Nat.log2 (m.size + 1)) {k : K} {v : V} {m' : RBMap K V}
    (he : m.insert o k v = .ok m') :
    Safe A D (fun r σ => ∃ τ τ', σ = τ ++ τ' ∧ r.Is m' τ ∧ hm.Is m τ') (hm.insert o k v) ρ := by
  refine Safe.bind (safe_rbClone h) ?_
  rintro hm' _ ⟨τ, τ', rfl, h1, h2⟩
  exact ((safe_rbInsertMut h1 hc he).frame τ').imp fun r σ ⟨τ, e, hr⟩ => ⟨τ, τ', e, hr, h2⟩

theorem safe_rbRemove (h : hm.Is m ρ) (hc : 2 * m.root.height ≤ 4 * Nat.log2 (m.size + 1)) {q : Q} {m' : RBMap K V} (he : m.remove Ar o q = .ok m')
    (hD : ∀ b m1, m.removeMut Ar o q = .ok (b, m1) → Within D m1.root.height) :
    Safe A D (fun r σ => ∃ τ τ', σ = τ ++ τ' ∧ r.Is m' τ ∧ hm.Is m τ') (hm.remove Ar o q) ρ := by
  obtain ⟨⟨b, m1⟩, h1, h2⟩ := res_bind_ok he
  refine Safe.bind (safe_rbClone h) ?_
  rintro hm' _ ⟨τ, τ', rfl, h3, h4⟩
  refine Safe.bindFrame (F := τ') (safe_rbRemoveMut h3 hc h1) (.refl _) ?_
  rintro ⟨_, hm1⟩ σ ⟨rfl, h5⟩
  simp only at h2 h5 ⊢
  split
  · next hb =>
    rw [if_pos hb] at h2
    cases h2
    exact Safe.ret ⟨σ, τ', rfl, h5, h4⟩
  · next hb =>
    rw [if_neg hb] at h2
    cases h2
    refine Safe.bindFrame (F := σ) (safe_rbClone h4) (by perm_tac) ?_
    rintro hm2 _ ⟨τ1, τ2, rfl, h6, h7⟩
    refine Safe.bind (Safe.perm (safe_rbDrop h5 (hD _ _ h1) (τ1 ++ τ2)) (by perm_tac)) ?_
    rintro _ _ rfl
    exact Safe.ret ⟨τ1, τ2, rfl, h6, h7⟩

theorem safe_rbGetMut (h : hm.Is m ρ) (hc : 2 * m.root.height ≤ 4 * Nat.log2 (m.size + 1)) (q : Q) (f : V → V) :
    Safe A D (fun r σ => r.1 = (m.getMut o q f).1 ∧ r.2.Is (m.getMut o q f).2 σ) (hm.getMut o q f) ρ := by
  obtain ⟨⟨t, e1, rfl, h2⟩, h3⟩ := h
  unfold HRBMap.getMut HRBMap.fuel
  rw [e1, h3]
  refine Safe.bind (safe_hgetMut o q f h2 (by omega)) ?_
  rintro ⟨x, p⟩ σ ⟨rfl, h6⟩
  exact Safe.ret ⟨rfl, h6, rfl⟩

theorem safe_rbLookup (h : hm.Is m ρ) (hc : 2 * m.root.height ≤ 4 * Nat.log2 (m.size + 1)) (q : Q) :
    Safe A D (fun r σ => r = m.root.get o q ∧ hm.Is m σ) (hget o q hm.fuel hm.root) ρ := by
  have hh := h
  obtain ⟨⟨t, e1, rfl, h2⟩, h3⟩ := h
  unfold HRBMap.fuel
  rw [e1, h3]
  refine (safe_hget o q h2 (fun s e => ⟨s, .refl s, by subst e; simp⟩) (by omega)).imp ?_
  rintro r σ ⟨rfl, rfl⟩
  exact ⟨rfl, hh⟩

theorem safe_rbGet (h : hm.Is m ρ) (hc : 2 * m.root.height ≤ 4 * Nat.log2 (m.size + 1)) (q : Q) :
    Safe A D (fun r σ => r = m.get o q ∧ hm.Is m σ) (hm.get o q) ρ := by
  refine Safe.bind (safe_rbLookup h hc q) ?_
  rintro _ σ ⟨rfl, h1⟩
  exact Safe.ret ⟨rfl, h1⟩

theorem safe_rbGetKeyValue (h : hm.Is m ρ) (hc : 2 * m.root.height ≤ 4 * Nat.log2 (m.size + 1)) (q : Q) :
    Safe A D (fun r σ => r = m.getKeyValue o q ∧ hm.Is m σ) (hm.getKeyValue o q) ρ := by
  refine Safe.bind (safe_rbLookup h hc q) ?_
  rintro _ σ ⟨rfl, h1⟩
  exact Safe.ret ⟨rfl, h1⟩

theorem safe_rbFirst (h : hm.Is m ρ) (hc : 2 * m.root.height ≤ 4 * Nat.log2 (m.size + 1)) :
    Safe A D (fun r σ => r = m.first ∧ hm.Is m σ) hm.first ρ := by
  have hh := h
  obtain ⟨⟨t, e1, rfl, h2⟩, h3⟩ := h
  unfold HRBMap.first HRBMap.fuel
  rw [e1, h3]
  refine Safe.bind (safe_hfirst h2 (fun s e => ⟨s, .refl s, by subst e; simp⟩) (by omega)) ?_
  rintro r σ ⟨rfl, rfl⟩
  exact Safe.ret ⟨rfl, hh⟩

theorem safe_rbLast (h : hm.Is m ρ) (hc : 2 * m.root.height ≤ 4 * Nat.log2 (m.size + 1)) :
    Safe A D (fun r σ => r = m.last ∧ hm.Is m σ) hm.last ρ := by
  have hh := h
  obtain ⟨⟨t, e1, rfl, h2⟩, h3⟩ := h
  unfold HRBMap.last HRBMap.fuel
  rw [e1, h3]
  refine Safe.bind (safe_hlast h2 (fun s e => ⟨s, .refl s, by subst e; simp⟩) (by omega)) ?_
  rintro r σ ⟨rfl, rfl⟩
  exact Safe.ret ⟨rfl, hh⟩

theorem safe_rbView (h : hm.Is m ρ) (hc : m.root.count ≤ m.size) :
    Safe A D (fun r σ => r = m ∧ hm.Is m σ) hm.view ρ := by
  have hh := h
  obtain ⟨⟨t, e1, rfl, h2⟩, h3⟩ := h
  unfold HRBMap.view
  rw [e1, h3]
  refine Safe.bind (safe_hview h2 (fun s e => ⟨s, .refl s, by subst e; simp⟩) hc) ?_
  rintro r σ ⟨rfl, rfl⟩
  exact Safe.ret ⟨rfl, hh⟩

/-- Effects on maps that are not known to be well formed yet. -/
def RBEff (hm : HRBMap) (m : RBMap K V) : Effect HRBMap → Effect (RBMap K V) → List (Item (RLabel K V)) → Prop :=
  EffOwn (fun hm m ρ => hm.Is m ρ) hm m

theorem safe_rbHStep (h : hm.Is m ρ) (hc : 2 * m.root.height ≤ 4 * Nat.log2 (m.size + 1)) (op : MapOp K V Q) {r : MapRet K V} {e : Effect (RBMap K V)}
    (he : m.step Ar o op = .ok (r, e)) (hD : ∀ q b m1, m.removeMut Ar o q = .ok (b, m1) → Within D m1.root.height) :
    Safe A D (fun x τ => x.1 = r ∧ RBEff hm m x.2 e τ) (rbHStep Ar o hm op) ρ := by
  cases op with
  | insert k v =>
    obtain ⟨m', h1, h2⟩ := res_bind_ok he
    cases h2
    refine Safe.bind (safe_rbInsert h hc h1) ?_
    rintro hm' _ ⟨τ, τ', rfl, h3, h4⟩
    exact Safe.ret ⟨rfl, .fresh h3 h4⟩
  | insertMut k v =>
    obtain ⟨m', h1, h2⟩ := res_bind_ok he
    cases h2
    refine Safe.bind (safe_rbInsertMut h hc h1) ?_
    intro hm' τ h3
    exact Safe.ret ⟨rfl, .update h3⟩
  | remove q =>
    obtain ⟨m', h1, h2⟩ := res_bind_ok he
    cases h2
    refine Safe.bind (safe_rbRemove h hc h1 (hD q)) ?_
    rintro hm' _ ⟨τ, τ', rfl, h3, h4⟩
    exact Safe.ret ⟨rfl, .fresh h3 h4⟩
  | removeMut q =>
    obtain ⟨⟨b, m'⟩, h1, h2⟩ := res_bind_ok he
    cases h2
    refine Safe.bind (safe_rbRemoveMut h hc h1) ?_
    rintro ⟨_, hm'⟩ τ ⟨rfl, h3⟩
    exact Safe.ret ⟨rfl, .update h3⟩
  | getMut q f =>
    cases he
    refine Safe.bind (safe_rbGetMut h hc q f) ?_
    rintro ⟨_, hm'⟩ τ ⟨rfl, h3⟩
    exact Safe.ret ⟨rfl, .update h3⟩
  | clone =>
    cases he
    refine Safe.bind (safe_rbClone h) ?_
    rintro hm' _ ⟨τ, τ', rfl, h3, h4⟩
    exact Safe.ret ⟨rfl, .fresh h3 h4⟩
  | get q =>
    cases he
    refine Safe.bind (safe_rbGet h hc q) ?_
    rintro _ τ ⟨rfl, h1⟩
    exact Safe.ret ⟨rfl, .keep h1⟩
  | getKeyValue q =>
    cases he
    refine Safe.bind (safe_rbGetKeyValue h hc q) ?_
    rintro _ τ ⟨rfl, h1⟩
    exact Safe.ret ⟨rfl, .keep h1⟩
  | containsKey q =>
    cases he
    refine Safe.bind (safe_rbGet h hc q) ?_
    rintro _ τ ⟨rfl, h1⟩
    exact Safe.ret ⟨rfl, .keep h1⟩
  | index q =>
    simp only [RBMap.step, RBMap.index] at he
    refine Safe.bind (safe_rbGet h hc q) ?_
    rintro _ τ ⟨rfl, h1⟩
    cases hg : m.get o q with
    | none =>
      rw [hg] at he
      cases he
      exact Safe.ret ⟨rfl, .keep h1⟩
    | some v =>
      rw [hg] at he
      cases he
      exact Safe.ret ⟨rfl, .keep h1⟩
  | size =>
    cases he
    exact Safe.ret ⟨by rw [h.2]; rfl, .keep h⟩
  | isEmpty =>
    cases he
    exact Safe.ret ⟨by rw [h.2]; rfl, .keep h⟩

theorem RBEff.is {e : Effect HRBMap} {f : Effect (RBMap K V)} (h : RBEff hm m e f ρ) (lo : ∃ l, m.Rep o l)
    (hf : ∃ e' : Effect (List (K × V)), Effect.Rel (fun m l => m.Rep o l) f e') : EffOwn (RBIs o) hm m e f ρ := by
  obtain ⟨e', hf⟩ := hf
  cases h with
  | keep hk => exact .keep ⟨hk, lo⟩
  | fresh h1 h2 => cases hf with | fresh hs => exact .fresh ⟨h1, _, hs⟩ ⟨h2, lo⟩
  | update h1 => cases hf with | update hs => exact .update ⟨h1, _, hs⟩

end

/-- The heap version of `RedBlackTreeMap` does what the value model does, and its destructors nest as deep as a tree is high. -/
theorem rbImpl_nests_model (Ar : Arch) {o : OrdKeys K Q} (lo : o.Lawful) (A : Allocator (RLabel K V)) :
    (rbImpl Ar o : Impl (RLabel K V) _ _ _).Nests A (RBMap.new : RBMap K V) (RBMap.stepAll Ar o) (RBIs o)
      (fun m => 2 * Nat.log2 (m.size + 1)) where
  new D := Safe.ret ⟨⟨⟨none, rfl, rfl, .none⟩, rfl⟩, [], RBMap.new_rep⟩
  step := by
    rintro D _ hm m ρ op r e ⟨h, l, hl⟩ hD he
    have hv : m.root.count ≤ m.size := by rw [count_eq, hl.size', ]; exact Nat.le_refl _
    have hc := hl.fuel
    have hD' : ∀ q b m1, m.removeMut Ar o q = .ok (b, m1) → Within D m1.root.height := by
      intro q b m1 h1
      obtain ⟨e2, h4, h5⟩ := hl.step (A := Ar) lo (.removeMut q)
      simp only [RBMap.step, h1] at h4
      cases h4
      cases h5 with
      | update h6 =>
        refine hD.mono (Nat.le_trans h6.ok.height_le ?_)
        rw [← h6.size', h6.size, hl.size]
        exact Nat.mul_le_mul_left 2 (log2_mono (List.length_filter_le _ _))
    cases op with
    | base op =>
      obtain ⟨⟨r', e'⟩, h1, h2⟩ := res_bind_ok he
      cases h2
      refine Safe.bind (safe_rbHStep h hc op h1 hD') ?_
      rintro ⟨x, f⟩ τ ⟨rfl, h3⟩
      obtain ⟨e2, h4, h5⟩ := hl.step (A := Ar) lo op
      rw [h4] at h1
      cases h1
      exact Safe.ret ⟨rfl, h3.is ⟨l, hl⟩ ⟨_, h5⟩⟩
    | first =>
      cases he
      refine Safe.bind (safe_rbFirst h hc) ?_
      rintro _ τ ⟨rfl, h1⟩
      exact Safe.ret ⟨rfl, .keep ⟨h1, l, hl⟩⟩
    | last =>
      cases he
      refine Safe.bind (safe_rbLast h hc) ?_
      rintro _ τ ⟨rfl, h1⟩
      exact Safe.ret ⟨rfl, .keep ⟨h1, l, hl⟩⟩
    | iter cs =>
      obtain ⟨rs, h1, h2⟩ := res_bind_ok he
      cases h2
      refine Safe.bind (safe_rbView h hv) ?_
      rintro _ τ ⟨rfl, h3⟩
      exact Safe.liftBind h1 (Safe.ret ⟨rfl, .keep ⟨h3, l, hl⟩⟩)
    | range start end_ cs =>
      simp only [RBMap.stepAll] at he
      refine Safe.bind (safe_rbView h hv) ?_
      rintro _ τ ⟨rfl, h3⟩
      cases hr : RBMap.range o _ start end_ with
      | error x =>
        rw [hr] at he
        cases he
        exact Safe.ret ⟨rfl, .keep ⟨h3, l, hl⟩⟩
      | ok it =>
        rw [hr] at he
        obtain ⟨rs, h1, h2⟩ := res_bind_ok he
        cases h2
        exact Safe.liftBind h1 (Safe.ret ⟨rfl, .keep ⟨h3, l, hl⟩⟩)
  drop := by
    rintro D _ hm m ρ ⟨h, l, hl⟩ hD
    have := safe_rbDrop (A := A) h (hD.mono (by rw [hl.size']; exact hl.ok.height_le)) []
    rw [List.append_nil] at this
    exact this
  ptrs := by
    rintro hm m ρ ⟨⟨⟨t, e1, rfl, h2⟩, h3⟩, -⟩
    exact ⟨t.toList, rfl, by simp only [rbImpl, e1]; cases t <;> rfl⟩

/-- The heap version of `RedBlackTreeMap` does what the value model does. -/
theorem rbImpl_refines_model (Ar : Arch) {o : OrdKeys K Q} (lo : o.Lawful) (A : Allocator (RLabel K V)) :
    (rbImpl Ar o : Impl (RLabel K V) _ _ _).Refines A (RBMap.new : RBMap K V) (RBMap.stepAll Ar o) (RBIs o) :=
  (rbImpl_nests_model Ar lo A).refines

end Heap
end Rpds
