import Verif.Heap.RedBlackPanic
import Verif.Heap.SharedTrees
/-
`RedBlackTreeMap` on the heap with user code that may panic refines `RedBlackTreeMap` of the value model with the same user code.
-/
set_option autoImplicit false
namespace Rpds
namespace Heap
open Spec
variable {S K V Q : Type}

/-- A map on the heap represents a balanced map of the value model. -/
def RBLooseIs (hm : HRBMap) (m : RBMap K V) (ρ : List (Item (RLabel K V))) : Prop := hm.Is m ρ ∧ ∃ l, m.Loose l

/-- The operations that take `&self`, with the user code. -/
def userByRef {U : Type} (p : U × S × MapOp K V Q) : Bool := mapByRef p.2.2

section
variable {A : Allocator (RLabel K V)} {D : Option Nat} [Roomy D] {Ar : Arch} {U : RBUser S K V Q} {hm : HRBMap} {m : RBMap K V}
  {ρ : List (Item (RLabel K V))}

theorem safe_rbInsertMutU (h : hm.Is m ρ) (hc : 2 * m.root.height ≤ 4 * Nat.log2 (m.size + 1)) {k : K} {v : V} {s : S} {x : Option Unit}
    {m' : RBMap K V} (he : m.insertMutU U k v s = .ok (x, m')) : Safe A D (fun r σ => r.1 = x ∧ r.2.Is m' σ) (hm.insertMutU U k v s) ρ := by
  obtain ⟨⟨t, e1, rfl, h2⟩, h3⟩ := h
  obtain ⟨⟨b, t', s'⟩, h4, h5⟩ := res_bind_ok he
  unfold HRBMap.insertMutU HRBMap.fuel
  rw [e1, h3]
  refine Safe.bind (safe_hinsU k v h2 h4 (by omega)) ?_
  rintro ⟨b2, p, _⟩ σ ⟨rfl, h6, rfl⟩
  cases b2 <;> cases h5 <;> exact Safe.ret ⟨rfl, h6, rfl⟩

theorem safe_rbRemoveMutU (h : hm.Is m ρ) (hc : 2 * m.root.height ≤ 4 * Nat.log2 (m.size + 1)) {q : Q} {s : S} {x : Option Bool}
    {m' : RBMap K V} (he : m.removeMutU Ar U q s = .ok (x, m')) : Safe A D (fun r σ => r.1 = x ∧ r.2.Is m' σ) (hm.removeMutU Ar U q s) ρ := by
  obtain ⟨⟨t, e1, rfl, h2⟩, h3⟩ := h
  obtain ⟨⟨b, t', s'⟩, h4, h5⟩ := res_bind_ok he
  unfold HRBMap.removeMutU HRBMap.fuel
  rw [e1, h3]
  refine Safe.bind (safe_hdelU q h2 h4 hc) ?_
  rintro ⟨b2, p, _⟩ σ ⟨rfl, h6, rfl⟩
  rcases b2 with _ | _ | _
  · cases h5
    exact Safe.ret ⟨rfl, h6, rfl⟩
  rotate_left
  · obtain ⟨size, h7, h8⟩ := res_bind_ok h5
    cases h8
    exact Safe.liftBind h7 (Safe.ret ⟨rfl, h6, rfl⟩)
  · cases h5
    exact Safe.ret ⟨rfl, h6, rfl⟩

theorem safe_rbLookupU (h : hm.Is m ρ) (hc : 2 * m.root.height ≤ 4 * Nat.log2 (m.size + 1)) (q : Q) (s : S) :
    Safe A D (fun r σ => r = m.root.getU U q s ∧ hm.Is m σ) (hgetU U q hm.fuel hm.root s) ρ := by
  have hh := h
  obtain ⟨⟨t, e1, rfl, h2⟩, h3⟩ := h
  unfold HRBMap.fuel
  rw [e1, h3]
  refine (safe_hgetU q h2 (fun s e => ⟨s, .refl s, by subst e; simp⟩) (by omega) s).imp ?_
  rintro r σ ⟨rfl, rfl⟩
  exact ⟨rfl, hh⟩

theorem safe_rbHStepU (h : hm.Is m ρ) (hc : 2 * m.root.height ≤ 4 * Nat.log2 (m.size + 1)) (s : S) (op : MapOp K V Q) {r : Option (MapRet K V)}
    {e : Effect (RBMap K V)} (he : m.stepU Ar U s op = .ok (r, e))
    (hi : ∀ k v x m1, m.insertMutU U k v s = .ok (x, m1) → Within D m1.root.height)
    (hd : ∀ q b m1, m.removeMutU Ar U q s = .ok (b, m1) → Within D m1.root.height) :
    Safe A D (fun x τ => x.1 = r ∧ RBEff hm m x.2 e τ) (rbHStepU Ar U s hm op) ρ := by
  have look : ∀ q (f : Option (K × V) → MapRet K V) {r e}, (.ok ((m.root.getU U q s).1.map f, .keep) : Res _) = .ok (r, e) →
      Safe A D (fun x τ => x.1 = r ∧ RBEff hm m x.2 e τ)
        (Prog.bind (hgetU U q hm.fuel hm.root s) fun x => .ret (x.1.map f, .keep)) ρ := by
    rintro q f r e he
    cases he
    refine Safe.bind (safe_rbLookupU h hc q s) ?_
    rintro _ τ ⟨rfl, h1⟩
    exact Safe.ret ⟨rfl, .keep h1⟩
  cases op with
  | insert k v =>
    obtain ⟨⟨x, m'⟩, h1, h2⟩ := res_bind_ok he
    refine Safe.bind (safe_rbClone h) ?_
    rintro hm' _ ⟨τ, τ', rfl, h3, h4⟩
    refine Safe.bindFrame (F := τ') (safe_rbInsertMutU h3 hc h1) (.refl _) ?_
    rintro ⟨y, hm1⟩ σ ⟨rfl, h5⟩
    rcases y with _ | b
    · cases h2
      refine Safe.bind (safe_rbDrop h5 (hi k v _ _ h1) τ') ?_
      rintro _ _ rfl
      exact Safe.ret ⟨rfl, .keep h4⟩
    · cases h2
      exact Safe.ret ⟨rfl, .fresh h5 h4⟩
  | insertMut k v =>
    obtain ⟨⟨x, m'⟩, h1, h2⟩ := res_bind_ok he
    refine Safe.bind (safe_rbInsertMutU h hc h1) ?_
    rintro ⟨y, hm1⟩ σ ⟨rfl, h5⟩
    cases y <;> cases h2 <;> exact Safe.ret ⟨rfl, .update h5⟩
  | remove q =>
    obtain ⟨⟨x, m'⟩, h1, h2⟩ := res_bind_ok he
    refine Safe.bind (safe_rbClone h) ?_
    rintro hm' _ ⟨τ, τ', rfl, h3, h4⟩
    refine Safe.bindFrame (F := τ') (safe_rbRemoveMutU h3 hc h1) (.refl _) ?_
    rintro ⟨y, hm1⟩ σ ⟨rfl, h5⟩
    rcases y with _ | b
    · cases h2
      refine Safe.bind (safe_rbDrop h5 (hd q _ _ h1) τ') ?_
      rintro _ _ rfl
      exact Safe.ret ⟨rfl, .keep h4⟩
    · cases h2
      cases b with
      | true => exact Safe.ret ⟨rfl, .fresh h5 h4⟩
      | false =>
        refine Safe.bindFrame (F := σ) (safe_rbClone h4) (by perm_tac) ?_
        rintro hm2 _ ⟨τ1, τ2, rfl, h6, h7⟩
        refine Safe.bind (Safe.perm (safe_rbDrop h5 (hd q _ _ h1) (τ1 ++ τ2)) (by perm_tac)) ?_
        rintro _ _ rfl
        exact Safe.ret ⟨rfl, .fresh h6 h7⟩
  | removeMut q =>
    obtain ⟨⟨x, m'⟩, h1, h2⟩ := res_bind_ok he
    refine Safe.bind (safe_rbRemoveMutU h hc h1) ?_
    rintro ⟨y, hm1⟩ σ ⟨rfl, h5⟩
    cases y <;> cases h2 <;> exact Safe.ret ⟨rfl, .update h5⟩
  | getMut q f =>
    obtain ⟨⟨t, e1, rfl, h2⟩, h3⟩ := h
    simp only [rbHStepU, HRBMap.fuel]
    rw [e1, h3]
    refine Safe.bind (safe_hgetMutU q f h2 (by omega) s) ?_
    rintro ⟨x, p, s'⟩ σ ⟨rfl, h6, rfl⟩
    simp only [RBMap.stepU] at he
    simp only at h6 ⊢
    split at he
    · next heq =>
      cases he
      rw [heq] at h6
      exact Safe.ret ⟨by rw [heq]; rfl, .update ⟨h6, rfl⟩⟩
    · next heq =>
      cases he
      rw [heq] at h6
      exact Safe.ret ⟨by rw [heq]; rfl, .update ⟨h6, rfl⟩⟩
  | clone =>
    cases he
    refine Safe.bind (safe_rbClone h) ?_
    rintro hm' _ ⟨τ, τ', rfl, h3, h4⟩
    exact Safe.ret ⟨rfl, .fresh h3 h4⟩
  | get q => exact look q _ he
  | getKeyValue q => exact look q _ he
  | containsKey q => exact look q _ he
  | index q => exact look q _ he
  | size =>
    cases he
    exact Safe.ret ⟨by rw [h.2]; rfl, .keep h⟩
  | isEmpty =>
    cases he
    exact Safe.ret ⟨by rw [h.2]; rfl, .keep h⟩

theorem RBEff.loose {e : Effect HRBMap} {f : Effect (RBMap K V)} (h : RBEff hm m e f ρ) (lo : ∃ l, m.Loose l)
    (hf : ∃ e' : Effect (List (K × V)), Effect.Rel (fun m l => m.Loose l) f e') : EffOwn RBLooseIs hm m e f ρ := by
  obtain ⟨e', hf⟩ := hf
  cases h with
  | keep hk => exact .keep ⟨hk, lo⟩
  | fresh h1 h2 => cases hf with | fresh hs => exact .fresh ⟨h1, _, hs⟩ ⟨h2, lo⟩
  | update h1 => cases hf with | update hs => exact .update ⟨h1, _, hs⟩

end

theorem _root_.Rpds.RBMap.Loose.fuel {m : RBMap K V} {l : List (K × V)} (r : m.Loose l) : 2 * m.root.height ≤ 4 * Nat.log2 (m.size + 1) := by
  have := r.fits_height
  omega

/-- The heap version of `RedBlackTreeMap` does what the value model does, whatever the user code does, and its destructors nest as deep as a tree
with one more pair is high. -/
theorem rbImplU_nests (S K V Q : Type) (Ar : Arch) (A : Allocator (RLabel K V)) :
    (rbImplU S K V Q Ar).Nests A (RBMap.new : RBMap K V) (fun m p => m.stepU Ar p.1 p.2.1 p.2.2) RBLooseIs
      (fun m => 2 * Nat.log2 (m.size + 2)) where
  new D := Safe.ret ⟨⟨⟨none, rfl, rfl, .none⟩, rfl⟩, [], RBMap.new_loose⟩
  step := by
    rintro D _ hm m ρ ⟨U, s, op⟩ r e ⟨h, l, hl⟩ hD he
    have mono : ∀ {m1 : RBMap K V} {l1}, m1.Loose l1 → m1.size ≤ m.size + 1 → Within D m1.root.height := fun h1 h2 =>
      hD.mono (Nat.le_trans h1.fits_height (Nat.mul_le_mul_left 2 (log2_mono (by omega))))
    refine (safe_rbHStepU h hl.fuel s op he ?_ ?_).imp ?_
    · intro k v x m1 h1
      rcases hl.insertMutU U k v s with h2 | ⟨m', l', h2, h3, h4⟩
      · rw [h1] at h2; cases h2
        exact mono hl (by omega)
      · rw [h1] at h2; cases h2
        refine mono h3 ?_
        rw [h3.size, hl.size]
        cases h4 with
        | added h5 => simpa using Nat.le_of_eq h5.length_eq
        | replaced e r _ h5 h6 => have := h5.length_eq; have := h6.length_eq; simp_all
    · intro q b m1 h1
      rcases hl.removeMutU Ar U q s with h2 | ⟨b', m', l', h2, h3, h4⟩
      · rw [h1] at h2; cases h2
        exact mono hl (by omega)
      · rw [h1] at h2; cases h2
        refine mono h3 ?_
        rw [h3.size, hl.size]
        cases h4 with
        | absent h5 => have := h5.length_eq; omega
        | removed e _ h5 => have := h5.length_eq; simp only [List.length_cons] at this; omega
    · rintro ⟨x, f⟩ τ ⟨rfl, h3⟩
      obtain ⟨r', e', f', h4, -, h5, -⟩ := hl.stepU Ar U s op
      rw [he] at h4
      cases h4
      exact ⟨rfl, h3.loose ⟨l, hl⟩ ⟨_, h5⟩⟩
  drop := by
    rintro D _ hm m ρ ⟨h, l, hl⟩ hD
    have := safe_rbDrop (A := A) h (hD.mono (Nat.le_trans hl.fits_height (Nat.mul_le_mul_left 2 (log2_mono (by omega))))) []
    rw [List.append_nil] at this
    exact this
  ptrs := by
    rintro hm m ρ ⟨⟨⟨t, e1, rfl, h2⟩, h3⟩, -⟩
    exact ⟨t.toList, rfl, by simp only [rbImplU, e1]; cases t <;> rfl⟩

theorem rbImplU_refines (S K V Q : Type) (Ar : Arch) (A : Allocator (RLabel K V)) :
    (rbImplU S K V Q Ar).Refines A (RBMap.new : RBMap K V) (fun m p => m.stepU Ar p.1 p.2.1 p.2.2) RBLooseIs :=
  (rbImplU_nests S K V Q Ar A).refines

section
variable {A : Allocator (RLabel K V)} {Ar : Arch} {U : RBUser S K V Q}

theorem readsOnly_hgetUStep (key : Q) {sub : Option Addr → S → Prog (RLabel K V) (Option (Option (K × V)) × S)} (hs : ∀ p s, (sub p s).ReadsOnly)
    (p : Option Addr) (s : S) : (hgetUStep U key sub p s).ReadsOnly := by
  cases p with
  | none => trivial
  | some p =>
    refine (readsOnly_rbReadNode p).bind fun n => (readsOnly_rbReadEntry _).bind fun e => ?_
    split
    · trivial
    · exact hs _ _
    · trivial
    · exact hs _ _

theorem readsOnly_hgetU (key : Q) (fuel : Nat) (p : Option Addr) (s : S) : (hgetU U key fuel p s : Prog (RLabel K V) _).ReadsOnly := by
  induction fuel generalizing p s with
  | zero => exact readsOnly_hgetUStep key (sub := fun _ _ => .panic) (fun _ _ => trivial) p s
  | succ fuel ih => exact readsOnly_hgetUStep key ih p s

/-- Lent red-black maps with user code that may panic. -/
theorem rbImplU_lends (S K V Q : Type) (Ar : Arch) (A : Allocator (RLabel K V)) :
    (rbImplU S K V Q Ar).Lends A (fun m p => m.stepU Ar p.1 p.2.1 p.2.2) RBLooseIs userByRef where
  step := by
    rintro hm m β ⟨U, s, op⟩ r e hR hb he
    have rd : e = .keep → (rbHStepU Ar U s hm op).ReadsOnly →
        SafeB A none β (fun x τ => x.1 = r ∧ EffNew RBLooseIs x.2 e τ) (rbHStepU Ar U s hm op) [] := by
      rintro rfl h2
      exact (rbImplU_refines S K V Q Ar A).reads (op := (U, s, op)) hR he h2
    obtain ⟨h, l, hl⟩ := hR
    have hc := hl.fuel
    obtain ⟨r', e', f', h4, -, h5, -⟩ := hl.stepU Ar U s op
    have hee := he
    simp only at hee
    rw [h4] at hee
    cases hee
    have look : ∀ q (f : Option (Option (K × V)) × S → Option (MapRet K V) × Effect HRBMap),
        (Prog.bind (hgetU U q hm.fuel hm.root s) fun x => .ret (f x) : Prog (RLabel K V) _).ReadsOnly :=
      fun q f => (readsOnly_hgetU q _ _ _).bind fun _ => trivial
    cases op with
    | insertMut k v => cases hb
    | removeMut q => cases hb
    | getMut q f => cases hb
    | insert k v =>
      obtain ⟨⟨x, m'⟩, h1, h2⟩ := res_bind_ok h4
      refine SafeB.bind (safeB_rbClone' h) ?_
      intro hm' τ h8
      refine SafeB.bind (safe_rbInsertMutU h8 hc h1).borrowing ?_
      rintro ⟨y, hm1⟩ σ ⟨rfl, h9⟩
      rcases y with _ | b
      · cases h2
        have := safe_rbDrop (A := A) h9 (within_none _) []
        rw [List.append_nil] at this
        refine SafeB.bind this.borrowing ?_
        rintro _ _ rfl
        exact SafeB.ret ⟨rfl, .keep⟩
      · cases h2
        cases h5 with
        | fresh h5 => exact SafeB.ret ⟨rfl, .fresh ⟨h9, _, h5⟩⟩
    | remove q =>
      obtain ⟨⟨x, m'⟩, h1, h2⟩ := res_bind_ok h4
      refine SafeB.bind (safeB_rbClone' h) ?_
      intro hm' τ h8
      refine SafeB.bind (safe_rbRemoveMutU h8 hc h1).borrowing ?_
      rintro ⟨y, hm1⟩ σ ⟨rfl, h9⟩
      rcases y with _ | b
      · cases h2
        have := safe_rbDrop (A := A) h9 (within_none _) []
        rw [List.append_nil] at this
        refine SafeB.bind this.borrowing ?_
        rintro _ _ rfl
        exact SafeB.ret ⟨rfl, .keep⟩
      · cases h2
        cases h5 with
        | fresh h5 =>
        cases b with
        | true => exact SafeB.ret ⟨rfl, .fresh ⟨h9, _, h5⟩⟩
        | false =>
          refine SafeB.bind (safeB_rbClone h σ) ?_
          rintro hm2 _ ⟨τ1, rfl, h6⟩
          refine SafeB.bind (Safe.perm (safe_rbDrop h9 (within_none _) τ1) (by perm_tac)).borrowing ?_
          rintro _ _ rfl
          exact SafeB.ret ⟨rfl, .fresh ⟨h6, _, h5⟩⟩
    | clone =>
      cases h4
      refine SafeB.bind (safeB_rbClone' h) ?_
      intro hm' τ h8
      exact SafeB.ret ⟨rfl, .fresh ⟨h8, l, hl⟩⟩
    | get q => cases h4; exact rd rfl (look q _)
    | getKeyValue q => cases h4; exact rd rfl (look q _)
    | containsKey q => cases h4; exact rd rfl (look q _)
    | index q => cases h4; exact rd rfl (look q _)
    | size => cases h4; exact rd rfl trivial
    | isEmpty => cases h4; exact rd rfl trivial

end
end Heap
end Rpds
