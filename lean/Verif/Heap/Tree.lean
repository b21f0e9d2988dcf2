import Verif.Heap.Client
/-
What the tree structures need on top of `Verif/Heap/Logic.lean`: plain computations inside heap programs, `make_mut` followed by
work on the content, and replacing one of several pointers.
-/
set_option autoImplicit false
namespace Rpds
namespace Heap
variable {L : Type}

/-- A plain computation inside a heap program; its panics are panics of the program. -/
def lift {α : Type} : Res α → Prog L α
  | .ok x => .ret x
  | .error _ => .panic

/-- `SharedPointer::make_mut(&mut p)`, then `f` on the content, then the end of the borrow.  Answers what `f` answers and the
pointer. -/
def modifyPtr {α : Type} (p : Addr) (f : Content L → Prog L (α × Content L)) : Prog L (α × Addr) :=
  Prog.bind (makeMut p) fun x =>
  Prog.bind (f x.2) fun y =>
  Prog.bind (close x.1 y.2.1 y.2.2) fun _ => .ret (y.1, x.1)

/-- Runs a program for each element and collects the answers. -/
def forAll {α β : Type} (f : α → Prog L β) : List α → Prog L (List β)
  | [] => .ret []
  | a :: as =>
    Prog.bind (f a) fun b =>
    Prog.bind (forAll f as) fun bs => .ret (b :: bs)

variable {A : Allocator L} {D : Option Nat}

theorem Safe.liftBind {α β : Type} {Q : β → List (Item L) → Prop} {r : Res α} {x : α} {f : α → Prog L β}
    {ρ : List (Item L)} (e : r = .ok x) (h : Safe A D Q (f x) ρ) : Safe A D Q ((lift r).bind f) ρ := by
  subst e
  exact h

theorem safe_modifyPtr {α : Type} (hD : Within D 1) (t : ATree L) {f : Content L → Prog L (α × Content L)}
    {P : α → L → List (ATree L) → Prop}
    (hf : Safe A D (fun r σ => ∃ ts : List (ATree L), r.2.2 = ts.map ATree.addr ∧ σ = ts.map .ptr ∧ P r.1 r.2.1 ts)
      (f (t.label, t.kids.map ATree.addr)) (t.kids.map .ptr)) :
    Safe A D (fun r σ => ∃ l ts, σ = [.ptr (.node r.2 l ts)] ∧ P r.1 l ts) (modifyPtr t.addr f) [.ptr t] := by
  refine Safe.bind (safe_makeMut t hD) ?_
  rintro ⟨q, c⟩ σ ⟨rfl, rfl⟩
  refine Safe.bindFrame (F := [.opn q]) hf (List.perm_append_singleton _ _).symm ?_
  rintro ⟨x, l, cs⟩ τ ⟨ts, e, rfl, hp⟩
  simp only at e
  subst e
  refine Safe.bind (Safe.perm (safe_close q l ts) (List.perm_append_singleton _ _)) ?_
  rintro _ _ rfl
  exact Safe.ret ⟨l, ts, rfl, hp⟩

/-- The same, if the work on the content takes more items than those of the content, or leaves more. -/
theorem safe_modifyPtrPlus {α : Type} (hD : Within D 1) (t : ATree L) {ρ : List (Item L)}
    {f : Content L → Prog L (α × Content L)} {P : α → L → List (ATree L) → List (Item L) → Prop}
    (hf : Safe A D (fun r σ => ∃ (ts : List (ATree L)) (E : List (Item L)), r.2.2 = ts.map ATree.addr ∧
      σ.Perm (ts.map .ptr ++ E) ∧ P r.1 r.2.1 ts E) (f (t.label, t.kids.map ATree.addr)) (t.kids.map .ptr ++ ρ)) :
    Safe A D (fun r σ => ∃ l ts E, σ = .ptr (.node r.2 l ts) :: E ∧ P r.1 l ts E) (modifyPtr t.addr f) (.ptr t :: ρ) := by
  refine Safe.bindFrame (F := ρ) (safe_makeMut t hD) (.refl _) ?_
  rintro ⟨q, c⟩ σ ⟨rfl, rfl⟩
  refine Safe.bindFrame (F := [.opn q]) hf (List.perm_append_singleton _ _).symm ?_
  rintro ⟨x, l, cs⟩ τ ⟨ts, E, e, hp, h⟩
  simp only at e
  subst e
  refine Safe.bindFrame (F := E) (safe_close q l ts) ((List.perm_append_singleton _ _).trans (hp.cons _)) ?_
  rintro _ _ rfl
  exact Safe.ret ⟨l, ts, E, rfl, h⟩

theorem safe_forAll {α β : Type} {f : α → Prog L β} {R : α → β → Prop} {ρ : List (Item L)}
    {as : List α} {bs : List β} (h : List.Forall₂ R as bs)
    (hf : ∀ a b, a ∈ as → R a b → Safe A D (fun r σ => r = b ∧ σ = ρ) (f a) ρ) :
    Safe A D (fun r σ => r = bs ∧ σ = ρ) (forAll f as) ρ := by
  induction h with
  | nil => exact Safe.ret ⟨rfl, rfl⟩
  | cons h1 h2 ih =>
    refine Safe.bind (hf _ _ (by simp) h1) ?_
    rintro _ _ ⟨rfl, rfl⟩
    refine Safe.bind (ih fun a b ha => hf a b (by simp [ha])) ?_
    rintro _ _ ⟨rfl, rfl⟩
    exact Safe.ret ⟨rfl, rfl⟩

/-- One of several pointers can be taken out and replaced. -/
theorem perm_take {ts : List (ATree L)} {i : Nat} {t : ATree L} (h : ts[i]? = some t) :
    ∃ F : List (Item L), (ts.map Item.ptr).Perm (.ptr t :: F) ∧ (∀ t', ((ts.set i t').map Item.ptr).Perm (.ptr t' :: F)) ∧
      ((ts.eraseIdx i).map Item.ptr).Perm F := by
  induction ts generalizing i with
  | nil => simp at h
  | cons s ts ih =>
    cases i with
    | zero =>
      simp only [List.getElem?_cons_zero, Option.some.injEq] at h
      subst h
      exact ⟨ts.map .ptr, .refl _, fun t' => .refl _, .refl _⟩
    | succ i =>
      obtain ⟨F, h1, h2, h3⟩ := ih (i := i) (by simpa using h)
      exact ⟨.ptr s :: F, (h1.cons _).trans (.swap _ _ _), fun t' => ((h2 t').cons _).trans (.swap _ _ _), h3.cons _⟩

theorem log2_mono {a b : Nat} (h : a ≤ b) : Nat.log2 (a + 1) ≤ Nat.log2 (b + 1) := by
  rw [Nat.le_log2 (by omega)]
  exact Nat.le_trans (Nat.log2_self_le (by omega)) (by omega)

theorem res_bind_ok {α β : Type} {r : Res α} {f : α → Res β} {y : β} (h : (r >>= f) = .ok y) : ∃ x, r = .ok x ∧ f x = .ok y := by
  cases r with
  | error e => cases h
  | ok x => exact ⟨x, rfl, h⟩

theorem vecIndex_map {α β : Type} (f : α → β) {xs : List α} {i : Nat} {x : α} (h : xs[i]? = some x) :
    vecIndex (xs.map f) i = .ok (f x) := by
  simp [vecIndex, h]

section forall₂
variable {α β : Type} {R : α → β → Prop} {l : List α} {m : List β}

theorem f2_length (h : List.Forall₂ R l m) : l.length = m.length := by
  induction h with
  | nil => rfl
  | cons _ _ ih => simp [ih]

theorem f2_get (h : List.Forall₂ R l m) (i : Nat) :
    (l[i]? = none ∧ m[i]? = none) ∨ ∃ a b, l[i]? = some a ∧ m[i]? = some b ∧ R a b := by
  induction h generalizing i with
  | nil => exact .inl ⟨rfl, rfl⟩
  | cons h1 h2 ih =>
    cases i with
    | zero => exact .inr ⟨_, _, rfl, rfl, h1⟩
    | succ i => simpa using ih i

theorem f2_set (h : List.Forall₂ R l m) {a : α} {b : β} (hab : R a b) (i : Nat) : List.Forall₂ R (l.set i a) (m.set i b) := by
  induction h generalizing i with
  | nil => exact .nil
  | cons h1 h2 ih =>
    cases i with
    | zero => exact .cons hab h2
    | succ i => exact .cons h1 (ih i)

theorem f2_eraseIdx (h : List.Forall₂ R l m) (i : Nat) : List.Forall₂ R (l.eraseIdx i) (m.eraseIdx i) := by
  induction h generalizing i with
  | nil => exact .nil
  | cons h1 h2 ih =>
    cases i with
    | zero => exact h2
    | succ i => exact .cons h1 (ih i)

theorem f2_append {l' : List α} {m' : List β} (h : List.Forall₂ R l m) (h' : List.Forall₂ R l' m') :
    List.Forall₂ R (l ++ l') (m ++ m') := by
  induction h with
  | nil => exact h'
  | cons h1 h2 ih => exact .cons h1 ih

theorem f2_imp {S : α → β → Prop} (h : List.Forall₂ R l m) (hi : ∀ a b, a ∈ l → R a b → S a b) : List.Forall₂ S l m := by
  induction h with
  | nil => exact .nil
  | cons h1 h2 ih => exact .cons (hi _ _ (by simp) h1) (ih fun a b ha => hi a b (by simp [ha]))

theorem f2_map_left {γ : Type} {f : γ → α} {l : List γ} (h : List.Forall₂ (fun c b => R (f c) b) l m) :
    List.Forall₂ R (l.map f) m := by
  induction h with
  | nil => exact .nil
  | cons h1 h2 ih => exact .cons h1 ih

end forall₂

/-- The heap data structure implements the pure one, and neither an operation on a value `s` nor the end of `s` nests destructors
deeper than `lim s`, beyond what a limit always allows. -/
structure Impl.Nests {H Op Ret σ : Type} (impl : Impl L H Op Ret) (A : Allocator L) (new : σ)
    (step : σ → Op → Res (Ret × Effect σ)) (R : H → σ → List (Item L) → Prop) (lim : σ → Nat) : Prop where
  new : ∀ (D : Option Nat) [Roomy D], Safe A D (fun h ρ => R h new ρ) impl.new []
  step : ∀ (D : Option Nat) [Roomy D] h s ρ op r e, R h s ρ → Within D (lim s) → step s op = .ok (r, e) →
    Safe A D (fun x τ => x.1 = r ∧ EffOwn R h s x.2 e τ) (impl.step h op) ρ
  drop : ∀ (D : Option Nat) [Roomy D] h s ρ, R h s ρ → Within D (lim s) → Safe A D (fun _ τ => τ = []) (impl.drop h) ρ
  ptrs : ∀ h s ρ, R h s ρ → ∃ ts : List (ATree L), ρ = ts.map .ptr ∧ impl.ptrs h = ts.map ATree.addr

theorem Impl.Nests.refines {H Op Ret σ : Type} {impl : Impl L H Op Ret} {new : σ} {step : σ → Op → Res (Ret × Effect σ)}
    {R : H → σ → List (Item L) → Prop} {lim : σ → Nat} (hn : impl.Nests A new step R lim) : impl.Refines A new step R where
  new := hn.new none
  step h s ρ op r e h1 := hn.step none h s ρ op r e h1 (within_none _)
  drop h s ρ h1 := hn.drop none h s ρ h1 (within_none _)
  ptrs := hn.ptrs

theorem EffOwn.imp {H σ α : Type} {R : H → σ → List (Item L) → Prop} {R' : H → α → List (Item L) → Prop} {S : σ → α → Prop}
    {h : H} {s : σ} {a : α} {e' : Effect H} {e : Effect σ} {f : Effect α} {τ : List (Item L)} (h1 : EffOwn R h s e' e τ)
    (h2 : Effect.Rel S e f) (hs : S s a) (hR : ∀ h s a ρ, R h s ρ → S s a → R' h a ρ) : EffOwn R' h a e' f τ := by
  cases h2 with
  | keep => cases h1 with | keep hk => exact .keep (hR _ _ _ _ hk hs)
  | fresh hf => cases h1 with | fresh hf' hk => exact .fresh (hR _ _ _ _ hf' hf) (hR _ _ _ _ hk hs)
  | update hu => cases h1 with | update hu' => exact .update (hR _ _ _ _ hu' hu)

/-- The same for an implementation of a structure that itself implements a simpler one. -/
theorem Impl.Nests.trans {H Op Ret σ α : Type} {impl : Impl L H Op Ret} {new : σ} {step : σ → Op → Res (Ret × Effect σ)}
    {R : H → σ → List (Item L) → Prop} {lim : σ → Nat} {S : σ → α → Prop} {new' : α} {spec : α → Op → Res (Ret × Effect α)}
    {lim' : α → Nat} (hn : impl.Nests A new step R lim) (hnew : S new new')
    (hstep : ∀ s a op r f, S s a → spec a op = .ok (r, f) → ∃ e, step s op = .ok (r, e) ∧ Effect.Rel S e f)
    (hlim : ∀ s a, S s a → lim s ≤ lim' a) : impl.Nests A new' spec (fun h a ρ => ∃ s, R h s ρ ∧ S s a) lim' where
  new D := (hn.new D).imp fun h ρ hh => ⟨new, hh, hnew⟩
  step := by
    rintro D _ h a ρ op r f ⟨s, h1, h2⟩ hD he
    obtain ⟨e, h3, h4⟩ := hstep s a op r f h2 he
    refine (hn.step D h s ρ op r e h1 (hD.mono (hlim s a h2)) h3).imp ?_
    rintro ⟨r', e'⟩ τ ⟨rfl, h5⟩
    exact ⟨rfl, h5.imp h4 h2 fun h s a ρ h6 h7 => ⟨s, h6, h7⟩⟩
  drop := by
    rintro D _ h a ρ ⟨s, h1, h2⟩ hD
    exact hn.drop D h s ρ h1 (hD.mono (hlim s a h2))
  ptrs := by
    rintro h a ρ ⟨s, h1, -⟩
    exact hn.ptrs h s ρ h1

/-- An implementation of a structure that itself implements a simpler one. -/
theorem Impl.RefinesIn.trans {H Op Ret σ α : Type} {impl : Impl L H Op Ret} {new : σ} {step : σ → Op → Res (Ret × Effect σ)}
    {R : H → σ → List (Item L) → Prop} {S : σ → α → Prop} {new' : α} {spec : α → Op → Res (Ret × Effect α)}
    (hr : impl.RefinesIn A D new step R) (hnew : S new new')
    (hstep : ∀ s a op r f, S s a → spec a op = .ok (r, f) → ∃ e, step s op = .ok (r, e) ∧ Effect.Rel S e f) :
    impl.RefinesIn A D new' spec (fun h a ρ => ∃ s, R h s ρ ∧ S s a) where
  new := hr.new.imp fun h ρ hh => ⟨new, hh, hnew⟩
  step := by
    rintro h a ρ op r f ⟨s, h1, h2⟩ he
    obtain ⟨e, h3, h4⟩ := hstep s a op r f h2 he
    refine (hr.step h s ρ op r e h1 h3).imp ?_
    rintro ⟨r', e'⟩ τ ⟨rfl, h5⟩
    exact ⟨rfl, h5.imp h4 h2 fun h s a ρ h6 h7 => ⟨s, h6, h7⟩⟩
  drop := by
    rintro h a ρ ⟨s, h1, -⟩
    exact hr.drop h s ρ h1
  ptrs := by
    rintro h a ρ ⟨s, h1, -⟩
    exact hr.ptrs h s ρ h1

/-- An implementation used through a wrapper: every operation is one operation of the implementation, and the answer is computed from
the answer. -/
def Impl.adapt {L H Op Ret Op' Ret' : Type} (impl : Impl L H Op Ret) (f : Op' → Op) (g : Ret → Ret') : Impl L H Op' Ret' where
  ptrs := impl.ptrs
  new := impl.new
  step h op := Prog.bind (impl.step h (f op)) fun x => .ret (g x.1, x.2)
  drop := impl.drop

theorem Impl.RefinesIn.adapt {H Op Ret Op' Ret' σ : Type} {impl : Impl L H Op Ret} {new : σ} {step : σ → Op → Res (Ret × Effect σ)}
    {R : H → σ → List (Item L) → Prop} (hr : impl.RefinesIn A D new step R) (f : Op' → Op) (g : Ret → Ret') :
    (impl.adapt f g).RefinesIn A D new (fun s op => (do let x ← step s (f op); .ok (g x.1, x.2) : Res _)) R where
  new := hr.new
  step := by
    intro h s ρ op r e h1 he
    cases hs : step s (f op) with
    | error x => rw [hs] at he; cases he
    | ok x =>
      rw [hs] at he
      cases he
      refine Safe.bind (hr.step h s ρ (f op) x.1 x.2 h1 hs) ?_
      rintro ⟨r', e'⟩ τ ⟨rfl, h2⟩
      exact Safe.ret ⟨rfl, h2⟩
  drop := hr.drop
  ptrs := hr.ptrs

theorem Impl.Nests.adapt {H Op Ret Op' Ret' σ : Type} {impl : Impl L H Op Ret} {new : σ} {step : σ → Op → Res (Ret × Effect σ)}
    {R : H → σ → List (Item L) → Prop} {lim : σ → Nat} (hn : impl.Nests A new step R lim) (f : Op' → Op) (g : Ret → Ret') :
    (impl.adapt f g).Nests A new (fun s op => (do let x ← step s (f op); .ok (g x.1, x.2) : Res _)) R lim where
  new := hn.new
  step := by
    intro D _ h s ρ op r e h1 hD he
    cases hs : step s (f op) with
    | error x => rw [hs] at he; cases he
    | ok x =>
      rw [hs] at he
      cases he
      refine Safe.bind (hn.step D h s ρ (f op) x.1 x.2 h1 hD hs) ?_
      rintro ⟨r', e'⟩ τ ⟨rfl, h2⟩
      exact Safe.ret ⟨rfl, h2⟩
  drop := hn.drop
  ptrs := hn.ptrs

end Heap
end Rpds
