import Verif.Heap.Threads
import Verif.Spec.History
/-
Clients: programs that own any number of handles (values of a persistent data structure), create new ones, run operations
on them and drop them, in any order.
-/
set_option autoImplicit false
namespace Rpds
namespace Heap

/-- A data structure on the heap: handles of type `H`, the pointers in a handle, how to create, use and drop handles. -/
structure Impl (L H Op Ret : Type) where
  ptrs : H → List Addr
  new : Prog L H
  step : H → Op → Prog L (Ret × Effect H)
  drop : H → Prog L Unit

/-- What a client does next.  `run i op` applies `op` to handle number `i`, `discard i` drops it. -/
inductive Cmd (Op : Type) where
  | new
  | run (i : Nat) (op : Op)
  | discard (i : Nat)

/-- Effect of an operation on the handles of a client. -/
def Effect.applyOpt {σ : Type} (vs : List (Option σ)) (i : Nat) : Effect σ → List (Option σ)
  | .keep => vs
  | .fresh s => vs ++ [some s]
  | .update s => vs.set i (some s)

/-- The client program for a list of commands; answers `none` for a handle that does not exist (any more). -/
def client {L H Op Ret : Type} (impl : Impl L H Op Ret) :
    List (Option H) → List (Cmd Op) → Prog L (List (Option Ret) × List (Option H))
  | hs, [] => .ret ([], hs)
  | hs, .new :: cmds =>
    Prog.bind impl.new fun h =>
    Prog.bind (client impl (hs ++ [some h]) cmds) fun x => .ret (none :: x.1, x.2)
  | hs, .run i op :: cmds =>
    match hs[i]? with
    | some (some h) =>
      Prog.bind (impl.step h op) fun y =>
      Prog.bind (client impl (Effect.applyOpt hs i y.2) cmds) fun x => .ret (some y.1 :: x.1, x.2)
    | _ => Prog.bind (client impl hs cmds) fun x => .ret (none :: x.1, x.2)
  | hs, .discard i :: cmds =>
    match hs[i]? with
    | some (some h) =>
      Prog.bind (impl.drop h) fun _ =>
      Prog.bind (client impl (hs.set i none) cmds) fun x => .ret (none :: x.1, x.2)
    | _ => Prog.bind (client impl hs cmds) fun x => .ret (none :: x.1, x.2)

/-- The same commands on pure values: every handle is a value of its own. -/
def pureClient {σ Op Ret : Type} (new : σ) (step : σ → Op → Res (Ret × Effect σ)) :
    List (Option σ) → List (Cmd Op) → Res (List (Option Ret) × List (Option σ))
  | vs, [] => .ok ([], vs)
  | vs, .new :: cmds => do
    let x ← pureClient new step (vs ++ [some new]) cmds
    .ok (none :: x.1, x.2)
  | vs, .run i op :: cmds =>
    match vs[i]? with
    | some (some s) => do
      let y ← step s op
      let x ← pureClient new step (Effect.applyOpt vs i y.2) cmds
      .ok (some y.1 :: x.1, x.2)
    | _ => do
      let x ← pureClient new step vs cmds
      .ok (none :: x.1, x.2)
  | vs, .discard i :: cmds =>
    match vs[i]? with
    | some (some _) => do
      let x ← pureClient new step (vs.set i none) cmds
      .ok (none :: x.1, x.2)
    | _ => do
      let x ← pureClient new step vs cmds
      .ok (none :: x.1, x.2)

/-- An operation on a handle `h` that stands for `s` had the effect `e` on the heap side and `f` on the value side; `τ` are
the items afterwards. -/
inductive EffOwn {L H σ : Type} (R : H → σ → List (Item L) → Prop) (h : H) (s : σ) :
    Effect H → Effect σ → List (Item L) → Prop where
  | keep {τ : List (Item L)} (hk : R h s τ) : EffOwn R h s .keep .keep τ
  | fresh {h' : H} {s' : σ} {τ τ' : List (Item L)} (hf : R h' s' τ) (hk : R h s τ') :
      EffOwn R h s (.fresh h') (.fresh s') (τ ++ τ')
  | update {h' : H} {s' : σ} {τ : List (Item L)} (hu : R h' s' τ) : EffOwn R h s (.update h') (.update s') τ

/-- The heap data structure implements the pure one, with destructors that nest at most `D` deep. -/
structure Impl.RefinesIn {L H Op Ret σ : Type} (impl : Impl L H Op Ret) (A : Allocator L) (D : Option Nat) (new : σ)
    (step : σ → Op → Res (Ret × Effect σ)) (R : H → σ → List (Item L) → Prop) : Prop where
  new : Safe A D (fun h ρ => R h new ρ) impl.new []
  step : ∀ h s ρ op r e, R h s ρ → step s op = .ok (r, e) →
    Safe A D (fun x τ => x.1 = r ∧ EffOwn R h s x.2 e τ) (impl.step h op) ρ
  drop : ∀ h s ρ, R h s ρ → Safe A D (fun _ τ => τ = []) (impl.drop h) ρ
  ptrs : ∀ h s ρ, R h s ρ → ∃ ts : List (ATree L), ρ = ts.map .ptr ∧ impl.ptrs h = ts.map ATree.addr

/-- The heap data structure implements the pure one. -/
abbrev Impl.Refines {L H Op Ret σ : Type} (impl : Impl L H Op Ret) (A : Allocator L) (new : σ)
    (step : σ → Op → Res (Ret × Effect σ)) (R : H → σ → List (Item L) → Prop) : Prop := impl.RefinesIn A none new step R

/-- The handles of a client stand for the values `ss`, and own exactly the items `ρ`. -/
inductive Handles {L H σ : Type} (R : H → σ → List (Item L) → Prop) :
    List (Option H) → List (Option σ) → List (Item L) → Prop where
  | nil : Handles R [] [] []
  | dead {hs : List (Option H)} {ss : List (Option σ)} {ρ : List (Item L)} (ht : Handles R hs ss ρ) :
      Handles R (none :: hs) (none :: ss) ρ
  | live {h : H} {s : σ} {hs : List (Option H)} {ss : List (Option σ)} {ρ ρ' : List (Item L)} (hh : R h s ρ)
      (ht : Handles R hs ss ρ') : Handles R (some h :: hs) (some s :: ss) (ρ ++ ρ')

section
variable {L H Op Ret σ : Type} {R : H → σ → List (Item L) → Prop}

theorem Handles.snoc {hs : List (Option H)} {ss : List (Option σ)} {ρ ρ' : List (Item L)} (h : Handles R hs ss ρ) {x : H}
    {s : σ} (hx : R x s ρ') : Handles R (hs ++ [Option.some x]) (ss ++ [Option.some s]) (ρ ++ ρ') := by
  induction h with
  | nil => simpa using Handles.live hx .nil
  | dead ht ih => exact .dead ih
  | live hh ht ih => rw [List.append_assoc]; exact .live hh ih

theorem Handles.get {hs : List (Option H)} {ss : List (Option σ)} {ρ : List (Item L)} (h : Handles R hs ss ρ) (i : Nat) :
    (∃ x s ρ₁ ρ₂, hs[i]? = some (some x) ∧ ss[i]? = some (some s) ∧ R x s ρ₁ ∧ ρ.Perm (ρ₁ ++ ρ₂) ∧
      (∀ x' s' ρ', R x' s' ρ' → ∃ ρ'', ρ''.Perm (ρ' ++ ρ₂) ∧ Handles R (hs.set i (some x')) (ss.set i (some s')) ρ'') ∧
      (∃ ρ'', ρ''.Perm ρ₂ ∧ Handles R (hs.set i none) (ss.set i none) ρ'')) ∨
    ((∀ x, hs[i]? ≠ some (some x)) ∧ (∀ s, ss[i]? ≠ some (some s))) := by
  induction h generalizing i with
  | nil => exact .inr ⟨by simp, by simp⟩
  | dead ht ih =>
    cases i with
    | zero => exact .inr ⟨by simp, by simp⟩
    | succ i =>
      rcases ih i with ⟨x, s, ρ₁, ρ₂, h1, h2, h3, h4, h5, ρ'', h6, h7⟩ | ⟨h1, h2⟩
      · refine .inl ⟨x, s, ρ₁, ρ₂, by simpa using h1, by simpa using h2, h3, h4, ?_, ρ'', h6, .dead h7⟩
        intro x' s' ρ' hr
        obtain ⟨ρ'', h8, h9⟩ := h5 x' s' ρ' hr
        exact ⟨ρ'', h8, .dead h9⟩
      · exact .inr ⟨by simpa using h1, by simpa using h2⟩
  | @live y t hs ss ρ ρ' hh ht ih =>
    cases i with
    | zero =>
      refine .inl ⟨y, t, ρ, ρ', rfl, rfl, hh, .refl _, ?_, ρ', .refl _, .dead ht⟩
      intro x' s' ρ'' hr
      exact ⟨_, .refl _, .live hr ht⟩
    | succ i =>
      rcases ih i with ⟨x, s, ρ₁, ρ₂, h1, h2, h3, h4, h5, ρ'', h6, h7⟩ | ⟨h1, h2⟩
      · refine .inl ⟨x, s, ρ₁, ρ ++ ρ₂, by simpa using h1, by simpa using h2, h3, ?_, ?_, ρ ++ ρ'',
          h6.append_left ρ, .live hh h7⟩
        · refine (h4.append_left ρ).trans ?_
          perm_tac
        · intro x' s' ρ'' hr
          obtain ⟨ρ₃, h8, h9⟩ := h5 x' s' ρ'' hr
          refine ⟨ρ ++ ρ₃, (h8.append_left ρ).trans ?_, .live hh h9⟩
          perm_tac
      · exact .inr ⟨by simpa using h1, by simpa using h2⟩

variable {A : Allocator L} {D : Option Nat}

theorem set_self {α : Type} {xs : List α} {i : Nat} {x : α} (h : xs[i]? = some x) : xs.set i x = xs := by
  induction xs generalizing i with
  | nil => rfl
  | cons y ys ih =>
    cases i with
    | zero => simp at h; simp [h]
    | succ i => simp at h; simp [ih h]

/-- Clients of a correct data structure get the answers of the pure one. -/
theorem safe_client {impl : Impl L H Op Ret} {new : σ} {step : σ → Op → Res (Ret × Effect σ)}
    (hr : impl.RefinesIn A D new step R) (cmds : List (Cmd Op)) {hs : List (Option H)} {ss : List (Option σ)}
    {ρ : List (Item L)} (h : Handles R hs ss ρ) {rs : List (Option Ret)} {ss' : List (Option σ)}
    (he : pureClient new step ss cmds = .ok (rs, ss')) :
    Safe A D (fun x τ => x.1 = rs ∧ ∃ τ', τ.Perm τ' ∧ Handles R x.2 ss' τ') (client impl hs cmds) ρ := by
  induction cmds generalizing hs ss ρ rs with
  | nil =>
    simp only [pureClient, Except.ok.injEq, Prod.mk.injEq] at he
    obtain ⟨rfl, rfl⟩ := he
    exact Safe.ret ⟨rfl, ρ, .refl _, h⟩
  | cons c cmds ih =>
    have fin : ∀ {hs' : List (Option H)} {ss₁ : List (Option σ)} {ρ' : List (Item L)} {a : Option Ret}
        {rs₁ : List (Option Ret)}, (∃ ρ'', ρ'.Perm ρ'' ∧ Handles R hs' ss₁ ρ'') →
        pureClient new step ss₁ cmds = .ok (rs₁, ss') →
        Safe A D (fun x τ => x.1 = a :: rs₁ ∧ ∃ τ', τ.Perm τ' ∧ Handles R x.2 ss' τ')
          (Prog.bind (client impl hs' cmds) fun x => .ret (a :: x.1, x.2)) ρ' := by
      rintro hs' ss₁ ρ' a rs₁ ⟨ρ'', hp, h'⟩ he'
      refine Safe.bind ((ih h' he').perm hp) ?_
      rintro ⟨x1, x2⟩ τ ⟨rfl, h2⟩
      exact Safe.ret ⟨rfl, h2⟩
    have split : ∀ {ss₁ : List (Option σ)} {a : Option Ret}, (do
        let x ← pureClient new step ss₁ cmds
        .ok (a :: x.1, x.2) : Res _) = .ok (rs, ss') → ∃ rs₁, pureClient new step ss₁ cmds = .ok (rs₁, ss') ∧
          rs = a :: rs₁ := by
      intro ss₁ a he
      cases hp : pureClient new step ss₁ cmds with
      | error e => simp [hp] at he
      | ok x =>
        obtain ⟨x1, x2⟩ := x
        simp [hp] at he
        obtain ⟨rfl, rfl⟩ := he
        exact ⟨x1, rfl, rfl⟩
    cases c with
    | new =>
      obtain ⟨rs₁, he', rfl⟩ := split (by simpa only [pureClient] using he)
      refine Safe.bindFrame (ρ := []) (F := ρ) hr.new (by simp) ?_
      intro x τ hx
      exact fin ⟨_, List.perm_append_comm, h.snoc hx⟩ he'
    | run i op =>
      simp only [client, pureClient] at he ⊢
      rcases h.get i with ⟨x, s, ρ₁, ρ₂, h1, h2, h3, h4, h5, -⟩ | ⟨h1, h2⟩
      · simp only [h1, h2] at he ⊢
        cases hst : step s op with
        | error e => simp [hst] at he
        | ok y =>
          obtain ⟨r, e⟩ := y
          simp only [hst, Res.ok_bind] at he
          obtain ⟨rs₁, he', rfl⟩ := split he
          refine Safe.bindFrame (F := ρ₂) (hr.step x s ρ₁ op r e h3 hst) h4 ?_
          rintro ⟨r', e'⟩ τ ⟨rfl, heff⟩
          refine fin ?_ he'
          cases heff with
          | keep hk =>
            obtain ⟨ρ₃, h8, h9⟩ := h5 _ _ _ hk
            refine ⟨ρ₃, h8.symm, ?_⟩
            have e1 := set_self h1
            have e2 := set_self h2
            rw [e1, e2] at h9
            exact h9
          | @fresh h' s' τ₁ τ₂ hf hk =>
            obtain ⟨ρ₃, h8, h9⟩ := h5 _ _ _ hk
            have e1 := set_self h1
            have e2 := set_self h2
            rw [e1, e2] at h9
            refine ⟨ρ₃ ++ τ₁, ?_, h9.snoc hf⟩
            refine List.Perm.trans ?_ (h8.symm.append_right τ₁)
            perm_tac
          | update hu =>
            obtain ⟨ρ₃, h8, h9⟩ := h5 _ _ _ hu
            exact ⟨ρ₃, h8.symm, h9⟩
      · have e1 : ∀ (P : Prog L (List (Option Ret) × List (Option H))) (f : H → Prog L (List (Option Ret) × List (Option H))),
            (match hs[i]? with | some (some h) => f h | _ => P) = P := by
          intro P f
          split
          · next h' => exact absurd h' (h1 _)
          · rfl
        have e2 : ∀ (P : Res (List (Option Ret) × List (Option σ))) (f : σ → Res (List (Option Ret) × List (Option σ))),
            (match ss[i]? with | some (some h) => f h | _ => P) = P := by
          intro P f
          split
          · next h' => exact absurd h' (h2 _)
          · rfl
        rw [e2] at he
        rw [e1]
        obtain ⟨rs₁, he', rfl⟩ := split he
        exact fin ⟨ρ, .refl _, h⟩ he'
    | discard i =>
      simp only [client, pureClient] at he ⊢
      rcases h.get i with ⟨x, s, ρ₁, ρ₂, h1, h2, h3, h4, -, ρ₃, h5, h6⟩ | ⟨h1, h2⟩
      · simp only [h1, h2] at he ⊢
        obtain ⟨rs₁, he', rfl⟩ := split he
        refine Safe.bindFrame (F := ρ₂) (hr.drop x s ρ₁ h3) h4 ?_
        rintro _ _ rfl
        exact fin ⟨ρ₃, h5.symm, h6⟩ he'
      · have e1 : ∀ (P : Prog L (List (Option Ret) × List (Option H))) (f : H → Prog L (List (Option Ret) × List (Option H))),
            (match hs[i]? with | some (some h) => f h | _ => P) = P := by
          intro P f
          split
          · next h' => exact absurd h' (h1 _)
          · rfl
        have e2 : ∀ (P : Res (List (Option Ret) × List (Option σ))) (f : σ → Res (List (Option Ret) × List (Option σ))),
            (match ss[i]? with | some (some h) => f h | _ => P) = P := by
          intro P f
          split
          · next h' => exact absurd h' (h2 _)
          · rfl
        rw [e2] at he
        rw [e1]
        obtain ⟨rs₁, he', rfl⟩ := split he
        exact fin ⟨ρ, .refl _, h⟩ he'

end
end Heap
end Rpds
