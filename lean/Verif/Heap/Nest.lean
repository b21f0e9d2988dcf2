import Verif.Heap.System
import Verif.Heap.Tree
/-
Clients whose values all stay below a limit run with destructors that nest no deeper than that limit.
-/
set_option autoImplicit false
namespace Rpds
namespace Heap
variable {L H Op Ret σ : Type}

/-- The value that an operation creates or writes satisfies `P`. -/
def Effect.All (P : σ → Prop) : Effect σ → Prop
  | .keep => True
  | .fresh s => P s
  | .update s => P s

instance (P : σ → Prop) [DecidablePred P] (e : Effect σ) : Decidable (Effect.All P e) := by
  cases e <;> simp only [Effect.All] <;> infer_instance

/-- The operations that create no value outside `P`; the others are not answered. -/
def within (P : σ → Prop) [DecidablePred P] (step : σ → Op → Res (Ret × Effect σ)) (s : σ) (op : Op) : Res (Ret × Effect σ) := do
  let x ← step s op
  if Effect.All P x.2 then .ok x else .error .unreachable

/-- Every value that any handle of the client ever has satisfies `P`. -/
def Stay (P : σ → Prop) (new : σ) (step : σ → Op → Res (Ret × Effect σ)) (ss : List (Option σ)) (cmds : List (Cmd Op)) : Prop :=
  ∀ (k : Nat) (rs : List (Option Ret)) (ss' : List (Option σ)), pureClient new step ss (cmds.take k) = .ok (rs, ss') →
    ∀ s, some s ∈ ss' → P s

section
variable {new : σ} {step : σ → Op → Res (Ret × Effect σ)} {ss : List (Option σ)} {i : Nat}

theorem pureClient_run_dead (op : Op) (cmds : List (Cmd Op)) (hi : ∀ s, ss[i]? = some (some s) → False) :
    pureClient new step ss (.run i op :: cmds) = (pureClient new step ss cmds >>= fun x => .ok (none :: x.1, x.2)) := by
  cases h : ss[i]? with
  | none => simp [pureClient, h]
  | some x =>
    cases x with
    | none => simp [pureClient, h]
    | some s => exact absurd h (hi s)

theorem pureClient_discard_dead (cmds : List (Cmd Op)) (hi : ∀ s, ss[i]? = some (some s) → False) :
    pureClient new step ss (.discard i :: cmds) = (pureClient new step ss cmds >>= fun x => .ok (none :: x.1, x.2)) := by
  cases h : ss[i]? with
  | none => simp [pureClient, h]
  | some x =>
    cases x with
    | none => simp [pureClient, h]
    | some s => exact absurd h (hi s)

end

theorem Stay.within {P : σ → Prop} [DecidablePred P] {new : σ} {step : σ → Op → Res (Ret × Effect σ)} (cmds : List (Cmd Op)) :
    ∀ {ss : List (Option σ)} {rs : List (Option Ret)} {ss' : List (Option σ)}, Stay P new step ss cmds →
    pureClient new step ss cmds = .ok (rs, ss') → pureClient new (Heap.within P step) ss cmds = .ok (rs, ss') := by
  induction cmds with
  | nil => intro ss rs ss' _ he; exact he
  | cons cmd cmds ih =>
    intro ss rs ss' hs he
    cases cmd with
    | new =>
      obtain ⟨⟨r1, s1⟩, h1, h2⟩ := res_bind_ok he
      simp only [pureClient]
      rw [ih (fun k r2 s2 h3 => hs (k + 1) (none :: r2) s2 (by simp [pureClient, h3])) h1]
      exact h2
    | run i op =>
      simp only [pureClient] at he ⊢
      split at he
      · next s hi =>
        obtain ⟨⟨r, e⟩, h1, h2⟩ := res_bind_ok he
        obtain ⟨⟨r1, s1⟩, h3, h4⟩ := res_bind_ok h2
        have h0 := hs 1 [some r] (Effect.applyOpt ss i e) (by simp [pureClient, hi, h1])
        have hP : Effect.All P e := by
          cases e with
          | keep => trivial
          | fresh s' => exact h0 s' (by simp [Effect.applyOpt])
          | update s' => exact h0 s' (List.mem_set (h := (List.getElem?_eq_some_iff.1 hi).1) ..)
        simp only [Heap.within, h1, Res.ok_bind, hP, if_true]
        rw [ih (fun k r2 s2 h5 => hs (k + 1) (some r :: r2) s2 (by simp [pureClient, hi, h1, h5])) h3]
        exact h4
      · next hi =>
        obtain ⟨⟨r1, s1⟩, h3, h4⟩ := res_bind_ok he
        rw [ih (fun k r2 s2 h5 => hs (k + 1) (none :: r2) s2 (by
          rw [List.take_succ_cons, pureClient_run_dead _ _ hi, h5]; rfl)) h3]
        exact h4
    | discard i =>
      simp only [pureClient] at he ⊢
      split at he
      · next s hi =>
        obtain ⟨⟨r1, s1⟩, h3, h4⟩ := res_bind_ok he
        rw [ih (fun k r2 s2 h5 => hs (k + 1) (none :: r2) s2 (by simp [pureClient, hi, h5])) h3]
        exact h4
      · next hi =>
        obtain ⟨⟨r1, s1⟩, h3, h4⟩ := res_bind_ok he
        rw [ih (fun k r2 s2 h5 => hs (k + 1) (none :: r2) s2 (by
          rw [List.take_succ_cons, pureClient_discard_dead _ hi, h5]; rfl)) h3]
        exact h4

theorem Impl.Nests.refinesIn {impl : Impl L H Op Ret} {A : Allocator L} {new : σ} {step : σ → Op → Res (Ret × Effect σ)}
    {R : H → σ → List (Item L) → Prop} {lim : σ → Nat} (hn : impl.Nests A new step R lim) {n : Nat} (h3 : 3 ≤ n) (h0 : lim new ≤ n) :
    impl.RefinesIn A (some n) new (within (fun s => lim s ≤ n) step) (fun h s ρ => R h s ρ ∧ lim s ≤ n) := by
  have : Roomy (some n) := ⟨by intro d hd; cases hd; exact h3⟩
  have hw : ∀ s, lim s ≤ n → Within (some n) (lim s) := by intro s hs d hd; cases hd; exact hs
  refine ⟨(hn.new (some n)).imp fun h ρ hh => ⟨hh, h0⟩, ?_, ?_, ?_⟩
  · rintro h s ρ op r e ⟨h1, h2⟩ he
    obtain ⟨x, h4, h5⟩ := res_bind_ok he
    split at h5
    · next hP =>
      cases h5
      refine (hn.step (some n) h s ρ op r e h1 (hw s h2) h4).imp ?_
      rintro ⟨y, e'⟩ τ ⟨h6, h7⟩
      refine ⟨h6, ?_⟩
      cases h7 with
      | keep hk => exact .keep ⟨hk, h2⟩
      | fresh hf hk => exact .fresh ⟨hf, hP⟩ ⟨hk, h2⟩
      | update hu => exact .update ⟨hu, hP⟩
    · cases h5
  · rintro h s ρ ⟨h1, h2⟩
    exact hn.drop (some n) h s ρ h1 (hw s h2)
  · rintro h s ρ ⟨h1, h2⟩
    exact hn.ptrs h s ρ h1

/-- A client that runs alone, with the nesting of its destructors. -/
theorem Impl.RefinesIn.runsIn {impl : Impl L H Op Ret} {A : Allocator L} {D : Option Nat} {new : σ} {step : σ → Op → Res (Ret × Effect σ)}
    {R : H → σ → List (Item L) → Prop} (hr : impl.RefinesIn A D new step R) {cmds : List (Cmd Op)} {rs : List (Option Ret)}
    {ss : List (Option σ)} (he : pureClient new step [] cmds = .ok (rs, ss)) :
    ∃ hs h d ρ, Runs A (client impl [] cmds) [] (rs, hs) h d ∧ Handles R hs ss ρ ∧ Own h ρ ∧ Within D d := by
  obtain ⟨⟨r1, r2⟩, h', d, σ, e1, ⟨rfl, τ', e3, e4⟩, e5, e6⟩ :=
    (safe_client hr cmds .nil he).runs (F := []) (h := []) Own.empty
  exact ⟨r2, h', d, τ', e1, e4, by simpa using e5.perm (by simpa using e3), e6⟩

theorem System.deepest {impl : Impl L H Op Ret} {A : Allocator L} {D : Option Nat} {R : H → σ → List (Item L) → Prop}
    {rss : List (List (Option Ret))} {sss : List (List (Option σ))}
    {hF : List (Option H)} {Fs : List (Option σ)} {ths : List (Thread L (List (Option Ret) × List (Option H)))} {h : Mem L}
    (sys : System impl A D R rss sss hF Fs ths h) {i : Nat} {th : Thread L (List (Option Ret) × List (Option H))}
    (hi : ths[i]? = some th) : Within D th.deepest := by
  obtain ⟨⟨own, F, ss, hh⟩, l1, l2⟩ := sys
  have hlt : i < ths.length := (List.getElem?_eq_some_iff.1 hi).1
  have hl2 : own[i]? = some (own[i]'(by have := ss.len; omega)) := List.getElem?_eq_getElem _
  exact (ss.safe i th _ hi hl2).deepest

end Heap
end Rpds
