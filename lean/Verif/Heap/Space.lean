import Verif.Heap.Cost
import Verif.Heap.Depth
/-
How much memory is in use, and how much a program can add to it.
-/
set_option autoImplicit false
namespace Rpds
namespace Heap
variable {L α β : Type} {A : Allocator L}

/-- Whether a cell is in use. -/
def Cell.used : Cell L → Bool
  | .free => false
  | _ => true

/-- The number of cells in use. -/
def live (h : Mem L) : Nat := h.countP Cell.used

theorem live_put (h : Mem L) (a : Addr) (c : Cell L) :
    live (put h a c) + (if (get h a).used then 1 else 0) = live h + (if c.used then 1 else 0) := by
  induction h generalizing a with
  | nil =>
    induction a with
    | zero => simp [put, live, get, Cell.used, List.countP_cons]
    | succ a ih =>
      simp only [put, live, List.countP_cons, get] at ih ⊢
      simpa [Cell.used] using ih
  | cons d h ih =>
    cases a with
    | zero => simp [put, live, get, List.countP_cons]; omega
    | succ a =>
      have := ih a
      have hg : get (d :: h) (a + 1) = get h a := rfl
      rw [hg]
      simp only [put, live, List.countP_cons] at this ⊢
      omega

theorem live_put_le (h : Mem L) (a : Addr) (c : Cell L) (hu : (get h a).used = true) : live (put h a c) ≤ live h := by
  have := live_put h a c
  rw [hu] at this
  by_cases hc : c.used <;> simp [hc] at this <;> omega

theorem live_put_le_succ (h : Mem L) (a : Addr) (c : Cell L) : live (put h a c) ≤ live h + 1 := by
  have := live_put h a c
  by_cases hc : c.used <;> by_cases hu : (get h a).used <;> simp [hc, hu] at this <;> omega

theorem live_decr {p : Addr} {h h' : Mem L} {cs : List Addr} (e : decr p h = .ok (cs, h')) : live h' ≤ live h := by
  unfold decr at e
  split at e
  · next n l ds hg =>
    split at e
    · cases e; exact live_put_le _ _ _ (by rw [hg]; rfl)
    · cases e; exact live_put_le _ _ _ (by rw [hg]; rfl)
  · cases e

/-- The number of cells an action allocates. -/
def Act.allocs : Act L → Nat
  | .new _ _ | .newOpen => 1
  | _ => 0

theorem live_act {a : Act L} {y : Resp a} {h h' : Mem L} (e : act A a h = .ok (y, h')) : live h' ≤ live h + a.allocs := by
  cases a with
  | new l cs => cases e; exact live_put_le_succ _ _ _
  | newOpen => cases e; exact live_put_le_succ _ _ _
  | clone p =>
    simp only [act] at e
    split at e
    · next hg => cases e; exact live_put_le _ _ _ (by rw [hg]; rfl)
    · cases e
  | read p =>
    simp only [act] at e
    split at e
    · cases e; exact Nat.le_refl _
    · cases e
  | tryOpen p =>
    simp only [act] at e
    split at e
    · next hg =>
      split at e
      · cases e; exact live_put_le _ _ _ (by rw [hg]; rfl)
      · cases e; exact Nat.le_refl _
    · cases e
  | close p l cs =>
    simp only [act] at e
    split at e
    · next hg => cases e; exact live_put_le _ _ _ (by rw [hg]; rfl)
    · cases e
  | tryTake p =>
    simp only [act] at e
    split at e
    · next hg =>
      split at e
      · cases e; exact live_put_le _ _ _ (by rw [hg]; rfl)
      · cases e; exact Nat.le_refl _
    · cases e

/-- `prog` allocates at most `n` cells, whatever the actions answer; `Q` holds of the result and what is left of `n`. -/
def Allocs (Q : α → Nat → Prop) : Prog L α → Nat → Prop
  | .ret r, n => Q r n
  | .panic, _ => True
  | .op a k, n => a.allocs ≤ n ∧ ∀ y, Allocs Q (k y) (n - a.allocs)
  | .drop _ k, n => Allocs Q k n

theorem Allocs.imp {Q R : α → Nat → Prop} {prog : Prog L α} {n : Nat} (h : Allocs Q prog n) (hq : ∀ r n, Q r n → R r n) :
    Allocs R prog n := by
  induction prog generalizing n with
  | ret r => exact hq _ _ h
  | panic => trivial
  | op a k ih => exact ⟨h.1, fun y => ih y (h.2 y)⟩
  | drop p k ih => exact ih h

/-- A larger limit does no harm. -/
theorem Allocs.mono {Q : α → Prop} {prog : Prog L α} {n m : Nat} (h : Allocs (fun r _ => Q r) prog n) (hm : n ≤ m) :
    Allocs (fun r _ => Q r) prog m := by
  induction prog generalizing n m with
  | ret r => exact h
  | panic => trivial
  | op a k ih => exact ⟨Nat.le_trans h.1 hm, fun y => ih y (h.2 y) (by omega)⟩
  | drop p k ih => exact ih h hm

theorem Allocs.bind {Q : α → Nat → Prop} {R : β → Nat → Prop} {prog : Prog L α} {f : α → Prog L β} {n : Nat} (h : Allocs Q prog n)
    (hf : ∀ r n, Q r n → Allocs R (f r) n) : Allocs R (prog.bind f) n := by
  induction prog generalizing n with
  | ret r => exact hf _ _ h
  | panic => trivial
  | op a k ih => exact ⟨h.1, fun y => ih y (h.2 y)⟩
  | drop p k ih => exact ih h

/-- A program that touches at most `n` cells allocates at most `n`. -/
theorem Cost.allocs {Q : α → Nat → Nat → Prop} {x : L → Nat} (hx : ∀ l, x l = 0) {prog : Prog L α} {n c : Nat} (h : Cost x Q prog n c) {m : Nat} (hm : n ≤ m) :
    Allocs (fun _ _ => True) prog m := by
  induction prog generalizing n c m with
  | ret r => trivial
  | panic => trivial
  | drop p k ih => exact ih h.2 (by omega)
  | op a k ih =>
    cases a with
    | clone p => exact ⟨Nat.zero_le _, fun y => ih y (h.2 y) (by simpa [Act.allocs] using hm)⟩
    | read p =>
      refine ⟨Nat.zero_le _, fun y => ih y (h.2 y) ?_⟩
      have := hx y.1
      simp only [Act.allocs]
      omega
    | tryOpen p =>
      obtain ⟨h1, h2, h3⟩ := h
      refine ⟨Nat.zero_le _, fun y => ?_⟩
      simp only [Act.allocs]
      cases y with
      | none => exact ih none h2 (by omega)
      | some z =>
        have := hx z.1
        exact ih (some z) (h3 z) (by omega)
    | new l cs =>
      obtain ⟨h1, h2⟩ := h
      exact ⟨by simp only [Act.allocs]; omega, fun y => ih y (h2 y) (by simp only [Act.allocs]; omega)⟩
    | newOpen =>
      obtain ⟨h1, h2⟩ := h
      exact ⟨by simp only [Act.allocs]; omega, fun y => ih y (h2 y) (by simp only [Act.allocs]; omega)⟩
    | close p l cs => exact ⟨Nat.zero_le _, fun y => ih y (h.2 y) (by simp only [Act.allocs]; omega)⟩
    | tryTake p => exact ⟨Nat.zero_le _, fun y => ih y (h.2 y) (by simp only [Act.allocs]; omega)⟩

theorem Allocs.step {Q : α → Nat → Prop} {th th' : Thread L α} {h h' : Mem L} {n : Nat} (hp : Allocs Q th.prog n)
    (e : th.step A h = .ok (th', h')) : ∃ n', Allocs Q th'.prog n' ∧ live h' + n' ≤ live h + n := by
  obtain ⟨pd, d, prog⟩ := th
  cases pd with
  | cons x pd =>
    obtain ⟨k, p⟩ := x
    simp only [Thread.step] at e
    cases hd : decr p h with
    | error x => simp [hd] at e
    | ok y =>
      obtain ⟨cs, h1⟩ := y
      simp only [hd, Except.ok.injEq, Prod.mk.injEq] at e
      obtain ⟨rfl, rfl⟩ := e
      exact ⟨n, hp, by have := live_decr hd; omega⟩
  | nil =>
    cases prog with
    | ret r => cases e; exact ⟨n, hp, Nat.le_refl _⟩
    | panic => cases e
    | drop p k => cases e; exact ⟨n, hp, Nat.le_refl _⟩
    | op a k =>
      simp only [Thread.step] at e
      cases hd : act A a h with
      | error x => simp [hd] at e
      | ok y =>
        obtain ⟨x, h1⟩ := y
        simp only [hd, Except.ok.injEq, Prod.mk.injEq] at e
        obtain ⟨rfl, rfl⟩ := e
        refine ⟨_, hp.2 x, ?_⟩
        have := live_act hd
        have := hp.1
        omega

theorem Allocs.runAlone {Q : α → Nat → Prop} {th' : Thread L α} {h' : Mem L} (m : Nat) : ∀ {th : Thread L α} {h : Mem L} {n : Nat},
    Allocs Q th.prog n → runAlone A m th h = .ok (th', h') → ∃ n', Allocs Q th'.prog n' ∧ live h' + n' ≤ live h + n := by
  induction m with
  | zero =>
    intro th h n hp e
    cases e
    exact ⟨n, hp, Nat.le_refl _⟩
  | succ m ih =>
    intro th h n hp e
    simp only [Heap.runAlone] at e
    cases hs : th.step A h with
    | error x => simp [hs] at e
    | ok y =>
      obtain ⟨th1, h1⟩ := y
      simp only [hs] at e
      obtain ⟨n1, hp1, l1⟩ := hp.step hs
      obtain ⟨n2, hp2, l2⟩ := ih hp1 e
      exact ⟨n2, hp2, by omega⟩

/-- A program that allocates at most `n` cells adds at most `n` cells to the memory in use. -/
theorem Allocs.runs {Q : α → Nat → Prop} {prog : Prog L α} {h h' : Mem L} {r : α} {d n : Nat} (hp : Allocs Q prog n)
    (e : Runs A prog h r h' d) : ∃ n', Q r n' ∧ live h' + n' ≤ live h + n := by
  obtain ⟨m, e⟩ := e
  exact hp.runAlone m (th := .start prog) e

/-! ### Adding up -/

/-- At most `a` of the `n` cells are used up. -/
def Uses (α : Type) (n a : Nat) (_ : α) (n' : Nat) : Prop := n ≤ n' + a

theorem Allocs.ret' {r : α} {n a n' : Nat} (h1 : n ≤ n' + a) : Allocs (L := L) (Uses α n a) (.ret r) n' := h1
theorem Allocs.panic {Q : α → Nat → Prop} {n : Nat} : Allocs (L := L) Q .panic n := trivial
theorem Allocs.assoc {γ : Type} {Q : γ → Nat → Prop} {p : Prog L α} {f : α → Prog L β} {g : β → Prog L γ} {n : Nat}
    (h : Allocs Q (p.bind fun y => (f y).bind g) n) : Allocs Q ((p.bind f).bind g) n := by rwa [Prog.bind_assoc]
theorem Allocs.retBind {Q : β → Nat → Prop} {r : α} {f : α → Prog L β} {n : Nat} (h : Allocs Q (f r) n) :
    Allocs Q ((Prog.ret r).bind f) n := h
theorem Allocs.panicBind {Q : β → Nat → Prop} {f : α → Prog L β} {n : Nat} : Allocs Q ((Prog.panic : Prog L α).bind f) n := trivial
theorem Allocs.mpure {r : α} {n a n' : Nat} (h1 : n ≤ n' + a) : Allocs (L := L) (Uses α n a) (pure r) n' := h1
theorem Allocs.mbind {Q : α → Nat → Prop} {R : β → Nat → Prop} {prog : Prog L α} {f : α → Prog L β} {n : Nat}
    (h : Allocs Q prog n) (hf : ∀ r n', Q r n' → Allocs R (f r) n') : Allocs R (prog >>= f) n := Allocs.bind h hf
theorem Allocs.massoc {γ : Type} {Q : γ → Nat → Prop} {p : Prog L α} {f : α → Prog L β} {g : β → Prog L γ} {n : Nat}
    (h : Allocs Q (p >>= fun y => f y >>= g) n) : Allocs Q ((p >>= f) >>= g) n := Allocs.assoc h
theorem Allocs.mretBind {Q : β → Nat → Prop} {r : α} {f : α → Prog L β} {n : Nat} (h : Allocs Q (f r) n) :
    Allocs Q (pure r >>= f) n := h
theorem Allocs.mpanicBind {Q : β → Nat → Prop} {f : α → Prog L β} {n : Nat} : Allocs Q ((Prog.panic : Prog L α) >>= f) n := trivial

/-- What a call allocates, by one of the lemmas known so far. -/
syntax "alloc_lem" : tactic

/-- Sums up the allocations of a program. -/
macro "alloc_go" : tactic => `(tactic| repeat' first
  | with_reducible exact Allocs.panic
  | with_reducible exact Allocs.mpanicBind
  | with_reducible exact Allocs.panicBind
  | ((with_reducible refine Allocs.mpure ?_) <;> ((try simp only [Uses] at *) <;> omega))
  | ((with_reducible refine Allocs.ret' ?_) <;> ((try simp only [Uses] at *) <;> omega))
  | ((with_reducible apply Allocs.mbind); focus alloc_lem
     rintro _ _ _; try dsimp only)
  | ((with_reducible apply Allocs.bind); focus alloc_lem
     rintro _ _ _; try dsimp only)
  | with_reducible refine Allocs.mretBind ?_
  | with_reducible refine Allocs.retBind ?_
  | with_reducible refine Allocs.massoc ?_
  | with_reducible refine Allocs.assoc ?_
  | split
  | ((with_reducible apply Allocs.imp); focus alloc_lem
     rintro _ _ _; (try simp only [Uses] at *); omega))

variable {n : Nat}

theorem allocs_new {l : L} {cs : List Addr} (h1 : 1 ≤ n) : Allocs (Uses Addr n 1) (new l cs) n :=
  ⟨h1, fun _ => by simp only [Allocs, Uses, Act.allocs]; omega⟩
theorem allocs_clone {p : Addr} : Allocs (L := L) (Uses Unit n 0) (clone p) n := ⟨Nat.zero_le _, fun _ => Nat.le_refl _⟩
theorem allocs_read {p : Addr} : Allocs (L := L) (Uses _ n 0) (read p) n := ⟨Nat.zero_le _, fun _ => Nat.le_refl _⟩
theorem allocs_close {p : Addr} {l : L} {cs : List Addr} : Allocs (Uses Unit n 0) (close p l cs) n := ⟨Nat.zero_le _, fun _ => Nat.le_refl _⟩
theorem allocs_tryTake {p : Addr} : Allocs (L := L) (Uses _ n 0) (tryTake p) n := ⟨Nat.zero_le _, fun _ => Nat.le_refl _⟩
theorem allocs_drop {p : Addr} : Allocs (L := L) (Uses Unit n 0) (drop p) n := Nat.le_refl _

theorem allocs_cloneAll {cs : List Addr} : Allocs (L := L) (Uses Unit n 0) (cloneAll cs) n := by
  induction cs with
  | nil => exact Nat.le_refl _
  | cons a cs ih => exact ⟨Nat.zero_le _, fun _ => ih⟩

/-- `make_mut` allocates at most one cell. -/
theorem allocs_makeMut {p : Addr} (h1 : 1 ≤ n) : Allocs (L := L) (Uses _ n 1) (makeMut p) n := by
  refine Allocs.bind (Q := Uses _ n 0) ⟨Nat.zero_le _, fun _ => Nat.le_refl _⟩ ?_
  rintro (_ | z) n' h
  · refine Allocs.bind allocs_read ?_
    rintro y n2 h2
    refine Allocs.bind allocs_cloneAll ?_
    rintro _ n3 h3
    simp only [Uses] at h h2 h3
    refine Allocs.bind (Q := Uses _ n3 1) ⟨show 1 ≤ n3 by omega, fun _ => by simp only [Allocs, Uses, Act.allocs]; omega⟩ ?_
    rintro q n4 h4
    refine Allocs.bind allocs_drop ?_
    rintro _ n5 h5
    simp only [Uses] at *
    exact Allocs.ret' (by omega)
  · simp only [Uses] at h
    exact Allocs.ret' (by omega)

theorem allocs_lift {r : Res α} : Allocs (L := L) (Uses α n 0) (lift r) n := by
  cases r with
  | ok y => exact Nat.le_refl _
  | error e => trivial

theorem allocs_cloneOpt {p : Option Addr} : Allocs (L := L) (Uses Unit n 0) (cloneOpt p) n := by
  cases p with
  | none => exact Nat.le_refl _
  | some p => exact allocs_clone
theorem allocs_dropOpt {p : Option Addr} : Allocs (L := L) (Uses Unit n 0) (dropOpt p) n := by
  cases p with
  | none => exact Nat.le_refl _
  | some p => exact allocs_drop

/-- A write through a pointer allocates one more than the write itself. -/
theorem allocs_modifyPtr {p : Addr} {f : Content L → Prog L (α × Content L)} {a : Nat} (h1 : a + 1 ≤ n)
    (hf : ∀ y n', n ≤ n' + 1 → Allocs (Uses _ n (a + 1)) (f y) n') : Allocs (Uses (α × Addr) n (a + 1)) (modifyPtr p f) n := by
  refine Allocs.bind (allocs_makeMut (by omega)) ?_
  rintro y n' h2
  refine Allocs.bind (hf _ n' h2) ?_
  rintro z n2 h4
  refine Allocs.bind allocs_close ?_
  rintro _ n3 h6
  simp only [Uses] at *
  exact Allocs.ret' (by omega)

theorem allocs_forAll {γ : Type} {f : γ → Prog L α} (hf : ∀ p n, Allocs (Uses _ n 0) (f p) n) :
    ∀ ps n, Allocs (Uses _ n 0) (forAll f ps) n := by
  intro ps
  induction ps with
  | nil => intro n; exact Nat.le_refl _
  | cons p ps ih =>
    intro n
    refine Allocs.bind (hf p n) ?_
    rintro r n1 h1
    refine Allocs.bind (ih n1) ?_
    rintro r n2 h2
    simp only [Uses] at *
    exact Allocs.ret' (by omega)

macro_rules | `(tactic| alloc_lem) => `(tactic| ((with_reducible refine allocs_new ?_) <;> ((try simp only [Uses] at *) <;> omega)))
macro_rules | `(tactic| alloc_lem) => `(tactic| ((with_reducible refine allocs_clone)))
macro_rules | `(tactic| alloc_lem) => `(tactic| ((with_reducible refine allocs_read)))
macro_rules | `(tactic| alloc_lem) => `(tactic| ((with_reducible refine allocs_close)))
macro_rules | `(tactic| alloc_lem) => `(tactic| ((with_reducible refine allocs_tryTake)))
macro_rules | `(tactic| alloc_lem) => `(tactic| ((with_reducible refine allocs_drop)))
macro_rules | `(tactic| alloc_lem) => `(tactic| ((with_reducible refine allocs_makeMut ?_) <;> ((try simp only [Uses] at *) <;> omega)))
macro_rules | `(tactic| alloc_lem) => `(tactic| ((with_reducible refine allocs_lift)))
macro_rules | `(tactic| alloc_lem) => `(tactic| ((with_reducible refine allocs_cloneOpt)))
macro_rules | `(tactic| alloc_lem) => `(tactic| ((with_reducible refine allocs_dropOpt)))

/-! ### Clients -/

/-- What the commands `cmds` may add to the memory in use, when a new handle may add `newCost` cells, and an operation `op` on a handle with
the value `s` may add `cost ss s op` while the handles have the values `ss`. -/
def grown {σ Op Ret : Type} (new : σ) (step : σ → Op → Res (Ret × Effect σ)) (newCost : Nat) (cost : List (Option σ) → σ → Op → Nat) :
    List (Option σ) → List (Cmd Op) → Nat
  | _, [] => 0
  | ss, .new :: cmds => newCost + grown new step newCost cost (ss ++ [some new]) cmds
  | ss, .run i op :: cmds =>
    match ss[i]? with
    | some (some s) =>
      match step s op with
      | .ok y => cost ss s op + grown new step newCost cost (Effect.applyOpt ss i y.2) cmds
      | .error _ => 0
    | _ => grown new step newCost cost ss cmds
  | ss, .discard i :: cmds =>
    match ss[i]? with
    | some (some _) => grown new step newCost cost (ss.set i none) cmds
    | _ => grown new step newCost cost ss cmds

/-- A property of the handles that an operation leaves behind. -/
def Effect.Keeps {H : Type} (I : H → Prop) : Effect H → Prop
  | .keep => True
  | .fresh h => I h
  | .update h => I h

/-- The memory in use after a client has run.  `I` is an invariant of the handles. -/
theorem live_client {H Op Ret σ : Type} {impl : Impl L H Op Ret} {new : σ} {step : σ → Op → Res (Ret × Effect σ)}
    {R : H → σ → List (Item L) → Prop} (hb : impl.Refines A new step R) {newCost : Nat} {cost : List (Option σ) → σ → Op → Nat}
    {I : H → Prop} (hn : ∀ m x m' d, Runs A impl.new m x m' d → I x ∧ live m' ≤ live m + newCost)
    (hc : ∀ (hs : List (Option H)) (ss : List (Option σ)) ρ (i : Nat) h s op y x m m' d, Handles R hs ss ρ → (∀ x, some x ∈ hs → I x) → Own m ρ → hs[i]? = some (some h) →
      ss[i]? = some (some s) → step s op = .ok y → Runs A (impl.step h op) m x m' d → Effect.Keeps I x.2 ∧ live m' ≤ live m + cost ss s op)
    (hd : ∀ h, Allocs (fun _ _ => True) (impl.drop h) 0)
    (cmds : List (Cmd Op)) {hs : List (Option H)}
    {ss : List (Option σ)} {ρ : List (Item L)} (h : Handles R hs ss ρ) (hI : ∀ x, some x ∈ hs → I x) {m : Mem L} (ho : Own m ρ)
    {rs : List (Option Ret)} {ss' : List (Option σ)} (he : pureClient new step ss cmds = .ok (rs, ss')) :
    ∃ hs' m' d ρ', Runs A (client impl hs cmds) m (rs, hs') m' d ∧ Handles R hs' ss' ρ' ∧ Own m' ρ' ∧
      (∀ x, some x ∈ hs' → I x) ∧ live m' ≤ live m + grown new step newCost cost ss cmds := by
  induction cmds generalizing hs ss ρ rs m with
  | nil =>
    simp only [pureClient, Except.ok.injEq, Prod.mk.injEq] at he
    obtain ⟨rfl, rfl⟩ := he
    exact ⟨hs, m, 0, ρ, Runs.ret _ _, h, ho, hI, Nat.le_refl _⟩
  | cons c cmds ih =>
    have fin : ∀ {α : Type} {p : Prog L α} {f : α → Prog L (List (Option Ret) × List (Option H))} {x : α}
        {hs' : List (Option H)} {ss₁ : List (Option σ)} {ρ' : List (Item L)} {a : Option Ret}
        {rs₁ : List (Option Ret)} {m₁ : Mem L} {d₁ k : Nat}, Runs A p m x m₁ d₁ → live m₁ ≤ live m + k → (∀ x, some x ∈ hs' → I x) →
        (f x = (Prog.bind (Heap.client impl hs' cmds) fun x => .ret (a :: x.1, x.2))) →
        Handles R hs' ss₁ ρ' → Own m₁ ρ' → pureClient new step ss₁ cmds = .ok (rs₁, ss') →
        ∃ hs'' m' d ρ', Runs A (p.bind f) m (a :: rs₁, hs'') m' d ∧ Handles R hs'' ss' ρ' ∧ Own m' ρ' ∧
          (∀ x, some x ∈ hs'' → I x) ∧ live m' ≤ live m + (k + grown new step newCost cost ss₁ cmds) := by
      intro α p f x hs' ss₁ ρ' a rs₁ m₁ d₁ k e1 hk hI' e2 h' ho' he'
      obtain ⟨hs'', m', d, ρ'', e3, e4, e5, e7, e6⟩ := ih h' hI' ho' he'
      refine ⟨hs'', m', max d₁ (max d 0), ρ'', Runs.bind e1 ?_, e4, e5, e7, by omega⟩
      rw [e2]
      exact Runs.bind e3 (Runs.ret _ _)
    have split : ∀ {ss₁ : List (Option σ)} {a : Option Ret}, (do
        let x ← pureClient new step ss₁ cmds
        .ok (a :: x.1, x.2) : Res _) = .ok (rs, ss') → ∃ rs₁, pureClient new step ss₁ cmds = .ok (rs₁, ss') ∧
          rs = a :: rs₁ := by
      intro ss₁ a he
      cases hp : pureClient new step ss₁ cmds with
      | error e => simp [hp] at he
      | ok x =>
        obtain ⟨x1, x2⟩ := x
        simp [hp] at he
        obtain ⟨rfl, rfl⟩ := he
        exact ⟨x1, rfl, rfl⟩
    have skip : ∀ {rs₁ : List (Option Ret)}, pureClient new step ss cmds = .ok (rs₁, ss') →
        ∃ hs'' m' d ρ', Runs A (Prog.bind (Heap.client impl hs cmds) fun x => .ret (none :: x.1, x.2)) m
          (none :: rs₁, hs'') m' d ∧ Handles R hs'' ss' ρ' ∧ Own m' ρ' ∧
          (∀ x, some x ∈ hs'' → I x) ∧ live m' ≤ live m + grown new step newCost cost ss cmds := by
      intro rs₁ he'
      have := fin (p := .ret ()) (f := fun _ => Prog.bind (Heap.client impl hs cmds) fun x => .ret (none :: x.1, x.2))
        (k := 0) (Runs.ret () m) (Nat.le_refl _) hI rfl h ho he'
      rwa [Nat.zero_add] at this
    cases c with
    | new =>
      obtain ⟨rs₁, he', rfl⟩ := split (by simpa only [pureClient] using he)
      obtain ⟨x, m₁, d₁, σ', e1, hx, ho1, hw⟩ := hb.new.runs (F := ρ) (by simpa using ho)
      obtain ⟨hIx, hk⟩ := hn _ _ _ _ e1
      exact fin e1 (by omega) (by
        intro z hz
        rcases List.mem_append.1 hz with hz | hz
        · exact hI z hz
        · cases List.mem_singleton.1 hz; exact hIx) rfl (h.snoc hx) (ho1.perm (by perm_tac)) he'
    | run i op =>
      simp only [Heap.client, pureClient, grown] at he ⊢
      rcases h.get i with ⟨x, s, ρ₁, ρ₂, h1, h2, h3, h4, h5, -⟩ | ⟨h1, h2⟩
      · simp only [h1, h2] at he ⊢
        cases hst : step s op with
        | error e => simp [hst] at he
        | ok y =>
          obtain ⟨r, e⟩ := y
          simp only [hst, Res.ok_bind] at he
          obtain ⟨rs₁, he', rfl⟩ := split he
          obtain ⟨⟨r', e'⟩, m₁, d₁, τ, e1, ⟨rfl, heff⟩, ho1, -⟩ := (hb.step x s ρ₁ op r e h3 hst).runs
            (F := ρ₂) (h := m) (ho.perm h4)
          simp only at heff
          obtain ⟨hIx, hk'⟩ := hc hs ss ρ i x s op _ _ m _ _ h hI ho h1 h2 hst e1
          simp only at hIx
          cases heff with
          | keep hk =>
            obtain ⟨ρ₃, h8, h9⟩ := h5 _ _ _ hk
            have e1' := set_self h1
            have e2' := set_self h2
            rw [e1', e2'] at h9
            exact fin e1 (by omega) hI rfl h9 (ho1.perm h8.symm) he'
          | @fresh h' s' τ₁ τ₂ hf hk =>
            obtain ⟨ρ₃, h8, h9⟩ := h5 _ _ _ hk
            have e1' := set_self h1
            have e2' := set_self h2
            rw [e1', e2'] at h9
            refine fin e1 (by omega) (by
              intro z hz
              rcases List.mem_append.1 hz with hz | hz
              · exact hI z hz
              · cases List.mem_singleton.1 hz; exact hIx) rfl (h9.snoc hf) (ho1.perm ?_) he'
            refine List.Perm.trans ?_ (h8.symm.append_right τ₁)
            perm_tac
          | update hu =>
            obtain ⟨ρ₃, h8, h9⟩ := h5 _ _ _ hu
            exact fin e1 (by omega) (by
              intro z hz
              rcases List.mem_or_eq_of_mem_set hz with hz | hz
              · exact hI z hz
              · cases hz; exact hIx) rfl h9 (ho1.perm h8.symm) he'
      · have e1 : hs[i]? = none ∨ hs[i]? = some none := by
          cases hq : hs[i]? with
          | none => exact .inl rfl
          | some o => cases o with
            | none => exact .inr rfl
            | some x => exact absurd hq (h1 x)
        have e2 : ss[i]? = none ∨ ss[i]? = some none := by
          cases hq : ss[i]? with
          | none => exact .inl rfl
          | some o => cases o with
            | none => exact .inr rfl
            | some x => exact absurd hq (h2 x)
        rcases e1 with e1 | e1 <;> rcases e2 with e2 | e2 <;> simp only [e1, e2] at he ⊢ <;>
          (obtain ⟨rs₁, he', rfl⟩ := split he; exact skip he')
    | discard i =>
      simp only [Heap.client, pureClient, grown] at he ⊢
      rcases h.get i with ⟨x, s, ρ₁, ρ₂, h1, h2, h3, h4, -, ρ₃, h5, h6⟩ | ⟨h1, h2⟩
      · simp only [h1, h2] at he ⊢
        obtain ⟨rs₁, he', rfl⟩ := split he
        obtain ⟨_, m₁, d₁, τ, e1, rfl, ho1, -⟩ := (hb.drop x s ρ₁ h3).runs (F := ρ₂) (h := m) (ho.perm h4)
        obtain ⟨_, -, hk'⟩ := (hd x).runs e1
        have := fin (k := 0) (f := fun _ => Prog.bind (Heap.client impl (hs.set i none) cmds) fun x => .ret (none :: x.1, x.2)) e1
          (by omega) (by
            intro z hz
            rcases List.mem_or_eq_of_mem_set hz with hz | hz
            · exact hI z hz
            · cases hz) rfl h6 (ho1.perm h5.symm) he'
        rwa [Nat.zero_add] at this
      · have e1 : hs[i]? = none ∨ hs[i]? = some none := by
          cases hq : hs[i]? with
          | none => exact .inl rfl
          | some o => cases o with
            | none => exact .inr rfl
            | some x => exact absurd hq (h1 x)
        have e2 : ss[i]? = none ∨ ss[i]? = some none := by
          cases hq : ss[i]? with
          | none => exact .inl rfl
          | some o => cases o with
            | none => exact .inr rfl
            | some x => exact absurd hq (h2 x)
        rcases e1 with e1 | e1 <;> rcases e2 with e2 | e2 <;> simp only [e1, e2] at he ⊢ <;>
          (obtain ⟨rs₁, he', rfl⟩ := split he; exact skip he')

/-- If all values have at most `N` elements, costs grow with the size, and operations that satisfy `P` add at most one element, then `cmds`
cost at most this much each.  `J` is an invariant of the values. -/
theorem grown_le {σ Op Ret : Type} {P : Op → Prop} {new : σ} {step : σ → Op → Res (Ret × Effect σ)} {newCost : Nat}
    {cost : List (Option σ) → σ → Op → Nat} {J : σ → Prop} {size : σ → Nat} {g : Nat → Nat} (hg : ∀ a b, a ≤ b → g a ≤ g b) (hnew : newCost ≤ g 0) (h0 : size new = 0)
    (hJ : J new) (hJs : ∀ s op r e, J s → step s op = .ok (r, e) → Effect.Keeps J e)
    (hcost : ∀ ss s op, (∀ s, some s ∈ ss → J s) → some s ∈ ss → P op → cost ss s op ≤ g (size s))
    (hsize : ∀ s op r e, P op → step s op = .ok (r, e) → ∀ s', e = .fresh s' ∨ e = .update s' → size s' ≤ size s + 1) :
    ∀ (cmds : List (Cmd Op)), (∀ i op, .run i op ∈ cmds → P op) → ∀ (ss : List (Option σ)) (N : Nat), (∀ s, some s ∈ ss → size s ≤ N ∧ J s) →
      grown new step newCost cost ss cmds ≤ cmds.length * g (N + cmds.length) := by
  intro cmds
  induction cmds with
  | nil => intro _ ss N _; simp [grown]
  | cons c cmds ih =>
    intro hP ss N hN
    replace ih := ih fun i op h => hP i op (List.mem_cons_of_mem _ h)
    have key : ∀ (a : Nat) (ss' : List (Option σ)), a ≤ g (N + (cmds.length + 1)) → (∀ s, some s ∈ ss' → size s ≤ N + 1 ∧ J s) →
        a + grown new step newCost cost ss' cmds ≤ (cmds.length + 1) * g (N + (cmds.length + 1)) := by
      intro a ss' ha hs'
      have := ih ss' (N + 1) hs'
      rw [show N + 1 + cmds.length = N + (cmds.length + 1) by omega] at this
      rw [Nat.add_mul]
      omega
    have old : ∀ s, some s ∈ ss → size s ≤ N + 1 ∧ J s := fun s hs => ⟨by have := (hN s hs).1; omega, (hN s hs).2⟩
    have skip := key 0 ss (Nat.zero_le _) old
    rw [Nat.zero_add] at skip
    rw [List.length_cons]
    cases c with
    | new =>
      refine key _ _ (Nat.le_trans hnew (hg _ _ (by omega))) ?_
      intro s hs
      rcases List.mem_append.1 hs with hs | hs
      · exact old s hs
      · simp only [List.mem_singleton, Option.some.injEq] at hs
        subst hs
        exact ⟨by omega, hJ⟩
    | run i op =>
      have hp : P op := hP i op List.mem_cons_self
      simp only [grown]
      split
      · next s hs =>
        have hm := List.mem_of_getElem? hs
        have hsN := (hN s hm).1
        split
        · next y hst =>
          obtain ⟨r, e⟩ := y
          refine key _ _ (Nat.le_trans (hcost ss s op (fun s h => (hN s h).2) hm hp) (hg _ _ (by omega))) ?_
          intro s' hs'
          cases e with
          | keep => exact old s' hs'
          | fresh t =>
            rcases List.mem_append.1 hs' with hs' | hs'
            · exact old s' hs'
            · simp only [List.mem_singleton, Option.some.injEq] at hs'
              subst hs'
              have := hsize s op r _ hp hst s' (.inl rfl)
              exact ⟨by omega, hJs s op r _ (hN s hm).2 hst⟩
          | update t =>
            rcases List.mem_or_eq_of_mem_set hs' with hs' | hs'
            · exact old s' hs'
            · cases hs'
              have := hsize s op r _ hp hst s' (.inr rfl)
              exact ⟨by omega, hJs s op r _ (hN s hm).2 hst⟩
        · exact Nat.zero_le _
      · exact skip
    | discard i =>
      simp only [grown]
      split
      · have := key 0 (ss.set i none) (Nat.zero_le _) (by
          intro s hs
          rcases List.mem_or_eq_of_mem_set hs with hs | hs
          · exact old s hs
          · cases hs)
        rwa [Nat.zero_add] at this
      · exact skip

/-! ### Memory whose labels are known to be small -/

/-- No label in the memory is worth more than `m`. -/
def Small (x : L → Nat) (m : Nat) (h : Mem L) : Prop := ∀ a n l cs, get h a = .closed n l cs → x l ≤ m

/-- `prog` allocates at most `n` cells, if the labels that it reads are worth at most `m`, or as much as those it has written. -/
def AllocsU (x : L → Nat) (Q : α → Nat → Nat → Prop) : Prog L α → Nat → Nat → Prop
  | .ret r, n, m => Q r n m
  | .panic, _, _ => True
  | .op (.new l cs) k, n, m => 1 ≤ n ∧ ∀ y, AllocsU x Q (k y) (n - 1) (max m (x l))
  | .op .newOpen k, n, m => 1 ≤ n ∧ ∀ y, AllocsU x Q (k y) (n - 1) m
  | .op (.clone _) k, n, m => ∀ y, AllocsU x Q (k y) n m
  | .op (.read _) k, n, m => ∀ y, x y.1 ≤ m → AllocsU x Q (k y) n m
  | .op (.tryOpen _) k, n, m => ∀ y, (∀ z, y = some z → x z.1 ≤ m) → AllocsU x Q (k y) n m
  | .op (.close _ l _) k, n, m => ∀ y, AllocsU x Q (k y) n (max m (x l))
  | .op (.tryTake _) k, n, m => ∀ y, AllocsU x Q (k y) n m
  | .drop _ k, n, m => AllocsU x Q k n m

variable {x : L → Nat}

theorem AllocsU.bind {Q : α → Nat → Nat → Prop} {R : β → Nat → Nat → Prop} {prog : Prog L α} {f : α → Prog L β} {n m : Nat}
    (h : AllocsU x Q prog n m) (hf : ∀ r n m, Q r n m → AllocsU x R (f r) n m) : AllocsU x R (prog.bind f) n m := by
  induction prog generalizing n m with
  | ret r => exact hf _ _ _ h
  | panic => trivial
  | drop p k ih => exact ih h
  | op a k ih =>
    cases a with
    | new l cs => exact ⟨h.1, fun y => ih y (h.2 y)⟩
    | newOpen => exact ⟨h.1, fun y => ih y (h.2 y)⟩
    | clone p => exact fun y => ih y (h y)
    | read p => exact fun y hy => ih y (h y hy)
    | tryOpen p => exact fun y hy => ih y (h y hy)
    | close p l cs => exact fun y => ih y (h y)
    | tryTake p => exact fun y => ih y (h y)

theorem AllocsU.imp {Q R : α → Nat → Nat → Prop} {prog : Prog L α} {n m : Nat} (h : AllocsU x Q prog n m)
    (hq : ∀ r n m, Q r n m → R r n m) : AllocsU x R prog n m := by
  have := AllocsU.bind (R := R) (f := .ret) h hq
  rwa [Prog.bind_ret] at this

/-- What is allocated whatever is read. -/
theorem Allocs.toU {Q : α → Nat → Prop} {prog : Prog L α} {n : Nat} (h : Allocs Q prog n) (m : Nat) :
    AllocsU x (fun r n _ => Q r n) prog n m := by
  induction prog generalizing n m with
  | ret r => exact h
  | panic => trivial
  | drop p k ih => exact ih h m
  | op a k ih =>
    cases a with
    | new l cs => exact ⟨h.1, fun y => ih y (h.2 y) _⟩
    | newOpen => exact ⟨h.1, fun y => ih y (h.2 y) _⟩
    | clone p => exact fun y => ih y (h.2 y) _
    | read p => exact fun y _ => ih y (h.2 y) _
    | tryOpen p => exact fun y _ => ih y (h.2 y) _
    | close p l cs => exact fun y => ih y (h.2 y) _
    | tryTake p => exact fun y => ih y (h.2 y) _

theorem Small.put {m : Nat} {h : Mem L} (hs : Small x m h) {a : Addr} {c : Cell L} {m' : Nat} (hm : m ≤ m')
    (hc : ∀ n l cs, c = .closed n l cs → x l ≤ m') : Small x m' (put h a c) := by
  intro b n l cs e
  rw [get_put] at e
  split at e
  · exact hc n l cs e
  · exact Nat.le_trans (hs b n l cs e) hm

theorem Small.decr {m : Nat} {h h' : Mem L} (hs : Small x m h) {p : Addr} {cs : List Addr} (e : decr p h = .ok (cs, h')) : Small x m h' := by
  unfold Heap.decr at e
  split at e
  · next n l ds hg =>
    split at e
    · cases e
      exact hs.put (Nat.le_refl _) fun _ _ _ e => by cases e
    · cases e
      exact hs.put (Nat.le_refl _) fun _ _ _ e => by cases e; exact hs _ _ _ _ hg
  · cases e

theorem AllocsU.step {Q : α → Nat → Nat → Prop} {th th' : Thread L α} {h h' : Mem L} {n m : Nat} (hp : AllocsU x Q th.prog n m)
    (hs : Small x m h) (e : th.step A h = .ok (th', h')) :
    ∃ n' m', AllocsU x Q th'.prog n' m' ∧ Small x m' h' ∧ live h' + n' ≤ live h + n := by
  obtain ⟨pd, d, prog⟩ := th
  cases pd with
  | cons y pd =>
    obtain ⟨k, p⟩ := y
    simp only [Thread.step] at e
    cases hd : Heap.decr p h with
    | error x => simp [hd] at e
    | ok y =>
      obtain ⟨cs, h1⟩ := y
      simp only [hd, Except.ok.injEq, Prod.mk.injEq] at e
      obtain ⟨rfl, rfl⟩ := e
      exact ⟨n, m, hp, hs.decr hd, by have := live_decr hd; omega⟩
  | nil =>
    cases prog with
    | ret r => cases e; exact ⟨n, m, hp, hs, Nat.le_refl _⟩
    | panic => cases e
    | drop p k => cases e; exact ⟨n, m, hp, hs, Nat.le_refl _⟩
    | op a k =>
      simp only [Thread.step] at e
      cases hd : act A a h with
      | error x => simp [hd] at e
      | ok y =>
        obtain ⟨y, h1⟩ := y
        simp only [hd, Except.ok.injEq, Prod.mk.injEq] at e
        obtain ⟨rfl, rfl⟩ := e
        have hl := live_act hd
        cases a with
        | new l cs =>
          cases hd
          have := hp.1
          refine ⟨_, _, hp.2 _, hs.put (Nat.le_max_left _ _) fun _ _ _ e => ?_, by simp only [Act.allocs] at hl; omega⟩
          cases e
          exact Nat.le_max_right _ _
        | newOpen =>
          cases hd
          have := hp.1
          exact ⟨_, _, hp.2 _, hs.put (Nat.le_refl _) (fun _ _ _ e => by cases e), by simp only [Act.allocs] at hl; omega⟩
        | clone p =>
          simp only [act] at hd
          split at hd
          · next hg =>
            cases hd
            refine ⟨_, _, hp _, hs.put (Nat.le_refl _) fun _ _ _ e => ?_, by simp only [Act.allocs] at hl; omega⟩
            cases e
            exact hs _ _ _ _ hg
          · cases hd
        | read p =>
          simp only [act] at hd
          split at hd
          · next hg =>
            cases hd
            exact ⟨_, _, hp _ (hs _ _ _ _ hg), hs, by simp only [Act.allocs] at hl; omega⟩
          · cases hd
        | tryOpen p =>
          simp only [act] at hd
          split at hd
          · next hg =>
            split at hd
            · cases hd
              refine ⟨_, _, hp _ fun z hz => ?_, hs.put (Nat.le_refl _) (fun _ _ _ e => by cases e), by simp only [Act.allocs] at hl; omega⟩
              cases hz
              exact hs _ _ _ _ hg
            · cases hd
              exact ⟨_, _, hp _ (fun z hz => by cases hz), hs, by simp only [Act.allocs] at hl; omega⟩
          · cases hd
        | close p l cs =>
          simp only [act] at hd
          split at hd
          · cases hd
            refine ⟨_, _, hp _, hs.put (Nat.le_max_left _ _) fun _ _ _ e => ?_, by simp only [Act.allocs] at hl; omega⟩
            cases e
            exact Nat.le_max_right _ _
          · cases hd
        | tryTake p =>
          simp only [act] at hd
          split at hd
          · split at hd
            · cases hd
              exact ⟨_, _, hp _, hs.put (Nat.le_refl _) (fun _ _ _ e => by cases e), by simp only [Act.allocs] at hl; omega⟩
            · cases hd
              exact ⟨_, _, hp _, hs, by simp only [Act.allocs] at hl; omega⟩
          · cases hd

theorem AllocsU.runs {Q : α → Nat → Nat → Prop} {prog : Prog L α} {h h' : Mem L} {r : α} {d n m : Nat} (hp : AllocsU x Q prog n m)
    (hs : Small x m h) (e : Runs A prog h r h' d) : ∃ n' m', Q r n' m' ∧ live h' + n' ≤ live h + n := by
  obtain ⟨k, e⟩ := e
  have : ∀ (k : Nat) (th : Thread L α) (h : Mem L) (n m : Nat), AllocsU x Q th.prog n m → Small x m h → ∀ th' h',
      runAlone A k th h = .ok (th', h') → ∃ n' m', AllocsU x Q th'.prog n' m' ∧ live h' + n' ≤ live h + n := by
    intro k
    induction k with
    | zero =>
      intro th h n m hp hs th' h' e
      cases e
      exact ⟨n, m, hp, Nat.le_refl _⟩
    | succ k ih =>
      intro th h n m hp hs th' h' e
      simp only [Heap.runAlone] at e
      cases hst : th.step A h with
      | error x => simp [hst] at e
      | ok y =>
        obtain ⟨th1, h1⟩ := y
        simp only [hst] at e
        obtain ⟨n1, m1, hp1, hs1, l1⟩ := hp.step hs hst
        obtain ⟨n2, m2, hp2, l2⟩ := ih th1 h1 n1 m1 hp1 hs1 _ _ e
        exact ⟨n2, m2, hp2, by omega⟩
  exact this k (.start prog) h n m hp hs _ _ e

end Heap
end Rpds
