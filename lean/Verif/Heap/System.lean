import Verif.Heap.Client
/-
Whole systems: a first thread sets up handles, which are then given to other threads; each of them runs its own client
commands, interleaved arbitrarily.
-/
set_option autoImplicit false
namespace Rpds
namespace Heap

/-- `prog` run alone from memory `h` ends with result `r` and memory `h'`; `d` is the deepest nesting of destructors. -/
def Runs {L α : Type} (A : Allocator L) (prog : Prog L α) (h : Mem L) (r : α) (h' : Mem L) (d : Nat) : Prop :=
  ∃ n, runAlone A n (.start prog) h = .ok ({ pending := [], deepest := d, prog := .ret r }, h')

/-- Keeps the handles at the positions that satisfy `P`. -/
def keepIf {α : Type} (P : Nat → Prop) [DecidablePred P] : (j : Nat) → List (Option α) → List (Option α)
  | _, [] => []
  | j, x :: xs => (if P j then x else none) :: keepIf P (j + 1) xs

/-- The handles of thread `i`, when handle `j` is given to thread `owner j`. -/
def handlesOf {α : Type} (owner : Nat → Nat) (i : Nat) (hs : List (Option α)) : List (Option α) :=
  keepIf (fun j => owner j = i) 0 hs

/-- The threads with their handles; thread `i` runs the commands `cmdss[i]`. -/
def threads {L H Op Ret : Type} (impl : Impl L H Op Ret) (owner : Nat → Nat) (hs : List (Option H)) :
    (i : Nat) → (cmdss : List (List (Cmd Op))) → List (Thread L (List (Option Ret) × List (Option H)))
  | _, [] => []
  | i, cmds :: cmdss => .start (client impl (handlesOf owner i hs) cmds) :: threads impl owner hs (i + 1) cmdss

section
variable {L H Op Ret σ : Type} {R : H → σ → List (Item L) → Prop} {A : Allocator L} {D : Option Nat}

theorem keepIf_getElem? {α : Type} (P : Nat → Prop) [DecidablePred P] (j : Nat) (xs : List (Option α)) (k : Nat) :
    (keepIf P j xs)[k]? = (xs[k]?).map fun x => if P (j + k) then x else none := by
  induction xs generalizing j k with
  | nil => simp [keepIf]
  | cons x xs ih =>
    cases k with
    | zero => simp [keepIf]
    | succ k => simp only [keepIf, List.getElem?_cons_succ, ih]; congr 3; simp only [Nat.add_assoc, Nat.add_comm 1 k]

theorem keepIf_all {α : Type} (P : Nat → Prop) [DecidablePred P] (h : ∀ j, P j) (j : Nat) (xs : List (Option α)) :
    keepIf P j xs = xs := by
  induction xs generalizing j with
  | nil => rfl
  | cons x xs ih => simp [keepIf, ih, h]

/-- Handles split by an owner. -/
theorem Handles.split {hs : List (Option H)} {ss : List (Option σ)} {ρ : List (Item L)} (h : Handles R hs ss ρ)
    (P P₁ P₂ : Nat → Prop) [DecidablePred P] [DecidablePred P₁] [DecidablePred P₂]
    (hP : ∀ j, P j ↔ P₁ j ∨ P₂ j) (hd : ∀ j, ¬ (P₁ j ∧ P₂ j)) (j : Nat) {ρ₀ : List (Item L)}
    (hk : Handles R (keepIf P j hs) (keepIf P j ss) ρ₀) :
    ∃ ρ₁ ρ₂, ρ₀.Perm (ρ₁ ++ ρ₂) ∧ Handles R (keepIf P₁ j hs) (keepIf P₁ j ss) ρ₁ ∧
      Handles R (keepIf P₂ j hs) (keepIf P₂ j ss) ρ₂ := by
  induction h generalizing j ρ₀ with
  | nil =>
    simp only [keepIf] at hk ⊢
    cases hk
    exact ⟨[], [], .refl _, .nil, .nil⟩
  | dead ht ih =>
    simp only [keepIf, ite_self] at hk ⊢
    cases hk with
    | dead hk =>
      obtain ⟨ρ₁, ρ₂, h1, h2, h3⟩ := ih (j + 1) hk
      exact ⟨ρ₁, ρ₂, h1, .dead h2, .dead h3⟩
  | live hh ht ih =>
    simp only [keepIf] at hk ⊢
    by_cases h1 : P₁ j
    · have h2 : ¬ P₂ j := fun h2 => hd j ⟨h1, h2⟩
      have h0 : P j := (hP j).2 (.inl h1)
      simp only [h1, h2, h0, if_true, if_false] at hk ⊢
      cases hk with
      | @live _ _ _ _ ρa ρb hx hk =>
        obtain ⟨ρ₁, ρ₂, e, e1, e2⟩ := ih (j + 1) hk
        refine ⟨ρa ++ ρ₁, ρ₂, ?_, .live hx e1, .dead e2⟩
        rw [List.append_assoc]
        exact e.append_left ρa
    · by_cases h2 : P₂ j
      · have h0 : P j := (hP j).2 (.inr h2)
        simp only [h1, h2, h0, if_true, if_false] at hk ⊢
        cases hk with
        | @live _ _ _ _ ρa ρb hx hk =>
          obtain ⟨ρ₁, ρ₂, e, e1, e2⟩ := ih (j + 1) hk
          refine ⟨ρ₁, ρa ++ ρ₂, (e.append_left ρa).trans ?_, .dead e1, .live hx e2⟩
          perm_tac
      · have h0 : ¬ P j := fun h0 => ((hP j).1 h0).elim h1 h2
        simp only [h1, h2, h0, if_false] at hk ⊢
        cases hk with
        | dead hk =>
          obtain ⟨ρ₁, ρ₂, e, e1, e2⟩ := ih (j + 1) hk
          exact ⟨ρ₁, ρ₂, e, .dead e1, .dead e2⟩

/-- Handles given to the threads from number `i` on. -/
theorem Handles.distribute {hs : List (Option H)} {ss : List (Option σ)} {ρ : List (Item L)} (h : Handles R hs ss ρ)
    (owner : Nat → Nat) (k : Nat) : ∀ (i : Nat) {ρ₀ : List (Item L)},
    Handles R (keepIf (fun j => i ≤ owner j) 0 hs) (keepIf (fun j => i ≤ owner j) 0 ss) ρ₀ →
    ∃ (ρs : List (List (Item L))) (F : List (Item L)), ρs.length = k ∧ ρ₀.Perm (ρs.flatten ++ F) ∧
      (∀ m ρ', ρs[m]? = some ρ' → Handles R (handlesOf owner (i + m) hs) (handlesOf owner (i + m) ss) ρ') ∧
      Handles R (keepIf (fun j => i + k ≤ owner j) 0 hs) (keepIf (fun j => i + k ≤ owner j) 0 ss) F := by
  induction k with
  | zero => exact fun i ρ₀ hk => ⟨[], ρ₀, rfl, by simp, by simp, hk⟩
  | succ k ih =>
    intro i ρ₀ hk
    obtain ⟨ρ₁, ρ₂, h1, h2, h3⟩ := h.split (fun j => i ≤ owner j) (fun j => owner j = i) (fun j => i + 1 ≤ owner j)
      (by intro j; omega) (by intro j; omega) 0 hk
    obtain ⟨ρs, F, e1, e2, e3, e4⟩ := ih (i + 1) h3
    refine ⟨ρ₁ :: ρs, F, by simp [e1], ?_, ?_, ?_⟩
    · refine h1.trans ?_
      rw [List.flatten_cons, List.append_assoc]
      exact e2.append_left ρ₁
    · intro m ρ' hm
      cases m with
      | zero =>
        simp only [List.getElem?_cons_zero, Option.some.injEq] at hm
        subst hm
        exact h2
      | succ m =>
        have := e3 m ρ' (by simpa using hm)
        rw [Nat.add_assoc, Nat.add_comm 1 m] at this
        exact this
    · rw [Nat.add_assoc, Nat.add_comm 1 k] at e4
      exact e4

theorem threads_getElem? (impl : Impl L H Op Ret) (owner : Nat → Nat) (hs : List (Option H)) (i : Nat)
    (cmdss : List (List (Cmd Op))) (m : Nat) :
    (threads impl owner hs i cmdss)[m]? =
      (cmdss[m]?).map fun cmds => .start (client impl (handlesOf owner (i + m) hs) cmds) := by
  induction cmdss generalizing i m with
  | nil => simp [threads]
  | cons c cs ih =>
    cases m with
    | zero => simp [threads]
    | succ m => simp only [threads, List.getElem?_cons_succ, ih, Nat.add_assoc, Nat.add_comm 1 m]

theorem threads_length (impl : Impl L H Op Ret) (owner : Nat → Nat) (hs : List (Option H)) (i : Nat)
    (cmdss : List (List (Cmd Op))) : (threads impl owner hs i cmdss).length = cmdss.length := by
  induction cmdss generalizing i with
  | nil => rfl
  | cons c cs ih => simp [threads, ih]

/-- The handles of a client with the pointers in them. -/
def ptrsOf (impl : Impl L H Op Ret) (hs : List (Option H)) : List Addr :=
  hs.flatMap fun
    | some h => impl.ptrs h
    | none => []

theorem Handles.ptrs {impl : Impl L H Op Ret} {new : σ} {step : σ → Op → Res (Ret × Effect σ)}
    (hr : impl.RefinesIn A D new step R) {hs : List (Option H)} {ss : List (Option σ)} {ρ : List (Item L)}
    (h : Handles R hs ss ρ) : ∃ ts : List (ATree L), ρ = ts.map .ptr ∧ ptrsOf impl hs = ts.map ATree.addr := by
  induction h with
  | nil => exact ⟨[], rfl, rfl⟩
  | dead ht ih => exact ih
  | live hh ht ih =>
    obtain ⟨ts, rfl, e⟩ := ih
    obtain ⟨us, rfl, e'⟩ := hr.ptrs _ _ _ hh
    refine ⟨us ++ ts, by simp, ?_⟩
    rw [List.map_append, ← e, ← e']
    rfl

/-- The memory holds exactly what the pointers `ps` keep alive: every count is exact, nothing is borrowed, every pointer
leads to an allocated cell. -/
def Exact (h : Mem L) (ps : List Addr) : Prop :=
  (∀ a n l cs, get h a = .closed n l cs → n = ps.count a + (refs h).count a ∧ 0 < n) ∧
  (∀ a, get h a ≠ .opened) ∧
  (∀ a, a ∈ ps ∨ a ∈ refs h → get h a ≠ .free)

theorem Own.exact {h : Mem L} {ts : List (ATree L)} (ho : Own h (ts.map .ptr)) : Exact h (ts.map ATree.addr) := by
  have hc := ho.cell
  simp only [held_map, opens_map, List.count_nil] at hc
  refine ⟨?_, ?_, ?_⟩
  · intro a n l cs e
    have := hc a
    rw [e] at this
    obtain ⟨h1, h2, -⟩ := this
    exact ⟨h1, by omega⟩
  · intro a e
    have := hc a
    rw [e] at this
    exact absurd this.2 (by omega)
  · intro a ha e
    have := hc a
    rw [e] at this
    have h0 := this.1
    rcases ha with ha | ha
    · have := List.count_pos_iff.2 ha; omega
    · have := List.count_pos_iff.2 ha; omega

theorem runs_of_alone {α : Type} {prog : Prog L α} {h h' : Mem L} {n : Nat} {th : Thread L α} {r : α}
    (e : runAlone A n (.start prog) h = .ok (th, h')) (hr : th.result = some r) : Runs A prog h r h' th.deepest := by
  refine ⟨n, ?_⟩
  rw [e]
  obtain ⟨pd, deep, prog'⟩ := th
  unfold Thread.result at hr
  split at hr
  · next e1 e2 =>
    simp only at e1 e2
    subst e1 e2
    cases hr
    rfl
  · cases hr

/-- Running a safe program alone. -/
theorem Safe.runs {α : Type} {D : Option Nat} {Q : α → List (Item L) → Prop} {prog : Prog L α} {ρ F : List (Item L)}
    {h : Mem L} (hs : Safe A D Q prog ρ) (ho : Own h (ρ ++ F)) :
    ∃ r h' d σ, Runs A prog h r h' d ∧ Q r σ ∧ Own h' (σ ++ F) ∧ Within D d := by
  obtain ⟨n, th, h', σ, r, e1, e2, e3, e4, e5⟩ := hs.alone ho
  exact ⟨r, h', th.deepest, σ, runs_of_alone e1 e2, e3, e4, e5⟩

theorem runAlone_done {α : Type} (n d : Nat) (r : α) (h : Mem L) :
    runAlone A n { pending := [], deepest := d, prog := .ret r } h =
      .ok ({ pending := [], deepest := d, prog := .ret r }, h) := by
  induction n with
  | zero => rfl
  | succ n ih => simp [runAlone, Thread.step, ih]

theorem runAlone_add {α : Type} (n m : Nat) (th : Thread L α) (h : Mem L) :
    runAlone A (n + m) th h =
      match runAlone A n th h with
      | .error e => .error e
      | .ok (th', h') => runAlone A m th' h' := by
  induction n generalizing th h with
  | zero => simp [runAlone]
  | succ n ih =>
    rw [Nat.add_right_comm]
    simp only [runAlone]
    cases th.step A h with
    | error e => rfl
    | ok x => obtain ⟨a, b⟩ := x; exact ih a b

/-- The outcome of a run is unique. -/
theorem Runs.unique {α : Type} {prog : Prog L α} {h : Mem L} {r r' : α} {h₁ h₂ : Mem L} {d d' : Nat}
    (e : Runs A prog h r h₁ d) (e' : Runs A prog h r' h₂ d') : r = r' ∧ h₁ = h₂ ∧ d = d' := by
  obtain ⟨n, e⟩ := e
  obtain ⟨m, e'⟩ := e'
  have h1 : runAlone A (n + m) (.start prog) h = .ok ({ pending := [], deepest := d, prog := .ret r }, h₁) := by
    rw [runAlone_add, e]; exact runAlone_done _ _ _ _
  have h2 : runAlone A (n + m) (.start prog) h = .ok ({ pending := [], deepest := d', prog := .ret r' }, h₂) := by
    rw [Nat.add_comm, runAlone_add, e']; exact runAlone_done _ _ _ _
  rw [h1] at h2
  simp only [Except.ok.injEq, Prod.mk.injEq, Thread.mk.injEq, Prog.ret.injEq, true_and] at h2
  exact ⟨h2.1.2, h2.2, h2.1.1⟩

/-- A client that runs alone from the empty memory. -/
theorem Impl.RefinesIn.runs {impl : Impl L H Op Ret} {new : σ} {step : σ → Op → Res (Ret × Effect σ)}
    (hr : impl.RefinesIn A D new step R) {cmds : List (Cmd Op)} {rs : List (Option Ret)} {ss : List (Option σ)}
    (he : pureClient new step [] cmds = .ok (rs, ss)) :
    ∃ hs h d ρ, Runs A (client impl [] cmds) [] (rs, hs) h d ∧ Handles R hs ss ρ ∧ Own h ρ := by
  obtain ⟨⟨r1, r2⟩, h', d, σ, e1, ⟨rfl, τ', e3, e4⟩, e5, -⟩ :=
    (safe_client hr cmds .nil he).runs (F := []) (h := []) Own.empty
  exact ⟨r2, h', d, τ', e1, e4, by simpa using e5.perm (by simpa using e3)⟩

/-- What the threads of a system are ready to do. -/
structure System (impl : Impl L H Op Ret) (A : Allocator L) (D : Option Nat) (R : H → σ → List (Item L) → Prop)
    (rss : List (List (Option Ret))) (sss : List (List (Option σ))) (hF : List (Option H))
    (Fs : List (Option σ)) (ths : List (Thread L (List (Option Ret) × List (Option H)))) (h : Mem L) : Prop where
  ex : ∃ own F, SysSafe A D [] (fun i x τ => (∀ rs, rss[i]? = some rs → x.1 = rs) ∧
    ∀ ss, sss[i]? = some ss → ∃ τ', τ.Perm τ' ∧ Handles R x.2 ss τ') ths own F h ∧ Handles R hF Fs F
  lr : rss.length = ths.length
  ls : sss.length = ths.length

/-- The system after setting up. -/
theorem Impl.RefinesIn.system {impl : Impl L H Op Ret} {new : σ} {step : σ → Op → Res (Ret × Effect σ)}
    (hr : impl.RefinesIn A D new step R) {hs : List (Option H)} {ss : List (Option σ)} {ρ : List (Item L)} {h : Mem L}
    (hh : Handles R hs ss ρ) (ho : Own h ρ) (owner : Nat → Nat) (cmdss : List (List (Cmd Op)))
    (rss : List (List (Option Ret))) (sss : List (List (Option σ)))
    (l1 : rss.length = cmdss.length) (l2 : sss.length = cmdss.length)
    (he : ∀ i cmds rs ss', cmdss[i]? = some cmds → rss[i]? = some rs → sss[i]? = some ss' →
      pureClient new step (handlesOf owner i ss) cmds = .ok (rs, ss')) :
    System impl A D R rss sss (keepIf (fun j => cmdss.length ≤ owner j) 0 hs) (keepIf (fun j => cmdss.length ≤ owner j) 0 ss)
      (threads impl owner hs 0 cmdss) h := by
  obtain ⟨ρs, F, e1, e2, e3, e4⟩ := hh.distribute owner cmdss.length 0 (ρ₀ := ρ) (by
    rw [keepIf_all _ (by omega), keepIf_all _ (by omega)]; exact hh)
  refine ⟨⟨ρs.map fun ρ => ([], ρ), F, ⟨?_, ?_, ?_⟩, by simpa using e4⟩, ?_, ?_⟩
  · rw [threads_length]; simp [e1]
  · intro i th x hi hx
    rw [threads_getElem?] at hi
    cases hc : cmdss[i]? with
    | none => simp [hc] at hi
    | some cmds =>
      simp only [hc, Option.map_some, Option.some.injEq, Nat.zero_add] at hi
      subst hi
      have hlt : i < cmdss.length := (List.getElem?_eq_some_iff.1 hc).1
      rw [List.getElem?_map] at hx
      cases hρ : ρs[i]? with
      | none => simp [hρ] at hx
      | some ρ' =>
        simp only [hρ, Option.map_some, Option.some.injEq] at hx
        subst hx
        have hl1 : rss[i]? = some (rss[i]'(by omega)) := List.getElem?_eq_getElem _
        have hl2 : sss[i]? = some (sss[i]'(by omega)) := List.getElem?_eq_getElem _
        have := he i cmds _ _ hc hl1 hl2
        have hsafe := safe_client hr cmds (by simpa using e3 i ρ' hρ) this
        refine ⟨rfl, ?_, by simp, fun d _ => Nat.zero_le d⟩
        refine hsafe.borrowing.imp ?_
        rintro ⟨r1, r2⟩ τ ⟨rfl, τ', h1, h2⟩
        refine ⟨?_, ?_⟩
        · intro rs hrs
          rw [hl1] at hrs
          exact Option.some.inj hrs
        · intro ss' hss
          rw [hl2] at hss
          cases hss
          exact ⟨τ', h1, h2⟩
  · have : ((ρs.map fun ρ => (([] : List (Nat × ATree L)), ρ)).map fun x => threadItems x.1 x.2) = ρs := by
      simp [threadItems, Function.comp_def]
    rw [this]
    exact ho.perm e2
  · rw [threads_length, l1]
  · rw [threads_length, l2]

/-- Every interleaving keeps the system going. -/
theorem System.run {impl : Impl L H Op Ret} {rss : List (List (Option Ret))} {sss : List (List (Option σ))}
    {hF : List (Option H)} {Fs : List (Option σ)} {ths : List (Thread L (List (Option Ret) × List (Option H)))} {h : Mem L}
    (sys : System impl A D R rss sss hF Fs ths h) (sched : List Nat) :
    ∃ ths' h', runThreads A sched ths h = .ok (ths', h') ∧ System impl A D R rss sss hF Fs ths' h' := by
  obtain ⟨⟨own, F, ss, hh⟩, l1, l2⟩ := sys
  obtain ⟨ths', own', h', e1, e2, e3⟩ := ss.run sched
  exact ⟨ths', h', e1, ⟨own', F, e2, hh⟩, by omega, by omega⟩

theorem System.answer {impl : Impl L H Op Ret} {rss : List (List (Option Ret))} {sss : List (List (Option σ))}
    {hF : List (Option H)} {Fs : List (Option σ)} {ths : List (Thread L (List (Option Ret) × List (Option H)))} {h : Mem L}
    (sys : System impl A D R rss sss hF Fs ths h) {i : Nat} {th : Thread L (List (Option Ret) × List (Option H))}
    {r : List (Option Ret) × List (Option H)} (hi : ths[i]? = some th) (hr : th.result = some r) :
    rss[i]? = some r.1 := by
  obtain ⟨⟨own, F, ss, hh⟩, l1, l2⟩ := sys
  have hlt : i < ths.length := (List.getElem?_eq_some_iff.1 hi).1
  have hl1 : rss[i]? = some (rss[i]'(by omega)) := List.getElem?_eq_getElem _
  have hl2 : own[i]? = some (own[i]'(by have := ss.len; omega)) := List.getElem?_eq_getElem _
  obtain ⟨τ, h1, h2, h3⟩ := (ss.safe i th _ hi hl2).result hr
  rw [hl1, h2 _ hl1]

/-- A thread that is scheduled again and again finishes. -/
theorem System.finishes {impl : Impl L H Op Ret} {rss : List (List (Option Ret))} {sss : List (List (Option σ))}
    {hF : List (Option H)} {Fs : List (Option σ)} {ths : List (Thread L (List (Option Ret) × List (Option H)))} {h : Mem L}
    (sys : System impl A D R rss sss hF Fs ths h) {i : Nat} (hi : i < ths.length) (s : Nat → Nat)
    (hs : ∀ n, ∃ m, n ≤ m ∧ s m = i) :
    ∃ n ths' h' th r, runThreads A (prefixOf s n) ths h = .ok (ths', h') ∧ ths'[i]? = some th ∧ th.result = some r := by
  obtain ⟨⟨own, F, ss, hh⟩, l1, l2⟩ := sys
  have hl1 : ths[i]? = some (ths[i]'hi) := List.getElem?_eq_getElem _
  have hl2 : own[i]? = some (own[i]'(by have := ss.len; omega)) := List.getElem?_eq_getElem _
  obtain ⟨n, ths', own', h', th', r, e1, e2, e3, e4⟩ :=
    SysSafe.finishes (i := i) _ (own[i]'(by have := ss.len; omega)).1 s hs ss _
      (own[i]'(by have := ss.len; omega)).2 hl1 rfl hl2
  exact ⟨n, ths', h', th', r, e1, e3, e4⟩

/-- Handles of several threads together. -/
theorem handles_flatten {hss : List (List (Option H))} {sss : List (List (Option σ))} {ρs : List (List (Item L))}
    (l1 : hss.length = ρs.length) (l2 : sss.length = ρs.length)
    (hh : ∀ (i : Nat) (hs : List (Option H)) (ss : List (Option σ)) (ρ : List (Item L)), hss[i]? = some hs → sss[i]? = some ss → ρs[i]? = some ρ →
      ∃ τ', ρ.Perm τ' ∧ Handles R hs ss τ') :
    ∃ τ', ρs.flatten.Perm τ' ∧ Handles R hss.flatten sss.flatten τ' := by
  have app : ∀ {hs hs' : List (Option H)} {ss ss' : List (Option σ)} {ρ ρ' : List (Item L)}, Handles R hs ss ρ →
      Handles R hs' ss' ρ' → Handles R (hs ++ hs') (ss ++ ss') (ρ ++ ρ') := by
    intro hs hs' ss ss' ρ ρ' h1 h2
    induction h1 with
    | nil => exact h2
    | dead ht ih => exact .dead ih
    | live hh ht ih => rw [List.append_assoc]; exact .live hh ih
  induction ρs generalizing hss sss with
  | nil =>
    have h1 : hss = [] := List.eq_nil_of_length_eq_zero l1
    have h2 : sss = [] := List.eq_nil_of_length_eq_zero l2
    subst h1 h2
    exact ⟨[], .refl _, .nil⟩
  | cons ρ ρs ih =>
    cases hss with
    | nil => simp at l1
    | cons hs hss =>
      cases sss with
      | nil => simp at l2
      | cons ss sss =>
        obtain ⟨τ, e1, e2⟩ := hh 0 hs ss ρ rfl rfl rfl
        obtain ⟨τ', e3, e4⟩ := ih (by simpa using l1) (by simpa using l2) fun i a b c h1 h2 h3 =>
          hh (i + 1) a b c (by simpa using h1) (by simpa using h2) (by simpa using h3)
        exact ⟨τ ++ τ', e1.append e3, app e2 e4⟩

/-- When all threads have finished, the memory is exactly what their handles, and the handles given to no thread, keep
alive. -/
theorem System.quiet {impl : Impl L H Op Ret} {new : σ} {step : σ → Op → Res (Ret × Effect σ)}
    (hr : impl.RefinesIn A D new step R) {rss : List (List (Option Ret))}
    {sss : List (List (Option σ))} {hF : List (Option H)} {Fs : List (Option σ)} {ths : List (Thread L (List (Option Ret) × List (Option H)))}
    {h : Mem L} (sys : System impl A D R rss sss hF Fs ths h)
    (res : List (List (Option Ret) × List (Option H)))
    (hres : ths.map Thread.result = res.map some) :
    ∃ ρ, Handles R ((res.map (·.2)).flatten ++ hF) (sss.flatten ++ Fs) ρ ∧ Own h ρ ∧
      Exact h (ptrsOf impl ((res.map (·.2)).flatten ++ hF)) := by
  obtain ⟨⟨own, F, ss, hh⟩, l1, l2⟩ := sys
  have hlen : ths.length = res.length := by simpa using congrArg List.length hres
  have hlo := ss.len
  obtain ⟨τ', e1, e2⟩ := handles_flatten (R := R) (hss := res.map (·.2)) (sss := sss)
    (ρs := own.map fun x => threadItems x.1 x.2) (by simp; omega) (by simp; omega) (by
      intro i hs ss' ρ h1 h2 h3
      rw [List.getElem?_map] at h1 h3
      cases hx : own[i]? with
      | none => simp [hx] at h3
      | some x =>
        cases hy : res[i]? with
        | none => simp [hy] at h1
        | some y =>
          simp only [hx, hy, Option.map_some, Option.some.injEq] at h1 h3
          subst h1 h3
          have hi : i < ths.length := by rw [hlen]; exact (List.getElem?_eq_some_iff.1 hy).1
          have ht : ths[i]? = some (ths[i]'hi) := List.getElem?_eq_getElem _
          have hr' : (ths[i]'hi).result = some y := by
            have := congrArg (·[i]?) hres
            simp only [List.getElem?_map, ht, hy, Option.map_some, Option.some.injEq] at this
            exact this
          obtain ⟨τ, e1, e2, e3⟩ := (ss.safe i _ _ ht hx).result hr'
          obtain ⟨τ', e4, e5⟩ := e3 _ h2
          exact ⟨τ', e1.trans e4, e5⟩)
  obtain ⟨ρ, hρ, e3⟩ := handles_flatten (R := R) (hss := [(res.map (·.2)).flatten, hF]) (sss := [sss.flatten, Fs])
    (ρs := [τ', F]) rfl rfl (by
      intro i hs ss' ρ h1 h2 h3
      match i with
      | 0 =>
        simp only [List.getElem?_cons_zero, Option.some.injEq] at h1 h2 h3
        subst h1 h2 h3
        exact ⟨_, .refl _, e2⟩
      | 1 =>
        simp only [List.getElem?_cons_succ, List.getElem?_cons_zero, Option.some.injEq] at h1 h2 h3
        subst h1 h2 h3
        exact ⟨_, .refl _, hh⟩
      | i + 2 => simp at h1)
  simp only [List.flatten_cons, List.flatten_nil, List.append_nil] at e3 hρ
  have ho : Own h ρ := ss.mem.perm ((e1.append_right F).trans hρ)
  obtain ⟨ts, rfl, e4⟩ := e3.ptrs hr
  refine ⟨_, e3, ho, ?_⟩
  rw [e4]
  exact ho.exact

/-- No live handle. -/
theorem Handles.none_live {hs : List (Option H)} {ss : List (Option σ)} {ρ : List (Item L)} (h : Handles R hs ss ρ)
    (hn : ∀ s ∈ ss, s = none) : ρ = [] := by
  induction h with
  | nil => rfl
  | dead ht ih => exact ih fun s hs => hn s (by simp [hs])
  | live hh ht ih => exact absurd (hn (some _) (List.mem_cons_self ..)) (by simp)

/-- Items that a program alone does not touch keep their trees. -/
theorem Handles.tree {impl : Impl L H Op Ret} {new : σ} {step : σ → Op → Res (Ret × Effect σ)}
    (hr : impl.RefinesIn A D new step R) {x : H} {s : σ} {ρ : List (Item L)} (hx : R x s ρ) {h h' : Mem L} {F F' : List (Item L)}
    (ho : Own h (ρ ++ F)) (ho' : Own h' (ρ ++ F')) {t : ATree L} (ht : t.addr ∈ impl.ptrs x) (hv : Val h t) :
    Val h' t := by
  obtain ⟨ts, rfl, e⟩ := hr.ptrs _ _ _ hx
  rw [e] at ht
  obtain ⟨u, hu, e2⟩ := List.mem_map.1 ht
  have h1 : Val h u := ho.val u (by simp [hu])
  have : u = t := val_unique h1 hv e2
  subst this
  exact ho'.val u (by simp [hu])

end
end Heap
end Rpds
