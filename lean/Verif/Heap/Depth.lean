import Verif.Heap.System
import Verif.Heap.Linear
/-
How deep destructors nest.  A thread that runs alone never nests more than one level when it drops a list
(`seq_dropList`), because in `Drop for List` a failed `try_unwrap` means that somebody else still holds the node.
-/
set_option autoImplicit false
namespace Rpds
namespace Heap
section
variable {L α β : Type} {A : Allocator L} {D : Option Nat}

theorem step_deep (th : Thread L α) (h : Mem L) (e : Nat) :
    Thread.step A { th with deepest := max e th.deepest } h =
      match th.step A h with
      | .error x => .error x
      | .ok (th', h') => .ok ({ th' with deepest := max e th'.deepest }, h') := by
  obtain ⟨pd, d, prog⟩ := th
  cases pd with
  | cons x pd =>
    obtain ⟨k, p⟩ := x
    simp only [Thread.step]
    cases decr p h with
    | error x => rfl
    | ok y => obtain ⟨cs, h'⟩ := y; simp [Nat.max_assoc]
  | nil =>
    cases prog with
    | ret r => rfl
    | panic => rfl
    | drop p k => rfl
    | op a k =>
      simp only [Thread.step]
      cases act A a h with
      | error x => rfl
      | ok y => obtain ⟨cs, h'⟩ := y; rfl

theorem runAlone_deep (n : Nat) (th : Thread L α) (h : Mem L) (e : Nat) :
    runAlone A n { th with deepest := max e th.deepest } h =
      match runAlone A n th h with
      | .error x => .error x
      | .ok (th', h') => .ok ({ th' with deepest := max e th'.deepest }, h') := by
  induction n generalizing th h with
  | zero => rfl
  | succ n ih =>
    simp only [runAlone, step_deep]
    cases th.step A h with
    | error x => rfl
    | ok y => obtain ⟨th', h'⟩ := y; exact ih th' h'

/-- Running a program that is followed by another one. -/
theorem runAlone_bind (f : α → Prog L β) (n : Nat) (pd : List (Nat × Addr)) (d : Nat) (prog : Prog L α) (h : Mem L)
    (th' : Thread L α) (h' : Mem L) (e : runAlone A n ⟨pd, d, prog⟩ h = .ok (th', h')) :
    ∃ m, runAlone A m ⟨pd, d, prog.bind f⟩ h = .ok (⟨th'.pending, th'.deepest, th'.prog.bind f⟩, h') := by
  induction n generalizing pd d prog h with
  | zero =>
    simp only [runAlone, Except.ok.injEq, Prod.mk.injEq] at e
    obtain ⟨rfl, rfl⟩ := e
    exact ⟨0, rfl⟩
  | succ n ih =>
    simp only [runAlone] at e
    cases pd with
    | cons x pd =>
      obtain ⟨k, p⟩ := x
      simp only [Thread.step] at e
      cases hd : decr p h with
      | error x => simp [hd] at e
      | ok y =>
        obtain ⟨cs, h1⟩ := y
        simp only [hd] at e
        obtain ⟨m, hm⟩ := ih _ _ _ _ e
        exact ⟨m + 1, by simp [runAlone, Thread.step, hd, hm]⟩
    | nil =>
      cases prog with
      | ret r => exact ih [] d (.ret r) h e
      | panic => simp [Thread.step] at e
      | drop p k =>
        obtain ⟨m, hm⟩ := ih _ _ _ _ e
        exact ⟨m + 1, by simp [runAlone, Thread.step, Prog.bind, hm]⟩
      | op a k =>
        simp only [Thread.step] at e
        cases hd : act A a h with
        | error x => simp [hd] at e
        | ok y =>
          obtain ⟨x, h1⟩ := y
          simp only [hd] at e
          obtain ⟨m, hm⟩ := ih _ _ _ _ e
          exact ⟨m + 1, by simp [runAlone, Thread.step, Prog.bind, hd, hm]⟩

theorem Runs.bind {prog : Prog L α} {f : α → Prog L β} {h h₁ h₂ : Mem L} {r : α} {r' : β} {d₁ d₂ : Nat}
    (e₁ : Runs A prog h r h₁ d₁) (e₂ : Runs A (f r) h₁ r' h₂ d₂) : Runs A (prog.bind f) h r' h₂ (max d₁ d₂) := by
  obtain ⟨n, e₁⟩ := e₁
  obtain ⟨m, e₂⟩ := e₂
  obtain ⟨n', e₃⟩ := runAlone_bind f n [] 0 prog h _ _ e₁
  refine ⟨n' + m, ?_⟩
  rw [runAlone_add]
  have e₄ : runAlone A n' (.start (prog.bind f)) h = _ := e₃
  rw [e₄]
  have := runAlone_deep (A := A) m (.start (f r)) h₁ d₁
  rw [e₂] at this
  simpa [Thread.start, Prog.bind] using this

theorem Runs.ret (r : α) (h : Mem L) : Runs A (.ret r) h r h 0 := ⟨0, rfl⟩

theorem runs_op {a : Act L} {x : Resp a} {h h' : Mem L} (e : act A a h = .ok (x, h')) : Runs A (.op a .ret) h x h' 0 :=
  ⟨1, by simp [runAlone, Thread.start, Thread.step, e]⟩

theorem Within.max {m n : Nat} (h₁ : Within D m) (h₂ : Within D n) : Within D (Nat.max m n) :=
  fun d e => Nat.max_le.2 ⟨h₁ d e, h₂ d e⟩

variable {T : Type}

/-- The loop of `Drop for List`, when no other thread interferes. -/
theorem seq_dropLoop {nd : L} {dec : ATree L → T → Prop} (hE : HList.ElemOK D dec) {th : Option (ATree L)} {k : Link T}
    (hk : IsLink nd dec th k) : ∀ (fuel : Nat), k.toList.length ≤ fuel → ∀ (h : Mem L) (F : List (Item L)),
      Own h (optPtr th ++ F) →
      ∃ h' d, Runs A (HList.dropLoop fuel (th.map ATree.addr)) h () h' d ∧ Own h' F ∧ Within D d := by
  induction hk with
  | none =>
    intro fuel _ h F ho
    refine ⟨h, 0, ?_, by simpa using ho, fun d _ => Nat.zero_le d⟩
    cases fuel <;> exact Runs.ret () h
  | @some a tv tn v next hv hn ih =>
    intro fuel hf h F ho
    cases fuel with
    | zero => simp [Link.toList] at hf
    | succ fuel =>
      simp only [optPtr_some, List.singleton_append] at ho
      have hval : Val h (.node a nd (tv :: tn.toList)) := ho.val _ (by simp)
      obtain ⟨n, e, -, hpos, -⟩ := ho.mem_ptr_closed hval
      simp only [ATree.addr, ATree.label, ATree.kids] at e
      by_cases h1 : n = 1
      · subst h1
        have ho1 := Own.release (σ := []) ho e (.inl ⟨rfl, rfl⟩)
        simp only [ATree.kids, ATree.addr, List.nil_append] at ho1
        rw [ptr_node] at ho1
        have htake : Runs A (tryTake a) h (some (nd, (tv :: tn.toList).map ATree.addr)) (put h a .free) 0 :=
          runs_op (by simp [act, e])
        obtain ⟨_, h2, d1, σ, e1, rfl, ho2, hw⟩ :=
          (safe_drop (A := A) (D := D) (t := tv) (ρ := []) (HList.elem_within hE hv _)).runs
            (F := optPtr tn ++ F) (h := put h a .free) (by simpa using ho1)
        obtain ⟨h3, d2, e2, ho3, hw2⟩ := ih fuel (by simp [Link.toList] at hf; omega) h2 F (by simpa using ho2)
        refine ⟨h3, max 0 (max d1 d2), ?_, ho3, by simpa using hw.max hw2⟩
        refine Runs.bind htake ?_
        cases tn with
        | none => exact Runs.bind e1 e2
        | some t => exact Runs.bind e1 e2
      · have htake : Runs A (tryTake a) h none h 0 := runs_op (by simp [act, e, h1])
        refine ⟨put h a (.closed (n - 1) nd ((tv :: tn.toList).map ATree.addr)), max 0 0, Runs.bind htake ?_,
          ho.decr e h1, fun d _ => Nat.zero_le d⟩
        have hd : decr a h = .ok ([], put h a (.closed (n - 1) nd ((tv :: tn.toList).map ATree.addr))) := by
          simp [decr, e, h1]
        exact ⟨2, by simp [drop, runAlone, Thread.start, Thread.step, ATree.addr, hd]⟩

/-- Dropping a list, when no other thread interferes: destructors nest no deeper than those of the elements. -/
theorem seq_dropList {nd : L} {dec : ATree L → T → Prop} (hE : HList.ElemOK D dec) {l : HList} {r : RList T}
    {ρ F : List (Item L)} (h : l.Is nd dec r ρ) (hl : r.head.toList.length = r.length) {m : Mem L} (ho : Own m (ρ ++ F)) :
    ∃ m' d, Runs A l.dropList m () m' d ∧ Own m' F ∧ Within D d := by
  obtain ⟨th, tl, rfl, rfl, h1, h2⟩ := h
  rw [List.append_assoc] at ho
  obtain ⟨m1, d1, e1, ho1, hw1⟩ := seq_dropLoop (A := A) hE h1 r.length (by omega) m _ ho
  obtain ⟨_, m2, d2, σ, e2, rfl, ho2, hw2⟩ := (HList.safe_dropLast (A := A) hE h2 []).runs (F := F) (by simpa using ho1)
  exact ⟨m2, _, Runs.bind e1 e2, ho2, hw1.max hw2⟩

/-! ### Clients that run alone -/

/-- A data structure all of whose operations keep destructors within `D`, and whose handles can be dropped within `D` by a
thread that runs alone. -/
structure Impl.Bounded {H Op Ret σ : Type} (impl : Impl L H Op Ret) (A : Allocator L) (D : Option Nat) (new : σ)
    (step : σ → Op → Res (Ret × Effect σ)) (R : H → σ → List (Item L) → Prop) : Prop where
  new : Safe A D (fun h ρ => R h new ρ) impl.new []
  step : ∀ h s ρ op r e, R h s ρ → step s op = .ok (r, e) →
    Safe A D (fun x τ => x.1 = r ∧ EffOwn R h s x.2 e τ) (impl.step h op) ρ
  drop : ∀ h s ρ F m, R h s ρ → Own m (ρ ++ F) → ∃ m' d, Runs A (impl.drop h) m () m' d ∧ Own m' F ∧ Within D d

/-- A client that runs alone, where `X prog m r m' d` says that `prog` run from the memory `m` ends with `r` and `m'` and nests `d` deep. -/
theorem client_runs {H Op Ret σ : Type} {impl : Impl L H Op Ret} {new : σ} {step : σ → Op → Res (Ret × Effect σ)}
    {R : H → σ → List (Item L) → Prop} (X : (α : Type) → Prog L α → Mem L → α → Mem L → Nat → Prop)
    (hret : ∀ (α : Type) (r : α) (m : Mem L), X α (.ret r) m r m 0)
    (hbind : ∀ (α β : Type) (p : Prog L α) (f : α → Prog L β) (m : Mem L) (r : α) (m₁ : Mem L) (d₁ : Nat) (r' : β) (m₂ : Mem L) (d₂ : Nat),
      X α p m r m₁ d₁ → X β (f r) m₁ r' m₂ d₂ → X β (p.bind f) m r' m₂ (max d₁ d₂))
    (hnew : ∀ F m, Own m F → ∃ x m' d ρ, X H impl.new m x m' d ∧ R x new ρ ∧ Own m' (ρ ++ F) ∧ Within D d)
    (hstep : ∀ h s ρ op r e F m, R h s ρ → step s op = .ok (r, e) → Own m (ρ ++ F) →
      ∃ x m' d τ, X _ (impl.step h op) m x m' d ∧ (x.1 = r ∧ EffOwn R h s x.2 e τ) ∧ Own m' (τ ++ F) ∧ Within D d)
    (hdrop : ∀ h s ρ F m, R h s ρ → Own m (ρ ++ F) → ∃ m' d, X _ (impl.drop h) m () m' d ∧ Own m' F ∧ Within D d)
    (cmds : List (Cmd Op)) {hs : List (Option H)}
    {ss : List (Option σ)} {ρ F : List (Item L)} (h : Handles R hs ss ρ) {m : Mem L} (ho : Own m (ρ ++ F))
    {rs : List (Option Ret)} {ss' : List (Option σ)} (he : pureClient new step ss cmds = .ok (rs, ss')) :
    ∃ hs' m' d ρ', X _ (client impl hs cmds) m (rs, hs') m' d ∧ Handles R hs' ss' ρ' ∧ Own m' (ρ' ++ F) ∧
      Within D d := by
  induction cmds generalizing hs ss ρ rs m with
  | nil =>
    simp only [pureClient, Except.ok.injEq, Prod.mk.injEq] at he
    obtain ⟨rfl, rfl⟩ := he
    exact ⟨hs, m, 0, ρ, hret _ _ _, h, ho, fun d _ => Nat.zero_le d⟩
  | cons c cmds ih =>
    have fin : ∀ {α : Type} {p : Prog L α} {f : α → Prog L (List (Option Ret) × List (Option H))} {x : α}
        {hs' : List (Option H)} {ss₁ : List (Option σ)} {ρ' : List (Item L)} {a : Option Ret}
        {rs₁ : List (Option Ret)} {m₁ : Mem L} {d₁ : Nat}, X _ p m x m₁ d₁ → Within D d₁ →
        (f x = (Prog.bind (Heap.client impl hs' cmds) fun x => .ret (a :: x.1, x.2))) →
        Handles R hs' ss₁ ρ' → Own m₁ (ρ' ++ F) → pureClient new step ss₁ cmds = .ok (rs₁, ss') →
        ∃ hs'' m' d ρ', X _ (p.bind f) m (a :: rs₁, hs'') m' d ∧ Handles R hs'' ss' ρ' ∧ Own m' (ρ' ++ F) ∧
          Within D d := by
      intro α p f x hs' ss₁ ρ' a rs₁ m₁ d₁ e1 hw e2 h' ho' he'
      obtain ⟨hs'', m', d, ρ'', e3, e4, e5, e6⟩ := ih h' ho' he'
      refine ⟨hs'', m', max d₁ (max d 0), ρ'', hbind _ _ _ _ _ _ _ _ _ _ _ e1 ?_, e4, e5, hw.max (e6.mono (by simp))⟩
      rw [e2]
      exact hbind _ _ _ _ _ _ _ _ _ _ _ e3 (hret _ _ _)
    have split : ∀ {ss₁ : List (Option σ)} {a : Option Ret}, (do
        let x ← pureClient new step ss₁ cmds
        .ok (a :: x.1, x.2) : Res _) = .ok (rs, ss') → ∃ rs₁, pureClient new step ss₁ cmds = .ok (rs₁, ss') ∧
          rs = a :: rs₁ := by
      intro ss₁ a he
      cases hp : pureClient new step ss₁ cmds with
      | error e => simp [hp] at he
      | ok x =>
        obtain ⟨x1, x2⟩ := x
        simp [hp] at he
        obtain ⟨rfl, rfl⟩ := he
        exact ⟨x1, rfl, rfl⟩
    have skip : ∀ {rs₁ : List (Option Ret)}, pureClient new step ss cmds = .ok (rs₁, ss') →
        ∃ hs'' m' d ρ', X _ (Prog.bind (Heap.client impl hs cmds) fun x => .ret (none :: x.1, x.2)) m
          (none :: rs₁, hs'') m' d ∧ Handles R hs'' ss' ρ' ∧ Own m' (ρ' ++ F) ∧ Within D d := by
      intro rs₁ he'
      exact fin (p := .ret ()) (f := fun _ => Prog.bind (Heap.client impl hs cmds) fun x => .ret (none :: x.1, x.2))
        (hret _ () m) (fun d _ => Nat.zero_le d) rfl h ho he'
    cases c with
    | new =>
      obtain ⟨rs₁, he', rfl⟩ := split (by simpa only [pureClient] using he)
      obtain ⟨x, m₁, d₁, σ', e1, hx, ho1, hw⟩ := hnew (ρ ++ F) m ho
      exact fin e1 hw rfl (h.snoc hx) (ho1.perm (by perm_tac)) he'
    | run i op =>
      simp only [Heap.client, pureClient] at he ⊢
      rcases h.get i with ⟨x, s, ρ₁, ρ₂, h1, h2, h3, h4, h5, -⟩ | ⟨h1, h2⟩
      · simp only [h1, h2] at he ⊢
        cases hst : step s op with
        | error e => simp [hst] at he
        | ok y =>
          obtain ⟨r, e⟩ := y
          simp only [hst, Res.ok_bind] at he
          obtain ⟨rs₁, he', rfl⟩ := split he
          obtain ⟨⟨r', e'⟩, m₁, d₁, τ, e1, ⟨rfl, heff⟩, ho1, hw⟩ := hstep x s ρ₁ op r e
            (ρ₂ ++ F) m h3 hst (ho.perm (by rw [← List.append_assoc]; exact h4.append_right F))
          simp only at heff
          cases heff with
          | keep hk =>
            obtain ⟨ρ₃, h8, h9⟩ := h5 _ _ _ hk
            have e1' := set_self h1
            have e2' := set_self h2
            rw [e1', e2'] at h9
            exact fin e1 hw rfl h9 (ho1.perm (by
              rw [← List.append_assoc]; exact (h8.symm.append_right F))) he'
          | @fresh h' s' τ₁ τ₂ hf hk =>
            obtain ⟨ρ₃, h8, h9⟩ := h5 _ _ _ hk
            have e1' := set_self h1
            have e2' := set_self h2
            rw [e1', e2'] at h9
            refine fin e1 hw rfl (h9.snoc hf) (ho1.perm ?_) he'
            refine List.Perm.trans ?_ ((h8.symm.append_right τ₁).append_right F)
            perm_tac
          | update hu =>
            obtain ⟨ρ₃, h8, h9⟩ := h5 _ _ _ hu
            exact fin e1 hw rfl h9 (ho1.perm (by
              rw [← List.append_assoc]; exact (h8.symm.append_right F))) he'
      · have e1 : hs[i]? = none ∨ hs[i]? = some none := by
          cases hq : hs[i]? with
          | none => exact .inl rfl
          | some o => cases o with
            | none => exact .inr rfl
            | some x => exact absurd hq (h1 x)
        have e2 : ss[i]? = none ∨ ss[i]? = some none := by
          cases hq : ss[i]? with
          | none => exact .inl rfl
          | some o => cases o with
            | none => exact .inr rfl
            | some x => exact absurd hq (h2 x)
        rcases e1 with e1 | e1 <;> rcases e2 with e2 | e2 <;> simp only [e1, e2] at he ⊢ <;>
          (obtain ⟨rs₁, he', rfl⟩ := split he; exact skip he')
    | discard i =>
      simp only [Heap.client, pureClient] at he ⊢
      rcases h.get i with ⟨x, s, ρ₁, ρ₂, h1, h2, h3, h4, -, ρ₃, h5, h6⟩ | ⟨h1, h2⟩
      · simp only [h1, h2] at he ⊢
        obtain ⟨rs₁, he', rfl⟩ := split he
        obtain ⟨m₁, d₁, e1, ho1, hw⟩ := hdrop x s ρ₁ (ρ₂ ++ F) m h3
          (ho.perm (by rw [← List.append_assoc]; exact h4.append_right F))
        exact fin e1 hw rfl h6 (ho1.perm (h5.symm.append_right F)) he'
      · have e1 : hs[i]? = none ∨ hs[i]? = some none := by
          cases hq : hs[i]? with
          | none => exact .inl rfl
          | some o => cases o with
            | none => exact .inr rfl
            | some x => exact absurd hq (h1 x)
        have e2 : ss[i]? = none ∨ ss[i]? = some none := by
          cases hq : ss[i]? with
          | none => exact .inl rfl
          | some o => cases o with
            | none => exact .inr rfl
            | some x => exact absurd hq (h2 x)
        rcases e1 with e1 | e1 <;> rcases e2 with e2 | e2 <;> simp only [e1, e2] at he ⊢ <;>
          (obtain ⟨rs₁, he', rfl⟩ := split he; exact skip he')

/-- A client that runs alone. -/
theorem Impl.Bounded.client {H Op Ret σ : Type} {impl : Impl L H Op Ret} {new : σ} {step : σ → Op → Res (Ret × Effect σ)}
    {R : H → σ → List (Item L) → Prop} (hb : impl.Bounded A D new step R) (cmds : List (Cmd Op)) {hs : List (Option H)}
    {ss : List (Option σ)} {ρ F : List (Item L)} (h : Handles R hs ss ρ) {m : Mem L} (ho : Own m (ρ ++ F))
    {rs : List (Option Ret)} {ss' : List (Option σ)} (he : pureClient new step ss cmds = .ok (rs, ss')) :
    ∃ hs' m' d ρ', Runs A (client impl hs cmds) m (rs, hs') m' d ∧ Handles R hs' ss' ρ' ∧ Own m' (ρ' ++ F) ∧
      Within D d :=
  client_runs (fun _ => Runs A) (fun _ => Runs.ret) (fun _ _ _ _ _ _ _ _ _ _ _ => Runs.bind)
    (fun F m ho => hb.new.runs (F := F) (by simpa using ho)) (fun h s ρ op r e F m hr he ho => (hb.step h s ρ op r e hr he).runs ho)
    hb.drop cmds h ho he

end

/-! ### Lists, stacks and queues -/

section
variable {T : Type} {A : Allocator (LinLabel T)}

theorem listImpl_bounded :
    (listImpl T).Bounded A (some 1) ([] : List T) (fun xs op => .ok (Spec.listStep xs op)) ListIs where
  new := Safe.ret ⟨RList.new, HList.is_new _ _, RList.rep_new⟩
  step := by
    rintro l xs ρ op r e h he
    simp only [Except.ok.injEq] at he
    have := safe_listHStep (A := A) (within_some.2 (Nat.le_refl 1)) h op
    rw [he] at this
    exact this
  drop := by
    rintro l xs ρ F m ⟨r, h1, h2⟩ ho
    exact seq_dropList (linElemOK (within_some.2 (Nat.le_refl 1))) h1 (by simp [h2.head, h2.length]) ho

theorem stackImpl_bounded :
    (stackImpl T).Bounded A (some 1) ([] : List T) (fun xs op => .ok (Spec.stackStep xs op)) ListIs where
  new := Safe.ret ⟨RList.new, HList.is_new _ _, RList.rep_new⟩
  step := by
    rintro l xs ρ op r e h he
    simp only [Except.ok.injEq] at he
    have := safe_stackHStep (A := A) (within_some.2 (Nat.le_refl 1)) h op
    rw [he] at this
    exact this
  drop := listImpl_bounded.drop

theorem queueImpl_bounded :
    (queueImpl T).Bounded A (some 1) ([] : List T) (fun xs op => .ok (Spec.queueStep xs op)) QueueIs where
  new := Safe.ret ⟨Queue.new, ⟨[], [], rfl, HList.is_new _ _, HList.is_new _ _, rfl, rfl⟩, Queue.rep_new⟩
  step := by
    rintro l xs ρ op r e h he
    simp only [Except.ok.injEq] at he
    have := safe_queueHStep (A := A) (within_some.2 (Nat.le_refl 1)) h op
    rw [he] at this
    exact this
  drop := by
    rintro q xs ρ F m ⟨r, ⟨ρ₁, ρ₂, rfl, h1, h2, h3, h4⟩, -⟩ ho
    have hE : HList.ElemOK (some 1) (linDec (T := T)) := linElemOK (within_some.2 (Nat.le_refl 1))
    obtain ⟨m1, d1, e1, ho1, hw1⟩ := seq_dropList (A := A) hE h1 h3 (by rw [List.append_assoc] at ho; exact ho)
    obtain ⟨m2, d2, e2, ho2, hw2⟩ := seq_dropList (A := A) hE h2 h4 ho1
    exact ⟨m2, _, Runs.bind e1 e2, ho2, hw1.max hw2⟩

end
end Heap
end Rpds
