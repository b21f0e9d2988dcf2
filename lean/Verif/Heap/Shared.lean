import Verif.Heap.System
import Verif.Heap.Tree
/-
Threads that share handles.  Some of the handles made by a first thread are lent to all other threads at once (`&T` where
`T: Sync`, as with scoped threads), the others are given away as before.  Through a lent handle a thread can run the operations that
take `&self`; what these make is the thread's own.
-/
set_option autoImplicit false
namespace Rpds
namespace Heap

/-- Effect of an operation on a lent handle: `τ` are the items of the new handle, if there is one. -/
inductive EffNew {L H σ : Type} (R : H → σ → List (Item L) → Prop) : Effect H → Effect σ → List (Item L) → Prop where
  | keep : EffNew R .keep .keep []
  | fresh {h' : H} {s' : σ} {τ : List (Item L)} (hf : R h' s' τ) : EffNew R (.fresh h') (.fresh s') τ

/-- The operations `byRef` (those that take `&self`) can be run on a lent handle, with the answers of the plain values. -/
structure Impl.Lends {L H Op Ret σ : Type} (impl : Impl L H Op Ret) (A : Allocator L) (step : σ → Op → Res (Ret × Effect σ))
    (R : H → σ → List (Item L) → Prop) (byRef : Op → Bool) : Prop where
  step : ∀ h s β op r e, R h s β → byRef op = true → step s op = .ok (r, e) →
    SafeB A none β (fun x τ => x.1 = r ∧ EffNew R x.2 e τ) (impl.step h op) []

/-- The commands use the handles at the positions `sh` only through `&`. -/
def Respects {Op : Type} (sh : Nat → Bool) (byRef : Op → Bool) (cmds : List (Cmd Op)) : Prop :=
  ∀ c ∈ cmds, match c with
    | .new => True
    | .run i op => sh i = true → byRef op = true
    | .discard i => sh i = false

/-- The handles that thread `i` can use: those at the positions `sh`, lent to all threads, and those given to it. -/
def lentTo {α : Type} (sh : Nat → Bool) (owner : Nat → Nat) (i : Nat) (hs : List (Option α)) : List (Option α) :=
  keepIf (fun j => sh j = true ∨ owner j = i) 0 hs

/-- The handles that a thread owns, of those it can use. -/
def owned {α : Type} (sh : Nat → Bool) (hs : List (Option α)) : List (Option α) := keepIf (fun j => sh j = false) 0 hs

/-- The handles that are lent. -/
def lentOf {α : Type} (sh : Nat → Bool) (hs : List (Option α)) : List (Option α) := keepIf (fun j => sh j = true) 0 hs

/-- The handles that are neither lent nor given to one of the `n` threads. -/
def idleOf {α : Type} (sh : Nat → Bool) (owner : Nat → Nat) (n : Nat) (hs : List (Option α)) : List (Option α) :=
  keepIf (fun j => sh j = false ∧ n ≤ owner j) 0 hs

/-- The threads with their handles; thread `i` runs the commands `cmdss[i]`. -/
def sharingThreads {L H Op Ret : Type} (impl : Impl L H Op Ret) (sh : Nat → Bool) (owner : Nat → Nat) (hs : List (Option H)) :
    (i : Nat) → (cmdss : List (List (Cmd Op))) → List (Thread L (List (Option Ret) × List (Option H)))
  | _, [] => []
  | i, cmds :: cmdss => .start (client impl (lentTo sh owner i hs) cmds) :: sharingThreads impl sh owner hs (i + 1) cmdss

section
variable {L H Op Ret σ : Type} {R : H → σ → List (Item L) → Prop} {A : Allocator L}

theorem keepIf_append {α : Type} (P : Nat → Prop) [DecidablePred P] (j : Nat) (xs : List (Option α)) (x : Option α)
    (h : P (j + xs.length)) : keepIf P j (xs ++ [x]) = keepIf P j xs ++ [x] := by
  induction xs generalizing j with
  | nil => simp only [List.length_nil, Nat.add_zero] at h; simp [keepIf, h]
  | cons y xs ih =>
    simp only [List.cons_append, keepIf, List.cons.injEq, true_and]
    exact ih (j + 1) (by simpa [Nat.add_assoc, Nat.add_comm 1] using h)

theorem keepIf_set {α : Type} (P : Nat → Prop) [DecidablePred P] (j : Nat) (xs : List (Option α)) (i : Nat) (x : Option α)
    (h : P (j + i)) : keepIf P j (xs.set i x) = (keepIf P j xs).set i x := by
  induction xs generalizing j i with
  | nil => rfl
  | cons y xs ih =>
    cases i with
    | zero => simp only [Nat.add_zero] at h; simp [keepIf, h]
    | succ i =>
      simp only [List.set_cons_succ, keepIf, List.cons.injEq, true_and]
      exact ih (j + 1) i (by simpa [Nat.add_assoc, Nat.add_comm 1] using h)

theorem keepIf_keepIf {α : Type} (P Q S : Nat → Prop) [DecidablePred P] [DecidablePred Q] [DecidablePred S]
    (h : ∀ j, S j ↔ P j ∧ Q j) (j : Nat) (xs : List (Option α)) : keepIf P j (keepIf Q j xs) = keepIf S j xs := by
  induction xs generalizing j with
  | nil => rfl
  | cons y xs ih =>
    simp only [keepIf, ih, List.cons.injEq, and_true]
    by_cases h1 : P j <;> by_cases h2 : Q j <;> simp [h1, h2, (h j)]

theorem readsOnly_lift {α : Type} (r : Res α) : (lift r : Prog L α).ReadsOnly := by
  cases r <;> trivial

theorem readsOnly_forAll {α β : Type} {f : α → Prog L β} (hf : ∀ a, (f a).ReadsOnly) (as : List α) : (forAll f as).ReadsOnly := by
  induction as with
  | nil => trivial
  | cons a as ih => exact (hf a).bind fun _ => ih.bind fun _ => trivial

/-- Operations that only read can be run on a lent handle. -/
theorem Impl.RefinesIn.reads {impl : Impl L H Op Ret} {new : σ} {step : σ → Op → Res (Ret × Effect σ)}
    (hr : impl.Refines A new step R) {h : H} {s : σ} {β : List (Item L)} {op : Op} {r : Ret} (h1 : R h s β)
    (h2 : step s op = .ok (r, .keep)) (h3 : (impl.step h op).ReadsOnly) :
    SafeB A none β (fun x τ => x.1 = r ∧ EffNew R x.2 .keep τ) (impl.step h op) [] := by
  refine ((hr.step h s β op r _ h1 h2).lend h3).imp ?_
  rintro ⟨x1, x2⟩ _ ⟨rfl, τ, rfl, h4⟩
  refine ⟨rfl, ?_⟩
  cases h4 with
  | keep => exact .keep

theorem Impl.Lends.trans {α : Type} {impl : Impl L H Op Ret} {step : σ → Op → Res (Ret × Effect σ)} {byRef : Op → Bool}
    {S : σ → α → Prop} {spec : α → Op → Res (Ret × Effect α)} (hl : impl.Lends A step R byRef)
    (hstep : ∀ s a op r f, S s a → spec a op = .ok (r, f) → ∃ e, step s op = .ok (r, e) ∧ Effect.Rel S e f) :
    impl.Lends A spec (fun h a ρ => ∃ s, R h s ρ ∧ S s a) byRef where
  step := by
    rintro h a β op r f ⟨s, h1, h2⟩ hb he
    obtain ⟨e, h3, h4⟩ := hstep s a op r f h2 he
    refine (hl.step h s β op r e h1 hb h3).imp ?_
    rintro ⟨r', e'⟩ τ ⟨rfl, h5⟩
    refine ⟨rfl, ?_⟩
    cases h4 with
    | keep => cases h5 with | keep => exact .keep
    | fresh hs => cases h5 with | fresh hf => exact .fresh ⟨_, hf, hs⟩
    | update hs => cases h5

theorem Impl.Lends.adapt {Op' Ret' : Type} {impl : Impl L H Op Ret} {step : σ → Op → Res (Ret × Effect σ)} {byRef : Op → Bool}
    (hl : impl.Lends A step R byRef) (f : Op' → Op) (g : Ret → Ret') :
    (impl.adapt f g).Lends A (fun s op => (do let x ← step s (f op); .ok (g x.1, x.2) : Res _)) R (fun op => byRef (f op)) where
  step := by
    intro h s β op r e h1 hb he
    cases hs : step s (f op) with
    | error x => rw [hs] at he; cases he
    | ok x =>
      rw [hs] at he
      cases he
      refine SafeB.bind (hl.step h s β (f op) x.1 x.2 h1 hb hs) ?_
      rintro ⟨r', e'⟩ τ ⟨rfl, h2⟩
      exact SafeB.ret ⟨rfl, h2⟩

/-- What a client with lent handles knows. -/
structure Lent (R : H → σ → List (Item L) → Prop) (B : List (Item L)) (sh : Nat → Bool) (hs : List (Option H)) (ss : List (Option σ))
    (ρ : List (Item L)) : Prop where
  own : Handles R (owned sh hs) (owned sh ss) ρ
  lent : ∀ j, sh j = true →
    (∃ x s β C, hs[j]? = some (some x) ∧ ss[j]? = some (some s) ∧ R x s β ∧ B.Perm (β ++ C)) ∨
    (hs[j]? = some none ∧ ss[j]? = some none)

theorem owned_get {α : Type} {sh : Nat → Bool} {i : Nat} (h : sh i = false) (xs : List (Option α)) : (owned sh xs)[i]? = xs[i]? := by
  rw [owned, keepIf_getElem?]
  simp [h]

theorem Handles.length {hs : List (Option H)} {ss : List (Option σ)} {ρ : List (Item L)} (h : Handles R hs ss ρ) :
    hs.length = ss.length := by
  induction h with
  | nil => rfl
  | dead ht ih => simp [ih]
  | live hh ht ih => simp [ih]

theorem keepIf_length {α : Type} (P : Nat → Prop) [DecidablePred P] (j : Nat) (xs : List (Option α)) :
    (keepIf P j xs).length = xs.length := by
  induction xs generalizing j with
  | nil => rfl
  | cons x xs ih => simp [keepIf, ih]

section
variable {B : List (Item L)} {sh : Nat → Bool} {hs : List (Option H)} {ss : List (Option σ)} {ρ : List (Item L)}

theorem Lent.lt (h : Lent R B sh hs ss ρ) {j : Nat} (hj : sh j = true) : j < hs.length ∧ j < ss.length := by
  rcases h.lent j hj with ⟨x, s, β, C, h1, h2, -⟩ | ⟨h1, h2⟩
  · exact ⟨(List.getElem?_eq_some_iff.1 h1).1, (List.getElem?_eq_some_iff.1 h2).1⟩
  · exact ⟨(List.getElem?_eq_some_iff.1 h1).1, (List.getElem?_eq_some_iff.1 h2).1⟩

theorem Lent.snoc (h : Lent R B sh hs ss ρ) {x : H} {s : σ} {ρ' : List (Item L)} (hx : R x s ρ') :
    Lent R B sh (hs ++ [some x]) (ss ++ [some s]) (ρ ++ ρ') := by
  have hlen : hs.length = ss.length := by
    have := h.own.length
    simpa [owned, keepIf_length] using this
  have h1 : sh (0 + hs.length) = false := by
    cases e : sh (0 + hs.length) with
    | false => rfl
    | true => have := (h.lt e).1; omega
  refine ⟨?_, ?_⟩
  · rw [owned, owned, keepIf_append _ _ _ _ h1, keepIf_append _ _ _ _ (by rw [← hlen]; exact h1)]
    exact h.own.snoc hx
  · intro j hj
    have := h.lt hj
    rw [List.getElem?_append_left this.1, List.getElem?_append_left this.2]
    exact h.lent j hj

theorem Lent.set (h : Lent R B sh hs ss ρ) {i : Nat} (hi : sh i = false) {x : Option H} {s : Option σ} {ρ' : List (Item L)}
    (hh : Handles R ((owned sh hs).set i x) ((owned sh ss).set i s) ρ') : Lent R B sh (hs.set i x) (ss.set i s) ρ' := by
  refine ⟨?_, ?_⟩
  · rw [owned, owned, keepIf_set _ _ _ _ _ (by simpa using hi), keepIf_set _ _ _ _ _ (by simpa using hi)]
    exact hh
  · intro j hj
    have : i ≠ j := by
      rintro rfl
      rw [hi] at hj
      cases hj
    rw [List.getElem?_set_ne this, List.getElem?_set_ne this]
    exact h.lent j hj

end

/-- A client that uses lent handles only through `&` gets the answers of the plain values. -/
theorem safeB_client {impl : Impl L H Op Ret} {new : σ} {step : σ → Op → Res (Ret × Effect σ)} {byRef : Op → Bool}
    (hr : impl.Refines A new step R) (hl : impl.Lends A step R byRef) {B : List (Item L)} {sh : Nat → Bool} (cmds : List (Cmd Op))
    (hc : Respects sh byRef cmds) {hs : List (Option H)} {ss : List (Option σ)}
    {ρ : List (Item L)} (h : Lent R B sh hs ss ρ) {rs : List (Option Ret)} {ss' : List (Option σ)}
    (he : pureClient new step ss cmds = .ok (rs, ss')) :
    SafeB A none B (fun x τ => x.1 = rs ∧ ∃ τ', τ.Perm τ' ∧ Lent R B sh x.2 ss' τ') (client impl hs cmds) ρ := by
  induction cmds generalizing hs ss ρ rs with
  | nil =>
    simp only [pureClient, Except.ok.injEq, Prod.mk.injEq] at he
    obtain ⟨rfl, rfl⟩ := he
    exact SafeB.ret ⟨rfl, ρ, .refl _, h⟩
  | cons c cmds ih =>
    have hcs : Respects sh byRef cmds := fun c hm => hc c (by simp [hm])
    have hc1 := hc c (by simp)
    have fin : ∀ {hs' : List (Option H)} {ss₁ : List (Option σ)} {ρ' : List (Item L)} {a : Option Ret}
        {rs₁ : List (Option Ret)}, (∃ ρ'', ρ'.Perm ρ'' ∧ Lent R B sh hs' ss₁ ρ'') →
        pureClient new step ss₁ cmds = .ok (rs₁, ss') →
        SafeB A none B (fun x τ => x.1 = a :: rs₁ ∧ ∃ τ', τ.Perm τ' ∧ Lent R B sh x.2 ss' τ')
          (Prog.bind (client impl hs' cmds) fun x => .ret (a :: x.1, x.2)) ρ' := by
      rintro hs' ss₁ ρ' a rs₁ ⟨ρ'', hp, h'⟩ he'
      refine SafeB.bind ((ih hcs h' he').perm hp) ?_
      rintro ⟨x1, x2⟩ τ ⟨rfl, h2⟩
      exact SafeB.ret ⟨rfl, h2⟩
    have split : ∀ {ss₁ : List (Option σ)} {a : Option Ret}, (do
        let x ← pureClient new step ss₁ cmds
        .ok (a :: x.1, x.2) : Res _) = .ok (rs, ss') → ∃ rs₁, pureClient new step ss₁ cmds = .ok (rs₁, ss') ∧
          rs = a :: rs₁ := by
      intro ss₁ a he
      cases hp : pureClient new step ss₁ cmds with
      | error e => simp [hp] at he
      | ok x =>
        obtain ⟨x1, x2⟩ := x
        simp [hp] at he
        obtain ⟨rfl, rfl⟩ := he
        exact ⟨x1, rfl, rfl⟩
    cases c with
    | new =>
      obtain ⟨rs₁, he', rfl⟩ := split (by simpa only [pureClient] using he)
      refine SafeB.bindFrame (ρ := []) (F := ρ) hr.new.borrowing (by simp) ?_
      intro x τ hx
      exact fin ⟨_, List.perm_append_comm, h.snoc hx⟩ he'
    | run i op =>
      simp only [client, pureClient] at he ⊢
      have miss : (∀ x, hs[i]? ≠ some (some x)) → (∀ s, ss[i]? ≠ some (some s)) →
          SafeB A none B (fun x τ => x.1 = rs ∧ ∃ τ', τ.Perm τ' ∧ Lent R B sh x.2 ss' τ') (match hs[i]? with
            | some (some h) =>
              Prog.bind (impl.step h op) fun y =>
              Prog.bind (client impl (Effect.applyOpt hs i y.2) cmds) fun x => .ret (some y.1 :: x.1, x.2)
            | _ => Prog.bind (client impl hs cmds) fun x => .ret (none :: x.1, x.2)) ρ := by
        intro h1 h2
        split at he
        · next h' => exact absurd h' (h2 _)
        split
        · next h' => exact absurd h' (h1 _)
        obtain ⟨rs₁, he', rfl⟩ := split he
        exact fin ⟨ρ, .refl _, h⟩ he'
      cases hsh : sh i with
      | true =>
        rcases h.lent i hsh with ⟨x, s, β, C, h1, h2, h3, h4⟩ | ⟨h1, h2⟩
        · simp only [h1, h2] at he ⊢
          cases hst : step s op with
          | error e => simp [hst] at he
          | ok y =>
            obtain ⟨r, e⟩ := y
            simp only [hst, Res.ok_bind] at he
            obtain ⟨rs₁, he', rfl⟩ := split he
            refine SafeB.bindFrame (ρ := []) (F := ρ) ((hl.step x s β op r e h3 (hc1 hsh) hst).more h4) (by simp) ?_
            rintro ⟨r', e'⟩ τ ⟨rfl, heff⟩
            refine fin ?_ he'
            cases heff with
            | keep => exact ⟨ρ, by simp, h⟩
            | fresh hf => exact ⟨_, List.perm_append_comm, h.snoc hf⟩
        · exact miss (by simp [h1]) (by simp [h2])
      | false =>
        rcases h.own.get i with ⟨x, s, ρ₁, ρ₂, h1, h2, h3, h4, h5, -⟩ | ⟨h1, h2⟩
        · have e1 := set_self h1
          have e2 := set_self h2
          rw [owned_get hsh] at h1 h2
          simp only [h1, h2] at he ⊢
          cases hst : step s op with
          | error e => simp [hst] at he
          | ok y =>
            obtain ⟨r, e⟩ := y
            simp only [hst, Res.ok_bind] at he
            obtain ⟨rs₁, he', rfl⟩ := split he
            refine SafeB.bindFrame (F := ρ₂) (hr.step x s ρ₁ op r e h3 hst).borrowing h4 ?_
            rintro ⟨r', e'⟩ τ ⟨rfl, heff⟩
            refine fin ?_ he'
            cases heff with
            | keep hk =>
              obtain ⟨ρ₃, h8, h9⟩ := h5 _ _ _ hk
              rw [e1, e2] at h9
              exact ⟨ρ₃, h8.symm, h9, h.lent⟩
            | @fresh h' s' τ₁ τ₂ hf hk =>
              obtain ⟨ρ₃, h8, h9⟩ := h5 _ _ _ hk
              rw [e1, e2] at h9
              refine ⟨ρ₃ ++ τ₁, ?_, Lent.snoc ⟨h9, h.lent⟩ hf⟩
              refine List.Perm.trans ?_ (h8.symm.append_right τ₁)
              perm_tac
            | update hu =>
              obtain ⟨ρ₃, h8, h9⟩ := h5 _ _ _ hu
              exact ⟨ρ₃, h8.symm, h.set hsh h9⟩
        · rw [owned_get hsh] at h1 h2
          exact miss h1 h2
    | discard i =>
      simp only [client, pureClient] at he ⊢
      have hsh : sh i = false := hc1
      rcases h.own.get i with ⟨x, s, ρ₁, ρ₂, h1, h2, h3, h4, -, ρ₃, h5, h6⟩ | ⟨h1, h2⟩
      · rw [owned_get hsh] at h1 h2
        simp only [h1, h2] at he ⊢
        obtain ⟨rs₁, he', rfl⟩ := split he
        refine SafeB.bindFrame (F := ρ₂) (hr.drop x s ρ₁ h3).borrowing h4 ?_
        rintro _ _ rfl
        exact fin ⟨ρ₃, h5.symm, h.set hsh h6⟩ he'
      · rw [owned_get hsh] at h1 h2
        have he' : (do let x ← pureClient new step ss cmds; .ok (none :: x.1, x.2) : Res _) = .ok (rs, ss') := by
          cases hy : ss[i]? with
          | none => simpa only [hy] using he
          | some y =>
            cases y with
            | none => simpa only [hy] using he
            | some s => exact absurd hy (h2 s)
        obtain ⟨rs₁, he2, rfl⟩ := split he'
        have := fin ⟨ρ, .refl _, h⟩ he2 (a := none)
        cases hy : hs[i]? with
        | none => simpa only [hy] using this
        | some y =>
          cases y with
          | none => simpa only [hy] using this
          | some s => exact absurd hy (h1 s)

theorem sharingThreads_getElem? (impl : Impl L H Op Ret) (sh : Nat → Bool) (owner : Nat → Nat) (hs : List (Option H)) (i : Nat)
    (cmdss : List (List (Cmd Op))) (m : Nat) :
    (sharingThreads impl sh owner hs i cmdss)[m]? =
      (cmdss[m]?).map fun cmds => .start (client impl (lentTo sh owner (i + m) hs) cmds) := by
  induction cmdss generalizing i m with
  | nil => simp [sharingThreads]
  | cons c cs ih =>
    cases m with
    | zero => simp [sharingThreads]
    | succ m => simp only [sharingThreads, List.getElem?_cons_succ, ih, Nat.add_assoc, Nat.add_comm 1 m]

theorem sharingThreads_length (impl : Impl L H Op Ret) (sh : Nat → Bool) (owner : Nat → Nat) (hs : List (Option H)) (i : Nat)
    (cmdss : List (List (Cmd Op))) : (sharingThreads impl sh owner hs i cmdss).length = cmdss.length := by
  induction cmdss generalizing i with
  | nil => rfl
  | cons c cs ih => simp [sharingThreads, ih]

/-- What the threads of a system are ready to do. -/
structure SharingSystem (A : Allocator L) (R : H → σ → List (Item L) → Prop) (sh : Nat → Bool)
    (rss : List (List (Option Ret))) (sss : List (List (Option σ))) (hB hF : List (Option H))
    (Bs Fs : List (Option σ)) (ths : List (Thread L (List (Option Ret) × List (Option H)))) (h : Mem L) : Prop where
  ex : ∃ own B F, SysSafe A none B (fun i x τ => (∀ rs, rss[i]? = some rs → x.1 = rs) ∧
    ∀ ss, sss[i]? = some ss → ∃ τ', τ.Perm τ' ∧ Handles R (owned sh x.2) (owned sh ss) τ') ths own F h ∧ Handles R hB Bs B ∧
      Handles R hF Fs F
  lr : rss.length = ths.length
  ls : sss.length = ths.length

/-- The system after setting up, where each thread runs a program that is right with the handles it gets. -/
theorem Handles.system {hs : List (Option H)} {ss : List (Option σ)} {ρ : List (Item L)} {h : Mem L}
    (hh : Handles R hs ss ρ) (ho : Own h ρ) (sh : Nat → Bool) (hsh : ∀ j, sh j = true → j < ss.length) (owner : Nat → Nat)
    (progs : List (Prog L (List (Option Ret) × List (Option H))))
    (rss : List (List (Option Ret))) (sss : List (List (Option σ)))
    (l1 : rss.length = progs.length) (l2 : sss.length = progs.length)
    (he : ∀ i prog rs ss' B ρ', progs[i]? = some prog → rss[i]? = some rs → sss[i]? = some ss' →
      Lent R B sh (lentTo sh owner i hs) (lentTo sh owner i ss) ρ' →
      SafeB A none B (fun x τ => x.1 = rs ∧ ∃ τ', τ.Perm τ' ∧ Lent R B sh x.2 ss' τ') prog ρ') :
    SharingSystem A R sh rss sss (lentOf sh hs) (idleOf sh owner progs.length hs) (lentOf sh ss)
      (idleOf sh owner progs.length ss) (progs.map .start) h := by
  have hno : ∀ j, sh j = false ∨ sh j = true := fun j => by cases sh j <;> simp
  obtain ⟨B, ρ₁, p1, hB, hO⟩ := hh.split (fun _ => True) (fun j => sh j = true) (fun j => sh j = false)
    (fun j => by simp [(hno j).symm]) (fun j => by simp) 0 (ρ₀ := ρ) (by
      rw [keepIf_all _ (fun _ => trivial), keepIf_all _ (fun _ => trivial)]; exact hh)
  obtain ⟨ρs, F, e1, e2, e3, e4⟩ := hO.distribute owner progs.length 0 (ρ₀ := ρ₁) (by
    rw [keepIf_all (fun j => 0 ≤ owner j) (by omega), keepIf_all (fun j => 0 ≤ owner j) (by omega)]; exact hO)
  have e4' : Handles R (keepIf (fun j => sh j = false ∧ progs.length ≤ owner j) 0 hs)
      (keepIf (fun j => sh j = false ∧ progs.length ≤ owner j) 0 ss) F := by
    rw [keepIf_keepIf _ _ (fun j => sh j = false ∧ progs.length ≤ owner j) (fun j => by simp [and_comm]),
      keepIf_keepIf _ _ (fun j => sh j = false ∧ progs.length ≤ owner j) (fun j => by simp [and_comm])] at e4
    exact e4
  refine ⟨⟨ρs.map fun ρ => ([], ρ), B, F, ⟨?_, ?_, ?_⟩, hB, e4'⟩, ?_, ?_⟩
  · simp [e1]
  · intro i th x hi hx
    rw [List.getElem?_map] at hi
    cases hci : progs[i]? with
    | none => simp [hci] at hi
    | some prog =>
      simp only [hci, Option.map_some, Option.some.injEq] at hi
      subst hi
      have hlt : i < progs.length := (List.getElem?_eq_some_iff.1 hci).1
      rw [List.getElem?_map] at hx
      cases hρ : ρs[i]? with
      | none => simp [hρ] at hx
      | some ρ' =>
        simp only [hρ, Option.map_some, Option.some.injEq] at hx
        subst hx
        have hl1 : rss[i]? = some (rss[i]'(by omega)) := List.getElem?_eq_getElem _
        have hl2 : sss[i]? = some (sss[i]'(by omega)) := List.getElem?_eq_getElem _
        have hlent : Lent R B sh (lentTo sh owner i hs) (lentTo sh owner i ss) ρ' := by
          refine ⟨?_, ?_⟩
          · have := e3 i ρ' hρ
            rw [Nat.zero_add, handlesOf, handlesOf,
              keepIf_keepIf _ _ (fun j => sh j = false ∧ owner j = i) (fun j => by simp [and_comm]),
              keepIf_keepIf _ _ (fun j => sh j = false ∧ owner j = i) (fun j => by simp [and_comm])] at this
            rw [owned, owned, lentTo, lentTo,
              keepIf_keepIf _ _ (fun j => sh j = false ∧ owner j = i) (fun j => by
                rcases hno j with h | h <;> simp [h]),
              keepIf_keepIf _ _ (fun j => sh j = false ∧ owner j = i) (fun j => by
                rcases hno j with h | h <;> simp [h])]
            exact this
          · intro j hj
            have hlen := hh.length
            have hjl := hsh j hj
            rw [lentTo, lentTo, keepIf_getElem?, keepIf_getElem?, Nat.zero_add]
            simp only [hj, true_or, if_true]
            rcases hB.get j with ⟨x, s, β, C, h1, h2, h3, h4, -⟩ | ⟨h1, h2⟩
            · rw [keepIf_getElem?, Nat.zero_add] at h1 h2
              simp only [hj, if_true] at h1 h2
              exact .inl ⟨x, s, β, C, h1, h2, h3, h4⟩
            · rw [keepIf_getElem?, Nat.zero_add] at h1 h2
              simp only [hj, if_true] at h1 h2
              refine .inr ⟨?_, ?_⟩
              · rw [List.getElem?_eq_getElem (by omega)] at h1 ⊢
                cases hx : hs[j] with
                | none => rfl
                | some x => simp [hx] at h1
              · rw [List.getElem?_eq_getElem hjl] at h2 ⊢
                cases hx : ss[j] with
                | none => rfl
                | some x => simp [hx] at h2
        have hsafe := he i prog _ _ B ρ' hci hl1 hl2 hlent
        refine ⟨rfl, ?_, by simp, fun d _ => Nat.zero_le d⟩
        refine hsafe.imp ?_
        rintro ⟨r1, r2⟩ τ ⟨rfl, τ', h1, h2⟩
        refine ⟨?_, ?_⟩
        · intro rs hrs
          rw [hl1] at hrs
          exact Option.some.inj hrs
        · intro ss' hss
          rw [hl2] at hss
          cases hss
          exact ⟨τ', h1, h2.own⟩
  · have : ((ρs.map fun ρ => (([] : List (Nat × ATree L)), ρ)).map fun x => threadItems x.1 x.2) = ρs := by
      simp [threadItems, Function.comp_def]
    rw [this]
    refine ho.perm (p1.trans ((e2.append_left B).trans ?_))
    perm_tac
  · simpa using l1
  · simpa using l2

/-- The system after setting up. -/
theorem Impl.Lends.system {impl : Impl L H Op Ret} {new : σ} {step : σ → Op → Res (Ret × Effect σ)} {byRef : Op → Bool}
    (hr : impl.Refines A new step R) (hl : impl.Lends A step R byRef)
    {hs : List (Option H)} {ss : List (Option σ)} {ρ : List (Item L)} {h : Mem L}
    (hh : Handles R hs ss ρ) (ho : Own h ρ) (sh : Nat → Bool) (hsh : ∀ j, sh j = true → j < ss.length) (owner : Nat → Nat)
    (cmdss : List (List (Cmd Op))) (hc : ∀ cmds ∈ cmdss, Respects sh byRef cmds)
    (rss : List (List (Option Ret))) (sss : List (List (Option σ)))
    (l1 : rss.length = cmdss.length) (l2 : sss.length = cmdss.length)
    (he : ∀ i cmds rs ss', cmdss[i]? = some cmds → rss[i]? = some rs → sss[i]? = some ss' →
      pureClient new step (lentTo sh owner i ss) cmds = .ok (rs, ss')) :
    SharingSystem A R sh rss sss (lentOf sh hs) (idleOf sh owner cmdss.length hs) (lentOf sh ss)
      (idleOf sh owner cmdss.length ss) (sharingThreads impl sh owner hs 0 cmdss) h := by
  have hm : sharingThreads impl sh owner hs 0 cmdss =
      (cmdss.mapIdx fun i cmds => client impl (lentTo sh owner i hs) cmds).map .start := by
    refine List.ext_getElem? fun i => ?_
    rw [sharingThreads_getElem?, List.getElem?_map, List.getElem?_mapIdx]
    cases cmdss[i]? <;> simp
  have := hh.system (A := A) ho sh hsh owner (cmdss.mapIdx fun i cmds => client impl (lentTo sh owner i hs) cmds) rss sss
    (by simpa using l1) (by simpa using l2) (by
      intro i prog rs ss' B ρ' h1 h2 h3 h4
      rw [List.getElem?_mapIdx] at h1
      cases hci : cmdss[i]? with
      | none => simp [hci] at h1
      | some cmds =>
        simp only [hci, Option.map_some, Option.some.injEq] at h1
        subst h1
        exact safeB_client hr hl cmds (hc cmds (List.mem_of_getElem? hci)) h4 (he i cmds rs ss' hci h2 h3))
  rw [hm]
  simpa using this

section
variable {sh : Nat → Bool} {rss : List (List (Option Ret))} {sss : List (List (Option σ))} {hB hF : List (Option H)}
  {Bs Fs : List (Option σ)} {ths : List (Thread L (List (Option Ret) × List (Option H)))} {h : Mem L}

/-- Every interleaving keeps the system going, and what is lent stays as it is, cell by cell. -/
theorem SharingSystem.run (sys : SharingSystem A R sh rss sss hB hF Bs Fs ths h) {Ret' : Type} {impl : Impl L H Op Ret'} {new : σ}
    {step : σ → Op → Res (Ret' × Effect σ)} (hr : impl.Refines A new step R) (sched : List Nat) :
    ∃ ths' h', runThreads A sched ths h = .ok (ths', h') ∧ SharingSystem A R sh rss sss hB hF Bs Fs ths' h' ∧
      ∀ (j : Nat) (x : H) (t : ATree L), hB[j]? = some (some x) → t.addr ∈ impl.ptrs x → Val h t → Val h' t := by
  obtain ⟨⟨own, B, F, ss, hb, hf⟩, l1, l2⟩ := sys
  obtain ⟨ths', own', h', e1, e2, e3⟩ := ss.run sched
  refine ⟨ths', h', e1, ⟨⟨own', B, F, e2, hb, hf⟩, by omega, by omega⟩, ?_⟩
  intro j x t hj ht hv
  rcases hb.get j with ⟨y, s, β, C, h1, h2, h3, h4, -⟩ | ⟨h1, -⟩
  · rw [hj] at h1
    cases h1
    refine Handles.tree hr h3 (F := C ++ F ++ (own.map fun x => threadItems x.1 x.2).flatten)
      (F' := C ++ F ++ (own'.map fun x => threadItems x.1 x.2).flatten) (ss.mem.perm ?_) (e2.mem.perm ?_) ht hv
    · refine List.perm_append_comm.trans ?_
      rw [← List.append_assoc, ← List.append_assoc]
      exact (h4.append_right F).append_right _
    · refine List.perm_append_comm.trans ?_
      rw [← List.append_assoc, ← List.append_assoc]
      exact (h4.append_right F).append_right _
  · exact absurd hj (h1 x)

theorem SharingSystem.answer (sys : SharingSystem A R sh rss sss hB hF Bs Fs ths h) {i : Nat}
    {th : Thread L (List (Option Ret) × List (Option H))}
    {r : List (Option Ret) × List (Option H)} (hi : ths[i]? = some th) (hr : th.result = some r) :
    rss[i]? = some r.1 := by
  obtain ⟨⟨own, B, F, ss, -⟩, l1, l2⟩ := sys
  have hlt : i < ths.length := (List.getElem?_eq_some_iff.1 hi).1
  have hl1 : rss[i]? = some (rss[i]'(by omega)) := List.getElem?_eq_getElem _
  have hl2 : own[i]? = some (own[i]'(by have := ss.len; omega)) := List.getElem?_eq_getElem _
  obtain ⟨τ, h1, h2, h3⟩ := (ss.safe i th _ hi hl2).result hr
  rw [hl1, h2 _ hl1]

/-- A thread that is scheduled again and again finishes. -/
theorem SharingSystem.finishes (sys : SharingSystem A R sh rss sss hB hF Bs Fs ths h) {i : Nat} (hi : i < ths.length)
    (s : Nat → Nat) (hs : ∀ n, ∃ m, n ≤ m ∧ s m = i) :
    ∃ n ths' h' th r, runThreads A (prefixOf s n) ths h = .ok (ths', h') ∧ ths'[i]? = some th ∧ th.result = some r := by
  obtain ⟨⟨own, B, F, ss, -⟩, l1, l2⟩ := sys
  have hl1 : ths[i]? = some (ths[i]'hi) := List.getElem?_eq_getElem _
  have hl2 : own[i]? = some (own[i]'(by have := ss.len; omega)) := List.getElem?_eq_getElem _
  obtain ⟨n, ths', own', h', th', r, e1, e2, e3, e4⟩ :=
    SysSafe.finishes (i := i) _ (own[i]'(by have := ss.len; omega)).1 s hs ss _
      (own[i]'(by have := ss.len; omega)).2 hl1 rfl hl2
  exact ⟨n, ths', h', th', r, e1, e3, e4⟩

/-- When all threads have finished, the memory is exactly what the handles they own, the handles they borrowed and the handles given
to no thread keep alive. -/
theorem SharingSystem.quiet (sys : SharingSystem A R sh rss sss hB hF Bs Fs ths h) {Ret' : Type} {impl : Impl L H Op Ret'} {new : σ}
    {step : σ → Op → Res (Ret' × Effect σ)} (hr : impl.Refines A new step R) (res : List (List (Option Ret) × List (Option H)))
    (hres : ths.map Thread.result = res.map some) :
    ∃ ρ, Handles R ((res.map fun r => owned sh r.2).flatten ++ (hB ++ hF)) ((sss.map (owned sh)).flatten ++ (Bs ++ Fs)) ρ ∧ Own h ρ ∧
      Exact h (ptrsOf impl ((res.map fun r => owned sh r.2).flatten ++ (hB ++ hF))) := by
  obtain ⟨⟨own, B, F, ss, hb, hf⟩, l1, l2⟩ := sys
  have hlen : ths.length = res.length := by simpa using congrArg List.length hres
  have hlo := ss.len
  obtain ⟨τ', e1, e2⟩ := handles_flatten (R := R) (hss := res.map fun r => owned sh r.2) (sss := sss.map (owned sh))
    (ρs := own.map fun x => threadItems x.1 x.2) (by simp; omega) (by simp; omega) (by
      intro i hs ss' ρ h1 h2 h3
      rw [List.getElem?_map] at h1 h2 h3
      cases hx : own[i]? with
      | none => simp [hx] at h3
      | some x =>
        cases hy : res[i]? with
        | none => simp [hy] at h1
        | some y =>
          cases hz : sss[i]? with
          | none => simp [hz] at h2
          | some z =>
            simp only [hx, hy, hz, Option.map_some, Option.some.injEq] at h1 h2 h3
            subst h1 h2 h3
            have hi : i < ths.length := by rw [hlen]; exact (List.getElem?_eq_some_iff.1 hy).1
            have ht : ths[i]? = some (ths[i]'hi) := List.getElem?_eq_getElem _
            have hr' : (ths[i]'hi).result = some y := by
              have := congrArg (·[i]?) hres
              simp only [List.getElem?_map, ht, hy, Option.map_some, Option.some.injEq] at this
              exact this
            obtain ⟨τ, e1, e2, e3⟩ := (ss.safe i _ _ ht hx).result hr'
            obtain ⟨τ', e4, e5⟩ := e3 _ hz
            exact ⟨τ', e1.trans e4, e5⟩)
  obtain ⟨ρ, hρ, e3⟩ := handles_flatten (R := R) (hss := [(res.map fun r => owned sh r.2).flatten, hB, hF])
    (sss := [(sss.map (owned sh)).flatten, Bs, Fs]) (ρs := [τ', B, F]) rfl rfl (by
      intro i hs ss' ρ h1 h2 h3
      match i with
      | 0 =>
        simp only [List.getElem?_cons_zero, Option.some.injEq] at h1 h2 h3
        subst h1 h2 h3
        exact ⟨_, .refl _, e2⟩
      | 1 =>
        simp only [List.getElem?_cons_succ, List.getElem?_cons_zero, Option.some.injEq] at h1 h2 h3
        subst h1 h2 h3
        exact ⟨_, .refl _, hb⟩
      | 2 =>
        simp only [List.getElem?_cons_succ, List.getElem?_cons_zero, Option.some.injEq] at h1 h2 h3
        subst h1 h2 h3
        exact ⟨_, .refl _, hf⟩
      | i + 3 => simp at h1)
  simp only [List.flatten_cons, List.flatten_nil, List.append_nil] at e3 hρ
  have ho : Own h ρ := ss.mem.perm ((e1.append_right _).trans hρ)
  obtain ⟨ts, rfl, e4⟩ := e3.ptrs hr
  refine ⟨_, e3, ho, ?_⟩
  rw [e4]
  exact ho.exact

end
end
end Heap
end Rpds
