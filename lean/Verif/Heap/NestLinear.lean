import Verif.Heap.Nest
import Verif.Heap.Race
/-
How deep destructors can nest when several threads drop lists, stacks and queues: never deeper than the longest one.
-/
set_option autoImplicit false
namespace Rpds
namespace Heap
variable {T : Type} {A : Allocator (LinLabel T)} {D : Option Nat}

/-- The destructors of a chain of nodes nest once for each node. -/
theorem nest_chain {th : Option (ATree (LinLabel T))} {k : Link T} (h : IsLink .node linDec th k) :
    ∀ t, th = some t → nest [] t ≤ k.toList.length := by
  induction h with
  | none => intro t ht; cases ht
  | @some a tv tn v next hv hn ih =>
    rintro t ht
    cases ht
    obtain ⟨a', l', ts'⟩ := tv
    obtain ⟨-, h0⟩ := hv
    simp only [ATree.kids] at h0
    subst h0
    cases tn with
    | none => simp [nest, nest.go, Link.toList]
    | some tn =>
      have := ih tn rfl
      simp only [nest, nest.go, List.not_mem_nil, if_false, Link.toList, List.length_cons, Option.toList]
      omega

theorem safe_dropListIn (hD : Within D 1) {l : HList} {r : RList T} {ρ : List (Item (LinLabel T))} (h : l.Is .node linDec r ρ)
    (hl : r.head.toList.length = r.length) (hn : Within D r.length) : Safe A D (fun _ τ => τ = []) l.dropList ρ := by
  obtain ⟨th, tl, rfl, rfl, h1, h2⟩ := h
  refine Safe.bindFrame (F := optPtr tl) (HList.safe_dropLoop (linElemOK hD) th r.head h1 ?_ r.length (by omega)) (.refl _) ?_
  · intro t ht
    exact hn.mono (by rw [← hl]; exact nest_chain h1 t ht)
  · rintro _ _ rfl
    have := HList.safe_dropLast (A := A) (linElemOK hD) h2 []
    simpa using this

/-- Operations that are safe whatever they work on, and an end that is safe for values within the limit. -/
theorem refinesIn_of {L H Op Ret σ : Type} {impl : Impl L H Op Ret} {A : Allocator L} {new : σ} {step : σ → Op → Res (Ret × Effect σ)}
    {R : H → σ → List (Item L) → Prop} {lim : σ → Nat} {n : Nat} (h0 : lim new ≤ n) (hnew : Safe A (some n) (fun h ρ => R h new ρ) impl.new [])
    (hstep : ∀ h s ρ op r e, R h s ρ → step s op = .ok (r, e) →
      Safe A (some n) (fun x τ => x.1 = r ∧ EffOwn R h s x.2 e τ) (impl.step h op) ρ)
    (hdrop : ∀ h s ρ, R h s ρ → lim s ≤ n → Safe A (some n) (fun _ τ => τ = []) (impl.drop h) ρ)
    (hptrs : ∀ h s ρ, R h s ρ → ∃ ts : List (ATree L), ρ = ts.map .ptr ∧ impl.ptrs h = ts.map ATree.addr) :
    impl.RefinesIn A (some n) new (within (fun s => lim s ≤ n) step) (fun h s ρ => R h s ρ ∧ lim s ≤ n) := by
  refine ⟨hnew.imp fun h ρ hh => ⟨hh, h0⟩, ?_, ?_, ?_⟩
  · rintro h s ρ op r e ⟨h1, h2⟩ he
    obtain ⟨x, h4, h5⟩ := res_bind_ok he
    split at h5
    · next hP =>
      cases h5
      refine (hstep h s ρ op r e h1 h4).imp ?_
      rintro ⟨y, e'⟩ τ ⟨h6, h7⟩
      refine ⟨h6, ?_⟩
      cases h7 with
      | keep hk => exact .keep ⟨hk, h2⟩
      | fresh hf hk => exact .fresh ⟨hf, hP⟩ ⟨hk, h2⟩
      | update hu => exact .update ⟨hu, hP⟩
    · cases h5
  · rintro h s ρ ⟨h1, h2⟩
    exact hdrop h s ρ h1 h2
  · rintro h s ρ ⟨h1, h2⟩
    exact hptrs h s ρ h1

section
variable {n : Nat}

theorem listIs_dropIn (h1 : 1 ≤ n) (l : HList) (xs : List T) (ρ : List (Item (LinLabel T))) (h : ListIs l xs ρ) (hn : xs.length ≤ n) :
    Safe A (some n) (fun _ τ => τ = []) l.dropList ρ := by
  obtain ⟨r, hi, hr⟩ := h
  exact safe_dropListIn (within_some.2 h1) hi (by rw [hr.head, hr.length]) (within_some.2 (by rw [hr.length]; exact hn))

theorem listImpl_refinesIn (h1 : 1 ≤ n) : (listImpl T).RefinesIn A (some n) ([] : List T)
    (within (fun xs => xs.length ≤ n) fun xs op => .ok (Spec.listStep xs op)) (fun l xs ρ => ListIs l xs ρ ∧ xs.length ≤ n) := by
  refine refinesIn_of (lim := List.length) (Nat.zero_le n) (Safe.ret ⟨RList.new, HList.is_new _ _, RList.rep_new⟩) ?_ (listIs_dropIn h1)
    (listImpl_refines (A := A)).ptrs
  rintro l xs ρ op r e h he
  simp only [Except.ok.injEq] at he
  have := safe_listHStep (A := A) (within_some.2 h1) h op
  rw [he] at this
  exact this

theorem stackImpl_refinesIn (h1 : 1 ≤ n) : (stackImpl T).RefinesIn A (some n) ([] : List T)
    (within (fun xs => xs.length ≤ n) fun xs op => .ok (Spec.stackStep xs op)) (fun l xs ρ => ListIs l xs ρ ∧ xs.length ≤ n) := by
  refine refinesIn_of (lim := List.length) (Nat.zero_le n) (Safe.ret ⟨RList.new, HList.is_new _ _, RList.rep_new⟩) ?_ (listIs_dropIn h1)
    (stackImpl_refines (A := A)).ptrs
  rintro l xs ρ op r e h he
  simp only [Except.ok.injEq] at he
  have := safe_stackHStep (A := A) (within_some.2 h1) h op
  rw [he] at this
  exact this

theorem queueImpl_refinesIn (h1 : 1 ≤ n) : (queueImpl T).RefinesIn A (some n) ([] : List T)
    (within (fun xs => xs.length ≤ n) fun xs op => .ok (Spec.queueStep xs op)) (fun q xs ρ => QueueIs q xs ρ ∧ xs.length ≤ n) := by
  refine refinesIn_of (lim := List.length) (Nat.zero_le n)
    (Safe.ret ⟨Queue.new, ⟨[], [], rfl, HList.is_new _ _, HList.is_new _ _, rfl, rfl⟩, Queue.rep_new⟩) ?_ ?_
    (queueImpl_refines (A := A)).ptrs
  · rintro l xs ρ op r e h he
    simp only [Except.ok.injEq] at he
    have := safe_queueHStep (A := A) (within_some.2 h1) h op
    rw [he] at this
    exact this
  · rintro q xs ρ ⟨r, ⟨ρ₁, ρ₂, rfl, g1, g2, g3, g4⟩, hr⟩ hn
    obtain ⟨os, is, ho, hi, rfl⟩ := hr
    have e1 := ho.length
    have e2 := hi.length
    simp only [List.length_append, List.length_reverse] at hn
    refine Safe.bindFrame (F := ρ₂) (safe_dropListIn (within_some.2 h1) g1 g3 (within_some.2 (by omega))) (.refl _) ?_
    rintro _ _ rfl
    exact safe_dropListIn (within_some.2 h1) g2 g4 (within_some.2 (by omega))

end

/-- The set-up of the race, on the values. -/
theorem pure_raceSetup (v : T) (n : Nat) : ∃ rs, pureClient ([] : List T) (fun xs op => .ok (Spec.listStep xs op)) [] (raceSetup v n) =
    .ok (rs, [some (List.replicate (n + 1) v), some (List.replicate (n + 1) v)]) := by
  have key : ∀ (m : Nat) (xs : List T), ∃ rs, pureClient ([] : List T) (fun xs op => .ok (Spec.listStep xs op)) [some xs]
      (pushes v m ++ [.run 0 .clone]) = .ok (rs, [some (List.replicate m v ++ xs), some (List.replicate m v ++ xs)]) := by
    intro m
    induction m with
    | zero => exact fun xs => ⟨[some .unit], rfl⟩
    | succ m ih =>
      intro xs
      obtain ⟨rs, e⟩ := ih (v :: xs)
      refine ⟨some .unit :: rs, ?_⟩
      have : List.replicate m v ++ v :: xs = List.replicate (m + 1) v ++ xs := by
        rw [List.replicate_succ', List.append_assoc]; rfl
      rw [this] at e
      simp only [pushes, List.replicate_succ, List.cons_append, pureClient, List.getElem?_cons_zero, Res.ok_bind, Spec.listStep,
        Effect.applyOpt, List.set_cons_zero] at e ⊢
      rw [e]; rfl
  obtain ⟨rs, e⟩ := key (n + 1) []
  refine ⟨none :: rs, ?_⟩
  simp only [raceSetup, pureClient, List.nil_append, e, Res.ok_bind, List.append_nil]

end Heap
end Rpds
