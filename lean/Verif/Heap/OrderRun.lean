import Verif.Heap.OrderSafe
import Verif.Heap.Shared
/-
Systems of threads, run with the memory orderings of `Arc`.
-/
set_option autoImplicit false
namespace Rpds
namespace Heap

section
variable {L α : Type} {A : Allocator L} {D : Option Nat} {B : List (Item L)}

theorem runWeak_append {h₀ : Mem L} (sched sched' : List (Nat × Nat)) (tr : List Event) (ths : List (Thread L α)) (h : Mem L) :
    runWeak A h₀ (sched ++ sched') tr ths h =
      match runWeak A h₀ sched tr ths h with
      | .error e => .error e
      | .ok (tr', ths', h') => runWeak A h₀ sched' tr' ths' h' := by
  induction sched generalizing tr ths h with
  | nil => rfl
  | cons x is ih =>
    obtain ⟨i, t⟩ := x
    simp only [List.cons_append, runWeak]
    cases ths[i]? with
    | none => exact ih tr ths h
    | some th =>
      simp only
      cases th.stepAt A h₀ tr t h with
      | error e => rfl
      | ok x => obtain ⟨a, b⟩ := x; exact ih _ _ _

theorem Coherent.append {o : Orderings} {h₀ : Mem L} {sched sched' : List (Nat × Nat)} {tr : List Event} {ths : List (Thread L α)} {h : Mem L}
    (hc : Coherent o A h₀ (sched ++ sched') tr ths h) :
    Coherent o A h₀ sched tr ths h ∧
      ∀ tr' ths' h', runWeak A h₀ sched tr ths h = .ok (tr', ths', h') → Coherent o A h₀ sched' tr' ths' h' := by
  induction sched generalizing tr ths h with
  | nil =>
    refine ⟨trivial, ?_⟩
    intro tr' ths' h' he
    simp only [runWeak, Except.ok.injEq, Prod.mk.injEq] at he
    obtain ⟨rfl, rfl, rfl⟩ := he
    exact hc
  | cons x is ih =>
    obtain ⟨i, t⟩ := x
    simp only [List.cons_append, Coherent] at hc
    simp only [runWeak, Coherent]
    cases hi : ths[i]? with
    | none =>
      simp only [hi] at hc
      exact ih hc
    | some th =>
      simp only [hi] at hc
      obtain ⟨h1, h2⟩ := hc
      simp only
      cases hs : th.stepAt A h₀ tr t h with
      | error e => exact ⟨⟨h1, trivial⟩, by intro _ _ _ he; cases he⟩
      | ok y =>
        obtain ⟨a, b⟩ := y
        simp only [hs] at h2
        obtain ⟨h3, h4⟩ := ih h2
        exact ⟨⟨h1, h3⟩, h4⟩

/-- A test can always read the newest value: the interleavings of `runThreads` are coherent runs. -/
theorem newest (o : Orderings) (h₀ : Mem L) (sched : List Nat) (N : Nat) (tr : List Event) (ths : List (Thread L α)) (h : Mem L)
    (hN : tr.length + sched.length ≤ N) :
    Coherent o A h₀ (sched.map fun i => (i, N)) tr ths h ∧
      (runWeak A h₀ (sched.map fun i => (i, N)) tr ths h).map Prod.snd = runThreads A sched ths h := by
  induction sched generalizing tr ths h with
  | nil => exact ⟨trivial, rfl⟩
  | cons i is ih =>
    simp only [List.length_cons] at hN
    simp only [List.map_cons, Coherent, runWeak, runThreads]
    cases hi : ths[i]? with
    | none => exact ih tr ths h (by omega)
    | some th =>
      have hd : tr.drop N = [] := List.drop_eq_nil_of_le (by omega)
      have hst : th.stepAt A h₀ tr N h = th.step A h := by
        unfold Thread.stepAt
        cases th.tests with
        | none => rfl
        | some y => simp [changedSince, hd]
      simp only [hst]
      refine ⟨⟨?_, ?_⟩, ?_⟩
      · rintro p th' - m ⟨h1, y, h2, -⟩
        have := (List.getElem?_eq_some_iff.1 h2).1
        omega
      · cases th.step A h with
        | error e => trivial
        | ok y =>
          obtain ⟨th', h'⟩ := y
          refine (ih _ _ _ ?_).1
          cases th.eventAt A tr N h <;> simp <;> omega
      · cases th.step A h with
        | error e => rfl
        | ok y =>
          obtain ⟨th', h'⟩ := y
          refine (ih _ _ _ ?_).2
          cases th.eventAt A tr N h <;> simp <;> omega

/-! ### Traces without synchronisation -/

/-- What happens before an event of another thread is seen through an acquire or an allocation of the thread. -/
theorem Before.cross {o : Orderings} {tr : List Event} {a b : Nat} (h : Before o tr a b) :
    ∃ x y, tr[a]? = some x ∧ tr[b]? = some y ∧
      (x.thread = y.thread ∨ ∃ z ∈ tr, z.thread = y.thread ∧ (z.kind.acquires o = true ∨ z.kind = .alloc)) := by
  induction h with
  | program hab ha hb ht => exact ⟨_, _, ha, hb, .inl ht⟩
  | sync hab ha hb hp hx hy hc => exact ⟨_, _, ha, hb, .inr ⟨_, List.mem_of_getElem? hb, rfl, .inl hy⟩⟩
  | reuse hab ha hb hp hx hy hc => exact ⟨_, _, ha, hb, .inr ⟨_, List.mem_of_getElem? hb, rfl, .inr hy⟩⟩
  | trans _ _ ih1 ih2 =>
    obtain ⟨x, y, ha, hb, h1⟩ := ih1
    obtain ⟨y', z, hb', hc, h2⟩ := ih2
    rw [hb] at hb'
    cases hb'
    refine ⟨x, z, ha, hc, ?_⟩
    rcases h2 with h2 | h2
    · rwa [h2] at h1
    · exact .inr h2

/-- Without release or without acquire, nothing is ordered between threads, but for memory that is used again. -/
theorem Before.alone {o : Orderings} {tr : List Event} {a b : Nat} (ho : o.release = false ∨ o.acquire = false)
    (hf : ∀ x ∈ tr, x.kind.frees = false) (h : Before o tr a b) :
    ∃ x y, tr[a]? = some x ∧ tr[b]? = some y ∧ x.thread = y.thread := by
  induction h with
  | program hab ha hb ht => exact ⟨_, _, ha, hb, ht⟩
  | @sync a b x y hab ha hb hp hx hy hc =>
    exfalso
    rcases ho with ho | ho
    · revert hx; cases x.kind <;> simp [Kind.releases, ho]
    · revert hy; cases y.kind <;> simp [Kind.acquires, ho]
  | reuse hab ha hb hp hx hy hc =>
    rw [hf _ (List.mem_of_getElem? ha)] at hx
    cases hx
  | trans _ _ ih1 ih2 =>
    obtain ⟨x, y, ha, hb, h1⟩ := ih1
    obtain ⟨y', z, hb', hc, h2⟩ := ih2
    rw [hb] at hb'
    cases hb'
    exact ⟨x, z, ha, hc, h1.trans h2⟩

/-- Enough for a read of an old value: the changes since then are by other threads, and the thread never acquired anything. -/
def unseen (o : Orderings) (tr : List Event) (i : Nat) (p : Addr) (t : Nat) : Bool :=
  ((tr.drop t).all fun e => !e.sets p || e.thread != i) &&
    (!changedSince tr p t || tr.all fun e => e.thread != i || (!e.kind.acquires o && e.kind != .alloc))

theorem not_known {o : Orderings} {tr : List Event} {i : Nat} {p : Addr} {t m : Nat} (h : unseen o tr i p t = true)
    (hm : SetSince tr p t m) : ¬ Known o tr i m := by
  obtain ⟨h1, y, h2, h3⟩ := hm
  simp only [unseen, Bool.and_eq_true, List.all_eq_true, Bool.or_eq_true, Bool.not_eq_true', bne_iff_ne, ne_eq] at h
  have h4 : y ∈ tr.drop t := by
    refine List.mem_of_getElem? (i := m - t) ?_
    rw [List.getElem?_drop]
    rwa [Nat.add_sub_cancel' h1]
  have h5 : y.thread ≠ i := by
    rcases h.1 y h4 with h | h
    · rw [h3] at h; cases h
    · exact h
  have h6 : changedSince tr p t = true := List.any_eq_true.2 ⟨y, h4, h3⟩
  rintro ⟨k, x, h7, h8, h9⟩
  rcases h9 with rfl | h9
  · rw [h2] at h7
    cases h7
    exact h5 h8
  · obtain ⟨y', x', e1, e2, e3⟩ := h9.cross
    rw [h2] at e1
    rw [h7] at e2
    cases e1
    cases e2
    rcases e3 with e3 | ⟨z, hz, e3, e4⟩
    · exact h5 (e3.trans h8)
    · rcases h.2 with h10 | h10
      · rw [h6] at h10; cases h10
      · rcases h10 z hz with h11 | h11
        · exact h11 (e3.trans h8)
        · rcases e4 with e4 | e4
          · rw [h11.1] at e4; cases e4
          · exact h11.2 e4

/-- A test for runs to be coherent that is good enough for examples. -/
def coherently (o : Orderings) (A : Allocator L) (h₀ : Mem L) : List (Nat × Nat) → List Event → List (Thread L α) → Mem L → Bool
  | [], _, _, _ => true
  | (i, t) :: is, tr, ths, h =>
    match ths[i]? with
    | none => coherently o A h₀ is tr ths h
    | some th =>
      (match th.tests with
      | some (p, _) => unseen o tr i p t
      | none => true) &&
      match th.stepAt A h₀ tr t h with
      | .error _ => true
      | .ok (th', h') =>
        coherently o A h₀ is (tr ++ (th.eventAt A tr t h).toList.map fun e => ⟨i, e.1, e.2, (get h' e.2).count⟩) (ths.set i th') h'

theorem Coherent.of {o : Orderings} {h₀ : Mem L} {sched : List (Nat × Nat)} {tr : List Event} {ths : List (Thread L α)} {h : Mem L}
    (hc : coherently o A h₀ sched tr ths h = true) : Coherent o A h₀ sched tr ths h := by
  induction sched generalizing tr ths h with
  | nil => trivial
  | cons x is ih =>
    obtain ⟨i, t⟩ := x
    simp only [coherently] at hc
    simp only [Coherent]
    cases hi : ths[i]? with
    | none =>
      simp only [hi] at hc
      exact ih hc
    | some th =>
      simp only [hi, Bool.and_eq_true] at hc
      obtain ⟨h1, h2⟩ := hc
      refine ⟨?_, ?_⟩
      · intro p th' ht m
        simp only [ht] at h1
        exact not_known h1
      · cases hs : th.stepAt A h₀ tr t h with
        | error e => trivial
        | ok y =>
          obtain ⟨a, b⟩ := y
          simp only [hs] at h2
          exact ih h2

/-! ### Runs -/

/-- Every coherent run is safe and has no races. -/
theorem SysSafe.runAt {Q : Nat → α → List (Item L) → Prop} {h₀ : Mem L} (sched : List (Nat × Nat)) {ths : List (Thread L α)}
    {own : List (List (Nat × ATree L) × List (Item L))} {F : List (Item L)} {h : Mem L} {tr : List Event}
    (ss : SysSafe A D B Q ths own F h) (od : Ordered arc h₀ tr h (heldBy own) (opensBy own) (held (B ++ F)))
    (hc : Coherent arc A h₀ sched tr ths h) :
    ∃ tr' ths' own' h', runWeak A h₀ sched tr ths h = .ok (tr', ths', h') ∧ SysSafe A D B Q ths' own' F h' ∧
      Ordered arc h₀ tr' h' (heldBy own') (opensBy own') (held (B ++ F)) ∧ ths'.length = ths.length ∧
      ∀ i, i ∉ sched.map Prod.fst → ths'[i]? = ths[i]? ∧ own'[i]? = own[i]? := by
  induction sched generalizing tr ths own h with
  | nil => exact ⟨tr, ths, own, h, rfl, ss, od, rfl, fun _ _ => ⟨rfl, rfl⟩⟩
  | cons x is ih =>
    obtain ⟨i, t⟩ := x
    simp only [Coherent] at hc
    simp only [runWeak]
    cases hi : ths[i]? with
    | none =>
      simp only [hi] at hc
      obtain ⟨tr', ths', own', h', e1, e2, e3, e4, e5⟩ := ih ss od hc
      refine ⟨tr', ths', own', h', e1, e2, e3, e4, fun j hj => e5 j ?_⟩
      simp only [List.map_cons, List.mem_cons, not_or] at hj
      exact hj.2
    | some th =>
      simp only [hi] at hc
      obtain ⟨h1, h2⟩ := hc
      obtain ⟨th', h', own', x, x', e1, e2, e3, -, -, e4, -⟩ := ss.stepAt od hi h1
      simp only [e1] at h2
      obtain ⟨tr', ths', own'', h'', e5, e6, e7, e8, e9⟩ := ih e2 e3 h2
      refine ⟨tr', ths', own'', h'', by simp only [e1, e5], e6, e7, by simpa using e8, fun j hj => ?_⟩
      simp only [List.map_cons, List.mem_cons, not_or] at hj
      obtain ⟨e10, e11⟩ := e9 j hj.2
      rw [e10, e11, e4 j hj.1, List.getElem?_set_ne (fun h => hj.1 h.symm)]
      exact ⟨rfl, rfl⟩

/-- A thread that is scheduled again and again finishes. -/
theorem SysSafe.finishesAt {Q : Nat → α → List (Item L) → Prop} {h₀ : Mem L} {i : Nat} (prog : Prog L α) (pend : List (Nat × ATree L)) :
    ∀ (s : Nat → Nat × Nat), (∀ n, ∃ m, n ≤ m ∧ (s m).1 = i) → ∀ {ths : List (Thread L α)}
      {own : List (List (Nat × ATree L) × List (Item L))} {F : List (Item L)} {h : Mem L} {tr : List Event},
    SysSafe A D B Q ths own F h → Ordered arc h₀ tr h (heldBy own) (opensBy own) (held (B ++ F)) →
    (∀ n, Coherent arc A h₀ (prefixOf s n) tr ths h) → ∀ th σ, ths[i]? = some th → th.prog = prog → own[i]? = some (pend, σ) →
    ∃ n tr' ths' h' th' r, runWeak A h₀ (prefixOf s n) tr ths h = .ok (tr', ths', h') ∧ ths'[i]? = some th' ∧ th'.result = some r := by
  refine smaller_induct (P := fun prog pend => ∀ (s : Nat → Nat × Nat), (∀ n, ∃ m, n ≤ m ∧ (s m).1 = i) → ∀ {ths : List (Thread L α)}
      {own : List (List (Nat × ATree L) × List (Item L))} {F : List (Item L)} {h : Mem L} {tr : List Event},
    SysSafe A D B Q ths own F h → Ordered arc h₀ tr h (heldBy own) (opensBy own) (held (B ++ F)) →
    (∀ n, Coherent arc A h₀ (prefixOf s n) tr ths h) → ∀ th σ, ths[i]? = some th → th.prog = prog → own[i]? = some (pend, σ) →
    ∃ n tr' ths' h' th' r, runWeak A h₀ (prefixOf s n) tr ths h = .ok (tr', ths', h') ∧ ths'[i]? = some th' ∧ th'.result = some r)
    ?_ ?_ prog pend
  · intro r s _ ths own F h tr ss _ _ th σ hi hp ho
    refine ⟨0, tr, ths, h, th, r, rfl, hi, ?_⟩
    have := (ss.safe i th _ hi ho).pending
    simp [Thread.result, hp, this]
  · intro prog pend hunf ih s hfair ths own F h tr ss od hc th σ hi hp ho
    obtain ⟨m, hm, hfirst⟩ := exists_first (P := fun m => (s m).1 = i) (by
      obtain ⟨m, -, hm⟩ := hfair 0; exact ⟨m, hm⟩)
    have hni : i ∉ (prefixOf s m).map Prod.fst := by
      intro hmem
      obtain ⟨y, hy, h2⟩ := List.mem_map.1 hmem
      obtain ⟨k, h1, rfl⟩ := mem_prefixOf hy
      exact hfirst k h1 h2
    obtain ⟨tr1, ths1, own1, h1, e1, ss1, od1, -, hoth⟩ := ss.runAt (prefixOf s m) od (hc m)
    obtain ⟨hi1, ho1⟩ := hoth i hni
    rw [hi] at hi1
    rw [ho] at ho1
    obtain ⟨t, ht⟩ : ∃ t, s m = (i, t) := ⟨(s m).2, by rw [← hm]⟩
    have hc1 : ∀ n, Coherent arc A h₀ ((i, t) :: prefixOf (fun k => s (m + 1 + k)) n) tr1 ths1 h1 := by
      intro n
      have := hc (m + 1 + n)
      rw [prefixOf_add, prefixOf_add, List.append_assoc] at this
      have := this.append.2 _ _ _ e1
      simpa only [prefixOf, Nat.add_zero, ht, List.cons_append, List.nil_append] using this
    have hc2 : ∀ n, _ := fun n => by
      have := hc1 n
      simp only [Coherent, hi1] at this
      exact this
    obtain ⟨th2, h2, own2, x, x', e2, ss2, od2, hx, hx', -, hsm⟩ := ss1.stepAt od1 hi1 (hc2 0).1
    simp only [e2] at hc2
    rw [ho1] at hx
    cases hx
    rw [hp] at hsm
    have hlt : i < ths1.length := (List.getElem?_eq_some_iff.1 hi1).1
    obtain ⟨n, tr3, ths3, h3, th3, r, e3, hi3, hr⟩ := ih _ _ hsm (fun k => s (m + 1 + k))
      (fun n => by
        obtain ⟨k, h1, h2⟩ := hfair (m + 1 + n)
        refine ⟨k - (m + 1), by omega, ?_⟩
        have : m + 1 + (k - (m + 1)) = k := by omega
        simp only [this]; exact h2) ss2 od2 (fun n => (hc2 n).2) th2 x'.2 (by rw [List.getElem?_set_self hlt]) rfl hx'
    refine ⟨m + 1 + n, tr3, ths3, h3, th3, r, ?_, hi3, hr⟩
    rw [prefixOf_add, prefixOf_add, List.append_assoc, runWeak_append, e1]
    simp only [prefixOf, Nat.add_zero, ht, List.cons_append, List.nil_append, runWeak, hi1, e2]
    exact e3

end

section
variable {L H Op Ret σ : Type} {A : Allocator L} {R : H → σ → List (Item L) → Prop} {sh : Nat → Bool} {rss : List (List (Option Ret))}
  {sss : List (List (Option σ))} {hB hF : List (Option H)} {Bs Fs : List (Option σ)}
  {ths : List (Thread L (List (Option Ret) × List (Option H)))} {h : Mem L}

/-- Every coherent run keeps the system going, what is lent stays as it is, cell by cell, and there are no races. -/
theorem SharingSystem.runAt (sys : SharingSystem A R sh rss sss hB hF Bs Fs ths h) {Ret' : Type} {impl : Impl L H Op Ret'} {new : σ}
    {step : σ → Op → Res (Ret' × Effect σ)} (hr : impl.Refines A new step R) (sched : List (Nat × Nat))
    (hc : Coherent arc A h sched [] ths h) :
    ∃ tr ths' h', runWeak A h sched [] ths h = .ok (tr, ths', h') ∧ RaceFree arc tr ∧
      SharingSystem A R sh rss sss hB hF Bs Fs ths' h' ∧
      ∀ (j : Nat) (x : H) (t : ATree L), hB[j]? = some (some x) → t.addr ∈ impl.ptrs x → Val h t → Val h' t := by
  obtain ⟨⟨own, B, F, ss, hb, hf⟩, l1, l2⟩ := sys
  obtain ⟨tr, ths', own', h', e1, e2, od, e3, -⟩ := ss.runAt sched (.start h _ _ _) hc
  refine ⟨tr, ths', h', e1, od.races, ⟨⟨own', B, F, e2, hb, hf⟩, by omega, by omega⟩, ?_⟩
  intro j x t hj ht hv
  rcases hb.get j with ⟨y, s, β, C, h1, h2, h3, h4, -⟩ | ⟨h1, -⟩
  · rw [hj] at h1
    cases h1
    refine Handles.tree hr h3 (F := C ++ F ++ (own.map fun x => threadItems x.1 x.2).flatten)
      (F' := C ++ F ++ (own'.map fun x => threadItems x.1 x.2).flatten) (ss.mem.perm ?_) (e2.mem.perm ?_) ht hv
    · refine List.perm_append_comm.trans ?_
      rw [← List.append_assoc, ← List.append_assoc]
      exact (h4.append_right F).append_right _
    · refine List.perm_append_comm.trans ?_
      rw [← List.append_assoc, ← List.append_assoc]
      exact (h4.append_right F).append_right _
  · exact absurd hj (h1 x)

/-- A thread that is scheduled again and again finishes. -/
theorem SharingSystem.finishesAt (sys : SharingSystem A R sh rss sss hB hF Bs Fs ths h) {i : Nat} (hi : i < ths.length)
    (s : Nat → Nat × Nat) (hs : ∀ n, ∃ m, n ≤ m ∧ (s m).1 = i) (hc : ∀ n, Coherent arc A h (prefixOf s n) [] ths h) :
    ∃ n tr ths' h' th r, runWeak A h (prefixOf s n) [] ths h = .ok (tr, ths', h') ∧ ths'[i]? = some th ∧ th.result = some r := by
  obtain ⟨⟨own, B, F, ss, -⟩, l1, l2⟩ := sys
  have hl1 : ths[i]? = some (ths[i]'hi) := List.getElem?_eq_getElem _
  have hl2 : own[i]? = some (own[i]'(by have := ss.len; omega)) := List.getElem?_eq_getElem _
  exact SysSafe.finishesAt (i := i) _ (own[i]'(by have := ss.len; omega)).1 s hs ss (.start h _ _ _) hc _
      (own[i]'(by have := ss.len; omega)).2 hl1 rfl hl2

end
end Heap
end Rpds
