import Verif.Heap.Borrow
/-
From programs that are `Safe` to threads: every interleaving keeps `Own`, never faults, and lets every thread finish with
the result it would have had alone.
-/
set_option autoImplicit false
namespace Rpds
namespace Heap
variable {L α : Type} {A : Allocator L} {D : Option Nat} {B : List (Item L)}

/-- A thread with a safe program that borrows `B`, possibly in the middle of dropping pointers. -/
structure TSafe (A : Allocator L) (D : Option Nat) (B : List (Item L)) (Q : α → List (Item L) → Prop) (th : Thread L α)
    (pend : List (Nat × ATree L)) (σ : List (Item L)) : Prop where
  pending : th.pending = pend.map fun x => (x.1, x.2.addr)
  safe : SafeB A D B Q th.prog σ
  nested : ∀ x ∈ pend, Within D (x.1 + nest (reach σ) x.2)
  deepest : Within D th.deepest

/-- All items of a thread. -/
def threadItems (pend : List (Nat × ATree L)) (σ : List (Item L)) : List (Item L) :=
  pend.map (fun x => .ptr x.2) ++ σ

/-- Work left in pending drops. -/
def pendSize (pend : List (Nat × ATree L)) : Nat := (pend.map fun x => x.2.size).sum

/-- What is left to do got smaller. -/
inductive Smaller : Prog L α → List (Nat × ATree L) → Prog L α → List (Nat × ATree L) → Prop where
  | pend {prog : Prog L α} {p q : List (Nat × ATree L)} (h : pendSize p < pendSize q) : Smaller prog p prog q
  | op {a : Act L} {k : Resp a → Prog L α} (x : Resp a) : Smaller (k x) [] (.op a k) []
  | drop {p : Addr} {k : Prog L α} (q : List (Nat × ATree L)) : Smaller k q (.drop p k) []
  | done (r : α) : Smaller (.ret r) [] (.ret r) []

theorem nest_go_le {H : List Addr} {ts : List (ATree L)} {t : ATree L} (ht : t ∈ ts) : 1 + nest H t ≤ nest.go H ts := by
  induction ts with
  | nil => simp at ht
  | cons s ts ih =>
    simp only [nest.go]
    rcases List.mem_cons.1 ht with rfl | h
    · omega
    · have := ih h; omega

theorem size_go_eq (ts : List (ATree L)) (d : Nat) : pendSize (ts.map fun t => (d, t)) = ATree.size.go ts := by
  induction ts with
  | nil => simp [pendSize, ATree.size.go]
  | cons t ts ih => simp [pendSize, ATree.size.go] at ih ⊢; omega

theorem pendSize_append (p q : List (Nat × ATree L)) : pendSize (p ++ q) = pendSize p + pendSize q := by
  simp [pendSize]

theorem reach_mem {σ : List (Item L)} {t : ATree L} (h : .ptr t ∈ σ) {a : Addr} (ha : a ∈ t.addrs) : a ∈ reach σ :=
  List.mem_flatMap.2 ⟨_, h, ha⟩

theorem reach_append (ρ σ : List (Item L)) : reach (ρ ++ σ) = reach ρ ++ reach σ := by simp [reach]

/-- One step of a safe thread. -/
theorem TSafe.step {Q : α → List (Item L) → Prop} {th : Thread L α} {pend : List (Nat × ATree L)} {σ : List (Item L)}
    (ts : TSafe A D B Q th pend σ) {h : Mem L} {F : List (Item L)} (ho : Own h (threadItems pend σ ++ (B ++ F))) :
    ∃ th' h' pend' σ', th.step A h = .ok (th', h') ∧ Own h' (threadItems pend' σ' ++ (B ++ F)) ∧ TSafe A D B Q th' pend' σ' ∧
      Smaller th'.prog pend' th.prog pend := by
  obtain ⟨pd, deep, prog⟩ := th
  obtain ⟨h1, h2, h3, h4⟩ := ts
  simp only at h1 h2 h4
  cases pend with
  | cons x pend =>
    obtain ⟨d, t⟩ := x
    simp only [List.map_cons] at h1
    subst h1
    have hv : Val h t := ho.val t (by simp [threadItems])
    obtain ⟨n, e, -⟩ := ho.mem_ptr_closed hv
    have ho' : Own h (.ptr t :: (threadItems pend σ ++ (B ++ F))) := by simpa [threadItems] using ho
    by_cases hn : n = 1
    · subst hn
      refine ⟨⟨(t.kids.map ATree.addr).map (fun c => (d + 1, c)) ++ pend.map fun x => (x.1, x.2.addr), max deep d, prog⟩,
        put h t.addr .free, t.kids.map (fun s => (d + 1, s)) ++ pend, σ, ?_, ?_, ⟨?_, h2, ?_, ?_⟩, .pend ?_⟩
      · simp [Thread.step, decr, e]
      · have := Own.release (σ := []) ho' e (.inl ⟨rfl, rfl⟩)
        simpa [threadItems, Function.comp_def] using this
      · simp [Function.comp_def]
      · intro x hx
        rcases List.mem_append.1 hx with hx | hx
        · obtain ⟨s, hs, rfl⟩ := List.mem_map.1 hx
          refine (h3 (d, t) (by simp)).mono ?_
          have : t.addr ∉ reach σ := by
            intro hr
            refine ho'.shared e ?_ rfl
            rw [threadItems, reach_append, reach_append]
            simp [hr]
          obtain ⟨a, l, ts⟩ := t
          simp only [ATree.addr] at this
          simp only [nest, this, if_false]
          have := nest_go_le (H := reach σ) hs
          simp only [ATree.kids] at this
          omega
        · exact h3 x (by simp [hx])
      · intro m hm
        have := h3 (d, t) (by simp) m hm
        have := h4 m hm
        simp only at *
        omega
      · rw [pendSize_append, size_go_eq]
        obtain ⟨a, l, ts⟩ := t
        simp [pendSize, ATree.size, ATree.kids]
    · refine ⟨⟨pend.map fun x => (x.1, x.2.addr), max deep d, prog⟩,
        put h t.addr (.closed (n - 1) t.label (t.kids.map ATree.addr)), pend, σ, ?_, ?_, ⟨?_, h2, ?_, ?_⟩, .pend ?_⟩
      · simp [Thread.step, decr, e, hn]
      · exact ho'.decr e hn
      · rfl
      · intro x hx
        exact h3 x (by simp [hx])
      · intro m hm
        have := h3 (d, t) (by simp) m hm
        have := h4 m hm
        simp only at *
        omega
      · obtain ⟨a, l, ts⟩ := t
        simp [pendSize, ATree.size]
        omega
  | nil =>
    simp only [List.map_nil] at h1
    subst h1
    have ho' : Own h (σ ++ (B ++ F)) := by simpa [threadItems] using ho
    cases prog with
    | ret r => exact ⟨_, h, [], σ, rfl, ho, ⟨rfl, h2, by simp, h4⟩, .done r⟩
    | panic => exact h2.elim
    | op a k =>
      obtain ⟨x, h', ρ', e1, e2, e3⟩ := h2.2 h F ho'
      refine ⟨⟨[], deep, k x⟩, h', [], ρ', ?_, by simpa [threadItems] using e2, ⟨rfl, e3, by simp, h4⟩, .op x⟩
      simp [Thread.step, e1]
    | drop p k =>
      obtain ⟨t, τ, e1, rfl, e3, e4⟩ := h2
      refine ⟨⟨[(0, t.addr)], deep, k⟩, h, [(0, t)], τ, rfl, ?_, ⟨rfl, e4, ?_, h4⟩, .drop _⟩
      · refine ho'.perm ?_
        simpa [threadItems] using e1.append_right (B ++ F)
      · simpa using e3

/-- All threads are safe and the memory is consistent with what they hold together with `F` and with `B`, which all of them may
borrow. -/
structure SysSafe (A : Allocator L) (D : Option Nat) (B : List (Item L)) (Q : Nat → α → List (Item L) → Prop)
    (ths : List (Thread L α)) (own : List (List (Nat × ATree L) × List (Item L))) (F : List (Item L)) (h : Mem L) :
    Prop where
  len : own.length = ths.length
  safe : ∀ i th x, ths[i]? = some th → own[i]? = some x → TSafe A D B (Q i) th x.1 x.2
  mem : Own h ((own.map fun x => threadItems x.1 x.2).flatten ++ (B ++ F))

/-- What thread `i` owns, and the rest. -/
theorem flatten_perm_set {β : Type} (xs : List (List β)) (i : Nat) (x y : List β) (hx : xs[i]? = some x) :
    ∃ R, xs.flatten.Perm (x ++ R) ∧ (xs.set i y).flatten.Perm (y ++ R) := by
  induction xs generalizing i with
  | nil => simp at hx
  | cons z xs ih =>
    cases i with
    | zero =>
      simp only [List.getElem?_cons_zero, Option.some.injEq] at hx
      subst hx
      exact ⟨xs.flatten, by simp, by simp⟩
    | succ i =>
      obtain ⟨R, h1, h2⟩ := ih i (by simpa using hx)
      refine ⟨z ++ R, ?_, ?_⟩
      · simp only [List.flatten_cons]
        exact (h1.append_left z).trans (by
          rw [← List.append_assoc, ← List.append_assoc]
          exact List.perm_append_comm.append_right R)
      · simp only [List.set_cons_succ, List.flatten_cons]
        exact (h2.append_left z).trans (by
          rw [← List.append_assoc, ← List.append_assoc]
          exact List.perm_append_comm.append_right R)

/-- One step of the system. -/
theorem SysSafe.step {Q : Nat → α → List (Item L) → Prop} {ths : List (Thread L α)}
    {own : List (List (Nat × ATree L) × List (Item L))} {F : List (Item L)} {h : Mem L}
    (ss : SysSafe A D B Q ths own F h) {i : Nat} {th : Thread L α} (hi : ths[i]? = some th) :
    ∃ th' h' own' x x', th.step A h = .ok (th', h') ∧ SysSafe A D B Q (ths.set i th') own' F h' ∧
      own[i]? = some x ∧ own'[i]? = some x' ∧ (∀ j, j ≠ i → own'[j]? = own[j]?) ∧
      Smaller th'.prog x'.1 th.prog x.1 := by
  have hlt : i < ths.length := by
    rcases Nat.lt_or_ge i ths.length with h1 | h1
    · exact h1
    · rw [List.getElem?_eq_none h1] at hi; cases hi
  have hlt' : i < own.length := by rw [ss.len]; exact hlt
  obtain ⟨x, hx⟩ : ∃ x, own[i]? = some x := ⟨own[i], List.getElem?_eq_getElem hlt'⟩
  have hxi : (own.map fun x => threadItems x.1 x.2)[i]? = some (threadItems x.1 x.2) := by simp [hx]
  obtain ⟨R, hp, -⟩ := flatten_perm_set _ i _ [] hxi
  have ho : Own h (threadItems x.1 x.2 ++ (B ++ (R ++ F))) :=
    ss.mem.perm ((hp.append_right (B ++ F)).trans (by perm_tac))
  obtain ⟨th', h', pend', σ', e1, e2, e3, e4⟩ := (ss.safe i th x hi hx).step ho
  refine ⟨th', h', own.set i (pend', σ'), x, (pend', σ'), e1, ⟨by simp [ss.len], ?_, ?_⟩, hx,
    by rw [List.getElem?_set_self hlt'], ?_, e4⟩
  · intro j thj y hj hy
    rw [List.getElem?_set] at hj hy
    by_cases hij : i = j
    · subst hij
      simp only [if_true, hlt, hlt', Option.some.injEq] at hj hy
      subst hj
      subst hy
      exact e3
    · simp only [if_neg hij] at hj hy
      exact ss.safe j thj y hj hy
  · obtain ⟨R', hp', hq'⟩ := flatten_perm_set _ i _ (threadItems pend' σ') hxi
    refine e2.perm ?_
    rw [List.map_set]
    have hRR : R.Perm R' := (List.perm_append_left_iff _).1 (hp.symm.trans hp')
    refine List.Perm.trans ?_ (((hRR.append_left _).trans hq'.symm).append_right (B ++ F))
    perm_tac
  · intro j hj
    rw [List.getElem?_set_ne (by omega)]

/-- Every interleaving is safe. -/
theorem SysSafe.run {Q : Nat → α → List (Item L) → Prop} (sched : List Nat) {ths : List (Thread L α)}
    {own : List (List (Nat × ATree L) × List (Item L))} {F : List (Item L)} {h : Mem L}
    (ss : SysSafe A D B Q ths own F h) :
    ∃ ths' own' h', runThreads A sched ths h = .ok (ths', h') ∧ SysSafe A D B Q ths' own' F h' ∧
      ths'.length = ths.length := by
  induction sched generalizing ths own h with
  | nil => exact ⟨ths, own, h, rfl, ss, rfl⟩
  | cons i is ih =>
    cases hi : ths[i]? with
    | none =>
      obtain ⟨ths', own', h', e⟩ := ih ss
      exact ⟨ths', own', h', by simpa [runThreads, hi] using e⟩
    | some th =>
      obtain ⟨th', h', own', x, x', e1, e2, -⟩ := ss.step hi
      obtain ⟨ths'', own'', h'', e3, e4, e5⟩ := ih e2
      refine ⟨ths'', own'', h'', ?_, e4, by simpa using e5⟩
      simp [runThreads, hi, e1, e3]

/-- The result of a finished safe thread. -/
theorem TSafe.result {Q : α → List (Item L) → Prop} {th : Thread L α} {pend : List (Nat × ATree L)} {σ : List (Item L)}
    (ts : TSafe A D B Q th pend σ) {r : α} (hr : th.result = some r) :
    ∃ τ, (threadItems pend σ).Perm τ ∧ Q r τ := by
  obtain ⟨pd, deep, prog⟩ := th
  obtain ⟨h1, h2, h3, h4⟩ := ts
  unfold Thread.result at hr
  split at hr
  · next e1 e2 =>
    simp only at e1 e2
    subst e1 e2
    cases hr
    simp at h1
    subst h1
    obtain ⟨τ, h5, h6⟩ := h2
    exact ⟨τ, by simpa [threadItems] using h5, h6⟩
  · cases hr

/-! ### Every thread finishes -/

/-- A program with what is left of its pending drops gets smaller only finitely often. -/
theorem smaller_induct {P : Prog L α → List (Nat × ATree L) → Prop}
    (fin : ∀ r, P (.ret r) [])
    (ind : ∀ prog pend, (∀ r, prog = .ret r → pend ≠ []) →
      (∀ prog' pend', Smaller prog' pend' prog pend → P prog' pend') → P prog pend) :
    ∀ prog pend, P prog pend := by
  have key : ∀ prog : Prog L α, (P prog []) → ∀ n pend, pendSize pend ≤ n → P prog pend := by
    intro prog h0 n
    induction n with
    | zero =>
      intro pend hn
      cases pend with
      | nil => exact h0
      | cons x xs =>
        exfalso
        obtain ⟨d, t⟩ := x
        cases t
        simp [pendSize, ATree.size] at hn
    | succ n ih =>
      intro pend hn
      cases pend with
      | nil => exact h0
      | cons x xs =>
        refine ind _ _ (by simp) ?_
        intro prog' pend' hs
        cases hs with
        | pend h => exact ih _ (by omega)
  intro prog
  induction prog with
  | ret r => exact fun pend => key _ (fin r) _ pend (Nat.le_refl _)
  | panic =>
    intro pend
    refine key _ (ind _ _ (by simp) ?_) _ pend (Nat.le_refl _)
    intro prog' pend' hs
    cases hs with
    | pend h => simp [pendSize] at h
  | op a k ih =>
    intro pend
    refine key _ (ind _ _ (by simp) ?_) _ pend (Nat.le_refl _)
    intro prog' pend' hs
    cases hs with
    | pend h => simp [pendSize] at h
    | op x => exact ih x []
  | drop p k ih =>
    intro pend
    refine key _ (ind _ _ (by simp) ?_) _ pend (Nat.le_refl _)
    intro prog' pend' hs
    cases hs with
    | pend h => simp [pendSize] at h
    | drop => exact ih _

/-- The first `n` steps of an infinite schedule. -/
def prefixOf {β : Type} (s : Nat → β) : Nat → List β
  | 0 => []
  | n + 1 => s 0 :: prefixOf (fun k => s (k + 1)) n

theorem runThreads_append (sched sched' : List Nat) (ths : List (Thread L α)) (h : Mem L) :
    runThreads A (sched ++ sched') ths h =
      match runThreads A sched ths h with
      | .error e => .error e
      | .ok (ths', h') => runThreads A sched' ths' h' := by
  induction sched generalizing ths h with
  | nil => rfl
  | cons i is ih =>
    simp only [List.cons_append, runThreads]
    cases ths[i]? with
    | none => exact ih ths h
    | some th =>
      simp only
      cases th.step A h with
      | error e => rfl
      | ok x => obtain ⟨a, b⟩ := x; exact ih _ _

/-- Steps of other threads do not change a thread. -/
theorem SysSafe.others {Q : Nat → α → List (Item L) → Prop} {i : Nat} (sched : List Nat) (hs : i ∉ sched)
    {ths : List (Thread L α)} {own : List (List (Nat × ATree L) × List (Item L))} {F : List (Item L)} {h : Mem L}
    (ss : SysSafe A D B Q ths own F h) :
    ∃ ths' own' h', runThreads A sched ths h = .ok (ths', h') ∧ SysSafe A D B Q ths' own' F h' ∧
      ths'[i]? = ths[i]? ∧ own'[i]? = own[i]? := by
  induction sched generalizing ths own h with
  | nil => exact ⟨ths, own, h, rfl, ss, rfl, rfl⟩
  | cons j is ih =>
    simp only [List.mem_cons, not_or] at hs
    cases hj : ths[j]? with
    | none =>
      obtain ⟨ths', own', h', e⟩ := ih hs.2 ss
      exact ⟨ths', own', h', by simpa [runThreads, hj] using e⟩
    | some th =>
      obtain ⟨th', h', own', x, x', e1, e2, e3, e4, e5, -⟩ := ss.step hj
      obtain ⟨ths'', own'', h'', e6, e7, e8, e9⟩ := ih hs.2 e2
      refine ⟨ths'', own'', h'', ?_, e7, ?_, ?_⟩
      · simp [runThreads, hj, e1, e6]
      · rw [e8, List.getElem?_set_ne (fun h => hs.1 h.symm)]
      · rw [e9, e5 i hs.1]

theorem prefixOf_add {β : Type} (s : Nat → β) (n m : Nat) :
    prefixOf s (n + m) = prefixOf s n ++ prefixOf (fun k => s (n + k)) m := by
  induction n generalizing s with
  | zero => simp [prefixOf]
  | succ n ih =>
    rw [Nat.add_right_comm]
    simp only [prefixOf, List.cons_append, ih]
    congr 3
    funext k
    rw [Nat.add_right_comm]

theorem mem_prefixOf {β : Type} {s : Nat → β} {n : Nat} {i : β} (h : i ∈ prefixOf s n) : ∃ k, k < n ∧ s k = i := by
  induction n generalizing s with
  | zero => simp [prefixOf] at h
  | succ n ih =>
    simp only [prefixOf, List.mem_cons] at h
    rcases h with rfl | h
    · exact ⟨0, by omega, rfl⟩
    · obtain ⟨k, h1, h2⟩ := ih h
      exact ⟨k + 1, by omega, h2⟩

theorem exists_first {P : Nat → Prop} (h : ∃ n, P n) : ∃ n, P n ∧ ∀ m, m < n → ¬ P m := by
  obtain ⟨n, hn⟩ := h
  induction n using Nat.strongRecOn with
  | ind n ih =>
    by_cases h : ∃ m, m < n ∧ P m
    · obtain ⟨m, h1, h2⟩ := h
      exact ih m h1 h2
    · exact ⟨n, hn, fun m h1 h2 => h ⟨m, h1, h2⟩⟩

/-- A thread that is scheduled again and again finishes. -/
theorem SysSafe.finishes {Q : Nat → α → List (Item L) → Prop} {i : Nat} (prog : Prog L α) (pend : List (Nat × ATree L)) :
    ∀ (s : Nat → Nat), (∀ n, ∃ m, n ≤ m ∧ s m = i) → ∀ {ths : List (Thread L α)}
      {own : List (List (Nat × ATree L) × List (Item L))} {F : List (Item L)} {h : Mem L},
    SysSafe A D B Q ths own F h → ∀ th σ, ths[i]? = some th → th.prog = prog → own[i]? = some (pend, σ) →
    ∃ n ths' own' h' th' r, runThreads A (prefixOf s n) ths h = .ok (ths', h') ∧ SysSafe A D B Q ths' own' F h' ∧
      ths'[i]? = some th' ∧ th'.result = some r := by
  refine smaller_induct (P := fun prog pend => ∀ (s : Nat → Nat), (∀ n, ∃ m, n ≤ m ∧ s m = i) →
    ∀ {ths : List (Thread L α)} {own : List (List (Nat × ATree L) × List (Item L))} {F : List (Item L)} {h : Mem L},
    SysSafe A D B Q ths own F h → ∀ th σ, ths[i]? = some th → th.prog = prog → own[i]? = some (pend, σ) →
    ∃ n ths' own' h' th' r, runThreads A (prefixOf s n) ths h = .ok (ths', h') ∧ SysSafe A D B Q ths' own' F h' ∧
      ths'[i]? = some th' ∧ th'.result = some r) ?_ ?_ prog pend
  · intro r s _ ths own F h ss th σ hi hp ho
    refine ⟨0, ths, own, h, th, r, rfl, ss, hi, ?_⟩
    have := (ss.safe i th _ hi ho).pending
    simp [Thread.result, hp, this]
  · intro prog pend hunf ih s hfair ths own F h ss th σ hi hp ho
    obtain ⟨m, hm, hfirst⟩ := exists_first (P := fun m => s m = i) (by
      obtain ⟨m, -, hm⟩ := hfair 0; exact ⟨m, hm⟩)
    have hni : i ∉ prefixOf s m := by
      intro hmem
      obtain ⟨k, h1, h2⟩ := mem_prefixOf hmem
      exact hfirst k h1 h2
    obtain ⟨ths1, own1, h1, e1, ss1, hi1, ho1⟩ := ss.others (prefixOf s m) hni
    rw [hi] at hi1
    rw [ho] at ho1
    obtain ⟨th2, h2, own2, x, x', e2, ss2, hx, hx', -, hsm⟩ := ss1.step hi1
    rw [ho1] at hx
    cases hx
    rw [hp] at hsm
    have hlt : i < ths1.length := by
      rcases Nat.lt_or_ge i ths1.length with h1 | h1
      · exact h1
      · rw [List.getElem?_eq_none h1] at hi1; cases hi1
    obtain ⟨n, ths3, own3, h3, th3, r, e3, ss3, hi3, hr⟩ := ih _ _ hsm (fun k => s (m + 1 + k))
      (fun n => by
        obtain ⟨k, h1, h2⟩ := hfair (m + 1 + n)
        refine ⟨k - (m + 1), by omega, ?_⟩
        have : m + 1 + (k - (m + 1)) = k := by omega
        simp only [this]; exact h2) ss2 th2 x'.2 (by rw [List.getElem?_set_self hlt]) rfl hx'
    refine ⟨m + 1 + n, ths3, own3, h3, th3, r, ?_, ss3, hi3, hr⟩
    rw [prefixOf_add, prefixOf_add, List.append_assoc, runThreads_append, e1]
    simp only [prefixOf, Nat.add_zero, hm, List.cons_append, List.nil_append, runThreads, hi1, e2]
    exact e3

/-! ### One thread alone -/

/-- A safe thread alone finishes. -/
theorem TSafe.alone {Q : α → List (Item L) → Prop} (prog : Prog L α) (pend : List (Nat × ATree L)) :
    ∀ (th : Thread L α) (σ F : List (Item L)) (h : Mem L), th.prog = prog → TSafe A D B Q th pend σ →
      Own h (threadItems pend σ ++ (B ++ F)) →
      ∃ n th' h' σ' r, runAlone A n th h = .ok (th', h') ∧ th'.result = some r ∧ Q r σ' ∧ Own h' (σ' ++ (B ++ F)) ∧
        Within D th'.deepest := by
  refine smaller_induct (P := fun prog pend => ∀ (th : Thread L α) (σ F : List (Item L)) (h : Mem L), th.prog = prog →
      TSafe A D B Q th pend σ → Own h (threadItems pend σ ++ (B ++ F)) →
      ∃ n th' h' σ' r, runAlone A n th h = .ok (th', h') ∧ th'.result = some r ∧ Q r σ' ∧ Own h' (σ' ++ (B ++ F)) ∧
        Within D th'.deepest) ?_ ?_ prog pend
  · intro r th σ F h hp ts ho
    have hr : th.result = some r := by
      have := ts.pending
      simp [Thread.result, hp, this]
    obtain ⟨τ, h1, h2⟩ := ts.result hr
    exact ⟨0, th, h, τ, r, rfl, hr, h2, ho.perm (h1.append_right _), ts.deepest⟩
  · intro prog pend hunf ih th σ F h hp ts ho
    obtain ⟨th1, h1, pend1, σ1, e1, ho1, ts1, hsm⟩ := ts.step ho
    rw [hp] at hsm
    obtain ⟨n, th2, h2, σ2, r, e2, e3⟩ := ih _ _ hsm th1 σ1 F h1 rfl ts1 ho1
    exact ⟨n + 1, th2, h2, σ2, r, by simp [runAlone, e1, e2], e3⟩

/-- A safe program run alone. -/
theorem Safe.alone {Q : α → List (Item L) → Prop} {prog : Prog L α} {ρ F : List (Item L)} {h : Mem L}
    (hs : Safe A D Q prog ρ) (ho : Own h (ρ ++ F)) :
    ∃ n th h' σ r, runAlone A n (.start prog) h = .ok (th, h') ∧ th.result = some r ∧ Q r σ ∧ Own h' (σ ++ F) ∧
      Within D th.deepest :=
  TSafe.alone (B := []) prog [] (.start prog) ρ F h rfl ⟨rfl, hs.borrowing, by simp, fun d _ => Nat.zero_le d⟩
    (by simpa [threadItems] using ho)

/-! ### No leaks -/

theorem val_size_kid {t s : ATree L} (hs : s ∈ t.kids) : s.size < t.size := by
  obtain ⟨a, l, ts⟩ := t
  simp only [ATree.kids] at hs
  simp only [ATree.size]
  induction ts with
  | nil => simp at hs
  | cons t ts ih =>
    simp only [ATree.size.go]
    rcases List.mem_cons.1 hs with rfl | h
    · omega
    · have := ih h; omega

/-- Every closed cell can be reached from a pointer outside the memory. -/
theorem Own.owned {h : Mem L} {ρ : List (Item L)} (ho : Own h ρ) {a n : Nat} {l : L} {cs : List Addr} (hg : get h a = .closed n l cs) :
    ∃ t s : ATree L, .ptr t ∈ ρ ∧ Sub s t ∧ s.addr = a ∧ s.label = l := by
  apply Classical.byContradiction
  intro hno
  -- every closed cell out of reach is referenced by a closed cell with a larger tree, out of reach too: impossible in a finite memory
  have grow : ∀ k (t : ATree L), Val h t → (∀ u, .ptr u ∈ ρ → ¬ Sub t u) → ∃ s : ATree L, Val h s ∧ k ≤ s.size := by
    intro k t hv hu
    have : ∃ s : ATree L, Val h s ∧ k ≤ s.size ∧ ∀ u, .ptr u ∈ ρ → ¬ Sub s u := by
      induction k with
      | zero => exact ⟨t, hv, by omega, hu⟩
      | succ k ih =>
        obtain ⟨s, hs, hk, hsu⟩ := ih
        obtain ⟨m, e, hm, hpos, -⟩ := ho.mem_ptr_closed hs
        have hnh : s.addr ∉ held ρ := by
          intro hh
          obtain ⟨i, hi, his⟩ := List.mem_flatMap.1 hh
          cases i with
          | opn b => simp [Item.held] at his
          | ptr u =>
            simp only [Item.held, List.mem_singleton] at his
            have : s = u := val_unique hs (ho.val u hi) his
            exact hsu u hi (this ▸ .refl u)
        have hmem : s.addr ∈ refs h := List.count_pos_iff.1 (by have := List.count_eq_zero.2 hnh; omega)
        obtain ⟨c, hc, hsc⟩ := List.mem_flatMap.1 hmem
        obtain ⟨b, hb⟩ := List.getElem?_of_mem hc
        cases c with
        | free => simp [Cell.refs] at hsc
        | opened => simp [Cell.refs] at hsc
        | closed n' l' cs' =>
          have hgb : get h b = .closed n' l' cs' := by simp [get, hb]
          obtain ⟨u, hu, hvu⟩ := ho.acyclic b n' l' cs' hgb
          have := val_content hvu
          rw [hu, content_of_get hgb] at this
          simp only [Option.some.injEq, Prod.mk.injEq] at this
          simp only [Cell.refs, this.2, List.mem_map] at hsc
          obtain ⟨v, hv1, hv2⟩ := hsc
          have : v = s := val_unique (val_kids hvu v hv1) hs hv2
          subst this
          have := val_size_kid hv1
          exact ⟨u, hvu, by omega, fun w hw hs' => hsu w hw (.kid hs' hv1)⟩
    obtain ⟨s, h1, h2, -⟩ := this
    exact ⟨s, h1, h2⟩
  -- sizes of trees in memory are bounded
  have bound : ∀ N : Nat, ∃ B, ∀ (b : Nat) (t : ATree L), Val h t → t.addr = b → b < N → t.size ≤ B := by
    intro N
    induction N with
    | zero => exact ⟨0, fun b t _ _ h => by omega⟩
    | succ N ih =>
      obtain ⟨B, hB⟩ := ih
      by_cases hex : ∃ t : ATree L, Val h t ∧ t.addr = N
      · obtain ⟨t, hv, ha⟩ := hex
        refine ⟨max B t.size, fun b s hs hb hN => ?_⟩
        rcases Nat.lt_or_ge b N with h1 | h1
        · have := hB b s hs hb h1; omega
        · have : b = N := by omega
          subst this
          have : s = t := val_unique hs hv (hb.trans ha.symm)
          subst this
          omega
      · refine ⟨B, fun b s hs hb hN => hB b s hs hb ?_⟩
        rcases Nat.lt_or_ge b N with h1 | h1
        · exact h1
        · have : b = N := by omega
          subst this
          exact absurd ⟨s, hs, hb⟩ hex
  obtain ⟨B, hB⟩ := bound h.length
  obtain ⟨t, ht, hv⟩ := ho.acyclic a n l cs hg
  have hl : t.label = l := by
    have := val_content hv
    rw [ht, content_of_get hg] at this
    simp only [Option.some.injEq, Prod.mk.injEq] at this
    exact this.1.symm
  obtain ⟨s, hs, hk⟩ := grow (B + 1) t hv fun u hu hsub => hno ⟨u, t, hu, hsub, ht, hl⟩
  have hlt : s.addr < h.length := by
    rcases Nat.lt_or_ge s.addr h.length with h1 | h1
    · exact h1
    · obtain ⟨m, e, -⟩ := ho.mem_ptr_closed hs
      simp [get, List.getElem?_eq_none h1] at e
  have := hB _ s hs rfl hlt
  omega

/-- With no pointer left outside the memory, and no borrow, every cell is free. -/
theorem Own.no_leak {h : Mem L} (ho : Own h []) (a : Addr) : get h a = .free := by
  cases hg : get h a with
  | free => rfl
  | opened =>
    have := ho.cell a
    rw [hg] at this
    have := this.2
    simp at this
  | closed n l cs =>
    obtain ⟨t, -, ht, -⟩ := ho.owned hg
    cases ht

end Heap
end Rpds
