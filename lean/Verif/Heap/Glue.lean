import Verif.Heap.Depth
import Verif.Heap.Tree
/-
Drop glue that contains a `Drop for List`.  In `Heap/Model.lean` the content of a freed cell is a list of pointers which are dropped one
inside the other.  That is not quite what happens when the content is a `List` (a leaf of a hash trie with collisions): its nodes are
freed by the loop of `Drop for List` (list/mod.rs:404-421), so they do not nest.  Here is the same machine with that loop.

The two machines make the same changes to memory in the same order (`GThread.sim_step`, `gThreads_sim`), so everything that is proved about memory
and results of the one holds for the other; only the nesting of destructors differs.
-/
set_option autoImplicit false
namespace Rpds
namespace Heap

/-- A thread: as `Thread`, but a pointer that is being dropped may be the `head` of the loop of `Drop for List`. -/
structure GThread (L : Type) (α : Type) where
  pending : List (Nat × Bool × Addr)
  deepest : Nat
  prog : Prog L α

/-- A thread that is about to run a program. -/
def GThread.start {L α : Type} (prog : Prog L α) : GThread L α := { pending := [], deepest := 0, prog }

/-- The drop glue of a content: the fields are dropped in order; `lists l` says that the first pointer is the head of a `List`. -/
def glue {L : Type} (lists : L → Bool) (d : Nat) (l : L) : List Addr → List (Nat × Bool × Addr)
  | [] => []
  | c :: cs => (d, lists l, c) :: cs.map fun c => (d, false, c)

/-- The body of the loop: `Ok(mut node) => { head = node.next.take(); }`; the value is dropped at the end of the arm, and then the loop goes
on with `head`. -/
def loopBody (d : Nat) : List Addr → List (Nat × Bool × Addr)
  | [] => []
  | value :: next => (d + 1, false, value) :: next.map fun c => (d, true, c)

/-- One atomic step of a thread. -/
def GThread.step {L α : Type} (lists : L → Bool) (A : Allocator L) (th : GThread L α) (h : Mem L) : Except Fault (GThread L α × Mem L) :=
  match th.pending with
  | (d, false, p) :: ps =>
    match get h p with
    | .closed n l cs =>
      if n = 1 then .ok ({ th with pending := glue lists (d + 1) l cs ++ ps, deepest := max th.deepest d }, put h p .free)
      else .ok ({ th with pending := ps, deepest := max th.deepest d }, put h p (.closed (n - 1) l cs))
    | _ => .error .badAccess
  | (d, true, p) :: ps =>
    -- `try_unwrap(node)`; if that fails the loop ends, and the pointer is dropped
    match get h p with
    | .closed n _ cs =>
      if n = 1 then .ok ({ th with pending := loopBody d cs ++ ps, deepest := max th.deepest d }, put h p .free)
      else .ok ({ th with pending := (d, false, p) :: ps }, h)
    | _ => .error .badAccess
  | [] =>
    match th.prog with
    | .ret r => .ok ({ th with prog := .ret r }, h)
    | .panic => .error .panic
    | .drop p k => .ok ({ th with pending := [(0, false, p)], prog := k }, h)
    | .op a k =>
      match act A a h with
      | .error e => .error e
      | .ok (x, h') => .ok ({ th with prog := k x }, h')

/-- Several threads over one memory. -/
def gThreads {L α : Type} (lists : L → Bool) (A : Allocator L) : (schedule : List Nat) → List (GThread L α) → Mem L →
    Except Fault (List (GThread L α) × Mem L)
  | [], ths, h => .ok (ths, h)
  | i :: is, ths, h =>
    match ths[i]? with
    | none => gThreads lists A is ths h
    | some th =>
      match th.step lists A h with
      | .error e => .error e
      | .ok (th', h') => gThreads lists A is (ths.set i th') h'

/-- `n` steps of a thread that runs alone. -/
def gAlone {L α : Type} (lists : L → Bool) (A : Allocator L) : (n : Nat) → GThread L α → Mem L → Except Fault (GThread L α × Mem L)
  | 0, th, h => .ok (th, h)
  | n + 1, th, h =>
    match th.step lists A h with
    | .error e => .error e
    | .ok (th', h') => gAlone lists A n th' h'

/-- `prog` run alone from memory `h` ends with result `r` and memory `h'`; `d` is the deepest nesting of destructors. -/
def GRuns {L α : Type} (lists : L → Bool) (A : Allocator L) (prog : Prog L α) (h : Mem L) (r : α) (h' : Mem L) (d : Nat) : Prop :=
  ∃ n, gAlone lists A n (.start prog) h = .ok ({ pending := [], deepest := d, prog := .ret r }, h')

section
variable {L α β : Type} {lists : L → Bool} {A : Allocator L}

/-! ### Simulation -/

/-- The same pointers are being dropped, at most as deep. -/
structure GThread.Sim (g : GThread L α) (th : Thread L α) : Prop where
  pending : List.Forall₂ (fun (x : Nat × Bool × Addr) (y : Nat × Addr) => x.2.2 = y.2 ∧ x.1 ≤ y.1) g.pending th.pending
  deepest : g.deepest ≤ th.deepest
  prog : g.prog = th.prog

theorem GThread.sim_start (prog : Prog L α) : (GThread.start prog).Sim (.start prog) := ⟨.nil, Nat.le_refl _, rfl⟩

theorem sim_tasks {d e : Nat} {b : Bool} (h : d ≤ e) (cs : List Addr) :
    List.Forall₂ (fun (x : Nat × Bool × Addr) (y : Nat × Addr) => x.2.2 = y.2 ∧ x.1 ≤ y.1) (cs.map fun c => (d, b, c)) (cs.map fun c => (e, c)) := by
  induction cs with
  | nil => exact .nil
  | cons c cs ih => exact .cons ⟨rfl, h⟩ ih

theorem sim_glue {d e : Nat} {l : L} (h : d ≤ e) (cs : List Addr) :
    List.Forall₂ (fun (x : Nat × Bool × Addr) (y : Nat × Addr) => x.2.2 = y.2 ∧ x.1 ≤ y.1) (glue lists d l cs) (cs.map fun c => (e, c)) := by
  cases cs with
  | nil => exact .nil
  | cons c cs => exact .cons ⟨rfl, h⟩ (sim_tasks h cs)

theorem sim_loopBody {d e : Nat} (h : d ≤ e) (cs : List Addr) :
    List.Forall₂ (fun (x : Nat × Bool × Addr) (y : Nat × Addr) => x.2.2 = y.2 ∧ x.1 ≤ y.1) (loopBody d cs) (cs.map fun c => (e + 1, c)) := by
  cases cs with
  | nil => exact .nil
  | cons c cs => exact .cons ⟨rfl, by simp only; omega⟩ (sim_tasks (by omega) cs)

theorem forall₂_app {γ δ : Type} {R : γ → δ → Prop} {a b : List γ} {c d : List δ} (h : List.Forall₂ R a c) (h' : List.Forall₂ R b d) :
    List.Forall₂ R (a ++ b) (c ++ d) := by
  induction h with
  | nil => exact h'
  | cons h _ ih => exact .cons h ih

/-- A step of the machine with the loop is a step of the other one, or the test that ends a loop, which changes no memory. -/
theorem GThread.sim_step {g : GThread L α} {th : Thread L α} (s : g.Sim th) (h : Mem L) :
    (∃ g', g.step lists A h = .ok (g', h) ∧ g'.Sim th ∧ ∃ d p ps, g.pending = (d, true, p) :: ps ∧ g'.pending = (d, false, p) :: ps) ∨
    (match g.step lists A h with
      | .error e => th.step A h = .error e
      | .ok (g', h') => ∃ th', th.step A h = .ok (th', h') ∧ g'.Sim th') := by
  obtain ⟨pd, dp, prog⟩ := g
  obtain ⟨pd', dp', prog'⟩ := th
  obtain ⟨s1, s2, rfl⟩ := s
  simp only at s1 s2
  cases s1 with
  | nil =>
    refine .inr ?_
    cases prog with
    | ret r => exact ⟨_, rfl, .nil, s2, rfl⟩
    | panic => rfl
    | drop p k => exact ⟨_, rfl, .cons ⟨rfl, Nat.le_refl _⟩ .nil, s2, rfl⟩
    | op a k =>
      simp only [GThread.step, Thread.step]
      cases act A a h with
      | error e => rfl
      | ok x => exact ⟨_, rfl, .nil, s2, rfl⟩
  | @cons x y ps ps' hx hs =>
    obtain ⟨d, b, p⟩ := x
    obtain ⟨e, q⟩ := y
    obtain ⟨rfl, hde⟩ := hx
    simp only at hde
    cases b with
    | false =>
      refine .inr ?_
      simp only [GThread.step, Thread.step, decr]
      cases hp : get h p with
      | free => rfl
      | opened => rfl
      | closed n l cs =>
        by_cases hn : n = 1
        · simp only [hn, if_true]
          exact ⟨_, rfl, forall₂_app (sim_glue (by omega) cs) hs, by simp only; omega, rfl⟩
        · simp only [hn, if_false]
          exact ⟨_, rfl, hs, by simp only; omega, rfl⟩
    | true =>
      cases hp : get h p with
      | free => exact .inr (by simp [GThread.step, Thread.step, decr, hp])
      | opened => exact .inr (by simp [GThread.step, Thread.step, decr, hp])
      | closed n l cs =>
        by_cases hn : n = 1
        · refine .inr ?_
          simp only [GThread.step, Thread.step, decr, hp, hn, if_true]
          exact ⟨_, rfl, forall₂_app (sim_loopBody hde cs) hs, by simp only; omega, rfl⟩
        · exact .inl ⟨⟨(d, false, p) :: ps, dp, prog⟩, by simp [GThread.step, hp, hn], ⟨.cons ⟨rfl, hde⟩ hs, s2, rfl⟩, d, p, ps, rfl, rfl⟩

/-- Threads with the loop, under any schedule, do what threads without it do under a part of that schedule. -/
theorem gThreads_sim (sched : List Nat) : ∀ (gs : List (GThread L α)) (ths : List (Thread L α)) (h : Mem L),
    List.Forall₂ GThread.Sim gs ths → ∃ sched' : List Nat, sched'.Sublist sched ∧
      match gThreads lists A sched gs h with
      | .error e => runThreads A sched' ths h = .error e
      | .ok (gs', h') => ∃ ths', runThreads A sched' ths h = .ok (ths', h') ∧ List.Forall₂ GThread.Sim gs' ths' := by
  induction sched with
  | nil => intro gs ths h hs; exact ⟨[], .slnil, ths, rfl, hs⟩
  | cons i is ih =>
    intro gs ths h hs
    cases hg : gs[i]? with
    | none =>
      obtain ⟨sched', h1, h2⟩ := ih gs ths h hs
      exact ⟨sched', h1.cons _, by simpa [gThreads, hg] using h2⟩
    | some g =>
      obtain ⟨th, ht, hsim⟩ : ∃ th, ths[i]? = some th ∧ g.Sim th := by
        clear ih
        induction hs generalizing i with
        | nil => simp at hg
        | cons h1 _ ih =>
          cases i with
          | zero => cases hg; exact ⟨_, rfl, h1⟩
          | succ i => exact ih i hg
      have hset : ∀ {g' th'}, g'.Sim th' → List.Forall₂ GThread.Sim (gs.set i g') (ths.set i th') := by
        intro g' th' h'
        clear ih hg ht
        induction hs generalizing i with
        | nil => exact .nil
        | cons h1 h2 ih =>
          cases i with
          | zero => exact .cons h' h2
          | succ i => exact .cons h1 (ih i)
      rcases GThread.sim_step (lists := lists) (A := A) hsim h with ⟨g', h1, h2, -⟩ | h1
      · have hset' := hset h2
        have hid : ths.set i th = ths := by
          obtain ⟨hi, ht⟩ := List.getElem?_eq_some_iff.1 ht
          rw [← ht]
          exact List.set_getElem_self hi
        rw [hid] at hset'
        obtain ⟨sched', h3, h4⟩ := ih (gs.set i g') ths h hset'
        exact ⟨sched', h3.cons _, by simpa [gThreads, hg, h1] using h4⟩
      · cases hst : g.step lists A h with
        | error e =>
          rw [hst] at h1
          refine ⟨[i], by simp, ?_⟩
          simp only [gThreads, hg, hst, runThreads, ht]
          simp only at h1
          rw [h1]
        | ok x =>
          obtain ⟨g', h'⟩ := x
          rw [hst] at h1
          obtain ⟨th', h5, h6⟩ := h1
          obtain ⟨sched', h3, h4⟩ := ih _ _ h' (hset h6)
          exact ⟨i :: sched', h3.cons_cons _, by simpa [gThreads, hg, hst, runThreads, ht, h5] using h4⟩

theorem gAlone_add (n m : Nat) (th : GThread L α) (h : Mem L) :
    gAlone lists A (n + m) th h =
      match gAlone lists A n th h with
      | .error e => .error e
      | .ok (th', h') => gAlone lists A m th' h' := by
  induction n generalizing th h with
  | zero => simp [gAlone]
  | succ n ih =>
    rw [Nat.add_right_comm]
    simp only [gAlone]
    cases th.step lists A h with
    | error e => rfl
    | ok x => obtain ⟨a, b⟩ := x; exact ih a b

/-- A step of the machine without the loop takes one or two steps with it. -/
theorem GThread.Sim.back {g : GThread L α} {th th' : Thread L α} (s : g.Sim th) {h h' : Mem L} (e : th.step A h = .ok (th', h')) :
    ∃ n g', gAlone lists A n g h = .ok (g', h') ∧ g'.Sim th' := by
  rcases GThread.sim_step (lists := lists) (A := A) s h with ⟨g1, h1, h2, d, p, ps, -, h3⟩ | h1
  · rcases GThread.sim_step (lists := lists) (A := A) h2 h with ⟨g2, -, -, d', p', ps', h4, -⟩ | h4
    · rw [h3] at h4; cases h4
    · cases hst : g1.step lists A h with
      | error x => simp [hst, e] at h4
      | ok x =>
        obtain ⟨g2, h5⟩ := x
        rw [hst] at h4
        obtain ⟨th2, h6, h7⟩ := h4
        rw [e] at h6
        cases h6
        exact ⟨2, g2, by simp [gAlone, h1, hst], h7⟩
  · cases hst : g.step lists A h with
    | error x => simp [hst, e] at h1
    | ok x =>
      obtain ⟨g2, h5⟩ := x
      rw [hst] at h1
      obtain ⟨th2, h6, h7⟩ := h1
      rw [e] at h6
      cases h6
      exact ⟨1, g2, by simp [gAlone, hst], h7⟩

theorem gAlone_sim (n : Nat) : ∀ {g : GThread L α} {th th' : Thread L α} {h h' : Mem L}, g.Sim th → runAlone A n th h = .ok (th', h') →
    ∃ m g', gAlone lists A m g h = .ok (g', h') ∧ g'.Sim th' := by
  induction n with
  | zero =>
    intro g th th' h h' s e
    cases e
    exact ⟨0, g, rfl, s⟩
  | succ n ih =>
    intro g th th' h h' s e
    simp only [runAlone] at e
    cases hst : th.step A h with
    | error x => simp [hst] at e
    | ok x =>
      obtain ⟨th1, h1⟩ := x
      simp only [hst] at e
      obtain ⟨m1, g1, e1, s1⟩ := s.back (lists := lists) hst
      obtain ⟨m2, g2, e2, s2⟩ := ih s1 e
      exact ⟨m1 + m2, g2, by rw [gAlone_add, e1]; exact e2, s2⟩

/-- A program that runs alone has the same result and leaves the same memory; its destructors nest at most as deep. -/
theorem Runs.glue {prog : Prog L α} {h h' : Mem L} {r : α} {d : Nat} (e : Runs A prog h r h' d) : ∃ d', GRuns lists A prog h r h' d' ∧ d' ≤ d := by
  obtain ⟨n, e⟩ := e
  obtain ⟨m, ⟨pd, dp, pr⟩, e1, s1, s2, s3⟩ := gAlone_sim (lists := lists) n (GThread.sim_start prog) e
  simp only at s1 s2 s3
  cases s1
  subst s3
  exact ⟨dp, ⟨m, e1⟩, s2⟩

/-! ### Composition -/

theorem gStep_deep (th : GThread L α) (h : Mem L) (e : Nat) :
    GThread.step lists A { th with deepest := max e th.deepest } h =
      match th.step lists A h with
      | .error x => .error x
      | .ok (th', h') => .ok ({ th' with deepest := max e th'.deepest }, h') := by
  obtain ⟨pd, d, prog⟩ := th
  rcases pd with - | ⟨⟨k, b, p⟩, pd⟩
  · cases prog with
    | ret r => rfl
    | panic => rfl
    | drop p k => rfl
    | op a k =>
      simp only [GThread.step]
      cases act A a h with
      | error x => rfl
      | ok y => obtain ⟨cs, h'⟩ := y; rfl
  · cases b <;> simp only [GThread.step] <;> cases get h p <;> simp only <;> split <;> simp [Nat.max_assoc]

theorem gAlone_deep (n : Nat) (th : GThread L α) (h : Mem L) (e : Nat) :
    gAlone lists A n { th with deepest := max e th.deepest } h =
      match gAlone lists A n th h with
      | .error x => .error x
      | .ok (th', h') => .ok ({ th' with deepest := max e th'.deepest }, h') := by
  induction n generalizing th h with
  | zero => rfl
  | succ n ih =>
    simp only [gAlone, gStep_deep]
    cases th.step lists A h with
    | error x => rfl
    | ok y => obtain ⟨th', h'⟩ := y; exact ih th' h'

theorem gAlone_bind (f : α → Prog L β) (n : Nat) (pd : List (Nat × Bool × Addr)) (d : Nat) (prog : Prog L α) (h : Mem L)
    (th' : GThread L α) (h' : Mem L) (e : gAlone lists A n ⟨pd, d, prog⟩ h = .ok (th', h')) :
    ∃ m, gAlone lists A m ⟨pd, d, prog.bind f⟩ h = .ok (⟨th'.pending, th'.deepest, th'.prog.bind f⟩, h') := by
  induction n generalizing pd d prog h with
  | zero =>
    simp only [gAlone, Except.ok.injEq, Prod.mk.injEq] at e
    obtain ⟨rfl, rfl⟩ := e
    exact ⟨0, rfl⟩
  | succ n ih =>
    simp only [gAlone] at e
    rcases pd with - | ⟨⟨k, b, p⟩, pd⟩
    · cases prog with
      | ret r => exact ih [] d (.ret r) h e
      | panic => simp [GThread.step] at e
      | drop p k =>
        obtain ⟨m, hm⟩ := ih _ _ _ _ e
        exact ⟨m + 1, by simp [gAlone, GThread.step, Prog.bind, hm]⟩
      | op a k =>
        simp only [GThread.step] at e
        cases hd : act A a h with
        | error x => simp [hd] at e
        | ok y =>
          obtain ⟨x, h1⟩ := y
          simp only [hd] at e
          obtain ⟨m, hm⟩ := ih _ _ _ _ e
          exact ⟨m + 1, by simp [gAlone, GThread.step, Prog.bind, hd, hm]⟩
    · cases hp : get h p with
      | free => cases b <;> simp [GThread.step, hp] at e
      | opened => cases b <;> simp [GThread.step, hp] at e
      | closed c l cs =>
        by_cases hn : c = 1
        · cases b <;> simp only [GThread.step, hp, hn, if_true] at e <;> obtain ⟨m, hm⟩ := ih _ _ _ _ e <;>
            exact ⟨m + 1, by simp [gAlone, GThread.step, hp, hn, hm]⟩
        · cases b <;> simp only [GThread.step, hp, hn, if_false] at e <;> obtain ⟨m, hm⟩ := ih _ _ _ _ e <;>
            exact ⟨m + 1, by simp [gAlone, GThread.step, hp, hn, hm]⟩

theorem GRuns.bind {prog : Prog L α} {f : α → Prog L β} {h h₁ h₂ : Mem L} {r : α} {r' : β} {d₁ d₂ : Nat}
    (e₁ : GRuns lists A prog h r h₁ d₁) (e₂ : GRuns lists A (f r) h₁ r' h₂ d₂) : GRuns lists A (prog.bind f) h r' h₂ (max d₁ d₂) := by
  obtain ⟨n, e₁⟩ := e₁
  obtain ⟨m, e₂⟩ := e₂
  obtain ⟨n', e₃⟩ := gAlone_bind f n [] 0 prog h _ _ e₁
  refine ⟨n' + m, ?_⟩
  rw [gAlone_add]
  have e₄ : gAlone lists A n' (.start (prog.bind f)) h = _ := e₃
  rw [e₄]
  have := gAlone_deep (lists := lists) (A := A) m (.start (f r)) h₁ d₁
  rw [e₂] at this
  simpa [GThread.start, Prog.bind] using this

theorem GRuns.ret (r : α) (h : Mem L) : GRuns lists A (.ret r) h r h 0 := ⟨0, rfl⟩

theorem gAlone_done (n d : Nat) (r : α) (h : Mem L) :
    gAlone lists A n { pending := [], deepest := d, prog := .ret r } h = .ok ({ pending := [], deepest := d, prog := .ret r }, h) := by
  induction n with
  | zero => rfl
  | succ n ih => simp [gAlone, GThread.step, ih]

/-- The outcome of a run is unique. -/
theorem GRuns.unique {prog : Prog L α} {h : Mem L} {r r' : α} {h₁ h₂ : Mem L} {d d' : Nat}
    (e : GRuns lists A prog h r h₁ d) (e' : GRuns lists A prog h r' h₂ d') : r = r' ∧ h₁ = h₂ ∧ d = d' := by
  obtain ⟨n, e⟩ := e
  obtain ⟨m, e'⟩ := e'
  have h1 : gAlone lists A (n + m) (.start prog) h = .ok ({ pending := [], deepest := d, prog := .ret r }, h₁) := by
    rw [gAlone_add, e]; exact gAlone_done _ _ _ _
  have h2 : gAlone lists A (n + m) (.start prog) h = .ok ({ pending := [], deepest := d', prog := .ret r' }, h₂) := by
    rw [Nat.add_comm, gAlone_add, e']; exact gAlone_done _ _ _ _
  rw [h1] at h2
  simp only [Except.ok.injEq, Prod.mk.injEq, GThread.mk.injEq, Prog.ret.injEq, true_and] at h2
  exact ⟨h2.1.2, h2.2, h2.1.1⟩

/-! ### Dropping a tree alone -/

/-- Dropping `t`, as `head` of a loop or not, nests at most `n` levels when nobody interferes. -/
inductive Flat (lists : L → Bool) : Bool → Nat → ATree L → Prop where
  | leaf {n : Nat} {a : Addr} {l : L} : Flat lists false n (.node a l [])
  | node {n : Nat} {a : Addr} {l : L} {ts : List (ATree L)} (hl : lists l = false) (h : ∀ t ∈ ts, Flat lists false n t) :
    Flat lists false (n + 1) (.node a l ts)
  | list {n : Nat} {a : Addr} {l : L} {c : ATree L} {cs : List (ATree L)} (hl : lists l = true) (hc : Flat lists true n c)
    (h : ∀ t ∈ cs, Flat lists false n t) : Flat lists false (n + 1) (.node a l (c :: cs))
  | link {n : Nat} {a : Addr} {l : L} {v : ATree L} {next : List (ATree L)} (hv : Flat lists false n v)
    (h : ∀ t ∈ next, Flat lists true (n + 1) t) : Flat lists true (n + 1) (.node a l (v :: next))

/-- Dropping the first of the pending pointers, which is `t`. -/
def DropsOne (lists : L → Bool) (A : Allocator L) (b : Bool) (n : Nat) (t : ATree L) : Prop :=
  ∀ (α : Type) (d : Nat) (ps : List (Nat × Bool × Addr)) (dp : Nat) (prog : Prog L α) (h : Mem L) (F : List (Item L)), Own h (.ptr t :: F) →
    ∃ m h' e, gAlone lists A m ⟨(d, b, t.addr) :: ps, dp, prog⟩ h = .ok (⟨ps, max dp e, prog⟩, h') ∧ Own h' F ∧ e ≤ d + n

theorem drops_all {b : Bool} {n : Nat} (ts : List (ATree L)) (ht : ∀ t ∈ ts, DropsOne lists A b n t) :
    ∀ (α : Type) (d : Nat) (ps : List (Nat × Bool × Addr)) (dp : Nat) (prog : Prog L α) (h : Mem L) (F : List (Item L)),
    Own h (ts.map .ptr ++ F) →
    ∃ m h' e, gAlone lists A m ⟨(ts.map fun t => (d, b, t.addr)) ++ ps, dp, prog⟩ h = .ok (⟨ps, max dp e, prog⟩, h') ∧ Own h' F ∧ e ≤ d + n := by
  induction ts with
  | nil =>
    intro α d ps dp prog h F ho
    exact ⟨0, h, 0, by simp [gAlone], by simpa using ho, Nat.zero_le _⟩
  | cons t ts ih =>
    intro α d ps dp prog h F ho
    obtain ⟨m1, h1, e1, r1, o1, l1⟩ := ht t (by simp) α d ((ts.map fun t => (d, b, t.addr)) ++ ps) dp prog h (ts.map .ptr ++ F) (by simpa using ho)
    obtain ⟨m2, h2, e2, r2, o2, l2⟩ := ih (fun t h => ht t (by simp [h])) α d ps (max dp e1) prog h1 F o1
    refine ⟨m1 + m2, h2, max e1 e2, ?_, o2, Nat.max_le.2 ⟨l1, l2⟩⟩
    rw [gAlone_add]
    simp only [List.map_cons, List.cons_append, r1, r2, Nat.max_assoc]

theorem Flat.drops {b : Bool} {n : Nat} {t : ATree L} (hf : Flat lists b n t) : DropsOne lists A b n t := by
  induction hf with
  | @leaf n a l =>
    intro α d ps dp prog h F ho
    obtain ⟨c, e, -, -, -⟩ := ho.mem_ptr_closed (ho.val _ List.mem_cons_self)
    simp only [ATree.addr, ATree.label, ATree.kids, List.map_nil] at e
    by_cases h1 : c = 1
    · subst h1
      have ho1 := Own.release (σ := []) ho e (.inl ⟨rfl, rfl⟩)
      exact ⟨1, put h a .free, d, by simp [gAlone, GThread.step, ATree.addr, e, glue], by simpa [ATree.addr, ATree.kids] using ho1, by omega⟩
    · exact ⟨1, put h a (.closed (c - 1) l []), d, by simp [gAlone, GThread.step, ATree.addr, e, h1], ho.decr e h1, by omega⟩
  | @node n a l ts hl _ ih =>
    intro α d ps dp prog h F ho
    obtain ⟨c, e, -, -, -⟩ := ho.mem_ptr_closed (ho.val _ List.mem_cons_self)
    simp only [ATree.addr, ATree.label, ATree.kids] at e
    by_cases h1 : c = 1
    · subst h1
      have ho1 := Own.release (σ := []) ho e (.inl ⟨rfl, rfl⟩)
      simp only [ATree.kids, ATree.addr, List.nil_append] at ho1
      obtain ⟨m, h2, e2, r2, o2, l2⟩ := drops_all ts ih α (d + 1) ps (max dp d) prog _ F ho1
      refine ⟨1 + m, h2, max d e2, ?_, o2, by omega⟩
      rw [gAlone_add]
      have hg : glue lists (d + 1) l (ts.map ATree.addr) = ts.map fun t => (d + 1, false, t.addr) := by
        cases ts with
        | nil => rfl
        | cons t ts => simp [glue, hl]
      rw [ATree.addr]
      simp [gAlone, GThread.step, e, hg, r2, Nat.max_assoc]
    · exact ⟨1, _, d, by simp [gAlone, GThread.step, ATree.addr, e, h1], ho.decr e h1, by omega⟩
  | @list n a l c cs hl _ _ ihc ih =>
    intro α d ps dp prog h F ho
    obtain ⟨k, e, -, -, -⟩ := ho.mem_ptr_closed (ho.val _ List.mem_cons_self)
    simp only [ATree.addr, ATree.label, ATree.kids] at e
    by_cases h1 : k = 1
    · subst h1
      have ho1 := Own.release (σ := []) ho e (.inl ⟨rfl, rfl⟩)
      simp only [ATree.kids, ATree.addr, List.nil_append, List.map_cons, List.cons_append] at ho1
      obtain ⟨m1, h2, e2, r2, o2, l2⟩ := ihc α (d + 1) ((cs.map fun t => (d + 1, false, t.addr)) ++ ps) (max dp d) prog _ _ ho1
      obtain ⟨m2, h3, e3, r3, o3, l3⟩ := drops_all cs ih α (d + 1) ps (max (max dp d) e2) prog _ F o2
      refine ⟨1 + (m1 + m2), h3, max d (max e2 e3), ?_, o3, by omega⟩
      rw [gAlone_add]
      have : gAlone lists A 1 ⟨(d, false, a) :: ps, dp, prog⟩ h =
          .ok (⟨(d + 1, true, c.addr) :: ((cs.map fun t => (d + 1, false, t.addr)) ++ ps), max dp d, prog⟩, put h a .free) := by
        simp [gAlone, GThread.step, e, glue, hl, Function.comp_def]
      rw [ATree.addr, this]
      simp only
      rw [gAlone_add, r2]
      simp only
      rw [r3]
      simp [Nat.max_assoc]
    · exact ⟨1, _, d, by simp [gAlone, GThread.step, ATree.addr, e, h1], ho.decr e h1, by omega⟩
  | @link n a l v next _ _ ihv ih =>
    intro α d ps dp prog h F ho
    obtain ⟨k, e, -, -, -⟩ := ho.mem_ptr_closed (ho.val _ List.mem_cons_self)
    simp only [ATree.addr, ATree.label, ATree.kids] at e
    by_cases h1 : k = 1
    · subst h1
      have ho1 := Own.release (σ := []) ho e (.inl ⟨rfl, rfl⟩)
      simp only [ATree.kids, ATree.addr, List.nil_append, List.map_cons, List.cons_append] at ho1
      obtain ⟨m1, h2, e2, r2, o2, l2⟩ := ihv α (d + 1) ((next.map fun t => (d, true, t.addr)) ++ ps) (max dp d) prog _ _ ho1
      obtain ⟨m2, h3, e3, r3, o3, l3⟩ := drops_all next ih α d ps (max (max dp d) e2) prog _ F o2
      refine ⟨1 + (m1 + m2), h3, max d (max e2 e3), ?_, o3, by omega⟩
      rw [gAlone_add]
      have : gAlone lists A 1 ⟨(d, true, a) :: ps, dp, prog⟩ h =
          .ok (⟨(d + 1, false, v.addr) :: ((next.map fun t => (d, true, t.addr)) ++ ps), max dp d, prog⟩, put h a .free) := by
        simp [gAlone, GThread.step, e, loopBody, Function.comp_def]
      rw [ATree.addr, this]
      simp only
      rw [gAlone_add, r2]
      simp only
      rw [r3]
      simp [Nat.max_assoc]
    · exact ⟨2, _, d, by simp [gAlone, GThread.step, ATree.addr, e, h1], ho.decr e h1, by omega⟩

/-- Dropping a tree, when no other thread interferes. -/
theorem Flat.runs {n : Nat} {t : ATree L} (hf : Flat lists false n t) {h : Mem L} {F : List (Item L)} (ho : Own h (.ptr t :: F)) :
    ∃ h' d, GRuns lists A (Heap.drop t.addr) h () h' d ∧ Own h' F ∧ d ≤ n := by
  obtain ⟨m, h', e, r, o, l⟩ := hf.drops (A := A) Unit 0 [] 0 (.ret ()) h F ho
  refine ⟨h', e, ⟨1 + m, ?_⟩, o, by omega⟩
  rw [gAlone_add]
  simpa [gAlone, GThread.start, GThread.step, Heap.drop] using r

/-! ### Programs that run alone -/

/-- Run alone with the items `ρ`, the program ends with items and a result as `Q` says, and nests destructors within `D`. -/
def Does (lists : L → Bool) (A : Allocator L) (D : Option Nat) (Q : α → List (Item L) → Prop) (prog : Prog L α) (ρ : List (Item L)) : Prop :=
  ∀ (h : Mem L) (F : List (Item L)), Own h (ρ ++ F) →
    ∃ r h' d σ, GRuns lists A prog h r h' d ∧ Q r σ ∧ Own h' (σ ++ F) ∧ Within D d

variable {D : Option Nat} {ρ : List (Item L)}

theorem Does.ret {Q : α → List (Item L) → Prop} {r : α} (h : Q r ρ) : Does lists A D Q (.ret r) ρ :=
  fun m _ ho => ⟨r, m, 0, ρ, .ret r m, h, ho, fun d _ => Nat.zero_le d⟩

theorem Does.bind {Q : α → List (Item L) → Prop} {Q' : β → List (Item L) → Prop} {prog : Prog L α} {f : α → Prog L β}
    (h : Does lists A D Q prog ρ) (hf : ∀ r σ, Q r σ → Does lists A D Q' (f r) σ) : Does lists A D Q' (prog.bind f) ρ := by
  intro m F ho
  obtain ⟨r, m1, d1, σ1, e1, q1, o1, w1⟩ := h m F ho
  obtain ⟨r2, m2, d2, σ2, e2, q2, o2, w2⟩ := hf r σ1 q1 m1 F o1
  exact ⟨r2, m2, _, σ2, e1.bind e2, q2, o2, w1.max w2⟩

theorem Does.imp {Q Q' : α → List (Item L) → Prop} {prog : Prog L α} (h : Does lists A D Q prog ρ) (hq : ∀ r σ, Q r σ → Q' r σ) :
    Does lists A D Q' prog ρ := by
  intro m F ho
  obtain ⟨r, m1, d1, σ1, e1, q1, o1, w1⟩ := h m F ho
  exact ⟨r, m1, d1, σ1, e1, hq _ _ q1, o1, w1⟩

theorem Does.perm {Q : α → List (Item L) → Prop} {prog : Prog L α} {ρ' : List (Item L)} (h : Does lists A D Q prog ρ) (hp : ρ'.Perm ρ) :
    Does lists A D Q prog ρ' := fun m F ho => h m F (ho.perm (hp.append_right F))

theorem Does.frame {Q : α → List (Item L) → Prop} {prog : Prog L α} (h : Does lists A D Q prog ρ) (F : List (Item L)) :
    Does lists A D (fun r σ => ∃ τ, σ = τ ++ F ∧ Q r τ) prog (ρ ++ F) := by
  intro m G ho
  obtain ⟨r, m1, d1, σ1, e1, q1, o1, w1⟩ := h m (F ++ G) (by simpa using ho)
  exact ⟨r, m1, d1, σ1 ++ F, e1, ⟨σ1, rfl, q1⟩, by simpa using o1, w1⟩

theorem Does.bindFrame {Q : α → List (Item L) → Prop} {Q' : β → List (Item L) → Prop} {prog : Prog L α} {f : α → Prog L β} {F ρ' : List (Item L)}
    (h : Does lists A D Q prog ρ) (hp : ρ'.Perm (ρ ++ F)) (hf : ∀ r σ, Q r σ → Does lists A D Q' (f r) (σ ++ F)) :
    Does lists A D Q' (prog.bind f) ρ' := by
  refine ((h.frame F).bind ?_).perm hp
  rintro r _ ⟨τ, rfl, hq⟩
  exact hf r τ hq

theorem Safe.does {D' : Option Nat} {Q : α → List (Item L) → Prop} {prog : Prog L α} (h : Safe A D' Q prog ρ)
    (hD : ∀ d, Within D' d → Within D d) : Does lists A D Q prog ρ := by
  intro m F ho
  obtain ⟨r, m1, d1, σ, e, q, o, w⟩ := h.runs ho
  obtain ⟨d, e', l⟩ := e.glue (lists := lists)
  exact ⟨r, m1, d, σ, e', q, o, (hD _ w).mono l⟩

theorem Flat.does {n : Nat} {t : ATree L} (hf : Flat lists false n t) (hD : Within D n) :
    Does lists A D (fun _ σ => σ = []) (Heap.drop t.addr) [.ptr t] := by
  intro m F ho
  obtain ⟨m', d, e, o, l⟩ := hf.runs (A := A) ho
  exact ⟨(), m', d, [], e, rfl, by simpa using o, hD.mono l⟩

/-- A data structure all of whose operations nest destructors within `D` when they run alone. -/
structure Impl.GBounded {H Op Ret σ : Type} (impl : Impl L H Op Ret) (lists : L → Bool) (A : Allocator L) (D : Option Nat) (new : σ)
    (step : σ → Op → Res (Ret × Effect σ)) (R : H → σ → List (Item L) → Prop) : Prop where
  new : Does lists A D (fun h ρ => R h new ρ) impl.new []
  step : ∀ h s ρ op r e, R h s ρ → step s op = .ok (r, e) →
    Does lists A D (fun x τ => x.1 = r ∧ EffOwn R h s x.2 e τ) (impl.step h op) ρ
  drop : ∀ h s ρ, R h s ρ → Does lists A D (fun _ σ => σ = []) (impl.drop h) ρ

section
variable {H Op Ret σ : Type} {impl : Impl L H Op Ret} {new : σ} {step : σ → Op → Res (Ret × Effect σ)} {R : H → σ → List (Item L) → Prop}

/-- A client that runs alone. -/
theorem Impl.GBounded.client (hb : impl.GBounded lists A D new step R) (cmds : List (Cmd Op)) {rs : List (Option Ret)}
    {ss : List (Option σ)} (he : pureClient new step [] cmds = .ok (rs, ss)) :
    ∃ hs m d, GRuns lists A (Heap.client impl [] cmds) [] (rs, hs) m d ∧ Within D d := by
  obtain ⟨hs, m, d, ρ', e, -, -, w⟩ := client_runs (D := D) (R := R) (fun _ => GRuns lists A) (fun _ => GRuns.ret)
    (fun _ _ _ _ _ _ _ _ _ _ _ => GRuns.bind) (fun F m ho => hb.new m F (by simpa using ho))
    (fun h s ρ op r e F m hr he ho => hb.step h s ρ op r e hr he m F ho)
    (fun h s ρ F m hr ho => by
      obtain ⟨_, m', d, _, e, rfl, o, w⟩ := hb.drop h s ρ hr m F ho
      exact ⟨m', d, e, by simpa using o, w⟩)
    cmds (F := []) (ρ := []) .nil (m := []) Own.empty he
  exact ⟨hs, m, d, e, w⟩

theorem Impl.GBounded.trans {γ : Type} {S : σ → γ → Prop} {new' : γ} {spec : γ → Op → Res (Ret × Effect γ)}
    (hb : impl.GBounded lists A D new step R) (hnew : S new new')
    (hstep : ∀ s a op r f, S s a → spec a op = .ok (r, f) → ∃ e, step s op = .ok (r, e) ∧ Effect.Rel S e f) :
    impl.GBounded lists A D new' spec (fun h a ρ => ∃ s, R h s ρ ∧ S s a) where
  new := hb.new.imp fun h ρ hh => ⟨new, hh, hnew⟩
  step := by
    rintro h a ρ op r f ⟨s, h1, h2⟩ he
    obtain ⟨e, h3, h4⟩ := hstep s a op r f h2 he
    refine (hb.step h s ρ op r e h1 h3).imp ?_
    rintro ⟨r', e'⟩ τ ⟨rfl, h5⟩
    exact ⟨rfl, h5.imp h4 h2 fun h s a ρ h6 h7 => ⟨s, h6, h7⟩⟩
  drop := by
    rintro h a ρ ⟨s, h1, -⟩
    exact hb.drop h s ρ h1

theorem Impl.GBounded.adapt {Op' Ret' : Type} (hb : impl.GBounded lists A D new step R) (f : Op' → Op) (g : Ret → Ret') :
    (impl.adapt f g).GBounded lists A D new (fun s op => (do let x ← step s (f op); .ok (g x.1, x.2) : Res _)) R where
  new := hb.new
  step := by
    intro h s ρ op r e h1 he
    cases hs : step s (f op) with
    | error x => rw [hs] at he; cases he
    | ok x =>
      rw [hs] at he
      cases he
      refine Does.bind (hb.step h s ρ (f op) x.1 x.2 h1 hs) ?_
      rintro ⟨r', e'⟩ τ ⟨rfl, h2⟩
      exact Does.ret ⟨rfl, h2⟩
  drop := hb.drop

end
end
end Heap
end Rpds
