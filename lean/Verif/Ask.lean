import Verif.Iter
/-
Programs that call user code: each call is a question that anything may answer.  A program is the tree of its questions, so a statement
about all its paths is one about all user code, also code that keeps a state and contradicts itself.
-/
set_option autoImplicit false
namespace Rpds

/-- A program that asks questions `ι`, answered by values of `ans`, and returns a value or panics. -/
inductive Ask (ι : Type) (ans : ι → Type) (α : Type) : Type where
  | ret (r : Res α)
  | ask (i : ι) (k : ans i → Ask ι ans α)

namespace Ask
variable {ι : Type} {ans : ι → Type} {α β γ : Type}

def bind : Ask ι ans α → (α → Ask ι ans β) → Ask ι ans β
  | ret (.ok a), f => f a
  | ret (.error e), _ => ret (.error e)
  | ask i k, f => ask i fun x => (k x).bind f

instance : Monad (Ask ι ans) where
  pure a := ret (.ok a)
  bind := bind

/-- Something that calls no user code. -/
def lift (r : Res α) : Ask ι ans α := ret r

/-- Asking user code. -/
def query (i : ι) : Ask ι ans (ans i) := ask i pure

/-- The program with user code that answers each question in the same way every time. -/
def run (f : (i : ι) → ans i) : Ask ι ans α → Res α
  | ret r => r
  | ask i k => (k (f i)).run f

/-- The program with user code that keeps a state and may panic (`none`). -/
def runState {S : Type} (f : S → (i : ι) → Option (ans i) × S) : Ask ι ans α → S → Option (Res α) × S
  | ret r, s => (some r, s)
  | ask i k, s => match f s i with
    | (none, s) => (none, s)
    | (some x, s) => (k x).runState f s

/-- Whatever the answers are, the program does not panic, it asks at most `n` questions of the kind `p`, and its result together with the
number of questions left satisfies `Φ`. -/
def wp (p : ι → Bool) : Ask ι ans α → Nat → (α → Nat → Prop) → Prop
  | ret (.ok a), n, Φ => Φ a n
  | ret (.error _), _, _ => False
  | ask i k, n, Φ => if p i then ∃ m, n = m + 1 ∧ ∀ x, (k x).wp p m Φ else ∀ x, (k x).wp p n Φ

/-- Whatever the answers are, the program does not panic and asks at most `n` questions of the kind `p`. -/
def AtMost (p : ι → Bool) (n : Nat) (x : Ask ι ans α) : Prop := x.wp p n fun _ _ => True

theorem bind_eq (x : Ask ι ans α) (f : α → Ask ι ans β) : x >>= f = x.bind f := rfl
theorem pure_bind_ask (a : α) (f : α → Ask ι ans β) : (pure a >>= f : Ask ι ans β) = f a := rfl
theorem lift_ok_bind (a : α) (f : α → Ask ι ans β) : (lift (.ok a) >>= f : Ask ι ans β) = f a := rfl
theorem pure_eq (a : α) : (pure a : Ask ι ans α) = ret (.ok a) := rfl

theorem run_bind (f : (i : ι) → ans i) (x : Ask ι ans α) (g : α → Ask ι ans β) :
    (x >>= g).run f = (do let a ← x.run f; (g a).run f) := by
  rw [bind_eq]
  induction x with
  | ret r => cases r <;> rfl
  | ask i k ih => exact ih (f i)

theorem run_pure (f : (i : ι) → ans i) (a : α) : (pure a : Ask ι ans α).run f = .ok a := rfl
theorem run_lift (f : (i : ι) → ans i) (r : Res α) : (lift r : Ask ι ans α).run f = r := rfl
theorem run_query (f : (i : ι) → ans i) (i : ι) : (query i : Ask ι ans (ans i)).run f = .ok (f i) := rfl

theorem wp_bind {p : ι → Bool} {x : Ask ι ans α} {f : α → Ask ι ans β} {n : Nat} {Φ : β → Nat → Prop} :
    (x >>= f).wp p n Φ ↔ x.wp p n fun a m => (f a).wp p m Φ := by
  rw [bind_eq]
  induction x generalizing n with
  | ret r => cases r <;> exact Iff.rfl
  | ask i k ih =>
    simp only [bind, wp]
    split
    · exact ⟨fun ⟨m, h, h'⟩ => ⟨m, h, fun x => (ih x).1 (h' x)⟩, fun ⟨m, h, h'⟩ => ⟨m, h, fun x => (ih x).2 (h' x)⟩⟩
    · exact ⟨fun h x => (ih x).1 (h x), fun h x => (ih x).2 (h x)⟩

theorem wp_mono {p : ι → Bool} {x : Ask ι ans α} {n : Nat} {Φ Ψ : α → Nat → Prop} (h : x.wp p n Φ) (hi : ∀ a m, m ≤ n → Φ a m → Ψ a m) :
    x.wp p n Ψ := by
  induction x generalizing n with
  | ret r =>
    cases r with
    | ok a => exact hi a n (Nat.le_refl _) h
    | error e => exact h
  | ask i k ih =>
    simp only [wp] at h ⊢
    split
    · rw [if_pos (by assumption)] at h
      obtain ⟨m, rfl, h⟩ := h
      exact ⟨m, rfl, fun x => ih x (h x) fun a j hj => hi a j (by omega)⟩
    · rw [if_neg (by assumption)] at h
      exact fun x => ih x (h x) hi

/-- More questions do no harm. -/
theorem wp_add {p : ι → Bool} {x : Ask ι ans α} {n : Nat} {Φ : α → Nat → Prop} (h : x.wp p n Φ) (j : Nat) :
    x.wp p (n + j) fun a m => ∃ m', m = m' + j ∧ Φ a m' := by
  induction x generalizing n with
  | ret r =>
    cases r with
    | ok a => exact ⟨n, rfl, h⟩
    | error e => exact h
  | ask i k ih =>
    simp only [wp] at h ⊢
    split
    · rw [if_pos (by assumption)] at h
      obtain ⟨m, rfl, h⟩ := h
      exact ⟨m + j, by omega, fun x => ih x (h x)⟩
    · rw [if_neg (by assumption)] at h
      exact fun x => ih x (h x)

theorem wp_query {p : ι → Bool} {i : ι} {n : Nat} {Φ : ans i → Nat → Prop} (h : 1 ≤ n) (hi : ∀ x m, n ≤ m + 1 → m ≤ n → Φ x m) :
    (query i : Ask ι ans (ans i)).wp p n Φ := by
  simp only [query, wp]
  split
  · exact ⟨n - 1, by omega, fun x => hi x _ (by omega) (by omega)⟩
  · exact fun x => hi x n (by omega) (by omega)

theorem wp_query_free {p : ι → Bool} {i : ι} {n : Nat} {Φ : ans i → Nat → Prop} (hp : p i = false) (hi : ∀ x, Φ x n) :
    (query i : Ask ι ans (ans i)).wp p n Φ := by
  simp only [query, wp, hp]
  exact hi

theorem AtMost.mono {p : ι → Bool} {n m : Nat} {x : Ask ι ans α} (h : x.AtMost p n) (hm : n ≤ m) : x.AtMost p m := by
  obtain ⟨j, rfl⟩ := Nat.exists_eq_add_of_le hm
  exact wp_mono (wp_add h j) fun _ _ _ _ => trivial

/-- User code with a counter of the questions of the kind `p`. -/
def counted {S : Type} (p : ι → Bool) (f : S → (i : ι) → Option (ans i) × S) (s : S × Nat) (i : ι) : Option (ans i) × S × Nat :=
  ((f s.1 i).1, (f s.1 i).2, if p i then s.2 + 1 else s.2)

/-- What `AtMost` says about a run: no panic but the user's, and a counter that grows by at most `n`. -/
theorem AtMost.counted {p : ι → Bool} {n : Nat} {x : Ask ι ans α} (h : x.AtMost p n) {S : Type} (f : S → (i : ι) → Option (ans i) × S) (s : S)
    (c : Nat) : (∀ e, (x.runState (Ask.counted p f) (s, c)).1 ≠ some (.error e)) ∧ (x.runState (Ask.counted p f) (s, c)).2.2 ≤ c + n := by
  induction x generalizing n s c with
  | ret r =>
    cases r with
    | ok a => exact ⟨by simp [runState], by simp [runState]⟩
    | error e => exact absurd h (by simp [AtMost, wp])
  | ask i k ih =>
    simp only [AtMost, wp] at h
    have key : ∃ m d, (if p i then c + 1 else c) = c + d ∧ m + d ≤ n ∧ d ≤ n ∧ ∀ x, (k x).AtMost p m := by
      cases hp : p i
      · rw [if_neg (by simp [hp])] at h
        exact ⟨n, 0, by simp, by omega, by omega, h⟩
      · rw [if_pos hp] at h
        obtain ⟨m, rfl, h⟩ := h
        exact ⟨m, 1, by simp, by omega, by omega, h⟩
    obtain ⟨m, d, hd, hm, hn, hk⟩ := key
    simp only [runState, Ask.counted, hd]
    rcases f s i with ⟨_ | y, s'⟩
    · exact ⟨by simp, by simp; omega⟩
    · obtain ⟨h1, h2⟩ := ih y (hk y) s' (c + d)
      exact ⟨h1, Nat.le_trans h2 (by omega)⟩

end Ask

/-- `iterAll` (see `Iter.lean`) with user code. -/
def iterAllA {ι : Type} {ans : ι → Type} {σ α : Type} (next : σ → Ask ι ans (Option α × σ)) (q : α → Ask ι ans Bool) : Nat → σ → Ask ι ans Bool
  | 0, _ => .ret (.error .diverge)
  | fuel + 1, s => do
    let (x, s') ← next s
    match x with
    | none => pure true
    | some a => do
      let b ← q a
      if b then iterAllA next q fuel s' else pure false

/-- `iterCmp` with user code. -/
def iterCmpA {ι : Type} {ans : ι → Type} {σ α : Type} (next : σ → Ask ι ans (Option α × σ)) (cmp : α → α → Ask ι ans Ordering) :
    Nat → σ → σ → Ask ι ans Ordering
  | 0, _, _ => .ret (.error .diverge)
  | fuel + 1, s, t => do
    let (x, s') ← next s
    match x with
    | none => do
      let (y, _) ← next t
      pure (if y.isNone then .eq else .lt)
    | some a => do
      let (y, t') ← next t
      match y with
      | none => pure .gt
      | some b => do
        let c ← cmp a b
        match c with
        | .eq => iterCmpA next cmp fuel s' t'
        | o => pure o

/-- `iterPartialCmp` with user code. -/
def iterPartialCmpA {ι : Type} {ans : ι → Type} {σ α : Type} (next : σ → Ask ι ans (Option α × σ))
    (cmp : α → α → Ask ι ans (Option Ordering)) : Nat → σ → σ → Ask ι ans (Option Ordering)
  | 0, _, _ => .ret (.error .diverge)
  | fuel + 1, s, t => do
    let (x, s') ← next s
    match x with
    | none => do
      let (y, _) ← next t
      pure (some (if y.isNone then .eq else .lt))
    | some a => do
      let (y, t') ← next t
      match y with
      | none => pure (some .gt)
      | some b => do
        let c ← cmp a b
        match c with
        | some .eq => iterPartialCmpA next cmp fuel s' t'
        | o => pure o

/-- Calls from both ends (`deAnswers`) with user code. -/
def deAnswersA {ι : Type} {ans : ι → Type} {σ α : Type} (next nextBack : σ → Ask ι ans (Option α × σ)) :
    List Spec.End → σ → Ask ι ans (List (Option α) × σ)
  | [], s => pure ([], s)
  | .front :: cs, s => do
    let (x, s') ← next s
    let (rest, s'') ← deAnswersA next nextBack cs s'
    pure (x :: rest, s'')
  | .back :: cs, s => do
    let (x, s') ← nextBack s
    let (rest, s'') ← deAnswersA next nextBack cs s'
    pure (x :: rest, s'')

namespace Ask
variable {ι : Type} {ans : ι → Type} {σ α β : Type}

theorem run_iterAllA (f : (i : ι) → ans i) {nextA : σ → Ask ι ans (Option α × σ)} {next : σ → Res (Option α × σ)} {qA : α → Ask ι ans Bool}
    {q : α → Res Bool} (hn : ∀ s, (nextA s).run f = next s) (hq : ∀ a, (qA a).run f = q a) (fuel : Nat) (s : σ) :
    (iterAllA nextA qA fuel s).run f = iterAll next q fuel s := by
  induction fuel generalizing s with
  | zero => rfl
  | succ n ih =>
    simp only [iterAllA, iterAll, run_bind, hn]
    congr 1; funext r
    obtain ⟨x, s'⟩ := r
    cases x with
    | none => rfl
    | some a =>
      simp only [run_bind, hq]
      congr 1; funext b
      cases b with
      | false => rfl
      | true => exact ih s'

theorem run_iterCmpA (f : (i : ι) → ans i) {nextA : σ → Ask ι ans (Option α × σ)} {next : σ → Res (Option α × σ)}
    {cmpA : α → α → Ask ι ans Ordering} {cmp : α → α → Ordering} (hn : ∀ s, (nextA s).run f = next s)
    (hq : ∀ a b, (cmpA a b).run f = .ok (cmp a b)) (fuel : Nat) (s t : σ) :
    (iterCmpA nextA cmpA fuel s t).run f = iterCmp next next cmp fuel s t := by
  induction fuel generalizing s t with
  | zero => rfl
  | succ n ih =>
    simp only [iterCmpA, iterCmp, run_bind, hn]
    congr 1; funext r
    obtain ⟨x, s'⟩ := r
    cases x with
    | none => simp only [run_bind, hn]; rfl
    | some a =>
      simp only [run_bind, hn]
      congr 1; funext r
      obtain ⟨y, t'⟩ := r
      cases y with
      | none => rfl
      | some b =>
        simp only [run_bind, hq, Res.ok_bind]
        cases cmp a b with
        | eq => exact ih s' t'
        | lt => rfl
        | gt => rfl

theorem run_deAnswersA (f : (i : ι) → ans i) {nextA nextBackA : σ → Ask ι ans (Option α × σ)} {next nextBack : σ → Res (Option α × σ)}
    (hn : ∀ s, (nextA s).run f = next s) (hb : ∀ s, (nextBackA s).run f = nextBack s) (cs : List Spec.End) (s : σ) :
    (deAnswersA nextA nextBackA cs s).run f = deAnswers next nextBack cs s := by
  induction cs generalizing s with
  | nil => rfl
  | cons c cs ih =>
    cases c <;> simp only [deAnswersA, deAnswers, run_bind, hn, hb, ih] <;> rfl

/-- Whatever the answers are, the program does not panic and asks at most `c` questions of the kind `p`: a form for sequencing. -/
def Costs (p : ι → Bool) (x : Ask ι ans α) (c : Nat) : Prop :=
  ∀ (n : Nat) (Φ : α → Nat → Prop), c ≤ n → (∀ a m, n ≤ m + c → Φ a m) → x.wp p n Φ

theorem Costs.atMost {p : ι → Bool} {x : Ask ι ans α} {c : Nat} (h : Costs p x c) : x.AtMost p c := h _ _ (Nat.le_refl _) fun _ _ _ => trivial

theorem costs_pure {p : ι → Bool} (a : α) (c : Nat) : Costs p (pure a : Ask ι ans α) c := fun _ _ _ h => h _ _ (by omega)

theorem costs_query {p : ι → Bool} (i : ι) : Costs p (query i : Ask ι ans (ans i)) 1 := fun _ _ hn h => wp_query hn fun x m h1 _ => h x m h1

theorem costs_query_free {p : ι → Bool} {i : ι} (hp : p i = false) : Costs p (query i : Ask ι ans (ans i)) 0 :=
  fun _ _ _ h => wp_query_free hp fun x => h x _ (by omega)

theorem Costs.bind {p : ι → Bool} {x : Ask ι ans α} {f : α → Ask ι ans β} {c d : Nat} (hx : Costs p x c) (hf : ∀ a, Costs p (f a) d) :
    Costs p (x >>= f) (c + d) :=
  fun _ _ hn h => wp_bind.2 (hx _ _ (by omega) fun a m hm => hf a _ _ (by omega) fun b k hk => h b k (by omega))

theorem Costs.mono {p : ι → Bool} {x : Ask ι ans α} {c d : Nat} (hx : Costs p x c) (h : c ≤ d) : Costs p x d :=
  fun _ _ hn h => hx _ _ (by omega) fun a m hm => h a m (by omega)

/-- A program that asks nothing is its result. -/
theorem wp_zero {x : Ask ι ans α} {Φ : α → Nat → Prop} (h : x.wp (fun _ => true) 0 Φ) : ∃ a, x = pure a ∧ Φ a 0 := by
  cases x with
  | ret r =>
    cases r with
    | ok a => exact ⟨a, rfl, h⟩
    | error e => exact h.elim
  | ask i k =>
    simp only [wp, if_true] at h
    obtain ⟨m, hm, -⟩ := h
    omega

/-- An iterator that asks nothing and yields `l`. -/
inductive Quiet (next : σ → Ask ι ans (Option α × σ)) : σ → List α → Prop where
  | nil {s s'} : next s = pure (none, s') → Quiet next s []
  | cons {s s' a l} : next s = pure (some a, s') → Quiet next s' l → Quiet next s (a :: l)

theorem Quiet.next {next : σ → Ask ι ans (Option α × σ)} {s : σ} {l : List α} (h : Quiet next s l) :
    (l = [] ∧ ∃ s', next s = pure (none, s')) ∨ (∃ a l' s', l = a :: l' ∧ next s = pure (some a, s') ∧ Quiet next s' l') := by
  cases h with
  | nil h => exact .inl ⟨rfl, _, h⟩
  | cons h h' => exact .inr ⟨_, _, _, rfl, h, h'⟩

theorem quiet_lift {next : σ → Res (Option α × σ)} {s : σ} {l : List α} (h : Drives next s l) :
    Quiet (fun s => (lift (next s) : Ask ι ans (Option α × σ))) s l := by
  induction h with
  | nil h => exact .nil (by rw [h]; rfl)
  | cons h _ ih => exact .cons (by rw [h]; rfl) ih

/-- `all` asks what the closure asks. -/
theorem iterAllA_costs {p : ι → Bool} {next : σ → Ask ι ans (Option α × σ)} {q : α → Ask ι ans Bool} {c : Nat} (hq : ∀ a, Costs p (q a) c)
    {fuel : Nat} {s : σ} {l : List α} (h : Quiet next s l) (hl : l.length < fuel) : Costs p (iterAllA next q fuel s) (l.length * c) := by
  induction fuel generalizing s l with
  | zero => omega
  | succ n ih =>
    unfold iterAllA
    rcases h.next with ⟨rfl, s', hn⟩ | ⟨a, l', s', rfl, hn, h'⟩
    · rw [hn]
      exact costs_pure (p := p) true _
    · rw [hn]
      simp only [List.length_cons] at hl
      refine ((hq a).bind (d := l'.length * c) fun b => ?_).mono (by simp [Nat.add_mul]; omega)
      cases b with
      | false => exact costs_pure (p := p) false _
      | true => exact ih h' (by omega)

/-- Comparing two iterators asks as much as comparing the pairs. -/
theorem iterCmpA_costs {p : ι → Bool} {next : σ → Ask ι ans (Option α × σ)} {cmp : α → α → Ask ι ans Ordering} {c : Nat}
    (hq : ∀ a b, Costs p (cmp a b) c) {fuel : Nat} {s t : σ} {l l' : List α} (h : Quiet next s l) (h' : Quiet next t l')
    (hl : l.length < fuel) : Costs p (iterCmpA next cmp fuel s t) (min l.length l'.length * c) := by
  induction fuel generalizing s t l l' with
  | zero => omega
  | succ n ih =>
    unfold iterCmpA
    rcases h.next with ⟨rfl, i', hn⟩ | ⟨a, k, i', rfl, hn, hk⟩
    · rw [hn]
      rcases h'.next with ⟨rfl, j', hn'⟩ | ⟨b, k', j', rfl, hn', hk'⟩
      · simp only [pure_bind_ask, hn']
        exact costs_pure (p := p) _ _
      · simp only [pure_bind_ask, hn']
        exact costs_pure (p := p) _ _
    · rw [hn]
      simp only [List.length_cons] at hl
      rcases h'.next with ⟨rfl, j', hn'⟩ | ⟨b, k', j', rfl, hn', hk'⟩
      · simp only [pure_bind_ask, hn']
        exact costs_pure (p := p) _ _
      · simp only [pure_bind_ask, hn']
        refine ((hq a b).bind (d := min k.length k'.length * c) fun r => ?_).mono ?_
        · cases r with
          | eq => exact ih hk hk' (by omega)
          | lt => exact costs_pure (p := p) _ _
          | gt => exact costs_pure (p := p) _ _
        · simp only [List.length_cons, Nat.add_min_add_right, Nat.add_mul]; omega

theorem iterPartialCmpA_costs {p : ι → Bool} {next : σ → Ask ι ans (Option α × σ)} {cmp : α → α → Ask ι ans (Option Ordering)} {c : Nat}
    (hq : ∀ a b, Costs p (cmp a b) c) {fuel : Nat} {s t : σ} {l l' : List α} (h : Quiet next s l) (h' : Quiet next t l')
    (hl : l.length < fuel) : Costs p (iterPartialCmpA next cmp fuel s t) (min l.length l'.length * c) := by
  induction fuel generalizing s t l l' with
  | zero => omega
  | succ n ih =>
    unfold iterPartialCmpA
    rcases h.next with ⟨rfl, i', hn⟩ | ⟨a, k, i', rfl, hn, hk⟩
    · rw [hn]
      rcases h'.next with ⟨rfl, j', hn'⟩ | ⟨b, k', j', rfl, hn', hk'⟩
      · simp only [pure_bind_ask, hn']
        exact costs_pure (p := p) _ _
      · simp only [pure_bind_ask, hn']
        exact costs_pure (p := p) _ _
    · rw [hn]
      simp only [List.length_cons] at hl
      rcases h'.next with ⟨rfl, j', hn'⟩ | ⟨b, k', j', rfl, hn', hk'⟩
      · simp only [pure_bind_ask, hn']
        exact costs_pure (p := p) _ _
      · simp only [pure_bind_ask, hn']
        refine ((hq a b).bind (d := min k.length k'.length * c) fun r => ?_).mono ?_
        · rcases r with _ | (_ | _ | _)
          · exact costs_pure (p := p) _ _
          · exact costs_pure (p := p) _ _
          · exact ih hk hk' (by omega)
          · exact costs_pure (p := p) _ _
        · simp only [List.length_cons, Nat.add_min_add_right, Nat.add_mul]; omega

/-- With answers that keep no state, the items are compared as lists. -/
theorem run_iterPartialCmpA (f : (i : ι) → ans i) {next : σ → Ask ι ans (Option α × σ)} {cmpA : α → α → Ask ι ans (Option Ordering)}
    {cmp : α → α → Option Ordering} (hq : ∀ a b, (cmpA a b).run f = .ok (cmp a b)) {fuel : Nat} {s t : σ} {l l' : List α}
    (h : Quiet next s l) (h' : Quiet next t l') (hl : l.length < fuel) :
    (iterPartialCmpA next cmpA fuel s t).run f = .ok (Spec.lexPartialCmp cmp l l') := by
  induction fuel generalizing s t l l' with
  | zero => omega
  | succ n ih =>
    unfold iterPartialCmpA
    rcases h.next with ⟨rfl, i', hn⟩ | ⟨a, k, i', rfl, hn, hk⟩
    · rw [hn]
      rcases h'.next with ⟨rfl, j', hn'⟩ | ⟨b, k', j', rfl, hn', hk'⟩ <;>
      · simp only [pure_bind_ask, hn']
        rfl
    · rw [hn]
      simp only [List.length_cons] at hl
      rcases h'.next with ⟨rfl, j', hn'⟩ | ⟨b, k', j', rfl, hn', hk'⟩
      · simp only [pure_bind_ask, hn']
        rfl
      · simp only [pure_bind_ask, hn', run_bind, hq, Res.ok_bind, Spec.lexPartialCmp]
        rcases cmp a b with _ | (_ | _ | _)
        · rfl
        · rfl
        · exact ih hk hk' (by omega)
        · rfl

end Ask
end Rpds
