import Verif.Spec.Sequence
/-
The std iterator consumers used by rpds (`Iterator::eq`, `cmp`, `partial_cmp`, `all`), the hasher and the formatter
loops, for an arbitrary iterator given by its `next` function.

`fuel` bounds the number of `next` calls; the callers pass (number of remaining items + 1).
-/
set_option autoImplicit false
namespace Rpds

/-- `self.eq(other)`, std `core::iter::Iterator::eq`: advance both, stop at the first difference. -/
def iterEq {σ τ α β : Type} (next₁ : σ → Res (Option α × σ)) (next₂ : τ → Res (Option β × τ)) (eq : α → β → Bool) :
    Nat → σ → τ → Res Bool
  | 0, _, _ => .error .diverge
  | fuel + 1, s, t => do
    let (x, s') ← next₁ s
    match x with
    | none => do
      let (y, _) ← next₂ t
      pure y.isNone
    | some a => do
      let (y, t') ← next₂ t
      match y with
      | none => pure false
      | some b => if eq a b then iterEq next₁ next₂ eq fuel s' t' else pure false

/-- `self.cmp(other)`, std `core::iter::Iterator::cmp`. -/
def iterCmp {σ τ α β : Type} (next₁ : σ → Res (Option α × σ)) (next₂ : τ → Res (Option β × τ)) (cmp : α → β → Ordering) :
    Nat → σ → τ → Res Ordering
  | 0, _, _ => .error .diverge
  | fuel + 1, s, t => do
    let (x, s') ← next₁ s
    match x with
    | none => do
      let (y, _) ← next₂ t
      pure (if y.isNone then .eq else .lt)
    | some a => do
      let (y, t') ← next₂ t
      match y with
      | none => pure .gt
      | some b => match cmp a b with
        | .eq => iterCmp next₁ next₂ cmp fuel s' t'
        | o => pure o

/-- `self.partial_cmp(other)`, std `core::iter::Iterator::partial_cmp`. -/
def iterPartialCmp {σ τ α β : Type} (next₁ : σ → Res (Option α × σ)) (next₂ : τ → Res (Option β × τ))
    (cmp : α → β → Option Ordering) : Nat → σ → τ → Res (Option Ordering)
  | 0, _, _ => .error .diverge
  | fuel + 1, s, t => do
    let (x, s') ← next₁ s
    match x with
    | none => do
      let (y, _) ← next₂ t
      pure (some (if y.isNone then .eq else .lt))
    | some a => do
      let (y, t') ← next₂ t
      match y with
      | none => pure (some .gt)
      | some b => match cmp a b with
        | some .eq => iterPartialCmp next₁ next₂ cmp fuel s' t'
        | o => pure o

/-- `self.all(p)`, std `core::iter::Iterator::all`; the predicate itself may panic. -/
def iterAll {σ α : Type} (next : σ → Res (Option α × σ)) (p : α → Res Bool) : Nat → σ → Res Bool
  | 0, _ => .error .diverge
  | fuel + 1, s => do
    let (x, s') ← next s
    match x with
    | none => pure true
    | some a => do
      let b ← p a
      if b then iterAll next p fuel s' else pure false

/-- `for e in self { e.hash(state) }` for a hasher state `S`. -/
def iterHash {σ α S : Type} (next : σ → Res (Option α × σ)) (hashElem : S → α → S) : Nat → σ → S → Res S
  | 0, _, _ => .error .diverge
  | fuel + 1, s, h => do
    let (x, s') ← next s
    match x with
    | none => pure h
    | some a => iterHash next hashElem fuel s' (hashElem h a)

/-- The loop shared by all `Display` implementations:
`for v in self { if !first { ", " } v.fmt(); first = false }`.  Writing to the formatter is appending to a `String`;
formatters that fail are in `Sink.lean`. -/
def iterDisplay {σ α : Type} (next : σ → Res (Option α × σ)) (fmt : α → String) :
    Nat → σ → Bool → String → Res String
  | 0, _, _, _ => .error .diverge
  | fuel + 1, s, first, out => do
    let (x, s') ← next s
    match x with
    | none => pure out
    | some a =>
      let out := if !first then out ++ ", " else out
      let out := out ++ fmt a
      iterDisplay next fmt fuel s' false out

/-- `for x in it { acc = f(acc, x) }`, where the body may panic. -/
def iterFold {σ α A : Type} (next : σ → Res (Option α × σ)) (f : A → α → Res A) : Nat → σ → A → Res A
  | 0, _, _ => .error .diverge
  | fuel + 1, s, acc => do
    let (x, s') ← next s
    match x with
    | none => pure acc
    | some a => do
      let acc ← f acc a
      iterFold next f fuel s' acc

/-- `n` calls of `next`, each answer with the `size_hint` (lower = upper bound) reported after the call. -/
def fwCalls {σ α : Type} (next : σ → Res (Option α × σ)) (hint : σ → Nat) : Nat → σ → Res (List (Option α × Nat))
  | 0, _ => .ok []
  | n + 1, s => do
    let (x, s') ← next s
    let rest ← fwCalls next hint n s'
    pure ((x, hint s') :: rest)

/-- Calls from both ends in the order given, each answer with the `size_hint` reported after the call. -/
def deCalls {σ α : Type} (next nextBack : σ → Res (Option α × σ)) (hint : σ → Res Nat) :
    List Spec.End → σ → Res (List (Option α × Nat))
  | [], _ => .ok []
  | .front :: cs, s => do
    let (x, s') ← next s
    let n ← hint s'
    let rest ← deCalls next nextBack hint cs s'
    pure ((x, n) :: rest)
  | .back :: cs, s => do
    let (x, s') ← nextBack s
    let n ← hint s'
    let rest ← deCalls next nextBack hint cs s'
    pure ((x, n) :: rest)

/-- Calls from both ends in the order given, without looking at `size_hint`. -/
def deAnswers {σ α : Type} (next nextBack : σ → Res (Option α × σ)) : List Spec.End → σ → Res (List (Option α) × σ)
  | [], s => .ok ([], s)
  | .front :: cs, s => do
    let (x, s') ← next s
    let (rest, s'') ← deAnswers next nextBack cs s'
    pure (x :: rest, s'')
  | .back :: cs, s => do
    let (x, s') ← nextBack s
    let (rest, s'') ← deAnswers next nextBack cs s'
    pure (x :: rest, s'')

/-- `drive next s l`: calling `next` from `s` produces the items `l` in order and then `None`. -/
inductive Drives {σ α : Type} (next : σ → Res (Option α × σ)) : σ → List α → Prop where
  | nil {s s'} : next s = .ok (none, s') → Drives next s []
  | cons {s s' a l} : next s = .ok (some a, s') → Drives next s' l → Drives next s (a :: l)

variable {σ τ α β S : Type} {next : σ → Res (Option α × σ)} {next₂ : τ → Res (Option β × τ)}

theorem Drives.drain {s : σ} {l : List α} (h : Drives next s l) {fuel : Nat} (hf : l.length < fuel) :
    drain next fuel s = .ok l := by
  induction h generalizing fuel with
  | nil h =>
    obtain ⟨n, rfl⟩ : ∃ n, fuel = n + 1 := ⟨fuel - 1, by simp at hf; omega⟩
    simp [Rpds.drain, h]
  | cons h _ ih =>
    obtain ⟨n, rfl⟩ : ∃ n, fuel = n + 1 := ⟨fuel - 1, by omega⟩
    simp only [List.length_cons] at hf
    simp [Rpds.drain, h, ih (fuel := n) (by omega)]

theorem Drives.iterEq {s : σ} {t : τ} {l : List α} {m : List β} {eq : α → β → Bool} (h : Drives next s l)
    (h₂ : Drives next₂ t m) {fuel : Nat} (hf : l.length < fuel) :
    iterEq next next₂ eq fuel s t = .ok (Spec.seqEq eq l m) := by
  induction h generalizing fuel t m with
  | nil h =>
    obtain ⟨n, rfl⟩ : ∃ n, fuel = n + 1 := ⟨fuel - 1, by simp at hf; omega⟩
    cases h₂ with
    | nil h₂ => simp [Rpds.iterEq, h, h₂, Spec.seqEq]
    | cons h₂ _ => simp [Rpds.iterEq, h, h₂, Spec.seqEq]
  | cons h _ ih =>
    obtain ⟨n, rfl⟩ : ∃ n, fuel = n + 1 := ⟨fuel - 1, by omega⟩
    simp only [List.length_cons] at hf
    cases h₂ with
    | nil h₂ => simp [Rpds.iterEq, h, h₂, Spec.seqEq]
    | @cons _ _ b _ h₂ h₂' =>
      simp only [Rpds.iterEq, h, h₂, Spec.seqEq, Res.ok_bind]
      split
      · simp [ih h₂' (fuel := n) (by omega), *]
      · simp [*]

theorem Drives.iterCmp {s : σ} {t : τ} {l : List α} {m : List β} {cmp : α → β → Ordering} (h : Drives next s l)
    (h₂ : Drives next₂ t m) {fuel : Nat} (hf : l.length < fuel) :
    iterCmp next next₂ cmp fuel s t = .ok (Spec.lexCmp cmp l m) := by
  induction h generalizing fuel t m with
  | nil h =>
    obtain ⟨n, rfl⟩ : ∃ n, fuel = n + 1 := ⟨fuel - 1, by simp at hf; omega⟩
    cases h₂ with
    | nil h₂ => simp [Rpds.iterCmp, h, h₂, Spec.lexCmp]
    | cons h₂ _ => simp [Rpds.iterCmp, h, h₂, Spec.lexCmp]
  | @cons _ _ a _ h _ ih =>
    obtain ⟨n, rfl⟩ : ∃ n, fuel = n + 1 := ⟨fuel - 1, by omega⟩
    simp only [List.length_cons] at hf
    cases h₂ with
    | nil h₂ => simp [Rpds.iterCmp, h, h₂, Spec.lexCmp]
    | @cons _ _ b _ h₂ h₂' =>
      simp only [Rpds.iterCmp, h, h₂, Spec.lexCmp, Res.ok_bind]
      cases cmp a b <;> simp [ih h₂' (fuel := n) (by omega)]

theorem Drives.iterAll {s : σ} {l : List α} {p : α → Res Bool} {q : α → Bool} (h : Drives next s l)
    (hp : ∀ a ∈ l, p a = .ok (q a)) {fuel : Nat} (hf : l.length < fuel) :
    iterAll next p fuel s = .ok (l.all q) := by
  induction h generalizing fuel with
  | nil h =>
    obtain ⟨n, rfl⟩ : ∃ n, fuel = n + 1 := ⟨fuel - 1, by simp at hf; omega⟩
    simp [Rpds.iterAll, h]
  | @cons _ _ a _ h _ ih =>
    obtain ⟨n, rfl⟩ : ∃ n, fuel = n + 1 := ⟨fuel - 1, by omega⟩
    simp only [List.length_cons] at hf
    have h1 := hp a (by simp)
    simp only [Rpds.iterAll, h, Res.ok_bind, h1, List.all_cons]
    cases q a
    · simp
    · simpa using ih (fun b hb => hp b (by simp [hb])) (fuel := n) (by omega)

theorem Drives.iterHash {s : σ} {l : List α} {hashElem : S → α → S} (h : Drives next s l) (st : S)
    {fuel : Nat} (hf : l.length < fuel) :
    iterHash next hashElem fuel s st = .ok (l.foldl hashElem st) := by
  induction h generalizing fuel st with
  | nil h =>
    obtain ⟨n, rfl⟩ : ∃ n, fuel = n + 1 := ⟨fuel - 1, by simp at hf; omega⟩
    simp [Rpds.iterHash, h]
  | cons h _ ih =>
    obtain ⟨n, rfl⟩ : ∃ n, fuel = n + 1 := ⟨fuel - 1, by omega⟩
    simp only [List.length_cons] at hf
    simp [Rpds.iterHash, h, ih _ (fuel := n) (by omega)]

theorem joinWith_cons (sep a : String) (l : List String) :
    Spec.joinWith sep (a :: l) = a ++ String.join (l.map (sep ++ ·)) := by
  induction l generalizing a with
  | nil => simp [Spec.joinWith]
  | cons b l ih => simp [Spec.joinWith, ih, String.append_assoc]

theorem iterDisplay_later {s : σ} {l : List α} {fmt : α → String} (h : Drives next s l) (out : String)
    {fuel : Nat} (hf : l.length < fuel) :
    iterDisplay next fmt fuel s false out = .ok (out ++ String.join ((l.map fmt).map (", " ++ ·))) := by
  induction h generalizing fuel out with
  | nil h =>
    obtain ⟨n, rfl⟩ : ∃ n, fuel = n + 1 := ⟨fuel - 1, by simp at hf; omega⟩
    simp [Rpds.iterDisplay, h]
  | cons h _ ih =>
    obtain ⟨n, rfl⟩ : ∃ n, fuel = n + 1 := ⟨fuel - 1, by omega⟩
    simp only [List.length_cons] at hf
    simp [Rpds.iterDisplay, h, ih _ (fuel := n) (by omega), String.append_assoc]

theorem Drives.iterDisplay {s : σ} {l : List α} {fmt : α → String} (h : Drives next s l) (out : String)
    {fuel : Nat} (hf : l.length < fuel) :
    iterDisplay next fmt fuel s true out = .ok (out ++ Spec.joinWith ", " (l.map fmt)) := by
  cases h with
  | nil h =>
    obtain ⟨n, rfl⟩ : ∃ n, fuel = n + 1 := ⟨fuel - 1, by simp at hf; omega⟩
    simp [Rpds.iterDisplay, h, Spec.joinWith]
  | cons h h' =>
    obtain ⟨n, rfl⟩ : ∃ n, fuel = n + 1 := ⟨fuel - 1, by omega⟩
    simp only [List.length_cons] at hf
    simp [Rpds.iterDisplay, h, iterDisplay_later h' _ (fuel := n) (by omega), joinWith_cons,
      String.append_assoc]

theorem Drives.iterPartialCmp {s : σ} {t : τ} {l : List α} {m : List β} {cmp : α → β → Option Ordering}
    (h : Drives next s l) (h₂ : Drives next₂ t m) {fuel : Nat} (hf : l.length < fuel) :
    iterPartialCmp next next₂ cmp fuel s t = .ok (Spec.lexPartialCmp cmp l m) := by
  induction h generalizing fuel t m with
  | nil h =>
    obtain ⟨n, rfl⟩ : ∃ n, fuel = n + 1 := ⟨fuel - 1, by simp at hf; omega⟩
    cases h₂ with
    | nil h₂ => simp [Rpds.iterPartialCmp, h, h₂, Spec.lexPartialCmp]
    | cons h₂ _ => simp [Rpds.iterPartialCmp, h, h₂, Spec.lexPartialCmp]
  | @cons _ _ a _ h _ ih =>
    obtain ⟨n, rfl⟩ : ∃ n, fuel = n + 1 := ⟨fuel - 1, by omega⟩
    simp only [List.length_cons] at hf
    cases h₂ with
    | nil h₂ => simp [Rpds.iterPartialCmp, h, h₂, Spec.lexPartialCmp]
    | @cons _ _ b _ h₂ h₂' =>
      simp only [Rpds.iterPartialCmp, h, h₂, Spec.lexPartialCmp, Res.ok_bind]
      cases cmp a b with
      | none => simp
      | some o => cases o <;> simp [ih h₂' (fuel := n) (by omega)]

theorem Drives.iterFold {A : Type} {s : σ} {l : List α} {f : A → α → Res A} {g : A → α → A} (h : Drives next s l) (I : A → Prop)
    (hI : ∀ a x, I a → I (g a x)) (hf : ∀ a x, I a → f a x = .ok (g a x)) (a : A) (ha : I a)
    {fuel : Nat} (hfu : l.length < fuel) :
    iterFold next f fuel s a = .ok (l.foldl g a) := by
  induction h generalizing fuel a with
  | nil h =>
    obtain ⟨n, rfl⟩ : ∃ n, fuel = n + 1 := ⟨fuel - 1, by simp at hfu; omega⟩
    simp [Rpds.iterFold, h]
  | cons h _ ih =>
    obtain ⟨n, rfl⟩ : ∃ n, fuel = n + 1 := ⟨fuel - 1, by omega⟩
    simp only [List.length_cons] at hfu
    simp [Rpds.iterFold, h, hf _ _ ha, ih _ (hI _ _ ha) (fuel := n) (by omega)]

/-- An iterator state relation `R s l` ("the remaining items are `l`, exactly") kept by `next` gives the answers of
`Spec.fwRun`. -/
theorem fwCalls_eq {R : σ → List α → Prop} {hint : σ → Nat}
    (hnil : ∀ s, R s [] → ∃ s', next s = .ok (none, s') ∧ R s' [])
    (hcons : ∀ s a l, R s (a :: l) → ∃ s', next s = .ok (some a, s') ∧ R s' l)
    (hhint : ∀ s l, R s l → hint s = l.length) (n : Nat) (s : σ) (l : List α) (h : R s l) :
    fwCalls next hint n s = .ok (Spec.fwRun l n) := by
  induction n generalizing s l with
  | zero => rfl
  | succ n ih =>
    cases l with
    | nil =>
      obtain ⟨s', h1, h2⟩ := hnil s h
      simp [fwCalls, Spec.fwRun, h1, ih _ _ h2, hhint _ _ h2]
    | cons a l =>
      obtain ⟨s', h1, h2⟩ := hcons s a l h
      simp [fwCalls, Spec.fwRun, h1, ih _ _ h2, hhint _ _ h2]

theorem drives_of_rel {R : σ → List α → Prop}
    (hnil : ∀ s, R s [] → ∃ s', next s = .ok (none, s') ∧ R s' [])
    (hcons : ∀ s a l, R s (a :: l) → ∃ s', next s = .ok (some a, s') ∧ R s' l) (s : σ) (l : List α) (h : R s l) :
    Drives next s l := by
  induction l generalizing s with
  | nil => obtain ⟨s', h1, _⟩ := hnil s h; exact .nil h1
  | cons a l ih => obtain ⟨s', h1, h2⟩ := hcons s a l h; exact .cons h1 (ih s' h2)

/-- The same for double-ended iterators and `Spec.deRun`. -/
theorem deCalls_eq {next nextBack : σ → Res (Option α × σ)} {R : σ → List α → Prop} {hint : σ → Res Nat}
    (hf : ∀ s l, R s l → ∃ s', next s = .ok (l.head?, s') ∧ R s' l.tail)
    (hb : ∀ s l, R s l → ∃ s', nextBack s = .ok (l.getLast?, s') ∧ R s' l.dropLast)
    (hhint : ∀ s l, R s l → hint s = .ok l.length) (cs : List Spec.End) (s : σ) (l : List α) (h : R s l) :
    deCalls next nextBack hint cs s = .ok (Spec.deRun l cs) := by
  induction cs generalizing s l with
  | nil => rfl
  | cons c cs ih =>
    cases c with
    | front =>
      obtain ⟨s', h1, h2⟩ := hf s l h
      simp [deCalls, Spec.deRun, Spec.deStep, h1, ih _ _ h2, hhint _ _ h2]
    | back =>
      obtain ⟨s', h1, h2⟩ := hb s l h
      simp [deCalls, Spec.deRun, Spec.deStep, h1, ih _ _ h2, hhint _ _ h2]

/-- The same without `size_hint`; the final state is in the relation too. -/
theorem deAnswers_eq {next nextBack : σ → Res (Option α × σ)} {R : σ → List α → Prop}
    (hf : ∀ s l, R s l → ∃ s', next s = .ok (l.head?, s') ∧ R s' l.tail)
    (hb : ∀ s l, R s l → ∃ s', nextBack s = .ok (l.getLast?, s') ∧ R s' l.dropLast) (cs : List Spec.End) (s : σ) (l : List α) (h : R s l) :
    ∃ s' l', deAnswers next nextBack cs s = .ok ((Spec.deRun l cs).map Prod.fst, s') ∧ R s' l' := by
  induction cs generalizing s l with
  | nil => exact ⟨s, l, rfl, h⟩
  | cons c cs ih =>
    cases c with
    | front =>
      obtain ⟨s', h1, h2⟩ := hf s l h
      obtain ⟨s'', l', h3, h4⟩ := ih _ _ h2
      exact ⟨s'', l', by simp [deAnswers, Spec.deRun, Spec.deStep, h1, h3], h4⟩
    | back =>
      obtain ⟨s', h1, h2⟩ := hb s l h
      obtain ⟨s'', l', h3, h4⟩ := ih _ _ h2
      exact ⟨s'', l', by simp [deAnswers, Spec.deRun, Spec.deStep, h1, h3], h4⟩

end Rpds
