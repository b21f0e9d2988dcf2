import Verif.Heap.Nest
import Verif.Heap.Depth
import Verif.Heap.Tree
import Verif.Heap.List
/-
Operations that work in place.

`Prog.solo E n prog` is `prog`, watched: it panics when a uniqueness test (of `make_mut` or `try_unwrap`) fails, when `make_mut` copies
a cell, or when more than `n` cells are allocated.  Once a cell with a label in `E` comes into being it is no longer watched, and
the first component of its answer is then `false`.

`WP A E Q prog n h` is the weakest condition on the memory `h` under which `prog`, running alone, is not changed by being watched.

A pointer can only become shared by a clone.  `Solo E P c prog` is a syntactic criterion: `prog` allocates at most `c` cells, and it
drops or moves every pointer it clones before the next uniqueness test.
-/
set_option autoImplicit false
namespace Rpds
namespace Heap
variable {L : Type}

/-- How many cells an action allocates for new content. -/
def Act.cells : Act L → Nat
  | .new _ _ => 1
  | _ => 0

/-- The action is the allocation of a copy by `make_mut`. -/
def Act.copies : Act L → Bool
  | .newOpen => true
  | _ => false

/-- The action writes a cell with a label in `E`. -/
def Act.marks (E : L → Bool) : Act L → Bool
  | .new l _ => E l
  | .close _ l _ => E l
  | _ => false

/-- The action was a uniqueness test and the answer is that the pointer is shared. -/
def Act.refused : (a : Act L) → Resp a → Bool
  | .tryOpen _, none => true
  | .tryTake _, none => true
  | _, _ => false

/-- `prog`, except that it panics when a uniqueness test fails, when `make_mut` copies, or when more than `n` cells are allocated; until
a cell with a label in `E` is written, after which the answer says `false`. -/
def Prog.solo {α : Type} (E : L → Bool) : Prog L α → (n : Nat) → Prog L (Bool × α)
  | .ret r, _ => .ret (true, r)
  | .panic, _ => .panic
  | .drop p k, n => .drop p (solo E k n)
  | .op a k, n =>
    if a.marks E then .op a fun x => (k x).bind fun r => .ret (false, r)
    else if a.copies || decide (n < a.cells) then .panic
    else .op a fun x => if a.refused x then .panic else solo E (k x) (n - a.cells)

/-- Dropping pointers one after the other, and all that is freed by that. -/
inductive Drops : List Addr → Mem L → Mem L → Prop where
  | nil (h : Mem L) : Drops [] h h
  | cons {p : Addr} {ps cs : List Addr} {h h₁ h₂ : Mem L} (e : decr p h = .ok (cs, h₁)) (ds : Drops (cs ++ ps) h₁ h₂) :
      Drops (p :: ps) h h₂

/-- What the memory must be like for `prog`, running alone, to go through when it is watched; `Q` is about the answer, what is left of
`n`, and the memory afterwards.  (Faults are not excluded here.) -/
def WP {α : Type} (A : Allocator L) (E : L → Bool) (Q : α → Nat → Mem L → Prop) : Prog L α → (n : Nat) → Mem L → Prop
  | .ret r, n, h => Q r n h
  | .panic, _, _ => True
  | .drop p k, n, h => ∀ h', Drops [p] h h' → WP A E Q k n h'
  | .op a k, n, h =>
    match act A a h with
    | .error _ => True
    | .ok (x, h') =>
      a.marks E = true ∨
        (a.copies = false ∧ a.cells ≤ n ∧ a.refused x = false ∧ WP A E Q (k x) (n - a.cells) h')

section wp
variable {α β : Type} {A : Allocator L} {E : L → Bool}

theorem WP.imp {Q Q' : α → Nat → Mem L → Prop} {prog : Prog L α} {n : Nat} {h : Mem L} (w : WP A E Q prog n h)
    (hq : ∀ r n h, Q r n h → Q' r n h) : WP A E Q' prog n h := by
  induction prog generalizing n h with
  | ret r => exact hq _ _ _ w
  | panic => trivial
  | drop p k ih => exact fun h' d => ih (w h' d)
  | op a k ih =>
    simp only [WP] at w ⊢
    split at w
    · trivial
    · rcases w with w | ⟨w1, w2, w3, w4⟩
      · exact .inl w
      · exact .inr ⟨w1, w2, w3, ih _ w4⟩

theorem WP.bind {Q : β → Nat → Mem L → Prop} {prog : Prog L α} {f : α → Prog L β} {n : Nat} {h : Mem L}
    (w : WP A E (fun r n h => WP A E Q (f r) n h) prog n h) : WP A E Q (prog.bind f) n h := by
  induction prog generalizing n h with
  | ret r => exact w
  | panic => trivial
  | drop p k ih => exact fun h' d => ih (w h' d)
  | op a k ih =>
    simp only [WP, Prog.bind] at w ⊢
    split at w
    · trivial
    · rcases w with w | ⟨w1, w2, w3, w4⟩
      · exact .inl w
      · exact .inr ⟨w1, w2, w3, ih _ w4⟩

/-- A run of a program is also a run of the watched program. -/
theorem WP.thread {Q : α → Nat → Mem L → Prop} (s : Nat) : ∀ (pd : List (Nat × Addr)) (d : Nat) (prog : Prog L α) (n : Nat) (h h' : Mem L)
    (r : α) (d' : Nat), (∀ h', Drops (pd.map Prod.snd) h h' → WP A E Q prog n h') →
    runAlone A s ⟨pd, d, prog⟩ h = .ok (⟨[], d', .ret r⟩, h') →
    ∃ b s', runAlone A s' ⟨pd, d, prog.solo E n⟩ h = .ok (⟨[], d', .ret (b, r)⟩, h') ∧ (b = true → ∃ n', Q r n' h') := by
  induction s with
  | zero =>
    intro pd d prog n h h' r d' hw he
    simp only [runAlone, Except.ok.injEq, Prod.mk.injEq, Thread.mk.injEq] at he
    obtain ⟨⟨rfl, rfl, rfl⟩, rfl⟩ := he
    exact ⟨true, 0, rfl, fun _ => ⟨n, hw h (.nil h)⟩⟩
  | succ s ih =>
    intro pd d prog n h h' r d' hw he
    simp only [runAlone] at he
    cases pd with
    | cons x pd =>
      obtain ⟨k, p⟩ := x
      simp only [Thread.step] at he
      cases hd : decr p h with
      | error x => simp [hd] at he
      | ok y =>
        obtain ⟨cs, h1⟩ := y
        simp only [hd] at he
        obtain ⟨b, s', e1, e2⟩ := ih _ _ _ n _ _ _ _ (fun h' hd' => hw h' (.cons hd (by
          simpa [List.map_append, List.map_map, Function.comp_def] using hd'))) he
        exact ⟨b, s' + 1, by simp [runAlone, Thread.step, hd, e1], e2⟩
    | nil =>
      have hw' := hw h (.nil h)
      cases prog with
      | ret r' => exact ih [] d (.ret r') n h h' r d' hw he
      | panic => simp [Thread.step] at he
      | drop p k =>
        obtain ⟨b, s', e1, e2⟩ := ih [(0, p)] d k n h h' r d' hw' he
        exact ⟨b, s' + 1, by simp [runAlone, Thread.step, Prog.solo, e1], e2⟩
      | op a k =>
        simp only [Thread.step] at he
        simp only [WP] at hw'
        cases hd : act A a h with
        | error x => simp [hd] at he
        | ok y =>
          obtain ⟨x, h1⟩ := y
          simp only [hd] at he hw'
          rcases hw' with hm | ⟨w1, w2, w3, w4⟩
          · obtain ⟨m, hm'⟩ := runAlone_bind (fun r => Prog.ret (false, r)) s [] d (k x) h1 _ _ he
            exact ⟨false, m + 1, by simpa [runAlone, Thread.step, Prog.solo, hm, hd, Prog.bind] using hm', by simp⟩
          · cases hM : a.marks E with
            | true =>
              obtain ⟨m, hm'⟩ := runAlone_bind (fun r => Prog.ret (false, r)) s [] d (k x) h1 _ _ he
              exact ⟨false, m + 1, by simpa [runAlone, Thread.step, Prog.solo, hM, hd, Prog.bind] using hm', by simp⟩
            | false =>
              obtain ⟨b, s', e1, e2⟩ := ih [] d (k x) (n - a.cells) h1 h' r d' (by rintro h2 ⟨⟩; exact w4) he
              refine ⟨b, s' + 1, ?_, e2⟩
              simp [runAlone, Thread.step, Prog.solo, hM, w1, Nat.not_lt.2 w2, hd, w3, e1]

theorem WP.runs {Q : α → Nat → Mem L → Prop} {prog : Prog L α} {n d : Nat} {h h' : Mem L} {r : α} (w : WP A E Q prog n h)
    (e : Runs A prog h r h' d) : ∃ b, Runs A (prog.solo E n) h (b, r) h' d ∧ (b = true → ∃ n', Q r n' h') := by
  obtain ⟨s, e⟩ := e
  obtain ⟨b, s', e1, e2⟩ := WP.thread s [] 0 prog n h h' r d (by rintro _ ⟨⟩; exact w) e
  exact ⟨b, ⟨s', e1⟩, e2⟩

end wp

/-! ### Memory without shared cells -/

/-- The cells `xs` have one more pointer to them than one for each time they are listed, all other closed cells exactly one; and no closed
cell has a label in `E`. -/
structure Unshared (E : L → Bool) (xs : List Addr) (h : Mem L) : Prop where
  count : ∀ a n l cs, get h a = .closed n l cs → n = 1 + xs.count a
  closed : ∀ a, a ∈ xs → ∃ n l cs, get h a = .closed n l cs
  label : ∀ a n l cs, get h a = .closed n l cs → E l = false

/-- Whether the answer of an action shows a label in `E`. -/
def Act.shows (E : L → Bool) : (a : Act L) → Resp a → Bool
  | .read _, c => E c.1
  | .tryOpen _, some c => E c.1
  | .tryTake _, some c => E c.1
  | _, _ => false

/-- The action is a uniqueness test. -/
def Act.tests : Act L → Bool
  | .tryOpen _ => true
  | .tryTake _ => true
  | _ => false

/-- The pointer that an action clones. -/
def Act.cloned : Act L → List Addr
  | .clone p => [p]
  | _ => []

/-- `prog`, started in a memory where only the pointers `xs` are duplicates, is not changed by being watched, whatever is in the memory. -/
def Syn {α : Type} (E : L → Bool) (Q : α → Nat → Prop) : Prog L α → (n : Nat) → (xs : List Addr) → Prop
  | .ret r, n, xs => xs = [] ∧ Q r n
  | .panic, _, _ => True
  | .drop p k, n, xs => (p ∈ xs ∧ Syn E Q k n (xs.erase p)) ∨ (xs = [] ∧ Syn E Q k n [])
  | .op a k, n, xs =>
    a.marks E = true ∨
      (a.copies = false ∧ a.cells ≤ n ∧ (a.tests = true → xs = []) ∧
        ∀ x, a.refused x = false → a.shows E x = false → Syn E Q (k x) (n - a.cells) (a.cloned ++ xs))

section syn
variable {α β : Type} {A : Allocator L} {E : L → Bool}

theorem Syn.imp {Q Q' : α → Nat → Prop} {prog : Prog L α} {n : Nat} {xs : List Addr} (w : Syn E Q prog n xs)
    (hq : ∀ r n, Q r n → Q' r n) : Syn E Q' prog n xs := by
  induction prog generalizing n xs with
  | ret r => exact ⟨w.1, hq _ _ w.2⟩
  | panic => trivial
  | drop p k ih => exact Or.imp (fun h => ⟨h.1, ih h.2⟩) (fun h => ⟨h.1, ih h.2⟩) w
  | op a k ih => exact w.elim .inl fun h => .inr ⟨h.1, h.2.1, h.2.2.1, fun x h1 h2 => ih x (h.2.2.2 x h1 h2)⟩

theorem Syn.bind {Q : β → Nat → Prop} {prog : Prog L α} {f : α → Prog L β} {n : Nat} {xs : List Addr}
    (w : Syn E (fun r n => Syn E Q (f r) n []) prog n xs) : Syn E Q (prog.bind f) n xs := by
  induction prog generalizing n xs with
  | ret r => obtain ⟨rfl, h⟩ := w; exact h
  | panic => trivial
  | drop p k ih => exact Or.imp (fun h => ⟨h.1, ih h.2⟩) (fun h => ⟨h.1, ih h.2⟩) w
  | op a k ih => exact w.elim .inl fun h => .inr ⟨h.1, h.2.1, h.2.2.1, fun x h1 h2 => ih x (h.2.2.2 x h1 h2)⟩

theorem get_put_ne' {h : Mem L} {a b : Addr} {c : Cell L} (hab : a ≠ b) : get (put h a c) b = get h b := by
  simp [get_put, Ne.symm hab]

/-- Writing a closed cell with one pointer, or making a cell inaccessible. -/
theorem Unshared.put {xs : List Addr} {h : Mem L} (u : Unshared E xs h) {a : Addr} {c : Cell L} (ha : a ∉ xs)
    (hc : ∀ n l cs, c = .closed n l cs → n = 1 ∧ E l = false) : Unshared E xs (put h a c) := by
  refine ⟨fun b n l cs e => ?_, fun b hb => ?_, fun b n l cs e => ?_⟩
  · by_cases hab : a = b
    · subst hab
      rw [get_put_self] at e
      rw [(hc _ _ _ e).1, List.count_eq_zero.2 ha]
    · rw [get_put_ne' hab] at e; exact u.count b n l cs e
  · have hab : a ≠ b := by rintro rfl; exact ha hb
    rw [get_put_ne' hab]; exact u.closed b hb
  · by_cases hab : a = b
    · subst hab
      rw [get_put_self] at e
      exact (hc _ _ _ e).2
    · rw [get_put_ne' hab] at e; exact u.label b n l cs e

theorem Unshared.clone {xs : List Addr} {h : Mem L} (u : Unshared E xs h) {p : Addr} {n : Nat} {l : L} {cs : List Addr}
    (hp : get h p = .closed n l cs) : Unshared E (p :: xs) (Heap.put h p (.closed (n + 1) l cs)) := by
  refine ⟨fun b n' l' cs' e => ?_, fun b hb => ?_, fun b n' l' cs' e => ?_⟩
  · by_cases hab : p = b
    · subst hab
      rw [get_put_self] at e
      cases e
      rw [u.count _ _ _ _ hp, List.count_cons_self]; omega
    · rw [get_put_ne' hab] at e
      rw [List.count_cons_of_ne hab]
      exact u.count b _ _ _ e
  · by_cases hab : p = b
    · subst hab; rw [get_put_self]; exact ⟨_, _, _, rfl⟩
    · rw [get_put_ne' hab]
      exact u.closed b ((List.mem_cons.1 hb).resolve_left (Ne.symm hab))
  · by_cases hab : p = b
    · subst hab
      rw [get_put_self] at e
      cases e
      exact u.label _ _ _ _ hp
    · rw [get_put_ne' hab] at e; exact u.label b _ _ _ e

theorem Unshared.erase {xs : List Addr} {h : Mem L} (u : Unshared E xs h) {p : Addr} (hp : p ∈ xs) {n : Nat} {l : L} {cs : List Addr}
    (hc : get h p = .closed n l cs) : Unshared E (xs.erase p) (Heap.put h p (.closed (n - 1) l cs)) := by
  have hn := u.count _ _ _ _ hc
  have h0 : 0 < xs.count p := List.count_pos_iff.2 hp
  refine ⟨fun b n' l' cs' e => ?_, fun b hb => ?_, fun b n' l' cs' e => ?_⟩
  · by_cases hab : p = b
    · subst hab
      rw [get_put_self] at e
      cases e
      rw [List.count_erase_self]; omega
    · rw [get_put_ne' hab] at e
      rw [List.count_erase_of_ne (by simpa using Ne.symm hab)]
      exact u.count b _ _ _ e
  · by_cases hab : p = b
    · subst hab; rw [get_put_self]; exact ⟨_, _, _, rfl⟩
    · rw [get_put_ne' hab]
      exact u.closed b (List.mem_of_mem_erase hb)
  · by_cases hab : p = b
    · subst hab
      rw [get_put_self] at e
      cases e
      exact u.label _ _ _ _ hc
    · rw [get_put_ne' hab] at e; exact u.label b _ _ _ e

/-- Dropping pointers keeps a memory without shared cells that way. -/
theorem Unshared.drops {ps : List Addr} {h h' : Mem L} (d : Drops ps h h') (u : Unshared E [] h) : Unshared E [] h' := by
  induction d with
  | nil h => exact u
  | @cons p ps cs h h₁ h₂ e ds ih =>
    refine ih ?_
    unfold decr at e
    split at e
    · next n l cs' hg =>
      have hn : n = 1 := u.count _ _ _ _ hg
      rw [if_pos hn] at e
      cases e
      exact u.put (by simp) (by simp)
    · cases e

/-- The syntactic criterion is sound. -/
theorem Syn.wp {Q : α → Nat → Prop} {prog : Prog L α} {n : Nat} {xs : List Addr} (w : Syn E Q prog n xs) {h : Mem L}
    (u : Unshared E xs h) : WP A E (fun r n h => Q r n ∧ Unshared E [] h) prog n h := by
  induction prog generalizing n xs h with
  | ret r => obtain ⟨rfl, h⟩ := w; exact ⟨h, u⟩
  | panic => trivial
  | drop p k ih =>
    intro h' d
    rcases w with ⟨w1, w2⟩ | ⟨rfl, w2⟩
    · refine ih w2 ?_
      cases d with
      | cons e ds =>
        obtain ⟨n', l, cs', hg⟩ := u.closed p w1
        have hn := u.count _ _ _ _ hg
        have h0 : 0 < xs.count p := List.count_pos_iff.2 w1
        unfold decr at e
        rw [hg] at e
        simp only [if_neg (show ¬ n' = 1 by omega)] at e
        cases e
        cases ds
        exact u.erase w1 hg
    · exact ih w2 (u.drops d)
  | op a k ih =>
    simp only [WP]
    split
    · trivial
    · next x h' e =>
      rcases w with w | ⟨w1, w2, w3, w4⟩
      · exact .inl w
      cases hM : a.marks E with
      | true => exact .inl rfl
      | false =>
      refine .inr ⟨w1, w2, ?_⟩
      cases a with
      | new l cs =>
        simp only [act, Except.ok.injEq, Prod.mk.injEq] at e
        obtain ⟨rfl, rfl⟩ := e
        refine ⟨rfl, ih _ (w4 _ rfl rfl) (u.put ?_ ?_)⟩
        · intro hm
          obtain ⟨_, _, _, h1⟩ := u.closed _ hm
          rw [A.fresh] at h1
          cases h1
        · intro n l' cs' h1; cases h1; exact ⟨rfl, hM⟩
      | newOpen => cases w1
      | clone p =>
        simp only [act] at e
        split at e
        · next n' l cs hg =>
          cases e
          exact ⟨rfl, ih _ (w4 () rfl rfl) (u.clone hg)⟩
        · cases e
      | read p =>
        simp only [act] at e
        split at e
        · next n' l cs hg =>
          cases e
          exact ⟨rfl, ih _ (w4 _ rfl (u.label _ _ _ _ hg)) u⟩
        · cases e
      | tryOpen p =>
        obtain rfl := w3 rfl
        simp only [act] at e
        split at e
        · next n' l cs hg =>
          rw [if_pos (by simpa using u.count _ _ _ _ hg)] at e
          cases e
          exact ⟨rfl, ih _ (w4 (some (l, cs)) rfl (u.label _ _ _ _ hg)) (u.put (by simp) (by simp))⟩
        · cases e
      | tryTake p =>
        obtain rfl := w3 rfl
        simp only [act] at e
        split at e
        · next n' l cs hg =>
          rw [if_pos (by simpa using u.count _ _ _ _ hg)] at e
          cases e
          exact ⟨rfl, ih _ (w4 (some (l, cs)) rfl (u.label _ _ _ _ hg)) (u.put (by simp) (by simp))⟩
        · cases e
      | close p l cs =>
        simp only [act] at e
        split at e
        · next hg =>
          cases e
          refine ⟨rfl, ih _ (w4 () rfl rfl) (u.put ?_ ?_)⟩
          · intro hm
            obtain ⟨_, _, _, h1⟩ := u.closed _ hm
            rw [hg] at h1
            cases h1
          · intro n l' cs' h1; cases h1; exact ⟨rfl, hM⟩
        · cases e

end syn

/-! ### Counting -/

/-- In a memory without shared cells `prog` is not changed by being watched, it allocates at most `c` cells, and its answer satisfies `P`. -/
def Solo {α : Type} (E : L → Bool) (P : α → Prop) (c : Nat) (prog : Prog L α) : Prop :=
  ∀ m, Syn E (fun r n => P r ∧ m ≤ n) prog (m + c) []

section solo
variable {α β : Type} {E : L → Bool} {P : α → Prop} {P' : β → Prop} {c d : Nat}

theorem Solo.bind {prog : Prog L α} {f : α → Prog L β} (h : Solo E P c prog) (hf : ∀ r, P r → Solo E P' d (f r)) :
    Solo E P' (c + d) (prog.bind f) := by
  intro m
  refine Syn.bind ?_
  have := h (m + d)
  rw [show m + (c + d) = m + d + c by omega]
  refine this.imp ?_
  rintro r n ⟨h1, h2⟩
  obtain ⟨k, rfl⟩ := Nat.exists_eq_add_of_le h2
  have := hf r h1 (m + k)
  rw [show m + d + k = m + k + d by omega]
  exact this.imp fun _ _ h => ⟨h.1, by omega⟩

theorem Solo.le {prog : Prog L α} (h : Solo E P c prog) (hd : c ≤ d) : Solo E P d prog := by
  intro m
  have := h (m + (d - c))
  rw [show m + (d - c) + c = m + d by omega] at this
  exact this.imp fun _ _ h => ⟨h.1, by omega⟩

theorem Solo.imp {Q : α → Prop} {prog : Prog L α} (h : Solo E P c prog) (hq : ∀ r, P r → Q r) : Solo E Q c prog :=
  fun m => (h m).imp fun _ _ h => ⟨hq _ h.1, h.2⟩

/-- Sequential composition with a first part that allocates nothing. -/
theorem Solo.bind0 {prog : Prog L α} {f : α → Prog L β} (h : Solo E P 0 prog) (hf : ∀ r, P r → Solo E P' d (f r)) :
    Solo E P' d (prog.bind f) := by
  simpa using h.bind hf

theorem solo_ret {r : α} (h : P r) : Solo E P c (.ret r) := fun m => ⟨rfl, h, by omega⟩
theorem solo_panic : Solo E P c (.panic) := fun _ => trivial

theorem solo_lift {r : Res α} : Solo E (fun x => r = .ok x) 0 (lift (L := L) r) := by
  cases r with
  | error e => exact solo_panic
  | ok x => exact solo_ret rfl

theorem solo_new {l : L} {cs : List Addr} : Solo E (fun _ => True) 1 (new l cs) :=
  fun m => .inr ⟨rfl, by simp [Act.cells], by simp [Act.tests], fun _ _ _ => ⟨rfl, trivial, by simp [Act.cells]⟩⟩

theorem solo_marked {l : L} {cs : List Addr} {f : Addr → Prog L β} (h : E l = true) : Solo E P' c ((new l cs).bind fun p => f p) := fun m => .inl h

theorem solo_read {p : Addr} : Solo E (fun c => E c.1 = false) 0 (read p) :=
  fun m => .inr ⟨rfl, by simp [Act.cells], by simp [Act.tests], fun _ _ h => ⟨rfl, h, by simp [Act.cells]⟩⟩

theorem solo_close {p : Addr} {l : L} {cs : List Addr} : Solo E (fun _ => True) 0 (close p l cs) :=
  fun m => .inr ⟨rfl, by simp [Act.cells], by simp [Act.tests], fun _ _ _ => ⟨rfl, trivial, by simp [Act.cells]⟩⟩

theorem solo_drop {p : Addr} : Solo E (fun _ => True) 0 (drop (L := L) p) := fun m => .inr ⟨rfl, rfl, trivial, by simp⟩

theorem solo_tryTake {p : Addr} : Solo E (fun x => ∃ c, x = some c ∧ E c.1 = false) 0 (tryTake p) :=
  fun m => .inr ⟨rfl, by simp [Act.cells], fun _ => rfl, fun x h1 h2 => by
    cases x with
    | none => cases h1
    | some x => exact ⟨rfl, ⟨x, rfl, h2⟩, by simp [Act.cells]⟩⟩

theorem solo_makeMut {p : Addr} : Solo E (fun x => E x.2.1 = false) 0 (makeMut p) := by
  intro m
  refine .inr ⟨rfl, by simp [Act.cells], fun _ => rfl, fun x h1 h2 => ?_⟩
  cases x with
  | none => cases h1
  | some x => exact ⟨rfl, h2, by simp [Act.cells]⟩

/-- A clone that is dropped again right away. -/
theorem solo_cloneDrop {p : Addr} {k : Prog L β} (h : Solo E P' c k) :
    Solo E P' c ((clone p).bind fun _ => (drop p).bind fun _ => k) := by
  intro m
  refine .inr ⟨rfl, by simp [Act.cells], by simp [Act.tests], fun x h1 h2 => .inl ⟨by simp [Act.cloned], ?_⟩⟩
  simpa [Act.cloned, Act.cells, Prog.bind] using h m

/-- A clone that is moved into a new cell, after which the original is dropped. -/
theorem solo_cloneNewDrop {p : Addr} {l : L} {cs : List Addr} {k : Addr → Prog L β} (h : ∀ q, Solo E P' c (k q)) :
    Solo E P' (c + 1) ((clone p).bind fun _ => (new l cs).bind fun q => (drop p).bind fun _ => k q) := by
  intro m
  refine .inr ⟨rfl, by simp [Act.cells], by simp [Act.tests], fun x h1 h2 =>
    .inr ⟨rfl, by simp [Act.cells]; omega, by simp [Act.tests], fun q h3 h4 => .inl ⟨by simp [Act.cloned], ?_⟩⟩⟩
  have := h q m
  simp only [Act.cloned, Act.cells, List.nil_append, List.singleton_append, List.erase_cons_head]
  rw [show m + (c + 1) - 0 - 1 = m + c by omega]
  exact this

theorem solo_modifyPtr {γ : Type} {p : Addr} {f : Content L → Prog L (γ × Content L)} {R : γ → Prop}
    (h : ∀ x, E x.1 = false → Solo E (fun y => R y.1) c (f x)) : Solo E (fun y => R y.1) c (modifyPtr p f) := by
  refine solo_makeMut.bind0 fun x hx => ?_
  rw [← Nat.add_zero c]
  exact (h x.2 hx).bind fun y hy => solo_close.bind0 fun _ _ => solo_ret hy

theorem solo_forAll {γ : Type} {f : γ → Prog L β} (h : ∀ x, Solo E (fun _ => True) 0 (f x)) (xs : List γ) :
    Solo E (fun _ => True) 0 (forAll f xs) := by
  induction xs with
  | nil => exact solo_ret trivial
  | cons x xs ih => exact (h x).bind0 fun _ _ => ih.bind0 fun _ _ => solo_ret trivial

theorem solo_dropOpt {p : Option Addr} : Solo E (fun _ => True) 0 (dropOpt (L := L) p) := by
  cases p with
  | none => exact solo_ret trivial
  | some p => exact solo_drop

theorem Solo.wp {A : Allocator L} {prog : Prog L α} (h : Solo E P c prog) {m : Mem L} (u : Unshared E [] m) :
    WP A E (fun _ _ m => Unshared E [] m) prog c m := by
  have := h 0
  rw [Nat.zero_add] at this
  exact (this.wp u).imp fun _ _ _ h => h.2

end solo

/-! ### Clients -/

/-- The watched client: operation `op` on handle `h` may allocate `bud h op` cells, creating a handle `new` cells, dropping one none. -/
def soloClient {H Op Ret : Type} (impl : Impl L H Op Ret) (E : L → Bool) (new : Nat) (bud : H → Op → Nat) :
    List (Option H) → List (Cmd Op) → Prog L (List (Option Ret) × List (Option H))
  | hs, [] => .ret ([], hs)
  | hs, .new :: cmds =>
    Prog.bind (impl.new.solo E new) fun h =>
    Prog.bind (if h.1 then soloClient impl E new bud (hs ++ [some h.2]) cmds else client impl (hs ++ [some h.2]) cmds) fun x =>
    .ret (none :: x.1, x.2)
  | hs, .run i op :: cmds =>
    match hs[i]? with
    | some (some h) =>
      Prog.bind ((impl.step h op).solo E (bud h op)) fun y =>
      Prog.bind (if y.1 then soloClient impl E new bud (Effect.applyOpt hs i y.2.2) cmds
        else client impl (Effect.applyOpt hs i y.2.2) cmds) fun x => .ret (some y.2.1 :: x.1, x.2)
    | _ => Prog.bind (soloClient impl E new bud hs cmds) fun x => .ret (none :: x.1, x.2)
  | hs, .discard i :: cmds =>
    match hs[i]? with
    | some (some h) =>
      Prog.bind ((impl.drop h).solo E 0) fun y =>
      Prog.bind (if y.1 then soloClient impl E new bud (hs.set i none) cmds else client impl (hs.set i none) cmds) fun x =>
      .ret (none :: x.1, x.2)
    | _ => Prog.bind (soloClient impl E new bud hs cmds) fun x => .ret (none :: x.1, x.2)

/-- The operations in a list of commands all satisfy `ok`. -/
def Cmd.All {Op : Type} (ok : Op → Prop) (cmds : List (Cmd Op)) : Prop := ∀ i op, .run i op ∈ cmds → ok op

/-- The operations `ok` of a data structure go through when they are watched, in memories with the property `J`, which they keep. -/
structure Impl.InPlace {H Op Ret σ : Type} (impl : Impl L H Op Ret) (A : Allocator L) (E : L → Bool) (R : H → σ → List (Item L) → Prop)
    (J : Mem L → Prop) (ok : Op → Prop) (new : Nat) (bud : H → Op → Nat) : Prop where
  new : ∀ m F, Own m F → J m → WP A E (fun _ _ m => J m) impl.new new m
  step : ∀ h s ρ op, ok op → R h s ρ → ∀ m F, Own m (ρ ++ F) → J m → WP A E (fun _ _ m => J m) (impl.step h op) (bud h op) m
  drop : ∀ h s ρ, R h s ρ → ∀ m F, Own m (ρ ++ F) → J m → WP A E (fun _ _ m => J m) (impl.drop h) 0 m

section client
variable {H Op Ret σ : Type} {impl : Impl L H Op Ret} {A : Allocator L} {D : Option Nat} {E : L → Bool} {new : σ}
  {step : σ → Op → Res (Ret × Effect σ)} {R : H → σ → List (Item L) → Prop} {J : Mem L → Prop} {ok : Op → Prop} {c : Nat}
  {bud : H → Op → Nat}

theorem match_dead {α β : Type} {xs : List (Option α)} {i : Nat} (h : ∀ x, xs[i]? ≠ some (some x)) {P : β} {f : α → β} :
    (match xs[i]? with | some (some h) => f h | _ => P) = P := by
  split
  · next h' => exact absurd h' (h _)
  · rfl

theorem Impl.InPlace.client (hr : impl.RefinesIn A D new step R) (hp : impl.InPlace A E R J ok c bud) (cmds : List (Cmd Op)) :
    ∀ {hs : List (Option H)} {ss : List (Option σ)} {ρ : List (Item L)} (_ : Handles R hs ss ρ) {m : Mem L} (_ : Own m ρ) (_ : J m)
      (_ : Cmd.All ok cmds) {rs : List (Option Ret)} {ss' : List (Option σ)} (_ : pureClient new step ss cmds = .ok (rs, ss')),
      ∃ hs' m' d ρ', Runs A (client impl hs cmds) m (rs, hs') m' d ∧ Runs A (soloClient impl E c bud hs cmds) m (rs, hs') m' d ∧
        Handles R hs' ss' ρ' ∧ Own m' ρ' := by
  induction cmds with
  | nil =>
    intro hs ss ρ h m ho hj _ rs ss' he
    simp only [pureClient, Except.ok.injEq, Prod.mk.injEq] at he
    obtain ⟨rfl, rfl⟩ := he
    exact ⟨hs, m, 0, ρ, Runs.ret _ _, Runs.ret _ _, h, ho⟩
  | cons x cmds ih =>
    intro hs ss ρ h m ho hj hall rs ss' he
    have hall' : Cmd.All ok cmds := fun i op hi => hall i op (List.mem_cons_of_mem _ hi)
    have fin : ∀ {hs' : List (Option H)} {ss₁ : List (Option σ)} {ρ' : List (Item L)} {a : Option Ret} {rs₁ : List (Option Ret)} {b : Bool}
        {m : Mem L}, (∃ ρ'', ρ'.Perm ρ'' ∧ Handles R hs' ss₁ ρ'') → Own m ρ' → (b = true → J m) →
        pureClient new step ss₁ cmds = .ok (rs₁, ss') →
        ∃ hs'' m' d ρ', Runs A (Prog.bind (Heap.client impl hs' cmds) fun x => .ret (a :: x.1, x.2)) m (a :: rs₁, hs'') m' d ∧
          Runs A (Prog.bind (if b then soloClient impl E c bud hs' cmds else Heap.client impl hs' cmds) fun x => .ret (a :: x.1, x.2)) m
            (a :: rs₁, hs'') m' d ∧ Handles R hs'' ss' ρ' ∧ Own m' ρ' := by
      rintro hs' ss₁ ρ' a rs₁ b m ⟨ρ'', hp', h'⟩ ho' hj' he'
      cases b with
      | true =>
        obtain ⟨hs2, m2, d, ρ2, e1, e2, e3, e4⟩ := ih h' (ho'.perm hp') (hj' rfl) hall' he'
        exact ⟨hs2, m2, _, ρ2, e1.bind (Runs.ret _ _), e2.bind (Runs.ret _ _), e3, e4⟩
      | false =>
        obtain ⟨⟨r1, hs2⟩, m2, d, τ, e1, ⟨rfl, ρ2, e3, e4⟩, e5, -⟩ :=
          (safe_client hr cmds h' he').runs (F := []) (h := m) (by simpa using ho'.perm hp')
        exact ⟨hs2, m2, _, ρ2, e1.bind (Runs.ret _ _), e1.bind (Runs.ret _ _), e4, by simpa using e5.perm (by simpa using e3)⟩
    have split : ∀ {ss₁ : List (Option σ)} {a : Option Ret}, (do
        let x ← pureClient new step ss₁ cmds
        .ok (a :: x.1, x.2) : Res _) = .ok (rs, ss') → ∃ rs₁, pureClient new step ss₁ cmds = .ok (rs₁, ss') ∧
          rs = a :: rs₁ := by
      intro ss₁ a he
      cases hp : pureClient new step ss₁ cmds with
      | error e => simp [hp] at he
      | ok x =>
        obtain ⟨x1, x2⟩ := x
        simp [hp] at he
        obtain ⟨rfl, rfl⟩ := he
        exact ⟨x1, rfl, rfl⟩
    cases x with
    | new =>
      obtain ⟨rs₁, he', rfl⟩ := split (by simpa only [pureClient] using he)
      obtain ⟨x, m1, d, τ, e1, e2, e3, -⟩ := hr.new.runs (F := ρ) (by simpa using ho)
      obtain ⟨b, e4, e5⟩ := (hp.new m ρ ho hj).runs e1
      obtain ⟨hs2, m2, d2, ρ2, f1, f2, f3, f4⟩ := fin (a := none) (b := b) ⟨_, List.perm_append_comm, h.snoc e2⟩ e3
        (fun hb => (e5 hb).elim fun _ h => h) he'
      exact ⟨hs2, m2, _, ρ2, e1.bind f1, e4.bind f2, f3, f4⟩
    | run i op =>
      simp only [Heap.client, soloClient, pureClient] at he ⊢
      rcases h.get i with ⟨x, s, ρ₁, ρ₂, h1, h2, h3, h4, h5, -⟩ | ⟨h1, h2⟩
      · simp only [h1, h2] at he ⊢
        cases hst : step s op with
        | error e => simp [hst] at he
        | ok y =>
          obtain ⟨r, e⟩ := y
          simp only [hst, Res.ok_bind] at he
          obtain ⟨rs₁, he', rfl⟩ := split he
          have ho' := ho.perm h4
          obtain ⟨⟨r', e'⟩, m1, d, τ, e1, ⟨rfl, heff⟩, e3, -⟩ := (hr.step x s ρ₁ op r e h3 hst).runs ho'
          obtain ⟨b, e4, e5⟩ := (hp.step x s ρ₁ op (hall i op (by simp)) h3 m ρ₂ ho' hj).runs e1
          have hH : ∃ ρ'', (τ ++ ρ₂).Perm ρ'' ∧ Handles R (Effect.applyOpt hs i e') (Effect.applyOpt ss i e) ρ'' := by
            cases heff with
            | keep hk =>
              obtain ⟨ρ₃, h8, h9⟩ := h5 _ _ _ hk
              refine ⟨ρ₃, h8.symm, ?_⟩
              have e1 := set_self h1
              have e2 := set_self h2
              rw [e1, e2] at h9
              exact h9
            | @fresh h' s' τ₁ τ₂ hf hk =>
              obtain ⟨ρ₃, h8, h9⟩ := h5 _ _ _ hk
              have e1 := set_self h1
              have e2 := set_self h2
              rw [e1, e2] at h9
              refine ⟨ρ₃ ++ τ₁, ?_, h9.snoc hf⟩
              refine List.Perm.trans ?_ (h8.symm.append_right τ₁)
              perm_tac
            | update hu =>
              obtain ⟨ρ₃, h8, h9⟩ := h5 _ _ _ hu
              exact ⟨ρ₃, h8.symm, h9⟩
          obtain ⟨hs2, m2, d2, ρ2, f1, f2, f3, f4⟩ := fin (a := some r') (b := b) hH e3 (fun hb => (e5 hb).elim fun _ h => h) he'
          exact ⟨hs2, m2, _, ρ2, e1.bind f1, e4.bind f2, f3, f4⟩
      · rw [match_dead h1]
        split
        · next h' => exact absurd h' (h1 _)
        split at he
        · next h' => exact absurd h' (h2 _)
        obtain ⟨rs₁, he', rfl⟩ := split he
        exact fin (b := true) ⟨ρ, .refl _, h⟩ ho (fun _ => hj) he'
    | discard i =>
      simp only [Heap.client, soloClient, pureClient] at he ⊢
      rcases h.get i with ⟨x, s, ρ₁, ρ₂, h1, h2, h3, h4, -, ρ₃, h5, h6⟩ | ⟨h1, h2⟩
      · simp only [h1, h2] at he ⊢
        obtain ⟨rs₁, he', rfl⟩ := split he
        have ho' := ho.perm h4
        obtain ⟨r', m1, d, τ, e1, rfl, e3, -⟩ := (hr.drop x s ρ₁ h3).runs ho'
        obtain ⟨b, e4, e5⟩ := (hp.drop x s ρ₁ h3 m ρ₂ ho' hj).runs e1
        obtain ⟨hs2, m2, d2, ρ2, f1, f2, f3, f4⟩ := fin (a := none) (b := b) ⟨ρ₃, h5.symm, h6⟩ (by simpa using e3)
          (fun hb => (e5 hb).elim fun _ h => h) he'
        exact ⟨hs2, m2, _, ρ2, e1.bind f1, e4.bind f2, f3, f4⟩
      · rw [match_dead h1]
        split
        · next h' => exact absurd h' (h1 _)
        split at he
        · next h' => exact absurd h' (h2 _)
        obtain ⟨rs₁, he', rfl⟩ := split he
        exact fin (b := true) ⟨ρ, .refl _, h⟩ ho (fun _ => hj) he'

theorem Impl.InPlace.runs (hr : impl.RefinesIn A D new step R) (hp : impl.InPlace A E R J ok c bud) (hj : J []) {cmds : List (Cmd Op)}
    (hall : Cmd.All ok cmds) {rs : List (Option Ret)} {ss : List (Option σ)} (he : pureClient new step [] cmds = .ok (rs, ss)) :
    ∃ hs m d, Runs A (Heap.client impl [] cmds) [] (rs, hs) m d ∧ Runs A (soloClient impl E c bud [] cmds) [] (rs, hs) m d := by
  obtain ⟨hs, m, d, _, e1, e2, _, _⟩ := hp.client hr cmds .nil Own.empty hj hall he
  exact ⟨hs, m, d, e1, e2⟩

theorem Unshared.empty : Unshared E [] ([] : Mem L) := by
  refine ⟨?_, by simp, ?_⟩ <;> intro a n l cs h <;> simp [get] at h

end client

end Heap
end Rpds
