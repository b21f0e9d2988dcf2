import Verif.Heap.Shared
/-
Clients with iterators.  An iterator borrows a handle: while it is in use the client uses that handle only through `&`, and does
whatever it likes with the other handles, which may share memory with it.  Iterators read the nodes one by one, when they are asked for
items.
-/
set_option autoImplicit false
namespace Rpds
namespace Heap

/-- How to iterate a data structure: iterators have the type `I`, `J` says which part is iterated, `Y` are the
answers of `next` and `next_back`, with what `size_hint` says afterwards. -/
structure IterImpl (L H J I Y : Type) where
  start : H → J → Prog L I
  next : I → (back : Bool) → Prog L (Y × I)

/-- What a client with iterators does next: run an ordinary command, start an iterator on handle `i`, ask iterator `j` for the next item
at the front or at the back, or forget it. -/
inductive ICmd (Op J : Type) where
  | cmd (c : Cmd Op)
  | iter (i : Nat) (which : J)
  | next (j : Nat) (back : Bool)
  | stop (j : Nat)

/-- One command of a client. -/
def clientStep {L H Op Ret : Type} (impl : Impl L H Op Ret) (hs : List (Option H)) : Cmd Op → Prog L (Option Ret × List (Option H))
  | .new => Prog.bind impl.new fun h => .ret (none, hs ++ [some h])
  | .run i op =>
    match hs[i]? with
    | some (some h) => Prog.bind (impl.step h op) fun y => .ret (some y.1, Effect.applyOpt hs i y.2)
    | _ => .ret (none, hs)
  | .discard i =>
    match hs[i]? with
    | some (some h) => Prog.bind (impl.drop h) fun _ => .ret (none, hs.set i none)
    | _ => .ret (none, hs)

/-- A client with handles `hs` and iterators `its` (each with the number of the handle it borrows).  The answers are those of
the operations and the items. -/
def iclient {L H Op Ret J I Y : Type} (impl : Impl L H Op Ret) (ii : IterImpl L H J I Y) :
    List (Option H) → List (Option (Nat × I)) → List (ICmd Op J) → Prog L (List (Option (Ret ⊕ Y)) × List (Option H))
  | hs, _, [] => .ret ([], hs)
  | hs, its, .cmd c :: cmds =>
    Prog.bind (clientStep impl hs c) fun y =>
    Prog.bind (iclient impl ii y.2 its cmds) fun x => .ret (y.1.map .inl :: x.1, x.2)
  | hs, its, .iter i which :: cmds =>
    match hs[i]? with
    | some (some h) =>
      Prog.bind (ii.start h which) fun it =>
      Prog.bind (iclient impl ii hs (its ++ [some (i, it)]) cmds) fun x => .ret (none :: x.1, x.2)
    | _ => Prog.bind (iclient impl ii hs (its ++ [none]) cmds) fun x => .ret (none :: x.1, x.2)
  | hs, its, .next j back :: cmds =>
    match its[j]? with
    | some (some (i, it)) =>
      Prog.bind (ii.next it back) fun y =>
      Prog.bind (iclient impl ii hs (its.set j (some (i, y.2))) cmds) fun x => .ret (some (.inr y.1) :: x.1, x.2)
    | _ => Prog.bind (iclient impl ii hs its cmds) fun x => .ret (none :: x.1, x.2)
  | hs, its, .stop j :: cmds =>
    Prog.bind (iclient impl ii hs (its.set j none) cmds) fun x => .ret (none :: x.1, x.2)

/-- One command on pure values. -/
def pureStep {σ Op Ret : Type} (new : σ) (step : σ → Op → Res (Ret × Effect σ)) (vs : List (Option σ)) :
    Cmd Op → Res (Option Ret × List (Option σ))
  | .new => .ok (none, vs ++ [some new])
  | .run i op =>
    match vs[i]? with
    | some (some s) => do
      let y ← step s op
      .ok (some y.1, Effect.applyOpt vs i y.2)
    | _ => .ok (none, vs)
  | .discard i =>
    match vs[i]? with
    | some (some _) => .ok (none, vs.set i none)
    | _ => .ok (none, vs)

/-- Handle `i` has an iterator. -/
def busy {Y : Type} (its : List (Option (Nat × Y))) (i : Nat) : Bool := its.any fun o => o.any fun x => x.1 == i

/-- The borrow checker: a handle with an iterator is only used through `&`. -/
def allowed {Op Y : Type} (byRef : Op → Bool) (its : List (Option (Nat × Y))) : Cmd Op → Bool
  | .new => true
  | .run i op => byRef op || !busy its i
  | .discard i => !busy its i

/-- The same with pure values: an iterator is what it has not given yet (of type `X`), taken from the value of the handle when the
iterator was started.  Programs that the borrow checker rejects have no meaning. -/
def pureIClient {σ Op Ret J X Y : Type} (new : σ) (step : σ → Op → Res (Ret × Effect σ)) (byRef : Op → Bool) (seq : σ → J → Res X)
    (inext : Bool → X → Res (Y × X)) :
    List (Option σ) → List (Option (Nat × X)) → List (ICmd Op J) → Res (List (Option (Ret ⊕ Y)) × List (Option σ))
  | vs, _, [] => .ok ([], vs)
  | vs, its, .cmd c :: cmds => do
    if allowed byRef its c then
      let y ← pureStep new step vs c
      let x ← pureIClient new step byRef seq inext y.2 its cmds
      .ok (y.1.map .inl :: x.1, x.2)
    else .error .unreachable
  | vs, its, .iter i which :: cmds =>
    match vs[i]? with
    | some (some s) => do
      let xs ← seq s which
      let x ← pureIClient new step byRef seq inext vs (its ++ [some (i, xs)]) cmds
      .ok (none :: x.1, x.2)
    | _ => do
      let x ← pureIClient new step byRef seq inext vs (its ++ [none]) cmds
      .ok (none :: x.1, x.2)
  | vs, its, .next j back :: cmds =>
    match its[j]? with
    | some (some (i, xs)) => do
      let y ← inext back xs
      let x ← pureIClient new step byRef seq inext vs (its.set j (some (i, y.2))) cmds
      .ok (some (.inr y.1) :: x.1, x.2)
    | _ => do
      let x ← pureIClient new step byRef seq inext vs its cmds
      .ok (none :: x.1, x.2)
  | vs, its, .stop j :: cmds => do
    let x ← pureIClient new step byRef seq inext vs (its.set j none) cmds
    .ok (none :: x.1, x.2)

/-- Taking an item at the front or at the back of what is left; the answer has the item and the number of items then left, which is
what `size_hint` says. -/
def deNext {X : Type} (back : Bool) (xs : List X) : Res ((Option X × Nat) × List X) :=
  .ok (if back then ((xs.getLast?, xs.length - 1), xs.dropLast) else ((xs.head?, xs.length - 1), xs.tail))

/-- Iterators that only go forward (there is no `next_back`). -/
def fwNext {X : Type} (back : Bool) (xs : List X) : Res ((Option X × Nat) × List X) :=
  if back then .error .unreachable else .ok ((xs.head?, xs.length - 1), xs.tail)

/-- Two kinds of iterators over the same handles: those that know their size, and those whose `size_hint` says nothing (the default,
`(0, None)`; the answer has the lower bound). -/
def mixNext {X : Type} (back : Bool) (s : Bool × List X) : Res ((Option X × Nat) × (Bool × List X)) := do
  let x ← deNext back s.2
  .ok ((x.1.1, if s.1 then x.1.2 else 0), (s.1, x.2))

/-- The iterators of a data structure give the items of the handle they borrow. -/
structure IterImpl.Iterates {L H J I X Y σ : Type} (ii : IterImpl L H J I Y) (A : Allocator L) (R : H → σ → List (Item L) → Prop)
    (seq : σ → J → Res X) (inext : Bool → X → Res (Y × X)) (IR : List (Item L) → I → X → Prop) : Prop where
  start : ∀ h s β which xs, R h s β → seq s which = .ok xs → SafeB A none β (fun it τ => τ = [] ∧ IR β it xs) (ii.start h which) []
  next : ∀ β it xs back y ys, IR β it xs → inext back xs = .ok (y, ys) →
    SafeB A none β (fun z τ => τ = [] ∧ z.1 = y ∧ IR β z.2 ys) (ii.next it back) []

/-- The same iterators with other answers. -/
def IterImpl.adapt {L H J I Y Y' : Type} (ii : IterImpl L H J I Y) (f : Y → Y') : IterImpl L H J I Y' where
  start := ii.start
  next it back := Prog.bind (ii.next it back) fun z => .ret (f z.1, z.2)

theorem IterImpl.Iterates.adapt {L H J I X Y σ X' Y' σ' : Type} {ii : IterImpl L H J I Y} {A : Allocator L} {R : H → σ → List (Item L) → Prop}
    {seq : σ → J → Res X} {inext : Bool → X → Res (Y × X)} {IR : List (Item L) → I → X → Prop} (h : ii.Iterates A R seq inext IR)
    (f : Y → Y') {S : σ → σ' → Prop} {S' : X → X' → Prop} {seq' : σ' → J → Res X'} {inext' : Bool → X' → Res (Y' × X')}
    (hs : ∀ s s' which x', S s s' → seq' s' which = .ok x' → ∃ x, seq s which = .ok x ∧ S' x x')
    (hn : ∀ back x x' y' z', S' x x' → inext' back x' = .ok (y', z') → ∃ y z, inext back x = .ok (y, z) ∧ f y = y' ∧ S' z z') :
    (ii.adapt f).Iterates A (fun h s' ρ => ∃ s, R h s ρ ∧ S s s') seq' inext' (fun β it x' => ∃ x, IR β it x ∧ S' x x') where
  start := by
    rintro hd s' β which x' ⟨s, h1, h2⟩ he
    obtain ⟨x, h3, h4⟩ := hs s s' which x' h2 he
    exact (h.start hd s β which x h1 h3).imp fun it τ h5 => ⟨h5.1, x, h5.2, h4⟩
  next := by
    rintro β it x' back y' z' ⟨x, h1, h2⟩ he
    obtain ⟨y, z, h3, rfl, h4⟩ := hn back x x' y' z' h2 he
    refine SafeB.bind (h.next β it x back y z h1 h3) ?_
    rintro ⟨_, it'⟩ _ ⟨rfl, rfl, h5⟩
    exact SafeB.ret ⟨rfl, rfl, z, h5, h4⟩

section
variable {L H Op Ret σ J I X Y : Type} {R : H → σ → List (Item L) → Prop} {A : Allocator L} {D : Option Nat}

/-- What is borrowed may as well be owned and kept. -/
theorem SafeB.keep {α : Type} {B C : List (Item L)} {Q : α → List (Item L) → Prop} {prog : Prog L α} {ρ : List (Item L)}
    (hs : SafeB A D C Q prog ρ) : SafeB A D B (fun r σ => ∃ τ, σ = τ ++ C ∧ Q r τ) prog (ρ ++ C) := by
  induction prog generalizing ρ with
  | ret r =>
    obtain ⟨τ, h1, h2⟩ := hs
    exact ⟨τ ++ C, h1.append_right C, τ, rfl, h2⟩
  | panic => exact hs
  | op a k ih =>
    refine ⟨hs.1.append C, fun h F ho => ?_⟩
    obtain ⟨x, h', ρ', h1, h2, h3⟩ := hs.2 h (B ++ F) (by simpa [List.append_assoc] using ho)
    exact ⟨x, h', ρ' ++ C, h1, by simpa [List.append_assoc] using h2, ih x h3⟩
  | drop p k ih =>
    obtain ⟨t, τ, h1, h2, h3, h4⟩ := hs
    refine ⟨t, τ ++ C, h1.append_right C, h2, h3.mono (nest_mono ?_ t), ih h4⟩
    intro a ha
    simp only [reach, List.flatMap_append, List.mem_append]
    exact .inl ha

/-- One handle, its value and its items. -/
inductive HRel (R : H → σ → List (Item L) → Prop) : Option (Option H) → Option (Option σ) → Option (List (Item L)) → Prop where
  | out : HRel R none none none
  | dead : HRel R (some none) (some none) (some [])
  | live {x : H} {s : σ} {β : List (Item L)} (h : R x s β) : HRel R (some (some x)) (some (some s)) (some β)

/-- The handles with the items of each. -/
def HandlesAt (R : H → σ → List (Item L) → Prop) (hs : List (Option H)) (ss : List (Option σ)) (ρs : List (List (Item L))) : Prop :=
  ∀ i : Nat, HRel R hs[i]? ss[i]? ρs[i]?

theorem Handles.itemsAt {hs : List (Option H)} {ss : List (Option σ)} {ρ : List (Item L)} (h : Handles R hs ss ρ) :
    ∃ ρs, ρ = ρs.flatten ∧ HandlesAt R hs ss ρs := by
  induction h with
  | nil => exact ⟨[], rfl, fun i => by simpa using HRel.out⟩
  | dead ht ih =>
    obtain ⟨ρs, rfl, h⟩ := ih
    refine ⟨[] :: ρs, rfl, fun i => ?_⟩
    cases i with
    | zero => exact .dead
    | succ i => simpa using h i
  | @live x s hs ss ρ ρ' hh ht ih =>
    obtain ⟨ρs, rfl, h⟩ := ih
    refine ⟨ρ :: ρs, rfl, fun i => ?_⟩
    cases i with
    | zero => exact .live hh
    | succ i => simpa using h i

theorem HandlesAt.handles {hs : List (Option H)} : ∀ {ss : List (Option σ)} {ρs : List (List (Item L))}, HandlesAt R hs ss ρs →
    Handles R hs ss ρs.flatten := by
  induction hs with
  | nil =>
    intro ss ρs h
    have := h 0
    match ss, ρs, this with
    | [], [], _ => exact .nil
  | cons x hs ih =>
    intro ss ρs h
    have h0 := h 0
    match ss, ρs, h0, h with
    | s :: ss, β :: ρs, h0, h =>
      have ht : HandlesAt R hs ss ρs := fun i => by simpa using h (i + 1)
      simp only [List.getElem?_cons_zero] at h0
      cases h0 with
      | dead => simpa using Handles.dead (ih ht)
      | live h1 => exact .live h1 (ih ht)

theorem flatten_set_perm {α : Type} {xss : List (List α)} {i : Nat} {xs : List α} (h : xss[i]? = some xs) (ys : List α) :
    (xss.set i ys).flatten.Perm (ys ++ (xss.set i []).flatten) := by
  induction xss generalizing i with
  | nil => simp at h
  | cons zs xss ih =>
    cases i with
    | zero => simp
    | succ i =>
      simp only [List.getElem?_cons_succ] at h
      simp only [List.set_cons_succ, List.flatten_cons]
      refine ((ih h).append_left zs).trans ?_
      simp only [← List.append_assoc]
      exact List.perm_append_comm.append_right _

theorem flatten_perm {α : Type} {xss : List (List α)} {i : Nat} {xs : List α} (h : xss[i]? = some xs) :
    xss.flatten.Perm (xs ++ (xss.set i []).flatten) := by
  have := flatten_set_perm h xs
  rwa [set_self h] at this

theorem HandlesAt.snoc {hs : List (Option H)} {ss : List (Option σ)} {ρs : List (List (Item L))} (h : HandlesAt R hs ss ρs) {x : H} {s : σ}
    {β : List (Item L)} (hx : R x s β) : HandlesAt R (hs ++ [some x]) (ss ++ [some s]) (ρs ++ [β]) := by
  have hl : hs.length = ss.length ∧ hs.length = ρs.length := by
    have h1 := h hs.length
    have h2 := h ss.length
    have h3 := h ρs.length
    simp only [List.getElem?_eq_none (Nat.le_refl hs.length), List.getElem?_eq_none (Nat.le_refl ss.length),
      List.getElem?_eq_none (Nat.le_refl ρs.length)] at h1 h2 h3
    generalize e1 : ss[hs.length]? = a1 at h1
    generalize e2 : ρs[hs.length]? = a2 at h1
    generalize e3 : hs[ss.length]? = a3 at h2
    generalize e4 : ρs[ss.length]? = a4 at h2
    generalize e5 : hs[ρs.length]? = a5 at h3
    generalize e6 : ss[ρs.length]? = a6 at h3
    cases h1; cases h2; cases h3
    rw [List.getElem?_eq_none_iff] at e1 e2 e3 e4 e5 e6
    omega
  intro i
  rcases Nat.lt_trichotomy i hs.length with hi | hi | hi
  · rw [List.getElem?_append_left hi, List.getElem?_append_left (by omega), List.getElem?_append_left (by omega)]
    exact h i
  · subst hi
    rw [List.getElem?_concat_length, hl.1, List.getElem?_concat_length, ← hl.1, hl.2, List.getElem?_concat_length]
    exact .live hx
  · rw [List.getElem?_eq_none (by simp; omega), List.getElem?_eq_none (by simp; omega), List.getElem?_eq_none (by simp; omega)]
    exact .out

theorem HandlesAt.set {hs : List (Option H)} {ss : List (Option σ)} {ρs : List (List (Item L))} (h : HandlesAt R hs ss ρs) {i : Nat}
    {x : Option H} {s : Option σ} {β : List (Item L)} (hx : HRel R (some x) (some s) (some β)) (hi : i < hs.length) :
    HandlesAt R (hs.set i x) (ss.set i s) (ρs.set i β) := by
  have hl : i < ss.length ∧ i < ρs.length := by
    have h1 := h i
    rw [List.getElem?_eq_getElem hi] at h1
    generalize e0 : hs[i] = a0 at h1
    generalize e1 : ss[i]? = a1 at h1
    generalize e2 : ρs[i]? = a2 at h1
    cases h1 <;> exact ⟨(List.getElem?_eq_some_iff.1 e1).1, (List.getElem?_eq_some_iff.1 e2).1⟩
  intro j
  by_cases hj : i = j
  · subst hj
    rw [List.getElem?_set_self hi, List.getElem?_set_self hl.1, List.getElem?_set_self hl.2]
    exact hx
  · rw [List.getElem?_set_ne hj, List.getElem?_set_ne hj, List.getElem?_set_ne hj]
    exact h j

/-- What the owner of one iterator knows: the iterator gives `xs`, and the items of the handle it borrows are still there, lent or
owned. -/
def ItRel (IR : List (Item L) → I → X → Prop) (B : List (Item L)) (sh : Nat → Bool) (ρs : List (List (Item L))) :
    Option (Nat × I) → Option (Nat × X) → Prop
  | none, none => True
  | some (i, it), some (i', xs) => i = i' ∧
    ∃ β, IR β it xs ∧ ((sh i = true ∧ ∃ C, B.Perm (β ++ C)) ∨ (sh i = false ∧ ρs[i]? = some β))
  | _, _ => False

/-- What a client with lent handles and iterators knows. -/
structure Iterating (R : H → σ → List (Item L) → Prop) (IR : List (Item L) → I → X → Prop) (B : List (Item L)) (sh : Nat → Bool)
    (hs : List (Option H)) (ss : List (Option σ)) (its : List (Option (Nat × I))) (pits : List (Option (Nat × X)))
    (ρs : List (List (Item L))) : Prop where
  own : HandlesAt R (owned sh hs) (owned sh ss) ρs
  lent : ∀ j, sh j = true →
    (∃ x s β C, hs[j]? = some (some x) ∧ ss[j]? = some (some s) ∧ R x s β ∧ B.Perm (β ++ C)) ∨
    (hs[j]? = some none ∧ ss[j]? = some none)
  its : List.Forall₂ (ItRel IR B sh ρs) its pits

theorem ItRel.mono {IR : List (Item L) → I → X → Prop} {B : List (Item L)} {sh : Nat → Bool} {ρs ρs' : List (List (Item L))}
    {o : Option (Nat × I)} {p : Option (Nat × X)} (h : ItRel IR B sh ρs o p)
    (hm : ∀ i it β, o = some (i, it) → sh i = false → ρs[i]? = some β → ρs'[i]? = some β) : ItRel IR B sh ρs' o p := by
  match o, p, h with
  | none, none, _ => trivial
  | some (i, it), some (_, xs), ⟨rfl, β, h1, h2⟩ =>
    refine ⟨rfl, β, h1, ?_⟩
    rcases h2 with h2 | ⟨h2, h3⟩
    · exact .inl h2
    · exact .inr ⟨h2, hm i it β rfl h2 h3⟩

theorem forall₂_imp_mem {α β : Type} {P Q : α → β → Prop} {as : List α} {bs : List β} (h : List.Forall₂ P as bs)
    (hi : ∀ a b, a ∈ as → b ∈ bs → P a b → Q a b) : List.Forall₂ Q as bs := by
  induction h with
  | nil => exact .nil
  | cons h1 _ ih => exact .cons (hi _ _ (by simp) (by simp) h1) (ih fun a b ha hb => hi a b (by simp [ha]) (by simp [hb]))

theorem forall₂_get {α β : Type} {P : α → β → Prop} {as : List α} {bs : List β} (h : List.Forall₂ P as bs) (j : Nat) :
    (∃ a b, as[j]? = some a ∧ bs[j]? = some b ∧ P a b) ∨ (as[j]? = none ∧ bs[j]? = none) := by
  induction h generalizing j with
  | nil => simp
  | cons h1 _ ih =>
    cases j with
    | zero => exact .inl ⟨_, _, rfl, rfl, h1⟩
    | succ j => simpa using ih j

theorem forall₂_set {α β : Type} {P : α → β → Prop} {as : List α} {bs : List β} (h : List.Forall₂ P as bs) (j : Nat) {a : α} {b : β}
    (hp : P a b) : List.Forall₂ P (as.set j a) (bs.set j b) := by
  induction h generalizing j with
  | nil => simp
  | cons h1 h2 ih =>
    cases j with
    | zero => exact .cons hp h2
    | succ j => exact .cons h1 (ih j)

theorem forall₂_snoc {α β : Type} {P : α → β → Prop} {as : List α} {bs : List β} (h : List.Forall₂ P as bs) {a : α} {b : β}
    (hp : P a b) : List.Forall₂ P (as ++ [a]) (bs ++ [b]) := by
  induction h with
  | nil => exact .cons hp .nil
  | cons h1 _ ih => exact .cons h1 ih

section
variable {IR : List (Item L) → I → X → Prop} {B : List (Item L)} {sh : Nat → Bool} {hs : List (Option H)} {ss : List (Option σ)}
  {its : List (Option (Nat × I))} {pits : List (Option (Nat × X))} {ρs : List (List (Item L))}

theorem Iterating.toLent (h : Iterating R IR B sh hs ss its pits ρs) : Lent R B sh hs ss ρs.flatten := ⟨h.own.handles, h.lent⟩

theorem Iterating.of {ρ : List (Item L)} (h : Lent R B sh hs ss ρ) :
    ∃ ρs, ρ = ρs.flatten ∧ Iterating R IR B sh hs ss [] [] ρs := by
  obtain ⟨ρs, h1, h2⟩ := h.own.itemsAt
  exact ⟨ρs, h1, h2, h.lent, .nil⟩

theorem HandlesAt.lengths (h : HandlesAt R hs ss ρs) : hs.length = ss.length ∧ hs.length = ρs.length := by
  have h1 := h hs.length
  have h2 := h ss.length
  have h3 := h ρs.length
  simp only [List.getElem?_eq_none (Nat.le_refl hs.length), List.getElem?_eq_none (Nat.le_refl ss.length),
    List.getElem?_eq_none (Nat.le_refl ρs.length)] at h1 h2 h3
  generalize e1 : ss[hs.length]? = a1 at h1
  generalize e2 : ρs[hs.length]? = a2 at h1
  generalize e3 : hs[ss.length]? = a3 at h2
  generalize e4 : ρs[ss.length]? = a4 at h2
  generalize e5 : hs[ρs.length]? = a5 at h3
  generalize e6 : ss[ρs.length]? = a6 at h3
  cases h1; cases h2; cases h3
  rw [List.getElem?_eq_none_iff] at e1 e2 e3 e4 e5 e6
  omega

theorem Iterating.snoc (h : Iterating R IR B sh hs ss its pits ρs) {x : H} {s : σ} {β : List (Item L)} (hx : R x s β) :
    Iterating R IR B sh (hs ++ [some x]) (ss ++ [some s]) its pits (ρs ++ [β]) := by
  have hlen := h.own.lengths
  simp only [owned, keepIf_length] at hlen
  have hn : sh (0 + hs.length) = false := by
    cases e : sh (0 + hs.length) with
    | false => rfl
    | true => have := (h.toLent.lt e).1; omega
  refine ⟨?_, (h.toLent.snoc hx).lent, forall₂_imp_mem h.its fun o p _ _ hr => hr.mono fun i it β _ _ hb => ?_⟩
  · rw [owned, owned, keepIf_append _ _ _ _ hn, keepIf_append _ _ _ _ (by rw [← hlen.1]; exact hn)]
    exact h.own.snoc hx
  · rw [List.getElem?_append_left (List.getElem?_eq_some_iff.1 hb).1]
    exact hb

theorem Iterating.set (h : Iterating R IR B sh hs ss its pits ρs) {i : Nat} (hi : sh i = false) (hlt : i < hs.length)
    (hb : busy pits i = false) {x : Option H} {s : Option σ} {β : List (Item L)} (hx : HRel R (some x) (some s) (some β)) :
    Iterating R IR B sh (hs.set i x) (ss.set i s) its pits (ρs.set i β) := by
  refine ⟨?_, fun j hj => ?_, forall₂_imp_mem h.its fun o p _ hp hr => hr.mono ?_⟩
  · rw [owned, owned, keepIf_set _ _ _ _ _ (by simpa using hi), keepIf_set _ _ _ _ _ (by simpa using hi)]
    exact h.own.set hx (by simpa [owned, keepIf_length] using hlt)
  · have hne : i ≠ j := by
      rintro rfl
      rw [hi] at hj
      cases hj
    rw [List.getElem?_set_ne hne, List.getElem?_set_ne hne]
    exact h.lent j hj
  · rintro k it γ rfl hk hγ
    match p, hr, hp with
    | some (_, xs), ⟨rfl, _⟩, hp =>
      have hne : i ≠ k := by
        rintro rfl
        rw [busy, List.any_eq_false] at hb
        exact hb _ hp (by simp)
      rw [List.getElem?_set_ne hne]
      exact hγ

/-- Handle `i` and its items. -/
theorem Iterating.get (h : Iterating R IR B sh hs ss its pits ρs) (i : Nat) :
    (∃ x s β, hs[i]? = some (some x) ∧ ss[i]? = some (some s) ∧ R x s β ∧
      ((sh i = true ∧ ∃ C, B.Perm (β ++ C)) ∨ (sh i = false ∧ ρs[i]? = some β))) ∨
    ((∀ x, hs[i]? ≠ some (some x)) ∧ ∀ s, ss[i]? ≠ some (some s)) := by
  cases hsh : sh i with
  | true =>
    rcases h.lent i hsh with ⟨x, s, β, C, h1, h2, h3, h4⟩ | ⟨h1, h2⟩
    · exact .inl ⟨x, s, β, h1, h2, h3, .inl ⟨rfl, C, h4⟩⟩
    · exact .inr ⟨by simp [h1], by simp [h2]⟩
  | false =>
    have h1 := h.own i
    rw [owned_get hsh, owned_get hsh] at h1
    generalize e1 : hs[i]? = a1 at h1
    generalize e2 : ss[i]? = a2 at h1
    generalize e3 : ρs[i]? = a3 at h1
    cases h1 with
    | out => exact .inr ⟨by simp, by simp⟩
    | dead => exact .inr ⟨by simp, by simp⟩
    | live hl => exact .inl ⟨_, _, _, rfl, rfl, hl, .inr ⟨rfl, rfl⟩⟩

/-- Something that borrows the items of a handle. -/
theorem SafeB.through {α : Type} {Q : α → List (Item L) → Prop} {prog : Prog L α} {β : List (Item L)} {i : Nat}
    (hs : SafeB A none β Q prog [])
    (hb : (sh i = true ∧ ∃ C, B.Perm (β ++ C)) ∨ (sh i = false ∧ ρs[i]? = some β)) :
    SafeB A none B (fun r σ => ∃ τ, σ.Perm (τ ++ ρs.flatten) ∧ Q r τ) prog ρs.flatten := by
  rcases hb with ⟨-, C, hC⟩ | ⟨-, hβ⟩
  · refine (SafeB.frame (hs.more hC) ρs.flatten).imp ?_
    rintro r _ ⟨τ, rfl, h2⟩
    exact ⟨τ, .refl _, h2⟩
  · have hp := flatten_perm hβ
    refine ((SafeB.frame (SafeB.keep hs) (ρs.set i []).flatten).imp ?_).perm (by simpa using hp)
    rintro r _ ⟨_, rfl, τ, rfl, h2⟩
    refine ⟨τ, ?_, h2⟩
    rw [List.append_assoc]
    exact hp.symm.append_left τ

end

/-- The commands of a client with iterators use the handles at the positions `sh` only through `&`. -/
def RespectsI {Op J : Type} (sh : Nat → Bool) (byRef : Op → Bool) (cmds : List (ICmd Op J)) : Prop :=
  ∀ c ∈ cmds, match c with
    | .cmd (.run i op) => sh i = true → byRef op = true
    | .cmd (.discard i) => sh i = false
    | _ => True

/-- One command of a client with iterators. -/
theorem safeB_clientStep {impl : Impl L H Op Ret} {new : σ} {step : σ → Op → Res (Ret × Effect σ)} {byRef : Op → Bool}
    (hr : impl.Refines A new step R) (hl : impl.Lends A step R byRef) {IR : List (Item L) → I → X → Prop}
    {B : List (Item L)} {sh : Nat → Bool} {hs : List (Option H)} {ss : List (Option σ)}
    {its : List (Option (Nat × I))} {pits : List (Option (Nat × X))} {ρs : List (List (Item L))}
    (h : Iterating R IR B sh hs ss its pits ρs) (c : Cmd Op) (hc : RespectsI (J := J) sh byRef [.cmd c])
    (ha : allowed byRef pits c = true) {a : Option Ret} {ss' : List (Option σ)} (he : pureStep new step ss c = .ok (a, ss')) :
    SafeB A none B (fun x τ => x.1 = a ∧ ∃ ρs', τ.Perm ρs'.flatten ∧ Iterating R IR B sh x.2 ss' its pits ρs') (clientStep impl hs c)
      ρs.flatten := by
  have miss : ∀ {i : Nat} {α β : Type} {f : H → α} {b : α} {g : σ → β} {d : β}, (∀ x, hs[i]? ≠ some (some x)) →
      (∀ s, ss[i]? ≠ some (some s)) →
      (match hs[i]? with | some (some x) => f x | _ => b) = b ∧ (match ss[i]? with | some (some s) => g s | _ => d) = d := by
    intro i α β f b g d h1 h2
    constructor
    · split
      · next h' => exact absurd h' (h1 _)
      · rfl
    · split
      · next h' => exact absurd h' (h2 _)
      · rfl
  have hc1 := hc _ (List.mem_singleton.2 rfl)
  cases c with
  | new =>
    cases he
    refine SafeB.bindFrame (ρ := []) (F := ρs.flatten) hr.new.borrowing (by simp) ?_
    intro x τ hx
    refine SafeB.ret ⟨rfl, ρs ++ [τ], ?_, h.snoc hx⟩
    simpa using List.perm_append_comm
  | run i op =>
    simp only [clientStep, pureStep] at he ⊢
    rcases h.get i with ⟨x, s, β, h1, h2, h3, h4⟩ | ⟨h1, h2⟩
    · simp only [h1, h2] at he ⊢
      cases hst : step s op with
      | error e => simp [hst] at he
      | ok y =>
        obtain ⟨r, e⟩ := y
        simp only [hst, Res.ok_bind, Except.ok.injEq, Prod.mk.injEq] at he
        obtain ⟨rfl, rfl⟩ := he
        cases hbr : byRef op with
        | true =>
          refine SafeB.bind (SafeB.through (hl.step x s β op r e h3 hbr hst) h4) ?_
          rintro ⟨r', e'⟩ τ ⟨τ', hp, rfl, heff⟩
          cases heff with
          | keep => exact SafeB.ret ⟨rfl, ρs, hp, h⟩
          | fresh hf =>
            refine SafeB.ret ⟨rfl, ρs ++ [τ'], hp.trans ?_, h.snoc hf⟩
            simpa using List.perm_append_comm
        | false =>
          have hsh : sh i = false := by
            cases hsh : sh i with
            | false => rfl
            | true => have := hc1 hsh; rw [hbr] at this; cases this
          have hb : busy pits i = false := by simpa [allowed, hbr] using ha
          rcases h4 with ⟨h4, -⟩ | ⟨-, hβ⟩
          · rw [hsh] at h4; cases h4
          have hlt : i < hs.length := (List.getElem?_eq_some_iff.1 h1).1
          refine SafeB.bindFrame (F := (ρs.set i []).flatten) (hr.step x s β op r e h3 hst).borrowing (flatten_perm hβ) ?_
          rintro ⟨r', e'⟩ τ ⟨rfl, heff⟩
          cases heff with
          | keep hk =>
            have := h.set hsh hlt hb (HRel.live hk)
            rw [set_self h1, set_self h2] at this
            exact SafeB.ret ⟨rfl, _, (flatten_set_perm hβ τ).symm, this⟩
          | @fresh h' s' τ₁ τ₂ hf hk =>
            have := h.set hsh hlt hb (HRel.live hk)
            rw [set_self h1, set_self h2] at this
            refine SafeB.ret ⟨rfl, _, ?_, this.snoc hf⟩
            rw [List.flatten_append, List.flatten_cons, List.flatten_nil, List.append_nil]
            refine List.Perm.trans ?_ ((flatten_set_perm hβ τ₂).symm.append_right τ₁)
            perm_tac
          | update hu =>
            exact SafeB.ret ⟨rfl, _, (flatten_set_perm hβ τ).symm, h.set hsh hlt hb (HRel.live hu)⟩
    · have hm := @miss i
      rw [(hm h1 h2 (d := ())  (g := fun _ => ())).1]
      rw [(hm h1 h2 (b := ()) (f := fun _ => ())).2] at he
      cases he
      exact SafeB.ret ⟨rfl, ρs, .refl _, h⟩
  | discard i =>
    have hsh : sh i = false := hc1
    have hb : busy pits i = false := by simpa [allowed] using ha
    simp only [clientStep, pureStep] at he ⊢
    rcases h.get i with ⟨x, s, β, h1, h2, h3, h4⟩ | ⟨h1, h2⟩
    · simp only [h1, h2] at he ⊢
      rcases h4 with ⟨h4, -⟩ | ⟨-, hβ⟩
      · rw [hsh] at h4; cases h4
      cases he
      refine SafeB.bindFrame (F := (ρs.set i []).flatten) (hr.drop x s β h3).borrowing (flatten_perm hβ) ?_
      rintro _ _ rfl
      exact SafeB.ret ⟨rfl, _, .refl _, h.set hsh (List.getElem?_eq_some_iff.1 h1).1 hb .dead⟩
    · have hm := @miss i
      rw [(hm h1 h2 (d := ())  (g := fun _ => ())).1]
      rw [(hm h1 h2 (b := ()) (f := fun _ => ())).2] at he
      cases he
      exact SafeB.ret ⟨rfl, ρs, .refl _, h⟩

/-- A client with iterators gets the answers and the items of the plain values. -/
theorem safeB_iclient {impl : Impl L H Op Ret} {new : σ} {step : σ → Op → Res (Ret × Effect σ)} {byRef : Op → Bool}
    (hr : impl.Refines A new step R) (hl : impl.Lends A step R byRef) {ii : IterImpl L H J I Y} {seq : σ → J → Res X}
    {inext : Bool → X → Res (Y × X)} {IR : List (Item L) → I → X → Prop}
    (hi : ii.Iterates A R seq inext IR) {B : List (Item L)} {sh : Nat → Bool} (cmds : List (ICmd Op J))
    (hc : RespectsI sh byRef cmds) {hs : List (Option H)} {ss : List (Option σ)}
    {its : List (Option (Nat × I))} {pits : List (Option (Nat × X))}
    {ρs : List (List (Item L))} (h : Iterating R IR B sh hs ss its pits ρs) {rs : List (Option (Ret ⊕ Y))} {ss' : List (Option σ)}
    (he : pureIClient new step byRef seq inext ss pits cmds = .ok (rs, ss')) :
    SafeB A none B (fun x τ => x.1 = rs ∧ ∃ τ', τ.Perm τ' ∧ Lent R B sh x.2 ss' τ') (iclient impl ii hs its cmds) ρs.flatten := by
  induction cmds generalizing hs ss its pits ρs rs with
  | nil =>
    simp only [pureIClient, Except.ok.injEq, Prod.mk.injEq] at he
    obtain ⟨rfl, rfl⟩ := he
    exact SafeB.ret ⟨rfl, _, .refl _, h.toLent⟩
  | cons c cmds ih =>
    have hcs : RespectsI sh byRef cmds := fun c hm => hc c (by simp [hm])
    have fin : ∀ {hs' : List (Option H)} {ss₁ : List (Option σ)} {its' : List (Option (Nat × I))} {pits' : List (Option (Nat × X))}
        {ρs' : List (List (Item L))} {ρ : List (Item L)} {a : Option (Ret ⊕ Y)}
        {rs₁ : List (Option (Ret ⊕ Y))}, ρ.Perm ρs'.flatten → Iterating R IR B sh hs' ss₁ its' pits' ρs' →
        pureIClient new step byRef seq inext ss₁ pits' cmds = .ok (rs₁, ss') →
        SafeB A none B (fun x τ => x.1 = a :: rs₁ ∧ ∃ τ', τ.Perm τ' ∧ Lent R B sh x.2 ss' τ')
          (Prog.bind (iclient impl ii hs' its' cmds) fun x => .ret (a :: x.1, x.2)) ρ := by
      intro hs' ss₁ its' pits' ρs' ρ a rs₁ hp h' he'
      refine SafeB.bind ((ih hcs h' he').perm hp) ?_
      rintro ⟨x1, x2⟩ τ ⟨rfl, h2⟩
      exact SafeB.ret ⟨rfl, h2⟩
    have split : ∀ {ss₁ : List (Option σ)} {pits' : List (Option (Nat × X))} {a : Option (Ret ⊕ Y)}, (do
        let x ← pureIClient new step byRef seq inext ss₁ pits' cmds
        .ok (a :: x.1, x.2) : Res _) = .ok (rs, ss') →
          ∃ rs₁, pureIClient new step byRef seq inext ss₁ pits' cmds = .ok (rs₁, ss') ∧ rs = a :: rs₁ := by
      intro ss₁ pits' a he
      cases hp : pureIClient new step byRef seq inext ss₁ pits' cmds with
      | error e => simp [hp] at he
      | ok x =>
        obtain ⟨x1, x2⟩ := x
        simp [hp] at he
        obtain ⟨rfl, rfl⟩ := he
        exact ⟨x1, rfl, rfl⟩
    cases c with
    | cmd c =>
      simp only [iclient, pureIClient] at he ⊢
      by_cases ha : allowed byRef pits c = true
      case neg => simp [ha] at he
      simp only [ha, if_true] at he
      cases hst : pureStep new step ss c with
      | error e => simp [hst] at he
      | ok y =>
        obtain ⟨a, ss₁⟩ := y
        simp only [hst, Res.ok_bind] at he
        obtain ⟨rs₁, he', rfl⟩ := split he
        refine SafeB.bind (safeB_clientStep (J := J) hr hl h c (fun x hx => hc x (by simp at hx; simp [hx])) ha hst) ?_
        rintro ⟨a', hs'⟩ τ ⟨rfl, ρs', hp, h'⟩
        exact fin hp h' he'
    | iter i which =>
      simp only [iclient, pureIClient] at he ⊢
      rcases h.get i with ⟨x, s, β, h1, h2, h3, h4⟩ | ⟨h1, h2⟩
      · simp only [h1, h2] at he ⊢
        cases hst : seq s which with
        | error e => simp [hst] at he
        | ok xs =>
          simp only [hst, Res.ok_bind] at he
          obtain ⟨rs₁, he', rfl⟩ := split he
          refine SafeB.bind (SafeB.through (hi.start x s β which xs h3 hst) h4) ?_
          rintro it τ ⟨_, hp, rfl, hit⟩
          exact fin hp ⟨h.own, h.lent, forall₂_snoc h.its (b := some (i, xs)) ⟨rfl, β, hit, h4⟩⟩ he'
      · have he' : (do
            let x ← pureIClient new step byRef seq inext ss (pits ++ [none]) cmds
            .ok (none :: x.1, x.2) : Res _) = .ok (rs, ss') := by
          cases hy : ss[i]? with
          | none => simpa only [hy] using he
          | some y =>
            cases y with
            | none => simpa only [hy] using he
            | some s => exact absurd hy (h2 s)
        obtain ⟨rs₁, he2, rfl⟩ := split he'
        have := fin (.refl _) ⟨h.own, h.lent, forall₂_snoc h.its (a := none) (b := none) trivial⟩ he2 (a := none)
        cases hy : hs[i]? with
        | none => simpa only [hy] using this
        | some y =>
          cases y with
          | none => simpa only [hy] using this
          | some s => exact absurd hy (h1 s)
    | next j back =>
      simp only [iclient, pureIClient] at he ⊢
      rcases forall₂_get h.its j with ⟨o, p, e1, e2, hrel⟩ | ⟨e1, e2⟩
      · match o, p, hrel with
        | none, none, _ =>
          simp only [e1, e2] at he ⊢
          obtain ⟨rs₁, he', rfl⟩ := split he
          exact fin (.refl _) h he'
        | some (i, it), some (_, xs), ⟨rfl, β, h1, h2⟩ =>
          simp only [e1, e2] at he ⊢
          cases hst : inext back xs with
          | error e => simp [hst] at he
          | ok y =>
            obtain ⟨y, ys⟩ := y
            simp only [hst, Res.ok_bind] at he
            obtain ⟨rs₁, he', rfl⟩ := split he
            refine SafeB.bind (SafeB.through (hi.next β it xs back y ys h1 hst) h2) ?_
            rintro ⟨y', it'⟩ τ ⟨_, hp, rfl, rfl, hit⟩
            exact fin hp ⟨h.own, h.lent, forall₂_set h.its j (b := some (i, ys)) ⟨rfl, β, hit, h2⟩⟩ he'
      · simp only [e1, e2] at he ⊢
        obtain ⟨rs₁, he', rfl⟩ := split he
        exact fin (.refl _) h he'
    | stop j =>
      simp only [iclient, pureIClient] at he ⊢
      obtain ⟨rs₁, he', rfl⟩ := split he
      exact fin (.refl _) ⟨h.own, h.lent, forall₂_set h.its j (b := none) trivial⟩ he'

/-- The threads with their handles; thread `i` runs the commands `cmdss[i]`, with iterators. -/
def iteratingThreads (impl : Impl L H Op Ret) (ii : IterImpl L H J I Y) (sh : Nat → Bool) (owner : Nat → Nat) (hs : List (Option H))
    (cmdss : List (List (ICmd Op J))) : List (Thread L (List (Option (Ret ⊕ Y)) × List (Option H))) :=
  (cmdss.mapIdx fun i cmds => iclient impl ii (lentTo sh owner i hs) [] cmds).map .start

/-- Threads with iterators on the handles lent to them and on their own. -/
theorem IterImpl.Iterates.system {impl : Impl L H Op Ret} {new : σ} {step : σ → Op → Res (Ret × Effect σ)} {byRef : Op → Bool}
    (hr : impl.Refines A new step R) (hl : impl.Lends A step R byRef) {ii : IterImpl L H J I Y} {seq : σ → J → Res X}
    {inext : Bool → X → Res (Y × X)} {IR : List (Item L) → I → X → Prop}
    (hi : ii.Iterates A R seq inext IR) {hs : List (Option H)} {ss : List (Option σ)} {ρ : List (Item L)} {h : Mem L}
    (hh : Handles R hs ss ρ) (ho : Own h ρ) (sh : Nat → Bool) (hsh : ∀ j, sh j = true → j < ss.length) (owner : Nat → Nat)
    (cmdss : List (List (ICmd Op J))) (hc : ∀ cmds ∈ cmdss, RespectsI sh byRef cmds)
    (rss : List (List (Option (Ret ⊕ Y)))) (sss : List (List (Option σ)))
    (l1 : rss.length = cmdss.length) (l2 : sss.length = cmdss.length)
    (he : ∀ i cmds rs ss', cmdss[i]? = some cmds → rss[i]? = some rs → sss[i]? = some ss' →
      pureIClient new step byRef seq inext (lentTo sh owner i ss) [] cmds = .ok (rs, ss')) :
    SharingSystem A R sh rss sss (lentOf sh hs) (idleOf sh owner cmdss.length hs) (lentOf sh ss)
      (idleOf sh owner cmdss.length ss) (iteratingThreads impl ii sh owner hs cmdss) h := by
  have := hh.system (A := A) ho sh hsh owner (cmdss.mapIdx fun i cmds => iclient impl ii (lentTo sh owner i hs) [] cmds) rss sss
    (by simpa using l1) (by simpa using l2) (by
      intro i prog rs ss' B ρ' h1 h2 h3 h4
      rw [List.getElem?_mapIdx] at h1
      cases hci : cmdss[i]? with
      | none => simp [hci] at h1
      | some cmds =>
        simp only [hci, Option.map_some, Option.some.injEq] at h1
        subst h1
        obtain ⟨ρs, rfl, h5⟩ := Iterating.of (IR := IR) h4
        exact safeB_iclient hr hl hi cmds (hc cmds (List.mem_of_getElem? hci)) h5 (he i cmds rs ss' hci h2 h3))
  simpa [iteratingThreads] using this

end
end Heap
end Rpds
