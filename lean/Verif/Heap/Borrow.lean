import Verif.Heap.Logic
/-
Programs that borrow.  `SafeB A D B Q prog ρ` is `Safe A D Q prog ρ` in the presence of borrowed items `B`: the program owns `ρ`,
and it may follow and clone the pointers of `B`, which somebody else owns and keeps (`&T` in Rust).  Any number of threads can borrow
the same items at the same time.
-/
set_option autoImplicit false
namespace Rpds
namespace Heap
variable {L : Type}

/-- What `prog` does is safe when it owns `ρ` and borrows `B`; its result and the items it owns then satisfy `Q`. -/
def SafeB (A : Allocator L) (D : Option Nat) (B : List (Item L)) {α : Type} (Q : α → List (Item L) → Prop) :
    Prog L α → List (Item L) → Prop
  | .ret r, ρ => ∃ σ, ρ.Perm σ ∧ Q r σ
  | .panic, _ => False
  | .op a k, ρ => a.Held ρ ∧ ∀ h F, Own h (ρ ++ (B ++ F)) →
    ∃ x h' ρ', act A a h = .ok (x, h') ∧ Own h' (ρ' ++ (B ++ F)) ∧ SafeB A D B Q (k x) ρ'
  | .drop p k, ρ => ∃ t σ, ρ.Perm (.ptr t :: σ) ∧ t.addr = p ∧ Within D (nest (reach σ) t) ∧ SafeB A D B Q k σ

variable {A : Allocator L} {D : Option Nat} {B : List (Item L)}

/-- A program that needs nothing borrowed. -/
theorem Safe.borrowing {α : Type} {Q : α → List (Item L) → Prop} {prog : Prog L α} {ρ : List (Item L)}
    (hs : Safe A D Q prog ρ) : SafeB A D B Q prog ρ := by
  induction prog generalizing ρ with
  | ret r => exact hs
  | panic => exact hs
  | op a k ih =>
    refine ⟨hs.1, fun h F ho => ?_⟩
    obtain ⟨x, h', ρ', h1, h2, h3⟩ := hs.2 h _ ho
    exact ⟨x, h', ρ', h1, h2, ih x h3⟩
  | drop p k ih =>
    obtain ⟨t, τ, h1, h2, h3, h4⟩ := hs
    exact ⟨t, τ, h1, h2, h3, ih h4⟩

theorem SafeB.perm {α : Type} {Q : α → List (Item L) → Prop} {prog : Prog L α} {ρ σ : List (Item L)}
    (hs : SafeB A D B Q prog ρ) (hp : σ.Perm ρ) : SafeB A D B Q prog σ := by
  cases prog with
  | ret r =>
    obtain ⟨τ, h1, h2⟩ := hs
    exact ⟨τ, hp.trans h1, h2⟩
  | panic => exact hs
  | op a k =>
    exact ⟨hs.1.perm hp, fun h F ho => hs.2 h F (ho.perm (hp.append_right _))⟩
  | drop p k =>
    obtain ⟨t, τ, h1, h2⟩ := hs
    exact ⟨t, τ, hp.trans h1, h2⟩

theorem SafeB.imp {α : Type} {Q R : α → List (Item L) → Prop} {prog : Prog L α} {ρ : List (Item L)}
    (hs : SafeB A D B Q prog ρ) (hq : ∀ r σ, Q r σ → R r σ) : SafeB A D B R prog ρ := by
  induction prog generalizing ρ with
  | ret r =>
    obtain ⟨τ, h1, h2⟩ := hs
    exact ⟨τ, h1, hq _ _ h2⟩
  | panic => exact hs
  | op a k ih =>
    refine ⟨hs.1, fun h F ho => ?_⟩
    obtain ⟨x, h', ρ', h1, h2, h3⟩ := hs.2 h F ho
    exact ⟨x, h', ρ', h1, h2, ih x h3⟩
  | drop p k ih =>
    obtain ⟨t, τ, h1, h2, h3, h4⟩ := hs
    exact ⟨t, τ, h1, h2, h3, ih h4⟩

theorem SafeB.bind {α β : Type} {Q : α → List (Item L) → Prop} {R : β → List (Item L) → Prop} {prog : Prog L α}
    {f : α → Prog L β} {ρ : List (Item L)} (hs : SafeB A D B Q prog ρ)
    (hf : ∀ r σ, Q r σ → SafeB A D B R (f r) σ) : SafeB A D B R (prog.bind f) ρ := by
  induction prog generalizing ρ with
  | ret r =>
    obtain ⟨τ, h1, h2⟩ := hs
    exact (hf _ _ h2).perm h1
  | panic => exact hs
  | op a k ih =>
    refine ⟨hs.1, fun h F ho => ?_⟩
    obtain ⟨x, h', ρ', h1, h2, h3⟩ := hs.2 h F ho
    exact ⟨x, h', ρ', h1, h2, ih x h3⟩
  | drop p k ih =>
    obtain ⟨t, τ, h1, h2, h3, h4⟩ := hs
    exact ⟨t, τ, h1, h2, h3, ih h4⟩

theorem SafeB.frame {α : Type} {Q : α → List (Item L) → Prop} {prog : Prog L α} {ρ : List (Item L)}
    (hs : SafeB A D B Q prog ρ) (R : List (Item L)) :
    SafeB A D B (fun r σ => ∃ τ, σ = τ ++ R ∧ Q r τ) prog (ρ ++ R) := by
  induction prog generalizing ρ with
  | ret r =>
    obtain ⟨τ, h1, h2⟩ := hs
    exact ⟨τ ++ R, h1.append_right R, τ, rfl, h2⟩
  | panic => exact hs
  | op a k ih =>
    refine ⟨hs.1.append R, fun h F ho => ?_⟩
    have hp : ∀ ρ : List (Item L), (ρ ++ R ++ (B ++ F)).Perm (ρ ++ (B ++ (R ++ F))) := by
      intro ρ
      perm_tac
    obtain ⟨x, h', ρ', h1, h2, h3⟩ := hs.2 h _ (ho.perm (hp ρ))
    exact ⟨x, h', ρ' ++ R, h1, h2.perm (hp ρ').symm, ih x h3⟩
  | drop p k ih =>
    obtain ⟨t, τ, h1, h2, h3, h4⟩ := hs
    refine ⟨t, τ ++ R, h1.append_right R, h2, h3.mono (nest_mono ?_ t), ih h4⟩
    intro a ha
    simp only [reach, List.flatMap_append, List.mem_append]
    exact .inl ha

theorem SafeB.bindFrame {α β : Type} {Q : α → List (Item L) → Prop} {R : β → List (Item L) → Prop} {prog : Prog L α}
    {f : α → Prog L β} {ρ σ F : List (Item L)} (hs : SafeB A D B Q prog ρ) (hp : σ.Perm (ρ ++ F))
    (hf : ∀ r τ, Q r τ → SafeB A D B R (f r) (τ ++ F)) : SafeB A D B R (prog.bind f) σ :=
  SafeB.bind ((hs.frame F).perm hp) fun r τ h => by
    obtain ⟨υ, rfl, h2⟩ := h
    exact hf r υ h2

theorem SafeB.ret {α : Type} {Q : α → List (Item L) → Prop} {r : α} {ρ : List (Item L)} (h : Q r ρ) :
    SafeB A D B Q (.ret r) ρ := ⟨ρ, .refl _, h⟩

/-- More can be borrowed than is needed. -/
theorem SafeB.more {α : Type} {Q : α → List (Item L) → Prop} {prog : Prog L α} {ρ : List (Item L)}
    (hs : SafeB A D B Q prog ρ) {B' C : List (Item L)} (hp : B'.Perm (B ++ C)) : SafeB A D B' Q prog ρ := by
  induction prog generalizing ρ with
  | ret r => exact hs
  | panic => exact hs
  | op a k ih =>
    refine ⟨hs.1, fun h F ho => ?_⟩
    have hq : ∀ ρ : List (Item L), (ρ ++ (B' ++ F)).Perm (ρ ++ (B ++ (C ++ F))) := by
      intro ρ
      rw [← List.append_assoc B]
      exact (hp.append_right F).append_left ρ
    obtain ⟨x, h', ρ', h1, h2, h3⟩ := hs.2 h _ (ho.perm (hq ρ))
    exact ⟨x, h', ρ', h1, h2.perm (hq ρ').symm, ih x h3⟩
  | drop p k ih =>
    obtain ⟨t, τ, h1, h2, h3, h4⟩ := hs
    exact ⟨t, τ, h1, h2, h3, ih h4⟩

/-- Cloning a pointer that can be reached from a borrowed one. -/
theorem safeB_clone {s t : ATree L} (hs : Sub s t) (ht : .ptr t ∈ B) (ρ : List (Item L)) :
    SafeB A D B (fun _ σ => σ = .ptr s :: ρ) (clone s.addr) ρ := by
  refine ⟨trivial, fun h F ho => ?_⟩
  have hv : Val h s := hs.val (ho.val t (by simp [ht]))
  obtain ⟨n, e, -⟩ := ho.mem_ptr_closed hv
  refine ⟨(), put h s.addr (.closed (n + 1) s.label (s.kids.map ATree.addr)), .ptr s :: ρ, ?_, ho.clone hv e, SafeB.ret rfl⟩
  simp [act, e]

/-- Reading a cell that can be reached from a borrowed pointer. -/
theorem safeB_read {s t : ATree L} (hs : Sub s t) (ht : .ptr t ∈ B) (ρ : List (Item L)) :
    SafeB A D B (fun c σ => c = (s.label, s.kids.map ATree.addr) ∧ σ = ρ) (read s.addr) ρ := by
  refine ⟨trivial, fun h F ho => ?_⟩
  have hv : Val h s := hs.val (ho.val t (by simp [ht]))
  obtain ⟨n, e, -⟩ := ho.mem_ptr_closed hv
  refine ⟨(s.label, s.kids.map ATree.addr), h, ρ, ?_, ho, SafeB.ret ⟨rfl, rfl⟩⟩
  simp [act, e]

/-! ### Programs that only read -/

/-- The program only reads. -/
def Prog.ReadsOnly {L α : Type} : Prog L α → Prop
  | .ret _ => True
  | .panic => True
  | .op (.read _) k => ∀ x, ReadsOnly (k x)
  | .op _ _ => False
  | .drop _ _ => False

theorem Prog.ReadsOnly.bind {α β : Type} {prog : Prog L α} {f : α → Prog L β} (h : prog.ReadsOnly)
    (hf : ∀ x, (f x).ReadsOnly) : (prog.bind f).ReadsOnly := by
  induction prog with
  | ret r => exact hf r
  | panic => trivial
  | op a k ih =>
    cases a with
    | read p => exact fun x => ih x (h x)
    | _ => exact h.elim
  | drop p k ih => exact h.elim

theorem readsOnly_read (p : Addr) : (read p : Prog L _).ReadsOnly := fun _ => trivial

theorem count_held {h : Mem L} [DecidableEq (Item L)] {t : ATree L} (ht : Val h t) {ρ : List (Item L)}
    (hρ : ∀ s, .ptr s ∈ ρ → Val h s) : ρ.count (.ptr t) = (held ρ).count t.addr := by
  induction ρ with
  | nil => rfl
  | cons x ρ ih =>
    have h1 := ih fun s hs => hρ s (by simp [hs])
    cases x with
    | opn a => simp [h1]
    | ptr s =>
      have h2 := hρ s (by simp)
      simp only [held_ptr, List.count_cons, h1]
      congr 1
      by_cases e : s.addr = t.addr
      · have := val_unique h2 ht e
        subst this
        simp
      · have : s ≠ t := fun e' => e (by rw [e'])
        simp [e, this]

theorem count_opens [DecidableEq (Item L)] (a : Addr) (ρ : List (Item L)) : ρ.count (.opn a) = (opens ρ).count a := by
  induction ρ with
  | nil => rfl
  | cons x ρ ih =>
    cases x with
    | ptr t => simp [ih]
    | opn b => simp [List.count_cons, ih]

/-- What is owned besides `F` is determined by the memory. -/
theorem Own.determined {h : Mem L} {ρ σ F : List (Item L)} (h1 : Own h (ρ ++ F)) (h2 : Own h (σ ++ F)) : σ.Perm ρ := by
  classical
  rw [List.perm_iff_count]
  have key : ∀ a, (held σ).count a = (held ρ).count a ∧ (opens σ).count a = (opens ρ).count a := by
    intro a
    have c1 := h1.cell a
    have c2 := h2.cell a
    simp only [held_append, opens_append, List.count_append] at c1 c2
    cases e : get h a with
    | free => simp only [e, CellOK] at c1 c2; omega
    | opened => simp only [e, CellOK] at c1 c2; omega
    | closed n l cs => simp only [e, CellOK] at c1 c2; omega
  intro x
  cases x with
  | opn a => rw [count_opens, count_opens, (key a).2]
  | ptr t =>
    by_cases hv : Val h t
    · rw [count_held hv fun s hs => h2.val s (by simp [hs]), count_held hv fun s hs => h1.val s (by simp [hs]), (key _).1]
    · rw [List.count_eq_zero_of_not_mem, List.count_eq_zero_of_not_mem]
      · exact fun hm => hv (h1.val t (by simp [hm]))
      · exact fun hm => hv (h2.val t (by simp [hm]))

/-- A program that only reads can do so with borrowed items. -/
theorem Safe.lend {α : Type} {Q : α → List (Item L) → Prop} {prog : Prog L α} (hs : Safe A D Q prog B)
    (hr : prog.ReadsOnly) : SafeB A D B (fun r σ => σ = [] ∧ ∃ τ, Q r τ) prog [] := by
  induction prog with
  | ret r =>
    obtain ⟨τ, h1, h2⟩ := hs
    exact ⟨[], .refl _, rfl, τ, h2⟩
  | panic => exact hs
  | op a k ih =>
    cases a with
    | read p =>
      refine ⟨trivial, fun h F ho => ?_⟩
      obtain ⟨x, h', ρ', h1, h2, h3⟩ := hs.2 h F ho
      have e : h' = h := by
        simp only [act] at h1
        split at h1 <;> cases h1
        rfl
      subst e
      exact ⟨x, h', [], h1, ho, ih x (h3.perm (h2.determined ho)) (hr x)⟩
    | _ => exact hr.elim
  | drop p k ih => exact hr.elim

end Heap
end Rpds
