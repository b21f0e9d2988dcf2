import Verif.Heap.Own
/-
Reasoning about programs one thread at a time: `Safe` tracks the items a program owns.  The memory is quantified anew
before every atomic action, so whatever other threads do in between (as long as they keep `Own`) is covered.
-/
set_option autoImplicit false
namespace Rpds
namespace Heap
variable {L : Type}

theorem Prog.bind_assoc {α β γ : Type} (p : Prog L α) (f : α → Prog L β) (g : β → Prog L γ) :
    (p.bind f).bind g = p.bind fun x => (f x).bind g := by
  induction p with
  | ret r => rfl
  | panic => rfl
  | op a k ih => simp only [Prog.bind, ih]
  | drop p k ih => simp only [Prog.bind, ih]

theorem Prog.bind_ret {α : Type} (p : Prog L α) : p.bind .ret = p := by
  induction p with
  | ret r => rfl
  | panic => rfl
  | op a k ih => simp only [Prog.bind, ih]
  | drop p k ih => simp only [Prog.bind, ih]

theorem perm_of_count {α : Type} {l₁ l₂ : List α} (h : ∀ [DecidableEq α] (a : α), l₁.count a = l₂.count a) :
    l₁.Perm l₂ := by
  classical
  exact List.perm_iff_count.2 (fun a => h a)

/-- Proves that two lists built from `++` and `::` are permutations of each other. -/
macro "perm_tac" : tactic => `(tactic| (refine perm_of_count ?_; intro _ a; simp only [List.count_append,
  List.count_cons, List.count_nil, List.append_assoc, List.map_cons, List.map_nil, List.map_append,
  List.singleton_append, List.nil_append, List.cons_append, List.append_nil]; try omega))

/-- How deep destructors can nest when a pointer to `t` is dropped while the addresses `H` stay referenced. -/
def nest (H : List Addr) : ATree L → Nat
  | .node a _ ts => if a ∈ H then 0 else go ts
where
  go : List (ATree L) → Nat
  | [] => 0
  | t :: ts => max (1 + nest H t) (go ts)

/-- Within an optional limit. -/
def Within (D : Option Nat) (n : Nat) : Prop := ∀ d, D = some d → n ≤ d

theorem Within.mono {D : Option Nat} {n m : Nat} (h : Within D n) (hm : m ≤ n) : Within D m :=
  fun d e => Nat.le_trans hm (h d e)

theorem within_none (n : Nat) : Within none n := fun _ e => nomatch e
theorem within_some {d n : Nat} : Within (some d) n ↔ n ≤ d := by simp [Within]

/-- A limit that allows what one operation on a tree frees by itself. -/
class Roomy (D : Option Nat) : Prop where
  within : Within D 3

instance : Roomy none := ⟨within_none 3⟩
instance (n : Nat) : Roomy (some (n + 3)) := ⟨within_some.2 (by omega)⟩

theorem within_roomy {D : Option Nat} [Roomy D] {n : Nat} (h : n ≤ 3) : Within D n := Roomy.within.mono h

/-- The test for uniqueness is only applied to a pointer that is held (never through another cell, or to one that is borrowed). -/
def Act.Held : Act L → List (Item L) → Prop
  | .tryOpen p, ρ => p ∈ held ρ
  | .tryTake p, ρ => p ∈ held ρ
  | _, _ => True

theorem Act.Held.mono {a : Act L} {ρ σ : List (Item L)} (h : a.Held ρ) (hs : ∀ p ∈ held ρ, p ∈ held σ) : a.Held σ := by
  cases a with
  | tryOpen p => exact hs p h
  | tryTake p => exact hs p h
  | _ => trivial

theorem Act.Held.perm {a : Act L} {ρ σ : List (Item L)} (h : a.Held ρ) (hp : σ.Perm ρ) : a.Held σ :=
  h.mono fun p hm => by
    rw [← List.count_pos_iff, held_perm hp, List.count_pos_iff]
    exact hm

theorem Act.Held.append {a : Act L} {ρ : List (Item L)} (h : a.Held ρ) (R : List (Item L)) : a.Held (ρ ++ R) :=
  h.mono fun p hm => by rw [held_append]; exact List.mem_append_left _ hm

/-- `prog`, started with the items `ρ`, never faults and ends with a result and items that satisfy `Q`, whatever other
threads do in the meantime; destructors nest at most `D` deep. -/
def Safe {α : Type} (A : Allocator L) (D : Option Nat) (Q : α → List (Item L) → Prop) :
    Prog L α → List (Item L) → Prop
  | .ret r, ρ => ∃ σ, ρ.Perm σ ∧ Q r σ
  | .panic, _ => False
  | .op a k, ρ => a.Held ρ ∧ ∀ h F, Own h (ρ ++ F) →
    ∃ x h' ρ', act A a h = .ok (x, h') ∧ Own h' (ρ' ++ F) ∧ Safe A D Q (k x) ρ'
  | .drop p k, ρ => ∃ t σ, ρ.Perm (.ptr t :: σ) ∧ t.addr = p ∧ Within D (nest (reach σ) t) ∧ Safe A D Q k σ

variable {A : Allocator L} {D : Option Nat}

theorem Safe.perm {α : Type} {Q : α → List (Item L) → Prop} {prog : Prog L α} {ρ σ : List (Item L)}
    (hs : Safe A D Q prog ρ) (hp : σ.Perm ρ) : Safe A D Q prog σ := by
  cases prog with
  | ret r =>
    obtain ⟨τ, h1, h2⟩ := hs
    exact ⟨τ, hp.trans h1, h2⟩
  | panic => exact hs
  | op a k =>
    exact ⟨hs.1.perm hp, fun h F ho => hs.2 h F (ho.perm (hp.append_right F))⟩
  | drop p k =>
    obtain ⟨t, τ, h1, h2⟩ := hs
    exact ⟨t, τ, hp.trans h1, h2⟩

theorem Safe.imp {α : Type} {Q R : α → List (Item L) → Prop} {prog : Prog L α} {ρ : List (Item L)}
    (hs : Safe A D Q prog ρ) (hq : ∀ r σ, Q r σ → R r σ) : Safe A D R prog ρ := by
  induction prog generalizing ρ with
  | ret r =>
    obtain ⟨τ, h1, h2⟩ := hs
    exact ⟨τ, h1, hq _ _ h2⟩
  | panic => exact hs
  | op a k ih =>
    refine ⟨hs.1, fun h F ho => ?_⟩
    obtain ⟨x, h', ρ', h1, h2, h3⟩ := hs.2 h F ho
    exact ⟨x, h', ρ', h1, h2, ih x h3⟩
  | drop p k ih =>
    obtain ⟨t, τ, h1, h2, h3, h4⟩ := hs
    exact ⟨t, τ, h1, h2, h3, ih h4⟩

theorem Safe.bind {α β : Type} {Q : α → List (Item L) → Prop} {R : β → List (Item L) → Prop} {prog : Prog L α}
    {f : α → Prog L β} {ρ : List (Item L)} (hs : Safe A D Q prog ρ)
    (hf : ∀ r σ, Q r σ → Safe A D R (f r) σ) : Safe A D R (prog.bind f) ρ := by
  induction prog generalizing ρ with
  | ret r =>
    obtain ⟨τ, h1, h2⟩ := hs
    exact (hf _ _ h2).perm h1
  | panic => exact hs
  | op a k ih =>
    refine ⟨hs.1, fun h F ho => ?_⟩
    obtain ⟨x, h', ρ', h1, h2, h3⟩ := hs.2 h F ho
    exact ⟨x, h', ρ', h1, h2, ih x h3⟩
  | drop p k ih =>
    obtain ⟨t, τ, h1, h2, h3, h4⟩ := hs
    exact ⟨t, τ, h1, h2, h3, ih h4⟩

theorem nest_mono {H H' : List Addr} (hH : ∀ a ∈ H, a ∈ H') (t : ATree L) : nest H' t ≤ nest H t := by
  induction t using ATree.ind with
  | h a l ts ih =>
    simp only [nest]
    have hgo : nest.go H' ts ≤ nest.go H ts := by
      induction ts with
      | nil => simp [nest.go]
      | cons t ts ih2 =>
        have h1 := ih t (by simp)
        have h2 := ih2 fun t ht => ih t (by simp [ht])
        simp only [nest.go]
        omega
    by_cases h1 : a ∈ H
    · simp [h1, hH a h1]
    · by_cases h2 : a ∈ H'
      · simp [h2]
      · simpa [h1, h2] using hgo

theorem nest_go_le_succ {H : List Addr} {ts : List (ATree L)} {n : Nat} (h : ∀ t ∈ ts, nest H t ≤ n) : nest.go H ts ≤ n + 1 := by
  induction ts with
  | nil => simp [nest.go]
  | cons t ts ih =>
    have h1 := h t (by simp)
    have h2 := ih fun t ht => h t (by simp [ht])
    simp only [nest.go]
    omega

theorem nest_le_go {H : List Addr} (t : ATree L) : nest H t ≤ nest.go H t.kids := by
  obtain ⟨a, l, ts⟩ := t
  simp only [nest]
  split
  · exact Nat.zero_le _
  · exact Nat.le_refl _

theorem nest_no_kids {H : List Addr} {t : ATree L} (h : t.kids = []) : nest H t = 0 := by
  have := nest_le_go (H := H) t
  rw [h] at this
  simpa [nest.go] using this

theorem nest_held {H : List Addr} {t : ATree L} (h : t.addr ∈ H) : nest H t = 0 := by
  obtain ⟨a, l, ts⟩ := t
  simp only [ATree.addr] at h
  simp [nest, h]

theorem nest_go_append {H : List Addr} {xs ys : List (ATree L)} {n : Nat} (hx : nest.go H xs ≤ n) (hy : nest.go H ys ≤ n) :
    nest.go H (xs ++ ys) ≤ n := by
  induction xs with
  | nil => exact hy
  | cons x xs ih =>
    simp only [nest.go, List.cons_append] at hx ⊢
    have := ih (by omega)
    omega

/-- Items that a program does not know about stay as they are. -/
theorem Safe.frame {α : Type} {Q : α → List (Item L) → Prop} {prog : Prog L α} {ρ : List (Item L)}
    (hs : Safe A D Q prog ρ) (R : List (Item L)) :
    Safe A D (fun r σ => ∃ τ, σ = τ ++ R ∧ Q r τ) prog (ρ ++ R) := by
  induction prog generalizing ρ with
  | ret r =>
    obtain ⟨τ, h1, h2⟩ := hs
    exact ⟨τ ++ R, h1.append_right R, τ, rfl, h2⟩
  | panic => exact hs
  | op a k ih =>
    refine ⟨hs.1.append R, fun h F ho => ?_⟩
    rw [List.append_assoc] at ho
    obtain ⟨x, h', ρ', h1, h2, h3⟩ := hs.2 h _ ho
    exact ⟨x, h', ρ' ++ R, h1, by rw [List.append_assoc]; exact h2, ih x h3⟩
  | drop p k ih =>
    obtain ⟨t, τ, h1, h2, h3, h4⟩ := hs
    refine ⟨t, τ ++ R, h1.append_right R, h2, h3.mono (nest_mono ?_ t), ih h4⟩
    intro a ha
    simp only [reach, List.flatMap_append, List.mem_append]
    exact .inl ha

/-- Frame rule followed by the rest of the program. -/
theorem Safe.bindFrame {α β : Type} {Q : α → List (Item L) → Prop} {R : β → List (Item L) → Prop} {prog : Prog L α}
    {f : α → Prog L β} {ρ σ F : List (Item L)} (hs : Safe A D Q prog ρ) (hp : σ.Perm (ρ ++ F))
    (hf : ∀ r τ, Q r τ → Safe A D R (f r) (τ ++ F)) : Safe A D R (prog.bind f) σ :=
  Safe.bind ((hs.frame F).perm hp) fun r τ h => by
    obtain ⟨υ, rfl, h2⟩ := h
    exact hf r υ h2

theorem Safe.ret {α : Type} {Q : α → List (Item L) → Prop} {r : α} {ρ : List (Item L)} (h : Q r ρ) :
    Safe A D Q (.ret r) ρ := ⟨ρ, .refl _, h⟩

/-! ### Rules for the actions -/

theorem safe_new (l : L) (ts : List (ATree L)) :
    Safe A D (fun a ρ => ρ = [.ptr (.node a l ts)]) (new l (ts.map ATree.addr)) (ts.map .ptr) := by
  refine ⟨trivial, fun h F ho => ?_⟩
  exact ⟨A.pick h, _, [.ptr (.node (A.pick h) l ts)], rfl, ho.new (A.fresh h) l, Safe.ret rfl⟩

theorem safe_newOpen : Safe A D (fun a ρ => ρ = [.opn a]) (newOpen (L := L)) [] := by
  refine ⟨trivial, fun h F ho => ?_⟩
  exact ⟨A.pick h, _, [.opn (A.pick h)], rfl, Own.newOpen ho (A.fresh h), Safe.ret rfl⟩

/-- A tree that can be reached from a pointer held. -/
inductive Sub : ATree L → ATree L → Prop where
  | refl (t : ATree L) : Sub t t
  | kid {s t u : ATree L} (h : Sub s t) (hk : u ∈ s.kids) : Sub u t

theorem Sub.val {h : Mem L} {s t : ATree L} (hs : Sub s t) (hv : Val h t) : Val h s := by
  induction hs with
  | refl => exact hv
  | kid h1 hk ih => exact val_kids (ih hv) _ hk

theorem Sub.of_kid {s t : ATree L} (h : s ∈ t.kids) : Sub s t := .kid (.refl t) h

theorem safe_clone {s t : ATree L} (hs : Sub s t) {ρ : List (Item L)} (ht : .ptr t ∈ ρ) :
    Safe A D (fun _ σ => σ = .ptr s :: ρ) (clone s.addr) ρ := by
  refine ⟨trivial, fun h F ho => ?_⟩
  have hv : Val h s := hs.val (ho.val t (by simp [ht]))
  obtain ⟨n, e, -⟩ := ho.mem_ptr_closed hv
  refine ⟨(), put h s.addr (.closed (n + 1) s.label (s.kids.map ATree.addr)), .ptr s :: ρ, ?_, ho.clone hv e, Safe.ret rfl⟩
  simp [act, e]

theorem safe_read {s t : ATree L} (hs : Sub s t) {ρ : List (Item L)} (ht : .ptr t ∈ ρ) :
    Safe A D (fun c σ => c = (s.label, s.kids.map ATree.addr) ∧ σ = ρ) (read s.addr) ρ := by
  refine ⟨trivial, fun h F ho => ?_⟩
  have hv : Val h s := hs.val (ho.val t (by simp [ht]))
  obtain ⟨n, e, -⟩ := ho.mem_ptr_closed hv
  refine ⟨(s.label, s.kids.map ATree.addr), h, ρ, ?_, ho, Safe.ret ⟨rfl, rfl⟩⟩
  simp [act, e]

theorem safe_tryOpen (t : ATree L) :
    Safe A D (fun r σ => (r = some (t.label, t.kids.map ATree.addr) ∧ σ = .opn t.addr :: t.kids.map .ptr) ∨
      (r = none ∧ σ = [.ptr t])) (tryOpen t.addr) [.ptr t] := by
  refine ⟨(by simp [Act.Held]), fun h F ho => ?_⟩
  have hv : Val h t := ho.val t (by simp)
  obtain ⟨n, e, -⟩ := ho.mem_ptr_closed hv
  by_cases hn : n = 1
  · subst hn
    refine ⟨some (t.label, t.kids.map ATree.addr), put h t.addr .opened, .opn t.addr :: t.kids.map .ptr, ?_, ?_,
      Safe.ret (.inl ⟨rfl, rfl⟩)⟩
    · simp [act, e]
    · have := Own.release (σ := [.opn t.addr]) ho e (.inr ⟨rfl, rfl⟩)
      simpa using this
  · refine ⟨none, h, [.ptr t], ?_, ho, Safe.ret (.inr ⟨rfl, rfl⟩)⟩
    simp [act, e, hn]

theorem safe_tryTake (t : ATree L) :
    Safe A D (fun r σ => (r = some (t.label, t.kids.map ATree.addr) ∧ σ = t.kids.map .ptr) ∨
      (r = none ∧ σ = [.ptr t])) (tryTake t.addr) [.ptr t] := by
  refine ⟨(by simp [Act.Held]), fun h F ho => ?_⟩
  have hv : Val h t := ho.val t (by simp)
  obtain ⟨n, e, -⟩ := ho.mem_ptr_closed hv
  by_cases hn : n = 1
  · subst hn
    refine ⟨some (t.label, t.kids.map ATree.addr), put h t.addr .free, t.kids.map .ptr, ?_, ?_,
      Safe.ret (.inl ⟨rfl, rfl⟩)⟩
    · simp [act, e]
    · have := Own.release (σ := []) ho e (.inl ⟨rfl, rfl⟩)
      simpa using this
  · refine ⟨none, h, [.ptr t], ?_, ho, Safe.ret (.inr ⟨rfl, rfl⟩)⟩
    simp [act, e, hn]

theorem safe_close (a : Addr) (l : L) (ts : List (ATree L)) :
    Safe A D (fun _ σ => σ = [.ptr (.node a l ts)]) (close a l (ts.map ATree.addr)) (.opn a :: ts.map .ptr) := by
  refine ⟨trivial, fun h F ho => ?_⟩
  obtain ⟨e, h1⟩ := Own.close (F := F) (by simpa using ho) l
  refine ⟨(), _, [.ptr (.node a l ts)], ?_, h1, Safe.ret rfl⟩
  simp [act, e]

theorem safe_drop {t : ATree L} {ρ : List (Item L)} (hn : Within D (nest (reach ρ) t)) :
    Safe A D (fun _ σ => σ = ρ) (drop t.addr) (.ptr t :: ρ) :=
  ⟨t, ρ, .refl _, rfl, hn, Safe.ret rfl⟩

theorem safe_cloneAll {ts : List (ATree L)} {t : ATree L} (hs : ∀ s ∈ ts, Sub s t) {ρ : List (Item L)} (ht : .ptr t ∈ ρ) :
    Safe A D (fun _ σ => σ.Perm (ts.map .ptr ++ ρ)) (cloneAll (ts.map ATree.addr)) ρ := by
  induction ts generalizing ρ with
  | nil => exact Safe.ret (.refl _)
  | cons s ts ih =>
    refine Safe.bind (safe_clone (hs s (by simp)) ht) ?_
    rintro - σ rfl
    refine (ih (fun s h => hs s (by simp [h])) (ρ := .ptr s :: ρ) (by simp [ht])).imp ?_
    intro _ σ hσ
    exact hσ.trans (by simpa using List.perm_middle)

/-- Dropping a cell all of whose children stay referenced nests at most one level deep. -/
theorem nest_le_one {H : List Addr} {t : ATree L} (h : ∀ s ∈ t.kids, s.addr ∈ H) : nest H t ≤ 1 := by
  obtain ⟨a, l, ts⟩ := t
  simp only [nest]
  split
  · omega
  · simp only [ATree.kids] at h
    induction ts with
    | nil => simp [nest.go]
    | cons t ts ih =>
      have h1 : nest H t = 0 := by
        have := h t (by simp)
        cases t
        simp only [ATree.addr] at this
        simp [nest, this]
      have := ih fun s hs => h s (by simp [hs])
      simp only [nest.go]
      omega

theorem safe_makeMut (t : ATree L) (hD : Within D 1) :
    Safe A D (fun r σ => r.2 = (t.label, t.kids.map ATree.addr) ∧ σ = .opn r.1 :: t.kids.map .ptr) (makeMut t.addr)
      [.ptr t] := by
  refine Safe.bind (safe_tryOpen t) ?_
  rintro r σ (⟨rfl, rfl⟩ | ⟨rfl, rfl⟩)
  · exact Safe.ret ⟨rfl, rfl⟩
  · refine Safe.bind (safe_read (.refl t) (ρ := [.ptr t]) (by simp)) ?_
    rintro c σ ⟨rfl, rfl⟩
    refine Safe.bind (safe_cloneAll (ts := t.kids) (fun s hs => Sub.of_kid hs) (ρ := [.ptr t]) (by simp)) ?_
    intro _ σ hσ
    refine Safe.bindFrame (F := t.kids.map .ptr ++ [.ptr t]) (ρ := []) safe_newOpen hσ ?_
    rintro q _ rfl
    have hp : ([.opn q] ++ (t.kids.map .ptr ++ [.ptr t]) : List (Item L)).Perm
      (.ptr t :: .opn q :: t.kids.map .ptr) := by
      rw [← List.append_assoc]
      exact List.perm_append_singleton _ _
    refine Safe.bind (Safe.perm (safe_drop (hD.mono (nest_le_one ?_))) hp) ?_
    · intro s hs
      exact List.mem_flatMap.2 ⟨.ptr s, by simp [hs], addr_mem_addrs s⟩
    rintro _ _ rfl
    exact Safe.ret ⟨rfl, rfl⟩

end Heap
end Rpds
