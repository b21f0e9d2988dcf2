import Verif.Heap.Space
import Verif.Heap.System
import Batteries.Data.List.Perm
/-
How much memory the handles keep alive: every cell in use is reached from a handle, so the trees behind the handles bound the memory.
-/
set_option autoImplicit false
namespace Rpds
namespace Heap
variable {L α : Type} {A : Allocator L}

theorem ATree.size_go (ts : List (ATree L)) : ATree.size.go ts = (ts.map ATree.size).sum := by
  induction ts with
  | nil => rfl
  | cons t ts ih => simp [ATree.size.go, ih]

theorem ATree.size_eq (t : ATree L) : t.size = 1 + (t.kids.map ATree.size).sum := by
  obtain ⟨a, l, ts⟩ := t
  simp [ATree.size, ATree.kids, ATree.size_go]

mutual
theorem ATree.addrs_length : ∀ t : ATree L, t.addrs.length = t.size
  | .node a l ts => by simp only [ATree.addrs, ATree.size, List.length_cons, ATree.addrs_go_length ts]; omega
theorem ATree.addrs_go_length : ∀ ts : List (ATree L), (ATree.addrs.go ts).length = ATree.size.go ts
  | [] => rfl
  | t :: ts => by simp [ATree.addrs.go, ATree.size.go, ATree.addrs_length t, ATree.addrs_go_length ts]
end

/-- The cells an item leads to, counting shared ones repeatedly. -/
def Item.weight : Item L → Nat
  | .ptr t => t.size
  | .opn _ => 1

/-- The cells several items lead to, counting shared ones repeatedly. -/
def weight (ρ : List (Item L)) : Nat := (ρ.map Item.weight).sum

@[simp] theorem weight_nil : weight ([] : List (Item L)) = 0 := rfl
@[simp] theorem weight_append (ρ σ : List (Item L)) : weight (ρ ++ σ) = weight ρ + weight σ := by simp [weight]
@[simp] theorem weight_ptr (t : ATree L) : weight [.ptr t] = t.size := by simp [weight, Item.weight]

/-- The addresses an item leads to. -/
def Item.cells : Item L → List Addr
  | .ptr t => t.addrs
  | .opn a => [a]

theorem cells_length (ρ : List (Item L)) : (ρ.flatMap Item.cells).length = weight ρ := by
  induction ρ with
  | nil => rfl
  | cons i ρ ih =>
    rw [List.flatMap_cons, List.length_append, ih, weight, weight, List.map_cons, List.sum_cons]
    cases i <;> simp [Item.cells, Item.weight, ATree.addrs_length]

theorem Sub.addr_mem {s t : ATree L} (h : Sub s t) : ∀ a ∈ s.addrs, a ∈ t.addrs := by
  induction h with
  | refl => exact fun _ h => h
  | @kid s t u h hk ih =>
    intro a ha
    refine ih a ?_
    obtain ⟨b, l, ts⟩ := s
    exact List.mem_cons_of_mem _ (mem_addrs_go.2 ⟨u, hk, ha⟩)

/-- Cells in use are reached from the items. -/
theorem Own.used_mem {h : Mem L} {ρ : List (Item L)} (ho : Own h ρ) {a : Addr} (hu : (get h a).used = true) :
    a ∈ ρ.flatMap Item.cells := by
  cases hg : get h a with
  | free => rw [hg] at hu; cases hu
  | opened =>
    have := ho.cell a
    rw [hg] at this
    have hc : a ∈ opens ρ := List.count_pos_iff.1 (by rw [this.2]; omega)
    obtain ⟨i, hi, hia⟩ := List.mem_flatMap.1 hc
    refine List.mem_flatMap.2 ⟨i, hi, ?_⟩
    cases i with
    | ptr t => simp [Item.opens] at hia
    | opn b => exact hia
  | closed n l cs =>
    obtain ⟨t, s, h1, h2, rfl, -⟩ := ho.owned hg
    exact List.mem_flatMap.2 ⟨_, h1, h2.addr_mem _ (addr_mem_addrs s)⟩

theorem live_eq (h : Mem L) : live h = ((List.range h.length).filter fun a => (get h a).used).length := by
  induction h with
  | nil => rfl
  | cons c h ih =>
    have e : (List.range h.length).countP ((fun a => (get (c :: h) a).used) ∘ Nat.succ) = (List.range h.length).countP fun a => (get h a).used := rfl
    have e1 : get (c :: h) 0 = c := rfl
    rw [live] at ih
    rw [live, List.countP_cons, ih, ← List.countP_eq_length_filter, ← List.countP_eq_length_filter, List.length_cons,
      List.range_succ_eq_map, List.countP_cons, List.countP_map, e, e1]

/-- The memory in use is at most what the items lead to. -/
theorem Own.live_le {h : Mem L} {ρ : List (Item L)} (ho : Own h ρ) : live h ≤ weight ρ := by
  rw [live_eq, ← cells_length]
  refine (List.subperm_of_subset (List.nodup_range.filter _) ?_).length_le
  intro a ha
  exact ho.used_mem (List.mem_filter.1 ha).2

/-! ### Clients -/

/-- The sum of `f` over the handles that are alive. -/
def sumOver {σ : Type} (f : σ → Nat) (ss : List (Option σ)) : Nat := ((ss.filterMap id).map f).sum

@[simp] theorem sumOver_nil {σ : Type} (f : σ → Nat) : sumOver f [] = 0 := rfl
@[simp] theorem sumOver_none {σ : Type} (f : σ → Nat) (ss : List (Option σ)) : sumOver f (none :: ss) = sumOver f ss := rfl
@[simp] theorem sumOver_some {σ : Type} (f : σ → Nat) (s : σ) (ss : List (Option σ)) : sumOver f (some s :: ss) = f s + sumOver f ss := rfl

section
variable {H Op Ret σ : Type} {R : H → σ → List (Item L) → Prop}

theorem Handles.weight_le {f : σ → Nat} (hf : ∀ h s ρ, R h s ρ → weight ρ ≤ f s) {hs : List (Option H)} {ss : List (Option σ)} {ρ : List (Item L)}
    (hh : Handles R hs ss ρ) : weight ρ ≤ sumOver f ss := by
  induction hh with
  | nil => exact Nat.le_refl _
  | dead _ ih => exact ih
  | live h1 _ ih =>
    have := hf _ _ _ h1
    rw [weight_append, sumOver_some]
    omega

/-- A property of results that does not depend on the memory may be added to what is known of a program. -/
theorem Safe.and_allocs {D : Option Nat} {Q : α → List (Item L) → Prop} {P : α → Nat → Prop} {prog : Prog L α} {ρ : List (Item L)} {n : Nat}
    (hs : Safe A D Q prog ρ) (ha : Allocs P prog n) : Safe A D (fun x σ => Q x σ ∧ ∃ m, P x m) prog ρ := by
  induction prog generalizing ρ n with
  | ret r =>
    obtain ⟨σ, h1, h2⟩ := hs
    exact ⟨σ, h1, h2, n, ha⟩
  | panic => exact hs
  | op a k ih =>
    refine ⟨hs.1, fun h F ho => ?_⟩
    obtain ⟨x, h', ρ', h1, h2, h3⟩ := hs.2 h F ho
    exact ⟨x, h', ρ', h1, h2, ih x h3 (ha.2 x)⟩
  | drop p k ih =>
    obtain ⟨t, τ, h1, h2, h3, h4⟩ := hs
    exact ⟨t, τ, h1, h2, h3, ih h4 ha⟩

/-- A property of handles that all operations keep may be added to the representation. -/
theorem Impl.RefinesIn.keeping {impl : Impl L H Op Ret} {D : Option Nat} {new : σ} {step : σ → Op → Res (Ret × Effect σ)} {I : H → Prop}
    (hr : impl.RefinesIn A D new step R) (hn : ∃ n, Allocs (fun x _ => I x) impl.new n)
    (hc : ∀ h s ρ op, R h s ρ → I h → ∃ n, Allocs (fun x _ => Effect.Keeps I x.2) (impl.step h op) n) :
    impl.RefinesIn A D new step (fun h s ρ => R h s ρ ∧ I h) where
  new := by
    obtain ⟨n, hn⟩ := hn
    exact (hr.new.and_allocs hn).imp fun x τ h => ⟨h.1, h.2.elim fun _ h => h⟩
  step := by
    rintro h s ρ op r e ⟨h1, h2⟩ he
    obtain ⟨n, hc⟩ := hc h s ρ op h1 h2
    refine ((hr.step h s ρ op r e h1 he).and_allocs hc).imp ?_
    rintro ⟨x, f⟩ τ ⟨⟨rfl, h3⟩, m, h4⟩
    refine ⟨rfl, ?_⟩
    cases h3 with
    | keep h5 => exact .keep ⟨h5, h2⟩
    | fresh h5 h6 => exact .fresh ⟨h5, h4⟩ ⟨h6, h2⟩
    | update h5 => exact .update ⟨h5, h4⟩
  drop h s ρ h1 := hr.drop h s ρ h1.1
  ptrs h s ρ h1 := hr.ptrs h s ρ h1.1

end
end Heap
end Rpds
