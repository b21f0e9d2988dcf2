import Verif.Heap.Model
/-
Ownership: which pointers exist besides the ones stored in the memory, and what they point to.

`ATree` is the finite tree of cells reachable from a pointer, with their addresses.  `Own h ρ` says that the memory `h` is
consistent with the items `ρ`, held by all threads together: reference counts are exact, no pointer dangles, every
pointer of `ρ` leads to the tree it is annotated with, and there are no cycles.
-/
set_option autoImplicit false
namespace Rpds
namespace Heap

/-- The tree of cells behind a pointer. -/
inductive ATree (L : Type) where
  | node (a : Addr) (l : L) (ts : List (ATree L))

namespace ATree
variable {L : Type}

/-- Address of the root cell. -/
def addr : ATree L → Addr
  | node a _ _ => a
/-- Label of the root cell. -/
def label : ATree L → L
  | node _ l _ => l
/-- Trees behind the pointers of the root cell. -/
def kids : ATree L → List (ATree L)
  | node _ _ ts => ts

/-- Number of nodes, counting shared cells repeatedly. -/
def size : ATree L → Nat
  | node _ _ ts => 1 + go ts
where
  go : List (ATree L) → Nat
  | [] => 0
  | t :: ts => size t + go ts

/-- All addresses in the tree. -/
def addrs : ATree L → List Addr
  | node a _ ts => a :: go ts
where
  go : List (ATree L) → List Addr
  | [] => []
  | t :: ts => addrs t ++ go ts

end ATree

section lemmas
variable {L : Type}

/-- Label and pointers of a closed cell. -/
def content (h : Mem L) (a : Addr) : Option (Content L) :=
  match get h a with
  | .closed _ l cs => some (l, cs)
  | _ => none

mutual
/-- The pointer to the root of the tree leads, in memory, to exactly this tree. -/
def Val (h : Mem L) : ATree L → Prop
  | .node a l ts => content h a = some (l, ts.map ATree.addr) ∧ Vals h ts
/-- The same for several pointers. -/
def Vals (h : Mem L) : List (ATree L) → Prop
  | [] => True
  | t :: ts => Val h t ∧ Vals h ts
end

theorem vals_iff {h : Mem L} {ts : List (ATree L)} : Vals h ts ↔ ∀ t ∈ ts, Val h t := by
  induction ts with
  | nil => simp [Vals]
  | cons t ts ih => simp [Vals, ih]

/-- Something that is owned. -/
inductive Item (L : Type) where
  /-- a pointer (a program variable or a field of a value that is not in the heap), and the tree it leads to -/
  | ptr (t : ATree L)
  /-- a cell borrowed through `make_mut` -/
  | opn (a : Addr)

/-- The address an item points to. -/
def Item.held : Item L → List Addr
  | .ptr t => [t.addr]
  | .opn _ => []
/-- The cell an item has borrowed. -/
def Item.opens : Item L → List Addr
  | .ptr _ => []
  | .opn a => [a]

/-- Addresses of the pointers held. -/
def held (ρ : List (Item L)) : List Addr := ρ.flatMap Item.held
/-- Addresses of the cells borrowed. -/
def opens (ρ : List (Item L)) : List Addr := ρ.flatMap Item.opens

/-- Addresses of all cells that can be reached from the pointers held. -/
def reach (ρ : List (Item L)) : List Addr := ρ.flatMap fun
  | .ptr t => t.addrs
  | .opn _ => []

@[simp] theorem held_nil : held ([] : List (Item L)) = [] := rfl
@[simp] theorem held_ptr (t : ATree L) (ρ : List (Item L)) : held (.ptr t :: ρ) = t.addr :: held ρ := rfl
@[simp] theorem held_opn (a : Addr) (ρ : List (Item L)) : held (.opn a :: ρ) = held ρ := rfl
@[simp] theorem held_append (ρ σ : List (Item L)) : held (ρ ++ σ) = held ρ ++ held σ := by simp [held]
@[simp] theorem held_map (ts : List (ATree L)) : held (ts.map .ptr) = ts.map ATree.addr := by
  induction ts with
  | nil => rfl
  | cons t ts ih => simp [ih]
@[simp] theorem opens_nil : opens ([] : List (Item L)) = [] := rfl
@[simp] theorem opens_ptr (t : ATree L) (ρ : List (Item L)) : opens (.ptr t :: ρ) = opens ρ := rfl
@[simp] theorem opens_opn (a : Addr) (ρ : List (Item L)) : opens (.opn a :: ρ) = a :: opens ρ := rfl
@[simp] theorem opens_append (ρ σ : List (Item L)) : opens (ρ ++ σ) = opens ρ ++ opens σ := by simp [opens]
@[simp] theorem opens_map (ts : List (ATree L)) : opens (ts.map Item.ptr) = [] := by
  induction ts with
  | nil => rfl
  | cons t ts ih => simp [ih]

/-- A cell agrees with the number of pointers to it and the number of borrows of it. -/
def CellOK : Cell L → (pointers borrows : Nat) → Prop
  | .free, r, o => r = 0 ∧ o = 0
  | .opened, r, o => r = 0 ∧ o = 1
  | .closed n _ _, r, o => n = r ∧ 0 < r ∧ o = 0

/-- The memory is consistent with the items held. -/
structure Own (h : Mem L) (ρ : List (Item L)) : Prop where
  cell : ∀ a, CellOK (get h a) ((held ρ).count a + (refs h).count a) ((opens ρ).count a)
  val : ∀ t, .ptr t ∈ ρ → Val h t
  acyclic : ∀ a n l cs, get h a = .closed n l cs → ∃ t : ATree L, t.addr = a ∧ Val h t

/-! ### Memory lemmas -/

theorem get_put (h : Mem L) (a b : Addr) (c : Cell L) : get (put h a c) b = if b = a then c else get h b := by
  induction h, a, c using put.induct generalizing b with
  | case1 c => cases b <;> simp [get, put]
  | case2 a c ih =>
    cases b with
    | zero => simp [get, put]
    | succ b => have := ih b; simp [get, put] at this ⊢; exact this
  | case3 d h c => cases b <;> simp [get, put]
  | case4 d h a c ih =>
    cases b with
    | zero => simp [get, put]
    | succ b => have := ih b; simp [get, put] at this ⊢; exact this

@[simp] theorem get_put_self (h : Mem L) (a : Addr) (c : Cell L) : get (put h a c) a = c := by simp [get_put]

theorem count_refs_put (h : Mem L) (a x : Addr) (c : Cell L) :
    (refs (put h a c)).count x + (get h a).refs.count x = (refs h).count x + c.refs.count x := by
  induction h, a, c using put.induct with
  | case1 c => simp [refs, put, get, Cell.refs]
  | case2 a c ih => simpa [refs, put, get, Cell.refs] using ih
  | case3 d h c => simp [refs, put, get]; omega
  | case4 d h a c ih =>
    simp only [get, List.getElem?_cons_succ] at ih ⊢
    simp only [refs, put, List.flatMap_cons, List.count_append] at ih ⊢
    omega

theorem content_put (h : Mem L) (a b : Addr) (c : Cell L) :
    content (put h a c) b = if b = a then (match c with | .closed _ l cs => some (l, cs) | _ => none)
      else content h b := by
  unfold content
  rw [get_put]
  by_cases hb : b = a <;> simp [hb]

theorem content_of_get {h : Mem L} {a n : Nat} {l : L} {cs : List Addr} (e : get h a = .closed n l cs) :
    content h a = some (l, cs) := by simp [content, e]

theorem get_of_content {h : Mem L} {a : Nat} {l : L} {cs : List Addr} (e : content h a = some (l, cs)) :
    ∃ n, get h a = .closed n l cs := by
  unfold content at e
  split at e
  · next n l' cs' h' => cases e; exact ⟨n, h'⟩
  · cases e

theorem mem_refs {h : Mem L} {a n x : Nat} {l : L} {cs : List Addr} (e : get h a = .closed n l cs) (hx : x ∈ cs) :
    x ∈ refs h := by
  unfold get at e
  cases hc : h[a]? with
  | none => rw [hc] at e; cases e
  | some c =>
    rw [hc] at e
    simp at e
    subst e
    exact List.mem_flatMap.2 ⟨_, List.mem_of_getElem? hc, hx⟩

/-! ### Trees in memory -/

theorem ATree.ind {P : ATree L → Prop} (h : ∀ a l ts, (∀ t ∈ ts, P t) → P (.node a l ts)) (t : ATree L) : P t :=
  ATree.rec (motive_1 := P) (motive_2 := fun ts => ∀ t ∈ ts, P t) (fun a l ts ih => h a l ts ih) (by simp)
    (fun t ts h1 h2 => by
      intro s hs
      rcases List.mem_cons.1 hs with rfl | hs
      · exact h1
      · exact h2 _ hs) t

theorem mem_addrs_go {ts : List (ATree L)} {x : Addr} : x ∈ ATree.addrs.go ts ↔ ∃ t ∈ ts, x ∈ t.addrs := by
  induction ts with
  | nil => simp [ATree.addrs.go]
  | cons t ts ih => simp [ATree.addrs.go, ih]

theorem addr_mem_addrs (t : ATree L) : t.addr ∈ t.addrs := by
  cases t; simp [ATree.addr, ATree.addrs]

theorem val_congr {h h' : Mem L} {t : ATree L} (hv : Val h t)
    (hc : ∀ a ∈ t.addrs, content h' a = content h a) : Val h' t := by
  induction t using ATree.ind with
  | h a l ts ih =>
    obtain ⟨h1, h2⟩ := hv
    refine ⟨?_, vals_iff.2 fun t ht => ih t ht (vals_iff.1 h2 t ht) fun b hb => hc b ?_⟩
    · rw [hc a (by simp [ATree.addrs]), h1]
    · simp only [ATree.addrs, List.mem_cons]
      exact .inr (mem_addrs_go.2 ⟨t, ht, hb⟩)

theorem val_content {h : Mem L} {t : ATree L} (hv : Val h t) : content h t.addr = some (t.label, t.kids.map ATree.addr) := by
  cases t; exact hv.1

theorem val_kids {h : Mem L} {t : ATree L} (hv : Val h t) : ∀ s ∈ t.kids, Val h s := by
  cases t; exact vals_iff.1 hv.2

/-- The tree behind a pointer is determined by its address. -/
theorem val_unique {h : Mem L} {t s : ATree L} (ht : Val h t) (hs : Val h s) (e : t.addr = s.addr) : t = s := by
  induction t using ATree.ind generalizing s with
  | h a l ts ih =>
    obtain ⟨b, m, ss⟩ := s
    simp only [ATree.addr] at e
    subst e
    obtain ⟨h1, h2⟩ := ht
    obtain ⟨h3, h4⟩ := hs
    rw [h1] at h3
    simp only [Option.some.injEq, Prod.mk.injEq] at h3
    obtain ⟨rfl, h3⟩ := h3
    congr 1
    clear h1
    induction ts generalizing ss with
    | nil => cases ss with
      | nil => rfl
      | cons _ _ => simp at h3
    | cons t ts ih2 =>
      cases ss with
      | nil => simp at h3
      | cons s ss =>
        simp only [List.map_cons, List.cons.injEq] at h3
        obtain ⟨h5, h6⟩ := h3
        obtain ⟨h7, h8⟩ := h2
        obtain ⟨h9, h10⟩ := h4
        rw [ih t (by simp) h7 h9 h5, ih2 (fun t ht => ih t (by simp [ht])) ss h8 h10 h6]

/-- An address inside a tree in memory is the root or stored in some cell. -/
theorem mem_addrs_refs {h : Mem L} {t : ATree L} (hv : Val h t) {x : Addr} (hx : x ∈ t.addrs) :
    x = t.addr ∨ x ∈ refs h := by
  induction t using ATree.ind with
  | h a l ts ih =>
    obtain ⟨h1, h2⟩ := hv
    simp only [ATree.addrs, List.mem_cons] at hx
    rcases hx with rfl | hx
    · exact .inl rfl
    · obtain ⟨t, ht, hx⟩ := mem_addrs_go.1 hx
      rcases ih t ht (vals_iff.1 h2 t ht) hx with rfl | h3
      · obtain ⟨n, e⟩ := get_of_content h1
        exact .inr (mem_refs e (List.mem_map.2 ⟨t, ht, rfl⟩))
      · exact .inr h3

/-- Every cell of a tree in memory is closed. -/
theorem mem_addrs_content {h : Mem L} {t : ATree L} (hv : Val h t) {x : Addr} (hx : x ∈ t.addrs) :
    content h x ≠ none := by
  induction t using ATree.ind with
  | h a l ts ih =>
    obtain ⟨h1, h2⟩ := hv
    simp only [ATree.addrs, List.mem_cons] at hx
    rcases hx with rfl | hx
    · simp [h1]
    · obtain ⟨t, ht, hx⟩ := mem_addrs_go.1 hx
      exact ih t ht (vals_iff.1 h2 t ht) hx

/-! ### Ownership lemmas -/

theorem held_perm {ρ σ : List (Item L)} (hp : ρ.Perm σ) (a : Addr) : (held ρ).count a = (held σ).count a :=
  (hp.flatMap_right _).count_eq a

theorem opens_perm {ρ σ : List (Item L)} (hp : ρ.Perm σ) (a : Addr) : (opens ρ).count a = (opens σ).count a :=
  (hp.flatMap_right _).count_eq a

theorem Own.perm {h : Mem L} {ρ σ : List (Item L)} (ho : Own h ρ) (hp : ρ.Perm σ) : Own h σ where
  cell a := by rw [← held_perm hp, ← opens_perm hp]; exact ho.cell a
  val t ht := ho.val t (hp.mem_iff.2 ht)
  acyclic := ho.acyclic

/-- The empty memory, with nothing held. -/
theorem Own.empty : Own ([] : Mem L) [] where
  cell a := by simp [get, refs, CellOK]
  val := by simp
  acyclic := by simp [get]

/-- Changing a cell whose content no tree can see. -/
theorem val_put_unseen {h : Mem L} {t : ATree L} (hv : Val h t) {a : Addr} (c : Cell L) (ha : a ∉ t.addrs) :
    Val (put h a c) t :=
  val_congr hv fun b hb => by
    rw [content_put, if_neg]
    rintro rfl
    exact ha hb

/-- Changing only a reference count. -/
theorem val_put_count {h : Mem L} {t : ATree L} (hv : Val h t) {a n m : Nat} {l : L} {cs : List Addr}
    (e : get h a = .closed n l cs) : Val (put h a (.closed m l cs)) t :=
  val_congr hv fun b hb => by
    rw [content_put]
    split
    · next h' => subst h'; simp [content, e]
    · rfl

theorem Own.mem_ptr_closed {h : Mem L} {ρ : List (Item L)} (ho : Own h ρ) {t : ATree L} (hv : Val h t) :
    ∃ n, get h t.addr = .closed n t.label (t.kids.map ATree.addr) ∧
      n = (held ρ).count t.addr + (refs h).count t.addr ∧ 0 < n ∧ (opens ρ).count t.addr = 0 := by
  obtain ⟨n, e⟩ := get_of_content (val_content hv)
  have := ho.cell t.addr
  rw [e] at this
  obtain ⟨h1, h2, h3⟩ := this
  exact ⟨n, e, h1, by omega, h3⟩

/-- A free cell is in no tree. -/
theorem not_mem_addrs_of_free {h : Mem L} {t : ATree L} (hv : Val h t) {a : Addr} (e : content h a = none) :
    a ∉ t.addrs := fun hx => mem_addrs_content hv hx e

/-- A uniquely held cell is in no other tree. -/
theorem Own.unique_unseen {h : Mem L} {t : ATree L} {F : List (Item L)} (ho : Own h (.ptr t :: F)) {l : L}
    {cs : List Addr} (e : get h t.addr = .closed 1 l cs) {s : ATree L} (hv : Val h s) (hne : s.addr ≠ t.addr) :
    t.addr ∉ s.addrs := by
  intro hx
  rcases mem_addrs_refs hv hx with h1 | h1
  · exact hne h1.symm
  · have := ho.cell t.addr
    rw [e] at this
    have h2 := this.1
    have h3 : 0 < (refs h).count t.addr := List.count_pos_iff.2 h1
    simp at h2
    omega

theorem Own.unique_frame {h : Mem L} {t : ATree L} {F : List (Item L)} (ho : Own h (.ptr t :: F)) {l : L}
    {cs : List Addr} (e : get h t.addr = .closed 1 l cs) {s : ATree L} (hs : .ptr s ∈ F) :
    s.addr ≠ t.addr := by
  intro hx
  have := ho.cell t.addr
  rw [e] at this
  have h2 := this.1
  have h3 : 0 < (held F).count t.addr := by
    rw [List.count_pos_iff, ← hx]
    exact List.mem_flatMap.2 ⟨_, hs, by simp [Item.held]⟩
  simp at h2
  omega

/-- Children of a uniquely held cell lie elsewhere. -/
theorem val_kid_ne {h : Mem L} {t s : ATree L} (hv : Val h t) (hs : s ∈ t.kids) : s.addr ≠ t.addr := by
  intro e
  have h1 := val_unique (val_kids hv s hs) hv e
  subst h1
  have : ∀ t : ATree L, ∀ s ∈ t.kids, sizeOf s < sizeOf t := by
    intro t s hs
    cases t
    simp [ATree.kids] at hs
    have := List.sizeOf_lt_of_mem hs
    simp; omega
  exact absurd (this s s hs) (by omega)

/-- `SharedPointer::new`. -/
theorem Own.new {h : Mem L} {ts : List (ATree L)} {F : List (Item L)} (ho : Own h (ts.map .ptr ++ F)) {a : Addr}
    (e : get h a = .free) (l : L) :
    Own (put h a (.closed 1 l (ts.map ATree.addr))) (.ptr (.node a l ts) :: F) := by
  have hc : content h a = none := by simp [content, e]
  have hpre : ∀ t, Val h t → Val (put h a (.closed 1 l (ts.map ATree.addr))) t := fun t hv =>
    val_put_unseen hv _ (not_mem_addrs_of_free hv hc)
  have hself : Val (put h a (.closed 1 l (ts.map ATree.addr))) (.node a l ts) := by
    refine ⟨by simp [content], vals_iff.2 fun t ht => hpre t (ho.val t ?_)⟩
    simp [ht]
  refine ⟨fun b => ?_, ?_, ?_⟩
  · have hb := ho.cell b
    have hr := count_refs_put h a b (.closed 1 l (ts.map ATree.addr))
    rw [e] at hr
    simp only [Cell.refs, List.count_nil, Nat.add_zero] at hr
    simp only [held_append, held_map, opens_append, opens_map, List.nil_append, List.count_append] at hb
    rw [get_put, hr]
    simp only [held_ptr, ATree.addr, opens_ptr, List.count_cons]
    split
    · next h' =>
      subst h'
      rw [e] at hb
      obtain ⟨h1, h2⟩ := hb
      refine ⟨?_, ?_, h2⟩ <;> simp <;> omega
    · next h' =>
      have : (a == b) = false := by simpa using fun h => h' h.symm
      rw [this]
      have e1 : (held F).count b + (if false = true then 1 else 0) + ((refs h).count b + (ts.map ATree.addr).count b)
        = (ts.map ATree.addr).count b + (held F).count b + (refs h).count b := by simp; omega
      rw [e1]
      exact hb
  · intro t ht
    rcases List.mem_cons.1 ht with h1 | h1
    · cases h1; exact hself
    · exact hpre t (ho.val t (by simp [h1]))
  · intro b n m cs hb
    rw [get_put] at hb
    split at hb
    · next h' => exact ⟨.node a l ts, h'.symm, hself⟩
    · obtain ⟨t, h1, h2⟩ := ho.acyclic _ _ _ _ hb
      exact ⟨t, h1, hpre t h2⟩

/-- `SharedPointer::new` inside `make_mut`. -/
theorem Own.newOpen {h : Mem L} {F : List (Item L)} (ho : Own h F) {a : Addr} (e : get h a = .free) :
    Own (put h a .opened) (.opn a :: F) := by
  have hc : content h a = none := by simp [content, e]
  have hpre : ∀ t, Val h t → Val (put h a .opened) t := fun t hv =>
    val_put_unseen hv _ (not_mem_addrs_of_free hv hc)
  refine ⟨fun b => ?_, ?_, ?_⟩
  · have hb := ho.cell b
    have hr := count_refs_put h a b .opened
    rw [e] at hr
    simp only [Cell.refs, List.count_nil, Nat.add_zero] at hr
    rw [get_put, hr]
    simp only [held_opn, opens_opn, List.count_cons]
    split
    · next h' =>
      subst h'
      rw [e] at hb
      obtain ⟨h1, h2⟩ := hb
      exact ⟨h1, by simp; exact h2⟩
    · next h' =>
      have : (a == b) = false := by simpa using fun h => h' h.symm
      rw [this]
      simpa using hb
  · intro t ht
    rcases List.mem_cons.1 ht with h1 | h1
    · cases h1
    · exact hpre t (ho.val t h1)
  · intro b n m cs hb
    rw [get_put] at hb
    split at hb
    · cases hb
    · obtain ⟨t, h1, h2⟩ := ho.acyclic _ _ _ _ hb
      exact ⟨t, h1, hpre t h2⟩

/-- `SharedPointer::clone`. -/
theorem Own.clone {h : Mem L} {ρ : List (Item L)} (ho : Own h ρ) {t : ATree L} (hv : Val h t) {n : Nat} {l : L}
    {cs : List Addr} (e : get h t.addr = .closed n l cs) :
    Own (put h t.addr (.closed (n + 1) l cs)) (.ptr t :: ρ) := by
  have hpre : ∀ s, Val h s → Val (put h t.addr (.closed (n + 1) l cs)) s := fun s hs => val_put_count hs e
  refine ⟨fun b => ?_, ?_, ?_⟩
  · have hb := ho.cell b
    have hr := count_refs_put h t.addr b (.closed (n + 1) l cs)
    rw [e] at hr
    simp only [Cell.refs] at hr
    have hr : (refs (put h t.addr (.closed (n + 1) l cs))).count b = (refs h).count b := by omega
    rw [get_put, hr]
    simp only [held_ptr, opens_ptr, List.count_cons]
    split
    · next h' =>
      subst h'
      rw [e] at hb
      obtain ⟨h1, h2, h3⟩ := hb
      refine ⟨?_, ?_, h3⟩ <;> simp <;> omega
    · next h' =>
      have : (t.addr == b) = false := by simpa using fun h => h' h.symm
      rw [this]
      simpa using hb
  · intro s hs
    rcases List.mem_cons.1 hs with h1 | h1
    · cases h1; exact hpre _ hv
    · exact hpre s (ho.val s h1)
  · intro b m k ds hb
    rw [get_put] at hb
    split at hb
    · next h' => exact ⟨t, h'.symm, hpre _ hv⟩
    · obtain ⟨s, h1, h2⟩ := ho.acyclic _ _ _ _ hb
      exact ⟨s, h1, hpre s h2⟩

/-- A pointer to a cell that can also be reached otherwise is not the last one. -/
theorem Own.shared {h : Mem L} {t : ATree L} {F : List (Item L)} (ho : Own h (.ptr t :: F)) {n : Nat} {l : L}
    {cs : List Addr} (e : get h t.addr = .closed n l cs) (hr : t.addr ∈ reach F) : n ≠ 1 := by
  rintro rfl
  obtain ⟨i, hi, hm⟩ := List.mem_flatMap.1 hr
  cases i with
  | opn a => simp at hm
  | ptr s =>
    exact ho.unique_unseen e (ho.val s (by simp [hi])) (ho.unique_frame e hi) hm

/-- The unique pointer to a cell is given up, its content is held instead. -/
theorem Own.release {h : Mem L} {t : ATree L} {F : List (Item L)} (ho : Own h (.ptr t :: F)) {l : L}
    {cs : List Addr} (e : get h t.addr = .closed 1 l cs) {c : Cell L} {σ : List (Item L)}
    (hc : c = .free ∧ σ = [] ∨ c = .opened ∧ σ = [.opn t.addr]) :
    Own (put h t.addr c) (σ ++ (t.kids.map .ptr ++ F)) := by
  have hv : Val h t := ho.val t (by simp)
  have hcs : cs = t.kids.map ATree.addr := by
    have := val_content hv
    rw [content_of_get e] at this
    simp at this
    exact this.2
  have hcr : c.refs = [] := by rcases hc with ⟨rfl, _⟩ | ⟨rfl, _⟩ <;> rfl
  have hhold : held σ = [] := by rcases hc with ⟨_, rfl⟩ | ⟨_, rfl⟩ <;> rfl
  refine ⟨fun b => ?_, ?_, ?_⟩
  · have hb := ho.cell b
    have hr := count_refs_put h t.addr b c
    rw [e, hcr] at hr
    simp only [Cell.refs, List.count_nil, Nat.add_zero] at hr
    simp only [held_ptr, opens_ptr, List.count_cons] at hb
    rw [get_put]
    simp only [held_append, held_map, opens_append, opens_map, List.nil_append, List.count_append, hhold,
      ← hcs]
    split
    · next h' =>
      subst h'
      rw [e] at hb
      obtain ⟨h1, h2, h3⟩ := hb
      simp at h1
      rcases hc with ⟨rfl, rfl⟩ | ⟨rfl, rfl⟩
      · refine ⟨?_, by simpa using h3⟩; omega
      · refine ⟨?_, by simpa using h3⟩; omega
    · next h' =>
      have hab : (t.addr == b) = false := by simpa using fun h => h' h.symm
      rw [hab] at hb
      have ho' : (opens σ).count b = 0 := by
        rcases hc with ⟨_, rfl⟩ | ⟨_, rfl⟩
        · rfl
        · rw [List.count_eq_zero]; simpa using h'
      rw [ho', Nat.zero_add]
      have e1 : cs.count b + (held F).count b + (refs (put h t.addr c)).count b
        = (held F).count b + (if false = true then 1 else 0) + (refs h).count b := by simp; omega
      rw [e1]
      exact hb
  · intro s hs
    have hs' : Val h s ∧ s.addr ≠ t.addr := by
      simp only [List.mem_append, List.mem_map] at hs
      rcases hs with hs | ⟨s', hs, he⟩ | hs
      · rcases hc with ⟨_, rfl⟩ | ⟨_, rfl⟩ <;> simp at hs
      · cases he
        exact ⟨val_kids hv _ hs, val_kid_ne hv hs⟩
      · exact ⟨ho.val s (by simp [hs]), ho.unique_frame e hs⟩
    exact val_put_unseen hs'.1 _ (ho.unique_unseen e hs'.1 hs'.2)
  · intro b m k ds hb
    rw [get_put] at hb
    split at hb
    · rcases hc with ⟨rfl, _⟩ | ⟨rfl, _⟩ <;> cases hb
    · next h' =>
      obtain ⟨s, h1, h2⟩ := ho.acyclic _ _ _ _ hb
      exact ⟨s, h1, val_put_unseen h2 _ (ho.unique_unseen e h2 (by rw [h1]; exact h'))⟩

/-- The end of a mutable borrow. -/
theorem Own.close {h : Mem L} {a : Addr} {ts : List (ATree L)} {F : List (Item L)}
    (ho : Own h (.opn a :: (ts.map .ptr ++ F))) (l : L) :
    get h a = .opened ∧ Own (put h a (.closed 1 l (ts.map ATree.addr))) (.ptr (.node a l ts) :: F) := by
  have e : get h a = .opened := by
    have := ho.cell a
    cases hg : get h a with
    | opened => rfl
    | free => rw [hg] at this; have h2 := this.2; simp at h2
    | closed n l cs => rw [hg] at this; have h2 := this.2.2; simp at h2
  refine ⟨e, ?_⟩
  have hc : content h a = none := by simp [content, e]
  have hpre : ∀ t, Val h t → Val (put h a (.closed 1 l (ts.map ATree.addr))) t := fun t hv =>
    val_put_unseen hv _ (not_mem_addrs_of_free hv hc)
  have hself : Val (put h a (.closed 1 l (ts.map ATree.addr))) (.node a l ts) := by
    refine ⟨by simp [content], vals_iff.2 fun t ht => hpre t (ho.val t ?_)⟩
    simp [ht]
  refine ⟨fun b => ?_, ?_, ?_⟩
  · have hb := ho.cell b
    have hr := count_refs_put h a b (.closed 1 l (ts.map ATree.addr))
    rw [e] at hr
    simp only [Cell.refs, List.count_nil, Nat.add_zero] at hr
    simp only [held_opn, opens_opn, held_append, held_map, opens_append, opens_map, List.nil_append,
      List.count_append, List.count_cons] at hb
    rw [get_put, hr]
    simp only [held_ptr, ATree.addr, opens_ptr, List.count_cons]
    split
    · next h' =>
      subst h'
      rw [e] at hb
      obtain ⟨h1, h2⟩ := hb
      simp at h2
      refine ⟨?_, ?_, ?_⟩
      · simp; omega
      · simp; omega
      · exact h2
    · next h' =>
      have : (a == b) = false := by simpa using fun h => h' h.symm
      rw [this] at hb ⊢
      have e1 : (held F).count b + (if false = true then 1 else 0) + ((refs h).count b + (ts.map ATree.addr).count b)
        = (ts.map ATree.addr).count b + (held F).count b + (refs h).count b := by simp; omega
      rw [e1]
      simpa using hb
  · intro t ht
    rcases List.mem_cons.1 ht with h1 | h1
    · cases h1; exact hself
    · exact hpre t (ho.val t (by simp [h1]))
  · intro b n m cs hb
    rw [get_put] at hb
    split at hb
    · next h' => exact ⟨.node a l ts, h'.symm, hself⟩
    · obtain ⟨t, h1, h2⟩ := ho.acyclic _ _ _ _ hb
      exact ⟨t, h1, hpre t h2⟩

/-- Dropping a pointer that is not the last one. -/
theorem Own.decr {h : Mem L} {t : ATree L} {F : List (Item L)} (ho : Own h (.ptr t :: F)) {n : Nat} {l : L}
    {cs : List Addr} (e : get h t.addr = .closed n l cs) (hn : n ≠ 1) :
    Own (put h t.addr (.closed (n - 1) l cs)) F := by
  have hpre : ∀ s, Val h s → Val (put h t.addr (.closed (n - 1) l cs)) s := fun s hs => val_put_count hs e
  refine ⟨fun b => ?_, ?_, ?_⟩
  · have hb := ho.cell b
    have hr := count_refs_put h t.addr b (.closed (n - 1) l cs)
    rw [e] at hr
    simp only [Cell.refs] at hr
    have hr : (refs (put h t.addr (.closed (n - 1) l cs))).count b = (refs h).count b := by omega
    rw [get_put, hr]
    simp only [held_ptr, opens_ptr, List.count_cons] at hb
    split
    · next h' =>
      subst h'
      rw [e] at hb
      obtain ⟨h1, h2, h3⟩ := hb
      simp at h1
      refine ⟨?_, ?_, h3⟩ <;> omega
    · next h' =>
      have : (t.addr == b) = false := by simpa using fun h => h' h.symm
      rw [this] at hb
      simpa using hb
  · intro s hs
    exact hpre s (ho.val s (by simp [hs]))
  · intro b m k ds hb
    rw [get_put] at hb
    split at hb
    · next h' => exact ⟨t, h'.symm, hpre _ (ho.val t (by simp))⟩
    · obtain ⟨s, h1, h2⟩ := ho.acyclic _ _ _ _ hb
      exact ⟨s, h1, hpre s h2⟩

end lemmas
end Heap
end Rpds
