import Verif.Heap.List
/-
The heap versions of the `List` functions do what the functions of `Verif/List/Model.lean` do, on the items of one list,
whatever else is in the memory and whatever other threads do.
-/
set_option autoImplicit false
namespace Rpds
namespace Heap
variable {L T : Type} {A : Allocator L} {D : Option Nat}

/-- A chain of nodes in memory represents a `Link`; `dec` says which trees represent an element. -/
inductive IsLink (nd : L) (dec : ATree L → T → Prop) : Option (ATree L) → Link T → Prop where
  | none : IsLink nd dec none .none
  | some {a : Addr} {tv : ATree L} {tn : Option (ATree L)} {v : T} {next : Link T} (hv : dec tv v)
      (hn : IsLink nd dec tn next) : IsLink nd dec (some (.node a nd (tv :: tn.toList))) (.some v next)

/-- Optional things related. -/
inductive OptRel {α β : Type} (R : α → β → Prop) : Option α → Option β → Prop where
  | none : OptRel R none none
  | some {a : α} {b : β} (h : R a b) : OptRel R (some a) (some b)

/-- The items of an optional pointer. -/
def optPtr (o : Option (ATree L)) : List (Item L) := o.toList.map .ptr

@[simp] theorem optPtr_none : optPtr (none : Option (ATree L)) = [] := rfl
@[simp] theorem optPtr_some (t : ATree L) : optPtr (some t) = [.ptr t] := rfl

/-- A `List` with its items represents a list of the value model. -/
def HList.Is (nd : L) (dec : ATree L → T → Prop) (l : HList) (r : RList T) (ρ : List (Item L)) : Prop :=
  ∃ th tl, l = ⟨th.map ATree.addr, tl.map ATree.addr, r.length⟩ ∧ ρ = optPtr th ++ optPtr tl ∧
    IsLink nd dec th r.head ∧ OptRel dec tl r.last

theorem HList.Is.ptrs {nd : L} {dec : ATree L → T → Prop} {l : HList} {r : RList T} {ρ : List (Item L)}
    (h : l.Is nd dec r ρ) : ∃ ts : List (ATree L), ρ = ts.map .ptr ∧ l.ptrs = ts.map ATree.addr := by
  obtain ⟨th, tl, rfl, rfl, -⟩ := h
  exact ⟨th.toList ++ tl.toList, by simp [optPtr], by cases th <;> cases tl <;> rfl⟩

theorem safe_dropOpt {o : Option (ATree L)} {ρ : List (Item L)} (hn : ∀ t, o = some t → Within D (nest (reach ρ) t)) :
    Safe A D (fun _ σ => σ = ρ) (dropOpt (o.map ATree.addr)) (optPtr o ++ ρ) := by
  cases o with
  | none => exact Safe.ret rfl
  | some t => exact safe_drop (hn t rfl)

theorem safe_cloneOpt {o : Option (ATree L)} {t : ATree L} (hs : ∀ s, o = some s → Sub s t) {ρ : List (Item L)}
    (ht : .ptr t ∈ ρ) : Safe A D (fun _ σ => σ = optPtr o ++ ρ) (cloneOpt (o.map ATree.addr)) ρ := by
  cases o with
  | none => exact Safe.ret rfl
  | some s => exact safe_clone (hs s rfl) ht

/-- Cloning an optional pointer that is held. -/
theorem safe_cloneOpt' {o : Option (ATree L)} {ρ : List (Item L)} (ht : ∀ t, o = some t → .ptr t ∈ ρ) :
    Safe A D (fun _ σ => σ = optPtr o ++ ρ) (cloneOpt (o.map ATree.addr)) ρ := by
  cases o with
  | none => exact Safe.ret rfl
  | some s => exact safe_clone (.refl s) (ht s rfl)

theorem nodePtrs_addr (tv : ATree L) (tn : Option (ATree L)) :
    nodePtrs tv.addr (tn.map ATree.addr) = (tv :: tn.toList).map ATree.addr := by
  cases tn <;> rfl

theorem ptr_node (tv : ATree L) (tn : Option (ATree L)) :
    ((tv :: tn.toList).map Item.ptr : List (Item L)) = .ptr tv :: optPtr tn := by
  cases tn <;> rfl

namespace HList

theorem safe_readNode {nd : L} {s t tv : ATree L} {tn : Option (ATree L)} {a : Addr} {ρ : List (Item L)}
    (e : s = .node a nd (tv :: tn.toList)) (hs : Sub s t) (ht : .ptr t ∈ ρ) :
    Safe A D (fun r σ => r = (tv.addr, tn.map ATree.addr) ∧ σ = ρ) (readNode s.addr) ρ := by
  refine Safe.bind (safe_read hs ht) ?_
  rintro c σ ⟨rfl, rfl⟩
  subst e
  cases tn <;> exact Safe.ret ⟨rfl, rfl⟩

theorem safe_clone {nd : L} {dec : ATree L → T → Prop} {l : HList} {r : RList T} {ρ : List (Item L)}
    (h : l.Is nd dec r ρ) :
    Safe A D (fun l' σ => ∃ τ, σ = τ ++ ρ ∧ l'.Is nd dec r.clone τ) l.clone ρ := by
  obtain ⟨th, tl, rfl, rfl, h1, h2⟩ := h
  refine Safe.bind (safe_cloneOpt' (o := th) (by rintro t rfl; simp)) ?_
  rintro _ _ rfl
  refine Safe.bind (safe_cloneOpt' (o := tl) (by rintro t rfl; simp)) ?_
  rintro _ _ rfl
  refine ⟨_, ?_, optPtr th ++ optPtr tl, rfl, th, tl, rfl, rfl, h1, h2⟩
  perm_tac

/-- Elements whose destructor is within the limit, also inside a node. -/
def ElemOK (D : Option Nat) (dec : ATree L → T → Prop) : Prop := ∀ t v, dec t v → Within D (1 + nest [] t)

theorem elem_within {dec : ATree L → T → Prop} (hE : ElemOK D dec) {t : ATree L} {v : T} (h : dec t v)
    (H : List Addr) : Within D (nest H t) :=
  (hE t v h).mono (by have := nest_mono (H := []) (H' := H) (by simp) t; omega)

theorem safe_dropLast {dec : ATree L → T → Prop} (hE : ElemOK D dec) {tl : Option (ATree L)} {v : Option T}
    (h : OptRel dec tl v) (ρ : List (Item L)) :
    Safe A D (fun _ σ => σ = ρ) (dropOpt (tl.map ATree.addr)) (optPtr tl ++ ρ) := by
  refine safe_dropOpt ?_
  rintro t rfl
  cases h with
  | some h => exact elem_within hE h _

theorem within_one {dec : ATree L → T → Prop} (hE : ElemOK D dec) {t : ATree L} {v : T} (h : dec t v) : Within D 1 :=
  (hE t v h).mono (by omega)

/-- Dropping a node whose successor stays referenced. -/
theorem nest_node {dec : ATree L → T → Prop} (hE : ElemOK D dec) {tv : ATree L} {v : T} (h : dec tv v) {a : Addr} {nd : L}
    {tn : Option (ATree L)} {H : List Addr} (hn : ∀ t, tn = some t → t.addr ∈ H) :
    Within D (nest H (.node a nd (tv :: tn.toList))) := by
  simp only [nest]
  split
  · exact (hE _ _ h).mono (by omega)
  · simp only [nest.go]
    have h1 := nest_mono (H := []) (H' := H) (by simp) tv
    cases tn with
    | none => exact (hE _ _ h).mono (by simp [nest.go]; omega)
    | some t =>
      have h2 : nest H t = 0 := by
        have := hn t rfl
        cases t
        simp only [ATree.addr] at this
        simp [nest, this]
      exact (hE _ _ h).mono (by simp [nest.go, h2]; omega)

theorem safe_dropFirstMut {nd : L} {dec : ATree L → T → Prop} (hE : ElemOK D dec) {l : HList} {r : RList T}
    {ρ : List (Item L)} (h : l.Is nd dec r ρ) {b : Bool} {r' : RList T} (he : r.dropFirstMut = .ok (b, r')) :
    Safe A D (fun x σ => x.1 = b ∧ x.2.Is nd dec r' σ) l.dropFirstMut ρ := by
  obtain ⟨th, tl, rfl, rfl, h1, h2⟩ := h
  obtain ⟨hd, la, len⟩ := r
  simp only at h1 h2
  cases h1 with
  | none =>
    simp only [RList.dropFirstMut] at he
    cases he
    exact Safe.ret ⟨rfl, none, tl, rfl, rfl, .none, h2⟩
  | @some a tv tn v next hv hn =>
    simp only [RList.dropFirstMut] at he
    cases hc : csub len 1 with
    | error e => rw [hc] at he; cases he
    | ok length =>
      rw [hc] at he
      simp only [Res.ok_bind] at he
      cases he
      refine Safe.bind (safe_readNode (s := .node a nd (tv :: tn.toList)) rfl (.refl _) (by simp)) ?_
      rintro c σ ⟨rfl, rfl⟩
      simp only
      refine Safe.bind (safe_cloneOpt (o := tn) (t := .node a nd (tv :: tn.toList)) ?_ (by simp)) ?_
      · rintro s rfl
        exact Sub.of_kid (by simp [ATree.kids])
      rintro _ _ rfl
      simp only [hc]
      refine Safe.bind (Q := fun la' σ => ∃ tl', la' = tl'.map ATree.addr ∧
        OptRel dec tl' (if length == 0 then none else la) ∧
        σ.Perm (.ptr (.node a nd (tv :: tn.toList)) :: (optPtr tn ++ optPtr tl'))) ?_ ?_
      · by_cases hl : length = 0
        · subst hl
          simp only [beq_self_eq_true, if_true]
          refine Safe.bindFrame (ρ := optPtr tl ++ []) (F := .ptr (.node a nd (tv :: tn.toList)) :: optPtr tn)
            (safe_dropLast hE h2 []) ?_ ?_
          · simp only [optPtr_some]; perm_tac
          · rintro _ _ rfl
            exact Safe.ret ⟨none, rfl, .none, by simp⟩
        · have hb : (length == 0) = false := by simpa using hl
          simp only [hb]
          refine Safe.ret ⟨tl, rfl, h2, ?_⟩
          simp only [optPtr_some]; perm_tac
      · rintro la' σ ⟨tl', rfl, h3, hp⟩
        refine Safe.bind (Q := fun _ σ => σ = optPtr tn ++ optPtr tl') (Safe.perm (safe_drop ?_) hp) ?_
        · refine nest_node hE hv ?_
          rintro t rfl
          exact reach_mem (t := t) (by simp) (addr_mem_addrs t)
        · rintro _ _ rfl
          exact Safe.ret ⟨rfl, tn, tl', rfl, rfl, hn, h3⟩

theorem safe_pushFrontPtrMut {nd : L} {dec : ATree L → T → Prop} (hE : ElemOK D dec) {l : HList} {r : RList T}
    {ρ : List (Item L)} (h : l.Is nd dec r ρ) {tv : ATree L} {v : T} (hv : dec tv v) :
    Safe A D (fun l' σ => l'.Is nd dec (r.pushFrontPtrMut v) σ) (l.pushFrontPtrMut nd tv.addr) (.ptr tv :: ρ) := by
  obtain ⟨th, tl, rfl, rfl, h1, h2⟩ := h
  obtain ⟨hd, la, len⟩ := r
  simp only at h1 h2
  refine Safe.bind (Q := fun la' σ => ∃ tl', la' = tl'.map ATree.addr ∧
    OptRel dec tl' (if len == 0 then some v else la) ∧ σ.Perm (.ptr tv :: optPtr th ++ optPtr tl')) ?_ ?_
  · by_cases hl : len = 0
    · subst hl
      simp only [beq_self_eq_true, if_true]
      refine Safe.bind (Heap.safe_clone (.refl tv) (by simp)) ?_
      rintro _ _ rfl
      refine Safe.bindFrame (ρ := optPtr tl ++ []) (F := .ptr tv :: .ptr tv :: optPtr th)
        (safe_dropLast hE h2 []) ?_ ?_
      · perm_tac
      · rintro _ _ rfl
        refine Safe.ret ⟨some tv, rfl, .some hv, ?_⟩
        simp only [optPtr_some]; perm_tac
    · have hb : (len == 0) = false := by simpa using hl
      simp only [hb]
      refine Safe.ret ⟨tl, rfl, h2, ?_⟩
      perm_tac
  · rintro la' σ ⟨tl', rfl, h3, hp⟩
    simp only [nodePtrs_addr]
    refine Safe.bindFrame (F := optPtr tl') (safe_new nd (tv :: th.toList)) (by rw [ptr_node]; exact hp) ?_
    rintro q _ rfl
    exact Safe.ret ⟨some (.node q nd (tv :: th.toList)), tl', rfl, rfl, .some hv h1, h3⟩

theorem safe_pushFrontMut {nd : L} {dec : ATree L → T → Prop} (hE : ElemOK D dec) {l : HList} {r : RList T}
    {ρ : List (Item L)} (h : l.Is nd dec r ρ) {lv : L} {v : T} (hv : ∀ a, dec (.node a lv []) v) :
    Safe A D (fun l' σ => l'.Is nd dec (r.pushFrontMut v) σ) (l.pushFrontMut nd lv) ρ := by
  refine Safe.bindFrame (ρ := []) (F := ρ) (safe_new lv []) (by simp) ?_
  rintro q _ rfl
  exact safe_pushFrontPtrMut hE h (tv := .node q lv []) (hv q)

theorem safe_pushFront {nd : L} {dec : ATree L → T → Prop} (hE : ElemOK D dec) {l : HList} {r : RList T}
    {ρ : List (Item L)} (h : l.Is nd dec r ρ) {lv : L} {v : T} (hv : ∀ a, dec (.node a lv []) v) :
    Safe A D (fun l' σ => ∃ τ, σ = τ ++ ρ ∧ l'.Is nd dec (r.pushFront v) τ) (l.pushFront nd lv) ρ := by
  refine Safe.bind (safe_clone h) ?_
  rintro l' _ ⟨τ, rfl, h'⟩
  exact ((safe_pushFrontMut hE h' hv).frame ρ)

theorem safe_reverseLoop {nd : L} {dec : ATree L → T → Prop} (hE : ElemOK D dec) {t : ATree L}
    {R : List (Item L)} (ht : .ptr t ∈ R) (tn : Option (ATree L)) (next : Link T) (hn : IsLink nd dec tn next)
    (hs : ∀ s, tn = some s → Sub s t) (fuel : Nat) (hf : next.toList.length ≤ fuel) (l : HList) (r : RList T)
    (ρ : List (Item L)) (h : l.Is nd dec r ρ) :
    Safe A D (fun l' σ => ∃ τ, σ = τ ++ R ∧ l'.Is nd dec (next.toList.foldl (fun n v => n.pushFrontPtrMut v) r) τ)
      (reverseLoop nd fuel (tn.map ATree.addr) l) (ρ ++ R) := by
  induction hn generalizing fuel l r ρ with
  | none =>
    cases fuel <;> exact Safe.ret ⟨ρ, rfl, h⟩
  | @some a tv tn v next hv hn ih =>
    cases fuel with
    | zero => simp [Link.toList] at hf
    | succ fuel =>
      have hsub := hs _ rfl
      refine Safe.bind (safe_readNode (s := .node a nd (tv :: tn.toList)) rfl hsub (by simp [ht])) ?_
      rintro c σ ⟨rfl, rfl⟩
      simp only
      refine Safe.bind (Heap.safe_clone (s := tv) (t := t) (.kid hsub (by simp [ATree.kids])) (by simp [ht])) ?_
      rintro _ _ rfl
      refine Safe.bindFrame (F := R) (safe_pushFrontPtrMut hE h hv) (by perm_tac) ?_
      intro l' τ h'
      refine ih ?_ fuel (by simp [Link.toList] at hf; omega) l' _ τ h'
      rintro s rfl
      exact .kid hsub (by simp [ATree.kids])

theorem iterFold_toList (f : RList T → T → RList T) (hd : Link T) (fuel : Nat) (hf : hd.toList.length < fuel)
    (len : Nat) (hl : hd.toList.length = len) (r : RList T) :
    iterFold ListIter.step (fun n v => .ok (f n v)) fuel ⟨hd, len⟩ r = .ok (hd.toList.foldl f r) := by
  induction hd generalizing fuel len r with
  | none =>
    cases fuel with
    | zero => simp [Link.toList] at hf
    | succ fuel => rfl
  | some v next ih =>
    cases fuel with
    | zero => simp at hf
    | succ fuel =>
      simp only [Link.toList, List.length_cons] at hf hl
      subst hl
      simp only [iterFold, ListIter.step, csub_succ_one, Res.ok_bind, Link.toList, List.foldl_cons]
      exact ih fuel (by omega) _ rfl _

theorem is_new (nd : L) (dec : ATree L → T → Prop) : HList.new.Is nd dec (RList.new : RList T) [] :=
  ⟨none, none, rfl, rfl, .none, .none⟩

theorem safe_reverse {nd : L} {dec : ATree L → T → Prop} (hE : ElemOK D dec) {l : HList} {r : RList T}
    {ρ : List (Item L)} (h : l.Is nd dec r ρ) (hl : r.head.toList.length = r.length) :
    ∃ r', r.reverse = .ok r' ∧
    Safe A D (fun l' σ => ∃ τ, σ = τ ++ ρ ∧ l'.Is nd dec r' τ) (l.reverse nd) ρ := by
  refine ⟨_, iterFold_toList _ r.head _ (by omega) _ hl _, ?_⟩
  obtain ⟨th, tl, rfl, rfl, h1, h2⟩ := h
  cases th with
  | none =>
    generalize hr : r.head = hd at *
    cases h1
    cases r.length <;> exact Safe.ret ⟨[], rfl, is_new nd dec⟩
  | some t =>
    exact safe_reverseLoop hE (R := optPtr (some t) ++ optPtr tl) (t := t) (by simp) (some t) _ h1
      (by rintro s e; cases e; exact .refl t) r.length (by omega) HList.new _ [] (is_new nd dec)

theorem safe_reverseMutLoop {nd : L} {dec : ATree L → T → Prop} (hE : ElemOK D dec) (tc : Option (ATree L)) (cur : Link T)
    (hc : IsLink nd dec tc cur) (fuel : Nat) (hf : cur.toList.length ≤ fuel) (tp : Option (ATree L)) (prev : Link T)
    (hp : IsLink nd dec tp prev) :
    Safe A D (fun p σ => ∃ t, p = t.map ATree.addr ∧ σ = optPtr t ∧ IsLink nd dec t (RList.reverseLoop prev cur))
      (reverseMutLoop fuel (tp.map ATree.addr) (tc.map ATree.addr)) (optPtr tp ++ optPtr tc) := by
  induction hc generalizing fuel tp prev with
  | none => cases fuel <;> exact Safe.ret ⟨tp, rfl, by simp, hp⟩
  | @some a tv tn v next hv hn ih =>
    cases fuel with
    | zero => simp [Link.toList] at hf
    | succ fuel =>
      simp only [Link.toList, List.length_cons] at hf
      refine Safe.bindFrame (F := optPtr tp) (safe_makeMut (.node a nd (tv :: tn.toList)) (within_one hE hv))
        (by simp only [optPtr_some]; perm_tac) ?_
      rintro ⟨q, lab, cs⟩ τ ⟨e1, rfl⟩
      simp only [ATree.label, ATree.kids, Prod.mk.injEq] at e1
      obtain ⟨rfl, rfl⟩ := e1
      have key : Safe A D (fun p σ => ∃ t, p = t.map ATree.addr ∧ σ = optPtr t ∧
          IsLink lab dec t (RList.reverseLoop prev (.some v next)))
          (Prog.bind (close q lab (nodePtrs tv.addr (tp.map ATree.addr))) fun _ =>
            reverseMutLoop fuel (some q) (tn.map ATree.addr))
          (.opn q :: .ptr tv :: optPtr tn ++ optPtr tp) := by
        rw [nodePtrs_addr]
        refine Safe.bindFrame (F := optPtr tn) (safe_close q lab (tv :: tp.toList)) ?_ ?_
        · rw [ptr_node]; perm_tac
        · rintro _ _ rfl
          exact ih fuel (by omega) (some (.node q lab (tv :: tp.toList))) (.some v prev) (.some hv hp)
      cases tn with
      | none => exact key
      | some tn => exact key

theorem safe_reverseMut {nd : L} {dec : ATree L → T → Prop} (hE : ElemOK D dec) {l : HList} {r : RList T}
    {ρ : List (Item L)} (h : l.Is nd dec r ρ) (hl : r.head.toList.length = r.length) :
    Safe A D (fun l' σ => l'.Is nd dec r.reverseMut σ) l.reverseMut ρ := by
  obtain ⟨th, tl, rfl, rfl, h1, h2⟩ := h
  obtain ⟨hd, la, len⟩ := r
  simp only at h1 h2 hl
  refine Safe.bind (Q := fun la' σ => ∃ tl', la' = tl'.map ATree.addr ∧
    OptRel dec tl' (match hd with | .none => none | .some v _ => some v) ∧
    σ = optPtr tl' ++ (optPtr th ++ optPtr tl)) ?_ ?_
  · cases h1 with
    | none => exact Safe.ret ⟨none, rfl, .none, rfl⟩
    | @some a tv tn v next hv hn =>
      refine Safe.bind (safe_readNode (s := .node a nd (tv :: tn.toList)) rfl (.refl _) (by simp)) ?_
      rintro c σ ⟨rfl, rfl⟩
      simp only
      refine Safe.bind (Heap.safe_clone (s := tv) (t := .node a nd (tv :: tn.toList)) (Sub.of_kid (by simp [ATree.kids]))
        (by simp)) ?_
      rintro _ _ rfl
      exact Safe.ret ⟨some tv, rfl, .some hv, rfl⟩
  · rintro la' _ ⟨tl', rfl, h3, rfl⟩
    refine Safe.bindFrame (ρ := optPtr tl ++ []) (F := optPtr th ++ optPtr tl') (safe_dropLast hE h2 []) (by perm_tac) ?_
    rintro _ _ rfl
    refine Safe.bindFrame (F := optPtr tl') (safe_reverseMutLoop hE th hd h1 len (by omega) none .none .none)
      (by simp) ?_
    rintro p _ ⟨t, rfl, rfl, h4⟩
    exact Safe.ret ⟨t, tl', rfl, rfl, h4, h3⟩

theorem safe_firstMutSet {nd : L} {dec : ATree L → T → Prop} (hE : ElemOK D dec) {l : HList} {r : RList T}
    {ρ : List (Item L)} (h : l.Is nd dec r ρ) {f : L → L} {g : T → T}
    (hf : ∀ a lv ts v, dec (.node a lv ts) v → ∀ b, dec (.node b (f lv) ts) (g v)) :
    Safe A D (fun x σ => match r.firstMutSet g with
      | none => x.1 = false ∧ x.2.Is nd dec r σ
      | some r' => x.1 = true ∧ x.2.Is nd dec r' σ) (l.firstMutSet f) ρ := by
  obtain ⟨th, tl, rfl, rfl, h1, h2⟩ := h
  obtain ⟨hd, la, len⟩ := r
  simp only at h1 h2
  cases h1 with
  | none => exact Safe.ret ⟨rfl, none, tl, rfl, rfl, .none, h2⟩
  | @some a tv tn v next hv hn =>
    refine Safe.bindFrame (F := optPtr tl) (safe_makeMut (.node a nd (tv :: tn.toList)) (within_one hE hv))
      (by simp only [optPtr_some]; perm_tac) ?_
    rintro ⟨q, lab, cs⟩ τ ⟨e1, rfl⟩
    simp only [ATree.label, ATree.kids, Prod.mk.injEq] at e1
    obtain ⟨rfl, rfl⟩ := e1
    simp only [List.map_cons]
    refine Safe.bindFrame (F := .opn q :: (optPtr tn ++ optPtr tl)) (safe_makeMut tv (within_one hE hv))
      (by show List.Perm _ _; simp only [optPtr, ATree.kids]; perm_tac) ?_
    rintro ⟨q', lab', cs'⟩ τ ⟨e1, rfl⟩
    simp only [Prod.mk.injEq] at e1
    obtain ⟨rfl, rfl⟩ := e1
    refine Safe.bindFrame (F := .opn q :: (optPtr tn ++ optPtr tl)) (safe_close q' (f tv.label) tv.kids) (.refl _) ?_
    rintro _ _ rfl
    refine Safe.bindFrame (F := optPtr tl)
      (safe_close q lab (.node q' (f tv.label) tv.kids :: tn.toList)) (by rw [ptr_node]; perm_tac) ?_
    rintro _ _ rfl
    refine Safe.ret ⟨rfl, some (.node q lab (.node q' (f tv.label) tv.kids :: tn.toList)), tl, rfl, rfl, .some ?_ hn, h2⟩
    cases tv
    exact hf _ _ _ _ hv q'

theorem safe_dropLoop {nd : L} {dec : ATree L → T → Prop} (hE : ElemOK D dec) (tc : Option (ATree L)) (cur : Link T)
    (hc : IsLink nd dec tc cur) (hD : ∀ t, tc = some t → Within D (nest [] t)) (fuel : Nat) (hf : cur.toList.length ≤ fuel) :
    Safe A D (fun _ σ => σ = []) (dropLoop fuel (tc.map ATree.addr)) (optPtr tc) := by
  induction hc generalizing fuel with
  | none => cases fuel <;> exact Safe.ret rfl
  | @some a tv tn v next hv hn ih =>
    cases fuel with
    | zero => simp [Link.toList] at hf
    | succ fuel =>
      simp only [Link.toList, List.length_cons] at hf
      refine Safe.bind (safe_tryTake (.node a nd (tv :: tn.toList))) ?_
      rintro r σ (⟨rfl, rfl⟩ | ⟨rfl, rfl⟩)
      · simp only [ATree.label, ATree.kids]
        have key : Safe A D (fun _ σ => σ = []) (Prog.bind (drop tv.addr) fun _ => dropLoop fuel (tn.map ATree.addr))
            (.ptr tv :: optPtr tn) := by
          refine Safe.bind (safe_drop (elem_within hE hv _)) ?_
          rintro _ _ rfl
          refine ih ?_ fuel (by omega)
          rintro t rfl
          refine (hD _ rfl).mono ?_
          simp only [nest, List.not_mem_nil, if_false]
          have := nest_go_le (H := []) (ts := tv :: (some t).toList) (t := t) (by simp)
          omega
        cases tn with
        | none => exact key
        | some tn => exact key
      · simp only
        refine safe_drop ?_
        exact hD _ rfl

/-- Dropping a list of at most one element, or without a limit on the nesting of destructors. -/
theorem safe_dropShort {nd : L} {dec : ATree L → T → Prop} (hE : ElemOK D dec) {l : HList} {r : RList T}
    {ρ : List (Item L)} (h : l.Is nd dec r ρ) (hl : r.head.toList.length = r.length) (hD : D = none ∨ r.length ≤ 1) :
    Safe A D (fun _ σ => σ = []) l.dropList ρ := by
  obtain ⟨th, tl, rfl, rfl, h1, h2⟩ := h
  refine Safe.bindFrame (F := optPtr tl) (safe_dropLoop hE th r.head h1 ?_ r.length (by omega)) (.refl _) ?_
  · rintro t rfl
    rcases hD with rfl | hD
    · exact within_none _
    · generalize r.head = hd at *
      cases h1 with
      | @some a tv tn v next hv hn =>
        simp only [Link.toList, List.length_cons] at hl
        cases hn with
        | some _ _ => simp only [Link.toList, List.length_cons] at hl; omega
        | none =>
          refine (hE _ _ hv).mono (Nat.le_trans (nest_le_go _) ?_)
          simp [ATree.kids, nest.go]
  · rintro _ _ rfl
    have := safe_dropLast (A := A) hE h2 []
    simpa using this

/-- Dropping a list.  Without a limit on the nesting of destructors for lists of any length: see `C45`. -/
theorem safe_dropList {nd : L} {dec : ATree L → T → Prop} (hE : ElemOK D dec) {l : HList} {r : RList T}
    {ρ : List (Item L)} (h : l.Is nd dec r ρ) (hl : r.head.toList.length = r.length) (hD : D = none ∨ r.length = 0) :
    Safe A D (fun _ σ => σ = []) l.dropList ρ := safe_dropShort hE h hl (hD.imp id (by omega))

theorem length_dropFirstMut {r r' : RList T} {b : Bool} (hl : r.head.toList.length = r.length)
    (he : r.dropFirstMut = .ok (b, r')) : r'.head.toList.length = r'.length ∧ (b = false → r'.length = 0) := by
  obtain ⟨hd, la, len⟩ := r
  cases hd with
  | none => simp [RList.dropFirstMut] at he; obtain ⟨rfl, rfl⟩ := he; simp [Link.toList] at hl ⊢; omega
  | some v next =>
    simp only [Link.toList, List.length_cons] at hl
    subst hl
    simp [RList.dropFirstMut] at he
    obtain ⟨rfl, rfl⟩ := he
    simp

theorem safe_dropFirst {nd : L} {dec : ATree L → T → Prop} (hE : ElemOK D dec) {l : HList} {r : RList T}
    {ρ : List (Item L)} (h : l.Is nd dec r ρ) (hl : r.head.toList.length = r.length) {o : Option (RList T)}
    (he : r.dropFirst = .ok o) :
    Safe A D (fun x σ => ∃ τ, σ = τ ++ ρ ∧ match o with
      | none => x = none ∧ τ = []
      | some r' => ∃ l', x = some l' ∧ l'.Is nd dec r' τ) l.dropFirst ρ := by
  refine Safe.bind (safe_clone h) ?_
  rintro l' _ ⟨τ, rfl, h'⟩
  cases hd : r.clone.dropFirstMut with
  | error e => simp [RList.dropFirst, hd] at he
  | ok x =>
    obtain ⟨b, r'⟩ := x
    simp [RList.dropFirst, hd] at he
    refine Safe.bindFrame (F := ρ) (safe_dropFirstMut hE h' hd) (.refl _) ?_
    rintro ⟨b', l''⟩ τ ⟨rfl, h''⟩
    simp only at h'' ⊢
    have hlen := length_dropFirstMut (r := r.clone) hl hd
    cases b' with
    | true =>
      simp only [if_true] at he ⊢
      subst he
      exact Safe.ret ⟨τ, rfl, l'', rfl, h''⟩
    | false =>
      simp only [Bool.false_eq_true, if_false] at he ⊢
      subst he
      refine Safe.bindFrame (F := ρ) (safe_dropList hE h'' hlen.1 (.inr (hlen.2 rfl))) (.refl _) ?_
      rintro _ _ rfl
      exact Safe.ret ⟨[], rfl, rfl, rfl⟩

end HList
end Heap
end Rpds
