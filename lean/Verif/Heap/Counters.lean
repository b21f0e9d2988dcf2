import Verif.Heap.Weights
import Verif.Heap.SpaceHashTrie
/-
Every element that a handle counts has a cell of its own, so counters are at most the number of cells in use.
-/
set_option autoImplicit false
namespace Rpds
namespace Heap
variable {L : Type}

theorem used_lt {h : Mem L} {a : Addr} (hu : (get h a).used = true) : a < h.length := by
  apply Classical.byContradiction
  intro hl
  rw [get, List.getElem?_eq_none (Nat.not_lt.1 hl)] at hu
  cases hu

/-- Different cells in use are counted in `live`. -/
theorem nodup_le_live {h : Mem L} {as : List Addr} (hn : as.Nodup) (ha : ∀ a ∈ as, (get h a).used = true) : as.length ≤ live h := by
  rw [live_eq]
  refine (List.subperm_of_subset hn ?_).length_le
  intro a hm
  exact List.mem_filter.2 ⟨List.mem_range.2 (used_lt (ha a hm)), ha a hm⟩

theorem val_used {h : Mem L} {t : ATree L} (hv : Val h t) : (get h t.addr).used = true := by
  have := val_content hv
  rw [content] at this
  cases hg : get h t.addr <;> rw [hg] at this
  · cases this
  · cases this
  · rfl

/-- Different trees in memory have different addresses. -/
theorem trees_le_live {h : Mem L} {ts : List (ATree L)} (hv : ∀ t ∈ ts, Val h t) (hn : ts.Nodup) : ts.length ≤ live h := by
  rw [← List.length_map (f := ATree.addr)]
  refine nodup_le_live ?_ ?_
  · rw [List.Nodup, List.pairwise_map]
    refine hn.imp_of_mem fun {a b} ha hb hne e => hne ?_
    exact val_unique (hv a ha) (hv b hb) e
  · intro a ha
    obtain ⟨t, ht, rfl⟩ := List.mem_map.1 ha
    exact val_used (hv t ht)

theorem Sub.size_le {s t : ATree L} (h : Sub s t) : s.size ≤ t.size := by
  induction h with
  | refl => exact Nat.le_refl _
  | kid _ hk ih => exact Nat.le_trans (Nat.le_of_lt (val_size_kid hk)) ih

theorem Sub.under {s t u : ATree L} (h : Sub s t) (hk : t ∈ u.kids) : Sub s u := by
  induction h with
  | refl => exact .of_kid hk
  | kid _ hk' ih => exact .kid (ih hk) hk'

/-- `n` things are in `n` different cells that the items `ρ` lead to. -/
def Spread (ρ : List (Item L)) (n : Nat) : Prop :=
  ∃ ts : List (ATree L), ts.Nodup ∧ n ≤ ts.length ∧ ∀ t ∈ ts, ∃ u, .ptr u ∈ ρ ∧ Sub t u

theorem Spread.le_live {h : Mem L} {ρ σ : List (Item L)} {n : Nat} (hs : Spread ρ n) (hρ : ∀ i ∈ ρ, i ∈ σ) (ho : Own h σ) : n ≤ live h := by
  obtain ⟨ts, h1, h2, h3⟩ := hs
  refine Nat.le_trans h2 (trees_le_live ?_ h1)
  intro t ht
  obtain ⟨u, h4, h5⟩ := h3 t ht
  exact h5.val (ho.val u (hρ _ h4))

theorem Spread.mono {ρ σ : List (Item L)} {n : Nat} (hs : Spread ρ n) (hρ : ∀ i ∈ ρ, i ∈ σ) : Spread σ n := by
  obtain ⟨ts, h1, h2, h3⟩ := hs
  refine ⟨ts, h1, h2, fun t ht => ?_⟩
  obtain ⟨u, h4, h5⟩ := h3 t ht
  exact ⟨u, hρ _ h4, h5⟩

theorem Spread.zero (ρ : List (Item L)) : Spread ρ 0 := ⟨[], .nil, Nat.le_refl _, by simp⟩

/-- The nodes of a chain are different: each has fewer after it. -/
theorem IsLink.chain {T : Type} {nd : L} {dec : ATree L → T → Prop} {o : Option (ATree L)} {l : Link T} (h : IsLink nd dec o l) :
    ∃ ts : List (ATree L), ts.Nodup ∧ ts.length = l.toList.length ∧ ∀ t ∈ ts, ∃ u ∈ o, Sub t u := by
  induction h with
  | none => exact ⟨[], .nil, rfl, by simp⟩
  | @some a tv tn v next hv _ ih =>
    obtain ⟨ts, h1, h2, h3⟩ := ih
    have hk : ∀ u ∈ tn, u ∈ (ATree.node a nd (tv :: tn.toList)).kids := by
      intro u hu
      cases tn with
      | none => cases hu
      | some x => cases hu; simp [ATree.kids]
    refine ⟨.node a nd (tv :: tn.toList) :: ts, List.nodup_cons.2 ⟨?_, h1⟩, by simp [h2, Link.toList], ?_⟩
    · intro hm
      obtain ⟨u, hu, hs⟩ := h3 _ hm
      have := hs.size_le
      have := val_size_kid (hk u hu)
      omega
    · intro t ht
      rcases List.mem_cons.1 ht with rfl | ht
      · exact ⟨_, rfl, .refl _⟩
      · obtain ⟨u, hu, hs⟩ := h3 t ht
        exact ⟨_, rfl, hs.under (hk u hu)⟩

theorem mem_optPtr {o : Option (ATree L)} {u : ATree L} (h : u ∈ o) : Item.ptr u ∈ optPtr o := by
  cases o with
  | none => cases h
  | some x => cases h; simp [optPtr]

/-- Cells that hold different things are different. -/
theorem nodup_of_apart {α : Type} {D : ATree L → α → Prop} {P : α → α → Prop} (hD : ∀ t x y, D t x → D t y → ¬ P x y)
    {ts : List (ATree L)} {xs : List α} (hf : List.Forall₂ D ts xs) (hp : xs.Pairwise P) : ts.Nodup := by
  induction hf with
  | nil => exact .nil
  | @cons t x ts xs h1 h2 ih =>
    obtain ⟨hp1, hp2⟩ := List.pairwise_cons.1 hp
    refine List.nodup_cons.2 ⟨fun hm => ?_, ih hp2⟩
    obtain ⟨y, hy, hd⟩ := HT.f2_memL h2 hm
    exact hD t x y h1 hd (hp1 y hy)

/-! ### Linear structures -/

section
variable {T : Type}

theorem ListIs.spread {l : HList} {xs : List T} {ρ : List (Item (LinLabel T))} (h : ListIs l xs ρ) : Spread ρ l.length := by
  obtain ⟨r, ⟨th, tl, rfl, rfl, h1, -⟩, h2⟩ := h
  obtain ⟨ts, g1, g2, g3⟩ := h1.chain
  refine ⟨ts, g1, ?_, fun t ht => ?_⟩
  · rw [g2, h2.head, ← h2.length]
    exact Nat.le_refl _
  · obtain ⟨u, hu, hs⟩ := g3 t ht
    exact ⟨u, List.mem_append.2 (.inl (mem_optPtr hu)), hs⟩

theorem QueueIs.spread {q : HQueue} {xs : List T} {ρ : List (Item (LinLabel T))} (h : QueueIs q xs ρ) :
    Spread ρ q.in_list.length ∧ Spread ρ q.out_list.length := by
  obtain ⟨r, ⟨ρ₁, ρ₂, rfl, h1, h2, -, -⟩, i, o, r1, r2, rfl⟩ := h
  exact ⟨(ListIs.spread ⟨_, h1, r2⟩).mono (fun _ h => List.mem_append.2 (.inl h)), (ListIs.spread ⟨_, h2, r1⟩).mono (fun _ h => List.mem_append.2 (.inr h))⟩

end

/-! ### Red-black trees -/

section
variable {K V Q : Type}

theorem IsT.entries {o : Option (ATree (RLabel K V))} {v : RBTree K V} (h : IsT o v) :
    ∃ ts : List (ATree (RLabel K V)), List.Forall₂ entIs ts v.toList ∧ ∀ t ∈ ts, ∃ u ∈ o, Sub t u := by
  induction h with
  | none => exact ⟨[], .nil, by simp⟩
  | @some a te tl tr e c l r he hl hr ihl ihr =>
    obtain ⟨t1, f1, s1⟩ := ihl
    obtain ⟨t2, f2, s2⟩ := ihr
    refine ⟨t1 ++ te :: t2, ?_, ?_⟩
    · rw [RBTree.toList]
      exact f2_append f1 (.cons he f2)
    · intro t ht
      refine ⟨_, rfl, ?_⟩
      rcases List.mem_append.1 ht with ht | ht
      · obtain ⟨u, hu, hs⟩ := s1 t ht
        exact hs.under (by cases hu; simp [treeOf, ATree.kids])
      · rcases List.mem_cons.1 ht with rfl | ht
        · exact .of_kid (by simp [treeOf, ATree.kids])
        · obtain ⟨u, hu, hs⟩ := s2 t ht
          exact hs.under (by cases hu; simp [treeOf, ATree.kids])

theorem RBIs.spread {o : OrdKeys K Q} (lo : o.Lawful) {hm : HRBMap} {m : RBMap K V} {l : List (K × V)} {ρ : List (Item (RLabel K V))}
    (h : RBIs o hm m ρ) (hl : m.Rep o l) : Spread ρ hm.size := by
  obtain ⟨⟨⟨t, -, rfl, h1⟩, h3⟩, -⟩ := h
  obtain ⟨ts, g1, g2⟩ := h1.entries
  refine ⟨ts, nodup_of_apart (P := fun (a b : K × V) => o.same a.1 b.1 = false) ?_ g1 hl.ok.sorted.distinct, ?_, ?_⟩
  · rintro t x y ⟨e1, -⟩ ⟨e2, -⟩ hp
    rw [e1] at e2
    injection e2 with e2 e3
    rw [e2, lo.equivK.refl] at hp
    cases hp
  · rw [f2_length g1, h3, hl.size']
    exact Nat.le_refl _
  · intro t ht
    obtain ⟨u, hu, hs⟩ := g2 t ht
    exact ⟨u, mem_optPtr hu, hs⟩

end

/-! ### Hash tries -/

namespace HT
variable {H K V Q : Type}

theorem f2_flat {α β γ : Type} {D : α → β → Prop} {f : γ → List β} {S : α → Prop} {cs : List γ}
    (h : ∀ c ∈ cs, ∃ ts : List α, List.Forall₂ D ts (f c) ∧ ∀ t ∈ ts, S t) : ∃ ts : List α, List.Forall₂ D ts (cs.flatMap f) ∧ ∀ t ∈ ts, S t := by
  induction cs with
  | nil => exact ⟨[], .nil, by simp⟩
  | cons c cs ih =>
    obtain ⟨t1, f1, s1⟩ := h c (by simp)
    obtain ⟨t2, f2, s2⟩ := ih fun c hc => h c (by simp [hc])
    exact ⟨t1 ++ t2, f2_append f1 f2, fun t ht => (List.mem_append.1 ht).elim (s1 t) (s2 t)⟩

theorem link_entries {o : Option (ATree (HLabel K V))} {l : Link (HEntry K V)} (h : IsLink .lnode ewhIs o l) :
    ∃ ts : List (ATree (HLabel K V)), List.Forall₂ entIs ts l.toList ∧ ∀ t ∈ ts, ∃ u ∈ o, Sub t u := by
  induction h with
  | none => exact ⟨[], .nil, by simp⟩
  | @some a tv tn v next hv _ ih =>
    obtain ⟨ts, h1, h2⟩ := ih
    obtain ⟨te, -, e1, e2⟩ := hv
    refine ⟨te :: ts, .cons e2 h1, fun t ht => ⟨_, rfl, ?_⟩⟩
    rcases List.mem_cons.1 ht with rfl | ht
    · exact Sub.kid (.of_kid (s := tv) (by simp [ATree.kids])) (by simp [e1])
    · obtain ⟨u, hu, hs⟩ := h2 t ht
      exact hs.under (by cases hu; simp [ATree.kids])

theorem IsN.entries (n : HNode K V) : ∀ t : ATree (HLabel K V), IsN n t →
    ∃ ts : List (ATree (HLabel K V)), List.Forall₂ entIs ts n.entries ∧ ∀ s ∈ ts, Sub s t := by
  induction n using HNode.induct with
  | hl b =>
    intro t hn
    rw [HNode.entries_leaf]
    cases b with
    | single x =>
      obtain ⟨-, te, h1, h2⟩ := hn
      refine ⟨[te], .cons h2 .nil, ?_⟩
      intro s hs
      rw [List.mem_singleton.1 hs]
      exact .of_kid (by simp [h1])
    | collision r =>
      obtain ⟨th, tl, -, h1, h2, h3, -⟩ := hn
      obtain ⟨ts, g1, g2⟩ := link_entries h2
      refine ⟨ts, g1, fun s hs => ?_⟩
      obtain ⟨u, hu, hs⟩ := g2 s hs
      exact hs.under (by cases hu; simp [h1])
  | hb bm arr ih =>
    intro t hn
    obtain ⟨-, hn⟩ := hn
    rw [isNs_iff] at hn
    rw [HNode.entries_branch]
    refine f2_flat fun n hm => ?_
    obtain ⟨s, hs, hr⟩ := f2_memR hn hm
    obtain ⟨ts, g1, g2⟩ := ih n hm s hr
    exact ⟨ts, g1, fun x hx => (g2 x hx).under hs⟩

theorem HTIs.spread {Ar : Arch} {o : HashKeys H K Q} (lo : o.Lawful) {k : Nat} {hm : HHTMap H} {m : HTMap H K V} {l : List (K × V)}
    {ρ : List (Item (HLabel K V))} (h : HTIs Ar o k hm m ρ) (hl : m.Rep Ar o k l) : Spread ρ hm.size := by
  obtain ⟨⟨⟨t, -, rfl, hn⟩, h2, -, -⟩, -⟩ := h
  obtain ⟨ts, g1, g2⟩ := IsN.entries m.root t hn
  refine ⟨ts, nodup_of_apart ?_ g1 (hl.apart lo), ?_, fun s hs => ⟨t, by simp, g2 s hs⟩⟩
  · rintro t x y ⟨e1, -⟩ ⟨e2, -⟩ hp
    rw [e1] at e2
    injection e2 with e2 e3
    rw [e2, lo.equivK.refl] at hp
    cases hp
  · have : m.root.entries.length = l.length := by rw [← hl.perm.length_eq, List.length_map]
    rw [f2_length g1, this, h2, hl.size]
    exact Nat.le_refl _

/-- The counter in a cell: the length of the list in a collision leaf. -/
def storedLength : HLabel K V → Nat
  | .collision _ _ n => n
  | _ => 0

theorem entIs.stored {t s : ATree (HLabel K V)} {x : HEntry K V} (h : entIs t x) (hs : Sub s t) : storedLength s.label = 0 := by
  rcases Sub.cases_top hs with rfl | ⟨u, hu, -⟩
  · rw [h.1]; rfl
  · rw [h.2] at hu; cases hu

theorem ewhIs.stored {t s : ATree (HLabel K V)} {x : HEntry K V} (h : ewhIs t x) (hs : Sub s t) : storedLength s.label = 0 := by
  obtain ⟨te, h1, h2, h3⟩ := h
  rcases Sub.cases_top hs with rfl | ⟨u, hu, hs⟩
  · rw [h1]; rfl
  · rw [h2, List.mem_singleton] at hu
    exact h3.stored (hu ▸ hs)

theorem link_stored {o : Option (ATree (HLabel K V))} {l : Link (HEntry K V)} (h : IsLink .lnode ewhIs o l) {t s : ATree (HLabel K V)}
    (ht : t ∈ o) (hs : Sub s t) : storedLength s.label = 0 := by
  induction h generalizing t with
  | none => cases ht
  | @some a tv tn v next hv _ ih =>
    cases ht
    rcases Sub.cases_top hs with rfl | ⟨u, hu, hs'⟩
    · rfl
    · rcases List.mem_cons.1 hu with rfl | hu
      · exact hv.stored hs'
      · exact ih (Option.mem_toList.1 hu) hs'

/-- The lists in collision leaves have as many nodes as they say. -/
theorem IsN.stored (n : HNode K V) : ∀ t s : ATree (HLabel K V), IsN n t → Sub s t → Spread [.ptr t] (storedLength s.label) := by
  induction n using HNode.induct with
  | hl b =>
    intro t s hn hs
    cases b with
    | single x =>
      obtain ⟨h0, te, h1, h2⟩ := hn
      rcases Sub.cases_top hs with rfl | ⟨u, hu, hs⟩
      · rw [h0]; exact .zero _
      · rw [h1, List.mem_singleton] at hu
        rw [h2.stored (hu ▸ hs)]
        exact .zero _
    | collision r =>
      obtain ⟨th, tl, h0, h1, h2, h3, h4⟩ := hn
      rcases Sub.cases_top hs with rfl | ⟨u, hu, hs⟩
      · obtain ⟨ts, g1, g2, g3⟩ := h2.chain
        refine ⟨ts, g1, ?_, fun x hx => ⟨s, by simp, ?_⟩⟩
        · rw [h0, storedLength, g2, h4]; exact Nat.le_refl _
        · obtain ⟨u, hu, hs⟩ := g3 x hx
          exact hs.under (by cases hu; simp [h1])
      · rw [h1] at hu
        rcases List.mem_append.1 hu with hu | hu
        · rw [link_stored h2 (Option.mem_toList.1 hu) hs]
          exact .zero _
        · generalize r.last = w at h3
          cases h3 with
          | none => cases hu
          | some h3 =>
            simp only [Option.toList_some, List.mem_singleton] at hu
            rw [h3.stored (hu ▸ hs)]
            exact .zero _
  | hb bm arr ih =>
    intro t s hn hs
    obtain ⟨h0, hn⟩ := hn
    rw [isNs_iff] at hn
    rcases Sub.cases_top hs with rfl | ⟨u, hu, hs⟩
    · rw [h0]; exact .zero _
    · obtain ⟨n, hm, hr⟩ := f2_memL hn hu
      obtain ⟨ts, g1, g2, g3⟩ := ih n hm u s hr hs
      refine ⟨ts, g1, g2, fun x hx => ⟨t, by simp, ?_⟩⟩
      obtain ⟨v, hv, hx⟩ := g3 x hx
      simp only [List.mem_singleton, Item.ptr.injEq] at hv
      exact Sub.under (hv ▸ hx) hu

theorem HTIs.stored {Ar : Arch} {o : HashKeys H K Q} {k : Nat} {hm : HHTMap H} {m : HTMap H K V} {ρ : List (Item (HLabel K V))}
    (h : HTIs Ar o k hm m ρ) {t s : ATree (HLabel K V)} (ht : .ptr t ∈ ρ) (hs : Sub s t) : Spread ρ (storedLength s.label) := by
  obtain ⟨⟨⟨u, -, rfl, hn⟩, -⟩, -⟩ := h
  simp only [List.mem_singleton, Item.ptr.injEq] at ht
  subst ht
  exact IsN.stored m.root t s hn hs

end HT
end Heap
end Rpds
