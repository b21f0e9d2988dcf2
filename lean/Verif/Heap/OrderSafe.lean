import Verif.Heap.Threads
import Verif.Heap.OrderInv
/-
Programs that are `SafeB` have no data races, in every interleaving, with the orderings of `Arc`.
-/
set_option autoImplicit false
namespace Rpds
namespace Heap
variable {L α : Type} {A : Allocator L} {D : Option Nat} {B : List (Item L)}

/-! ### What a step does to the memory -/

/-- The effect of an event on the memory. -/
def Effects (p : Addr) (h h' : Mem L) : Kind → Prop
  | .alloc => get h p = .free ∧ ∃ c, h' = put h p c ∧ c ≠ .free
  | .incr => ∃ n l cs, get h p = .closed n l cs ∧ h' = put h p (.closed (n + 1) l cs)
  | .read => ∃ n l cs, get h p = .closed n l cs ∧ h' = h
  | .test => ∃ n l cs, get h p = .closed n l cs ∧ h' = h
  | .own => ∃ l cs, get h p = .closed 1 l cs ∧ h' = put h p .opened
  | .write => get h p = .opened ∧ ∃ l cs, h' = put h p (.closed 1 l cs)
  | .take => ∃ l cs, get h p = .closed 1 l cs ∧ h' = put h p .free
  | .last => ∃ l cs, get h p = .closed 1 l cs ∧ h' = put h p .free
  | .decr => ∃ n l cs, get h p = .closed n l cs ∧ n ≠ 1 ∧ h' = put h p (.closed (n - 1) l cs)

theorem act_effects {a : Act L} {h h' : Mem L} {x : Resp a} (he : act A a h = .ok (x, h')) :
    Effects (a.event A h).2 h h' (a.event A h).1 := by
  cases a with
  | new l cs =>
    simp only [act, Except.ok.injEq, Prod.mk.injEq] at he
    obtain ⟨-, rfl⟩ := he
    exact ⟨A.fresh h, _, rfl, by simp⟩
  | newOpen =>
    simp only [act, Except.ok.injEq, Prod.mk.injEq] at he
    obtain ⟨-, rfl⟩ := he
    exact ⟨A.fresh h, _, rfl, by simp⟩
  | clone p =>
    simp only [act] at he
    split at he
    · next n l cs hg => cases he; exact ⟨n, l, cs, hg, rfl⟩
    · cases he
  | read p =>
    simp only [act] at he
    split at he
    · next n l cs hg => cases he; exact ⟨n, l, cs, hg, rfl⟩
    · cases he
  | tryOpen p =>
    simp only [act] at he
    split at he
    · next n l cs hg =>
      split at he
      · next hn =>
        subst hn
        cases he
        simp only [Act.event, unique, hg, beq_self_eq_true, if_true]
        exact ⟨l, cs, hg, rfl⟩
      · next hn =>
        cases he
        simp only [Act.event, unique, hg, beq_eq_false_iff_ne.2 hn, Bool.false_eq_true, if_false]
        exact ⟨n, l, cs, hg, rfl⟩
    · cases he
  | close p l cs =>
    simp only [act] at he
    split at he
    · next hg => cases he; exact ⟨hg, l, cs, rfl⟩
    · cases he
  | tryTake p =>
    simp only [act] at he
    split at he
    · next n l cs hg =>
      split at he
      · next hn =>
        subst hn
        cases he
        simp only [Act.event, unique, hg, beq_self_eq_true, if_true]
        exact ⟨l, cs, hg, rfl⟩
      · next hn =>
        cases he
        simp only [Act.event, unique, hg, beq_eq_false_iff_ne.2 hn, Bool.false_eq_true, if_false]
        exact ⟨n, l, cs, hg, rfl⟩
    · cases he

theorem step_effects {th th' : Thread L α} {h h' : Mem L} (he : th.step A h = .ok (th', h')) :
    match th.event A h with
    | none => h' = h
    | some (k, p) => Effects p h h' k := by
  obtain ⟨pd, deep, prog⟩ := th
  cases pd with
  | cons x ps =>
    obtain ⟨d, p⟩ := x
    simp only [Thread.step, decr] at he
    simp only [Thread.event]
    cases hg : get h p with
    | free => simp [hg] at he
    | opened => simp [hg] at he
    | closed n l cs =>
      simp only [hg] at he
      by_cases hn : n = 1
      · subst hn
        simp only [if_true, Except.ok.injEq, Prod.mk.injEq] at he
        obtain ⟨-, rfl⟩ := he
        simp only [unique, hg, beq_self_eq_true, if_true]
        exact ⟨l, cs, hg, rfl⟩
      · simp only [if_neg hn, Except.ok.injEq, Prod.mk.injEq] at he
        obtain ⟨-, rfl⟩ := he
        simp only [unique, hg, beq_eq_false_iff_ne.2 hn, Bool.false_eq_true, if_false]
        exact ⟨n, l, cs, hg, hn, rfl⟩
  | nil =>
    cases prog with
    | ret r =>
      simp only [Thread.step, Except.ok.injEq, Prod.mk.injEq] at he
      exact he.2.symm
    | panic => simp [Thread.step] at he
    | drop p k =>
      simp only [Thread.step, Except.ok.injEq, Prod.mk.injEq] at he
      exact he.2.symm
    | op a k =>
      simp only [Thread.step] at he
      cases ha : act A a h with
      | error e => simp [ha] at he
      | ok y =>
        obtain ⟨x, h''⟩ := y
        simp only [ha, Except.ok.injEq, Prod.mk.injEq] at he
        obtain ⟨-, rfl⟩ := he
        exact act_effects ha

/-! ### Threads touch only what they can reach -/

theorem Own.dropAll (n : Nat) : ∀ {h : Mem L} {ts : List (ATree L)} {F : List (Item L)}, ATree.size.go ts ≤ n →
    Own h (ts.map .ptr ++ F) → ∃ h', Own h' F := by
  induction n with
  | zero =>
    intro h ts F hn ho
    cases ts with
    | nil => exact ⟨h, by simpa using ho⟩
    | cons t ts =>
      obtain ⟨a, l, us⟩ := t
      simp [ATree.size.go, ATree.size] at hn
  | succ n ih =>
    intro h ts F hn ho
    cases ts with
    | nil => exact ⟨h, by simpa using ho⟩
    | cons t ts =>
      have ho' : Own h (.ptr t :: (ts.map .ptr ++ F)) := by simpa using ho
      obtain ⟨m, e, -⟩ := ho'.mem_ptr_closed (ho'.val t (by simp))
      by_cases hm : m = 1
      · subst hm
        have h1 := Own.release (σ := []) ho' e (.inl ⟨rfl, rfl⟩)
        refine ih (ts := t.kids ++ ts) ?_ (by simpa using h1)
        obtain ⟨a, l, us⟩ := t
        have hgo : ∀ xs ys : List (ATree L), ATree.size.go (xs ++ ys) = ATree.size.go xs + ATree.size.go ys := by
          intro xs ys
          induction xs with
          | nil => simp [ATree.size.go]
          | cons x xs ih => simp [ATree.size.go, ih]; omega
        simp only [ATree.size.go, ATree.size, ATree.kids, hgo] at hn ⊢
        omega
      · refine ih (ts := ts) ?_ (ho'.decr e hm)
        obtain ⟨a, l, us⟩ := t
        simp only [ATree.size.go, ATree.size] at hn
        omega

theorem Own.opened {h : Mem L} {a : Addr} {F : List (Item L)} (ho : Own h (.opn a :: F)) : get h a = .opened := by
  have := ho.cell a
  cases hg : get h a with
  | opened => rfl
  | free => rw [hg] at this; have h2 := this.2; simp at h2
  | closed n l cs => rw [hg] at this; have h2 := this.2.2; simp at h2

theorem Own.abandon {h : Mem L} {a : Addr} {F : List (Item L)} (ho : Own h (.opn a :: F)) : Own (put h a .free) F := by
  have e := ho.opened
  have hc : content h a = none := by simp [content, e]
  have hpre : ∀ t, Val h t → Val (put h a .free) t := fun t hv => val_put_unseen hv _ (not_mem_addrs_of_free hv hc)
  refine ⟨fun b => ?_, fun t ht => hpre t (ho.val t (by simp [ht])), ?_⟩
  · have hb := ho.cell b
    have hr := count_refs_put h a b .free
    rw [e] at hr
    simp only [Cell.refs, List.count_nil, Nat.add_zero] at hr
    rw [get_put, hr]
    simp only [held_opn, opens_opn, List.count_cons] at hb
    split
    · next h' =>
      subst h'
      rw [e] at hb
      obtain ⟨h1, h2⟩ := hb
      simp at h2
      exact ⟨h1, h2⟩
    · next h' =>
      have : (a == b) = false := by simpa using fun h => h' h.symm
      rw [this] at hb
      simpa using hb
  · intro b n m cs hb
    rw [get_put] at hb
    split at hb
    · cases hb
    · obtain ⟨t, h1, h2⟩ := ho.acyclic _ _ _ _ hb
      exact ⟨t, h1, hpre t h2⟩

theorem Own.without {h : Mem L} {F : List (Item L)} (G : List (Item L)) (ho : Own h (G ++ F)) : ∃ h', Own h' F := by
  induction G generalizing h with
  | nil => exact ⟨h, ho⟩
  | cons x G ih =>
    cases x with
    | opn a => exact ih ho.abandon
    | ptr t =>
      obtain ⟨h', ho'⟩ := Own.dropAll _ (ts := [t]) (Nat.le_refl _) (by simpa using ho)
      exact ih ho'

/-- The cell an action follows a pointer to. -/
def Act.target : Act L → Option Addr
  | .clone p | .read p | .tryOpen p | .tryTake p => some p
  | _ => none

theorem SafeB.target {Q : α → List (Item L) → Prop} {a : Act L} {k : Resp a → Prog L α} {σ F : List (Item L)} {h : Mem L}
    (hs : SafeB A D B Q (.op a k) σ) (ho : Own h (σ ++ (B ++ F))) {p : Addr} (hp : a.target = some p) :
    ∃ t s : ATree L, .ptr t ∈ σ ++ B ∧ Sub s t ∧ s.addr = p := by
  obtain ⟨h', ho'⟩ := Own.without F (F := σ ++ B) (ho.perm (by perm_tac))
  obtain ⟨x, h'', ρ', e, -⟩ := hs.2 h' [] (by simpa using ho')
  have : ∃ n l cs, get h' p = .closed n l cs := by
    cases hg : get h' p with
    | closed n l cs => exact ⟨n, l, cs, rfl⟩
    | _ => cases a <;> simp [Act.target] at hp <;> subst hp <;> simp [act, hg] at e
  obtain ⟨n, l, cs, hg⟩ := this
  obtain ⟨t, s, h1, h2, h3, -⟩ := ho'.owned hg
  exact ⟨t, s, h1, h2, h3⟩

theorem edge_of_kid {h : Mem L} {t s : ATree L} (hv : Val h t) (hs : s ∈ t.kids) : Edge h t.addr s.addr := by
  obtain ⟨n, e⟩ := get_of_content (val_content hv)
  simp only [Edge, e, Cell.refs]
  exact List.mem_map.2 ⟨s, hs, rfl⟩

theorem Sub.reaches {h : Mem L} {s t : ATree L} (hs : Sub s t) (hv : Val h t) : Reaches h t.addr s.addr := by
  induction hs with
  | refl => exact .refl _
  | kid h1 h2 ih => exact (ih hv).tail (edge_of_kid (h1.val hv) h2)

/-! ### Counting pointers -/

theorem mem_held_of_count {ρ : List (Item L)} {q : Addr} (h : 0 < (held ρ).count q) : q ∈ held ρ := List.count_pos_iff.1 h

theorem Own.no_loop {h : Mem L} {ρ : List (Item L)} (ho : Own h ρ) (p : Addr) : ¬ Edge h p p := by
  intro hp
  cases hg : get h p with
  | closed n l cs =>
    obtain ⟨t, rfl, hv⟩ := ho.acyclic p n l cs hg
    have := val_content hv
    rw [content_of_get hg] at this
    simp only [Option.some.injEq, Prod.mk.injEq] at this
    simp only [Edge, hg, Cell.refs, this.2, List.mem_map] at hp
    obtain ⟨s, hs, he⟩ := hp
    exact val_kid_ne hv hs he
  | _ => simp [Edge, hg, Cell.refs] at hp

theorem edge_refs {h : Mem L} {q p : Addr} (he : Edge h q p) : p ∈ refs h := by
  unfold Edge at he
  cases hg : get h q with
  | closed n l cs => rw [hg] at he; exact mem_refs hg he
  | _ => rw [hg] at he; simp [Cell.refs] at he

/-- Pointers and borrows of a cell that is not in use through pointers. -/
theorem Own.not_closed {h : Mem L} {ρ : List (Item L)} (ho : Own h ρ) {p : Addr} (hp : ¬ Closed h p) :
    (held ρ).count p = 0 ∧ (refs h).count p = 0 := by
  have := ho.cell p
  cases hg : get h p with
  | closed n l cs => exact absurd ⟨n, l, cs, hg⟩ hp
  | free => rw [hg] at this; simp only [CellOK] at this; omega
  | opened => rw [hg] at this; simp only [CellOK] at this; omega

theorem two_edges {h : Mem L} {a b p : Addr} (ha : Edge h a p) (hb : Edge h b p) (hab : a ≠ b) : 2 ≤ (refs h).count p := by
  have h1 := count_refs_put h a p .free
  have h2 : 0 < (get h a).refs.count p := List.count_pos_iff.2 ha
  have h3 : Edge (put h a .free) b p := by
    rw [Edge, get_put, if_neg (fun h => hab h.symm)]
    exact hb
  have h4 : 0 < (refs (put h a .free)).count p := List.count_pos_iff.2 (edge_refs h3)
  have h5 : (Cell.free : Cell L).refs.count p = 0 := rfl
  omega

theorem Reaches.last' {h : Mem L} {a c : Addr} (h1 : Reaches h a c) : a = c ∨ ∃ b, Reaches h a b ∧ Edge h b c := by
  induction h1 with
  | refl => exact .inl rfl
  | @head a b c h3 _ ih =>
    rcases ih with rfl | ⟨d, h4, h5⟩
    · exact .inr ⟨a, .refl _, h3⟩
    · exact .inr ⟨d, .head h3 h4, h5⟩

section put
variable {h : Mem L} {ρ ρ' R : List (Item L)} {p : Addr} {c : Cell L}

theorem put_count (ho : Own h (ρ ++ R)) (ho' : Own (put h p c) (ρ' ++ R)) {b : Addr} (hb : b ≠ p) :
    (held ρ).count b + (get h p).refs.count b = (held ρ').count b + c.refs.count b ∧
      (opens ρ).count b = (opens ρ').count b := by
  have h1 := ho.cell b
  have h2 := ho'.cell b
  have h3 := count_refs_put h p b c
  rw [get_put, if_neg hb] at h2
  simp only [held_append, opens_append, List.count_append] at h1 h2
  cases hg : get h b <;> rw [hg] at h1 h2 <;> simp only [CellOK] at h1 h2 <;> omega

/-- Nothing points to a cell that is about to get its first pointer, or lost its last one, but one item. -/
theorem put_alone (ho : Own h (ρ ++ R)) (ho' : Own (put h p c) (ρ' ++ R)) (hn : ¬ (Closed h p ∧ Closed (put h p c) p)) :
    (refs h).count p = 0 ∧ (refs (put h p c)).count p = 0 ∧ (held R).count p = 0 := by
  have h3 := count_refs_put h p p c
  have h4 : (get h p).refs.count p = 0 := List.count_eq_zero.2 (ho.no_loop p)
  have h5 : c.refs.count p = 0 := by
    have := ho'.no_loop p
    rw [Edge, get_put_self] at this
    exact List.count_eq_zero.2 this
  by_cases hc : Closed h p
  · have := ho'.not_closed (p := p) (fun h => hn ⟨hc, h⟩)
    simp only [held_append, List.count_append] at this
    omega
  · have := ho.not_closed hc
    simp only [held_append, List.count_append] at this
    omega

end put

/-! ### One step of one thread -/

section
variable {o : Orderings} {h₀ : Mem L} {tr : List Event} {h h' : Mem L} {ρ ρ' R : List (Item L)} {H O H' O' : Nat → List Addr} {E : List Addr}

/-- The last value of a count is the one in memory. -/
theorem value_step (od : Ordered o h₀ tr h H O E) (i : Nat) {k : Kind} {p : Addr} (he : Effects p h h' k) (q : Addr) :
    countAt h₀ (tr ++ [⟨i, k, p, (get h' p).count⟩]) q (tr.length + 1) = (get h' q).count := by
  have hl : tr.length + 1 = (tr ++ [(⟨i, k, p, (get h' p).count⟩ : Event)]).length := by simp
  rw [hl, countAt_end]
  by_cases hqp : q = p
  · subst hqp
    cases k with
    | alloc => simp [Event.sets, Kind.counts]
    | incr => simp [Event.sets, Kind.counts]
    | take => simp [Event.sets, Kind.counts]
    | last => simp [Event.sets, Kind.counts]
    | decr => simp [Event.sets, Kind.counts]
    | read =>
      obtain ⟨n, l, cs, hg, rfl⟩ := he
      simp [Event.sets, Kind.counts, od.value]
    | test =>
      obtain ⟨n, l, cs, hg, rfl⟩ := he
      simp [Event.sets, Kind.counts, od.value]
    | own =>
      obtain ⟨l, cs, hg, rfl⟩ := he
      simp [Event.sets, Kind.counts, od.value, hg, get_put_self, Cell.count]
    | write =>
      obtain ⟨hg, l, cs, rfl⟩ := he
      simp [Event.sets, Kind.counts, od.value, hg, get_put_self, Cell.count]
  · have h1 : (⟨i, k, p, (get h' p).count⟩ : Event).sets q = false := by
      simp only [Event.sets, Bool.and_eq_false_iff]
      exact .inl (beq_eq_false_iff_ne.2 fun h => hqp h.symm)
    have h2 : get h' q = get h q := by
      cases k with
      | alloc => obtain ⟨-, c, rfl, -⟩ := he; rw [get_put, if_neg hqp]
      | incr => obtain ⟨n, l, cs, -, rfl⟩ := he; rw [get_put, if_neg hqp]
      | read => obtain ⟨n, l, cs, -, rfl⟩ := he; rfl
      | test => obtain ⟨n, l, cs, -, rfl⟩ := he; rfl
      | own => obtain ⟨l, cs, -, rfl⟩ := he; rw [get_put, if_neg hqp]
      | write => obtain ⟨-, l, cs, rfl⟩ := he; rw [get_put, if_neg hqp]
      | take => obtain ⟨l, cs, -, rfl⟩ := he; rw [get_put, if_neg hqp]
      | last => obtain ⟨l, cs, -, rfl⟩ := he; rw [get_put, if_neg hqp]
      | decr => obtain ⟨n, l, cs, -, -, rfl⟩ := he; rw [get_put, if_neg hqp]
    simp [h1, h2, od.value]

theorem ordered_alone (od : Ordered o h₀ tr h H O E) {i v : Nat} {k : Kind} {p : Addr} {c : Cell L}
    (ho : Own h (ρ ++ R)) (ho' : Own (put h p c) (ρ' ++ R)) (hi : H i = held ρ) (hi' : H' i = held ρ')
    (oi : O i = opens ρ) (oi' : O' i = opens ρ') (hH : ∀ j, j ≠ i → H' j = H j ∧ O' j = O j)
    (hR : ∀ j, j ≠ i → (∀ q ∈ H j, q ∈ held R) ∧ ∀ q ∈ O j, q ∈ opens R) (hE : ∀ q ∈ E, q ∈ held R)
    (hn : ¬ (Closed h p ∧ Closed (put h p c) p)) (hno : ¬ (get h p = .opened ∧ c = .opened))
    (hfr : c = .free → k.frees = true)
    (hall : ∀ n x, tr[n]? = some x → x.addr = p → Before o (tr ++ [⟨i, k, p, v⟩]) n tr.length)
    (hval : ∀ q, countAt h₀ (tr ++ [⟨i, k, p, v⟩]) q (tr.length + 1) = (get (put h p c) q).count) :
    Ordered o h₀ (tr ++ [⟨i, k, p, v⟩]) (put h p c) H' O' E := by
  obtain ⟨r1, r2, r3⟩ := put_alone ho ho' hn
  have hpR : p ∉ held R := List.count_eq_zero.1 r3
  have hclosed : Closed (put h p c) p → (held ρ').count p ≠ 0 := by
    rintro ⟨n, l, cs, hg⟩ hz
    have := ho'.cell p
    rw [hg] at this
    simp only [CellOK, held_append, List.count_append] at this
    omega
  have hclosed' : Closed h p → (held ρ).count p ≠ 0 := by
    rintro ⟨n, l, cs, hg⟩ hz
    have := ho.cell p
    rw [hg] at this
    simp only [CellOK, held_append, List.count_append] at this
    omega
  have edge' : ∀ q, Edge (put h p c) p q ↔ q ∈ c.refs := fun q => by rw [Edge, get_put_self]
  have edgeC : ∀ {g : Mem L} {q : Addr}, Edge g p q → Closed g p := by
    intro g q he
    unfold Edge at he
    cases hg : get g p with
    | closed n l cs => exact ⟨n, l, cs, hg⟩
    | _ => rw [hg] at he; simp [Cell.refs] at he
  refine od.alone (e := ⟨i, k, p, v⟩) ?_ ?_ ?_ ?_ ?_ (fun j hj => (hH j hj).1) ?_ (fun hx => hpR (hE p hx)) ?_ ?_ ?_ ?_ ?_ ?_ ?_ ?_ hall hval
  · intro b q hb
    simp only at hb
    rw [Edge, Edge, get_put, if_neg hb]
  · rintro b hb ⟨n, l, cs, hg⟩
    simp only at hb
    rw [get_put, if_neg hb] at hg
    exact ⟨n, l, cs, hg⟩
  · intro b hb hg
    simp only at hb
    rw [get_put, if_neg hb] at hg
    exact hg
  · intro b hb
    exact List.count_eq_zero.1 r1 (edge_refs hb)
  · intro b hb
    exact List.count_eq_zero.1 r2 (edge_refs hb)
  · intro j hj hx
    exact hpR ((hR j hj).1 p hx)
  · intro q hq hx
    simp only at hq hx ⊢
    rw [hi] at hx
    have h1 := (put_count ho ho' hq).1
    have h2 : 0 < (held ρ).count q := List.count_pos_iff.2 hx
    by_cases h3 : 0 < (held ρ').count q
    · exact .inl (by rw [hi']; exact List.count_pos_iff.1 h3)
    · have h4 : Edge (put h p c) p q := (edge' q).2 (List.count_pos_iff.1 (by omega))
      exact .inr ⟨h4, by rw [hi']; exact List.count_pos_iff.1 (Nat.pos_of_ne_zero (hclosed (edgeC h4)))⟩
  · intro q hq
    simp only at hq ⊢
    have hne : q ≠ p := by rintro rfl; exact ho.no_loop _ hq
    have h1 := (put_count ho ho' hne).1
    have h2 : 0 < (get h p).refs.count q := List.count_pos_iff.2 hq
    have h3 : c.refs = [] := by
      cases c with
      | closed n l cs => exact absurd ⟨edgeC hq, ⟨n, l, cs, get_put_self _ _ _⟩⟩ hn
      | _ => rfl
    rw [h3] at h1
    rw [hi']
    exact List.count_pos_iff.1 (by simp at h1; omega)
  · intro q hq hx
    simp only at hq hx ⊢
    rw [hi'] at hx
    have h1 := (put_count ho ho' hq).1
    have h2 : 0 < (held ρ').count q := List.count_pos_iff.2 hx
    by_cases h3 : 0 < (held ρ).count q
    · exact .inl (by rw [hi]; exact List.count_pos_iff.1 h3)
    · have h4 : Edge h p q := List.count_pos_iff.1 (by omega)
      exact .inr ⟨h4, by rw [hi]; exact List.count_pos_iff.1 (Nat.pos_of_ne_zero (hclosed' (edgeC h4)))⟩
  · intro q hq
    simp only at hq ⊢
    have hne : q ≠ p := by rintro rfl; exact ho'.no_loop _ hq
    have h1 := (put_count ho ho' hne).1
    have h2 : 0 < c.refs.count q := List.count_pos_iff.2 ((edge' q).1 hq)
    have h3 : (get h p).refs = [] := by
      cases hg : get h p with
      | closed n l cs => exact absurd ⟨⟨n, l, cs, hg⟩, edgeC hq⟩ hn
      | _ => rfl
    rw [h3] at h1
    rw [hi]
    exact List.count_pos_iff.1 (by simp at h1; omega)
  · intro j q hq hx
    simp only at hq
    by_cases hj : j = i
    · subst hj
      rw [oi'] at hx
      rw [oi]
      have h1 := (put_count ho ho' hq).2
      have h2 : 0 < (opens ρ').count q := List.count_pos_iff.2 hx
      exact List.count_pos_iff.1 (by omega)
    · rw [(hH j hj).2] at hx; exact hx
  · intro j hj hx
    simp only at hj hx
    rw [(hH j hj).2] at hx
    have h1 : 0 < (opens R).count p := List.count_pos_iff.2 ((hR j hj).2 p hx)
    have h2 := ho.cell p
    have h3 := ho'.cell p
    rw [get_put_self] at h3
    simp only [opens_append, List.count_append] at h2 h3
    cases hg : get h p with
    | opened =>
      cases hc : c with
      | opened => exact hno ⟨hg, hc⟩
      | _ => rw [hc] at h3; simp only [CellOK] at h3; omega
    | _ => rw [hg] at h2; simp only [CellOK] at h2; omega
  · intro hc
    simp only at hc ⊢
    rw [hi']
    exact List.count_pos_iff.1 (Nat.pos_of_ne_zero (hclosed hc))
  · intro hc
    simp only [get_put_self] at hc ⊢
    exact hfr hc

/-- All that happened to a cell is seen by the thread that finds the count one. -/
theorem seen_unique (od : Ordered o h₀ tr h H O E) {i v : Nat} {k : Kind} {p : Addr} {c : Cell L} {n : Nat} {l : L} {cs : List Addr}
    (hg : get h p = .closed n l cs) (hcl : ¬ Closed (put h p c) p)
    (ho : Own h (ρ ++ R)) (ho' : Own (put h p c) (ρ' ++ R))
    (hR : ∀ j, j ≠ i → (∀ q ∈ H j, q ∈ held R) ∧ ∀ q ∈ O j, q ∈ opens R) (hE : ∀ q ∈ E, q ∈ held R)
    (hk : k.acquires o = true) {m : Nat} {x : Event} (hm : tr[m]? = some x) (hx : x.addr = p) :
    Before o (tr ++ [⟨i, k, p, v⟩]) m tr.length := by
  obtain ⟨r1, -, r3⟩ := put_alone ho ho' (fun h => hcl h.2)
  have hpR : p ∉ held R := List.count_eq_zero.1 r3
  obtain ⟨q, h1, h2⟩ := od.closed p ⟨n, l, cs, hg⟩ m x hm hx
  have hq : q = p := by
    rcases h1.last with h | ⟨b, hb⟩
    · exact h
    · exact absurd (edge_refs hb) (List.count_eq_zero.1 r1)
  subst hq
  rcases h2 with h2 | ⟨j, h2, h3⟩ | h2
  · exact Released.before (e := ⟨i, k, q, v⟩) h2 hk
  · by_cases hj : j = i
    · subst hj; exact Known.before (e := ⟨j, k, q, v⟩) h3
    · exact absurd ((hR j hj).1 _ h2) hpR
  · exact absurd (hE _ h2) hpR

theorem ordered_step (od : Ordered arc h₀ tr h H O E) {i : Nat} {k : Kind} {p : Addr} (he : Effects p h h' k)
    (ho : Own h (ρ ++ R)) (ho' : Own h' (ρ' ++ R)) (hi : H i = held ρ) (hi' : H' i = held ρ')
    (oi : O i = opens ρ) (oi' : O' i = opens ρ') (hH : ∀ j, j ≠ i → H' j = H j ∧ O' j = O j)
    (hR : ∀ j, j ≠ i → (∀ q ∈ H j, q ∈ held R) ∧ ∀ q ∈ O j, q ∈ opens R) (hE : ∀ q ∈ E, q ∈ held R)
    (hd : ∀ j, j ≠ i → ∀ q ∈ H j, q ∈ E → 2 ≤ (held R).count q)
    (hr : k = .incr ∨ k = .read ∨ k = .test → (∃ q, q ∈ H i ∧ Reaches h q p) ∨ ∃ q, q ∈ E ∧ Reaches h q p) :
    Ordered arc h₀ (tr ++ [⟨i, k, p, (get h' p).count⟩]) h' H' O' E := by
  have hval := value_step od i he
  have notOpen : ∀ {n : Nat} {l : L} {cs : List Addr}, get h p = .closed n l cs → ∀ j, p ∉ O j := by
    intro n l cs hg j hx
    have := ho.cell p
    rw [hg] at this
    simp only [CellOK, opens_append, List.count_append] at this
    by_cases hj : j = i
    · subst hj
      rw [oi] at hx
      have := List.count_pos_iff.2 hx
      omega
    · have := List.count_pos_iff.2 ((hR j hj).2 p hx)
      omega
  have quiet : h' = h → (∀ q, q ∈ H' i ↔ q ∈ H i) ∧ ∀ j q, q ∈ O' j → q ∈ O j := by
    rintro rfl
    have hp := Own.determined ho ho'
    refine ⟨fun q => ?_, fun j q hq => ?_⟩
    · rw [hi, hi', ← List.count_pos_iff, ← List.count_pos_iff, held_perm hp]
    · by_cases hj : j = i
      · subst hj
        rw [oi'] at hq
        rw [oi, ← List.count_pos_iff, ← opens_perm hp, List.count_pos_iff]
        exact hq
      · rw [(hH j hj).2] at hq; exact hq
  -- a cell whose count only changes
  have count : ∀ {n m : Nat} {l : L} {cs : List Addr}, get h p = .closed n l cs → h' = put h p (.closed m l cs) →
      (∀ b c, Edge h' b c ↔ Edge h b c) ∧ (∀ b, Closed h' b → Closed h b) ∧ (∀ b, get h' b = .free → get h b = .free) ∧
      (∀ j q, q ∈ O' j → q ∈ O j) ∧ (∀ q, q ≠ p → (q ∈ H' i ↔ q ∈ H i)) ∧ (held ρ').count p + n = (held ρ).count p + m := by
    intro n m l cs hg hput
    subst hput
    refine ⟨fun b c => ?_, fun b hb => ?_, fun b hb => ?_, fun j q hq => ?_, fun q hq => ?_, ?_⟩
    · rw [Edge, Edge, get_put]
      split
      · next hb => subst hb; rw [hg]; exact Iff.rfl
      · exact Iff.rfl
    · by_cases hbp : b = p
      · subst hbp; exact ⟨n, l, cs, hg⟩
      · obtain ⟨n', l', cs', hb⟩ := hb
        rw [get_put, if_neg hbp] at hb
        exact ⟨n', l', cs', hb⟩
    · by_cases hbp : b = p
      · subst hbp; rw [get_put_self] at hb; cases hb
      · rw [get_put, if_neg hbp] at hb; exact hb
    · by_cases hj : j = i
      · subst hj
        rw [oi'] at hq
        rw [oi]
        have h2 := List.count_pos_iff.2 hq
        by_cases hqp : q = p
        · subst hqp
          have := ho'.cell q
          rw [get_put_self] at this
          simp only [CellOK, opens_append, List.count_append] at this
          omega
        · have h1 := (put_count ho ho' hqp).2
          exact List.count_pos_iff.1 (by omega)
      · rw [(hH j hj).2] at hq; exact hq
    · have h1 := (put_count ho ho' hq).1
      rw [hg] at h1
      simp only [Cell.refs] at h1
      rw [hi, hi', ← List.count_pos_iff, ← List.count_pos_iff]
      omega
    · have h1 := ho.cell p
      have h2 := ho'.cell p
      have h3 := count_refs_put h p p (.closed m l cs)
      rw [hg] at h1 h3
      rw [get_put_self] at h2
      simp only [CellOK, Cell.refs, held_append, List.count_append] at h1 h2 h3
      omega
  cases k with
  | alloc =>
    obtain ⟨hg, c, rfl, hc⟩ := he
    refine ordered_alone od ho ho' hi hi' oi oi' hH hR hE ?_ ?_ (fun h => absurd h hc) ?_ hval
    · rintro ⟨⟨n, l, cs, h1⟩, -⟩; rw [hg] at h1; cases h1
    · rintro ⟨h1, -⟩; rw [hg] at h1; cases h1
    · intro n x hn hx
      exact Freed.before (e := ⟨i, .alloc, p, _⟩) (od.free p hg n x hn hx) rfl
  | own =>
    obtain ⟨l, cs, hg, rfl⟩ := he
    have hcl : ¬ Closed (put h p .opened) p := by rintro ⟨n, l, cs, h1⟩; rw [get_put_self] at h1; cases h1
    refine ordered_alone od ho ho' hi hi' oi oi' hH hR hE (fun h => hcl h.2) ?_ (by simp) ?_ hval
    · rintro ⟨h1, -⟩; rw [hg] at h1; cases h1
    · intro n x hn hx
      exact seen_unique od hg hcl ho ho' hR hE rfl hn hx
  | take =>
    obtain ⟨l, cs, hg, rfl⟩ := he
    have hcl : ¬ Closed (put h p .free) p := by rintro ⟨n, l, cs, h1⟩; rw [get_put_self] at h1; cases h1
    refine ordered_alone od ho ho' hi hi' oi oi' hH hR hE (fun h => hcl h.2) ?_ (fun _ => rfl) ?_ hval
    · rintro ⟨h1, -⟩; rw [hg] at h1; cases h1
    · intro n x hn hx
      exact seen_unique od hg hcl ho ho' hR hE rfl hn hx
  | last =>
    obtain ⟨l, cs, hg, rfl⟩ := he
    have hcl : ¬ Closed (put h p .free) p := by rintro ⟨n, l, cs, h1⟩; rw [get_put_self] at h1; cases h1
    refine ordered_alone od ho ho' hi hi' oi oi' hH hR hE (fun h => hcl h.2) ?_ (fun _ => rfl) ?_ hval
    · rintro ⟨h1, -⟩; rw [hg] at h1; cases h1
    · intro n x hn hx
      exact seen_unique od hg hcl ho ho' hR hE rfl hn hx
  | write =>
    obtain ⟨hg, l, cs, rfl⟩ := he
    refine ordered_alone od ho ho' hi hi' oi oi' hH hR hE ?_ (by simp) (by simp) ?_ hval
    · rintro ⟨⟨n, l, cs, h1⟩, -⟩; rw [hg] at h1; cases h1
    · intro n x hn hx
      refine Known.before (e := ⟨i, .write, p, _⟩) (od.opened i p ?_ n x hn hx)
      have h1 := ho.cell p
      have h2 := ho'.cell p
      rw [hg] at h1
      rw [get_put_self] at h2
      simp only [CellOK, opens_append, List.count_append] at h1 h2
      rw [oi]
      exact List.count_pos_iff.1 (by omega)
  | incr =>
    obtain ⟨n, l, cs, hg, hput⟩ := he
    obtain ⟨c1, c2, c3, c4, c5, c6⟩ := count hg hput
    refine od.shared (e := ⟨i, .incr, p, _⟩) rfl c1 c2 c3 c4 (fun j hj => (hH j hj).1) ?_ (hr (.inl rfl)) ?_ ?_ ⟨n, l, cs, hg⟩
      (notOpen hg) hval ?_
    · intro q hq
      simp only at hq ⊢
      by_cases hqp : q = p
      · subst hqp
        rw [hi, ← List.count_pos_iff] at hq
        exact .inl (by rw [hi', ← List.count_pos_iff]; omega)
      · exact .inl ((c5 q hqp).2 hq)
    · intro q hq
      simp only at hq ⊢
      by_cases hqp : q = p
      · exact .inr ⟨hqp, rfl⟩
      · exact .inl ((c5 q hqp).1 hq)
    · exact .inr ⟨p, .inl (by show p ∈ H' i; rw [hi', ← List.count_pos_iff]; omega), .refl _⟩
    · intro _ h1
      simp only [hg, Cell.count] at h1
      subst h1
      have h2 := ho.cell p
      rw [hg] at h2
      simp only [CellOK, held_append, List.count_append] at h2
      have noE : ∀ q, (q ∈ H i ∨ q ∈ E) → q = p → 0 < (held ρ).count p ∨ 0 < (held R).count p := by
        rintro q (hq | hq) rfl
        · rw [hi] at hq; exact .inl (List.count_pos_iff.2 hq)
        · exact .inr (List.count_pos_iff.2 (hE _ hq))
      have hroot : ∃ q, (q ∈ H i ∨ q ∈ E) ∧ Reaches h q p := by
        rcases hr (.inl rfl) with ⟨q, h3, h4⟩ | ⟨q, h3, h4⟩
        · exact ⟨q, .inl h3, h4⟩
        · exact ⟨q, .inr h3, h4⟩
      obtain ⟨q, h3, h4⟩ := hroot
      refine ⟨fun j hj hp => ?_, fun b hb => ?_⟩
      · simp only at hj hp
        have h5 : 0 < (held R).count p := List.count_pos_iff.2 ((hR j hj).1 p hp)
        rcases h4.last with rfl | ⟨b, hb⟩
        · rcases h3 with h3 | h3
          · rw [hi] at h3
            have := List.count_pos_iff.2 h3
            omega
          · have := hd j hj _ hp h3
            omega
        · have := List.count_pos_iff.2 (edge_refs hb)
          omega
      · simp only at hb ⊢
        have h5 : 0 < (refs h).count p := List.count_pos_iff.2 (edge_refs hb)
        have h6 : q ≠ p := by
          intro hqp
          rcases noE q h3 hqp with h | h <;> omega
        rcases h4.last' with h7 | ⟨d, h7, h8⟩
        · exact absurd h7 h6
        · have hdb : d = b := by
            apply Classical.byContradiction
            intro hne
            have := two_edges h8 hb hne
            omega
          subst hdb
          exact ⟨q, h3.imp (c5 q h6).2 id, h7⟩
  | decr =>
    obtain ⟨n, l, cs, hg, hn, hput⟩ := he
    obtain ⟨c1, c2, c3, c4, c5, c6⟩ := count hg hput
    have hpos : 0 < n := by
      have := ho.cell p
      rw [hg] at this
      simp only [CellOK] at this
      omega
    have hmem : p ∈ H i := by rw [hi, ← List.count_pos_iff]; omega
    refine od.shared (e := ⟨i, .decr, p, _⟩) rfl c1 c2 c3 c4 (fun j hj => (hH j hj).1) ?_ (.inl ⟨p, hmem, .refl _⟩) ?_ (.inl rfl)
      ⟨n, l, cs, hg⟩ (notOpen hg) hval (fun _ h1 => absurd (by simpa [hg, Cell.count] using h1) hn)
    · intro q hq
      simp only at hq ⊢
      by_cases hqp : q = p
      · exact .inr ⟨hqp, rfl⟩
      · exact .inl ((c5 q hqp).2 hq)
    · intro q hq
      simp only at hq ⊢
      by_cases hqp : q = p
      · exact .inr ⟨hqp, rfl⟩
      · exact .inl ((c5 q hqp).1 hq)
  | read =>
    obtain ⟨n, l, cs, hg, rfl⟩ := he
    obtain ⟨c1, c2⟩ := quiet rfl
    have hr := hr (.inr (.inl rfl))
    refine od.shared (e := ⟨i, .read, p, _⟩) rfl (fun _ _ => Iff.rfl) (fun _ h => h) (fun _ h => h) c2 (fun j hj => (hH j hj).1)
      (fun q hq => .inl ((c1 q).2 hq)) hr (fun q hq => .inl ((c1 q).1 hq)) (.inr ?_) ⟨n, l, cs, hg⟩ (notOpen hg) hval
      (by simp [Kind.counts])
    rcases hr with ⟨q, h1, h2⟩ | ⟨q, h1, h2⟩
    · exact ⟨q, .inl ((c1 q).2 h1), h2⟩
    · exact ⟨q, .inr h1, h2⟩
  | test =>
    obtain ⟨n, l, cs, hg, rfl⟩ := he
    obtain ⟨c1, c2⟩ := quiet rfl
    have hr := hr (.inr (.inr rfl))
    refine od.shared (e := ⟨i, .test, p, _⟩) rfl (fun _ _ => Iff.rfl) (fun _ h => h) (fun _ h => h) c2 (fun j hj => (hH j hj).1)
      (fun q hq => .inl ((c1 q).2 hq)) hr (fun q hq => .inl ((c1 q).1 hq)) (.inr ?_) ⟨n, l, cs, hg⟩ (notOpen hg) hval
      (by simp [Kind.counts])
    rcases hr with ⟨q, h1, h2⟩ | ⟨q, h1, h2⟩
    · exact ⟨q, .inl ((c1 q).2 h1), h2⟩
    · exact ⟨q, .inr h1, h2⟩

end

/-! ### All threads -/

/-- Addresses of the pointers that thread `i` holds. -/
def heldBy (own : List (List (Nat × ATree L) × List (Item L))) (i : Nat) : List Addr :=
  match own[i]? with
  | some x => held (threadItems x.1 x.2)
  | none => []

/-- Addresses of the cells that thread `i` has borrowed. -/
def opensBy (own : List (List (Nat × ATree L) × List (Item L))) (i : Nat) : List Addr :=
  match own[i]? with
  | some x => opens (threadItems x.1 x.2)
  | none => []

theorem split_at {β : Type} {xs : List β} {i : Nat} {x : β} (hx : xs[i]? = some x) :
    ∃ l r, xs = l ++ x :: r ∧ l.length = i := by
  induction xs generalizing i with
  | nil => simp at hx
  | cons y xs ih =>
    cases i with
    | zero =>
      simp only [List.getElem?_cons_zero, Option.some.injEq] at hx
      subst hx
      exact ⟨[], xs, rfl, rfl⟩
    | succ i =>
      obtain ⟨l, r, h1, h2⟩ := ih (by simpa using hx)
      exact ⟨y :: l, r, by simp [h1], by simp [h2]⟩

/-- What thread `i` reaches for when it does not hold the cell directly. -/
theorem TSafe.reaches {Q : α → List (Item L) → Prop} {th : Thread L α} {pend : List (Nat × ATree L)} {σ F : List (Item L)} {h : Mem L}
    (ts : TSafe A D B Q th pend σ) (ho : Own h (threadItems pend σ ++ (B ++ F))) {k : Kind} {p : Addr}
    (he : th.event A h = some (k, p)) (hk : k = .incr ∨ k = .read ∨ k = .test) :
    (∃ q, q ∈ held (threadItems pend σ) ∧ Reaches h q p) ∨ ∃ q, q ∈ held B ∧ Reaches h q p := by
  obtain ⟨pd, deep, prog⟩ := th
  obtain ⟨h1, h2, -, -⟩ := ts
  simp only at h1 h2
  cases pd with
  | cons x ps =>
    obtain ⟨d, q⟩ := x
    simp only [Thread.event, Option.some.injEq, Prod.mk.injEq] at he
    obtain ⟨rfl, -⟩ := he
    split at hk <;> simp at hk
  | nil =>
    cases pend with
    | cons x pend => simp at h1
    | nil =>
      cases prog with
      | ret r => cases he
      | panic => cases he
      | drop q k => cases he
      | op a kk =>
        simp only [Thread.event, Option.some.injEq] at he
        have ht : a.target = some p := by
          cases a with
          | new l cs => cases he; simp at hk
          | newOpen => cases he; simp at hk
          | close q l cs => cases he; simp at hk
          | clone q => cases he; rfl
          | read q => cases he; rfl
          | tryOpen q =>
            simp only [Act.event, Prod.mk.injEq] at he
            rw [← he.2]; rfl
          | tryTake q =>
            simp only [Act.event, Prod.mk.injEq] at he
            rw [← he.2]; rfl
        have ho' : Own h (σ ++ (B ++ F)) := by simpa [threadItems] using ho
        obtain ⟨t, s, e1, e2, rfl⟩ := h2.target ho' ht
        have hv : Val h t := ho'.val t (by
          rcases List.mem_append.1 e1 with e1 | e1
          · exact List.mem_append.2 (.inl e1)
          · exact List.mem_append.2 (.inr (List.mem_append.2 (.inl e1))))
        rcases List.mem_append.1 e1 with e1 | e1
        · refine .inl ⟨t.addr, ?_, e2.reaches hv⟩
          simp only [threadItems, List.map_nil, List.nil_append]
          exact List.mem_flatMap.2 ⟨_, e1, by simp [Item.held]⟩
        · refine .inr ⟨t.addr, ?_, e2.reaches hv⟩
          exact List.mem_flatMap.2 ⟨_, e1, by simp [Item.held]⟩

/-- A step of one thread keeps the order. -/
theorem SysSafe.ordered_of {Q : Nat → α → List (Item L) → Prop} {ths ths' : List (Thread L α)}
    {own own' : List (List (Nat × ATree L) × List (Item L))} {F : List (Item L)} {h₀ h h' : Mem L} {tr : List Event}
    (ss : SysSafe A D B Q ths own F h) (ss' : SysSafe A D B Q ths' own' F h') (hlt : ths'.length = ths.length)
    (od : Ordered arc h₀ tr h (heldBy own) (opensBy own) (held (B ++ F)))
    {i : Nat} {x x' : List (Nat × ATree L) × List (Item L)} (hx : own[i]? = some x) (hx' : own'[i]? = some x')
    (hoth : ∀ j, j ≠ i → own'[j]? = own[j]?) (ev : Option (Kind × Addr))
    (heff : match ev with | none => h' = h | some (k, p) => Effects p h h' k)
    (hreach : ∀ k p, ev = some (k, p) → k = .incr ∨ k = .read ∨ k = .test →
      (∃ q, q ∈ held (threadItems x.1 x.2) ∧ Reaches h q p) ∨ ∃ q, q ∈ held B ∧ Reaches h q p) :
    Ordered arc h₀ (tr ++ ev.toList.map fun e => ⟨i, e.1, e.2, (get h' e.2).count⟩) h' (heldBy own') (opensBy own')
      (held (B ++ F)) := by
  obtain ⟨l, r, rfl, hl⟩ := split_at hx
  have hlen : own'.length = (l ++ x :: r).length := by rw [ss.len, ss'.len, hlt]
  have hown : own' = l ++ x' :: r := by
    refine List.ext_getElem? fun j => ?_
    by_cases hj : j = i
    · subst hj
      rw [hx', ← hl]
      simp
    · rw [hoth j hj]
      rcases Nat.lt_or_ge j i with h1 | h1
      · rw [List.getElem?_append_left (by omega), List.getElem?_append_left (by omega)]
      · rw [List.getElem?_append_right (by omega), List.getElem?_append_right (by omega)]
        obtain ⟨m, hm⟩ : ∃ m, j - l.length = m + 1 := ⟨j - l.length - 1, by omega⟩
        rw [hm]
        simp
  subst hown
  let R : List (Item L) := (l.map fun x => threadItems x.1 x.2).flatten ++ ((r.map fun x => threadItems x.1 x.2).flatten ++ (B ++ F))
  have perm : ∀ y : List (Nat × ATree L) × List (Item L),
      (((l ++ y :: r).map fun x => threadItems x.1 x.2).flatten ++ (B ++ F)).Perm (threadItems y.1 y.2 ++ R) := by
    intro y
    simp only [List.map_append, List.map_cons, List.flatten_append, List.flatten_cons, R]
    perm_tac
  have ho : Own h (threadItems x.1 x.2 ++ R) := ss.mem.perm (perm x)
  have ho' : Own h' (threadItems x'.1 x'.2 ++ R) := ss'.mem.perm (perm x')
  have hi1 : heldBy (l ++ x :: r) i = held (threadItems x.1 x.2) := by simp only [heldBy, hx]
  have hi2 : heldBy (l ++ x' :: r) i = held (threadItems x'.1 x'.2) := by simp only [heldBy, hx']
  have oi1 : opensBy (l ++ x :: r) i = opens (threadItems x.1 x.2) := by simp only [opensBy, hx]
  have oi2 : opensBy (l ++ x' :: r) i = opens (threadItems x'.1 x'.2) := by simp only [opensBy, hx']
  have hH : ∀ j, j ≠ i → heldBy (l ++ x' :: r) j = heldBy (l ++ x :: r) j ∧ opensBy (l ++ x' :: r) j = opensBy (l ++ x :: r) j := by
    intro j hj
    simp only [heldBy, opensBy, hoth j hj, and_self]
  have others : ∀ j, j ≠ i → ∀ y, (l ++ x :: r)[j]? = some y → ∀ z ∈ threadItems y.1 y.2, z ∈ R := by
    intro j hj y hy z hz
    have : y ∈ l ∨ y ∈ r := by
      rcases Nat.lt_or_ge j i with h1 | h1
      · rw [List.getElem?_append_left (by omega)] at hy
        exact .inl (List.mem_of_getElem? hy)
      · rw [List.getElem?_append_right (by omega)] at hy
        obtain ⟨m, hm⟩ : ∃ m, j - l.length = m + 1 := ⟨j - l.length - 1, by omega⟩
        rw [hm, List.getElem?_cons_succ] at hy
        exact .inr (List.mem_of_getElem? hy)
    rcases this with h1 | h1
    · exact List.mem_append.2 (.inl (List.mem_flatten.2 ⟨_, List.mem_map.2 ⟨y, h1, rfl⟩, hz⟩))
    · exact List.mem_append.2 (.inr (List.mem_append.2 (.inl (List.mem_flatten.2 ⟨_, List.mem_map.2 ⟨y, h1, rfl⟩, hz⟩))))
  have hR : ∀ j, j ≠ i → (∀ q ∈ heldBy (l ++ x :: r) j, q ∈ held R) ∧ ∀ q ∈ opensBy (l ++ x :: r) j, q ∈ opens R := by
    intro j hj
    unfold heldBy opensBy
    cases hy : (l ++ x :: r)[j]? with
    | none => simp
    | some y =>
      refine ⟨fun q hq => ?_, fun q hq => ?_⟩
      · obtain ⟨z, h1, h2⟩ := List.mem_flatMap.1 hq
        exact List.mem_flatMap.2 ⟨z, others j hj y hy z h1, h2⟩
      · obtain ⟨z, h1, h2⟩ := List.mem_flatMap.1 hq
        exact List.mem_flatMap.2 ⟨z, others j hj y hy z h1, h2⟩
  have hE : ∀ q ∈ held (B ++ F), q ∈ held R := by
    intro q hq
    obtain ⟨z, h1, h2⟩ := List.mem_flatMap.1 hq
    exact List.mem_flatMap.2 ⟨z, List.mem_append.2 (.inr (List.mem_append.2 (.inr h1))), h2⟩
  have hd : ∀ j, j ≠ i → ∀ q ∈ heldBy (l ++ x :: r) j, q ∈ held (B ++ F) → 2 ≤ (held R).count q := by
    intro j hj q hq hq'
    have h1 : 0 < (held (B ++ F)).count q := List.count_pos_iff.2 hq'
    have h2 : 0 < (held ((l.map fun x => threadItems x.1 x.2).flatten ++ (r.map fun x => threadItems x.1 x.2).flatten)).count q := by
      rw [List.count_pos_iff]
      unfold heldBy at hq
      cases hy : (l ++ x :: r)[j]? with
      | none => simp [hy] at hq
      | some y =>
        rw [hy] at hq
        obtain ⟨z, h3, h4⟩ := List.mem_flatMap.1 hq
        refine List.mem_flatMap.2 ⟨z, ?_, h4⟩
        have : y ∈ l ∨ y ∈ r := by
          rcases Nat.lt_or_ge j i with h1 | h1
          · rw [List.getElem?_append_left (by omega)] at hy
            exact .inl (List.mem_of_getElem? hy)
          · rw [List.getElem?_append_right (by omega)] at hy
            obtain ⟨m, hm⟩ : ∃ m, j - l.length = m + 1 := ⟨j - l.length - 1, by omega⟩
            rw [hm, List.getElem?_cons_succ] at hy
            exact .inr (List.mem_of_getElem? hy)
        rcases this with h5 | h5
        · exact List.mem_append_left _ (List.mem_flatten.2 ⟨_, List.mem_map.2 ⟨y, h5, rfl⟩, h3⟩)
        · exact List.mem_append_right _ (List.mem_flatten.2 ⟨_, List.mem_map.2 ⟨y, h5, rfl⟩, h3⟩)
    simp only [R, held_append, List.count_append] at h1 h2 ⊢
    omega
  cases ev with
  | none =>
    simp only at heff
    subst heff
    have hp := Own.determined ho ho'
    simp only [Option.toList_none, List.map_nil, List.append_nil]
    refine od.idle ?_ ?_
    · intro j q
      by_cases hj : j = i
      · subst hj
        rw [hi1, hi2, ← List.count_pos_iff, ← List.count_pos_iff, held_perm hp]
      · rw [(hH j hj).1]
    · intro j q hq
      by_cases hj : j = i
      · subst hj
        rw [oi2] at hq
        rw [oi1, ← List.count_pos_iff, ← opens_perm hp, List.count_pos_iff]
        exact hq
      · rw [(hH j hj).2] at hq; exact hq
  | some kp =>
    obtain ⟨k, p⟩ := kp
    simp only [Option.toList_some, List.map_cons, List.map_nil]
    refine Heap.ordered_step od heff ho ho' hi1 hi2 oi1 oi2 hH hR hE hd ?_
    intro hk
    rcases hreach k p rfl hk with h1 | ⟨q, h1, h2⟩
    · exact .inl (by rw [hi1]; exact h1)
    · exact .inr ⟨q, by rw [held_append]; exact List.mem_append.2 (.inl h1), h2⟩

/-! ### Tests that read an old value -/

/-- A test for uniqueness may fail at any time. -/
theorem SafeB.fails {Q : α → List (Item L) → Prop} {a : Act L} {k : Resp a → Prog L α} {σ F : List (Item L)} {h : Mem L}
    (hs : SafeB A D B Q (.op a k) σ) (ho : Own h (σ ++ (B ++ F))) {p : Addr} {x : Resp a}
    (ha : (⟨a, x⟩ : (a : Act L) × Resp a) = ⟨.tryOpen p, none⟩ ∨ (⟨a, x⟩ : (a : Act L) × Resp a) = ⟨.tryTake p, none⟩) :
    p ∈ held σ ∧ SafeB A D B Q (k x) σ := by
  have hp : p ∈ held σ := by
    rcases ha with ha | ha <;> cases ha <;> exact hs.1
  refine ⟨hp, ?_⟩
  obtain ⟨z, h1, h2⟩ := List.mem_flatMap.1 hp
  cases z with
  | opn b => simp [Item.held] at h2
  | ptr t =>
    simp only [Item.held, List.mem_singleton] at h2
    subst h2
    have hv : Val h t := ho.val t (List.mem_append_left _ h1)
    obtain ⟨n, e, -, hpos, -⟩ := ho.mem_ptr_closed hv
    have ho2 := (ho.clone hv e).perm (σ := σ ++ (B ++ (.ptr t :: F))) (by perm_tac)
    obtain ⟨y, h', ρ', e1, e2, e3⟩ := hs.2 _ _ ho2
    have hne : ¬ n + 1 = 1 := by omega
    have : y = x ∧ h' = put h t.addr (.closed (n + 1) t.label (t.kids.map ATree.addr)) := by
      rcases ha with ha | ha <;> cases ha
      · simp only [act, get_put_self, if_neg hne, Except.ok.injEq, Prod.mk.injEq] at e1
        exact ⟨e1.1.symm, e1.2.symm⟩
      · simp only [act, get_put_self, if_neg hne, Except.ok.injEq, Prod.mk.injEq] at e1
        exact ⟨e1.1.symm, e1.2.symm⟩
    obtain ⟨rfl, rfl⟩ := this
    exact e3.perm (Own.determined e2 ho2)

theorem TSafe.fails {Q : α → List (Item L) → Prop} {th th' : Thread L α} {pend : List (Nat × ATree L)} {σ F : List (Item L)} {h : Mem L}
    (ts : TSafe A D B Q th pend σ) (ho : Own h (threadItems pend σ ++ (B ++ F))) {p : Addr} (ht : th.tests = some (p, th')) :
    pend = [] ∧ p ∈ held σ ∧ TSafe A D B Q th' [] σ ∧ Smaller th'.prog [] th.prog [] := by
  obtain ⟨pd, deep, prog⟩ := th
  obtain ⟨h1, h2, h3, h4⟩ := ts
  simp only at h1 h2 h4
  unfold Thread.tests at ht
  split at ht
  · next q k e1 e2 =>
    simp only at e1 e2
    subst e1 e2
    obtain rfl : pend = [] := by simpa using h1.symm
    cases ht
    obtain ⟨h5, h6⟩ := h2.fails (F := F) (h := h) (x := none) (by simpa [threadItems] using ho) (.inl rfl)
    exact ⟨rfl, h5, ⟨rfl, h6, by simp, h4⟩, Smaller.op (k := k) none⟩
  · next q k e1 e2 =>
    simp only at e1 e2
    subst e1 e2
    obtain rfl : pend = [] := by simpa using h1.symm
    cases ht
    obtain ⟨h5, h6⟩ := h2.fails (F := F) (h := h) (x := none) (by simpa [threadItems] using ho) (.inr rfl)
    exact ⟨rfl, h5, ⟨rfl, h6, by simp, h4⟩, Smaller.op (k := k) none⟩
  · cases ht

/-- One step of the system. -/
theorem SysSafe.stepAt {Q : Nat → α → List (Item L) → Prop} {ths : List (Thread L α)}
    {own : List (List (Nat × ATree L) × List (Item L))} {F : List (Item L)} {h₀ h : Mem L} {tr : List Event}
    (ss : SysSafe A D B Q ths own F h) (od : Ordered arc h₀ tr h (heldBy own) (opensBy own) (held (B ++ F)))
    {i t : Nat} {th : Thread L α} (hi : ths[i]? = some th)
    (hc : ∀ p th', th.tests = some (p, th') → ∀ m, SetSince tr p t m → ¬ Known arc tr i m) :
    ∃ th' h' own' x x', th.stepAt A h₀ tr t h = .ok (th', h') ∧ SysSafe A D B Q (ths.set i th') own' F h' ∧
      Ordered arc h₀ (tr ++ (th.eventAt A tr t h).toList.map fun e => ⟨i, e.1, e.2, (get h' e.2).count⟩) h' (heldBy own') (opensBy own')
        (held (B ++ F)) ∧
      own[i]? = some x ∧ own'[i]? = some x' ∧ (∀ j, j ≠ i → own'[j]? = own[j]?) ∧ Smaller th'.prog x'.1 th.prog x.1 := by
  -- reads the newest value
  have newest : th.stepAt A h₀ tr t h = th.step A h → th.eventAt A tr t h = th.event A h →
      ∃ th' h' own' x x', th.stepAt A h₀ tr t h = .ok (th', h') ∧ SysSafe A D B Q (ths.set i th') own' F h' ∧
      Ordered arc h₀ (tr ++ (th.eventAt A tr t h).toList.map fun e => ⟨i, e.1, e.2, (get h' e.2).count⟩) h' (heldBy own') (opensBy own')
        (held (B ++ F)) ∧
      own[i]? = some x ∧ own'[i]? = some x' ∧ (∀ j, j ≠ i → own'[j]? = own[j]?) ∧ Smaller th'.prog x'.1 th.prog x.1 := by
    intro hs he
    rw [hs, he]
    obtain ⟨th', h', own', x, x', e1, ss', hx, hx', hoth, hsm⟩ := ss.step hi
    refine ⟨th', h', own', x, x', e1, ss', ?_, hx, hx', hoth, hsm⟩
    refine ss.ordered_of ss' (by simp) od hx hx' hoth _ ?_ ?_
    · have := step_effects e1
      revert this
      cases th.event A h with
      | none => exact id
      | some kp => exact id
    · intro k p hev hk
      obtain ⟨R, hp, -⟩ := flatten_perm_set (own.map fun x => threadItems x.1 x.2) i (threadItems x.1 x.2) [] (by simp [hx])
      have ho : Own h (threadItems x.1 x.2 ++ (B ++ (R ++ F))) :=
        ss.mem.perm ((hp.append_right (B ++ F)).trans (by perm_tac))
      exact (ss.safe i th x hi hx).reaches ho hev hk
  cases ht : th.tests with
  | none => exact newest (by simp [Thread.stepAt, ht]) (by simp [Thread.eventAt, ht])
  | some y =>
    obtain ⟨p, th'⟩ := y
    by_cases hch : changedSince tr p t = true
    · obtain ⟨x, hx⟩ : ∃ x, own[i]? = some x := by
        have : i < own.length := by rw [ss.len]; exact (List.getElem?_eq_some_iff.1 hi).1
        exact ⟨own[i], List.getElem?_eq_getElem this⟩
      obtain ⟨pend, σ⟩ := x
      obtain ⟨R, hp, -⟩ := flatten_perm_set (own.map fun x => threadItems x.1 x.2) i (threadItems pend σ) [] (by simp [hx])
      have ho : Own h (threadItems pend σ ++ (B ++ (R ++ F))) :=
        ss.mem.perm ((hp.append_right (B ++ F)).trans (by perm_tac))
      obtain ⟨rfl, h1, h2, h3⟩ := (ss.safe i th (pend, σ) hi hx).fails ho ht
      obtain ⟨n, l, cs, hg⟩ : ∃ n l cs, get h p = .closed n l cs := by
        obtain ⟨z, h4, h5⟩ := List.mem_flatMap.1 h1
        cases z with
        | opn b => simp [Item.held] at h5
        | ptr u =>
          simp only [Item.held, List.mem_singleton] at h5
          subst h5
          obtain ⟨n, e, -⟩ := ho.mem_ptr_closed (ho.val u (by simp [threadItems, h4]))
          exact ⟨n, _, _, e⟩
      have hne : ¬ countAt h₀ tr p t = 1 := by
        intro h1'
        obtain ⟨h4, -⟩ := od.seen p t h1' (changedSince_iff.1 hch)
        obtain ⟨m, h5, h6⟩ := h4 i (.inl (by simp only [heldBy, hx, threadItems, List.map_nil, List.nil_append]; exact h1))
        exact hc p th' ht m h5 h6
      have ss' : SysSafe A D B Q (ths.set i th') own F h := by
        refine ⟨by simp [ss.len], ?_, ss.mem⟩
        intro j thj y hj hy
        rw [List.getElem?_set] at hj
        by_cases hij : i = j
        · subst hij
          simp only [if_true, (List.getElem?_eq_some_iff.1 hi).1, Option.some.injEq] at hj
          subst hj
          rw [hx] at hy
          cases hy
          exact h2
        · simp only [if_neg hij] at hj
          exact ss.safe j thj y hj hy
      refine ⟨th', h, own, ([], σ), ([], σ), by simp [Thread.stepAt, ht, hch, hg, hne], ss', ?_, hx, hx, fun _ _ => rfl, h3⟩
      refine ss.ordered_of ss' (by simp) od hx hx (fun _ _ => rfl) _ ?_ ?_
      · simp only [Thread.eventAt, ht, hch, if_true]
        exact ⟨n, l, cs, hg, rfl⟩
      · intro k q hev _
        simp only [Thread.eventAt, ht, hch, if_true, Option.some.injEq, Prod.mk.injEq] at hev
        obtain ⟨-, rfl⟩ := hev
        exact .inl ⟨p, by simpa [threadItems] using h1, .refl _⟩
    · exact newest (by simp [Thread.stepAt, ht, hch]) (by simp [Thread.eventAt, ht, hch])

end Heap
end Rpds
