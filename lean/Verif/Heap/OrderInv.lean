import Verif.Heap.Order
/-
What threads know: the invariant behind the absence of data races.  Whoever can get hold of a cell for itself has seen, through the
pointers to the cell and its count, everything that was done to it.
-/
set_option autoImplicit false
namespace Rpds
namespace Heap
variable {L : Type} {o : Orderings}

/-! ### Traces -/

theorem getElem?_snoc {tr : List Event} {e x : Event} {k : Nat} (h : (tr ++ [e])[k]? = some x) :
    tr[k]? = some x ∨ k = tr.length ∧ x = e := by
  rcases Nat.lt_trichotomy k tr.length with hk | hk | hk
  · rw [List.getElem?_append_left hk] at h; exact .inl h
  · subst hk
    rw [List.getElem?_concat_length] at h
    exact .inr ⟨rfl, (Option.some.inj h).symm⟩
  · rw [List.getElem?_eq_none (by simp; omega)] at h; cases h

theorem getElem?_mono {tr : List Event} {x : Event} {k : Nat} (h : tr[k]? = some x) (e : Event) :
    (tr ++ [e])[k]? = some x := by
  rw [List.getElem?_append_left (List.getElem?_eq_some_iff.1 h).1]; exact h

theorem lt_of_get {tr : List Event} {x : Event} {k : Nat} (h : tr[k]? = some x) : k < tr.length :=
  (List.getElem?_eq_some_iff.1 h).1

theorem Before.lt {tr : List Event} {a b : Nat} (h : Before o tr a b) : a < b := by
  induction h with
  | program h => exact h
  | sync h => exact h
  | reuse h => exact h
  | trans _ _ h1 h2 => exact Nat.lt_trans h1 h2

theorem Before.mono {tr : List Event} {a b : Nat} (h : Before o tr a b) (e : Event) : Before o (tr ++ [e]) a b := by
  induction h with
  | program h1 h2 h3 h4 => exact .program h1 (getElem?_mono h2 e) (getElem?_mono h3 e) h4
  | sync h1 h2 h3 h4 h5 h6 h7 =>
    refine .sync h1 (getElem?_mono h2 e) (getElem?_mono h3 e) h4 h5 h6 ?_
    intro c z hac hcb hz
    rcases getElem?_snoc hz with hz | ⟨rfl, -⟩
    · exact h7 c z hac hcb hz
    · have := lt_of_get h3; omega
  | reuse h1 h2 h3 h4 h5 h6 h7 =>
    refine .reuse h1 (getElem?_mono h2 e) (getElem?_mono h3 e) h4 h5 h6 ?_
    intro c z hac hcb hz
    rcases getElem?_snoc hz with hz | ⟨rfl, -⟩
    · exact h7 c z hac hcb hz
    · have := lt_of_get h3; omega
  | trans _ _ h1 h2 => exact h1.trans h2

theorem UpTo.mono {tr : List Event} {k m : Nat} (h : UpTo o tr k m) (e : Event) : UpTo o (tr ++ [e]) k m :=
  h.imp id fun h => h.mono e

theorem UpTo.before {tr : List Event} {k m n : Nat} (h : UpTo o tr k m) (hb : Before o tr m n) : Before o tr k n := by
  rcases h with rfl | h
  · exact hb
  · exact h.trans hb

/-- Event `k` was released at the count of the cell `p`. -/
def Released (o : Orderings) (tr : List Event) (p : Addr) (k : Nat) : Prop :=
  ∃ m x, tr[m]? = some x ∧ x.addr = p ∧ x.kind.releases o = true ∧
    (∀ c z, m < c → tr[c]? = some z → z.addr = p → z.kind ≠ .alloc) ∧ UpTo o tr k m

/-- Whoever gave back the cell `p` had seen event `k`. -/
def Freed (o : Orderings) (tr : List Event) (p : Addr) (k : Nat) : Prop :=
  ∃ m x, tr[m]? = some x ∧ x.addr = p ∧ x.kind.frees = true ∧
    (∀ c z, m < c → tr[c]? = some z → z.addr = p → z.kind ≠ .alloc) ∧ UpTo o tr k m

theorem Known.mono {tr : List Event} {i k : Nat} (h : Known o tr i k) (e : Event) : Known o (tr ++ [e]) i k := by
  obtain ⟨m, x, h1, h2, h3⟩ := h
  exact ⟨m, x, getElem?_mono h1 e, h2, h3.mono e⟩

theorem Released.mono {tr : List Event} {p k : Nat} (h : Released o tr p k) {e : Event} (he : e.addr = p → e.kind ≠ .alloc) :
    Released o (tr ++ [e]) p k := by
  obtain ⟨m, x, h1, h2, h3, h4, h5⟩ := h
  refine ⟨m, x, getElem?_mono h1 e, h2, h3, ?_, h5.mono e⟩
  intro c z hc hz hp
  rcases getElem?_snoc hz with hz | ⟨rfl, rfl⟩
  · exact h4 c z hc hz hp
  · exact he hp

theorem Freed.mono {tr : List Event} {p k : Nat} (h : Freed o tr p k) {e : Event} (he : e.addr = p → e.kind ≠ .alloc) :
    Freed o (tr ++ [e]) p k := by
  obtain ⟨m, x, h1, h2, h3, h4, h5⟩ := h
  refine ⟨m, x, getElem?_mono h1 e, h2, h3, ?_, h5.mono e⟩
  intro c z hc hz hp
  rcases getElem?_snoc hz with hz | ⟨rfl, rfl⟩
  · exact h4 c z hc hz hp
  · exact he hp

theorem get_last (tr : List Event) (e : Event) : (tr ++ [e])[tr.length]? = some e := List.getElem?_concat_length

theorem Known.before {tr : List Event} {e : Event} {k : Nat} (h : Known o tr e.thread k) :
    Before o (tr ++ [e]) k tr.length := by
  obtain ⟨m, x, h1, h2, h3⟩ := h
  exact (h3.mono e).before (.program (lt_of_get h1) (getElem?_mono h1 e) (get_last tr e) h2)

theorem Released.before {tr : List Event} {e : Event} {k : Nat} (h : Released o tr e.addr k) (he : e.kind.acquires o = true) :
    Before o (tr ++ [e]) k tr.length := by
  obtain ⟨m, x, h1, h2, h3, h4, h5⟩ := h
  refine (h5.mono e).before (.sync (lt_of_get h1) (getElem?_mono h1 e) (get_last tr e) h2 h3 he ?_)
  intro c z hac hcb hz hp
  rcases getElem?_snoc hz with hz | ⟨rfl, -⟩
  · exact h4 c z hac hz (hp.trans h2)
  · omega

theorem Freed.before {tr : List Event} {e : Event} {k : Nat} (h : Freed o tr e.addr k) (he : e.kind = .alloc) :
    Before o (tr ++ [e]) k tr.length := by
  obtain ⟨m, x, h1, h2, h3, h4, h5⟩ := h
  refine (h5.mono e).before (.reuse (lt_of_get h1) (getElem?_mono h1 e) (get_last tr e) h2 h3 he ?_)
  intro c z hac hcb hz hp
  rcases getElem?_snoc hz with hz | ⟨rfl, -⟩
  · exact h4 c z hac hz (hp.trans h2)
  · omega

theorem known_of_upTo {tr : List Event} {e : Event} {k : Nat} (h : UpTo o (tr ++ [e]) k tr.length) :
    Known o (tr ++ [e]) e.thread k := ⟨_, e, get_last tr e, rfl, h⟩

theorem RaceFree.snoc {tr : List Event} (h : RaceFree o tr) {e : Event}
    (he : ∀ a x, tr[a]? = some x → x.addr = e.addr → (x.kind.exclusive = true ∨ e.kind.exclusive = true) →
      Before o (tr ++ [e]) a tr.length) : RaceFree o (tr ++ [e]) := by
  intro a b x y hab ha hb hp hx
  rcases getElem?_snoc hb with hb | ⟨rfl, rfl⟩
  · rcases getElem?_snoc ha with ha | ⟨rfl, -⟩
    · exact (h a b x y hab ha hb hp hx).mono e
    · have := lt_of_get hb; omega
  · rcases getElem?_snoc ha with ha | ⟨rfl, -⟩
    · exact he a x ha hp hx
    · omega

/-! ### Paths -/

/-- A pointer to `p` is stored in `q`. -/
def Edge (h : Mem L) (q p : Addr) : Prop := p ∈ (get h q).refs

/-- `c` can be reached from `a` in memory. -/
inductive Reaches (h : Mem L) : Addr → Addr → Prop where
  | refl (a : Addr) : Reaches h a a
  | head {a b c : Addr} (h1 : Edge h a b) (h2 : Reaches h b c) : Reaches h a c

theorem Reaches.tail {h : Mem L} {a b c : Addr} (h1 : Reaches h a b) (h2 : Edge h b c) : Reaches h a c := by
  induction h1 with
  | refl => exact .head h2 (.refl _)
  | head h3 _ ih => exact .head h3 (ih h2)

theorem Reaches.last {h : Mem L} {a c : Addr} (h1 : Reaches h a c) : a = c ∨ ∃ b, Edge h b c := by
  induction h1 with
  | refl => exact .inl rfl
  | @head a b c h3 _ ih =>
    rcases ih with rfl | h
    · exact .inr ⟨a, h3⟩
    · exact .inr h

theorem Reaches.congr {h h' : Mem L} (hE : ∀ b c, Edge h b c → Edge h' b c) {a c : Addr} (h1 : Reaches h a c) :
    Reaches h' a c := by
  induction h1 with
  | refl => exact .refl _
  | head h3 _ ih => exact .head (hE _ _ h3) ih

theorem Reaches.trans {h : Mem L} {a b c : Addr} (h1 : Reaches h a b) (h2 : Reaches h b c) : Reaches h a c := by
  induction h1 with
  | refl => exact h2
  | head h3 _ ih => exact .head h3 (ih h2)

/-- A path that does not start at `p`, which nothing points to, never gets there. -/
theorem Reaches.avoid {h h' : Mem L} {p : Addr} (hE : ∀ b c, b ≠ p → Edge h b c → Edge h' b c) (hin : ∀ b, ¬ Edge h b p)
    {a c : Addr} (h1 : Reaches h a c) (ha : a ≠ p) : Reaches h' a c := by
  induction h1 with
  | refl => exact .refl _
  | @head a b c h3 _ ih =>
    refine .head (hE _ _ ha h3) (ih ?_)
    rintro rfl
    exact hin _ h3

/-! ### The invariant -/

/-- The cell is in use through pointers. -/
def Closed (h : Mem L) (p : Addr) : Prop := ∃ n l cs, get h p = .closed n l cs

/-- The pointer to `q` or its count carries the knowledge of event `k`; pointers of `E` are held by somebody who waits for the threads. -/
def Source (o : Orderings) (tr : List Event) (H : Nat → List Addr) (E : List Addr) (q : Addr) (k : Nat) : Prop :=
  Released o tr q k ∨ (∃ i, q ∈ H i ∧ Known o tr i k) ∨ q ∈ E

/-- Some way to the cell `q` carries the knowledge of event `k`. -/
def Carried (o : Orderings) (tr : List Event) (h : Mem L) (H : Nat → List Addr) (E : List Addr) (q : Addr) (k : Nat) : Prop :=
  ∃ r, Reaches h r q ∧ Source o tr H E r k

/-- The threads hold the pointers `H` and have borrowed the cells `O` through `&mut`, others hold the pointers `E`.  The run
started with the memory `h₀`. -/
structure Ordered (o : Orderings) (h₀ : Mem L) (tr : List Event) (h : Mem L) (H O : Nat → List Addr) (E : List Addr) : Prop where
  races : RaceFree o tr
  closed : ∀ p, Closed h p → ∀ k x, tr[k]? = some x → x.addr = p → Carried o tr h H E p k
  opened : ∀ i p, p ∈ O i → ∀ k x, tr[k]? = some x → x.addr = p → Known o tr i k
  free : ∀ p, get h p = .free → ∀ k x, tr[k]? = some x → x.addr = p → Freed o tr p k
  excl : ∀ p, Closed h p → ∀ a x, tr[a]? = some x → x.addr = p → x.kind.exclusive = true →
    (∀ j q, q ∈ H j → Reaches h q p → Known o tr j a) ∧ ∀ q, q ∈ E → ¬ Reaches h q p
  value : ∀ p, countAt h₀ tr p tr.length = (get h p).count
  /-- where a count was one and was then changed, whoever holds the pointer has seen some change since -/
  seen : ∀ p t, countAt h₀ tr p t = 1 → (∃ m, SetSince tr p t m) →
    (∀ i, p ∈ H i ∨ p ∈ O i → ∃ m, SetSince tr p t m ∧ Known o tr i m) ∧
    ∀ q, Edge h q p → ∃ m, SetSince tr p t m ∧ Carried o tr h H E q m

theorem countAt_snoc {h₀ : Mem L} {tr : List Event} {p : Addr} {t : Nat} (e : Event) (ht : t ≤ tr.length) :
    countAt h₀ (tr ++ [e]) p t = countAt h₀ tr p t := by
  simp only [countAt, List.take_append_of_le_length ht]

theorem countAt_end (h₀ : Mem L) (tr : List Event) (p : Addr) (e : Event) :
    countAt h₀ (tr ++ [e]) p (tr ++ [e]).length = if e.sets p then e.value else countAt h₀ tr p tr.length := by
  simp only [countAt, List.take_length, List.filter_append]
  by_cases he : e.sets p = true
  · simp [he]
  · simp [he]

theorem countAt_same {h₀ : Mem L} {tr : List Event} {p : Addr} {t : Nat} (hn : ¬ ∃ m, SetSince tr p t m) :
    countAt h₀ tr p t = countAt h₀ tr p tr.length := by
  have h1 : (tr.drop t).filter (fun e => e.sets p) = [] := by
    rw [List.filter_eq_nil_iff]
    intro e he hs
    obtain ⟨k, hk⟩ := List.getElem?_of_mem he
    rw [List.getElem?_drop] at hk
    exact hn ⟨t + k, by omega, e, hk, hs⟩
  simp only [countAt, List.take_length]
  have h2 : tr.filter (fun e => e.sets p) = (tr.take t).filter (fun e => e.sets p) ++ (tr.drop t).filter (fun e => e.sets p) := by
    rw [← List.filter_append, List.take_append_drop]
  rw [h2, h1, List.append_nil]

theorem changedSince_iff {tr : List Event} {p : Addr} {t : Nat} : changedSince tr p t = true ↔ ∃ m, SetSince tr p t m := by
  simp only [changedSince, List.any_eq_true]
  constructor
  · rintro ⟨e, he, hs⟩
    obtain ⟨k, hk⟩ := List.getElem?_of_mem he
    rw [List.getElem?_drop] at hk
    exact ⟨t + k, by omega, e, hk, hs⟩
  · rintro ⟨m, h1, y, h2, h3⟩
    refine ⟨y, List.mem_of_getElem? (i := m - t) ?_, h3⟩
    rw [List.getElem?_drop]
    have : t + (m - t) = m := by omega
    rw [this]; exact h2

theorem SetSince.mono {tr : List Event} {p : Addr} {t m : Nat} (h : SetSince tr p t m) (e : Event) : SetSince (tr ++ [e]) p t m := by
  obtain ⟨h1, y, h2, h3⟩ := h
  exact ⟨h1, y, getElem?_mono h2 e, h3⟩

theorem Ordered.start (h : Mem L) (H O : Nat → List Addr) (E : List Addr) : Ordered o h [] h H O E :=
  ⟨by intro a b x y _ ha; simp at ha, by simp, by simp, by simp, by simp, by simp [countAt], by
    rintro p t _ ⟨m, _, y, hy, _⟩
    simp at hy⟩

theorem Source.idle {tr : List Event} {H H' : Nat → List Addr} {E : List Addr} (hH : ∀ i q, q ∈ H' i ↔ q ∈ H i) {q : Addr} {k : Nat}
    (h : Source o tr H E q k) : Source o tr H' E q k := by
  rcases h with h2 | ⟨i, h2, h3⟩ | h2
  · exact .inl h2
  · exact .inr (.inl ⟨i, (hH i q).2 h2, h3⟩)
  · exact .inr (.inr h2)

/-- Nothing happened. -/
theorem Ordered.idle {h₀ : Mem L} {tr : List Event} {h : Mem L} {H O H' O' : Nat → List Addr} {E : List Addr}
    (od : Ordered o h₀ tr h H O E)
    (hH : ∀ i q, q ∈ H' i ↔ q ∈ H i) (hO : ∀ i q, q ∈ O' i → q ∈ O i) : Ordered o h₀ tr h H' O' E where
  races := od.races
  closed p hp k x hk hx := by
    obtain ⟨q, h1, h2⟩ := od.closed p hp k x hk hx
    exact ⟨q, h1, h2.idle hH⟩
  opened i p hp := od.opened i p (hO i p hp)
  free := od.free
  excl p hp a x ha hx he := by
    obtain ⟨h1, h2⟩ := od.excl p hp a x ha hx he
    exact ⟨fun j q hq hr => h1 j q ((hH j q).1 hq) hr, h2⟩
  value := od.value
  seen p t h1 h2 := by
    obtain ⟨h3, h4⟩ := od.seen p t h1 h2
    refine ⟨fun i hi => h3 i (hi.imp (hH i p).1 (hO i p)), fun q hq => ?_⟩
    obtain ⟨m, h5, r, h6, h7⟩ := h4 q hq
    exact ⟨m, h5, r, h6, h7.idle hH⟩

/-- A step that leaves the content of all cells as it is. -/
theorem Ordered.shared {h₀ : Mem L} {tr : List Event} {h h' : Mem L} {H O H' O' : Nat → List Addr} {E : List Addr}
    (od : Ordered o h₀ tr h H O E) {e : Event} (hk : e.kind.exclusive = false)
    (hE : ∀ b c, Edge h' b c ↔ Edge h b c) (hC : ∀ b, Closed h' b → Closed h b) (hF : ∀ b, get h' b = .free → get h b = .free)
    (hO : ∀ i q, q ∈ O' i → q ∈ O i) (hH : ∀ j, j ≠ e.thread → H' j = H j)
    (h1 : ∀ q, q ∈ H e.thread → q ∈ H' e.thread ∨ q = e.addr ∧ e.kind.releases o = true)
    (hr : (∃ q, q ∈ H e.thread ∧ Reaches h q e.addr) ∨ ∃ q, q ∈ E ∧ Reaches h q e.addr)
    (h2 : ∀ q, q ∈ H' e.thread → q ∈ H e.thread ∨ q = e.addr ∧ e.kind.counts = true)
    (hs : e.kind.releases o = true ∨ ∃ q, (q ∈ H' e.thread ∨ q ∈ E) ∧ Reaches h q e.addr)
    (hp : Closed h e.addr) (hop : ∀ i, e.addr ∉ O i)
    (hval : ∀ p, countAt h₀ (tr ++ [e]) p (tr.length + 1) = (get h' p).count)
    (hinc : e.kind.counts = true → (get h e.addr).count = 1 → (∀ j, j ≠ e.thread → e.addr ∉ H j) ∧
      ∀ q, Edge h q e.addr → ∃ r, (r ∈ H' e.thread ∨ r ∈ E) ∧ Reaches h r q) :
    Ordered o h₀ (tr ++ [e]) h' H' O' E := by
  have hna : e.kind ≠ .alloc := by intro hc; rw [hc] at hk; cases hk
  have hR : ∀ {a c : Addr}, Reaches h a c → Reaches h' a c := fun hr => hr.congr fun b c => (hE b c).2
  have hR' : ∀ {a c : Addr}, Reaches h' a c → Reaches h a c := fun hr => hr.congr fun b c => (hE b c).1
  have hrel : e.kind.releases o = true → ∀ k, UpTo o (tr ++ [e]) k tr.length → Released o (tr ++ [e]) e.addr k := by
    intro hr k hu
    refine ⟨_, e, get_last tr e, rfl, hr, ?_, hu⟩
    intro c z hc hz
    have := lt_of_get hz
    simp at this
    omega
  have carry : ∀ {q : Addr} {k : Nat}, Carried o tr h H E q k → Carried o (tr ++ [e]) h' H' E q k := by
    rintro p k ⟨q, h3, h4⟩
    refine ⟨q, hR h3, ?_⟩
    rcases h4 with h4 | ⟨i, h4, h5⟩ | h4
    · exact .inl (h4.mono fun _ => hna)
    · by_cases hi : i = e.thread
      · subst hi
        rcases h1 q h4 with h6 | ⟨rfl, h6⟩
        · exact .inr (.inl ⟨_, h6, h5.mono e⟩)
        · exact .inl (hrel h6 k (.inr h5.before))
      · exact .inr (.inl ⟨i, by rw [hH i hi]; exact h4, h5.mono e⟩)
    · exact .inr (.inr h4)
  have me : Known o (tr ++ [e]) e.thread tr.length := known_of_upTo (.inl rfl)
  refine ⟨od.races.snoc ?_, ?_, ?_, ?_, ?_, by simpa using hval, ?_⟩
  · intro a x ha hx hex
    rw [hk] at hex
    obtain ⟨h3, h4⟩ := od.excl e.addr hp a x ha hx (by simpa using hex)
    rcases hr with ⟨q, hq, hq'⟩ | ⟨q, hq, hq'⟩
    · exact (h3 _ q hq hq').before
    · exact absurd hq' (h4 q hq)
  · intro p hc k x hkx hx
    rcases getElem?_snoc hkx with hkx | ⟨rfl, rfl⟩
    · exact carry (od.closed p (hC p hc) k x hkx hx)
    · subst hx
      rcases hs with hs | ⟨q, hq | hq, hq'⟩
      · exact ⟨_, .refl _, .inl (hrel hs _ (.inl rfl))⟩
      · exact ⟨q, hR hq', .inr (.inl ⟨_, hq, known_of_upTo (.inl rfl)⟩)⟩
      · exact ⟨q, hR hq', .inr (.inr hq)⟩
  · intro i p hpo k x hkx hx
    rcases getElem?_snoc hkx with hkx | ⟨rfl, rfl⟩
    · exact (od.opened i p (hO i p hpo) k x hkx hx).mono e
    · subst hx
      exact absurd (hO i _ hpo) (hop i)
  · intro p hf k x hkx hx
    rcases getElem?_snoc hkx with hkx | ⟨rfl, rfl⟩
    · exact (od.free p (hF p hf) k x hkx hx).mono fun _ => hna
    · subst hx
      obtain ⟨n, l, cs, hp⟩ := hp
      rw [hF _ hf] at hp
      cases hp
  · intro p hc a x ha hx hex
    rcases getElem?_snoc ha with ha | ⟨rfl, rfl⟩
    · obtain ⟨h3, h4⟩ := od.excl p (hC p hc) a x ha hx hex
      refine ⟨?_, fun q hq hq' => h4 q hq (hR' hq')⟩
      intro j q hq hq'
      by_cases hj : j = e.thread
      · subst hj
        rcases h2 q hq with h5 | ⟨rfl, -⟩
        · exact (h3 _ q h5 (hR' hq')).mono e
        · rcases hr with ⟨q', h6, h7⟩ | ⟨q', h6, h7⟩
          · exact (h3 _ q' h6 (h7.trans (hR' hq'))).mono e
          · exact absurd (h7.trans (hR' hq')) (h4 q' h6)
      · rw [hH j hj] at hq
        exact (h3 j q hq (hR' hq')).mono e
    · rw [hk] at hex; cases hex
  · intro p t hv hm
    have ht : t ≤ tr.length := by
      obtain ⟨m, h3, y, h4, -⟩ := hm
      have := lt_of_get h4
      simp at this
      omega
    rw [countAt_snoc e ht] at hv
    by_cases hold : ∃ m, SetSince tr p t m
    · obtain ⟨h3, h4⟩ := od.seen p t hv hold
      refine ⟨?_, ?_⟩
      · rintro i (hi | hi)
        · by_cases hie : i = e.thread
          · subst hie
            rcases h2 p hi with h5 | ⟨rfl, h5⟩
            · obtain ⟨m, h6, h7⟩ := h3 _ (.inl h5)
              exact ⟨m, h6.mono e, h7.mono e⟩
            · exact ⟨_, ⟨ht, e, get_last tr e, by simp [Event.sets, h5]⟩, me⟩
          · rw [hH i hie] at hi
            obtain ⟨m, h6, h7⟩ := h3 _ (.inl hi)
            exact ⟨m, h6.mono e, h7.mono e⟩
        · obtain ⟨m, h6, h7⟩ := h3 _ (.inr (hO i p hi))
          exact ⟨m, h6.mono e, h7.mono e⟩
      · intro q hq
        obtain ⟨m, h6, h7⟩ := h4 q ((hE q p).1 hq)
        exact ⟨m, h6.mono e, carry h7⟩
    · obtain ⟨m, h3, y, h4, h5⟩ := hm
      have hset : e.sets p = true := by
        rcases getElem?_snoc h4 with h4 | ⟨-, rfl⟩
        · exact absurd ⟨m, h3, y, h4, h5⟩ hold
        · exact h5
      have hpe : e.addr = p ∧ e.kind.counts = true := by simpa [Event.sets] using hset
      obtain ⟨rfl, hcn⟩ := hpe
      rw [countAt_same hold, od.value] at hv
      obtain ⟨h6, h7⟩ := hinc hcn hv
      have hnew : SetSince (tr ++ [e]) e.addr t tr.length := ⟨ht, e, get_last tr e, hset⟩
      refine ⟨?_, ?_⟩
      · rintro i (hi | hi)
        · by_cases hie : i = e.thread
          · subst hie; exact ⟨_, hnew, me⟩
          · rw [hH i hie] at hi
            exact absurd hi (h6 i hie)
        · exact absurd (hO i _ hi) (hop i)
      · intro q hq
        obtain ⟨r, h8, h9⟩ := h7 q ((hE q _).1 hq)
        refine ⟨_, hnew, r, hR h9, ?_⟩
        rcases h8 with h8 | h8
        · exact .inr (.inl ⟨_, h8, me⟩)
        · exact .inr (.inr h8)

/-- A step of thread `i` that needs the cell for itself: nothing points to the cell but what the thread holds, the thread gets or gives
the pointers stored in it, and has seen all that happened to the cell. -/
theorem Ordered.alone {h₀ : Mem L} {tr : List Event} {h h' : Mem L} {H O H' O' : Nat → List Addr} {E : List Addr}
    (od : Ordered o h₀ tr h H O E) {e : Event}
    (hE : ∀ b c, b ≠ e.addr → (Edge h' b c ↔ Edge h b c)) (hC : ∀ b, b ≠ e.addr → Closed h' b → Closed h b)
    (hF : ∀ b, b ≠ e.addr → get h' b = .free → get h b = .free)
    (hin : ∀ b, ¬ Edge h b e.addr) (hin' : ∀ b, ¬ Edge h' b e.addr)
    (hH : ∀ j, j ≠ e.thread → H' j = H j) (hoth : ∀ j, j ≠ e.thread → e.addr ∉ H j) (hext : e.addr ∉ E)
    (h1 : ∀ q, q ≠ e.addr → q ∈ H e.thread → q ∈ H' e.thread ∨ Edge h' e.addr q ∧ e.addr ∈ H' e.thread)
    (h2 : ∀ q, Edge h e.addr q → q ∈ H' e.thread)
    (h3 : ∀ q, q ≠ e.addr → q ∈ H' e.thread → q ∈ H e.thread ∨ Edge h e.addr q ∧ e.addr ∈ H e.thread)
    (h4 : ∀ q, Edge h' e.addr q → q ∈ H e.thread)
    (hO : ∀ j q, q ≠ e.addr → q ∈ O' j → q ∈ O j) (hop : ∀ j, j ≠ e.thread → e.addr ∉ O' j)
    (hself : Closed h' e.addr → e.addr ∈ H' e.thread) (hfr : get h' e.addr = .free → e.kind.frees = true)
    (hall : ∀ k x, tr[k]? = some x → x.addr = e.addr → Before o (tr ++ [e]) k tr.length)
    (hval : ∀ p, countAt h₀ (tr ++ [e]) p (tr.length + 1) = (get h' p).count) :
    Ordered o h₀ (tr ++ [e]) h' H' O' E := by
  have hR : ∀ {a c : Addr}, Reaches h a c → a ≠ e.addr → Reaches h' a c := fun hr ha =>
    hr.avoid (fun b c hb => (hE b c hb).2) hin ha
  have hR' : ∀ {a c : Addr}, Reaches h' a c → a ≠ e.addr → Reaches h a c := fun hr ha =>
    hr.avoid (fun b c hb => (hE b c hb).1) hin' ha
  have hup : ∀ k x, (tr ++ [e])[k]? = some x → x.addr = e.addr → UpTo o (tr ++ [e]) k tr.length := by
    intro k x hk hx
    rcases getElem?_snoc hk with hk | ⟨rfl, -⟩
    · exact .inr (hall k x hk hx)
    · exact .inl rfl
  have hto : ∀ q, Reaches h' q e.addr → q = e.addr := by
    intro q hq
    rcases hq.last with h | ⟨b, hb⟩
    · exact h
    · exact absurd hb (hin' b)
  have gain : ∀ {k : Nat}, Carried o tr h H E e.addr k → Known o (tr ++ [e]) e.thread k := by
    rintro k ⟨q, h5, h6⟩
    obtain rfl : q = e.addr := by
      rcases h5.last with h | ⟨b, hb⟩
      · exact h
      · exact absurd hb (hin b)
    rcases h6 with ⟨m, y, h6, h7, -, -, h8⟩ | ⟨i, h6, h7⟩ | h6
    · exact known_of_upTo (.inr ((h8.mono e).before (hall m y h6 h7)))
    · by_cases hi : i = e.thread
      · subst hi; exact h7.mono e
      · exact absurd h6 (hoth i hi)
    · exact absurd h6 hext
  have carry : ∀ {p : Addr} {k : Nat}, p ≠ e.addr → Carried o tr h H E p k → Carried o (tr ++ [e]) h' H' E p k := by
    rintro p k hp ⟨q, h5, h6⟩
    by_cases hq : q = e.addr
    · subst hq
      have hkn := gain ⟨_, .refl _, h6⟩
      cases h5 with
      | refl => exact absurd rfl hp
      | @head _ b _ h7 h8 =>
        have hb : b ≠ e.addr := by rintro rfl; exact hin _ h7
        exact ⟨b, hR h8 hb, .inr (.inl ⟨_, h2 b h7, hkn⟩)⟩
    · rcases h6 with h6 | ⟨i, h6, h7⟩ | h6
      · exact ⟨q, hR h5 hq, .inl (h6.mono fun h => absurd h.symm hq)⟩
      · by_cases hi : i = e.thread
        · subst hi
          rcases h1 q hq h6 with h8 | ⟨h8, h9⟩
          · exact ⟨q, hR h5 hq, .inr (.inl ⟨_, h8, h7.mono e⟩)⟩
          · exact ⟨_, .head h8 (hR h5 hq), .inr (.inl ⟨_, h9, h7.mono e⟩)⟩
        · exact ⟨q, hR h5 hq, .inr (.inl ⟨i, by rw [hH i hi]; exact h6, h7.mono e⟩)⟩
      · exact ⟨q, hR h5 hq, .inr (.inr h6)⟩
  refine ⟨od.races.snoc fun a x ha hx _ => hall a x ha hx, ?_, ?_, ?_, ?_, by simpa using hval, ?_⟩
  · intro p hc k x hk hx
    by_cases hp : p = e.addr
    · subst hp
      exact ⟨_, .refl _, .inr (.inl ⟨_, hself hc, known_of_upTo (hup k x hk hx)⟩)⟩
    · rcases getElem?_snoc hk with hk | ⟨rfl, rfl⟩
      · exact carry hp (od.closed p (hC p hp hc) k x hk hx)
      · exact absurd hx.symm hp
  · intro j p hpo k x hk hx
    by_cases hp : p = e.addr
    · subst hp
      by_cases hj : j = e.thread
      · subst hj; exact known_of_upTo (hup k x hk hx)
      · exact absurd hpo (hop j hj)
    · rcases getElem?_snoc hk with hk | ⟨rfl, rfl⟩
      · exact (od.opened j p (hO j p hp hpo) k x hk hx).mono e
      · exact absurd hx.symm hp
  · intro p hf k x hk hx
    by_cases hp : p = e.addr
    · subst hp
      refine ⟨_, e, get_last tr e, rfl, hfr hf, ?_, hup k x hk hx⟩
      intro c z hc hz
      have := lt_of_get hz
      simp at this
      omega
    · rcases getElem?_snoc hk with hk | ⟨rfl, rfl⟩
      · exact (od.free p (hF p hp hf) k x hk hx).mono fun h => absurd h.symm hp
      · exact absurd hx.symm hp
  · intro p hc a x ha hx hex
    by_cases hp : p = e.addr
    · subst hp
      refine ⟨?_, ?_⟩
      · intro j q hq hr
        obtain rfl := hto q hr
        by_cases hj : j = e.thread
        · subst hj; exact known_of_upTo (hup a x ha hx)
        · rw [hH j hj] at hq; exact absurd hq (hoth j hj)
      · intro q hq hr
        obtain rfl := hto q hr
        exact hext hq
    · rcases getElem?_snoc ha with ha | ⟨rfl, rfl⟩
      · obtain ⟨h5, h6⟩ := od.excl p (hC p hp hc) a x ha hx hex
        refine ⟨?_, ?_⟩
        · intro j q hq hr
          by_cases hj : j = e.thread
          · subst hj
            by_cases hqe : q = e.addr
            · subst hqe
              cases hr with
              | refl => exact absurd rfl hp
              | @head _ b _ h7 h8 =>
                have hb : b ≠ e.addr := by rintro rfl; exact hin' _ h7
                exact (h5 _ b (h4 b h7) (hR' h8 hb)).mono e
            · rcases h3 q hqe hq with h7 | ⟨h7, h8⟩
              · exact (h5 _ q h7 (hR' hr hqe)).mono e
              · exact (h5 _ _ h8 (.head h7 (hR' hr hqe))).mono e
          · rw [hH j hj] at hq
            have hqe : q ≠ e.addr := by rintro rfl; exact hoth j hj hq
            exact (h5 j q hq (hR' hr hqe)).mono e
        · intro q hq hr
          have hqe : q ≠ e.addr := by rintro rfl; exact hext hq
          exact h6 q hq (hR' hr hqe)
      · exact absurd hx.symm hp
  · intro p t hv hm
    have ht : t ≤ tr.length := by
      obtain ⟨m, h5, y, h6, -⟩ := hm
      have := lt_of_get h6
      simp at this
      omega
    rw [countAt_snoc e ht] at hv
    by_cases hp : p = e.addr
    · subst hp
      obtain ⟨m, h5, y, h6, h7⟩ := hm
      have hk : Known o (tr ++ [e]) e.thread m :=
        known_of_upTo (hup m y h6 (by simp [Event.sets] at h7; exact h7.1))
      refine ⟨?_, fun q hq => absurd hq (hin' q)⟩
      intro i hi
      obtain rfl : i = e.thread := by
        apply Classical.byContradiction
        intro hie
        rcases hi with hi | hi
        · rw [hH i hie] at hi; exact hoth i hie hi
        · exact hop i hie hi
      exact ⟨m, ⟨h5, y, h6, h7⟩, hk⟩
    · have hold : ∃ m, SetSince tr p t m := by
        obtain ⟨m, h5, y, h6, h7⟩ := hm
        rcases getElem?_snoc h6 with h6 | ⟨-, rfl⟩
        · exact ⟨m, h5, y, h6, h7⟩
        · simp [Event.sets] at h7; exact absurd h7.1.symm hp
      obtain ⟨h5, h6⟩ := od.seen p t hv hold
      refine ⟨?_, ?_⟩
      · rintro i (hi | hi)
        · by_cases hie : i = e.thread
          · subst hie
            rcases h3 p hp hi with h7 | ⟨h7, -⟩
            · obtain ⟨m, h8, h9⟩ := h5 _ (.inl h7)
              exact ⟨m, h8.mono e, h9.mono e⟩
            · obtain ⟨m, h8, h9⟩ := h6 _ h7
              exact ⟨m, h8.mono e, gain h9⟩
          · rw [hH i hie] at hi
            obtain ⟨m, h8, h9⟩ := h5 _ (.inl hi)
            exact ⟨m, h8.mono e, h9.mono e⟩
        · obtain ⟨m, h8, h9⟩ := h5 _ (.inr (hO i p hp hi))
          exact ⟨m, h8.mono e, h9.mono e⟩
      · intro q hq
        by_cases hqe : q = e.addr
        · subst hqe
          obtain ⟨m, h8, h9⟩ := h5 _ (.inl (h4 p hq))
          have hc : Closed h' e.addr := by
            unfold Edge at hq
            cases hg : get h' e.addr with
            | closed n l cs => exact ⟨n, l, cs, hg⟩
            | _ => rw [hg] at hq; simp [Cell.refs] at hq
          exact ⟨m, h8.mono e, _, .refl _, .inr (.inl ⟨_, hself hc, h9.mono e⟩)⟩
        · obtain ⟨m, h8, h9⟩ := h6 q ((hE q p hqe).1 hq)
          exact ⟨m, h8.mono e, carry hqe h9⟩

end Heap
end Rpds
