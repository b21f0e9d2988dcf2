/-
Lists cut into chunks of `m` items, the last chunk possibly shorter but not empty.
-/
set_option autoImplicit false
namespace Rpds
variable {β : Type}

/-- All chunks have length `m` except the last, which has between 1 and `m` items. -/
inductive Chunked (m : Nat) : List (List β) → Prop where
  | single {c : List β} : 0 < c.length → c.length ≤ m → Chunked m [c]
  | cons {c : List β} {cs : List (List β)} : c.length = m → Chunked m cs → Chunked m (c :: cs)

namespace Chunked
variable {m : Nat} {css : List (List β)}

theorem ne_nil (h : Chunked m css) : css ≠ [] := by cases h <;> simp

theorem pos (h : Chunked m css) : 0 < m := by
  induction h with
  | single h1 h2 => omega
  | cons _ _ ih => exact ih

theorem get (h : Chunked m css) {i : Nat} (hi : i < css.flatten.length) :
    ∃ c, css[i / m]? = some c ∧ i % m < c.length ∧ css.flatten[i]? = c[i % m]? := by
  have hm := h.pos
  induction h generalizing i with
  | @single c h1 h2 =>
    simp at hi
    have hlt : i < m := by omega
    exact ⟨c, by simp [Nat.div_eq_of_lt hlt], by rw [Nat.mod_eq_of_lt hlt]; exact hi,
      by simp [Nat.mod_eq_of_lt hlt]⟩
  | @cons c cs h1 h2 ih =>
    simp only [List.flatten_cons, List.length_append] at hi
    by_cases hlt : i < m
    · exact ⟨c, by simp [Nat.div_eq_of_lt hlt], by rw [Nat.mod_eq_of_lt hlt]; omega,
        by rw [Nat.mod_eq_of_lt hlt, List.flatten_cons, List.getElem?_append_left (by omega)]⟩
    · obtain ⟨d, e1, e2, e3⟩ := ih (i := i - m) (by omega)
      have hd : i / m = (i - m) / m + 1 := by
        rw [← Nat.add_div_right _ hm, Nat.sub_add_cancel (by omega)]
      have hmod : i % m = (i - m) % m := by
        rw [Nat.mod_eq_sub_mod (by omega)]
      refine ⟨d, by simpa [hd] using e1, by rw [hmod]; exact e2, ?_⟩
      rw [hmod, ← e3, List.flatten_cons, List.getElem?_append_right (by omega), h1]

/-- Replacing one item in its chunk. -/
theorem set (h : Chunked m css) {i : Nat} {c : List β} (v : β) (hi : i < css.flatten.length) (hc : css[i / m]? = some c) :
    Chunked m (css.set (i / m) (c.set (i % m) v)) ∧
      (css.set (i / m) (c.set (i % m) v)).flatten = css.flatten.set i v := by
  have hm := h.pos
  induction h generalizing i c with
  | @single d h1 h2 =>
    simp at hi
    have hlt : i < m := by omega
    rw [Nat.div_eq_of_lt hlt] at hc ⊢
    simp at hc
    subst hc
    simp only [List.set_cons_zero, List.flatten_cons, List.flatten_nil, List.append_nil, Nat.mod_eq_of_lt hlt]
    exact ⟨.single (by simpa using h1) (by simpa using h2), trivial⟩
  | @cons d cs h1 h2 ih =>
    simp only [List.flatten_cons, List.length_append] at hi
    by_cases hlt : i < m
    · rw [Nat.div_eq_of_lt hlt] at hc ⊢
      simp at hc
      subst hc
      simp only [List.set_cons_zero, List.flatten_cons, Nat.mod_eq_of_lt hlt]
      refine ⟨.cons (by simpa using h1) h2, ?_⟩
      rw [List.set_append_left _ _ (by omega)]
    · have hd : i / m = (i - m) / m + 1 := by
        rw [← Nat.add_div_right _ hm, Nat.sub_add_cancel (by omega)]
      have hmod : i % m = (i - m) % m := by
        rw [Nat.mod_eq_sub_mod (by omega)]
      rw [hd] at hc ⊢
      obtain ⟨e1, e2⟩ := ih (i := i - m) (c := c) (by omega) (by simpa using hc)
      rw [hmod]
      simp only [List.set_cons_succ, List.flatten_cons]
      refine ⟨.cons h1 e1, ?_⟩
      rw [List.set_append_right _ _ (by omega), h1, e2]

/-- Where the next item goes: a new chunk if the last one is full, else at the end of the last one. -/
theorem push (h : Chunked m css) (v : β) :
    (css.flatten.length / m = css.length ∧ css.flatten.length % m = 0 ∧ Chunked m (css ++ [[v]])) ∨
    (∃ c, css[css.flatten.length / m]? = some c ∧ css.flatten.length % m = c.length ∧
      Chunked m (css.set (css.flatten.length / m) (c ++ [v])) ∧
      (css.set (css.flatten.length / m) (c ++ [v])).flatten = css.flatten ++ [v]) := by
  have hm := h.pos
  induction h with
  | @single c h1 h2 =>
    by_cases hlt : c.length < m
    · right
      refine ⟨c, ?_, ?_, ?_, ?_⟩
      · simp [Nat.div_eq_of_lt hlt]
      · simp [Nat.mod_eq_of_lt hlt]
      · simp only [List.flatten_cons, List.flatten_nil, List.append_nil, Nat.div_eq_of_lt hlt, List.set_cons_zero]
        exact .single (by simp) (by simp; omega)
      · simp [Nat.div_eq_of_lt hlt]
    · left
      have : c.length = m := by omega
      refine ⟨?_, ?_, ?_⟩
      · simp [this, Nat.div_self hm]
      · simp [this]
      · exact .cons this (.single (by simp) (by simp; omega))
  | @cons d cs h1 h2 ih =>
    have hd : (d :: cs).flatten.length / m = cs.flatten.length / m + 1 := by
      rw [List.flatten_cons, List.length_append, h1, Nat.add_comm, Nat.add_div_right _ hm]
    have hmod : (d :: cs).flatten.length % m = cs.flatten.length % m := by
      rw [List.flatten_cons, List.length_append, h1, Nat.add_mod_left]
    rw [hd, hmod]
    rcases ih with ⟨e1, e2, e3⟩ | ⟨c, e1, e2, e3, e4⟩
    · left
      exact ⟨by rw [e1]; rfl, e2, .cons h1 e3⟩
    · right
      refine ⟨c, by simpa using e1, e2, .cons h1 e3, ?_⟩
      simp only [List.set_cons_succ, List.flatten_cons, e4, List.append_assoc]

theorem le_length (h : Chunked m css) : ∀ c ∈ css, c.length ≤ m := by
  induction h with
  | single _ h2 => simpa using h2
  | cons h1 _ ih => intro c hc; simp at hc; exact hc.elim (fun e => by subst e; omega) (ih c)

theorem pos_length (h : Chunked m css) : ∀ c ∈ css, 0 < c.length := by
  have hm := h.pos
  induction h with
  | single h1 _ => simpa using h1
  | cons h1 _ ih => intro c hc; simp at hc; exact hc.elim (fun e => by subst e; omega) (ih c)

theorem flatten_le (h : Chunked m css) : css.flatten.length ≤ m * css.length := by
  induction h with
  | single _ h2 => simpa using h2
  | @cons _ cs h1 _ ih => simp only [List.flatten_cons, List.length_append, List.length_cons, Nat.mul_add]; omega

theorem flatten_gt (h : Chunked m css) : m * css.length < css.flatten.length + m := by
  induction h with
  | single h1 h2 => simp; omega
  | @cons _ cs h1 _ ih => simp only [List.flatten_cons, List.length_append, List.length_cons, Nat.mul_add]; omega

/-- Dropping the last item. -/
theorem dropLast_cases {ds : List (List β)} {c : List β} (h : Chunked m (ds ++ [c])) :
    (c.length = 1 → ds = [] ∨ Chunked m ds) ∧ (1 < c.length → Chunked m (ds ++ [c.dropLast])) := by
  induction ds with
  | nil =>
    cases h with
    | single h1 h2 => exact ⟨fun _ => .inl rfl, fun hc => .single (by simp; omega) (by simp; omega)⟩
    | cons h1 h2 => exact absurd rfl h2.ne_nil
  | cons d ds ih =>
    cases hd : ds with
    | nil =>
      subst hd
      cases h with
      | cons h1 h2 =>
        refine ⟨fun _ => .inr (.single (by have := h2.pos; omega) (by omega)), fun hc => .cons h1 ((ih h2).2 hc)⟩
    | cons e es =>
      rw [hd] at h ih
      cases h with
      | cons h1 h2 =>
        refine ⟨fun hc => .inr ?_, fun hc => .cons h1 ((ih h2).2 hc)⟩
        rcases (ih h2).1 hc with hx | hx
        · cases hx
        · exact .cons h1 hx

theorem full_length {ds : List (List β)} {c : List β} (h : Chunked m (ds ++ [c])) : ∀ d ∈ ds, d.length = m := by
  induction ds with
  | nil => simp
  | cons d ds ih =>
    have h' : d.length = m ∧ Chunked m (ds ++ [c]) := by
      rw [List.cons_append] at h
      generalize he : ds ++ [c] = es at *
      cases h with
      | single h1 h2 => simp at he
      | cons h1 h2 => exact ⟨h1, h2⟩
    intro x hx
    simp at hx
    exact hx.elim (fun e => by subst e; exact h'.1) (ih h'.2 x)

end Chunked
end Rpds
