import Verif.Vector.IterLemmas
/-
How far the iterators of `Vector` go up and down the tree.  Each call of `advance` takes some elements from the stack and puts as many
back.  Only nodes at the right edge of the tree can have less than two children, so between two visits to the same level
the iterator makes at least two steps in the level below.
-/
set_option autoImplicit false
namespace Rpds
variable {T : Type}

namespace Chunked
variable {β : Type} {m : Nat} {css : List (List β)}

/-- A chunk that is not full is the last. -/
theorem not_full (h : Chunked m css) {j : Nat} {c : List β} (hc : css[j]? = some c) (hl : c.length < m) :
    j + 1 = css.length ∧ css.flatten.length < m * css.length := by
  induction h generalizing j with
  | @single d h1 h2 =>
    cases j with
    | zero =>
      simp only [List.getElem?_cons_zero, Option.some.injEq] at hc
      subst hc
      simpa using hl
    | succ j => simp at hc
  | @cons d cs h1 h2 ih =>
    cases j with
    | zero =>
      simp only [List.getElem?_cons_zero, Option.some.injEq] at hc
      subst hc
      omega
    | succ j =>
      simp only [List.getElem?_cons_succ] at hc
      obtain ⟨h3, h4⟩ := ih hc
      simp only [List.length_cons, List.flatten_cons, List.length_append, Nat.mul_add]
      omega

end Chunked

namespace VIter
open VNode
variable {b : Nat}

/-- A complete tree has at least two entries in each node. -/
theorem full_used {h : Nat} {n : VNode T} (hb : 0 < b) (hn : OK b h n) (hf : n.toList.length = 2 ^ (b * (h + 1))) :
    2 ≤ n.used ∧ ∀ h' a, h = h' + 1 → n = .branch a → ∀ (j : Nat) c, a[j]? = some c → c.toList.length = 2 ^ (b * (h' + 1)) := by
  have h2 : 2 ≤ 2 ^ b := by
    obtain ⟨k, rfl⟩ : ∃ k, b = k + 1 := ⟨b - 1, by omega⟩
    have := Nat.two_pow_pos k
    rw [Nat.pow_succ]
    omega
  cases h with
  | zero =>
    obtain ⟨a, rfl, -⟩ := hn.leaf_inv
    simp only [toList_leaf, Nat.zero_add, Nat.mul_one] at hf
    exact ⟨by simp only [used]; omega, by simp⟩
  | succ h =>
    obtain ⟨a, rfl, h3, h4, h5⟩ := hn.branch_inv
    rw [toList_branch, pow_split b (h + 1)] at hf
    have h6 := h3.flatten_le
    simp only [List.length_map] at h6
    have h7 : a.length = 2 ^ b := by
      have : ¬ a.length < 2 ^ b := by
        intro hlt
        have := Nat.mul_lt_mul_of_pos_left hlt (Nat.two_pow_pos (b * (h + 1)))
        omega
      omega
    refine ⟨by simp only [used]; omega, ?_⟩
    intro h' a' hh hbr j c hj
    obtain rfl : h = h' := by omega
    cases hbr
    have hc := h3.le_length c.toList (List.mem_map_of_mem (List.mem_of_getElem? hj))
    have : ¬ c.toList.length < 2 ^ (b * (h + 1)) := by
      intro hlt
      have := (h3.not_full (j := j) (c := c.toList) (by rw [List.getElem?_map, hj]; rfl) hlt).2
      rw [List.length_map, h7] at this
      omega
    omega

/-- The nodes of a stack form a path: each is the entry of the one below it at its index.  The topmost node has height `h`, the lowest
height `H`. -/
inductive Path (b H : Nat) : Nat → List (VElem T) → Prop where
  | root {n : VNode T} {i : Int} : OK b H n → Path b H H [⟨n, i⟩]
  | cons {h : Nat} {a : List (VNode T)} {j : Int} {n : VNode T} {i : Int} {rest : List (VElem T)} :
      Path b H (h + 1) (⟨.branch a, j⟩ :: rest) → 0 ≤ j → a[j.toNat]? = some n → Path b H h (⟨n, i⟩ :: ⟨.branch a, j⟩ :: rest)

variable {H h : Nat} {n : VNode T} {i : Int} {rest st : List (VElem T)}

theorem Path.ok (hp : Path b H h (⟨n, i⟩ :: rest)) : OK b h n := by
  generalize hst : (⟨n, i⟩ : VElem T) :: rest = st at hp
  induction hp generalizing n i rest with
  | root h => cases hst; exact h
  | cons hp h0 hj ih =>
    cases hst
    obtain ⟨-, -, h3⟩ := ih rfl
    exact h3 _ (List.mem_of_getElem? hj)

theorem Path.length (hp : Path b H h st) : st.length + h = H + 1 := by
  induction hp with
  | root => simp; omega
  | cons hp h0 hj ih => simp at ih ⊢; omega

theorem Path.index (hp : Path b H h (⟨n, i⟩ :: rest)) (i' : Int) : Path b H h (⟨n, i'⟩ :: rest) := by
  cases hp with
  | root h => exact .root h
  | cons hp h0 hj => exact .cons hp h0 hj

theorem digAt_none {bw : Bool} {cs : List (VNode T)} {j : Nat} (hj : cs[j]? = none) (rest : List (VElem T)) :
    digAt bw cs j rest = .error .indexOutOfBounds := by
  induction cs generalizing j with
  | nil => simp [digAt]
  | cons c cs ih =>
    cases j with
    | zero => simp at hj
    | succ j => simp [digAt, ih (j := j) (by simpa using hj)]

theorem dig_get {bw : Bool} {a : List (VNode T)} (he : dig bw (.branch a) i rest = .ok st) :
    0 ≤ i ∧ ∃ c, a[i.toNat]? = some c ∧ dig bw c (VElem.new c bw).index (⟨.branch a, i⟩ :: rest) = .ok st := by
  rw [dig] at he
  split at he
  · cases he
  · refine ⟨by omega, ?_⟩
    cases hc : a[i.toNat]? with
    | none => rw [digAt_none hc] at he; cases he
    | some c =>
      rw [digAt_eq hc] at he
      exact ⟨c, rfl, he⟩

/-- Where digging ends. -/
theorem dig_path {bw : Bool} (hp : Path b H h (⟨n, i⟩ :: rest)) (he : dig bw n i rest = .ok st) : Path b H 0 st := by
  induction h generalizing n i rest with
  | zero =>
    obtain ⟨a, rfl, -⟩ := hp.ok.leaf_inv
    rw [dig] at he
    cases he
    exact hp
  | succ h ih =>
    obtain ⟨a, rfl, -⟩ := hp.ok.branch_inv
    obtain ⟨h0, c, hc, he⟩ := dig_get he
    exact ih (.cons hp h0 hc) he

/-- An element that pays for being taken from the stack. -/
def pays (bw : Bool) (e : VElem T) : Bool := if bw then decide (e.index ≤ 0) else decide (1 ≤ e.index)

/-- The number of elements taken from the stack by `advance`. -/
def pops (bw : Bool) : List (VElem T) → Nat
  | [] => 0
  | e :: rest => if (e.advance bw).1 then pops bw rest + 1 else 0

theorem pops_le (bw : Bool) (st : List (VElem T)) : pops bw st ≤ st.length := by
  induction st with
  | nil => exact Nat.le_refl _
  | cons e rest ih => simp only [pops, List.length_cons]; split <;> omega

theorem dig_pays_fw (hn : OK b h n) (he : dig false n i rest = .ok st) : st.countP (pays false) = (⟨n, i⟩ :: rest).countP (pays false) := by
  induction h generalizing n i rest with
  | zero =>
    obtain ⟨a, rfl, -⟩ := hn.leaf_inv
    rw [dig] at he
    cases he
    rfl
  | succ h ih =>
    obtain ⟨a, rfl, -, -, h3⟩ := hn.branch_inv
    obtain ⟨-, c, hc, he⟩ := dig_get he
    rw [ih (h3 c (List.mem_of_getElem? hc)) he]
    rw [List.countP_cons]
    simp [pays, VElem.new]

theorem dig_pays_bw (hb : 0 < b) (hn : OK b h n) (hf : n.toList.length = 2 ^ (b * (h + 1)))
    (he : dig true n (VElem.new n true).index rest = .ok st) : st.countP (pays true) = rest.countP (pays true) := by
  induction h generalizing n rest with
  | zero =>
    obtain ⟨hu, -⟩ := full_used hb hn hf
    obtain ⟨a, rfl, -⟩ := hn.leaf_inv
    rw [dig] at he
    cases he
    rw [List.countP_cons]
    simp [pays, VElem.new]
    omega
  | succ h ih =>
    obtain ⟨hu, hk⟩ := full_used hb hn hf
    obtain ⟨a, rfl, -, -, h3⟩ := hn.branch_inv
    obtain ⟨-, c, hc, he⟩ := dig_get he
    rw [ih (h3 c (List.mem_of_getElem? hc)) (hk h a rfl rfl _ c hc) he]
    rw [List.countP_cons]
    simp [pays, VElem.new]
    omega

/-- Below a node that is not complete there are only last entries, so the iterator is finished after it. -/
theorem advance_end (hp : Path b H h (⟨n, i⟩ :: rest)) (hn : n.toList.length < 2 ^ (b * (h + 1))) : advance false rest = .ok [] := by
  generalize hst : (⟨n, i⟩ : VElem T) :: rest = st at hp
  induction hp generalizing n i rest with
  | root h => cases hst; rfl
  | @cons h a j m i' rest' hp h0 hj ih =>
    cases hst
    obtain ⟨h1, h2, -⟩ := hp.ok
    obtain ⟨h3, h4⟩ := h1.not_full (j := j.toNat) (c := m.toList) (by rw [List.getElem?_map, hj]; rfl) hn
    rw [List.length_map] at h3 h4
    rw [advance_false_eq, if_pos (by simp only [used]; omega)]
    refine ih ?_ rfl
    rw [toList_branch, pow_split b (h + 1)]
    exact Nat.lt_of_lt_of_le h4 (Nat.mul_le_mul_left _ h2)

/-- What `advance` takes from the stack was paid for, except in the end. -/
theorem advance_pays {bw : Bool} (hb : 0 < b) (hp : Path b H h st)
    (hv : ∀ n i rest, st = ⟨n, i⟩ :: rest → h = 0 ∨ i < n.used) {st' : List (VElem T)} (he : advance bw st = .ok st') :
    st' = [] ∨ Path b H 0 st' ∧ pops bw st + st'.countP (pays bw) ≤ st.countP (pays bw) + 1 := by
  induction st generalizing h with
  | nil => cases hp
  | cons e rest ih =>
    obtain ⟨n, i⟩ := e
    have hn := hp.ok
    have tail : rest = [] ∨ Path b H (h + 1) rest ∧ ∀ n i rest', rest = ⟨n, i⟩ :: rest' → h + 1 = 0 ∨ i < n.used := by
      cases hp with
      | root => exact .inl rfl
      | cons hp h0 hj => exact .inr ⟨hp, by
        rintro n i rest' ⟨⟩
        have := (List.getElem?_eq_some_iff.mp hj).1
        simp only [used]; omega⟩
    cases bw with
    | false =>
      rw [advance_false_eq] at he
      split at he
      · next hf =>
        rcases tail with rfl | ⟨tail, tv⟩
        · cases he; exact .inl rfl
        · rcases ih tail tv he with h1 | ⟨h1, h2⟩
          · exact .inl h1
          · by_cases hi : 1 ≤ i
            · refine .inr ⟨h1, ?_⟩
              rw [List.countP_cons]
              simp [pops, VElem.advance, pays, hf, hi]
              omega
            · have : ¬ n.toList.length = 2 ^ (b * (h + 1)) := by
                intro hfull
                have := (full_used hb hn hfull).1
                omega
              have hle := hn.length_le
              rw [advance_end hp (by omega)] at he
              cases he
              exact .inl rfl
      · next hf =>
        refine .inr ⟨dig_path (hp.index _) he, ?_⟩
        rw [dig_pays_fw hn he, List.countP_cons, List.countP_cons]
        simp [pops, VElem.advance, hf]
        split <;> omega
    | true =>
      rw [advance_true_eq] at he
      split at he
      · next hf =>
        rcases tail with rfl | ⟨tail, tv⟩
        · cases he; exact .inl rfl
        · rcases ih tail tv he with h1 | ⟨h1, h2⟩
          · exact .inl h1
          · refine .inr ⟨h1, ?_⟩
            rw [List.countP_cons]
            have : i ≤ 0 := by omega
            simp [pops, VElem.advance, pays, hf, this]
            omega
      · next hf =>
        refine .inr ⟨dig_path (hp.index _) he, ?_⟩
        have key : st'.countP (pays true) ≤ rest.countP (pays true) + 1 := by
          cases h with
          | zero =>
            obtain ⟨a, rfl, -⟩ := hn.leaf_inv
            rw [dig] at he
            cases he
            rw [List.countP_cons]
            split <;> omega
          | succ h =>
            obtain ⟨a, rfl, h1, -, h3⟩ := hn.branch_inv
            obtain ⟨-, c, hc, he⟩ := dig_get he
            have hfull : ¬ c.toList.length < 2 ^ (b * (h + 1)) := by
              intro hlt
              have hv := (hv _ _ _ rfl).resolve_left (by omega)
              have := (h1.not_full (c := c.toList) (by rw [List.getElem?_map, hc]; rfl) hlt).1
              rw [List.length_map] at this
              simp only [used] at hv
              omega
            have hle := (h3 c (List.mem_of_getElem? hc)).length_le
            rw [dig_pays_bw hb (h3 c (List.mem_of_getElem? hc)) (by omega) he, List.countP_cons]
            split <;> omega
        rw [List.countP_cons]
        simp [pops, VElem.advance, hf]
        omega

/-- The reads that can be made before the next item, for one of the two stacks. -/
def stackPot (H : Nat) (bw : Bool) : Option (List (VElem T)) → Nat
  | none => 6 * (H + 1)
  | some [] => 0
  | some (e :: st) => 3 * (e :: st).countP (pays bw) + (H + 1)

def pot (H : Nat) (it : VIter T) : Nat := stackPot H false it.stack_forward + stackPot H true it.stack_backward

/-- The stacks are paths in the tree. -/
structure Good (b H : Nat) (it : VIter T) : Prop where
  pos : 0 < b
  ok : it.vector.root.OK b H
  fw : ∀ st, it.stack_forward = some st → st = [] ∨ Path b H 0 st
  bw : ∀ st, it.stack_backward = some st → st = [] ∨ Path b H 0 st

theorem stackPot_le {b H : Nat} {bw : Bool} {o : Option (List (VElem T))} (h : ∀ st, o = some st → st = [] ∨ Path b H 0 st) :
    stackPot H bw o ≤ 6 * (H + 1) := by
  match o with
  | none => exact Nat.le_refl _
  | some [] => exact Nat.zero_le _
  | some (e :: st) =>
    have h1 := ((h _ rfl).resolve_left (by simp)).length
    have h2 := List.countP_le_length (p := pays bw) (l := e :: st)
    simp only [stackPot]
    omega

theorem Good.pot_le {b H : Nat} {it : VIter T} (h : it.Good b H) : it.pot H ≤ 12 * (H + 1) := by
  have h1 := stackPot_le (bw := false) h.fw
  have h2 := stackPot_le (bw := true) h.bw
  unfold pot
  omega

end VIter
end Rpds
