import Verif.Vector.Sim
/-
The trie of a vector is a function of its items.
-/
set_option autoImplicit false
namespace Rpds
variable {T : Type}

theorem Chunked.length_pos {m : Nat} {css : List (List T)} (h : Chunked m css) : 0 < css.flatten.length := by
  induction h with
  | single h1 _ => simpa using h1
  | cons _ _ ih => simp only [List.flatten_cons, List.length_append]; omega

theorem Chunked.unique {m : Nat} {css : List (List T)} (h : Chunked m css) :
    ∀ {dss : List (List T)}, Chunked m dss → css.flatten = dss.flatten → css = dss := by
  induction h with
  | @single c h1 h2 =>
    intro dss hd he
    cases hd with
    | single => simpa using he
    | @cons d ds e1 e2 =>
      have := congrArg List.length he
      have hp : 0 < ds.flatten.length := e2.length_pos
      simp only [List.flatten_cons, List.flatten_nil, List.length_append, List.length_nil] at this
      omega
  | @cons c cs h1 h2 ih =>
    intro dss hd he
    cases hd with
    | @single d e1 e2 =>
      have := congrArg List.length he
      have hp : 0 < cs.flatten.length := h2.length_pos
      simp only [List.flatten_cons, List.flatten_nil, List.length_append, List.length_nil] at this
      omega
    | @cons d ds e1 e2 =>
      simp only [List.flatten_cons] at he
      obtain ⟨a, b⟩ := List.append_inj he (by omega)
      rw [a, ih e2 b]

theorem VNode.OK.unique {b : Nat} : ∀ {h : Nat} {n n' : VNode T}, OK b h n → OK b h n' → n.toList = n'.toList → n = n' := by
  intro h
  induction h with
  | zero =>
    intro n n' hn hn' he
    obtain ⟨a, rfl, _⟩ := hn.leaf_inv
    obtain ⟨a', rfl, _⟩ := hn'.leaf_inv
    simpa using he
  | succ h ih =>
    intro n n' hn hn' he
    obtain ⟨a, rfl, h1, h2, h3⟩ := hn.branch_inv
    obtain ⟨a', rfl, h1', h2', h3'⟩ := hn'.branch_inv
    rw [toList_branch, toList_branch] at he
    have hm := h1.unique h1' he
    clear h1 h1' h2 h2' he hn hn'
    congr 1
    induction a generalizing a' with
    | nil => cases a' with
      | nil => rfl
      | cons => simp at hm
    | cons c cs ih2 =>
      cases a' with
      | nil => simp at hm
      | cons c' cs' =>
        simp only [List.map_cons, List.cons.injEq] at hm
        rw [ih (h3 c (by simp)) (h3' c' (by simp)) hm.1, ih2 (fun d hd => h3 d (by simp [hd])) cs' (fun d hd => h3' d (by simp [hd])) hm.2]

namespace RVector

theorem Rep.height_unique {A : Arch} {v w : RVector T} {xs : List T} {h h' : Nat} (r : Rep A v xs h) (r' : Rep A w xs h')
    (hb : v.bits = w.bits) : h = h' := by
  have key : ∀ {v w : RVector T} {h h' : Nat}, Rep A v xs h → Rep A w xs h' → v.bits = w.bits → h ≤ h' := by
    intro v w h h' r r' hb
    rcases r.tight with rfl | ht
    · omega
    · have h1 := r'.length_le
      rw [← hb] at h1
      have := (Nat.pow_lt_pow_iff_right (by omega : 1 < 2)).1 (Nat.lt_of_lt_of_le ht h1)
      have := Nat.lt_of_mul_lt_mul_left this
      omega
  exact Nat.le_antisymm (key r r' hb) (key r' r hb.symm)

theorem Rep.unique {A : Arch} {v w : RVector T} {xs : List T} {h h' : Nat} (r : Rep A v xs h) (r' : Rep A w xs h')
    (hb : v.bits = w.bits) : v = w := by
  have hh := r.height_unique r' hb
  subst hh
  have h1 := r.ok
  rw [hb] at h1
  have := h1.unique r'.ok (by rw [r.items, r'.items])
  have hl : v.length = w.length := by rw [r.length, r'.length]
  cases v; cases w
  simp_all

end RVector
end Rpds
