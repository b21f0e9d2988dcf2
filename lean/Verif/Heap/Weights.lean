import Verif.Heap.Footprint
import Verif.Heap.SpaceVector
import Verif.Heap.RedBlackSpec
import Verif.Heap.HashTrieSpec
import Verif.Heap.Linear
/-
The number of cells behind one handle, for each data structure.
-/
set_option autoImplicit false
namespace Rpds
namespace Heap

section
variable {L T : Type} {nd : L} {dec : ATree L → T → Prop} {c : Nat}

theorem weight_optPtr (o : Option (ATree L)) : weight (optPtr o) = (o.toList.map ATree.size).sum := by
  cases o <;> simp [weight, Item.weight]

/-- A chain has one cell per node besides those of the elements. -/
theorem IsLink.weight_le (hd : ∀ t v, dec t v → t.size ≤ c) {o : Option (ATree L)} {l : Link T} (h : IsLink nd dec o l) :
    (o.toList.map ATree.size).sum ≤ (c + 1) * l.toList.length := by
  induction h with
  | none => simp
  | @some a tv tn v next hv _ ih =>
    have := hd _ _ hv
    simp only [Option.toList_some, List.map_cons, List.map_nil, List.sum_cons, List.sum_nil, ATree.size, ATree.size_go, Link.toList,
      List.length_cons] at ih ⊢
    rw [Nat.mul_add]
    omega

theorem OptRel.weight_le (hd : ∀ t v, dec t v → t.size ≤ c) {o : Option (ATree L)} {x : Option T} (h : OptRel dec o x) :
    (o.toList.map ATree.size).sum ≤ if x.isSome then c else 0 := by
  cases h with
  | none => simp
  | some h => simpa using hd _ _ h

theorem HList.Is.weight_le (hd : ∀ t v, dec t v → t.size ≤ c) {l : HList} {r : RList T} {ρ : List (Item L)} (h : l.Is nd dec r ρ) :
    weight ρ ≤ (c + 1) * r.head.toList.length + if r.last.isSome then c else 0 := by
  obtain ⟨th, tl, -, rfl, h1, h2⟩ := h
  rw [weight_append, weight_optPtr, weight_optPtr]
  exact Nat.add_le_add (h1.weight_le hd) (h2.weight_le hd)

end

theorem size_linDec {T : Type} (t : ATree (LinLabel T)) (v : T) (h : linDec t v) : t.size ≤ 1 := by
  rw [ATree.size_eq, h.2]; simp

/-- A list takes two cells per element, and possibly one more for the last element. -/
theorem ListIs.weight_le {T : Type} {l : HList} {xs : List T} {ρ : List (Item (LinLabel T))} (h : ListIs l xs ρ) :
    weight ρ ≤ 2 * xs.length + min xs.length 1 := by
  obtain ⟨r, h1, h2⟩ := h
  refine Nat.le_trans (h1.weight_le size_linDec) ?_
  rw [h2.head, h2.last]
  cases xs with
  | nil => simp
  | cons x xs => simp

theorem link_last {T : Type} {r : RList T} {xs : List T} (h : r.Rep xs) : (if r.last.isSome then 1 else 0) ≤ min xs.length 1 := by
  rw [h.last]
  cases xs with
  | nil => simp
  | cons x xs => simp

/-- A queue takes two cells per element, and possibly one more for the last element of each list. -/
theorem QueueIs.weight_le {T : Type} {q : HQueue} {xs : List T} {ρ : List (Item (LinLabel T))} (h : QueueIs q xs ρ) :
    weight ρ ≤ 2 * xs.length + min xs.length 2 := by
  obtain ⟨r, ⟨ρ₁, ρ₂, rfl, h1, h2, -, -⟩, h3⟩ := h
  have g1 := h1.weight_le size_linDec
  have g2 := h2.weight_le size_linDec
  obtain ⟨i, o, r1, r2, rfl⟩ := h3
  have := link_last r1
  have := link_last r2
  rw [r2.head] at g1
  rw [r1.head] at g2
  simp only [weight_append, List.length_append, List.length_reverse]
  omega

/-! ### Vectors -/

section
variable {T : Type} {b : Nat}

theorem size_vecDec (t : ATree (VLabel T)) (v : T) (h : vecDec t v) : t.size = 1 := by
  rw [ATree.size_eq, h.2]; simp

theorem sum_vecDec {ts : List (ATree (VLabel T))} {xs : List T} (h : List.Forall₂ vecDec ts xs) : (ts.map ATree.size).sum = xs.length := by
  induction h with
  | nil => rfl
  | cons h _ ih => simp [size_vecDec _ _ h, ih]; omega

/-- A branch, from what is known of its children: all but the last of them are full. -/
theorem chunk_weight {M F e : Nat} {h : Nat} {css : List (List T)} (hc : Chunked F css) :
    ∀ {ts : List (ATree (VLabel T))} {ns : List (VNode T)}, css = ns.map VNode.toList →
      List.Forall₂ (fun t m => IsVC h t.label t.kids m) ts ns →
      (∀ (t : ATree (VLabel T)) (n : VNode T), IsVC h t.label t.kids n → n ∈ ns → M * t.size ≤ M * n.toList.length + n.toList.length + e ∧
        (n.toList.length = F → M * t.size + 1 ≤ M * n.toList.length + n.toList.length)) →
      M * (ts.map ATree.size).sum ≤ M * css.flatten.length + css.flatten.length + e ∧
      (css.flatten.length = F * css.length →
        M * (ts.map ATree.size).sum + css.length ≤ M * css.flatten.length + css.flatten.length) := by
  induction hc with
  | @single c h1 h2 =>
    intro ts ns e1 hf hk
    cases hf with
    | nil => simp at e1
    | @cons t n ts' ns' hf1 hf2 =>
      simp only [List.map_cons, List.cons.injEq, List.nil_eq, List.map_eq_nil_iff] at e1
      obtain ⟨rfl, rfl⟩ := e1
      cases hf2
      have := hk _ _ hf1 (by simp)
      simpa using this
  | @cons c cs h1 h2 ih =>
    intro ts ns e1 hf hk
    cases hf with
    | nil => simp at e1
    | @cons t n ts' ns' hf1 hf2 =>
      simp only [List.map_cons, List.cons.injEq] at e1
      obtain ⟨rfl, e2⟩ := e1
      have g1 := (hk _ _ hf1 (by simp)).2 h1
      obtain ⟨g2, g3⟩ := ih e2 hf2 fun t n ht hn => hk t n ht (by simp [hn])
      simp only [List.map_cons, List.sum_cons, List.flatten_cons, List.length_append, List.length_cons, Nat.mul_add]
      refine ⟨by omega, fun hx => ?_⟩
      have := g3 (by omega)
      omega

theorem IsVC.weight (h : Nat) (t : ATree (VLabel T)) (n : VNode T) (hv : IsVC h t.label t.kids n) (hn : VNode.OK b h n) :
    (2 ^ b - 1) * t.size ≤ (2 ^ b - 1) * n.toList.length + n.toList.length + (h + 1) * (2 ^ b - 1) ∧
    (n.toList.length = 2 ^ (b * (h + 1)) → (2 ^ b - 1) * t.size + 1 ≤ (2 ^ b - 1) * n.toList.length + n.toList.length) := by
  have hB := Nat.two_pow_pos b
  induction h generalizing t n with
  | zero =>
    obtain ⟨xs, -, rfl, hf⟩ := hv
    rw [ATree.size_eq, sum_vecDec hf, VNode.toList, Nat.mul_add]
    refine ⟨by omega, fun h => ?_⟩
    simp only [Nat.zero_add, Nat.mul_one] at h ⊢
    omega
  | succ h ih =>
    obtain ⟨ns, -, rfl, hf⟩ := hv
    obtain ⟨h1, h2, h3⟩ := hn
    have e : (VNode.branch ns).toList = (ns.map VNode.toList).flatten := by rw [VNode.toList_branch]
    obtain ⟨g1, g2⟩ := chunk_weight (M := 2 ^ b - 1) (e := (h + 1) * (2 ^ b - 1)) h1 rfl hf fun t n ht hn => ih t n ht (h3 n hn)
    rw [e, ATree.size_eq, Nat.mul_add]
    refine ⟨by rw [Nat.add_mul (h + 1)]; omega, fun hx => ?_⟩
    have hF := Nat.two_pow_pos (b * (h + 1))
    rw [Rpds.pow_split b (h + 1)] at hx
    have h4 := h1.flatten_le
    have h5 : 2 ^ b ≤ (ns.map VNode.toList).length := Nat.le_of_mul_le_mul_left (hx ▸ h4) hF
    rw [List.length_map] at h5
    have h6 : (ns.map VNode.toList).length = 2 ^ b := by rw [List.length_map]; omega
    have := g2 (by rw [hx, h6])
    omega

/-- A vector takes one cell per element, and one for each node: all but one node of each level are full. -/
theorem VecIs.weight_le {Ar : Arch} {hv : HVector} {a : Nat × List T} {ρ : List (Item (VLabel T))} (h : VecIs Ar hv a ρ) :
    weight ρ ≤ a.2.length + a.2.length / (2 ^ hv.bits - 1) + Nat.log2 a.2.length / hv.bits + 1 := by
  obtain ⟨v, h, ⟨t, rfl, rfl, h1⟩, h2, -⟩ := h
  have hb := h2.bits_pos
  have hM : 0 < 2 ^ v.bits - 1 := by
    have : 2 ^ 1 ≤ 2 ^ v.bits := Nat.pow_le_pow_right (by decide) hb
    omega
  have hh : h ≤ Nat.log2 a.2.length / v.bits := by
    rw [Nat.le_div_iff_mul_le hb, Nat.mul_comm]
    rcases h2.tight with rfl | h3
    · simp
    · exact (Nat.le_log2 (by have := Nat.two_pow_pos (v.bits * h); omega)).2 (Nat.le_of_lt h3)
  have key := (IsVC.weight h t v.root h1 h2.ok).1
  rw [h2.items] at key
  rw [weight_ptr]
  have : t.size - (a.2.length + (h + 1)) ≤ a.2.length / (2 ^ v.bits - 1) := by
    rw [Nat.le_div_iff_mul_le hM, Nat.mul_comm, Nat.mul_sub, Nat.mul_add]
    rw [Nat.mul_comm (h + 1)] at key
    omega
  show t.size ≤ a.2.length + a.2.length / (2 ^ v.bits - 1) + Nat.log2 a.2.length / v.bits + 1
  omega

end

/-! ### Red-black trees -/

section
variable {K V Q : Type}

theorem IsT.weight {o : Option (ATree (RLabel K V))} {v : RBTree K V} (h : IsT o v) :
    (o.toList.map ATree.size).sum = 2 * v.toList.length := by
  induction h with
  | none => rfl
  | @some a te tl tr e c l r he _ _ ihl ihr =>
    have : te.size = 1 := by rw [ATree.size_eq, he.2]; rfl
    simp only [Option.toList_some, List.map_cons, List.map_nil, List.sum_cons, List.sum_nil, treeOf, ATree.size, ATree.size_go,
      List.map_append, List.sum_append, RBTree.toList, List.length_append, List.length_cons, ihl, ihr, this]
    omega

/-- A red-black tree takes two cells per entry. -/
theorem RBIs.weight_eq {o : OrdKeys K Q} {hm : HRBMap} {m : RBMap K V} {l : List (K × V)} {ρ : List (Item (RLabel K V))} (h : RBIs o hm m ρ)
    (hl : m.Rep o l) : Heap.weight ρ = 2 * l.length := by
  obtain ⟨⟨⟨t, -, rfl, h1⟩, -⟩, -⟩ := h
  rw [weight_optPtr, h1.weight, hl.length]

end

/-! ### Hash tries -/

namespace HT
variable {H K V Q : Type}

theorem size_entIs {t : ATree (HLabel K V)} {x : HEntry K V} (h : entIs t x) : t.size = 1 := by rw [ATree.size_eq, h.2]; rfl

theorem size_ewhIs (t : ATree (HLabel K V)) (x : HEntry K V) (h : ewhIs t x) : t.size ≤ 2 := by
  obtain ⟨te, -, h1, h2⟩ := h
  rw [ATree.size_eq, h1]
  simp [size_entIs h2]

theorem sum_children {Ar : Arch} {k d c : Nat} {is : List Nat} {arr : List (HNode K V)} {ts : List (ATree (HLabel K V))}
    (hc : List.Forall₂ (HNode.Child Ar k true d) is arr) (hn : List.Forall₂ (fun t n => IsN n t) ts arr)
    (hk : ∀ n ∈ arr, ∀ t : ATree (HLabel K V), IsN n t → n.OK Ar k true (d + 1) → n.Compressed → n.entries ≠ [] → 2 * t.size ≤ n.entries.length * c) :
    2 * (ts.map ATree.size).sum ≤ (arr.flatMap HNode.entries).length * c := by
  induction hn generalizing is with
  | nil => simp
  | @cons t n ts ns h1 h2 ih =>
    cases hc with
    | cons g1 g2 =>
      have e1 := hk n (by simp) t h1 g1.ok (g1.compressed rfl) g1.nonempty
      have e2 := ih g2 fun n hn => hk n (by simp [hn])
      simp only [List.map_cons, List.sum_cons, List.flatMap_cons, List.length_append, Nat.add_mul]
      omega

/-- Below the root every branch has at least two entries. -/
theorem IsN.weight {Ar : Arch} {k : Nat} (hk : 0 < k) (n : HNode K V) : ∀ (d : Nat) (t : ATree (HLabel K V)), IsN n t → n.OK Ar k true d →
    n.Compressed → n.entries ≠ [] → 2 * t.size ≤ n.entries.length * (9 + (63 / k + 1 - d)) := by
  induction n using HNode.induct with
  | hl b =>
    intro d t hn hok _ _
    refine Nat.le_trans ?_ (Nat.mul_le_mul_left _ (Nat.le_add_right 9 _))
    rw [ATree.size_eq, HNode.entries_leaf]
    cases b with
    | single x =>
      obtain ⟨-, te, h1, h2⟩ := hn
      rw [h1]
      simp [size_entIs h2, Bucket.entries]
    | collision r =>
      obtain ⟨th, tl, -, h1, h2, h3, -⟩ := hn
      obtain ⟨-, -, h4⟩ := hok
      have g1 := h2.weight_le size_ewhIs
      have g2 := h3.weight_le size_ewhIs
      rw [h1, List.map_append, List.sum_append, Bucket.entries]
      have : (if r.last.isSome then 2 else 0) ≤ 2 := by split <;> omega
      omega
  | hb bm arr ih =>
    intro d t hn hok hc _
    obtain ⟨-, hn⟩ := hn
    rw [isNs_iff] at hn
    rw [HNode.ok_branch] at hok
    have h2 : 2 ≤ (HNode.branch bm arr).entries.length := by
      rcases hc with ⟨b, h⟩ | h
      · cases h
      · exact h
    have hd : d ≤ 63 / k := by
      rw [Nat.le_div_iff_mul_le hk]
      have := hok.1
      omega
    have := sum_children hok.2 hn fun n hm t h1 h2 h3 h4 => ih n hm (d + 1) t h1 h2 h3 h4
    dsimp only at this
    rw [HNode.entries_branch] at h2 ⊢
    rw [ATree.size_eq, show 9 + (63 / k + 1 - d) = 9 + (63 / k + 1 - (d + 1)) + 1 by omega, Nat.mul_add _ _ 1]
    omega

/-- A hash trie takes at most five cells per entry, one branch at each level for every two entries, and the root. -/
theorem HTIs.weight_le {Ar : Arch} {o : HashKeys H K Q} {k : Nat} {hm : HHTMap H} {m : HTMap H K V} {l : List (K × V)}
    {ρ : List (Item (HLabel K V))} (h : HTIs Ar o k hm m ρ) (hl : m.Rep Ar o k l) :
    weight ρ ≤ l.length * (63 / k + 9) / 2 + 1 := by
  obtain ⟨⟨⟨t, -, rfl, hn⟩, -, -, -⟩, -⟩ := h
  have hok := hl.ok
  have hk := hl.conf.pos
  have hlen : m.root.entries.length = l.length := by rw [← hl.perm.length_eq, List.length_map]
  rw [weight_ptr]
  suffices 2 * t.size ≤ l.length * (63 / k + 9) + 2 by omega
  rw [← hlen]
  generalize m.root = n at hn hok
  cases n with
  | leaf b =>
    cases b with
    | single x =>
      obtain ⟨-, te, h1, h2⟩ := hn
      rw [ATree.size_eq, h1]
      simp [size_entIs h2, Bucket.entries]
    | collision r =>
      have := hok.1
      omega
  | branch bm arr =>
    obtain ⟨-, hn⟩ := hn
    rw [isNs_iff] at hn
    rw [HNode.ok_branch] at hok
    have := sum_children hok.2 hn fun n _ t h1 h2 h3 h4 => IsN.weight hk n (0 + 1) t h1 h2 h3 h4
    dsimp only at this
    rw [HNode.entries_branch, ATree.size_eq]
    rw [show 9 + (63 / k + 1 - (0 + 1)) = 63 / k + 9 by rw [Nat.zero_add, Nat.add_sub_cancel, Nat.add_comm]] at this
    omega

end HT
end Heap
end Rpds
