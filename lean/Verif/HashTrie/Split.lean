import Batteries.Data.List.Perm
import Verif.HashTrie.Rayon
import Verif.HashTrie.Shape
/-
Splitting the work of a parallel iteration: every split makes progress, and splitting ends.
-/
set_option autoImplicit false
namespace Rpds
open Spec

namespace Producer
variable {K V : Type} {A : Arch} {k : Nat} {P : HEntry K V → Prop}

/-- The entries of a piece. -/
def ents : Producer K V → List (HEntry K V)
  | .branch nodes => nodes.flatMap HNode.entries
  | .leaf b => b.entries

theorem items_eq (p : Producer K V) : p.items = p.ents.map HTMap.pair := by cases p <;> rfl

/-- A well-formed node at depth `d`, with what the path to it says about the hashes under it. -/
structure At (A : Arch) (k : Nat) (P : HEntry K V → Prop) (d : Nat) (n : HNode K V) : Prop where
  ok : n.OK A k true d
  path : ∀ e ∈ n.entries, ∀ e' ∈ n.entries, ∀ j, j < d → idx k j e.keyHash = idx k j e'.keyHash
  all : ∀ e ∈ n.entries, P e

/-- Splits that are enough below depth `d`. -/
def splits (k d : Nat) : Nat := 63 + k - d * k

/-- What holds of the pieces that splitting a map gives; `s` splits are enough to get down to single buckets. -/
def Shape (A : Arch) (k : Nat) (P : HEntry K V → Prop) (s : Nat) : Producer K V → Prop
  | .leaf b => ∃ d, At A k P d (.leaf b)
  | .branch nodes => nodes = [] ∨ 2 ≤ nodes.length ∧ ∃ d j, nodes.length ≤ 2 ^ j ∧ j + splits k (d + 1) ≤ s ∧
      (∀ n ∈ nodes, At A k P (d + 1) n ∧ n.entries ≠ []) ∧
      nodes.Pairwise fun n m => ∀ e ∈ n.entries, ∀ e' ∈ m.entries, e.keyHash ≠ e'.keyHash

theorem Shape.mono {s s' : Nat} (h : s ≤ s') {p : Producer K V} (hp : p.Shape A k P s) : p.Shape A k P s' := by
  cases p with
  | leaf b => exact hp
  | branch nodes =>
    rcases hp with hp | ⟨h1, d, j, h2, h3, h4⟩
    · exact .inl hp
    · exact .inr ⟨h1, d, j, h2, by omega, h4⟩

theorem nodup_length {is : List Nat} {n : Nat} (hn : is.Nodup) (hl : ∀ i ∈ is, i < n) : is.length ≤ n := by
  have := (List.subperm_of_subset hn (fun i hi => List.mem_range.2 (hl i hi))).length_le
  simpa using this

theorem forall₂_mem_left {α β : Type} {R : α → β → Prop} {xs : List α} {ys : List β} (h : List.Forall₂ R xs ys) {x : α} (hx : x ∈ xs) :
    ∃ y ∈ ys, R x y := by
  induction h with
  | nil => simp at hx
  | cons h _ ih =>
    rcases List.mem_cons.1 hx with rfl | hx
    · exact ⟨_, by simp, h⟩
    · obtain ⟨y, hy, hr⟩ := ih hx
      exact ⟨y, by simp [hy], hr⟩

theorem children_at {bm d : Nat} {arr : List (HNode K V)} (h : At A k P d (.branch bm arr)) :
    (∀ c ∈ arr, At A k P (d + 1) c ∧ c.entries ≠ []) ∧ arr.length ≤ 2 ^ k ∧
      arr.Pairwise fun n m => ∀ e ∈ n.entries, ∀ e' ∈ m.entries, e.keyHash ≠ e'.keyHash := by
  have h0 := h.ok
  rw [HNode.ok_branch] at h0
  have h0' : List.Forall₂ (HNode.Child A k true d) (SparseArray.bits A bm) arr := h0.2
  refine ⟨?_, ?_, ?_⟩
  · intro c hc
    obtain ⟨i, _, hi⟩ := SparseArray.forall₂_mem h0.2 hc
    have hsub : ∀ e ∈ c.entries, e ∈ (HNode.branch bm arr).entries := fun e he => by
      rw [HNode.entries_branch, List.mem_flatMap]; exact ⟨c, hc, he⟩
    refine ⟨⟨hi.ok, ?_, fun e he => h.all e (hsub e he)⟩, hi.nonempty⟩
    intro e he e' he' j hj
    rcases Nat.lt_or_ge j d with h1 | h1
    · exact h.path e (hsub e he) e' (hsub e' he') j h1
    · obtain rfl : j = d := by omega
      rw [hi.pos e he, hi.pos e' he']
  · rw [← SparseArray.forall₂_length h0']
    apply nodup_length (SparseArray.bits_nodup A bm)
    intro i hi
    obtain ⟨c, _, hc⟩ := forall₂_mem_left h0' hi
    obtain ⟨e, he⟩ := List.exists_mem_of_ne_nil _ hc.nonempty
    rw [← hc.pos e he]; exact idx_lt _ _ _
  · have hb := SparseArray.bits_nodup A bm
    generalize SparseArray.bits A bm = is at h0' hb
    clear h0 h
    induction h0' with
    | nil => exact .nil
    | cons hi hr ih =>
      rw [List.nodup_cons] at hb
      refine .cons ?_ (ih hb.2)
      intro m hm e he e' he' hh
      obtain ⟨i', hi', hc⟩ := SparseArray.forall₂_mem hr hm
      apply hb.1
      rw [← hi.pos e he, hh, hc.pos e' he']; exact hi'

theorem fromNode_shape (hk : 1 ≤ k) (n : HNode K V) :
    ∀ d, At A k P d n → (fromNode n).Shape A k P (splits k d) ∧ (fromNode n).ents = n.entries := by
  induction n using HNode.induct with
  | hl b => intro d h; rw [fromNode]; exact ⟨⟨d, h⟩, by simp [ents]⟩
  | hb bm arr ih =>
    intro d h
    obtain ⟨h1, h2, h3⟩ := children_at h
    have hd := h.ok
    rw [HNode.ok_branch] at hd
    have hs : k + splits k (d + 1) ≤ splits k d := by unfold splits; rw [Nat.add_mul]; omega
    rw [fromNode]
    match arr, ih, h1, h2, h3 with
    | [], _, _, _, _ => rw [fromNodes]; exact ⟨.inl rfl, by simp [ents]⟩
    | [c], ih, h1, _, _ =>
      rw [fromNodes]
      have := ih c (by simp) _ (h1 c (by simp)).1
      exact ⟨this.1.mono (by omega), by rw [this.2]; simp⟩
    | c1 :: c2 :: cs, _, h1, h2, h3 =>
      rw [fromNodes]
      exact ⟨.inr ⟨by simp, d, k, h2, hs, h1, h3⟩, by simp [ents]⟩

theorem fromNodes_shape (hk : 1 ≤ k) {ns : List (HNode K V)} {s d j : Nat} (h0 : ns ≠ []) (h1 : ns.length ≤ 2 ^ j)
    (h2 : j + splits k (d + 1) ≤ s) (h3 : ∀ n ∈ ns, At A k P (d + 1) n ∧ n.entries ≠ [])
    (h4 : ns.Pairwise fun n m => ∀ e ∈ n.entries, ∀ e' ∈ m.entries, e.keyHash ≠ e'.keyHash) :
    (fromNodes ns).Shape A k P s ∧ (fromNodes ns).ents = ns.flatMap HNode.entries := by
  match ns, h0, h1, h3, h4 with
  | [], h0, _, _, _ => exact absurd rfl h0
  | [c], _, _, h3, _ =>
    rw [fromNodes]
    have := fromNode_shape hk c _ (h3 c (by simp)).1
    exact ⟨this.1.mono (by omega), by rw [this.2]; simp⟩
  | c1 :: c2 :: cs, _, h1, h3, h4 =>
    rw [fromNodes]
    exact ⟨.inr ⟨by simp, d, j, h1, h2, h3, h4⟩, by simp [ents]⟩

theorem flatMap_entries_ne {ns : List (HNode K V)} (h0 : ns ≠ []) (h : ∀ n ∈ ns, n.entries ≠ []) : ns.flatMap HNode.entries ≠ [] := by
  cases ns with
  | nil => exact absurd rfl h0
  | cons n ns =>
    rw [List.flatMap_cons]
    intro he
    exact h n (by simp) (List.append_eq_nil_iff.1 he).1

/-- A split divides the entries in two parts, both with entries, and no hash occurs in both. -/
theorem Shape.split (hk : 1 ≤ k) {s : Nat} {p a b : Producer K V} (h : p.Shape A k P s) (hs : p.split = (a, some b)) :
    1 ≤ s ∧ a.Shape A k P (s - 1) ∧ b.Shape A k P (s - 1) ∧ a.ents ++ b.ents = p.ents ∧ a.ents ≠ [] ∧ b.ents ≠ [] ∧
      ∀ e ∈ a.ents, ∀ e' ∈ b.ents, e.keyHash ≠ e'.keyHash := by
  cases p with
  | leaf b => simp [Producer.split] at hs
  | branch nodes =>
    rcases h with rfl | ⟨h1, d, j, h2, h3, h4, h5⟩
    · simp [Producer.split] at hs
    · simp only [Producer.split] at hs
      split at hs
      · have hj : 1 ≤ j := by
          rcases Nat.eq_zero_or_pos j with rfl | hj
          · simp at h2; omega
          · exact hj
        obtain ⟨i, rfl⟩ : ∃ i, j = i + 1 := ⟨j - 1, by omega⟩
        rw [Nat.pow_succ] at h2
        obtain ⟨rfl, rfl⟩ : _ ∧ _ := by simpa using hs
        have ht : nodes.take (nodes.length / 2) ≠ [] := by
          intro he; have := congrArg List.length he; simp only [List.length_take, List.length_drop, List.length_nil] at this; omega
        have hd : nodes.drop (nodes.length / 2) ≠ [] := by
          intro he; have := congrArg List.length he; simp only [List.length_take, List.length_drop, List.length_nil] at this; omega
        have h6 := List.take_append_drop (nodes.length / 2) nodes
        have h7 := h5
        rw [← h6, List.pairwise_append] at h7
        have g1 := fromNodes_shape (s := s - 1) (j := i) hk ht (by rw [List.length_take]; omega) (by omega)
          (fun n hn => h4 n (List.mem_of_mem_take hn)) h7.1
        have g2 := fromNodes_shape (s := s - 1) (j := i) hk hd (by rw [List.length_drop]; omega) (by omega)
          (fun n hn => h4 n (List.mem_of_mem_drop hn)) h7.2.1
        refine ⟨by omega, g1.1, g2.1, ?_, ?_, ?_, ?_⟩
        · rw [g1.2, g2.2, ← List.flatMap_append, h6]; rfl
        · rw [g1.2]; exact flatMap_entries_ne ht fun n hn => (h4 n (List.mem_of_mem_take hn)).2
        · rw [g2.2]; exact flatMap_entries_ne hd fun n hn => (h4 n (List.mem_of_mem_drop hn)).2
        · rw [g1.2, g2.2]
          intro e he e' he'
          obtain ⟨n, hn, hen⟩ := List.mem_flatMap.1 he
          obtain ⟨n', hn', hen'⟩ := List.mem_flatMap.1 he'
          exact h7.2.2 n hn n' hn' e hen e' hen'
      · simp at hs

/-- A piece that cannot be split is left as it is, and its entries all have the same hash. -/
theorem Shape.whole (hk : 1 ≤ k) {s : Nat} {p a : Producer K V} (h : p.Shape A k P s) (hs : p.split = (a, none)) :
    a = p ∧ ∀ e ∈ p.ents, ∀ e' ∈ p.ents, e.keyHash = e'.keyHash := by
  cases p with
  | leaf b =>
    refine ⟨by simpa [Producer.split] using hs.symm, ?_⟩
    obtain ⟨d, hd⟩ := h
    cases b with
    | single e => simp [ents, Bucket.entries]
    | collision l =>
      have h1 := hd.ok
      rw [HNode.OK] at h1
      intro e he e' he'
      exact HNode.hash_eq_of_idx hk h1.1 (hd.path e (by simpa [ents] using he) e' (by simpa [ents] using he'))
  | branch nodes =>
    rcases h with rfl | ⟨h1, -⟩
    · refine ⟨by simpa [Producer.split] using hs.symm, by simp [ents]⟩
    · simp only [Producer.split] at hs
      split at hs
      · simp at hs
      · omega

theorem Shape.all {s : Nat} {p : Producer K V} (h : p.Shape A k P s) : ∀ e ∈ p.ents, P e := by
  cases p with
  | leaf b => obtain ⟨d, hd⟩ := h; intro e he; exact hd.all e (by simpa [ents] using he)
  | branch nodes =>
    rcases h with rfl | ⟨-, d, j, -, -, h4, -⟩
    · simp [ents]
    · intro e he
      obtain ⟨n, hn, hen⟩ := List.mem_flatMap.1 he
      exact (h4 n hn).1.all e hen

theorem pieces_shape (hk : 1 ≤ k) (plan : Plan) : ∀ {s : Nat} {p : Producer K V}, p.Shape A k P s →
    ∀ q ∈ pieces plan p, q.Shape A k P s := by
  induction plan with
  | fold => intro s p h q hq; simp only [pieces, List.mem_singleton] at hq; rw [hq]; exact h
  | split l r ihl ihr =>
    intro s p h q hq
    simp only [pieces] at hq
    cases hs : p.split with
    | mk a ob =>
      rw [hs] at hq
      cases ob with
      | none =>
        simp only [List.mem_singleton] at hq
        rw [hq, (h.whole hk hs).1]; exact h
      | some b =>
        obtain ⟨-, ha, hb, -⟩ := h.split hk hs
        rcases List.mem_append.1 hq with hq | hq
        · exact (ihl ha q hq).mono (by omega)
        · exact (ihr hb q hq).mono (by omega)

/-- Splitting gives at most as many pieces as there are entries (but one piece at least). -/
theorem pieces_length (hk : 1 ≤ k) (plan : Plan) : ∀ {s : Nat} {p : Producer K V}, p.Shape A k P s →
    (pieces plan p).length ≤ max 1 p.ents.length := by
  induction plan with
  | fold => intro s p h; simp [pieces]; omega
  | split l r ihl ihr =>
    intro s p h
    simp only [pieces]
    cases hs : p.split with
    | mk a ob =>
      cases ob with
      | none => simp; omega
      | some b =>
        obtain ⟨-, ha, hb, h1, h2, h3, -⟩ := h.split hk hs
        have := ihl ha
        have := ihr hb
        have := List.length_pos_iff.2 h2
        have := List.length_pos_iff.2 h3
        simp only [← h1, List.length_append]
        omega

/-- Try to split `n` times, all pieces. -/
def Plan.full : Nat → Plan
  | 0 => .fold
  | n + 1 => .split (full n) (full n)

/-- After enough splits no piece can be split. -/
theorem pieces_full (hk : 1 ≤ k) (s : Nat) : ∀ {p : Producer K V}, p.Shape A k P s → ∀ q ∈ pieces (Plan.full s) p, q.split.2 = none := by
  induction s with
  | zero =>
    intro p h q hq
    simp only [Plan.full, pieces, List.mem_singleton] at hq
    subst hq
    cases hs : q.split with
    | mk a ob =>
      cases ob with
      | none => rfl
      | some b => have := (h.split hk hs).1; omega
  | succ s ih =>
    intro p h q hq
    simp only [Plan.full, pieces] at hq
    cases hs : p.split with
    | mk a ob =>
      rw [hs] at hq
      cases ob with
      | none =>
        simp only [List.mem_singleton] at hq
        rw [hq, (h.whole hk hs).1, hs]
      | some b =>
        obtain ⟨-, ha, hb, -⟩ := h.split hk hs
        rcases List.mem_append.1 hq with hq | hq
        · exact ih ha q hq
        · exact ih hb q hq

/-- The pieces have no hash in common. -/
theorem pieces_apart (hk : 1 ≤ k) (plan : Plan) : ∀ {s : Nat} {p : Producer K V}, p.Shape A k P s →
    ((pieces plan p).Pairwise fun q q' => ∀ e ∈ q.ents, ∀ e' ∈ q'.ents, e.keyHash ≠ e'.keyHash) ∧
      ∀ q ∈ pieces plan p, ∀ e ∈ q.ents, e ∈ p.ents := by
  induction plan with
  | fold => intro s p h; simp [pieces]
  | split l r ihl ihr =>
    intro s p h
    simp only [pieces]
    cases hs : p.split with
    | mk a ob =>
      cases ob with
      | none => rw [(h.whole hk hs).1]; simp
      | some b =>
        obtain ⟨-, ha, hb, h1, -, -, h4⟩ := h.split hk hs
        obtain ⟨l1, l2⟩ := ihl ha
        obtain ⟨r1, r2⟩ := ihr hb
        refine ⟨List.pairwise_append.2 ⟨l1, r1, fun q hq q' hq' e he e' he' => h4 e (l2 q hq e he) e' (r2 q' hq' e' he')⟩, ?_⟩
        intro q hq e he
        rw [← h1, List.mem_append]
        rcases List.mem_append.1 hq with hq | hq
        · exact .inl (l2 q hq e he)
        · exact .inr (r2 q hq e he)

end Producer
end Rpds
