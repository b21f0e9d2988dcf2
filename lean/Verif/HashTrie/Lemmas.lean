import Verif.HashTrie.Model
import Verif.List.Lemmas
import Verif.Spec.Map
/-
What the node operations of the hash trie do to the entries of a node.
-/
set_option autoImplicit false
namespace Rpds
open Spec

/-- Laws of `Eq`, `Hash`, `Borrow`: equality is an equivalence, borrowing keeps equality and hash, equal keys have equal
hashes. -/
structure HashKeys.Lawful {H K Q : Type} (o : HashKeys H K Q) : Prop where
  equivQ : LawfulEquiv o.eqQ
  eq_borrow : ∀ a b, o.eqK a b = o.eqQ (o.borrow a) (o.borrow b)
  hash_borrow : ∀ h k, o.hashK h k = o.hashQ h (o.borrow k)
  hash_eq : ∀ h a b, o.eqQ a b = true → o.hashQ h a = o.hashQ h b

namespace HashKeys.Lawful
variable {H K Q : Type} {o : HashKeys H K Q} (lo : o.Lawful)
include lo

theorem equivK : LawfulEquiv o.eqK where
  refl a := by rw [lo.eq_borrow]; exact lo.equivQ.refl _
  symm a b h := by rw [lo.eq_borrow] at *; exact lo.equivQ.symm _ _ h
  trans a b c h h' := by rw [lo.eq_borrow] at *; exact lo.equivQ.trans _ _ _ h h'

theorem hashK_eq (h : H) (a b : K) (e : o.eqK a b = true) : o.hashK h a = o.hashK h b := by
  rw [lo.hash_borrow, lo.hash_borrow]; rw [lo.eq_borrow] at e; exact lo.hash_eq h _ _ e

theorem self : o.self.Lawful where
  equivQ := lo.equivK
  eq_borrow _ _ := rfl
  hash_borrow _ _ := rfl
  hash_eq h a b e := lo.hashK_eq h a b e

theorem keyLaws : KeyLaws o.eqK o.eqKQ where
  equiv := lo.equivK
  hits_congr k k' q h := by
    rw [lo.eq_borrow] at h
    simp only [HashKeys.eqKQ]
    cases h1 : o.eqQ (o.borrow k) q with
    | true => exact (lo.equivQ.trans _ _ _ (lo.equivQ.symm _ _ h) h1).symm
    | false =>
      cases h2 : o.eqQ (o.borrow k') q with
      | true => rw [lo.equivQ.trans _ _ _ h h2] at h1; cases h1
      | false => rfl
  hits_inj k k' q h1 h2 := by
    rw [lo.eq_borrow]
    exact lo.equivQ.trans _ _ _ h1 (lo.equivQ.symm _ _ h2)

end HashKeys.Lawful

theorem self_eqKQ {H K Q : Type} (o : HashKeys H K Q) (a b : K) : o.self.eqKQ a b = o.eqK a b := rfl

/-! ### Lists in collision buckets -/

section lists
variable {T : Type} {p : T → Bool}

theorem listRemoveLoop_spec (fuel : Nat) (l : RList T) (xs before : List T) (h : l.Rep xs) (hf : xs.length < fuel) :
    ∃ l' pre post, listRemoveLoop p fuel l before = .ok (xs.find? p, l', before ++ pre) ∧ l'.Rep post ∧
      pre ++ post = xs.eraseP p := by
  induction xs generalizing fuel l before with
  | nil =>
    obtain ⟨n, rfl⟩ : ∃ n, fuel = n + 1 := ⟨fuel - 1, by simp at hf; omega⟩
    exact ⟨l, [], [], by simp [listRemoveLoop, h.isEmpty], h, rfl⟩
  | cons x xs ih =>
    obtain ⟨n, rfl⟩ : ∃ n, fuel = n + 1 := ⟨fuel - 1, by omega⟩
    obtain ⟨l', e1, e2⟩ := h.dropFirstMut_cons
    cases hp : p x with
    | true => exact ⟨l', [], xs, by simp [listRemoveLoop, h.isEmpty, h.first, e1, hp], e2, by simp [hp]⟩
    | false =>
      obtain ⟨l'', pre, post, h1, h2, h3⟩ := ih n l' (before ++ [x]) e2 (by simpa using hf)
      exact ⟨l'', x :: pre, post, by simp [listRemoveLoop, h.isEmpty, h.first, e1, hp, h1], h2, by simp [hp, h3]⟩

theorem listRemoveFirst_spec {l : RList T} {xs : List T} (h : l.Rep xs) :
    ∃ l', listRemoveFirst p l = .ok (xs.find? p, l') ∧ l'.Rep (xs.eraseP p) := by
  obtain ⟨l', pre, post, h1, h2, h3⟩ := listRemoveLoop_spec (p := p) (l.len + 1) l xs [] h (by simp [h.len])
  refine ⟨_, by simp only [listRemoveFirst, h1, Res.ok_bind]; rfl, ?_⟩
  have := RList.rep_foldl_push pre.reverse post l' h2
  simpa [h3] using this

theorem iterFind_spec {l : RList T} {xs : List T} (h : l.Rep xs) :
    iterFind ListIter.step p (l.len + 1) l.iter = .ok (xs.find? p) := by
  have key : ∀ (fuel : Nat) (it : ListIter T) (xs : List T), it.Rep xs → xs.length < fuel →
      iterFind ListIter.step p fuel it = .ok (xs.find? p) := by
    intro fuel
    induction fuel with
    | zero => intro _ _ _ h; omega
    | succ n ih =>
      intro it xs h hf
      cases xs with
      | nil => obtain ⟨it', e, _⟩ := h.step_nil; simp [iterFind, e]
      | cons x xs =>
        obtain ⟨it', e, h'⟩ := h.step_cons
        cases hp : p x with
        | true => simp [iterFind, e, hp]
        | false => simp [iterFind, e, hp, ih it' xs h' (by simpa using hf)]
  exact key _ _ _ h.iter (by simp [h.len])

theorem firstMutSet_spec {l : RList T} {x y : T} {xs : List T} (h : l.Rep (x :: y :: xs)) (f : T → T) :
    ∃ l', l.firstMutSet f = some l' ∧ l'.Rep (f x :: y :: xs) := by
  obtain ⟨n, hn, hxs⟩ := Link.toList_eq_cons h.head
  exact ⟨_, by rw [RList.firstMutSet, hn], ⟨by simp [Link.toList, hxs], by simp [h.last], by simp [h.length]⟩⟩

end lists

/-! ### Hash fragments -/

/-- The fragment of the hash used at depth `d` when the degree is `2 ^ k`. -/
def idx (k d : Nat) (h : UInt64) : Nat := (h.toNat >>> (d * k)) &&& (2 ^ k - 1)

theorem idx_lt (k d : Nat) (h : UInt64) : idx k d h < 2 ^ k := by
  have := Nat.two_pow_pos k
  have := Nat.and_le_right (n := h.toNat >>> (d * k)) (m := 2 ^ k - 1)
  unfold idx; omega

theorem isPow2_pow {k : Nat} (h : k ≤ 7) : isPow2 (2 ^ k) = true := by
  have : ∀ k, k < 8 → isPow2 (2 ^ k) = true := by decide
  exact this k (by omega)

theorem trailingZeros8_pow {k : Nat} (h : k ≤ 7) : trailingZeros8 (2 ^ k) = k := by
  have : ∀ k, k < 8 → trailingZeros8 (2 ^ k) = k := by decide
  exact this k (by omega)

theorem isPow2_iff {d : Nat} (h : d < 256) : isPow2 d = true ↔ ∃ k, k ≤ 7 ∧ d = 2 ^ k := by
  have : ∀ d, d < 256 → isPow2 d = true → ∃ k, k < 8 ∧ d = 2 ^ k := by decide +kernel
  constructor
  · intro hp
    obtain ⟨k, h1, h2⟩ := this d h hp
    exact ⟨k, by omega, h2⟩
  · rintro ⟨k, h1, rfl⟩; exact isPow2_pow h1

/-- A valid configuration: the degree is `2 ^ k` with `k ≥ 1`, and fits the machine word. -/
structure HConf (A : Arch) (k : Nat) : Prop where
  pos : 1 ≤ k
  small : k ≤ 7
  fits : 2 ^ k ≤ A.W

theorem HConf.idx_lt {A : Arch} {k : Nat} (c : HConf A k) (d : Nat) (h : UInt64) : idx k d h < A.W :=
  Nat.lt_of_lt_of_le (Rpds.idx_lt k d h) c.fits

theorem indexFromHash_eq {A : Arch} {k d : Nat} (hk : k ≤ 7) (hd : d ≤ 64) (h : UInt64) :
    indexFromHash A h d (2 ^ k) = .ok (if d * k < 64 then some (idx k d h) else none) := by
  have h0 : d * k ≤ 64 * 7 := Nat.mul_le_mul hd hk
  have h1 : d % 2 ^ 32 = d := Nat.mod_eq_of_lt (by omega)
  have h2 : csub (2 ^ k) 1 = .ok (2 ^ k - 1) := csub_ok Nat.one_le_two_pow
  simp only [indexFromHash, isPow2_pow hk, Arch.debugAssert_true, trailingZeros8_pow hk, h1, Res.ok_bind]
  rw [Arch.umul_ok (by simp only; omega)]
  simp only [Res.ok_bind, h2, idx]
  split <;> simp

/-! ### Entries of a node -/

section entries
variable {K V : Type}

/-- The entries of a bucket. -/
def Bucket.entries : Bucket K V → List (HEntry K V)
  | .single e => [e]
  | .collision l => l.head.toList

mutual
/-- The entries of a node, in iteration order. -/
def HNode.entries : HNode K V → List (HEntry K V)
  | .branch _ arr => HNode.entriesL arr
  | .leaf b => b.entries
/-- The entries of a list of nodes. -/
def HNode.entriesL : List (HNode K V) → List (HEntry K V)
  | [] => []
  | n :: ns => n.entries ++ HNode.entriesL ns
end

theorem HNode.entriesL_eq (ns : List (HNode K V)) : HNode.entriesL ns = ns.flatMap HNode.entries := by
  induction ns with
  | nil => rfl
  | cons n ns ih => simp [HNode.entriesL, ih]

@[simp] theorem HNode.entries_branch (bm : Nat) (arr : List (HNode K V)) :
    (HNode.branch bm arr).entries = arr.flatMap HNode.entries := by
  rw [HNode.entries, HNode.entriesL_eq]

@[simp] theorem HNode.entries_leaf (b : Bucket K V) : (HNode.leaf b).entries = b.entries := by rw [HNode.entries]

/-- Induction over nodes. -/
theorem HNode.induct {P : HNode K V → Prop} (hb : ∀ bm arr, (∀ c ∈ arr, P c) → P (.branch bm arr)) (hl : ∀ b, P (.leaf b)) :
    ∀ n, P n := by
  intro n
  refine HNode.rec (motive_1 := P) (motive_2 := fun arr => ∀ c ∈ arr, P c) ?_ ?_ ?_ ?_ n
  · intro bm arr h; exact hb bm arr h
  · intro b; exact hl b
  · intro c hc; simp at hc
  · intro c cs h1 h2 d hd
    rcases List.mem_cons.1 hd with rfl | hd
    · exact h1
    · exact h2 d hd

/-- The node is a leaf or has at least two entries under it. -/
def HNode.Compressed (n : HNode K V) : Prop := (∃ b, n = .leaf b) ∨ 2 ≤ n.entries.length

mutual
/-- Well-formed node at depth `d`: a branch is not at maximum depth and its children are at the positions given by the hashes of
their entries, are not empty, and (if `z`) are compressed; a collision is at maximum depth and has at least two entries. -/
def HNode.OK (A : Arch) (k : Nat) (z : Bool) : HNode K V → Nat → Prop
  | .branch bm arr, d => d * k < 64 ∧ HNode.OKs A k z arr (SparseArray.bits A bm) d
  | .leaf (.single _), _ => True
  | .leaf (.collision l), d => 64 ≤ d * k ∧ l.Rep l.head.toList ∧ 2 ≤ l.head.toList.length
/-- Children at the positions given. -/
def HNode.OKs (A : Arch) (k : Nat) (z : Bool) : List (HNode K V) → List Nat → Nat → Prop
  | [], [], _ => True
  | c :: cs, i :: is, d =>
    (HNode.OK A k z c (d + 1) ∧ c.entries ≠ [] ∧ (z = true → c.Compressed) ∧ ∀ e ∈ c.entries, idx k d e.keyHash = i) ∧ HNode.OKs A k z cs is d
  | _, _, _ => False
end

/-- Child at position `i` of a branch at depth `d`. -/
structure HNode.Child (A : Arch) (k : Nat) (z : Bool) (d i : Nat) (c : HNode K V) : Prop where
  ok : c.OK A k z (d + 1)
  nonempty : c.entries ≠ []
  compressed : z = true → c.Compressed
  pos : ∀ e ∈ c.entries, idx k d e.keyHash = i

theorem HNode.OKs_iff {A : Arch} {k d : Nat} {z : Bool} (cs : List (HNode K V)) (is : List Nat) :
    HNode.OKs A k z cs is d ↔ List.Forall₂ (HNode.Child A k z d) is cs := by
  induction cs generalizing is with
  | nil =>
    cases is with
    | nil => simp [HNode.OKs]
    | cons i is => simp only [HNode.OKs, false_iff]; intro h; cases h
  | cons c cs ih =>
    cases is with
    | nil => simp only [HNode.OKs, false_iff]; intro h; cases h
    | cons i is =>
      simp only [HNode.OKs, ih]
      constructor
      · rintro ⟨⟨h1, h2, h3, h4⟩, h5⟩; exact .cons ⟨h1, h2, h3, h4⟩ h5
      · intro h; cases h with
        | cons h1 h2 => exact ⟨⟨h1.ok, h1.nonempty, h1.compressed, h1.pos⟩, h2⟩

theorem HNode.ok_branch {A : Arch} {k d bm : Nat} {z : Bool} {arr : List (HNode K V)} :
    (HNode.branch bm arr).OK A k z d ↔ d * k < 64 ∧ SparseArray.Rel A (HNode.Child A k z d) ⟨bm, arr⟩ := by
  rw [HNode.OK, HNode.OKs_iff]; rfl

end entries

/-! ### Lookup -/

namespace HNode
variable {H K V Q : Type} {A : Arch} {o : HashKeys H K Q} {k : Nat} {z : Bool}

theorem getAt_eq (key : Q) (kh : UInt64) (deg : Nat) (arr : List (HNode K V)) (i d : Nat) :
    getAt A o key kh deg arr i d = (vecIndex arr i >>= fun c => get A o key kh deg c d) := by
  induction arr generalizing i with
  | nil => simp [getAt, vecIndex]
  | cons c arr ih => cases i <;> simp [getAt, ih, vecIndex]

theorem getMutAt_eq (key : Q) (kh : UInt64) (deg : Nat) (f : HEntry K V → HEntry K V) (arr : List (HNode K V)) (i d : Nat) :
    getMutAt A o key kh deg f arr i d = (vecIndex arr i >>= fun c => getMut A o key kh deg f c d) := by
  induction arr generalizing i with
  | nil => simp [getMutAt, vecIndex]
  | cons c arr ih => cases i <;> simp [getMutAt, ih, vecIndex]

theorem removeAt_eq (key : Q) (kh : UInt64) (deg : Nat) (arr : List (HNode K V)) (i d : Nat) :
    removeAt A o key kh deg arr i d = (vecIndex arr i >>= fun c => remove A o key kh deg c d) := by
  induction arr generalizing i with
  | nil => simp [removeAt, vecIndex]
  | cons c arr ih => cases i <;> simp [removeAt, ih, vecIndex]

/-- The stored hash of every entry is the hash of its key. -/
def Good (o : HashKeys H K Q) (h : H) (es : List (HEntry K V)) : Prop := ∀ e ∈ es, e.keyHash = o.hashK h e.key

theorem matches_eq (lo : o.Lawful) {h : H} {e : HEntry K V} (he : e.keyHash = o.hashK h e.key) (q : Q) :
    e.matches o q (o.hashQ h q) = o.eqKQ e.key q := by
  simp only [HEntry.matches]
  cases hq : o.eqKQ e.key q with
  | false => simp
  | true =>
    have := lo.hash_eq h _ _ hq
    simp [he, lo.hash_borrow, this]

theorem find_matches (lo : o.Lawful) {h : H} {es : List (HEntry K V)} (hg : Good o h es) (q : Q) :
    es.find? (fun e => e.matches o q (o.hashQ h q)) = es.find? fun e => o.eqKQ e.key q := by
  induction es with
  | nil => rfl
  | cons e es ih =>
    simp only [List.find?_cons, matches_eq lo (hg e (by simp)), ih (fun e he => hg e (by simp [he]))]

theorem eraseP_matches (lo : o.Lawful) {h : H} {es : List (HEntry K V)} (hg : Good o h es) (q : Q) :
    es.eraseP (fun e => e.matches o q (o.hashQ h q)) = es.eraseP fun e => o.eqKQ e.key q := by
  induction es with
  | nil => rfl
  | cons e es ih =>
    simp only [List.eraseP_cons, matches_eq lo (hg e (by simp)), ih (fun e he => hg e (by simp [he]))]

/-- Entries at another position do not match. -/
theorem no_hit (lo : o.Lawful) {h : H} {d : Nat} {is : List Nat} {cs : List (HNode K V)}
    (hc : List.Forall₂ (Child A k z d) is cs) (hg : Good o h (cs.flatMap entries)) (q : Q)
    (hne : ∀ i ∈ is, i ≠ idx k d (o.hashQ h q)) : ∀ e ∈ cs.flatMap entries, o.eqKQ e.key q = false := by
  intro e he
  obtain ⟨c, hcm, hec⟩ := List.mem_flatMap.1 he
  obtain ⟨i, hi, hci⟩ := SparseArray.forall₂_mem hc hcm
  cases hq : o.eqKQ e.key q with
  | false => rfl
  | true =>
    exfalso
    apply hne i hi
    rw [← hci.pos e hec, hg e he, lo.hash_borrow, lo.hash_eq h _ _ hq]

theorem below_ne {bm i j : Nat} (h : j ∈ SparseArray.below bm i) : j ≠ i := Nat.ne_of_lt (SparseArray.below_lt h)
theorem above_ne {bm i j : Nat} (h : j ∈ SparseArray.above A bm i) : j ≠ i := (Nat.ne_of_lt (SparseArray.above_gt h)).symm

theorem depth_succ (c : HConf A k) {d : Nat} (h : d * k < 64) : d + 1 ≤ 64 := by
  have : d * 1 ≤ d * k := Nat.mul_le_mul_left d c.pos
  omega

theorem find_none {es : List (HEntry K V)} {q : Q} (h : ∀ e ∈ es, o.eqKQ e.key q = false) :
    es.find? (fun e => o.eqKQ e.key q) = none := by
  rw [List.find?_eq_none]; intro e he; simp [h e he]

theorem Good.append {h : H} {a b : List (HEntry K V)} : Good o h (a ++ b) ↔ Good o h a ∧ Good o h b := by
  simp only [Good, List.mem_append]
  exact ⟨fun g => ⟨fun e he => g e (.inl he), fun e he => g e (.inr he)⟩, fun g e he => he.elim (g.1 e) (g.2 e)⟩

theorem Good.perm {h : H} {a b : List (HEntry K V)} (p : a.Perm b) (g : Good o h a) : Good o h b :=
  fun e he => g e (p.mem_iff.2 he)

/-- `Node::get` finds the entry with the key. -/
theorem get_eq (lo : o.Lawful) (c : HConf A k) (h : H) (q : Q) (n : HNode K V) :
    ∀ d, d ≤ 64 → n.OK A k z d → Good o h n.entries →
      n.get A o q (o.hashQ h q) (2 ^ k) d = .ok (n.entries.find? fun e => o.eqKQ e.key q) := by
  induction n using HNode.induct with
  | hb bm arr ih =>
    intro d hd hok hg
    rw [ok_branch] at hok
    obtain ⟨hd64, hrel⟩ := hok
    have hi := c.idx_lt d (o.hashQ h q)
    obtain ⟨los, his, hlo, hhi, hcase⟩ := hrel.cases hi
    simp only [get, indexFromHash_eq c.small hd, hd64, if_true, Res.ok_bind, unwrap_some, SparseArray.slot_eq hi]
    rcases hcase with ⟨hb, e⟩ | ⟨a, hb, e, ha⟩
    · simp only at hb e
      simp only [entries_branch, e, List.flatMap_append] at hg ⊢
      rw [Good.append] at hg
      have n1 := no_hit lo hlo hg.1 q (fun i hi => below_ne hi)
      have n2 := no_hit lo hhi hg.2 q (fun i hi => above_ne hi)
      rw [find_none (fun x hx => (List.mem_append.1 hx).elim (n1 x) (n2 x))]
      simp [hb]
    · simp only at hb e
      simp only [entries_branch, e, List.flatMap_append, List.flatMap_cons] at hg ⊢
      rw [Good.append, Good.append] at hg
      have n1 := no_hit lo hlo hg.1 q (fun i hi => below_ne hi)
      have n2 := no_hit lo hhi hg.2.2 q (fun i hi => above_ne hi)
      simp only [hb, if_true]
      rw [getAt_eq, vecIndex_ok (a := a) (by simp [SparseArray.forall₂_length hlo]), Res.ok_bind,
        ih a (by simp [e]) (d + 1) (depth_succ c hd64) ha.ok hg.2.1]
      simp [List.find?_append, find_none n1, find_none n2]
  | hl b =>
    intro d hd hok hg
    cases b with
    | single e =>
      simp only [entries_leaf, Bucket.entries] at hg ⊢
      simp only [get, Bucket.get, matches_eq lo (hg e (by simp)), List.find?_cons, List.find?_nil]
      cases o.eqKQ e.key q <;> simp
    | collision l =>
      rw [OK] at hok
      simp only [entries_leaf, Bucket.entries] at hg ⊢
      simp only [get, Bucket.get, iterFind_spec hok.2.1, find_matches lo hg]

theorem Bucket_get_eq (lo : o.Lawful) {h : H} {b : Bucket K V} {d : Nat} (hok : (HNode.leaf b).OK A k z d) (hg : Good o h b.entries)
    (q : Q) : b.get o q (o.hashQ h q) = .ok (b.entries.find? fun e => o.eqKQ e.key q) := by
  cases b with
  | single e =>
    simp only [Bucket.entries] at hg ⊢
    simp only [Bucket.get, matches_eq lo (hg e (by simp)), List.find?_cons, List.find?_nil]
    cases o.eqKQ e.key q <;> simp
  | collision l =>
    rw [OK] at hok
    simp only [Bucket.entries] at hg ⊢
    simp only [Bucket.get, iterFind_spec hok.2.1, find_matches lo hg]

end HNode
end Rpds
