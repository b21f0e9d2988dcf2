import Verif.Drop.HashTrie
import Verif.HashTrie.PanicMap
import Verif.HashTrie.Unwind
import Verif.Heap.Tree
/-
The two models of a `Drop` that panics in a hash trie map say the same: `Verif/Drop/HashTrie.lean`, made for lawful user code of which
one drop panics, and `Verif/HashTrie/Unwind.lean`, in which any call of user code may panic.
-/
set_option autoImplicit false
namespace Rpds
open Spec Heap

section
variable {S H K V Q : Type} {o : HashKeys H K Q} {A : Arch} {k : Nat} {eq : S → K → Q → Option Bool × S} {drop : S → K × V → Option Unit × S}

/-- An `eq` that never panics. -/
theorem AnsEq.answer (h : AnsEq False eq o) (key : Q) (kh : UInt64) (e : HEntry K V) (s : S) :
    ∃ s', e.matchesU eq key kh s = (some (e.matches o key kh), s') := by
  rcases hm : e.matchesU eq key kh s with ⟨x, s'⟩
  have := h.matches key kh e s
  simp only [hm] at this
  rcases this with ⟨_, h1⟩ | h1
  · exact h1.elim
  · exact ⟨s', by rw [← h1]⟩

theorem dropPanics (hd : ∀ s x, (drop s x).1 = none) (s : S) (x : K × V) : ∃ s', drop s x = (none, s') :=
  ⟨(drop s x).2, by rw [← hd s x]⟩

theorem AnsEq.removeFirst (h : AnsEq False eq o) (key : Q) (kh : UInt64) (l : RList (HEntry K V)) (s : S) {x : HEntry K V} {l' : RList (HEntry K V)}
    (hl : listRemoveFirst (fun e => e.matches o key kh) l = .ok (some x, l')) :
    ∃ s', listRemoveFirstU (fun e => e.matchesU eq key kh) l s = .ok (some (some x), l', s') := by
  rcases listRemoveFirstU_agree (h.matches key kh) l s with ⟨_, _, _, h1⟩ | ⟨a, l1, s1, h1, h2⟩ | ⟨_, _, h2⟩
  · exact h1.elim
  · rw [hl] at h2; cases h2; exact ⟨s1, h1⟩
  · rw [hl] at h2; cases h2

theorem Bucket.removeX_of_D (h : AnsEq False eq o) (hd : ∀ s x, (drop s x).1 = none) (key : Q) (kh : UInt64) (b : Bucket K V) (s : S) {n : HNode K V}
    (hb : b.removeD o key kh = .ok (some n)) :
    ∃ b' s', b.removeX eq drop key kh s = .ok (none, b', s') ∧ n = (match b' with | none => HNode.newEmptyBranch | some b => .leaf b) := by
  cases b with
  | single e =>
    obtain ⟨s1, h1⟩ := h.answer key kh e s
    simp only [removeX, h1]
    simp only [removeD] at hb
    cases hm : e.matches o key kh <;> rw [hm] at hb <;> cases hb
    obtain ⟨s2, h2⟩ := dropPanics hd s1 (e.key, e.value)
    exact ⟨none, s2, by simp only [h2], rfl⟩
  | collision l =>
    simp only [removeD] at hb
    obtain ⟨⟨x, l'⟩, h1, h2⟩ := res_bind_ok hb
    cases x with
    | none => cases h2
    | some x =>
      cases h2
      obtain ⟨s1, h3⟩ := h.removeFirst key kh l s h1
      obtain ⟨s2, h4⟩ := dropPanics hd s1 (x.key, x.value)
      exact ⟨some (.collision l'), s2, by simp only [removeX, h3, Res.ok_bind, dropRemoved, h4], rfl⟩

theorem Bucket.insertX_of_D {eq : S → K → K → Option Bool × S} (h : AnsEq False eq o.self) (hd : ∀ s x, (drop s x).1 = none) (e : HEntry K V)
    (b : Bucket K V) (s : S) {n : HNode K V} (hb : b.insertD o e = .ok (some n)) :
    ∃ b' s', b.insertX eq drop e s = .ok (none, b', s') ∧ n = .leaf b' := by
  cases b with
  | single x =>
    obtain ⟨s1, h1⟩ := h.answer e.key e.keyHash x s
    simp only [insertX, h1]
    simp only [insertD] at hb
    cases hm : x.matches o.self e.key e.keyHash <;> rw [hm] at hb <;> cases hb
    obtain ⟨s2, h2⟩ := dropPanics hd s1 (x.key, x.value)
    exact ⟨.single e, s2, by simp only [h2], rfl⟩
  | collision l =>
    simp only [insertD] at hb
    obtain ⟨⟨x, l'⟩, h1, h2⟩ := res_bind_ok hb
    cases x with
    | none => cases h2
    | some x =>
      cases h2
      obtain ⟨s1, h3⟩ := h.removeFirst e.key e.keyHash l s h1
      obtain ⟨s2, h4⟩ := dropPanics hd s1 (x.key, x.value)
      exact ⟨.collision l', s2, by simp only [insertX, h3, Res.ok_bind, dropRemoved, h4], rfl⟩

namespace HNode

theorem removeX_of_D (h : AnsEq False eq o) (hd : ∀ s x, (drop s x).1 = none) (key : Q) (kh : UInt64) (deg : Nat) (n : HNode K V) :
    ∀ (d : Nat) (s : S) {n' : HNode K V}, n.editD A (Bucket.removeD o key kh) kh deg d = .ok (some n') →
    ∃ s', n.removeX A eq drop key kh deg d s = .ok (none, n', s') := by
  induction n using HNode.induct with
  | hl b =>
    intro d s n' he
    rw [editD] at he
    obtain ⟨b', s', h1, rfl⟩ := b.removeX_of_D h hd key kh s he
    rw [removeX, h1]
    cases b' <;> exact ⟨s', rfl⟩
  | hb bm arr ih =>
    intro d s n' he
    rw [editD] at he
    rw [removeX]
    obtain ⟨oi, h1, he⟩ := res_bind_ok he
    rw [h1, Res.ok_bind]
    cases oi with
    | none => cases he
    | some index =>
      obtain ⟨sl, h2, he⟩ := res_bind_ok (show (SparseArray.slot A bm index >>= _) = _ from he)
      simp only
      rw [h2, Res.ok_bind]
      cases sl with
      | none => cases he
      | some i =>
        simp only at he ⊢
        rw [editAtD_eq] at he
        obtain ⟨on, h3, he⟩ := res_bind_ok he
        obtain ⟨c, h4, h5⟩ := res_bind_ok h3
        cases on with
        | none => cases he
        | some c' =>
          obtain ⟨s', h6⟩ := ih c (vecIndex_mem h4) (d + 1) s h5
          rw [removeAtX_eq, h4, Res.ok_bind, h6, Res.ok_bind]
          simp only at he ⊢
          rw [writeSlot_of_index h4] at he ⊢
          cases he
          exact ⟨s', rfl⟩

theorem insertX_of_D {eq : S → K → K → Option Bool × S} (c : HConf A k) (h : AnsEq False eq o.self) (hd : ∀ s x, (drop s x).1 = none)
    (e : HEntry K V) {z : Bool} (n : HNode K V) : ∀ (fuel d : Nat) (s : S) {n' : HNode K V}, d ≤ 64 → n.OK A k z d → 66 ≤ fuel + d →
    n.editD A (Bucket.insertD o e) e.keyHash (2 ^ k) d = .ok (some n') →
    ∃ s', n.insertX A eq drop (2 ^ k) fuel e d s = .ok (none, n', s') := by
  induction n using HNode.induct with
  | hl b =>
    intro fuel d s n' hd64 hok hf he
    obtain ⟨fuel, rfl⟩ : ∃ f, fuel = f + 1 := ⟨fuel - 1, by omega⟩
    rw [editD] at he
    rw [insertX, indexFromHash_eq c.small hd64, Res.ok_bind]
    have key : ∀ s1, ∃ s', (do
        let (isNew, b, s) ← b.insertX eq drop e s1
        .ok (isNew, .leaf b, s) : Res (Option Bool × HNode K V × S)) = .ok (none, n', s') := by
      intro s1
      obtain ⟨b', s', h1, rfl⟩ := b.insertX_of_D h hd e s1 he
      exact ⟨s', by rw [h1]; rfl⟩
    cases b with
    | single x =>
      obtain ⟨s1, h1⟩ := h.answer e.key e.keyHash x s
      have hm : x.matches o.self e.key e.keyHash = true := by
        simp only [Bucket.insertD] at he
        cases hm : x.matches o.self e.key e.keyHash with
        | true => rfl
        | false => rw [hm] at he; cases he
      rw [hm] at h1
      simp only [Bucket.getU, h1, Res.ok_bind]
      by_cases hlt : d * k < 64
      · simp only [hlt, if_true, Option.isNone_some, Bool.not_false, Option.isSome_some]
        exact key s1
      · simp only [hlt, if_false, Option.isNone_none, Bool.not_true, Bool.false_eq_true]
        exact key s1
    | collision l =>
      have hlt : ¬ d * k < 64 := by rw [OK] at hok; omega
      rcases Bucket.getU_agree h e.key e.keyHash (.collision l) s with ⟨_, _, h1⟩ | ⟨a, s1, h1, -⟩ | ⟨x, h1, -⟩
      · exact h1.elim
      · rw [h1, Res.ok_bind]
        simp only [hlt, if_false, Option.isNone_none, Bool.not_true, Bool.false_eq_true]
        exact key s1
      · obtain ⟨r, s', h2⟩ := bucketGetU_total (eq := eq) e.key e.keyHash (.collision l) s (OK.sound _ hok)
        rw [h2] at h1
        cases h1
  | hb bm arr ih =>
    intro fuel d s n' hd64 hok hf he
    obtain ⟨fuel, rfl⟩ : ∃ f, fuel = f + 1 := ⟨fuel - 1, by omega⟩
    rw [ok_branch] at hok
    rw [editD] at he
    rw [insertX]
    obtain ⟨oi, h1, he⟩ := res_bind_ok he
    rw [h1, Res.ok_bind]
    cases oi with
    | none => cases he
    | some index =>
      obtain ⟨sl, h2, he⟩ := res_bind_ok (show (SparseArray.slot A bm index >>= _) = _ from he)
      simp only
      rw [h2, Res.ok_bind]
      cases sl with
      | none => cases he
      | some i =>
        simp only at he ⊢
        rw [editAtD_eq] at he
        obtain ⟨on, h3, he⟩ := res_bind_ok he
        obtain ⟨a, h4, h5⟩ := res_bind_ok h3
        cases on with
        | none => cases he
        | some a' =>
          obtain ⟨_, _, hc⟩ := SparseArray.forall₂_mem hok.2 (vecIndex_mem h4)
          obtain ⟨s', h6⟩ := ih a (vecIndex_mem h4) fuel (d + 1) s (depth_succ c hok.1) hc.ok (by omega) h5
          rw [h4, Res.ok_bind, h6, Res.ok_bind]
          simp only at he ⊢
          rw [writeSlot_of_index h4] at he ⊢
          cases he
          exact ⟨s', rfl⟩

end HNode

namespace HTMap
variable {U : HTUser S H K V Q} {m : HTMap H K V}

/-- User code that is `o`, except that each `Drop` panics (and for its state). -/
structure _root_.Rpds.HTUser.DropPanics (U : HTUser S H K V Q) (o : HashKeys H K Q) : Prop where
  hashK : ∀ s h k, (U.hashK s h k).1 = some (o.hashK h k)
  hashQ : ∀ s h q, (U.hashQ s h q).1 = some (o.hashQ h q)
  eqK : ∀ s a b, (U.eqK s a b).1 = some (o.eqK a b)
  eqQ : ∀ s a q, (U.eqQ s a q).1 = some (o.eqKQ a q)
  drop : ∀ s x, (U.drop s x).1 = none

theorem removeMutX_of_D (hU : U.DropPanics o) {q : Q} (s : S) {m' : HTMap H K V} (h : m.removeMutD A o q = .ok (some m')) :
    m.removeMutX A U q s = .ok (none, m') := by
  simp only [removeMutD] at h
  obtain ⟨on, h1, h2⟩ := res_bind_ok h
  cases on with
  | none => cases h2
  | some n =>
    cases h2
    have hh := hU.hashQ s m.hasher q
    rcases hx : U.hashQ s m.hasher q with ⟨x, s1⟩
    rw [hx] at hh
    simp only at hh
    subst hh
    obtain ⟨s2, h3⟩ := m.root.clone.removeX_of_D (A := A) (eq := U.eqQ) (fun s a b => .inr (hU.eqQ s a b)) hU.drop q _ m.degree 0 s1 h1
    simp only [removeMutX, hx, h3, Res.ok_bind]

theorem insertMutX_of_D (c : HConf A k) (hk : m.degree = 2 ^ k) {z : Bool} (hok : m.root.OK A k z 0) (hU : U.DropPanics o) {key : K} {value : V}
    (s : S) {m' : HTMap H K V} (h : m.insertMutD A o key value = .ok (some m')) : m.insertMutX A U key value s = .ok (none, m') := by
  simp only [insertMutD] at h
  obtain ⟨on, h1, h2⟩ := res_bind_ok h
  cases on with
  | none => cases h2
  | some n =>
    cases h2
    have hh := hU.hashK s m.hasher key
    rcases hx : U.hashK s m.hasher key with ⟨x, s1⟩
    rw [hx] at hh
    simp only at hh
    subst hh
    rw [HNode.clone_eq, hk] at h1
    obtain ⟨s2, h3⟩ := m.root.insertX_of_D (A := A) (eq := U.eqK) c (fun s a b => .inr (hU.eqK s a b)) hU.drop _ insertFuel 0 s1 (by omega) hok
      (by decide) h1
    simp only [insertMutX, hx, HNode.clone_eq, hk]
    rw [show (⟨key, value, o.hashK m.hasher key⟩ : HEntry K V) = HEntry.new o m.hasher key value from rfl, h3]
    rfl

end HTMap
end
end Rpds
