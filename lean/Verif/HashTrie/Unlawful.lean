import Verif.HashTrie.Map
import Verif.Spec.Loose
/-
`HashTrieMap` with arbitrary `Eq` and `Hash` of the keys: which entry is found is decided by the hash stored in the entries and the
answers of `eq`, the shape of the tree by the stored hashes alone.
-/
set_option autoImplicit false
namespace Rpds
open Spec

namespace HNode
variable {H K V Q : Type} {A : Arch} {o : HashKeys H K Q} {k : Nat} {z : Bool}

/-- Entries at another position do not match. -/
theorem no_match {d : Nat} {is : List Nat} {cs : List (HNode K V)} (hc : List.Forall₂ (Child A k z d) is cs) (q : Q) (kh : UInt64)
    (hne : ∀ i ∈ is, i ≠ idx k d kh) : ∀ e ∈ cs.flatMap entries, e.matches o q kh = false := by
  intro e he
  obtain ⟨c, hcm, hec⟩ := List.mem_flatMap.1 he
  obtain ⟨i, hi, hci⟩ := SparseArray.forall₂_mem hc hcm
  cases hq : e.matches o q kh with
  | false => rfl
  | true =>
    exfalso
    apply hne i hi
    simp only [HEntry.matches, Bool.and_eq_true, beq_iff_eq] at hq
    rw [← hci.pos e hec, hq.1]

theorem find_none' {es : List (HEntry K V)} {p : HEntry K V → Bool} (h : ∀ e ∈ es, p e = false) : es.find? p = none := by
  rw [List.find?_eq_none]; intro e he; simp [h e he]

theorem eraseP_none {es : List (HEntry K V)} {p : HEntry K V → Bool} (h : ∀ e ∈ es, p e = false) : es.eraseP p = es :=
  List.eraseP_of_forall_not (by intro e he; simp [h e he])

theorem eraseP_middle {p : HEntry K V → Bool} {lo a hi : List (HEntry K V)} (h1 : ∀ x ∈ lo, p x = false) (h2 : ∀ x ∈ hi, p x = false) :
    (lo ++ (a ++ hi)).eraseP p = lo ++ (a.eraseP p ++ hi) := by
  rw [List.eraseP_append_right _ (by intro e he; simp [h1 e he])]
  by_cases ha : ∃ x ∈ a, p x = true
  · obtain ⟨x, hx, hp⟩ := ha
    rw [List.eraseP_append_left hp _ hx]
  · have ha' : ∀ x ∈ a, ¬ p x = true := fun x hx hp => ha ⟨x, hx, hp⟩
    rw [List.eraseP_append_right _ ha', eraseP_none h2, List.eraseP_of_forall_not ha']

theorem eraseP_length {p : HEntry K V → Bool} (es : List (HEntry K V)) : es.length ≤ (es.eraseP p).length + 1 := by
  induction es with
  | nil => simp
  | cons e es ih =>
    rw [List.eraseP_cons]
    cases p e <;> simp [ih]

/-- `Node::get` finds the first entry with the hash and the key. -/
theorem get_loose (c : HConf A k) (q : Q) (kh : UInt64) (n : HNode K V) : ∀ d, d ≤ 64 → n.OK A k z d →
    n.get A o q kh (2 ^ k) d = .ok (n.entries.find? fun e => e.matches o q kh) := by
  induction n using HNode.induct with
  | hb bm arr ih =>
    intro d hd hok
    rw [ok_branch] at hok
    obtain ⟨hd64, hrel⟩ := hok
    have hi := c.idx_lt d kh
    obtain ⟨los, his, hlo, hhi, hcase⟩ := hrel.cases hi
    simp only [get, indexFromHash_eq c.small hd, hd64, if_true, Res.ok_bind, unwrap_some, SparseArray.slot_eq hi]
    have n1 := no_match (o := o) hlo q kh (fun i hi => below_ne hi)
    have n2 := no_match (o := o) hhi q kh (fun i hi => above_ne hi)
    rcases hcase with ⟨hb, e⟩ | ⟨a, hb, e, ha⟩
    · simp only at hb e
      simp only [entries_branch, e, List.flatMap_append]
      rw [find_none' (fun x hx => (List.mem_append.1 hx).elim (n1 x) (n2 x))]
      simp [hb]
    · simp only at hb e
      simp only [entries_branch, e, List.flatMap_append, List.flatMap_cons]
      simp only [hb, if_true]
      rw [getAt_eq, vecIndex_ok (a := a) (by simp [SparseArray.forall₂_length hlo]), Res.ok_bind,
        ih a (by simp [e]) (d + 1) (depth_succ c hd64) ha.ok]
      simp [List.find?_append, find_none' n1, find_none' n2]
  | hl b =>
    intro d hd hok
    cases b with
    | single e =>
      simp only [entries_leaf, Bucket.entries, get, Bucket.get, List.find?_cons, List.find?_nil]
      cases e.matches o q kh <;> simp
    | collision l =>
      rw [OK] at hok
      simp only [entries_leaf, Bucket.entries, get, Bucket.get, iterFind_spec hok.2.1]

theorem bucketInsert_loose {b : Bucket K V} {d : Nat} {e : HEntry K V} (hok : (HNode.leaf b).OK A k z d)
    (hc : 64 ≤ d * k ∨ b.entries.any (fun x => x.matches o.self e.key e.keyHash) = true) :
    ∃ b', b.insert o e = .ok (!b.entries.any (fun x => x.matches o.self e.key e.keyHash), b') ∧ (HNode.leaf b').OK A k z d ∧
      b'.entries.Perm (e :: b.entries.eraseP fun x => x.matches o.self e.key e.keyHash) := by
  cases b with
  | single x =>
    simp only [Bucket.entries] at hc ⊢
    cases hq : x.matches o.self e.key e.keyHash with
    | true => exact ⟨.single e, by simp [Bucket.insert, hq], by simp [OK], by simp [hq, Bucket.entries]⟩
    | false =>
      have hr := ((RList.rep_new (T := HEntry K V)).pushFrontMut x.clone).pushFrontMut e
      have hl := hr.head
      refine ⟨.collision ((RList.new.pushFrontMut x.clone).pushFrontMut e), by simp [Bucket.insert, hq], ?_, ?_⟩
      · rw [OK, hl]; exact ⟨by simpa [hq] using hc, hr, by simp⟩
      · simp only [Bucket.entries, hl]; simp [hq, HEntry.clone]
  | collision l =>
    rw [OK] at hok
    simp only [Bucket.entries] at hc ⊢
    obtain ⟨l', h1, h2⟩ := listRemoveFirst_spec (p := fun x => x.matches o.self e.key e.keyHash) hok.2.1
    have hr := h2.pushFrontMut e
    have hlen := eraseP_length (p := fun x => x.matches o.self e.key e.keyHash) l.head.toList
    refine ⟨.collision (l'.pushFrontMut e), ?_, ?_, ?_⟩
    · simp only [Bucket.insert, h1, Res.ok_bind, any_eq_find, Res.pure_eq]
    · rw [OK, hr.head]; exact ⟨hok.1, hr, by simp only [List.length_cons]; omega⟩
    · simp [Bucket.entries, hr.head]

/-- `Node::insert` replaces the first entry with the hash and the key, if any, or adds the entry. -/
theorem insert_loose (c : HConf A k) (fuel : Nat) : ∀ (n : HNode K V) (d : Nat) (e : HEntry K V),
    d ≤ 64 → n.OK A k z d → need n d ≤ fuel →
    ∃ n', n.insert A o (2 ^ k) fuel e d = .ok (!n.entries.any (fun x => x.matches o.self e.key e.keyHash), n') ∧ n'.OK A k z d ∧
      n'.entries.Perm (e :: n.entries.eraseP fun x => x.matches o.self e.key e.keyHash) ∧ (n.Compressed → n'.Compressed) := by
  induction fuel with
  | zero => intro n d e _ _ hf; simp only [need] at hf; split at hf <;> omega
  | succ fuel ih =>
    intro n d e hd hok hf
    cases n with
    | branch bm arr =>
      rw [ok_branch] at hok
      obtain ⟨hd64, hrel⟩ := hok
      have hi := c.idx_lt d e.keyHash
      obtain ⟨los, his, hlo, hhi, hcase⟩ := hrel.cases hi
      have hcomp : ∀ n' : HNode K V,
          n'.entries.Perm (e :: (HNode.branch bm arr).entries.eraseP fun x => x.matches o.self e.key e.keyHash) →
          (HNode.branch bm arr).Compressed → n'.Compressed := by
        intro n' hp hc
        rcases hc with ⟨b, hb⟩ | hc
        · cases hb
        · have := eraseP_length (p := fun x => x.matches o.self e.key e.keyHash) (HNode.branch bm arr).entries
          exact compressed_of_length hp.length_eq (by simp only [List.length_cons]; omega)
      simp only [insert, indexFromHash_eq c.small hd, hd64, if_true, Res.ok_bind, unwrap_some, SparseArray.slot_eq hi]
      have n1 := no_match (o := o.self) hlo e.key e.keyHash (fun i hi => below_ne hi)
      have n2 := no_match (o := o.self) hhi e.key e.keyHash (fun i hi => above_ne hi)
      rcases hcase with ⟨hb, e1⟩ | ⟨a, hb, e1, hca⟩
      · simp only at hb e1
        subst e1
        simp only [entries_branch, List.flatMap_append] at hcomp ⊢
        have n12 : ∀ x ∈ los.flatMap entries ++ his.flatMap entries, x.matches o.self e.key e.keyHash = false :=
          fun x hx => (List.mem_append.1 hx).elim (n1 x) (n2 x)
        rw [hb]
        simp only [Bool.false_eq_true, if_false, Res.ok_bind]
        rw [SparseArray.set_new (b := HNode.leaf (.single e)) hi hb hlo rfl]
        simp only [Res.ok_bind, any_none n12, Res.pure_eq, Bool.not_false]
        have hp : ((HNode.branch (bm ||| 2 ^ idx k d e.keyHash) (los ++ HNode.leaf (.single e) :: his)).entries).Perm
            (e :: (los.flatMap entries ++ his.flatMap entries).eraseP fun x => x.matches o.self e.key e.keyHash) := by
          rw [eraseP_none n12]
          simp only [entries_branch, List.flatMap_append, List.flatMap_cons, entries_leaf, Bucket.entries]
          exact List.perm_middle
        refine ⟨_, rfl, ?_, hp, hcomp _ hp⟩
        rw [ok_branch]
        refine ⟨hd64, ?_⟩
        rw [SparseArray.Rel]; simp only
        rw [SparseArray.bits_or hi]
        refine SparseArray.forall₂_append hlo (.cons ⟨by simp [OK], by simp [Bucket.entries], fun _ => .inl ⟨_, rfl⟩, ?_⟩ hhi)
        intro x hx; simp only [entries_leaf, Bucket.entries, List.mem_singleton] at hx; rw [hx]
      · simp only at hb e1
        subst e1
        simp only [entries_branch, List.flatMap_append, List.flatMap_cons] at hcomp ⊢
        obtain ⟨a', e2, hok', hp', hc'⟩ := ih a (d + 1) e (depth_succ c hd64) hca.ok
          (by simp only [need] at hf ⊢; have := depth_succ c hd64; split <;> omega)
        rw [hb]
        simp only [if_true]
        rw [vecIndex_ok (a := a) (by simp [SparseArray.forall₂_length hlo])]
        simp only [Res.ok_bind, e2]
        rw [SparseArray.writeSlot_ok (s := ⟨bm, los ++ a :: his⟩) (b := a') hlo rfl]
        have hp : ((HNode.branch bm (los ++ a' :: his)).entries).Perm
            (e :: (los.flatMap entries ++ (a.entries ++ his.flatMap entries)).eraseP fun x => x.matches o.self e.key e.keyHash) := by
          simp only [entries_branch, List.flatMap_append, List.flatMap_cons]
          rw [eraseP_middle n1 n2]
          exact ((hp'.append_right _).append_left _).trans List.perm_middle
        refine ⟨_, ?_, ?_, hp, hcomp _ hp⟩
        · simp only [Res.ok_bind, Res.pure_eq, List.any_append]
          rw [any_none (p := fun x => x.matches o.self e.key e.keyHash) n1, any_none (p := fun x => x.matches o.self e.key e.keyHash) n2]
          simp
        · rw [ok_branch]
          refine ⟨hd64, SparseArray.Rel.put_back hi hb hlo hhi ⟨hok', ?_, fun hz => hc' (hca.compressed hz), ?_⟩⟩
          · intro h0; rw [h0] at hp'; exact absurd hp'.length_eq (by simp)
          · intro x hx
            rcases List.mem_cons.1 (hp'.mem_iff.1 hx) with rfl | hx
            · rfl
            · exact hca.pos x (List.mem_of_mem_eraseP hx)
    | leaf b =>
      have hcont : b.containsKey o.self e.key e.keyHash = .ok (b.entries.any fun x => x.matches o.self e.key e.keyHash) := by
        have := get_loose (o := o.self) c e.key e.keyHash (.leaf b) d hd hok
        simp only [get, entries_leaf] at this
        rw [Bucket.containsKey, this]
        simp only [Res.ok_bind, any_eq_find, Res.pure_eq]
      simp only [insert, indexFromHash_eq c.small hd, Res.ok_bind, hcont]
      simp only [entries_leaf]
      by_cases hmax : 64 ≤ d * k
      · obtain ⟨b', e1, e2, e3⟩ := bucketInsert_loose (o := o) (e := e) hok (.inl hmax)
        have : ¬ d * k < 64 := by omega
        exact ⟨.leaf b', by simp [this, e1], e2, by simpa using e3, fun _ => .inl ⟨_, rfl⟩⟩
      · have hlt : d * k < 64 := by omega
        cases hcon : b.entries.any fun x => x.matches o.self e.key e.keyHash with
        | true =>
          obtain ⟨b', e1, e2, e3⟩ := bucketInsert_loose (o := o) (e := e) hok (.inr hcon)
          rw [hcon] at e1
          exact ⟨.leaf b', by simp [hlt, e1], e2, by simpa using e3, fun _ => .inl ⟨_, rfl⟩⟩
        | false =>
          cases b with
          | collision l => rw [OK] at hok; omega
          | single x =>
            simp only [Bucket.entries, List.any_cons, List.any_nil, Bool.or_false] at hcon ⊢
            obtain ⟨n1, a1, a2, a3, _⟩ := ih newEmptyBranch d x.clone hd (ok_empty hlt)
              (by simp only [need, newEmptyBranch] at hf ⊢; omega)
            simp only [entries_empty, List.eraseP_nil] at a3
            have hx : x.clone = x := rfl
            rw [hx] at a1 a3
            have hn1 : n1.entries = [x] := List.perm_singleton.1 a3
            have hbr : ∃ bm arr, n1 = .branch bm arr := by
              cases n1 with
              | branch bm arr => exact ⟨bm, arr, rfl⟩
              | leaf b =>
                exfalso
                cases fuel with
                | zero => simp [insert] at a1
                | succ f =>
                  have hi := c.idx_lt d x.keyHash
                  simp only [newEmptyBranch, insert, indexFromHash_eq c.small hd, hlt, if_true, Res.ok_bind, unwrap_some,
                    SparseArray.slot_eq hi, SparseArray.new, Nat.zero_testBit, Bool.false_eq_true, if_false] at a1
                  cases hs : SparseArray.set A ⟨0, []⟩ (idx k d x.keyHash) (HNode.leaf (.single x)) with
                  | error _ => rw [hs] at a1; simp at a1
                  | ok s => rw [hs] at a1; simp at a1
            obtain ⟨n2, b1, b2, b3, _⟩ := ih n1 d e hd a2
              (by obtain ⟨bm, arr, rfl⟩ := hbr; simp only [need] at hf ⊢; omega)
            rw [hn1] at b3
            refine ⟨n2, by simp [hlt, hx, a1, b1], b2, b3, fun _ => .inr ?_⟩
            rw [b3.length_eq]; simp [hcon]

theorem bucketRemove_loose {b : Bucket K V} {d : Nat} (q : Q) (kh : UInt64) (hok : (HNode.leaf b).OK A k z d) :
    ∃ r, b.remove o q kh = .ok (b.entries.any (fun x => x.matches o q kh), r) ∧
      match r with
      | none => b.entries.eraseP (fun x => x.matches o q kh) = []
      | some b' => (HNode.leaf b').OK A k z d ∧ b'.entries.Perm (b.entries.eraseP fun x => x.matches o q kh) ∧ b'.entries ≠ [] := by
  cases b with
  | single x =>
    simp only [Bucket.entries]
    cases hq : x.matches o q kh with
    | true => exact ⟨none, by simp [Bucket.remove, hq], by simp [hq]⟩
    | false => exact ⟨some (.single x), by simp [Bucket.remove, hq], by simp [OK], by simp [hq], by simp⟩
  | collision l =>
    rw [OK] at hok
    simp only [Bucket.entries]
    obtain ⟨l', h1, h2⟩ := listRemoveFirst_spec (p := fun x => x.matches o q kh) hok.2.1
    have hlen := eraseP_length (p := fun x => x.matches o q kh) l.head.toList
    simp only [Bucket.remove, h1, Res.ok_bind, h2.len, any_eq_find]
    generalize l.head.toList.eraseP (fun x => x.matches o q kh) = fl at h2 hlen ⊢
    match fl, h2, hlen with
    | [], _, hlen => simp at hlen; omega
    | [x], h2, _ =>
      refine ⟨some (.single x.clone), by simp [h2.first], ?_⟩
      exact ⟨by simp [OK], by simp [Bucket.entries, HEntry.clone], by simp [Bucket.entries]⟩
    | x :: y :: zs, h2, _ =>
      refine ⟨some (.collision l'), by simp, ?_, ?_, ?_⟩
      · rw [OK, h2.head]; exact ⟨hok.1, h2, by simp⟩
      · simp [Bucket.entries, h2.head]
      · simp [Bucket.entries, h2.head]

/-- `Node::remove` removes the first entry with the hash and the key, if any. -/
theorem remove_loose (c : HConf A k) (q : Q) (kh : UInt64) (n : HNode K V) : ∀ (d : Nat), d ≤ 64 → n.OK A k z d →
    ∃ n', n.remove A o q kh (2 ^ k) d = .ok (n.entries.any (fun x => x.matches o q kh), n') ∧
      n'.entries.Perm (n.entries.eraseP fun x => x.matches o q kh) ∧
      (n'.OK A k z d ∨ (n' = newEmptyBranch ∧ 64 ≤ d * k)) ∧
      (n.Compressed → n'.entries ≠ [] → z = true → n'.Compressed) := by
  induction n using HNode.induct with
  | hl b =>
    intro d hd hok
    simp only [entries_leaf]
    obtain ⟨r, h1, h2⟩ := bucketRemove_loose (o := o) q kh hok
    cases r with
    | none =>
      simp only at h2
      refine ⟨newEmptyBranch, by simp [remove, h1], by simp [entries_empty, h2], ?_, fun _ h => absurd entries_empty h⟩
      by_cases hm : 64 ≤ d * k
      · exact .inr ⟨rfl, hm⟩
      · exact .inl (ok_empty (by omega))
    | some b' => exact ⟨.leaf b', by simp [remove, h1], by simpa using h2.2.1, .inl h2.1, fun _ _ _ => .inl ⟨_, rfl⟩⟩
  | hb bm arr ih =>
    intro d hd hok
    rw [ok_branch] at hok
    obtain ⟨hd64, hrel⟩ := hok
    have hi := c.idx_lt d kh
    obtain ⟨los, his, hlo, hhi, hcase⟩ := hrel.cases hi
    simp only [remove, indexFromHash_eq c.small hd, hd64, if_true, Res.ok_bind, unwrap_some, SparseArray.slot_eq hi]
    have n1 := no_match (o := o) hlo q kh (fun i hi => below_ne hi)
    have n2 := no_match (o := o) hhi q kh (fun i hi => above_ne hi)
    rcases hcase with ⟨hb, e1⟩ | ⟨a, hb, e1, hca⟩
    · simp only at hb e1
      subst e1
      simp only [entries_branch, List.flatMap_append]
      have n12 : ∀ x ∈ los.flatMap entries ++ his.flatMap entries, x.matches o q kh = false :=
        fun x hx => (List.mem_append.1 hx).elim (n1 x) (n2 x)
      refine ⟨.branch bm (los ++ his), by simp only [hb, any_none n12]; simp, ?_, .inl ?_, fun h _ _ => h⟩
      · simp only [entries_branch, List.flatMap_append, eraseP_none n12]; exact .refl _
      · rw [ok_branch]; exact ⟨hd64, hrel⟩
    · simp only at hb e1
      subst e1
      simp only [entries_branch, List.flatMap_append, List.flatMap_cons]
      obtain ⟨a', e2, hp', hok', hc'⟩ := ih a (by simp) (d + 1) (depth_succ c hd64) hca.ok
      have hempty : a'.isEmpty A = .ok a'.entries.isEmpty := by
        rcases hok' with h | ⟨rfl, _⟩
        · exact isEmpty_ok h
        · rw [isEmpty_empty, entries_empty]; rfl
      have hany : (los.flatMap entries ++ (a.entries ++ his.flatMap entries)).any (fun x => x.matches o q kh) =
          a.entries.any fun x => x.matches o q kh := by
        rw [List.any_append, List.any_append, any_none (p := fun x => x.matches o q kh) n1,
          any_none (p := fun x => x.matches o q kh) n2]
        simp
      have hfil := eraseP_middle (a := a.entries) n1 n2
      have hperm : ((HNode.branch bm (los ++ a' :: his)).entries).Perm
          (los.flatMap entries ++ (a.entries.eraseP (fun x => x.matches o q kh) ++ his.flatMap entries)) := by
        simp only [entries_branch, List.flatMap_append, List.flatMap_cons]
        exact (hp'.append_right _).append_left _
      have hchild : a'.entries ≠ [] → Child A k z d (idx k d kh) a' := by
        intro hne
        refine ⟨?_, hne, fun hz => hc' (hca.compressed hz) hne hz, ?_⟩
        · rcases hok' with h | ⟨rfl, _⟩
          · exact h
          · exact absurd entries_empty hne
        · intro x hx
          exact hca.pos x (List.mem_of_mem_eraseP (hp'.mem_iff.1 hx))
      rw [hb]
      simp only [if_true]
      rw [removeAt_eq, vecIndex_ok (a := a) (by simp [SparseArray.forall₂_length hlo])]
      simp only [Res.ok_bind, e2]
      rw [SparseArray.writeSlot_ok (s := ⟨bm, los ++ a :: his⟩) (b := a') hlo rfl]
      simp only [Res.ok_bind, hempty, hany, hfil]
      cases hrem : a.entries.any fun x => x.matches o q kh with
      | false =>
        have hsame : a.entries.eraseP (fun x => x.matches o q kh) = a.entries :=
          eraseP_none fun x hx => by simpa using List.any_eq_false.1 hrem x hx
        have hne : a'.entries ≠ [] := by
          intro h0; rw [h0, hsame] at hp'; exact hca.nonempty (by simpa using hp'.symm)
        refine ⟨.branch bm (los ++ a' :: his), by simp, hperm, .inl ?_, ?_⟩
        · rw [ok_branch]; exact ⟨hd64, SparseArray.Rel.put_back hi hb hlo hhi (hchild hne)⟩
        · intro hc _ _
          rcases hc with ⟨b, hb⟩ | h2
          · cases hb
          · refine .inr ?_
            rw [hperm.length_eq, hsame]
            simpa using h2
      | true =>
        cases hae : a'.entries.isEmpty with
        | false =>
          have hne : a'.entries ≠ [] := by intro h0; rw [h0] at hae; simp at hae
          have hok2 : (HNode.branch bm (los ++ a' :: his)).OK A k z d := by
            rw [ok_branch]; exact ⟨hd64, SparseArray.Rel.put_back hi hb hlo hhi (hchild hne)⟩
          obtain ⟨n', c1, c2, c3, c4⟩ := compress_ok hok2
          exact ⟨n', by simp [c1], by rw [c2]; exact hperm, .inl c3, fun _ hne => c4 hne⟩
        | true =>
          have ha0 : a'.entries = [] := by simpa using hae
          have hok2 : (HNode.branch (bm ^^^ 2 ^ idx k d kh) (los ++ his)).OK A k z d := by
            rw [ok_branch]
            refine ⟨hd64, ?_⟩
            rw [SparseArray.Rel]; simp only
            rw [SparseArray.bits_xor hi hb]
            exact SparseArray.forall₂_append hlo hhi
          obtain ⟨n', c1, c2, c3, c4⟩ := compress_ok hok2
          refine ⟨n', ?_, ?_, .inl c3, fun _ hne => c4 hne⟩
          · simp only [Res.ok_bind]
            rw [SparseArray.remove_old (s := ⟨bm, los ++ a' :: his⟩) hi hb hlo rfl]
            simp [c1]
          · rw [c2]
            have : ((HNode.branch bm (los ++ a' :: his)).entries) = (HNode.branch (bm ^^^ 2 ^ idx k d kh) (los ++ his)).entries := by
              simp [ha0]
            rw [← this]; exact hperm

/-- What writing to the entry found does. -/
def modAt (p : HEntry K V → Bool) (f : HEntry K V → HEntry K V) (es : List (HEntry K V)) : List (HEntry K V) :=
  match es.find? p with
  | none => es
  | some e => f e :: es.eraseP p

theorem bucketGetMut_loose {b : Bucket K V} {d : Nat} (q : Q) (kh : UInt64) (f : HEntry K V → HEntry K V)
    (hok : (HNode.leaf b).OK A k z d) :
    ∃ b', b.getMut o q kh f = .ok (b.entries.find? (fun x => x.matches o q kh), b') ∧ (HNode.leaf b').OK A k z d ∧
      b'.entries.Perm (modAt (fun x => x.matches o q kh) f b.entries) := by
  cases b with
  | single x =>
    simp only [Bucket.entries, modAt]
    cases hq : x.matches o q kh with
    | true => exact ⟨.single (f x), by simp [Bucket.getMut, hq], by simp [OK], by simp [hq, Bucket.entries]⟩
    | false => exact ⟨.single x, by simp [Bucket.getMut, hq], by simp [OK], by simp [hq, Bucket.entries]⟩
  | collision l =>
    rw [OK] at hok
    simp only [Bucket.entries]
    obtain ⟨l', h1, h2⟩ := listRemoveFirst_spec (p := fun x => x.matches o q kh) hok.2.1
    have hlen := eraseP_length (p := fun x => x.matches o q kh) l.head.toList
    simp only [Bucket.getMut, h1, Res.ok_bind, modAt]
    cases hfind : l.head.toList.find? fun x => x.matches o q kh with
    | none =>
      rw [eraseP_none (by rw [List.find?_eq_none] at hfind; intro e he; simpa using hfind e he)] at h2
      refine ⟨.collision l', by simp, ?_, ?_⟩
      · rw [OK, h2.head]; exact ⟨hok.1, h2, hok.2.2⟩
      · simp [Bucket.entries, h2.head]
    | some e =>
      simp only
      generalize l.head.toList.eraseP (fun x => x.matches o q kh) = fl at h2 hlen ⊢
      match fl, h2, hlen with
      | [], _, hlen => simp at hlen; omega
      | y :: ys, h2, _ =>
        have h3 := h2.pushFrontMut e
        obtain ⟨l'', h4, h5⟩ := firstMutSet_spec h3 f
        refine ⟨.collision l'', by simp [h4, h3.first], ?_, ?_⟩
        · rw [OK, h5.head]; exact ⟨hok.1, h5, by simp⟩
        · simp only [Bucket.entries, h5.head]
          exact .refl _

theorem modAt_none {p : HEntry K V → Bool} {f : HEntry K V → HEntry K V} {es : List (HEntry K V)} (h : ∀ e ∈ es, p e = false) :
    modAt p f es = es := by simp [modAt, find_none' h]

theorem modAt_length (p : HEntry K V → Bool) (f : HEntry K V → HEntry K V) (es : List (HEntry K V)) :
    (modAt p f es).length = es.length := by
  unfold modAt
  cases h : es.find? p with
  | none => rfl
  | some e =>
    have hm := List.mem_of_find?_eq_some h
    have := List.length_eraseP_of_mem hm (List.find?_some h)
    have := List.length_pos_of_mem hm
    simp only [List.length_cons]; omega

theorem modAt_middle {p : HEntry K V → Bool} {f : HEntry K V → HEntry K V} {lo a hi : List (HEntry K V)}
    (h1 : ∀ x ∈ lo, p x = false) (h2 : ∀ x ∈ hi, p x = false) :
    (lo ++ (modAt p f a ++ hi)).Perm (modAt p f (lo ++ (a ++ hi))) := by
  simp only [modAt, List.find?_append, find_none' h1, find_none' h2, Option.none_or, Option.or_none]
  cases a.find? p with
  | none => exact .refl _
  | some e =>
    simp only [eraseP_middle h1 h2]
    exact List.perm_middle

/-- `Node::get_mut` and a write through the reference that keeps the hash. -/
theorem getMut_loose (c : HConf A k) (q : Q) (kh : UInt64) (f : HEntry K V → HEntry K V)
    (hf : ∀ e, (f e).keyHash = e.keyHash) (n : HNode K V) : ∀ (d : Nat), d ≤ 64 → n.OK A k z d →
    ∃ n', n.getMut A o q kh (2 ^ k) f d = .ok (n.entries.find? (fun x => x.matches o q kh), n') ∧
      n'.entries.Perm (modAt (fun x => x.matches o q kh) f n.entries) ∧ n'.OK A k z d ∧ (n.Compressed → n'.Compressed) := by
  induction n using HNode.induct with
  | hl b =>
    intro d hd hok
    simp only [entries_leaf]
    obtain ⟨b', h1, h2, h3⟩ := bucketGetMut_loose (o := o) q kh f hok
    exact ⟨.leaf b', by simp [getMut, h1], by simpa using h3, h2, fun _ => .inl ⟨_, rfl⟩⟩
  | hb bm arr ih =>
    intro d hd hok
    rw [ok_branch] at hok
    obtain ⟨hd64, hrel⟩ := hok
    have hi := c.idx_lt d kh
    obtain ⟨los, his, hlo, hhi, hcase⟩ := hrel.cases hi
    simp only [getMut, indexFromHash_eq c.small hd, hd64, if_true, Res.ok_bind, unwrap_some, SparseArray.slot_eq hi]
    have n1 := no_match (o := o) hlo q kh (fun i hi => below_ne hi)
    have n2 := no_match (o := o) hhi q kh (fun i hi => above_ne hi)
    rcases hcase with ⟨hb, e1⟩ | ⟨a, hb, e1, hca⟩
    · simp only at hb e1
      subst e1
      simp only [entries_branch, List.flatMap_append]
      have n12 : ∀ x ∈ los.flatMap entries ++ his.flatMap entries, x.matches o q kh = false :=
        fun x hx => (List.mem_append.1 hx).elim (n1 x) (n2 x)
      refine ⟨.branch bm (los ++ his), by simp only [hb, find_none' n12]; simp, ?_, ?_, fun h => h⟩
      · simp only [entries_branch, List.flatMap_append, modAt_none n12]; exact .refl _
      · rw [ok_branch]; exact ⟨hd64, hrel⟩
    · simp only at hb e1
      subst e1
      simp only [entries_branch, List.flatMap_append, List.flatMap_cons]
      obtain ⟨a', e2, hp', hok', hc'⟩ := ih a (by simp) (d + 1) (depth_succ c hd64) hca.ok
      have hperm : ((HNode.branch bm (los ++ a' :: his)).entries).Perm
          (modAt (fun x => x.matches o q kh) f (los.flatMap entries ++ (a.entries ++ his.flatMap entries))) := by
        simp only [entries_branch, List.flatMap_append, List.flatMap_cons]
        exact ((hp'.append_right _).append_left _).trans (modAt_middle n1 n2)
      rw [hb]
      simp only [if_true]
      rw [getMutAt_eq, vecIndex_ok (a := a) (by simp [SparseArray.forall₂_length hlo])]
      simp only [Res.ok_bind, e2]
      rw [SparseArray.writeSlot_ok (s := ⟨bm, los ++ a :: his⟩) (b := a') hlo rfl]
      refine ⟨.branch bm (los ++ a' :: his), ?_, hperm, ?_, ?_⟩
      · simp [List.find?_append, find_none' n1, find_none' n2]
      · rw [ok_branch]
        refine ⟨hd64, SparseArray.Rel.put_back hi hb hlo hhi ⟨hok', ?_, fun hz => hc' (hca.compressed hz), ?_⟩⟩
        · intro h0
          rw [h0] at hp'
          have := hp'.length_eq
          rw [modAt_length] at this
          exact hca.nonempty (List.length_eq_zero_iff.1 this.symm)
        · intro x hx
          have hx := hp'.mem_iff.1 hx
          unfold modAt at hx
          split at hx
          · exact hca.pos x hx
          · rename_i e he
            rcases List.mem_cons.1 hx with rfl | hx
            · rw [hf]; exact hca.pos e (List.mem_of_find?_eq_some he)
            · exact hca.pos x (List.mem_of_mem_eraseP hx)
      · intro hc
        rcases hc with ⟨b, hb⟩ | h2
        · cases hb
        · refine .inr ?_
          rw [hperm.length_eq, modAt_length]
          simpa using h2

/-- Removing an absent key gives back the very same node. -/
theorem remove_absent_loose (c : HConf A k) (q : Q) (kh : UInt64) (n : HNode K V) : ∀ (d : Nat),
    d ≤ 64 → n.OK A k z d → (∀ e ∈ n.entries, e.matches o q kh = false) →
    n.remove A o q kh (2 ^ k) d = .ok (false, n) := by
  induction n using HNode.induct with
  | hl b =>
    intro d hd hok hno
    cases b with
    | single x =>
      simp only [entries_leaf, Bucket.entries] at hno
      simp [remove, Bucket.remove, hno x (by simp)]
    | collision l =>
      rw [OK] at hok
      simp only [entries_leaf, Bucket.entries] at hno
      obtain ⟨l', h1, h2⟩ := listRemoveFirst_spec (p := fun x => x.matches o q kh) hok.2.1
      rw [find_none' hno] at h1
      rw [eraseP_none hno] at h2
      have : l' = l := h2.unique hok.2.1
      subst this
      have hlen : 2 ≤ l'.len := by rw [h2.len]; exact hok.2.2
      simp only [remove, Bucket.remove, h1, Res.ok_bind]
      match hl : l'.len, hlen with
      | n + 2, _ => simp
  | hb bm arr ih =>
    intro d hd hok hno
    rw [ok_branch] at hok
    obtain ⟨hd64, hrel⟩ := hok
    have hi := c.idx_lt d kh
    obtain ⟨los, his, hlo, hhi, hcase⟩ := hrel.cases hi
    simp only [remove, indexFromHash_eq c.small hd, hd64, if_true, Res.ok_bind, unwrap_some, SparseArray.slot_eq hi]
    rcases hcase with ⟨hb, e1⟩ | ⟨a, hb, e1, hca⟩
    · simp only at hb
      simp [hb]
    · simp only at hb e1
      subst e1
      have e2 := ih a (by simp) (d + 1) (depth_succ c hd64) hca.ok (fun e he => hno e (by simp [he]))
      rw [hb]
      simp only [if_true]
      rw [removeAt_eq, vecIndex_ok (a := a) (by simp [SparseArray.forall₂_length hlo])]
      simp only [Res.ok_bind, e2]
      rw [SparseArray.writeSlot_ok (s := ⟨bm, los ++ a :: his⟩) (b := a) hlo rfl]
      simp [isEmpty_ok hca.ok]

end HNode

namespace HTMap
variable {H K V Q : Type} {A : Arch} {m : HTMap H K V} {l : List (K × V)}

/-- What is left of the invariant of the maps: `m` is a well-formed tree (for the stored hashes) whose pairs are `l`. -/
structure Loose (A : Arch) (k : Nat) (z : Bool) (m : HTMap H K V) (l : List (K × V)) : Prop where
  degree : m.degree = 2 ^ k
  conf : HConf A k
  ok : m.root.OK A k z 0
  list : m.root.entries.map pair = l
  size : m.size = l.length

variable {k : Nat} {z : Bool}

theorem loose_empty (c : HConf A k) (hasher : H) : (⟨HNode.newEmptyBranch, 0, 2 ^ k, hasher⟩ : HTMap H K V).Loose A k z [] :=
  ⟨rfl, c, HNode.ok_empty (by omega), by simp [HNode.entries_empty], rfl⟩

theorem Loose.length (h : m.Loose A k z l) : m.root.entries.length = l.length := by rw [← h.list]; simp

theorem perm_eraseP {es : List (HEntry K V)} {p : HEntry K V → Bool} {e : HEntry K V} (h : es.find? p = some e) :
    es.Perm (e :: es.eraseP p) := by
  induction es with
  | nil => cases h
  | cons x es ih =>
    rw [List.find?_cons] at h
    rw [List.eraseP_cons]
    cases hp : p x with
    | true => rw [hp] at h; cases h; exact .refl _
    | false =>
      rw [hp] at h
      exact ((ih h).cons x).trans (.swap _ _ _)

theorem matches_hits {o : HashKeys H K Q} {e : HEntry K V} {q : Q} {kh : UInt64} (h : e.matches o q kh = true) :
    o.eqKQ e.key q = true := by
  simp only [HEntry.matches, Bool.and_eq_true] at h
  exact h.2

theorem found_hits {o : HashKeys H K Q} {es : List (HEntry K V)} {e : HEntry K V} {q : Q} {kh : UInt64}
    (h : es.find? (fun x => x.matches o q kh) = some e) : o.eqKQ e.key q = true := by
  have := List.find?_some h
  exact matches_hits this

theorem Loose.insertMut (h : m.Loose A k z l) (o : HashKeys H K Q) (key : K) (v : V) :
    ∃ m' l', m.insertMut A o key v = .ok m' ∧ m'.Loose A k z l' ∧ LooseInsert o.eqK key v l l' := by
  obtain ⟨n', h1, h2, h3, _⟩ := HNode.insert_loose (o := o) h.conf insertFuel m.root 0 (HEntry.new o m.hasher key v) (by omega)
    h.ok (by simp only [HNode.need, insertFuel]; split <;> omega)
  generalize hp : (fun x : HEntry K V => x.matches o.self (HEntry.new o m.hasher key v).key (HEntry.new o m.hasher key v).keyHash) = p at h1 h3
  refine ⟨⟨n', if !m.root.entries.any p then m.size + 1 else m.size, 2 ^ k, m.hasher⟩, _,
    by rw [HTMap.insertMut, HNode.clone_eq, h.degree]; simp only [h1, Res.ok_bind]; rfl, ⟨rfl, h.conf, h2, rfl, ?_⟩, ?_⟩
  · rw [List.length_map, h3.length_eq, List.length_cons, any_eq_find]
    simp only [h.size]
    rw [← h.length]
    cases hf : m.root.entries.find? p with
    | none => rw [HNode.eraseP_none (by rw [List.find?_eq_none] at hf; intro e he; simpa using hf e he)]; simp
    | some e => have := (perm_eraseP hf).length_eq; simp only [List.length_cons] at this; simpa using this
  · simp only
    cases hf : m.root.entries.find? p with
    | none =>
      rw [HNode.eraseP_none (by rw [List.find?_eq_none] at hf; intro e he; simpa using hf e he)] at h3
      refine .added ?_
      rw [← h.list]
      exact h3.map pair
    | some e =>
      refine .replaced (pair e) ((m.root.entries.eraseP p).map pair) ?_ ?_ (h3.map pair)
      · have := List.find?_some hf
        rw [← hp] at this
        exact matches_hits this
      · rw [← h.list]; exact (perm_eraseP hf).map pair

theorem Loose.removeMut (h : m.Loose A k z l) (o : HashKeys H K Q) (q : Q) :
    ∃ b m' l', m.removeMut A o q = .ok (b, m') ∧ m'.Loose A k z l' ∧ LooseRemove o.eqKQ q l l' b ∧ (b = false → m' = m) := by
  obtain ⟨n', h1, h2, h3, _⟩ := HNode.remove_loose (o := o) h.conf q (o.hashQ m.hasher q) m.root 0 (by omega) h.ok
  have hok : n'.OK A k z 0 := h3.resolve_right (by omega)
  rw [any_eq_find] at h1
  cases hf : m.root.entries.find? fun x => x.matches o q (o.hashQ m.hasher q) with
  | none =>
    rw [hf] at h1
    have hno : ∀ e ∈ m.root.entries, e.matches o q (o.hashQ m.hasher q) = false := by
      rw [List.find?_eq_none] at hf; intro e he; simpa using hf e he
    have hab := HNode.remove_absent_loose (o := o) h.conf q (o.hashQ m.hasher q) m.root 0 (by omega) h.ok hno
    refine ⟨false, m, l, ?_, h, .absent (.refl _), fun _ => rfl⟩
    rw [HTMap.removeMut, HNode.clone_eq, h.degree, hab]
    simp [← h.degree]
  | some e =>
    rw [hf] at h1
    have hpe := perm_eraseP hf
    have hlen := hpe.length_eq
    simp only [List.length_cons, h.length] at hlen
    refine ⟨true, { m with root := n', size := m.size - 1 }, _, ?_, ⟨h.degree, h.conf, hok, rfl, ?_⟩,
      .removed (pair e) (found_hits hf) ?_, by simp⟩
    · rw [HTMap.removeMut, HNode.clone_eq, h.degree, h1]
      simp only [Res.ok_bind, Option.isSome_some, if_true]
      rw [csub_ok (by rw [h.size]; omega)]
      simp [h.degree]
    · simp only [List.length_map, h2.length_eq, h.size]; omega
    · rw [← h.list]
      exact (hpe.map pair).trans ((h2.map pair).symm.cons _)

theorem Loose.getMut (h : m.Loose A k z l) (o : HashKeys H K Q) (q : Q) (f : V → V) :
    ∃ x m' l', m.getMut A o q f = .ok (x, m') ∧ m'.Loose A k z l' ∧ LooseModify o.eqKQ q f l l' x := by
  obtain ⟨n', h1, h2, h3, _⟩ := HNode.getMut_loose (o := o) h.conf q (o.hashQ m.hasher q) (fun e => e.valueMut f) (fun _ => rfl) m.root 0
    (by omega) h.ok
  refine ⟨_, { m with root := n' }, _, by rw [HTMap.getMut, HNode.clone_eq, h.degree]; simp only [h1, Res.ok_bind]; rfl,
    ⟨h.degree, h.conf, h3, rfl, ?_⟩, ?_⟩
  · simp only [List.length_map, h2.length_eq, HNode.modAt_length]
    rw [h.size, h.length]
  · simp only
    cases hf : m.root.entries.find? fun x => x.matches o q (o.hashQ m.hasher q) with
    | none =>
      simp only [HNode.modAt, hf] at h2
      exact .absent (by rw [← h.list]; exact h2.map pair)
    | some e =>
      simp only [HNode.modAt, hf] at h2
      refine .modified (pair e) ((m.root.entries.eraseP _).map pair) (found_hits hf) ?_ (h2.map pair)
      rw [← h.list]; exact (perm_eraseP hf).map pair

theorem Loose.lookup (h : m.Loose A k z l) (o : HashKeys H K Q) (q : Q) :
    ∃ oe, m.lookup A o q = .ok oe ∧ ∀ e, oe = some e → pair e ∈ l ∧ o.eqKQ e.key q = true := by
  refine ⟨_, by rw [HTMap.lookup, h.degree]; exact HNode.get_loose h.conf q _ m.root 0 (by omega) h.ok, fun e he => ⟨?_, ?_⟩⟩
  · rw [← h.list]; exact List.mem_map_of_mem (List.mem_of_find?_eq_some he)
  · exact found_hits he

theorem Loose.step (h : m.Loose A k z l) (o : HashKeys H K Q) (op : MapOp K V Q) :
    ∃ r e f, m.step A o op = .ok (r, e) ∧ LooseStep o.eqK o.eqKQ l op r f ∧ Effect.Rel (fun m l => m.Loose A k z l) e f := by
  cases op with
  | insert key v =>
    obtain ⟨m', l', h1, h2, h3⟩ := h.insertMut o key v
    exact ⟨_, _, _, by simp only [HTMap.step, HTMap.insert, Rep.clone_eq, h1]; rfl, .insert h3, .fresh h2⟩
  | insertMut key v =>
    obtain ⟨m', l', h1, h2, h3⟩ := h.insertMut o key v
    exact ⟨_, _, _, by simp only [HTMap.step, h1]; rfl, .insertMut h3, .update h2⟩
  | remove q =>
    obtain ⟨b, m', l', h1, h2, h3, h4⟩ := h.removeMut o q
    cases b with
    | true => exact ⟨_, _, _, by simp only [HTMap.step, HTMap.remove, Rep.clone_eq, h1]; rfl, .remove h3, .fresh h2⟩
    | false => exact ⟨_, _, _, by simp only [HTMap.step, HTMap.remove, Rep.clone_eq, h1]; rfl, .remove (.absent (.refl _)), .fresh h⟩
  | removeMut q =>
    obtain ⟨b, m', l', h1, h2, h3, _⟩ := h.removeMut o q
    exact ⟨_, _, _, by simp only [HTMap.step, h1]; rfl, .removeMut h3, .update h2⟩
  | getMut q f =>
    obtain ⟨x, m', l', h1, h2, h3⟩ := h.getMut o q f
    exact ⟨_, _, _, by simp only [HTMap.step, h1]; rfl, .getMut h3, .update h2⟩
  | clone => exact ⟨_, _, _, rfl, .clone, .fresh h⟩
  | get q =>
    obtain ⟨oe, h1, h2⟩ := h.lookup o q
    refine ⟨_, _, _, by simp only [HTMap.step, HTMap.get, h1, Res.ok_bind, Res.pure_eq]; rfl, .get ?_, .keep⟩
    intro v hv
    cases oe with
    | none => cases hv
    | some e => cases hv; exact ⟨pair e, (h2 e rfl).1, (h2 e rfl).2, rfl⟩
  | getKeyValue q =>
    obtain ⟨oe, h1, h2⟩ := h.lookup o q
    refine ⟨_, _, _, by simp only [HTMap.step, HTMap.getKeyValue, h1, Res.ok_bind, Res.pure_eq]; rfl, .getKeyValue ?_, .keep⟩
    intro v hv
    cases oe with
    | none => cases hv
    | some e => cases hv; exact h2 e rfl
  | containsKey q =>
    obtain ⟨oe, h1, h2⟩ := h.lookup o q
    refine ⟨_, _, _, by simp only [HTMap.step, HTMap.containsKey, HTMap.get, h1, Res.ok_bind, Res.pure_eq]; rfl, .containsKey ?_, .keep⟩
    intro hv
    cases oe with
    | none => cases hv
    | some e => exact ⟨pair e, h2 e rfl⟩
  | index q =>
    obtain ⟨oe, h1, h2⟩ := h.lookup o q
    cases oe with
    | none => exact ⟨.panicked, .keep, .keep, by simp [HTMap.step, HTMap.index, HTMap.get, h1, unwrap], .indexPanic, .keep⟩
    | some e =>
      exact ⟨.optV (some (pair e).2), .keep, .keep, by simp [HTMap.step, HTMap.index, HTMap.get, h1, unwrap, pair],
        .index (h2 e rfl).1 (h2 e rfl).2, .keep⟩
  | size =>
    refine ⟨_, .keep, .keep, ?_, .size, .keep⟩
    simp [HTMap.step, HTMap.getSize, h.size]
  | isEmpty =>
    refine ⟨_, .keep, .keep, ?_, .isEmpty, .keep⟩
    simp only [HTMap.step, HTMap.isEmpty, HTMap.getSize, h.size]
    cases l <;> rfl

theorem Loose.insertAll (h : m.Loose A k z l) (o : HashKeys H K Q) (kvs : List (K × V)) :
    ∃ m' l', m.insertAll A o kvs = .ok m' ∧ m'.Loose A k z l' := by
  induction kvs generalizing m l with
  | nil => exact ⟨m, l, rfl, h⟩
  | cons p kvs ih =>
    obtain ⟨key, v⟩ := p
    obtain ⟨m', l', h1, h2, _⟩ := h.insertMut o key v
    obtain ⟨m'', l'', h3, h4⟩ := ih h2
    exact ⟨m'', l'', by simp only [HTMap.insertAll, h1]; exact h3, h4⟩

theorem Loose.visitLoop {E : Type} (h : m.Loose A k z l) (o : HashKeys H K Q) (input : List (Except E (K × V))) :
    ∃ x, m.visitLoop A o input = .ok x ∧ ∀ m', x = .ok m' → ∃ l', m'.Loose A k z l' := by
  induction input generalizing m l with
  | nil => exact ⟨.ok m, rfl, fun m' h' => by cases h'; exact ⟨l, h⟩⟩
  | cons p input ih =>
    cases p with
    | error e => exact ⟨.error e, rfl, fun m' h' => by cases h'⟩
    | ok p =>
      obtain ⟨key, v⟩ := p
      obtain ⟨m', l', h1, h2, _⟩ := h.insertMut o key v
      obtain ⟨x, h3, h4⟩ := ih h2
      exact ⟨x, by simp only [HTMap.visitLoop, h1]; exact h3, h4⟩

theorem new_loose (hA : StdWord A) (hasher : H) : ∃ k, ∃ m : HTMap H K V, new A hasher = .ok m ∧ m.Loose A k true [] := by
  let o : HashKeys H K K := ⟨id, fun _ _ => 0, fun _ _ => 0, fun _ _ => true, fun _ _ => true⟩
  obtain ⟨k, m, h1, h2, _⟩ := new_rep (K := K) (V := V) (o := o) hA hasher
  exact ⟨k, m, h1, h2.degree, h2.conf, h2.ok, List.Perm.eq_nil h2.perm, h2.size⟩

/-- All maps a program can obtain when every operation may hash and compare keys in its own way. -/
abbrev ReachAny (A : Arch) (Q : Type) (m : HTMap H K V) : Prop :=
  Reachable (fun m => ∃ o : HashKeys H K Q, Init A o m) (fun m (p : HashKeys H K Q × MapOp K V Q) => HTMap.step A p.1 m p.2) m

theorem ReachAny.loose (hA : StdWord A) (h : ReachAny A Q m) : ∃ k l, m.Loose A k true l := by
  refine Reachable.inv (Inv := fun m => ∃ k l, m.Loose A k true l) ?_ ?_ ?_ h
  · rintro m ⟨o, hi⟩
    cases hi with
    | newWithDegree h2 h =>
      obtain ⟨k, c, rfl, rfl⟩ := newWithDegree_ok h h2
      exact ⟨k, [], loose_empty c _⟩
    | @new hasher _ h =>
      obtain ⟨k, m', h1, h2⟩ := new_loose (K := K) (V := V) hA hasher
      rw [h] at h1; cases h1; exact ⟨k, _, h2⟩
    | @fromIter hasher kvs _ h =>
      obtain ⟨k, m', h1, h2⟩ := new_loose (K := K) (V := V) hA hasher
      obtain ⟨m'', l', h3, h4⟩ := h2.insertAll o kvs
      simp only [HTMap.fromIter, h1, Res.ok_bind, h3] at h
      cases h; exact ⟨k, l', h4⟩
    | @deserialize E hasher input _ h =>
      obtain ⟨k, m', h1, h2⟩ := new_loose (K := K) (V := V) hA hasher
      obtain ⟨x, h3, h4⟩ := h2.visitLoop o input
      simp only [HTMap.deserialize, h1, Res.ok_bind, h3] at h
      cases h; exact ⟨k, h4 _ rfl⟩
  all_goals
    rintro m ⟨o, op⟩ r m' ⟨k, l, hl⟩ hs
    obtain ⟨r', e, f, h1, h2, h3⟩ := hl.step o op
    simp only at hs
    rw [h1] at hs
    cases hs
    cases h3
    exact ⟨k, _, ‹_›⟩

theorem Loose.iter (h : m.Loose A k z l) : m.iter.Rep A k m.root.entries :=
  HIter.rep_new h.ok (by rw [h.size, h.length])

theorem Loose.drives (h : m.Loose A k z l) : Drives HTMap.iterNext m.iter l := by
  have := h.iter.drives (pair (K := K) (V := V))
  rw [h.list] at this
  exact this

end HTMap
end Rpds
