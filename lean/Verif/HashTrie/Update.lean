import Verif.HashTrie.Lemmas
/-
`Node::insert`, `remove`, `get_mut` and what they do to the entries.
-/
set_option autoImplicit false
namespace Rpds
open Spec

namespace HNode
variable {H K V Q : Type} {A : Arch} {o : HashKeys H K Q} {k : Nat} {z : Bool}

/-- Keys of the entries are pairwise different. -/
def Apart (o : HashKeys H K Q) (es : List (HEntry K V)) : Prop := es.Pairwise fun a b => o.eqK a.key b.key = false

theorem Apart.atMostOne (lo : o.Lawful) {es : List (HEntry K V)} (h : Apart o es) (q : Q) :
    AtMostOne (fun e => o.eqKQ e.key q) es :=
  h.imp fun hab ⟨h1, h2⟩ => by rw [lo.keyLaws.hits_inj _ _ _ h1 h2] at hab; cases hab

theorem Apart.atMostOneK (lo : o.Lawful) {es : List (HEntry K V)} (h : Apart o es) (q : K) :
    AtMostOne (fun e => o.eqK e.key q) es :=
  Apart.atMostOne (o := o.self) lo.self h q

theorem Apart.append_left {a b : List (HEntry K V)} (h : Apart o (a ++ b)) : Apart o a := (List.pairwise_append.1 h).1
theorem Apart.append_right {a b : List (HEntry K V)} (h : Apart o (a ++ b)) : Apart o b := (List.pairwise_append.1 h).2.1

theorem filter_none {es : List (HEntry K V)} {p : HEntry K V → Bool} (h : ∀ e ∈ es, p e = false) :
    es.filter (fun e => !p e) = es := by
  rw [List.filter_eq_self]; intro e he; simp [h e he]

theorem any_none {es : List (HEntry K V)} {p : HEntry K V → Bool} (h : ∀ e ∈ es, p e = false) : es.any p = false := by
  rw [List.any_eq_false]; intro e he; simp [h e he]

theorem compressed_of_length {n : HNode K V} {es : List (HEntry K V)} (hp : n.entries.length = es.length) (h : 2 ≤ es.length) :
    n.Compressed := .inr (by omega)

theorem insert_length {es : List (HEntry K V)} {p : HEntry K V → Bool} (h : AtMostOne p es) (e : HEntry K V) :
    es.length ≤ (e :: es.filter fun x => !p x).length := by
  have := filter_length_of_find h
  simp only [List.length_cons]
  split at this <;> omega

/-- `Bucket::insert` at maximum depth, or when the key is in the bucket. -/
theorem bucketInsert_ok (lo : o.Lawful) (h : H) {b : Bucket K V} {d : Nat} {e : HEntry K V} (hok : (HNode.leaf b).OK A k true d)
    (hg : Good o h b.entries) (he : e.keyHash = o.hashK h e.key) (ha : Apart o b.entries)
    (hc : 64 ≤ d * k ∨ b.entries.any (fun x => o.eqK x.key e.key) = true) :
    ∃ b', b.insert o e = .ok (!b.entries.any (fun x => o.eqK x.key e.key), b') ∧ (HNode.leaf b').OK A k true d ∧
      b'.entries.Perm (e :: b.entries.filter fun x => !o.eqK x.key e.key) := by
  have hm : ∀ x : HEntry K V, x.keyHash = o.hashK h x.key → x.matches o.self e.key e.keyHash = o.eqK x.key e.key := by
    intro x hx
    rw [he]; exact matches_eq (o := o.self) lo.self hx e.key
  cases b with
  | single x =>
    simp only [Bucket.entries] at hg hc ⊢
    have hx := hm x (hg x (by simp))
    cases hq : o.eqK x.key e.key with
    | true => exact ⟨.single e, by simp [Bucket.insert, hx, hq], by simp [OK], by simp [hq, Bucket.entries]⟩
    | false =>
      have hr := ((RList.rep_new (T := HEntry K V)).pushFrontMut x.clone).pushFrontMut e
      have hl := hr.head
      refine ⟨.collision ((RList.new.pushFrontMut x.clone).pushFrontMut e), by simp [Bucket.insert, hx, hq], ?_, ?_⟩
      · rw [OK, hl]; exact ⟨by simpa [hq] using hc, hr, by simp⟩
      · simp only [Bucket.entries, hl]; simp [hq, HEntry.clone]
  | collision l =>
    rw [OK] at hok
    simp only [Bucket.entries] at hg hc ha ⊢
    obtain ⟨l', h1, h2⟩ := listRemoveFirst_spec (p := fun x => x.matches o.self e.key e.keyHash) hok.2.1
    rw [he] at h1 h2
    have hfind := find_matches (o := o.self) lo.self hg e.key
    have herase := eraseP_matches (o := o.self) lo.self hg e.key
    change l.head.toList.find? (fun x => x.matches o.self e.key (o.hashK h e.key)) = l.head.toList.find? (fun x => o.eqK x.key e.key) at hfind
    change l.head.toList.eraseP (fun x => x.matches o.self e.key (o.hashK h e.key)) = l.head.toList.eraseP (fun x => o.eqK x.key e.key) at herase
    have hone := ha.atMostOneK lo e.key
    rw [hfind] at h1
    rw [herase, eraseP_eq_filter hone] at h2
    have hr := h2.pushFrontMut e
    have hlen := insert_length hone e
    refine ⟨.collision (l'.pushFrontMut e), ?_, ?_, ?_⟩
    · simp only [Bucket.insert, he, h1, Res.ok_bind, any_eq_find, Res.pure_eq]
    · rw [OK, hr.head]; exact ⟨hok.1, hr, by omega⟩
    · simp [Bucket.entries, hr.head]

/-- Fuel needed by `Node::insert`. -/
def need (n : HNode K V) (d : Nat) : Nat := 2 * (64 - d) + (match n with | .leaf _ => 2 | .branch _ _ => 1)

theorem ok_empty {d : Nat} (hd : d * k < 64) : (newEmptyBranch : HNode K V).OK A k z d := by
  rw [newEmptyBranch, ok_branch]
  exact ⟨hd, SparseArray.rel_new⟩

theorem entries_empty : (newEmptyBranch : HNode K V).entries = [] := by
  simp [newEmptyBranch, SparseArray.new]

theorem perm_middle_filter {p : HEntry K V → Bool} {lo a hi a' : List (HEntry K V)} {e : HEntry K V}
    (h1 : ∀ x ∈ lo, p x = false) (h2 : ∀ x ∈ hi, p x = false) (hp : a'.Perm (e :: a.filter fun x => !p x)) :
    (lo ++ (a' ++ hi)).Perm (e :: (lo ++ (a ++ hi)).filter fun x => !p x) := by
  simp only [List.filter_append, filter_none h1, filter_none h2]
  have : (lo ++ (a' ++ hi)).Perm (lo ++ ((e :: a.filter fun x => !p x) ++ hi)) := (hp.append_right hi).append_left lo
  exact this.trans (List.perm_middle)

/-- `Node::insert` replaces the entry with the same key, if any, or adds the entry. -/
theorem insert_ok (lo : o.Lawful) (c : HConf A k) (h : H) (fuel : Nat) : ∀ (n : HNode K V) (d : Nat) (e : HEntry K V),
    d ≤ 64 → n.OK A k true d → Good o h n.entries → e.keyHash = o.hashK h e.key → Apart o n.entries → need n d ≤ fuel →
    ∃ n', n.insert A o (2 ^ k) fuel e d = .ok (!n.entries.any (fun x => o.eqK x.key e.key), n') ∧ n'.OK A k true d ∧
      n'.entries.Perm (e :: n.entries.filter fun x => !o.eqK x.key e.key) ∧ (n.Compressed → n'.Compressed) := by
  induction fuel with
  | zero => intro n d e _ _ _ _ _ hf; simp only [need] at hf; split at hf <;> omega
  | succ fuel ih =>
    intro n d e hd hok hg he ha hf
    cases n with
    | branch bm arr =>
      rw [ok_branch] at hok
      obtain ⟨hd64, hrel⟩ := hok
      have hi := c.idx_lt d e.keyHash
      have hhash : e.keyHash = o.self.hashQ h e.key := he
      obtain ⟨los, his, hlo, hhi, hcase⟩ := hrel.cases hi
      have hone := ha.atMostOneK lo e.key
      have hcomp : ∀ n' : HNode K V, n'.entries.Perm (e :: (HNode.branch bm arr).entries.filter fun x => !o.eqK x.key e.key) →
          (HNode.branch bm arr).Compressed → n'.Compressed := by
        intro n' hp hc
        rcases hc with ⟨b, hb⟩ | hc
        · cases hb
        · have := insert_length hone e
          exact compressed_of_length hp.length_eq (by omega)
      simp only [insert, indexFromHash_eq c.small hd, hd64, if_true, Res.ok_bind, unwrap_some, SparseArray.slot_eq hi]
      rcases hcase with ⟨hb, e1⟩ | ⟨a, hb, e1, hca⟩
      · simp only at hb e1
        subst e1
        simp only [entries_branch, List.flatMap_append] at hg ha hcomp ⊢
        rw [Good.append] at hg
        have n1 := no_hit (o := o.self) lo.self hlo hg.1 e.key (fun i hi => by rw [← hhash]; exact below_ne hi)
        have n2 := no_hit (o := o.self) lo.self hhi hg.2 e.key (fun i hi => by rw [← hhash]; exact above_ne hi)
        have n12 : ∀ x ∈ los.flatMap entries ++ his.flatMap entries, o.eqK x.key e.key = false :=
          fun x hx => (List.mem_append.1 hx).elim (n1 x) (n2 x)
        rw [hb]
        simp only [Bool.false_eq_true, if_false, Res.ok_bind]
        rw [SparseArray.set_new (b := HNode.leaf (.single e)) hi hb hlo rfl]
        simp only [Res.ok_bind, any_none n12, Res.pure_eq, Bool.not_false]
        have hp : ((HNode.branch (bm ||| 2 ^ idx k d e.keyHash) (los ++ HNode.leaf (.single e) :: his)).entries).Perm
            (e :: (los.flatMap entries ++ his.flatMap entries).filter fun x => !o.eqK x.key e.key) := by
          rw [filter_none n12]
          simp only [entries_branch, List.flatMap_append, List.flatMap_cons, entries_leaf, Bucket.entries]
          exact List.perm_middle
        refine ⟨_, rfl, ?_, hp, hcomp _ hp⟩
        rw [ok_branch]
        refine ⟨hd64, ?_⟩
        rw [SparseArray.Rel]; simp only
        rw [SparseArray.bits_or hi]
        refine SparseArray.forall₂_append hlo (.cons ⟨by simp [OK], by simp [Bucket.entries], fun _ => .inl ⟨_, rfl⟩, ?_⟩ hhi)
        intro x hx; simp only [entries_leaf, Bucket.entries, List.mem_singleton] at hx; rw [hx]
      · simp only at hb e1
        subst e1
        simp only [entries_branch, List.flatMap_append, List.flatMap_cons] at hg ha hcomp ⊢
        rw [Good.append, Good.append] at hg
        have n1 := no_hit (o := o.self) lo.self hlo hg.1 e.key (fun i hi => by rw [← hhash]; exact below_ne hi)
        have n2 := no_hit (o := o.self) lo.self hhi hg.2.2 e.key (fun i hi => by rw [← hhash]; exact above_ne hi)
        obtain ⟨a', e2, hok', hp', hc'⟩ := ih a (d + 1) e (depth_succ c hd64) hca.ok hg.2.1 he ha.append_right.append_left
          (by simp only [need] at hf ⊢; have := depth_succ c hd64; split <;> omega)
        rw [hb]
        simp only [if_true]
        rw [vecIndex_ok (a := a) (by simp [SparseArray.forall₂_length hlo])]
        simp only [Res.ok_bind, e2]
        rw [SparseArray.writeSlot_ok (s := ⟨bm, los ++ a :: his⟩) (b := a') hlo rfl]
        have hp : ((HNode.branch bm (los ++ a' :: his)).entries).Perm
            (e :: (los.flatMap entries ++ (a.entries ++ his.flatMap entries)).filter fun x => !o.eqK x.key e.key) := by
          simp only [entries_branch, List.flatMap_append, List.flatMap_cons]
          exact perm_middle_filter n1 n2 hp'
        refine ⟨_, ?_, ?_, hp, hcomp _ hp⟩
        · simp only [Res.ok_bind, Res.pure_eq, List.any_append]
          rw [any_none (p := fun x => o.eqK x.key e.key) n1, any_none (p := fun x => o.eqK x.key e.key) n2]
          simp
        · rw [ok_branch]
          refine ⟨hd64, SparseArray.Rel.put_back hi hb hlo hhi ⟨hok', ?_, fun hz => hc' (hca.compressed hz), ?_⟩⟩
          · intro h0; rw [h0] at hp'; exact absurd hp'.length_eq (by simp)
          · intro x hx
            rcases List.mem_cons.1 (hp'.mem_iff.1 hx) with rfl | hx
            · rfl
            · exact hca.pos x (List.mem_filter.1 hx).1
    | leaf b =>
      have hcont : b.containsKey o.self e.key e.keyHash = .ok (b.entries.any fun x => o.eqK x.key e.key) := by
        have := Bucket_get_eq (o := o.self) lo.self (h := h) hok (fun x hx => hg x (by simpa using hx)) e.key
        rw [Bucket.containsKey, he]
        change (b.get o.self e.key (o.hashK h e.key) >>= _) = _
        change b.get o.self e.key (o.hashK h e.key) = _ at this
        rw [this]
        simp only [Res.ok_bind, any_eq_find, Res.pure_eq]
        rfl
      simp only [insert, indexFromHash_eq c.small hd, Res.ok_bind, hcont]
      simp only [entries_leaf] at hg ha ⊢
      by_cases hmax : 64 ≤ d * k
      · obtain ⟨b', e1, e2, e3⟩ := bucketInsert_ok lo h hok hg he ha (.inl hmax)
        have : ¬ d * k < 64 := by omega
        exact ⟨.leaf b', by simp [this, e1], e2, by simpa using e3, fun _ => .inl ⟨_, rfl⟩⟩
      · have hlt : d * k < 64 := by omega
        cases hcon : b.entries.any fun x => o.eqK x.key e.key with
        | true =>
          obtain ⟨b', e1, e2, e3⟩ := bucketInsert_ok lo h hok hg he ha (.inr hcon)
          rw [hcon] at e1
          exact ⟨.leaf b', by simp [hlt, e1], e2, by simpa using e3, fun _ => .inl ⟨_, rfl⟩⟩
        | false =>
          cases b with
          | collision l => rw [OK] at hok; omega
          | single x =>
            simp only [Bucket.entries, List.any_cons, List.any_nil, Bool.or_false] at hcon hg ha ⊢
            obtain ⟨n1, a1, a2, a3, _⟩ := ih newEmptyBranch d x.clone hd (ok_empty hlt) (by simp [entries_empty, Good])
              (by simpa [HEntry.clone] using hg x (by simp)) (by simp [entries_empty, Apart])
              (by simp only [need, newEmptyBranch] at hf ⊢; omega)
            simp only [entries_empty, List.filter_nil] at a3
            have hx : x.clone = x := rfl
            rw [hx] at a1 a3
            have hn1 : n1.entries = [x] := List.perm_singleton.1 a3
            have hbr : ∃ bm arr, n1 = .branch bm arr := by
              cases n1 with
              | branch bm arr => exact ⟨bm, arr, rfl⟩
              | leaf b =>
                exfalso
                cases fuel with
                | zero => simp [insert] at a1
                | succ f =>
                  have hi := c.idx_lt d x.keyHash
                  simp only [newEmptyBranch, insert, indexFromHash_eq c.small hd, hlt, if_true, Res.ok_bind, unwrap_some,
                    SparseArray.slot_eq hi, SparseArray.new, Nat.zero_testBit, Bool.false_eq_true, if_false] at a1
                  cases hs : SparseArray.set A ⟨0, []⟩ (idx k d x.keyHash) (HNode.leaf (.single x)) with
                  | error _ => rw [hs] at a1; simp at a1
                  | ok s => rw [hs] at a1; simp at a1
            obtain ⟨n2, b1, b2, b3, _⟩ := ih n1 d e hd a2 (by rw [hn1]; exact hg) he (by rw [hn1]; exact ha)
              (by obtain ⟨bm, arr, rfl⟩ := hbr; simp only [need] at hf ⊢; omega)
            rw [hn1] at b3
            refine ⟨n2, by simp [hlt, hx, a1, b1], b2, b3, fun _ => .inr ?_⟩
            rw [b3.length_eq]; simp [hcon]

/-- More fuel does not change the result of `Node::insert`. -/
theorem insert_fuel_mono {degree : Nat} (fuel : Nat) : ∀ (n : HNode K V) (d : Nat) (e : HEntry K V) (r : Bool × HNode K V),
    n.insert A o degree fuel e d = .ok r → n.insert A o degree (fuel + 1) e d = .ok r := by
  induction fuel with
  | zero => intro n d e r h; simp [insert] at h
  | succ fuel ih =>
    intro n d e r h
    cases n with
    | branch bm arr =>
      rw [insert] at h ⊢
      cases hi : indexFromHash A e.keyHash d degree with
      | error x => rw [hi] at h; simp at h
      | ok oi =>
        rw [hi] at h
        cases oi with
        | none => simp at h
        | some i =>
          simp only [Res.ok_bind, unwrap_some] at h ⊢
          cases hs : SparseArray.slot A bm i with
          | error x => rw [hs] at h; simp at h
          | ok os =>
            rw [hs] at h
            cases os with
            | none => simpa using h
            | some j =>
              simp only [Res.ok_bind] at h ⊢
              cases hv : vecIndex arr j with
              | error x => rw [hv] at h; simp at h
              | ok cc =>
                rw [hv] at h
                simp only [Res.ok_bind] at h ⊢
                cases hins : cc.insert A o degree fuel e (d + 1) with
                | error x => rw [hins] at h; simp at h
                | ok rr => rw [hins] at h; rw [ih _ _ _ _ hins]; exact h
    | leaf b =>
      rw [insert.eq_def] at h ⊢
      simp only at h ⊢
      cases hi : indexFromHash A e.keyHash d degree with
      | error x => rw [hi] at h; simp at h
      | ok oi =>
        rw [hi] at h
        simp only [Res.ok_bind] at h ⊢
        cases hc : b.containsKey o.self e.key e.keyHash with
        | error x => rw [hc] at h; simp at h
        | ok bb =>
          rw [hc] at h
          simp only [Res.ok_bind] at h ⊢
          cases oi with
          | none => simpa using h
          | some i =>
            cases bb with
            | true => simpa using h
            | false =>
              cases b with
              | collision l => simpa using h
              | single x =>
                simp only [Option.isNone_some, Bool.not_false, if_true, Bool.false_eq_true, if_false] at h ⊢
                cases h1 : newEmptyBranch.insert A o degree fuel x.clone d with
                | error x => rw [h1] at h; simp at h
                | ok r1 =>
                  rw [h1] at h
                  rw [ih _ _ _ _ h1]
                  simp only [Res.ok_bind] at h ⊢
                  cases h2 : r1.2.insert A o degree fuel e d with
                  | error x => rw [h2] at h; simp at h
                  | ok r2 => rw [h2] at h; rw [ih _ _ _ _ h2]; exact h

/-! ### Compression and removal -/

theorem isEmpty_ok {n : HNode K V} {d : Nat} (hok : n.OK A k z d) : n.isEmpty A = .ok n.entries.isEmpty := by
  cases n with
  | branch bm arr =>
    rw [ok_branch] at hok
    have hs := hok.2.size
    simp only [isEmpty, hs, entries_branch, Res.pure_eq]
    cases arr with
    | nil => rfl
    | cons c arr =>
      obtain ⟨i, _, hc⟩ := SparseArray.forall₂_mem hok.2 (b := c) (by simp)
      have := hc.nonempty
      cases hce : c.entries with
      | nil => exact absurd hce this
      | cons x xs => simp [hce]
  | leaf b =>
    cases b with
    | single e => simp [isEmpty, Bucket.entries]
    | collision l =>
      rw [OK] at hok
      have h2 : 2 ≤ l.len := by rw [hok.2.1.len]; exact hok.2.2
      simp only [isEmpty, entries_leaf, Bucket.entries, decide_eq_true h2, ge_iff_le, Arch.debugAssert_true, Res.ok_bind, Res.pure_eq]
      cases hx : l.head.toList with
      | nil => rw [hx] at hok; simp at hok
      | cons x xs => rfl

theorem isEmpty_empty : (newEmptyBranch : HNode K V).isEmpty A = .ok true := by
  simp [isEmpty, newEmptyBranch, SparseArray.size, SparseArray.new, SparseArray.countOnes_eq, SparseArray.bits_zero]

theorem compress_ok {bm d : Nat} {arr : List (HNode K V)} (hok : (HNode.branch bm arr).OK A k z d) :
    ∃ n', compress A (.branch bm arr) = .ok n' ∧ n'.entries = (HNode.branch bm arr).entries ∧ n'.OK A k z d ∧
      (n'.entries ≠ [] → z = true → n'.Compressed) := by
  have hok' := hok
  rw [ok_branch] at hok
  have hs := hok.2.size
  simp only [compress, hs]
  match arr, hok, hs with
  | [], hok, hs => exact ⟨_, rfl, rfl, hok', fun h => absurd (by simp) h⟩
  | [ch], hok, hs =>
    obtain ⟨i, _, hc⟩ := SparseArray.forall₂_mem hok.2 (b := ch) (by simp)
    simp only [List.length_cons, List.length_nil, SparseArray.first, List.head?_cons, unwrap_some, Res.ok_bind]
    cases ch with
    | branch bm' arr' =>
      refine ⟨_, rfl, rfl, hok', fun _ hz => .inr ?_⟩
      rcases hc.compressed hz with ⟨b, hb⟩ | h2
      · cases hb
      · simpa using h2
    | leaf b =>
      cases b with
      | single e => exact ⟨.leaf (.single e), by simp [SparseArray.pop], by simp, by simp [OK], fun _ _ => .inl ⟨_, rfl⟩⟩
      | collision l =>
        refine ⟨_, rfl, rfl, hok', fun _ hz => .inr ?_⟩
        have := hc.ok
        rw [OK] at this
        simpa [Bucket.entries] using this.2.2
  | c1 :: c2 :: rest, hok, hs =>
    refine ⟨_, rfl, rfl, hok', fun _ hz => .inr ?_⟩
    obtain ⟨i, _, h1⟩ := SparseArray.forall₂_mem hok.2 (b := c1) (by simp)
    obtain ⟨j, _, h2⟩ := SparseArray.forall₂_mem hok.2 (b := c2) (by simp)
    have := List.length_pos_iff.2 h1.nonempty
    have := List.length_pos_iff.2 h2.nonempty
    simp only [entries_branch, List.flatMap_cons, List.length_append]
    omega

theorem length_of_find {p : HEntry K V → Bool} {es : List (HEntry K V)} (h : AtMostOne p es) :
    es.length ≤ (es.filter fun x => !p x).length + 1 := by
  have := filter_length_of_find h
  split at this <;> omega

/-- `Bucket::remove`. -/
theorem bucketRemove_ok (lo : o.Lawful) (h : H) {b : Bucket K V} {d : Nat} (q : Q) (hok : (HNode.leaf b).OK A k true d)
    (hg : Good o h b.entries) (ha : Apart o b.entries) :
    ∃ r, b.remove o q (o.hashQ h q) = .ok (b.entries.any (fun x => o.eqKQ x.key q), r) ∧
      match r with
      | none => b.entries.filter (fun x => !o.eqKQ x.key q) = []
      | some b' => (HNode.leaf b').OK A k true d ∧ b'.entries.Perm (b.entries.filter fun x => !o.eqKQ x.key q) ∧ b'.entries ≠ [] := by
  cases b with
  | single x =>
    simp only [Bucket.entries] at hg ⊢
    have hx := matches_eq lo (hg x (by simp)) q
    cases hq : o.eqKQ x.key q with
    | true => exact ⟨none, by simp [Bucket.remove, hx, hq], by simp [hq]⟩
    | false => exact ⟨some (.single x), by simp [Bucket.remove, hx, hq], by simp [OK], by simp [hq], by simp⟩
  | collision l =>
    rw [OK] at hok
    simp only [Bucket.entries] at hg ha ⊢
    obtain ⟨l', h1, h2⟩ := listRemoveFirst_spec (p := fun x => x.matches o q (o.hashQ h q)) hok.2.1
    have hone := ha.atMostOne lo q
    rw [find_matches lo hg] at h1
    rw [eraseP_matches lo hg, eraseP_eq_filter hone] at h2
    have hlen := length_of_find hone
    simp only [Bucket.remove, h1, Res.ok_bind, h2.len, any_eq_find]
    generalize l.head.toList.filter (fun x => !o.eqKQ x.key q) = fl at h2 hlen ⊢
    match fl, h2, hlen with
    | [], _, hlen => simp at hlen; omega
    | [x], h2, _ =>
      refine ⟨some (.single x.clone), by simp [h2.first], ?_⟩
      exact ⟨by simp [OK], by simp [Bucket.entries, HEntry.clone], by simp [Bucket.entries]⟩
    | x :: y :: zs, h2, _ =>
      refine ⟨some (.collision l'), by simp, ?_, ?_, ?_⟩
      · rw [OK, h2.head]; exact ⟨hok.1, h2, by simp⟩
      · simp [Bucket.entries, h2.head]
      · simp [Bucket.entries, h2.head]

/-- `Node::remove` removes the entry with the key, if any. -/
theorem remove_ok (lo : o.Lawful) (c : HConf A k) (h : H) (q : Q) (n : HNode K V) : ∀ (d : Nat),
    d ≤ 64 → n.OK A k true d → Good o h n.entries → Apart o n.entries →
    ∃ n', n.remove A o q (o.hashQ h q) (2 ^ k) d = .ok (n.entries.any (fun x => o.eqKQ x.key q), n') ∧
      n'.entries.Perm (n.entries.filter fun x => !o.eqKQ x.key q) ∧
      (n'.OK A k true d ∨ (n' = newEmptyBranch ∧ 64 ≤ d * k)) ∧
      (n.Compressed → n'.entries ≠ [] → n'.Compressed) := by
  induction n using HNode.induct with
  | hl b =>
    intro d hd hok hg ha
    simp only [entries_leaf] at hg ha ⊢
    obtain ⟨r, h1, h2⟩ := bucketRemove_ok lo h q hok hg ha
    cases r with
    | none =>
      simp only at h2
      refine ⟨newEmptyBranch, by simp [remove, h1], by simp [entries_empty, h2], ?_, fun _ h => absurd entries_empty h⟩
      by_cases hm : 64 ≤ d * k
      · exact .inr ⟨rfl, hm⟩
      · exact .inl (ok_empty (by omega))
    | some b' => exact ⟨.leaf b', by simp [remove, h1], by simpa using h2.2.1, .inl h2.1, fun _ _ => .inl ⟨_, rfl⟩⟩
  | hb bm arr ih =>
    intro d hd hok hg ha
    rw [ok_branch] at hok
    obtain ⟨hd64, hrel⟩ := hok
    have hi := c.idx_lt d (o.hashQ h q)
    obtain ⟨los, his, hlo, hhi, hcase⟩ := hrel.cases hi
    simp only [remove, indexFromHash_eq c.small hd, hd64, if_true, Res.ok_bind, unwrap_some, SparseArray.slot_eq hi]
    rcases hcase with ⟨hb, e1⟩ | ⟨a, hb, e1, hca⟩
    · simp only at hb e1
      subst e1
      simp only [entries_branch, List.flatMap_append] at hg ⊢
      rw [Good.append] at hg
      have n1 := no_hit lo hlo hg.1 q (fun i hi => below_ne hi)
      have n2 := no_hit lo hhi hg.2 q (fun i hi => above_ne hi)
      have n12 : ∀ x ∈ los.flatMap entries ++ his.flatMap entries, o.eqKQ x.key q = false :=
        fun x hx => (List.mem_append.1 hx).elim (n1 x) (n2 x)
      refine ⟨.branch bm (los ++ his), by simp only [hb, any_none n12]; simp, ?_, .inl ?_, fun h _ => h⟩
      · simp only [entries_branch, List.flatMap_append, filter_none n12]; exact .refl _
      · rw [ok_branch]; exact ⟨hd64, hrel⟩
    · simp only at hb e1
      subst e1
      simp only [entries_branch, List.flatMap_append, List.flatMap_cons] at hg ha ⊢
      rw [Good.append, Good.append] at hg
      have n1 := no_hit lo hlo hg.1 q (fun i hi => below_ne hi)
      have n2 := no_hit lo hhi hg.2.2 q (fun i hi => above_ne hi)
      obtain ⟨a', e2, hp', hok', hc'⟩ := ih a (by simp) (d + 1) (depth_succ c hd64) hca.ok hg.2.1 ha.append_right.append_left
      have hempty : a'.isEmpty A = .ok a'.entries.isEmpty := by
        rcases hok' with h | ⟨rfl, _⟩
        · exact isEmpty_ok h
        · rw [isEmpty_empty, entries_empty]; rfl
      have hany : (los.flatMap entries ++ (a.entries ++ his.flatMap entries)).any (fun x => o.eqKQ x.key q) =
          a.entries.any fun x => o.eqKQ x.key q := by
        rw [List.any_append, List.any_append, any_none (p := fun x => o.eqKQ x.key q) n1,
          any_none (p := fun x => o.eqKQ x.key q) n2]
        simp
      have hfil : (los.flatMap entries ++ (a.entries ++ his.flatMap entries)).filter (fun x => !o.eqKQ x.key q) =
          los.flatMap entries ++ (a.entries.filter (fun x => !o.eqKQ x.key q) ++ his.flatMap entries) := by
        simp only [List.filter_append, filter_none n1, filter_none n2]
      have hperm : ((HNode.branch bm (los ++ a' :: his)).entries).Perm
          (los.flatMap entries ++ (a.entries.filter (fun x => !o.eqKQ x.key q) ++ his.flatMap entries)) := by
        simp only [entries_branch, List.flatMap_append, List.flatMap_cons]
        exact (hp'.append_right _).append_left _
      have hchild : a'.entries ≠ [] → Child A k true d (idx k d (o.hashQ h q)) a' := by
        intro hne
        refine ⟨?_, hne, fun hz => hc' (hca.compressed hz) hne, ?_⟩
        · rcases hok' with h | ⟨rfl, _⟩
          · exact h
          · exact absurd entries_empty hne
        · intro x hx
          exact hca.pos x (List.mem_filter.1 (hp'.mem_iff.1 hx)).1
      rw [hb]
      simp only [if_true]
      rw [removeAt_eq, vecIndex_ok (a := a) (by simp [SparseArray.forall₂_length hlo])]
      simp only [Res.ok_bind, e2]
      rw [SparseArray.writeSlot_ok (s := ⟨bm, los ++ a :: his⟩) (b := a') hlo rfl]
      simp only [Res.ok_bind, hempty, hany, hfil]
      cases hrem : a.entries.any fun x => o.eqKQ x.key q with
      | false =>
        have hsame : a.entries.filter (fun x => !o.eqKQ x.key q) = a.entries := by
          rw [List.filter_eq_self]; intro x hx
          have := List.any_eq_false.1 hrem x hx
          simpa using this
        have hne : a'.entries ≠ [] := by
          intro h0; rw [h0, hsame] at hp'; exact hca.nonempty (by simpa using hp'.symm)
        refine ⟨.branch bm (los ++ a' :: his), by simp, hperm, .inl ?_, ?_⟩
        · rw [ok_branch]; exact ⟨hd64, SparseArray.Rel.put_back hi hb hlo hhi (hchild hne)⟩
        · intro hc _
          rcases hc with ⟨b, hb⟩ | h2
          · cases hb
          · refine .inr ?_
            rw [hperm.length_eq, hsame]
            simpa using h2
      | true =>
        cases hae : a'.entries.isEmpty with
        | false =>
          have hne : a'.entries ≠ [] := by intro h0; rw [h0] at hae; simp at hae
          have hok2 : (HNode.branch bm (los ++ a' :: his)).OK A k true d := by
            rw [ok_branch]; exact ⟨hd64, SparseArray.Rel.put_back hi hb hlo hhi (hchild hne)⟩
          obtain ⟨n', c1, c2, c3, c4⟩ := compress_ok hok2
          exact ⟨n', by simp [c1], by rw [c2]; exact hperm, .inl c3, fun _ hne => c4 hne rfl⟩
        | true =>
          have ha0 : a'.entries = [] := by simpa using hae
          have hok2 : (HNode.branch (bm ^^^ 2 ^ idx k d (o.hashQ h q)) (los ++ his)).OK A k true d := by
            rw [ok_branch]
            refine ⟨hd64, ?_⟩
            rw [SparseArray.Rel]; simp only
            rw [SparseArray.bits_xor hi hb]
            exact SparseArray.forall₂_append hlo hhi
          obtain ⟨n', c1, c2, c3, c4⟩ := compress_ok hok2
          refine ⟨n', ?_, ?_, .inl c3, fun _ hne => c4 hne rfl⟩
          · simp only [Res.ok_bind]
            rw [SparseArray.remove_old (s := ⟨bm, los ++ a' :: his⟩) hi hb hlo rfl]
            simp [c1]
          · rw [c2]
            have : ((HNode.branch bm (los ++ a' :: his)).entries) = (HNode.branch (bm ^^^ 2 ^ idx k d (o.hashQ h q)) (los ++ his)).entries := by
              simp [ha0]
            rw [← this]; exact hperm

/-! ### Mutable access -/

theorem map_none {es : List (HEntry K V)} {p : HEntry K V → Bool} (h : ∀ e ∈ es, p e = false) (f : HEntry K V → HEntry K V) :
    es.map (fun e => if p e then f e else e) = es := by
  rw [List.map_congr_left (g := id)]
  · simp
  · intro e he; simp [h e he]

/-- `Bucket::get_mut` and a write. -/
theorem bucketGetMut_ok (lo : o.Lawful) (h : H) {b : Bucket K V} {d : Nat} (q : Q) (f : HEntry K V → HEntry K V)
    (hok : (HNode.leaf b).OK A k true d) (hg : Good o h b.entries) (ha : Apart o b.entries) :
    ∃ b', b.getMut o q (o.hashQ h q) f = .ok (b.entries.find? (fun x => o.eqKQ x.key q), b') ∧ (HNode.leaf b').OK A k true d ∧
      b'.entries.Perm (b.entries.map fun x => if o.eqKQ x.key q then f x else x) := by
  cases b with
  | single x =>
    simp only [Bucket.entries] at hg ⊢
    have hx := matches_eq lo (hg x (by simp)) q
    cases hq : o.eqKQ x.key q with
    | true => exact ⟨.single (f x), by simp [Bucket.getMut, hx, hq], by simp [OK], by simp [hq, Bucket.entries]⟩
    | false => exact ⟨.single x, by simp [Bucket.getMut, hx, hq], by simp [OK], by simp [hq, Bucket.entries]⟩
  | collision l =>
    rw [OK] at hok
    simp only [Bucket.entries] at hg ha ⊢
    obtain ⟨l', h1, h2⟩ := listRemoveFirst_spec (p := fun x => x.matches o q (o.hashQ h q)) hok.2.1
    have hone := ha.atMostOne lo q
    rw [find_matches lo hg] at h1
    rw [eraseP_matches lo hg, eraseP_eq_filter hone] at h2
    have hlen := length_of_find hone
    simp only [Bucket.getMut, h1, Res.ok_bind]
    cases hfind : l.head.toList.find? fun x => o.eqKQ x.key q with
    | none =>
      rw [filter_not_of_none hfind] at h2
      refine ⟨.collision l', by simp, ?_, ?_⟩
      · rw [OK, h2.head]; exact ⟨hok.1, h2, hok.2.2⟩
      · rw [map_of_none hfind]; simp [Bucket.entries, h2.head]
    | some e =>
      have hmp := map_perm_of_find hone hfind f
      generalize l.head.toList.filter (fun x => !o.eqKQ x.key q) = fl at h2 hlen hmp ⊢
      match fl, h2, hlen, hmp with
      | [], _, hlen, _ => simp at hlen; omega
      | y :: ys, h2, _, hmp =>
        have h3 := h2.pushFrontMut e
        obtain ⟨l'', h4, h5⟩ := firstMutSet_spec h3 f
        refine ⟨.collision l'', by simp [h4, h3.first], ?_, ?_⟩
        · rw [OK, h5.head]; exact ⟨hok.1, h5, by simp⟩
        · simp only [Bucket.entries, h5.head]
          exact hmp.symm

/-- `Node::get_mut` and a write through the reference that keeps key and hash. -/
theorem getMut_ok (lo : o.Lawful) (c : HConf A k) (h : H) (q : Q) (f : HEntry K V → HEntry K V)
    (hf : ∀ e, (f e).keyHash = e.keyHash) (n : HNode K V) : ∀ (d : Nat),
    d ≤ 64 → n.OK A k true d → Good o h n.entries → Apart o n.entries →
    ∃ n', n.getMut A o q (o.hashQ h q) (2 ^ k) f d = .ok (n.entries.find? (fun x => o.eqKQ x.key q), n') ∧
      n'.entries.Perm (n.entries.map fun x => if o.eqKQ x.key q then f x else x) ∧ n'.OK A k true d ∧
      (n.Compressed → n'.Compressed) := by
  induction n using HNode.induct with
  | hl b =>
    intro d hd hok hg ha
    simp only [entries_leaf] at hg ha ⊢
    obtain ⟨b', h1, h2, h3⟩ := bucketGetMut_ok lo h q f hok hg ha
    exact ⟨.leaf b', by simp [getMut, h1], by simpa using h3, h2, fun _ => .inl ⟨_, rfl⟩⟩
  | hb bm arr ih =>
    intro d hd hok hg ha
    rw [ok_branch] at hok
    obtain ⟨hd64, hrel⟩ := hok
    have hi := c.idx_lt d (o.hashQ h q)
    obtain ⟨los, his, hlo, hhi, hcase⟩ := hrel.cases hi
    simp only [getMut, indexFromHash_eq c.small hd, hd64, if_true, Res.ok_bind, unwrap_some, SparseArray.slot_eq hi]
    rcases hcase with ⟨hb, e1⟩ | ⟨a, hb, e1, hca⟩
    · simp only at hb e1
      subst e1
      simp only [entries_branch, List.flatMap_append] at hg ⊢
      rw [Good.append] at hg
      have n1 := no_hit lo hlo hg.1 q (fun i hi => below_ne hi)
      have n2 := no_hit lo hhi hg.2 q (fun i hi => above_ne hi)
      have n12 : ∀ x ∈ los.flatMap entries ++ his.flatMap entries, o.eqKQ x.key q = false :=
        fun x hx => (List.mem_append.1 hx).elim (n1 x) (n2 x)
      refine ⟨.branch bm (los ++ his), by simp only [hb, find_none n12]; simp, ?_, ?_, fun h => h⟩
      · simp only [entries_branch, List.flatMap_append, map_none n12]; exact .refl _
      · rw [ok_branch]; exact ⟨hd64, hrel⟩
    · simp only at hb e1
      subst e1
      simp only [entries_branch, List.flatMap_append, List.flatMap_cons] at hg ha ⊢
      rw [Good.append, Good.append] at hg
      have n1 := no_hit lo hlo hg.1 q (fun i hi => below_ne hi)
      have n2 := no_hit lo hhi hg.2.2 q (fun i hi => above_ne hi)
      obtain ⟨a', e2, hp', hok', hc'⟩ := ih a (by simp) (d + 1) (depth_succ c hd64) hca.ok hg.2.1 ha.append_right.append_left
      have hperm : ((HNode.branch bm (los ++ a' :: his)).entries).Perm
          ((los.flatMap entries ++ (a.entries ++ his.flatMap entries)).map fun x => if o.eqKQ x.key q then f x else x) := by
        simp only [entries_branch, List.flatMap_append, List.flatMap_cons, List.map_append, map_none n1, map_none n2]
        exact (hp'.append_right _).append_left _
      rw [hb]
      simp only [if_true]
      rw [getMutAt_eq, vecIndex_ok (a := a) (by simp [SparseArray.forall₂_length hlo])]
      simp only [Res.ok_bind, e2]
      rw [SparseArray.writeSlot_ok (s := ⟨bm, los ++ a :: his⟩) (b := a') hlo rfl]
      refine ⟨.branch bm (los ++ a' :: his), ?_, hperm, ?_, ?_⟩
      · simp [List.find?_append, find_none n1, find_none n2]
      · rw [ok_branch]
        refine ⟨hd64, SparseArray.Rel.put_back hi hb hlo hhi ⟨hok', ?_, fun hz => hc' (hca.compressed hz), ?_⟩⟩
        · intro h0
          rw [h0] at hp'
          have := hp'.length_eq
          simp only [List.length_nil, List.length_map] at this
          exact hca.nonempty (List.length_eq_zero_iff.1 this.symm)
        · intro x hx
          obtain ⟨y, hy, rfl⟩ := List.mem_map.1 (hp'.mem_iff.1 hx)
          split
          · rw [hf]; exact hca.pos y hy
          · exact hca.pos y hy
      · intro hc
        rcases hc with ⟨b, hb⟩ | h2
        · cases hb
        · refine .inr ?_
          rw [hperm.length_eq]
          simpa using h2

end HNode
end Rpds
