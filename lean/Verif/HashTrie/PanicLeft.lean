import Verif.HashTrie.PanicLemmas
/-
What is left of a hash trie when user code panics.
-/
set_option autoImplicit false
namespace Rpds
open Spec

section
variable {S T : Type} {p : T → S → Option Bool × S}

/-- A panic of the predicate loses the element asked about and those before it. -/
theorem listRemoveLoopU_left (fuel : Nat) : ∀ {r : RList T} {xs : List T} (bn : List T) (s : S), r.Rep xs → ∀ {r' s'},
    listRemoveLoopU p fuel r bn s = .ok (none, r', s') →
    ∃ lost xs', lost ≠ [] ∧ xs = lost ++ xs' ∧ r'.Rep xs' ∧ ∃ x s0, x ∈ lost ∧ (p x s0).1 = none := by
  induction fuel with
  | zero => intro r xs bn s _ r' s' h; cases h
  | succ fuel ih =>
    intro r xs bn s hr r' s' h
    cases xs with
    | nil => simp [listRemoveLoopU, hr.isEmpty] at h
    | cons x xs =>
      obtain ⟨l', e1, e2⟩ := hr.dropFirstMut_cons
      simp only [listRemoveLoopU, hr.isEmpty, hr.first, List.isEmpty_cons, Bool.not_false, if_true, List.head?_cons, unwrap_some, Res.ok_bind, e1] at h
      rcases hp : p x s with ⟨y, s1⟩
      rw [hp] at h
      match y, h with
      | none, h => cases h; exact ⟨[x], xs, by simp, rfl, e2, x, s, by simp, by rw [hp]⟩
      | some true, h => cases h
      | some false, h =>
        obtain ⟨lost, xs', _, h2, h3, y, s0, h4, h5⟩ := ih (bn ++ [x]) s1 e2 h
        exact ⟨x :: lost, xs', by simp, by rw [h2]; rfl, h3, y, s0, by simp [h4], h5⟩

theorem listRemoveFirstU_left {l : RList T} {xs : List T} (s : S) (hr : l.Rep xs) {l' s'} (h : listRemoveFirstU p l s = .ok (none, l', s')) :
    ∃ lost xs', lost ≠ [] ∧ xs = lost ++ xs' ∧ l'.Rep xs' ∧ ∃ x s0, x ∈ lost ∧ (p x s0).1 = none := by
  simp only [listRemoveFirstU] at h
  cases hl : listRemoveLoopU p (l.len + 1) l [] s with
  | error e => rw [hl] at h; cases h
  | ok q =>
    rw [hl] at h
    match q, hl, h with
    | (none, r, s1), hl, h => cases h; exact listRemoveLoopU_left _ [] s hr hl
    | (some (a, bn), r, s1), _, h => cases h

end

namespace HNode
variable {S H K V Q : Type} {A : Arch} {k : Nat} {o : HashKeys H K Q} {eq : S → K → Q → Option Bool × S}
  {clone : S → K × V → Option Unit × S}

/-- What is left of `n` after a panic: all entries, in a well-formed node; or some entries with the hash `kh` are gone, and there were at
least two of them; this happens only if `E`. -/
def Left (E : Prop) (A : Arch) (k : Nat) (kh : UInt64) (d : Nat) (n n' : HNode K V) : Prop :=
  ∃ lost, (n'.entries ++ lost).Perm n.entries ∧ (lost = [] → n'.OK A k false d) ∧
    (lost ≠ [] → (∀ e ∈ lost, e.keyHash = kh) ∧ 2 ≤ n.entries.countP (fun e => e.keyHash == kh) ∧ E)

/-- All entries have the first `d` fragments of the hash `kh`. -/
def Under (k : Nat) (kh : UInt64) (d : Nat) (n : HNode K V) : Prop := ∀ e ∈ n.entries, ∀ j, j < d → idx k j e.keyHash = idx k j kh

theorem Left.same {E : Prop} {kh : UInt64} {d : Nat} {n : HNode K V} (h : n.OK A k false d) : Left E A k kh d n n :=
  ⟨[], by simp, fun _ => h, by simp⟩

theorem Under.child {kh : UInt64} {d : Nat} {bm : Nat} {los his : List (HNode K V)} {a : HNode K V}
    (h : Under k kh d (.branch bm (los ++ a :: his))) (hc : Child A k false d (idx k d kh) a) : Under k kh (d + 1) a := by
  intro e he j hj
  by_cases hjd : j = d
  · subst hjd; exact hc.pos e he
  · exact h e (by simp [he]) j (by omega)

theorem Left.branch {E : Prop} {kh : UInt64} {d bm : Nat} {los his : List (HNode K V)} {a a' : HNode K V} (hd64 : d * k < 64)
    (hi : idx k d kh < A.W) (hb : bm.testBit (idx k d kh) = true)
    (hlo : List.Forall₂ (Child A k false d) (SparseArray.below bm (idx k d kh)) los)
    (hhi : List.Forall₂ (Child A k false d) (SparseArray.above A bm (idx k d kh)) his)
    (hca : Child A k false d (idx k d kh) a) (h : Left E A k kh (d + 1) a a') :
    Left E A k kh d (.branch bm (los ++ a :: his)) (.branch bm (los ++ a' :: his)) := by
  obtain ⟨lost, h1, h2, h3⟩ := h
  refine ⟨lost, ?_, fun h0 => ?_, fun hne => ?_⟩
  · simp only [entries_branch, List.flatMap_append, List.flatMap_cons]
    refine .trans ?_ ((h1.append_right (his.flatMap entries)).append_left (los.flatMap entries))
    simp only [List.append_assoc]
    exact (List.perm_append_comm.append_left _).append_left _
  · subst h0
    rw [ok_branch]
    rw [List.append_nil] at h1
    refine ⟨hd64, SparseArray.Rel.put_back hi hb hlo hhi ⟨h2 rfl, ?_, by simp, ?_⟩⟩
    · intro h0; rw [h0] at h1; exact hca.nonempty (List.nil_perm.1 h1)
    · intro x hx; exact hca.pos x (h1.mem_iff.1 hx)
  · obtain ⟨h4, h5, h6⟩ := h3 hne
    refine ⟨h4, ?_, h6⟩
    simp only [entries_branch, List.flatMap_append, List.flatMap_cons, List.countP_append]
    omega

/-- A panic while the list of a collision is taken apart. -/
theorem left_collision {E : Prop} {kh : UInt64} {d : Nat} {l l' : RList (HEntry K V)} {p : HEntry K V → S → Option Bool × S} (hk : 1 ≤ k)
    (hok : (HNode.leaf (.collision l)).OK A k false d) (hu : Under k kh d (.leaf (.collision l)))
    (hE : ∀ e s, (p e s).1 = none → E) {s s' : S} (h : listRemoveFirstU p l s = .ok (none, l', s')) :
    Left E A k kh d (.leaf (.collision l)) (.leaf (.collision l')) := by
  rw [OK] at hok
  obtain ⟨lost, xs', h1, h2, h3, x, s0, _, h4⟩ := listRemoveFirstU_left s hok.2.1 h
  have hall : ∀ e ∈ l.head.toList, e.keyHash = kh := fun e he =>
    hash_eq_of_idx hk hok.1 fun j hj => hu e (by simpa [Bucket.entries] using he) j hj
  refine ⟨lost, ?_, fun h0 => absurd h0 h1, fun _ => ⟨fun e he => hall e (by rw [h2]; simp [he]), ?_, hE x s0 h4⟩⟩
  · simp only [entries_leaf, Bucket.entries, h3.head, h2]; exact List.perm_append_comm
  · simp only [entries_leaf, Bucket.entries]
    rw [List.countP_eq_length.2 (fun e he => by simp [hall e he])]
    exact hok.2.2

/-- Only `eq` can panic in a comparison of an entry. -/
theorem matchesU_none (key : Q) (kh : UInt64) (e : HEntry K V) (s : S) (h : (e.matchesU eq key kh s).1 = none) :
    ∃ s a, (eq s a key).1 = none := by
  simp only [HEntry.matchesU] at h
  split at h
  · exact ⟨_, _, h⟩
  · cases h

theorem bucketRemoveU_left {kh : UInt64} {d : Nat} {b : Bucket K V} (hk : 1 ≤ k) (hok : (HNode.leaf b).OK A k false d)
    (hu : Under k kh d (.leaf b)) (key : Q) {s s' : S} {b' : Option (Bucket K V)} (h : b.removeU eq key kh s = .ok (none, b', s')) :
    ∃ b'', b' = some b'' ∧ Left (∃ s a, (eq s a key).1 = none) A k kh d (.leaf b) (.leaf b'') := by
  cases b with
  | single e =>
    simp only [Bucket.removeU] at h
    rcases hp : e.matchesU eq key kh s with ⟨x, s1⟩
    rw [hp] at h
    match x, h with
    | none, h => cases h; exact ⟨_, rfl, .same hok⟩
    | some true, h => cases h
    | some false, h => cases h
  | collision l =>
    simp only [Bucket.removeU] at h
    cases hl : listRemoveFirstU (fun e => e.matchesU eq key kh) l s with
    | error e => rw [hl] at h; cases h
    | ok q =>
      rw [hl] at h
      match q, hl, h with
      | (none, l', s1), hl, h => cases h; exact ⟨_, rfl, left_collision hk hok hu (matchesU_none _ _) hl⟩
      | (some r, l', s1), hl, h =>
        simp only [Res.ok_bind] at h
        match hn : l'.len, h with
        | 0, h => cases h
        | 1, h =>
          cases hf : unwrap l'.first with
          | error e => rw [hf] at h; cases h
          | ok e => rw [hf] at h; cases h
        | _ + 2, h => cases h

theorem bucketInsertU_left {eq : S → K → K → Option Bool × S} {d : Nat} {b : Bucket K V} {entry : HEntry K V} (hk : 1 ≤ k)
    (hok : (HNode.leaf b).OK A k false d) (hu : Under k entry.keyHash d (.leaf b)) {s s' : S} {b' : Bucket K V}
    (h : b.insertU eq entry s = .ok (none, b', s')) : Left (∃ s a, (eq s a entry.key).1 = none) A k entry.keyHash d (.leaf b) (.leaf b') := by
  cases b with
  | single e =>
    simp only [Bucket.insertU] at h
    rcases hp : e.matchesU eq entry.key entry.keyHash s with ⟨x, s1⟩
    rw [hp] at h
    match x, h with
    | none, h => cases h; exact .same hok
    | some true, h => cases h
    | some false, h => cases h
  | collision l =>
    simp only [Bucket.insertU] at h
    cases hl : listRemoveFirstU (fun e => e.matchesU eq entry.key entry.keyHash) l s with
    | error e => rw [hl] at h; cases h
    | ok q =>
      rw [hl] at h
      match q, hl, h with
      | (none, l', s1), hl, h => cases h; exact left_collision hk hok hu (matchesU_none _ _) hl
      | (some r, l', s1), hl, h => cases h

theorem bucketGetMutU_left {kh : UInt64} {d : Nat} {b : Bucket K V} (ho : AnsEq True eq o) (hk : 1 ≤ k) (hok : (HNode.leaf b).OK A k false d)
    (hu : Under k kh d (.leaf b)) (key : Q) (f : HEntry K V → HEntry K V) {s s' : S} {b' : Bucket K V}
    (h : b.getMutU eq clone key kh f s = .ok (none, b', s')) : Left (∃ s a, (eq s a key).1 = none) A k kh d (.leaf b) (.leaf b') := by
  cases b with
  | single e =>
    simp only [Bucket.getMutU] at h
    rcases hp : e.matchesU eq key kh s with ⟨x, s1⟩
    rw [hp] at h
    match x, h with
    | none, h => cases h; exact .same hok
    | some true, h =>
      simp only at h
      rcases hc : clone s1 (e.key, e.value) with ⟨y, s2⟩
      rw [hc] at h
      cases y with
      | none => cases h; exact .same hok
      | some _ => cases h
    | some false, h => cases h
  | collision l =>
    simp only [Bucket.getMutU] at h
    cases hl : listRemoveFirstU (fun e => e.matchesU eq key kh) l s with
    | error e => rw [hl] at h; cases h
    | ok q =>
      rw [hl] at h
      match q, hl, h with
      | (none, l', s1), hl, h => cases h; exact left_collision hk hok hu (matchesU_none _ _) hl
      | (some none, l', s1), hl, h => cases h
      | (some (some e), l', s1), hl, h =>
        simp only [Res.ok_bind] at h
        rcases hc : clone s1 (e.key, e.value) with ⟨y, s2⟩
        rw [hc] at h
        cases y with
        | none =>
          cases h
          rw [OK] at hok
          have hag := listRemoveFirstU_agree (ho.matches key kh) l s
          rw [hl] at hag
          rcases hag with ⟨n, s', h1, _⟩ | ⟨a, n, s', h1, h2⟩ | ⟨e, h1, _⟩
          · cases h1
          · cases h1
            obtain ⟨l'', e1, e2⟩ := listRemoveFirst_spec (p := fun x => x.matches o key kh) hok.2.1
            rw [h2] at e1
            simp only [Except.ok.injEq, Prod.mk.injEq] at e1
            obtain ⟨e1, rfl⟩ := e1
            have e3 := e2.pushFrontMut e
            have hp := HTMap.perm_eraseP e1.symm
            refine ⟨[], ?_, fun _ => ?_, by simp⟩
            · simp only [entries_leaf, Bucket.entries, e3.head, List.append_nil]; exact hp.symm
            · rw [OK, e3.head]; exact ⟨hok.1, e3, by rw [← hp.length_eq]; exact hok.2.2⟩
          · cases h1
        | some _ =>
          simp only at h
          cases hf : (l'.pushFrontMut e).firstMutSet f with
          | none => rw [hf] at h; cases h
          | some _ => rw [hf] at h; cases h

/-- A panic in `Node::remove`. -/
theorem removeU_left (c : HConf A k) (key : Q) (kh : UInt64) (n : HNode K V) : ∀ (d : Nat), d ≤ 64 → n.OK A k false d → Under k kh d n →
    ∀ {s s' : S} {n'}, n.removeU A eq key kh (2 ^ k) d s = .ok (none, n', s') → Left (∃ s a, (eq s a key).1 = none) A k kh d n n' := by
  induction n using HNode.induct with
  | hl b =>
    intro d hd hok hu s s' n' h
    simp only [removeU] at h
    cases hb : b.removeU eq key kh s with
    | error e => rw [hb] at h; cases h
    | ok q =>
      rw [hb] at h
      match q, hb, h with
      | (none, b', s1), hb, h =>
        obtain ⟨b'', rfl, h2⟩ := bucketRemoveU_left c.pos hok hu key hb
        cases h; exact h2
      | (some x, none, s1), _, h => cases h
      | (some x, some b', s1), _, h => cases h
  | hb bm arr ih =>
    intro d hd hok hu s s' n' h
    rw [ok_branch] at hok
    obtain ⟨hd64, hrel⟩ := hok
    have hi := c.idx_lt d kh
    obtain ⟨los, his, hlo, hhi, hcase⟩ := hrel.cases hi
    simp only [removeU, indexFromHash_eq c.small hd, hd64, if_true, Res.ok_bind, unwrap_some, SparseArray.slot_eq hi] at h
    rcases hcase with ⟨hb, e1⟩ | ⟨a, hb, e1, hca⟩
    · simp only at hb
      simp [hb] at h
    · simp only at hb e1
      subst e1
      rw [hb] at h
      simp only [if_true] at h
      rw [removeAtU_eq, vecIndex_ok (a := a) (by simp [SparseArray.forall₂_length hlo])] at h
      simp only [Res.ok_bind] at h
      cases hr : a.removeU A eq key kh (2 ^ k) (d + 1) s with
      | error e => rw [hr] at h; cases h
      | ok q =>
        rw [hr] at h
        match q, hr, h with
        | (none, a', s1), hr, h =>
          simp only [Res.ok_bind] at h
          rw [SparseArray.writeSlot_ok (s := ⟨bm, los ++ a :: his⟩) (b := a') hlo rfl] at h
          cases h
          exact .branch hd64 hi hb hlo hhi hca (ih a (by simp) (d + 1) (depth_succ c hd64) hca.ok (hu.child hca) hr)
        | (some x, a', s1), hr, h =>
          exfalso
          simp only [Res.ok_bind] at h
          rw [SparseArray.writeSlot_ok (s := ⟨bm, los ++ a :: his⟩) (b := a') hlo rfl] at h
          simp only [Res.ok_bind] at h
          cases he : a'.isEmpty A with
          | error e => rw [he] at h; cases h
          | ok em =>
            rw [he] at h
            simp only [Res.ok_bind] at h
            cases x with
            | false => cases h
            | true =>
              cases em with
              | false =>
                simp only at h
                cases hc : compress A (.branch bm (los ++ a' :: his)) with
                | error e => rw [hc] at h; cases h
                | ok n'' => rw [hc] at h; cases h
              | true =>
                simp only at h
                cases hs : SparseArray.remove A ⟨bm, los ++ a' :: his⟩ (idx k d kh) with
                | error e => rw [hs] at h; cases h
                | ok t =>
                  rw [hs] at h
                  simp only [Res.ok_bind] at h
                  cases hc : compress A (.branch t.bitmap t.array) with
                  | error e => rw [hc] at h; cases h
                  | ok n'' => rw [hc] at h; cases h

/-- A panic in `Node::get_mut` or in `Clone`. -/
theorem getMutU_left (ho : AnsEq True eq o) (c : HConf A k) (key : Q) (kh : UInt64) (f : HEntry K V → HEntry K V) (n : HNode K V) :
    ∀ (d : Nat), d ≤ 64 → n.OK A k false d → Under k kh d n →
    ∀ {s s' : S} {n'}, n.getMutU A eq clone key kh (2 ^ k) f d s = .ok (none, n', s') →
      Left (∃ s a, (eq s a key).1 = none) A k kh d n n' := by
  induction n using HNode.induct with
  | hl b =>
    intro d hd hok hu s s' n' h
    simp only [getMutU] at h
    cases hb : b.getMutU eq clone key kh f s with
    | error e => rw [hb] at h; cases h
    | ok q =>
      rw [hb] at h
      obtain ⟨x, b', s1⟩ := q
      cases h
      exact bucketGetMutU_left ho c.pos hok hu key f hb
  | hb bm arr ih =>
    intro d hd hok hu s s' n' h
    rw [ok_branch] at hok
    obtain ⟨hd64, hrel⟩ := hok
    have hi := c.idx_lt d kh
    obtain ⟨los, his, hlo, hhi, hcase⟩ := hrel.cases hi
    simp only [getMutU, indexFromHash_eq c.small hd, hd64, if_true, Res.ok_bind, unwrap_some, SparseArray.slot_eq hi] at h
    rcases hcase with ⟨hb, e1⟩ | ⟨a, hb, e1, hca⟩
    · simp only at hb
      simp [hb] at h
    · simp only at hb e1
      subst e1
      rw [hb] at h
      simp only [if_true] at h
      rw [getMutAtU_eq, vecIndex_ok (a := a) (by simp [SparseArray.forall₂_length hlo])] at h
      simp only [Res.ok_bind] at h
      cases hr : a.getMutU A eq clone key kh (2 ^ k) f (d + 1) s with
      | error e => rw [hr] at h; cases h
      | ok q =>
        obtain ⟨x, a', s1⟩ := q
        rw [hr] at h
        simp only [Res.ok_bind] at h
        rw [SparseArray.writeSlot_ok (s := ⟨bm, los ++ a :: his⟩) (b := a') hlo rfl] at h
        cases h
        exact .branch hd64 hi hb hlo hhi hca (ih a (by simp) (d + 1) (depth_succ c hd64) hca.ok (hu.child hca) hr)

theorem below_zero (i : Nat) : SparseArray.below 0 i = [] := by
  rw [SparseArray.below, List.filter_eq_nil_iff]; simp

theorem above_zero (A : Arch) (i : Nat) : SparseArray.above A 0 i = [] := by
  rw [SparseArray.above, List.filter_eq_nil_iff]; simp

/-- Inserting into an empty branch asks nothing. -/
theorem insertU_empty {eq : S → K → K → Option Bool × S} (c : HConf A k) {d : Nat} (hd : d ≤ 64) (hd64 : d * k < 64) (fuel : Nat) (e : HEntry K V)
    (s : S) : (newEmptyBranch : HNode K V).insertU A eq (2 ^ k) (fuel + 1) e d s =
      .ok (some true, .branch (0 ||| 2 ^ idx k d e.keyHash) [.leaf (.single e)], s) := by
  have hi := c.idx_lt d e.keyHash
  have h0 : (0 : Nat).testBit (idx k d e.keyHash) = false := by simp
  have := SparseArray.set_new (A := A) (s := ⟨0, ([] : List (HNode K V))⟩) (R := fun _ _ => True) (lo := []) (hi := [])
    (b := HNode.leaf (.single e)) hi h0 (by rw [below_zero]; exact .nil) rfl
  simp only [newEmptyBranch, insertU, indexFromHash_eq c.small hd, hd64, if_true, Res.ok_bind, unwrap_some, SparseArray.slot_eq hi,
    SparseArray.new, Nat.zero_testBit, Bool.false_eq_true, if_false, this]
  rfl

/-- A panic in `Node::insert`. -/
theorem insertU_left {eq : S → K → K → Option Bool × S} (c : HConf A k) (fuel : Nat) : ∀ (entry : HEntry K V) (n : HNode K V) (d : Nat),
    d ≤ 64 → n.OK A k false d → Under k entry.keyHash d n →
    ∀ {s s' : S} {n'}, n.insertU A eq (2 ^ k) fuel entry d s = .ok (none, n', s') →
      Left (∃ s a, (eq s a entry.key).1 = none) A k entry.keyHash d n n' := by
  induction fuel with
  | zero => intro entry n d _ _ _ s s' n' h; cases n <;> cases h
  | succ fuel ih =>
    intro entry n d hd hok hu s s' n' h
    cases n with
    | branch bm arr =>
      rw [ok_branch] at hok
      obtain ⟨hd64, hrel⟩ := hok
      have hi := c.idx_lt d entry.keyHash
      obtain ⟨los, his, hlo, hhi, hcase⟩ := hrel.cases hi
      simp only [insertU, indexFromHash_eq c.small hd, hd64, if_true, Res.ok_bind, unwrap_some, SparseArray.slot_eq hi] at h
      rcases hcase with ⟨hb, e1⟩ | ⟨a, hb, e1, hca⟩
      · simp only at hb
        simp only [hb, Bool.false_eq_true, if_false] at h
        cases hs : SparseArray.set A ⟨bm, arr⟩ (idx k d entry.keyHash) (HNode.leaf (.single entry)) with
        | error e => rw [hs] at h; cases h
        | ok t => rw [hs] at h; cases h
      · simp only at hb e1
        subst e1
        rw [hb] at h
        simp only [if_true] at h
        rw [vecIndex_ok (a := a) (by simp [SparseArray.forall₂_length hlo])] at h
        simp only [Res.ok_bind] at h
        cases hr : a.insertU A eq (2 ^ k) fuel entry (d + 1) s with
        | error e => rw [hr] at h; cases h
        | ok q =>
          obtain ⟨x, a', s1⟩ := q
          rw [hr] at h
          simp only [Res.ok_bind] at h
          rw [SparseArray.writeSlot_ok (s := ⟨bm, los ++ a :: his⟩) (b := a') hlo rfl] at h
          cases h
          exact .branch hd64 hi hb hlo hhi hca (ih entry a (d + 1) (depth_succ c hd64) hca.ok (hu.child hca) hr)
    | leaf b =>
      have hins : ∀ {s0 : S}, (do
            let (isNew, b, s) ← b.insertU eq entry s0
            Except.ok (isNew, HNode.leaf b, s)) = .ok (none, n', s') →
            Left (∃ s a, (eq s a entry.key).1 = none) A k entry.keyHash d (.leaf b) n' := by
        intro s0 h
        cases hb : b.insertU eq entry s0 with
        | error e => rw [hb] at h; cases h
        | ok q =>
          obtain ⟨x, b', s1⟩ := q
          rw [hb] at h
          cases h
          exact bucketInsertU_left c.pos hok hu hb
      simp only [insertU, indexFromHash_eq c.small hd, Res.ok_bind] at h
      cases hg : b.getU eq entry.key entry.keyHash s with
      | error e => rw [hg] at h; cases h
      | ok q =>
        obtain ⟨x, s1⟩ := q
        rw [hg] at h
        cases x with
        | none => cases h; exact .same hok
        | some r =>
          simp only [Res.ok_bind] at h
          by_cases hmax : d * k < 64
          · simp only [hmax, if_true, Option.isNone_some, Bool.not_false] at h
            cases r with
            | some y => exact hins h
            | none =>
              simp only [Option.isSome_none, Bool.false_eq_true, if_false] at h
              cases b with
              | collision l => cases h
              | single x =>
                simp only at h
                cases fuel with
                | zero => cases h
                | succ fuel =>
                  rw [insertU_empty c hd hmax] at h
                  simp only [Res.ok_bind] at h
                  have hx : x.clone = x := rfl
                  rw [hx] at h
                  have hi := c.idx_lt d x.keyHash
                  have hok1 : (HNode.branch (0 ||| 2 ^ idx k d x.keyHash) [HNode.leaf (.single x)]).OK A k false d := by
                    rw [ok_branch]
                    refine ⟨hmax, ?_⟩
                    rw [SparseArray.Rel]; simp only
                    rw [SparseArray.bits_or hi]
                    rw [below_zero, above_zero, List.nil_append]
                    refine .cons ⟨by rw [OK]; trivial, by simp [Bucket.entries], by simp, ?_⟩ .nil
                    intro e he
                    simp only [entries_leaf, Bucket.entries, List.mem_singleton] at he
                    rw [he]
                  have he1 : (HNode.branch (0 ||| 2 ^ idx k d x.keyHash) [HNode.leaf (.single x)]).entries = [x] := by simp [Bucket.entries]
                  have hu1 : Under k entry.keyHash d (HNode.branch (0 ||| 2 ^ idx k d x.keyHash) [HNode.leaf (.single x)]) := by
                    intro e he
                    rw [he1] at he
                    exact hu e (by simpa [Bucket.entries] using he)
                  cases hr : (HNode.branch (0 ||| 2 ^ idx k d x.keyHash) [HNode.leaf (.single x)]).insertU A eq (2 ^ k) (fuel + 1) entry d s1 with
                  | error e => rw [hr] at h; cases h
                  | ok q =>
                    rw [hr] at h
                    match q, hr, h with
                    | (some _, n1, s2), hr, h => cases h
                    | (none, n1, s2), hr, h =>
                      cases h
                      obtain ⟨lost, g1, g2, g3⟩ := ih entry _ d hd hok1 hu1 hr
                      rw [he1] at g1 g3
                      have hlost : lost = [] := by
                        by_cases hl : lost = []
                        · exact hl
                        · have := (g3 hl).2.1
                          have := List.countP_le_length (p := fun e : HEntry K V => e.keyHash == entry.keyHash) (l := [x])
                          simp only [List.length_cons, List.length_nil] at this
                          omega
                      exact ⟨lost, by simpa [Bucket.entries] using g1, fun _ => g2 hlost, fun h => absurd hlost h⟩
          · simp only [hmax, if_false, Option.isNone_none, Bool.not_true, Bool.false_eq_true] at h
            exact hins h

end HNode
end Rpds
