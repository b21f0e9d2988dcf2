import Verif.HashTrie.PanicLeft
/-
Hash trie maps with user code that may panic: the operations that finish, what the others leave behind, and maps without hash collisions.
-/
set_option autoImplicit false
namespace Rpds
open Spec

namespace HTUser
variable {S H K V Q : Type}

/-- The functions of `o`, with the hashes that the user code gives in the state `s`. -/
def at_ (U : HTUser S H K V Q) (s : S) (o : HashKeys H K Q) : HashKeys H K Q :=
  { o with hashK := fun h k => (U.hashK s h k).1.getD 0, hashQ := fun h q => (U.hashQ s h q).1.getD 0 }

/-- The user code answers as `o`, or panics (and then `bad`). -/
structure Within (U : HTUser S H K V Q) (o : HashKeys H K Q) (bad : Prop) : Prop where
  eqK : AnsEq bad U.eqK o.self
  eqQ : AnsEq bad U.eqQ o
  clone : ∀ s e, ((U.clone s e).1 = none ∧ bad) ∨ (U.clone s e).1 = some ()
  hashK : ∀ s h k, (U.hashK s h k).1 = none → bad
  hashQ : ∀ s h q, (U.hashQ s h q).1 = none → bad

theorem Obeys.within {U : HTUser S H K V Q} {o : HashKeys H K Q} (h : U.Obeys o) : U.Within o True where
  eqK s a b := (h.eqK s a b).imp (⟨·, trivial⟩) id
  eqQ s a b := (h.eqQ s a b).imp (⟨·, trivial⟩) id
  clone s e := by
    rcases (U.clone s e).1 with _ | ⟨⟩
    · exact .inl ⟨rfl, trivial⟩
    · exact .inr rfl
  hashK _ _ _ _ := trivial
  hashQ _ _ _ _ := trivial

theorem pure_within (o : HashKeys H K Q) : (pure o : HTUser S H K V Q).Within o False where
  eqK _ _ _ := .inr rfl
  eqQ _ _ _ := .inr rfl
  clone _ _ := .inr rfl
  hashK _ _ _ h := by cases h
  hashQ _ _ _ h := by cases h

end HTUser

namespace HNode
variable {K V : Type} {A : Arch} {k : Nat}

theorem ok_weaken (z : Bool) (n : HNode K V) : ∀ (d : Nat), n.OK A k z d → n.OK A k false d := by
  induction n using HNode.induct with
  | hl b => intro d h; cases b <;> (rw [OK] at h ⊢; exact h)
  | hb bm arr ih =>
    intro d h
    rw [ok_branch] at h ⊢
    refine ⟨h.1, ?_⟩
    have h2 := h.2
    rw [SparseArray.Rel] at h2 ⊢
    simp only at h2 ⊢
    generalize SparseArray.bits A bm = bs at h2
    clear h
    induction h2 with
    | nil => exact .nil
    | cons hc _ ih2 =>
      exact .cons ⟨ih _ (by simp) (d + 1) hc.ok, hc.nonempty, by simp, hc.pos⟩ (ih2 fun a ha => ih a (by simp [ha]))

end HNode

namespace HTMap
variable {S H K V Q : Type} {A : Arch} {m : HTMap H K V} {l : List (K × V)} {k : Nat} {z : Bool} {bad : Prop}
  {U : HTUser S H K V Q} {o : HashKeys H K Q}

theorem Loose.weaken (h : m.Loose A k z l) : m.Loose A k false l := ⟨h.degree, h.conf, HNode.ok_weaken z _ 0 h.ok, h.list, h.size⟩

/-- What a panic leaves of `m`: all entries in a map that works; or some entries with the same hash, one that several entries had and for
which `E` holds, are gone and the size is as before. -/
def Left (E : UInt64 → Prop) (A : Arch) (k : Nat) (m m' : HTMap H K V) : Prop :=
  m'.size = m.size ∧ m'.hasher = m.hasher ∧ ∃ kh lost, (m'.root.entries ++ lost).Perm m.root.entries ∧
    (lost = [] → m'.Loose A k false (m'.root.entries.map pair)) ∧
    (lost ≠ [] → (∀ e ∈ lost, e.keyHash = kh) ∧ 2 ≤ m.root.entries.countP (fun e => e.keyHash == kh) ∧ E kh)

theorem Loose.left_same {E : UInt64 → Prop} (h : m.Loose A k false l) : Left E A k m m :=
  ⟨rfl, rfl, 0, [], by simp, fun _ => by rw [h.list]; exact h, by simp⟩

theorem Loose.left_root {E : UInt64 → Prop} {F : Prop} (h : m.Loose A k false l) {kh : UInt64} {n' : HNode K V}
    (hl : HNode.Left F A k kh 0 m.root n') (hE : F → E kh) : Left E A k m { m with root := n' } := by
  obtain ⟨lost, h1, h2, h3⟩ := hl
  refine ⟨rfl, rfl, kh, lost, h1, fun h0 => ?_, fun h0 => ⟨(h3 h0).1, (h3 h0).2.1, hE (h3 h0).2.2⟩⟩
  refine ⟨h.degree, h.conf, h2 h0, rfl, ?_⟩
  rw [h0, List.append_nil] at h1
  rw [List.length_map, h1.length_eq, h.length]
  exact h.size

/-- What must have happened for a panic in the operation `op` to lose entries: the hash of the key was computed, it is that of the entries
lost, and a comparison with the key can panic. -/
inductive LossCause (U : HTUser S H K V Q) (s : S) (hasher : H) : MapOp K V Q → UInt64 → Prop
  | insertMut {key : K} {v : V} {kh : UInt64} {s' : S} {a : K} :
    (U.hashK s hasher key).1 = some kh → (U.eqK s' a key).1 = none → LossCause U s hasher (.insertMut key v) kh
  | removeMut {q : Q} {kh : UInt64} {s' : S} {a : K} :
    (U.hashQ s hasher q).1 = some kh → (U.eqQ s' a q).1 = none → LossCause U s hasher (.removeMut q) kh
  | getMut {q : Q} {f : V → V} {kh : UInt64} {s' : S} {a : K} :
    (U.hashQ s hasher q).1 = some kh → (U.eqQ s' a q).1 = none → LossCause U s hasher (.getMut q f) kh

theorem under_zero (kh : UInt64) (n : HNode K V) : HNode.Under k kh 0 n := fun _ _ j hj => absurd hj (by omega)

theorem Loose.insertMutU (h : m.Loose A k false l) (hU : U.Within o bad) (key : K) (v : V) (s : S) :
    (∃ m', m.insertMutU A U key v s = .ok (none, m') ∧ bad ∧ Left (LossCause U s m.hasher (.insertMut key v)) A k m m') ∨
    (∃ m', m.insertMutU A U key v s = .ok (some (), m') ∧ m.insertMut A (U.at_ s o) key v = .ok m' ∧
      (U.hashK s m.hasher key).1 = some ((U.at_ s o).hashK m.hasher key)) := by
  simp only [HTMap.insertMutU, HNode.clone_eq]
  rcases hh : U.hashK s m.hasher key with ⟨kh, s1⟩
  cases kh with
  | none => exact .inl ⟨m, rfl, hU.hashK s m.hasher key (by rw [hh]), h.left_same⟩
  | some kh =>
    have he : HEntry.new (U.at_ s o) m.hasher key v = ⟨key, v, kh⟩ := by simp [HEntry.new, HTUser.at_, hh]
    obtain ⟨m', _, hm, _⟩ := h.insertMut (U.at_ s o) key v
    simp only
    rcases HNode.insertU_agree (A := A) (o := U.at_ s o) (bad := bad) (eq := U.eqK) hU.eqK m.degree insertFuel ⟨key, v, kh⟩ m.root 0 s1 with
      ⟨n, s', h1, h2⟩ | ⟨a, n, s', h1, h2⟩ | ⟨e, h1, h2⟩
    · left
      rw [h1]
      rw [h.degree] at h1
      exact ⟨_, rfl, h2, h.left_root (HNode.insertU_left h.conf insertFuel _ m.root 0 (by omega) h.ok (under_zero _ _) h1)
        fun ⟨_, _, hn⟩ => .insertMut (by rw [hh]) hn⟩
    · right
      rw [h1]
      refine ⟨_, rfl, ?_, by simp [HTUser.at_, hh]⟩
      simp only [HTMap.insertMut, HNode.clone_eq, he, h2, Res.ok_bind, Res.pure_eq]
    · simp only [HTMap.insertMut, HNode.clone_eq, he, h2] at hm
      cases hm

theorem Loose.removeMutU (h : m.Loose A k false l) (hU : U.Within o bad) (q : Q) (s : S) :
    (∃ m', m.removeMutU A U q s = .ok (none, m') ∧ bad ∧ Left (LossCause U s m.hasher (.removeMut q)) A k m m') ∨
    (∃ b m', m.removeMutU A U q s = .ok (some b, m') ∧ m.removeMut A (U.at_ s o) q = .ok (b, m')) := by
  simp only [HTMap.removeMutU, HNode.clone_eq]
  rcases hh : U.hashQ s m.hasher q with ⟨kh, s1⟩
  cases kh with
  | none => exact .inl ⟨m, rfl, hU.hashQ s m.hasher q (by rw [hh]), h.left_same⟩
  | some kh =>
    have he : (U.at_ s o).hashQ m.hasher q = kh := by simp [HTUser.at_, hh]
    obtain ⟨b', m', _, hm, _⟩ := h.removeMut (U.at_ s o) q
    simp only
    rcases HNode.removeU_agree (A := A) (o := U.at_ s o) (bad := bad) (eq := U.eqQ) hU.eqQ q kh m.degree m.root 0 s1 with
      ⟨n, s', h1, h2⟩ | ⟨a, n, s', h1, h2⟩ | ⟨e, h1, h2⟩
    · left
      rw [h1]
      rw [h.degree] at h1
      exact ⟨_, rfl, h2, h.left_root (HNode.removeU_left h.conf q kh m.root 0 (by omega) h.ok (under_zero _ _) h1)
        fun ⟨_, _, hn⟩ => .removeMut (by rw [hh]) hn⟩
    · right
      rw [h1]
      simp only [HTMap.removeMut, HNode.clone_eq, he, h2, Res.ok_bind, Res.pure_eq] at hm ⊢
      cases a with
      | false => exact ⟨_, _, rfl, rfl⟩
      | true =>
        simp only [if_true] at hm ⊢
        cases hc : csub m.size 1 with
        | error e => rw [hc] at hm; cases hm
        | ok x => exact ⟨_, _, rfl, rfl⟩
    · simp only [HTMap.removeMut, HNode.clone_eq, he, h2] at hm
      cases hm

theorem Loose.getMutU (h : m.Loose A k false l) (hU : U.Within o bad) (q : Q) (f : V → V) (s : S) :
    (∃ m', m.getMutU A U q f s = .ok (none, m') ∧ bad ∧ Left (LossCause U s m.hasher (.getMut q f)) A k m m') ∨
    (∃ x m', m.getMutU A U q f s = .ok (some x, m') ∧ m.getMut A (U.at_ s o) q f = .ok (x, m')) := by
  simp only [HTMap.getMutU, HNode.clone_eq]
  rcases hh : U.hashQ s m.hasher q with ⟨kh, s1⟩
  cases kh with
  | none => exact .inl ⟨m, rfl, hU.hashQ s m.hasher q (by rw [hh]), h.left_same⟩
  | some kh =>
    have he : (U.at_ s o).hashQ m.hasher q = kh := by simp [HTUser.at_, hh]
    obtain ⟨b', m', _, hm, _⟩ := h.getMut (U.at_ s o) q f
    have hT : AnsEq True U.eqQ (U.at_ s o) := fun s a b => (hU.eqQ s a b).imp (fun x => ⟨x.1, trivial⟩) id
    simp only
    rcases HNode.getMutU_agree (A := A) (o := U.at_ s o) (bad := bad) (eq := U.eqQ) hU.eqQ hU.clone q kh m.degree (fun e => e.valueMut f)
      m.root 0 s1 with ⟨n, s', h1, h2⟩ | ⟨a, n, s', h1, h2⟩ | ⟨e, h1, h2⟩
    · left
      rw [h1]
      rw [h.degree] at h1
      exact ⟨_, rfl, h2, h.left_root (HNode.getMutU_left hT h.conf q kh _ m.root 0 (by omega) h.ok (under_zero _ _) h1)
        fun ⟨_, _, hn⟩ => .getMut (by rw [hh]) hn⟩
    · right
      rw [h1]
      exact ⟨_, _, rfl, by simp only [HTMap.getMut, HNode.clone_eq, he, h2, Res.ok_bind, Res.pure_eq]⟩
    · simp only [HTMap.getMut, HNode.clone_eq, he, h2] at hm
      cases hm

theorem Loose.lookupU (h : m.Loose A k false l) (hU : U.Within o bad) (q : Q) (s : S) :
    (m.lookupU A U q s = .ok none ∧ bad) ∨ ∃ x, m.lookupU A U q s = .ok (some x) ∧ m.lookup A (U.at_ s o) q = .ok x := by
  simp only [HTMap.lookupU]
  rcases hh : U.hashQ s m.hasher q with ⟨kh, s1⟩
  cases kh with
  | none => exact .inl ⟨rfl, hU.hashQ s m.hasher q (by rw [hh])⟩
  | some kh =>
    have he : (U.at_ s o).hashQ m.hasher q = kh := by simp [HTUser.at_, hh]
    obtain ⟨oe, hm, _⟩ := h.lookup (U.at_ s o) q
    simp only [HTMap.lookup, he] at hm ⊢
    rcases HNode.getU_agree (A := A) (o := U.at_ s o) (bad := bad) (eq := U.eqQ) hU.eqQ q kh m.degree m.root 0 s1 with
      ⟨s', h1, h2⟩ | ⟨a, s', h1, h2⟩ | ⟨e, h1, h2⟩
    · rw [h1]; exact .inl ⟨rfl, h2⟩
    · rw [h1]; exact .inr ⟨a, rfl, h2⟩
    · rw [h2] at hm; cases hm

/-- An operation either panics in user code and leaves the map as it is or a map with or without some entries; or it does what the model
without panics does with the hashes it was given. -/
theorem Loose.stepU (h : m.Loose A k false l) (hU : U.Within o bad) (s : S) (op : MapOp K V Q) :
    (∃ e, m.stepU A U s op = .ok (none, e) ∧ bad ∧ (e = .keep ∨ ∃ m', e = .update m' ∧ Left (LossCause U s m.hasher op) A k m m')) ∨
    (∃ r e, m.stepU A U s op = .ok (some r, e) ∧ m.step A (U.at_ s o) op = .ok (r, e)) := by
  cases op with
  | insert key v =>
    simp only [HTMap.stepU, HTMap.step, HTMap.insert, Rep.clone_eq]
    rcases h.insertMutU hU key v s with ⟨m', h1, h2, h3⟩ | ⟨m', h1, h2, _⟩
    · rw [h1]; exact .inl ⟨_, rfl, h2, .inl rfl⟩
    · rw [h1, h2]; exact .inr ⟨_, _, rfl, rfl⟩
  | insertMut key v =>
    simp only [HTMap.stepU, HTMap.step]
    rcases h.insertMutU hU key v s with ⟨m', h1, h2, h3⟩ | ⟨m', h1, h2, _⟩
    · rw [h1]; exact .inl ⟨_, rfl, h2, .inr ⟨_, rfl, h3⟩⟩
    · rw [h1, h2]; exact .inr ⟨_, _, rfl, rfl⟩
  | remove q =>
    simp only [HTMap.stepU, HTMap.step, HTMap.remove, Rep.clone_eq]
    rcases h.removeMutU hU q s with ⟨m', h1, h2, h3⟩ | ⟨b, m', h1, h2⟩
    · rw [h1]; exact .inl ⟨_, rfl, h2, .inl rfl⟩
    · rw [h1, h2]; cases b <;> exact .inr ⟨_, _, rfl, rfl⟩
  | removeMut q =>
    simp only [HTMap.stepU, HTMap.step]
    rcases h.removeMutU hU q s with ⟨m', h1, h2, h3⟩ | ⟨b, m', h1, h2⟩
    · rw [h1]; exact .inl ⟨_, rfl, h2, .inr ⟨_, rfl, h3⟩⟩
    · rw [h1, h2]; exact .inr ⟨_, _, rfl, rfl⟩
  | getMut q f =>
    simp only [HTMap.stepU, HTMap.step]
    rcases h.getMutU hU q f s with ⟨m', h1, h2, h3⟩ | ⟨b, m', h1, h2⟩
    · rw [h1]; exact .inl ⟨_, rfl, h2, .inr ⟨_, rfl, h3⟩⟩
    · rw [h1, h2]; exact .inr ⟨_, _, rfl, rfl⟩
  | clone => exact .inr ⟨_, _, rfl, rfl⟩
  | get q =>
    simp only [HTMap.stepU, HTMap.step, HTMap.get]
    rcases h.lookupU hU q s with ⟨h1, h2⟩ | ⟨x, h1, h2⟩
    · rw [h1]; exact .inl ⟨_, rfl, h2, .inl rfl⟩
    · rw [h1, h2]; exact .inr ⟨_, _, rfl, rfl⟩
  | getKeyValue q =>
    simp only [HTMap.stepU, HTMap.step, HTMap.getKeyValue]
    rcases h.lookupU hU q s with ⟨h1, h2⟩ | ⟨x, h1, h2⟩
    · rw [h1]; exact .inl ⟨_, rfl, h2, .inl rfl⟩
    · rw [h1, h2]; exact .inr ⟨_, _, rfl, rfl⟩
  | containsKey q =>
    simp only [HTMap.stepU, HTMap.step, HTMap.containsKey, HTMap.get]
    rcases h.lookupU hU q s with ⟨h1, h2⟩ | ⟨x, h1, h2⟩
    · rw [h1]; exact .inl ⟨_, rfl, h2, .inl rfl⟩
    · rw [h1, h2]; cases x <;> exact .inr ⟨_, _, rfl, rfl⟩
  | index q =>
    simp only [HTMap.stepU, HTMap.step, HTMap.index, HTMap.get]
    rcases h.lookupU hU q s with ⟨h1, h2⟩ | ⟨x, h1, h2⟩
    · rw [h1]; exact .inl ⟨_, rfl, h2, .inl rfl⟩
    · rw [h1, h2]; cases x <;> exact .inr ⟨_, _, rfl, rfl⟩
  | size => exact .inr ⟨_, _, rfl, rfl⟩
  | isEmpty => exact .inr ⟨_, _, rfl, rfl⟩

/-- Without panics the operations are those of the model without panics. -/
theorem Loose.stepU_pure (h : m.Loose A k z l) (s : S) (op : MapOp K V Q) :
    m.stepU A (HTUser.pure o) s op = (m.step A o op).map fun p => (some p.1, p.2) := by
  rcases h.weaken.stepU (HTUser.pure_within (S := S) (V := V) o) s op with ⟨_, _, h1, _⟩ | ⟨r, e, h1, h2⟩
  · exact h1.elim
  · have : (HTUser.pure o : HTUser S H K V Q).at_ s o = o := rfl
    rw [this] at h2
    rw [h1, h2]; rfl

/-! ### No collisions -/

/-- Every entry has the hash of its key, and no two entries have the same. -/
structure NoColl (hash : H → K → UInt64) (P : K → Prop) (m : HTMap H K V) : Prop where
  hashes : ∀ e ∈ m.root.entries, e.keyHash = hash m.hasher e.key ∧ P e.key
  nodup : (m.root.entries.map (·.keyHash)).Nodup

theorem NoColl.count {hash : H → K → UInt64} {P : K → Prop} (h : NoColl hash P m) (kh : UInt64) :
    m.root.entries.countP (fun e => e.keyHash == kh) ≤ 1 := by
  have := h.nodup
  generalize m.root.entries = es at this
  have hc := List.nodup_iff_count.1 this kh
  rw [List.count, List.countP_map] at hc
  exact hc

/-- Entries lost were among several with the same hash: none are lost if there are no collisions. -/
theorem Left.noColl {E : UInt64 → Prop} {hash : H → K → UInt64} {P : K → Prop} (h : NoColl hash P m) {m' : HTMap H K V} (hl : Left E A k m m') :
    m'.Loose A k false (m'.root.entries.map pair) ∧ m'.root.entries.Perm m.root.entries ∧ NoColl hash P m' := by
  obtain ⟨h1, h2, kh, lost, h3, h4, h5⟩ := hl
  have hlost : lost = [] := by
    by_cases h0 : lost = []
    · exact h0
    · have := (h5 h0).2.1
      have := h.count kh
      omega
  rw [hlost, List.append_nil] at h3
  refine ⟨h4 hlost, h3, fun e he => ?_, ?_⟩
  · rw [h2]; exact h.hashes e (h3.mem_iff.1 he)
  · exact ((h3.map _).nodup_iff).2 h.nodup

/-- Keys with the same hash are taken for equal: no collisions arise. -/
theorem NoColl.insertMut {hash : H → K → UInt64} {P : K → Prop} (hn : NoColl hash P m) (h : m.Loose A k z l) (o : HashKeys H K Q)
    (hinj : ∀ x a b, P a → P b → hash x a = hash x b → o.eqK a b = true) (key : K) (hP : P key) (v : V)
    (hh : o.hashK m.hasher key = hash m.hasher key) {m' : HTMap H K V} (hm : m.insertMut A o key v = .ok m') : NoColl hash P m' := by
  obtain ⟨n', h1, h2, h3, _⟩ := HNode.insert_loose (o := o) h.conf insertFuel m.root 0 (HEntry.new o m.hasher key v) (by omega)
    h.ok (by simp only [HNode.need, insertFuel]; split <;> omega)
  rw [HTMap.insertMut, HNode.clone_eq, h.degree] at hm
  simp only [h1, Res.ok_bind] at hm
  cases hm
  have hsub := List.eraseP_sublist (l := m.root.entries)
    (p := fun x => x.matches o.self (HEntry.new o m.hasher key v).key (HEntry.new o m.hasher key v).keyHash)
  constructor
  · intro e he
    rcases List.mem_cons.1 (h3.mem_iff.1 he) with rfl | he
    · exact ⟨hh, hP⟩
    · exact hn.hashes e (hsub.subset he)
  · refine ((h3.map _).nodup_iff).2 ?_
    rw [List.map_cons, List.nodup_cons]
    refine ⟨fun hmem => ?_, hn.nodup.sublist (hsub.map _)⟩
    obtain ⟨e, he, hk⟩ := List.mem_map.1 hmem
    have hin := hsub.subset he
    have hmatch : e.matches o.self (HEntry.new o m.hasher key v).key (HEntry.new o m.hasher key v).keyHash = true := by
      simp only [HEntry.matches, Bool.and_eq_true, beq_iff_eq]
      refine ⟨hk, ?_⟩
      have h4 := hn.hashes e hin
      refine hinj m.hasher e.key key h4.2 hP ?_
      rw [← h4.1, hk]
      exact hh
    cases hf : m.root.entries.find? fun x => x.matches o.self (HEntry.new o m.hasher key v).key (HEntry.new o m.hasher key v).keyHash with
    | none => exact absurd hmatch (by simpa using (List.find?_eq_none.1 hf) e hin)
    | some x =>
      have hx := List.find?_some hf
      simp only [HEntry.matches, Bool.and_eq_true, beq_iff_eq] at hx
      have hnd := (((perm_eraseP hf).map (·.keyHash)).nodup_iff).1 hn.nodup
      rw [List.map_cons, List.nodup_cons] at hnd
      exact hnd.1 (List.mem_map.2 ⟨e, he, by rw [hk, hx.1]⟩)

theorem NoColl.removeMut {hash : H → K → UInt64} {P : K → Prop} (hn : NoColl hash P m) (h : m.Loose A k z l) (o : HashKeys H K Q)
    (q : Q) {b : Bool} {m' : HTMap H K V} (hm : m.removeMut A o q = .ok (b, m')) : NoColl hash P m' := by
  obtain ⟨n', h1, h2, _, _⟩ := HNode.remove_loose (o := o) h.conf q (o.hashQ m.hasher q) m.root 0 (by omega) h.ok
  have hsub := List.eraseP_sublist (l := m.root.entries) (p := fun x => x.matches o q (o.hashQ m.hasher q))
  have key : ∀ sz, NoColl hash P ⟨n', sz, 2 ^ k, m.hasher⟩ := fun sz =>
    ⟨fun e he => hn.hashes e (hsub.subset (h2.mem_iff.1 he)), ((h2.map _).nodup_iff).2 (hn.nodup.sublist (hsub.map _))⟩
  rw [HTMap.removeMut, HNode.clone_eq, h.degree, h1] at hm
  simp only [Res.ok_bind] at hm
  split at hm
  · cases hc : csub m.size 1 with
    | error e => rw [hc] at hm; cases hm
    | ok x => rw [hc] at hm; cases hm; exact key _
  · cases hm; exact key _

theorem NoColl.getMut {hash : H → K → UInt64} {P : K → Prop} (hn : NoColl hash P m) (h : m.Loose A k z l) (o : HashKeys H K Q)
    (q : Q) (f : V → V) {x : Option V} {m' : HTMap H K V} (hm : m.getMut A o q f = .ok (x, m')) : NoColl hash P m' := by
  obtain ⟨n', h1, h2, _, _⟩ := HNode.getMut_loose (o := o) h.conf q (o.hashQ m.hasher q) (fun e => e.valueMut f) (fun _ => rfl) m.root 0
    (by omega) h.ok
  rw [HTMap.getMut, HNode.clone_eq, h.degree] at hm
  simp only [h1, Res.ok_bind] at hm
  cases hm
  have hp : (n'.entries.map fun e => (e.key, e.keyHash)).Perm (m.root.entries.map fun e => (e.key, e.keyHash)) := by
    refine (h2.map _).trans ?_
    simp only [HNode.modAt]
    cases hf : m.root.entries.find? fun x => x.matches o q (o.hashQ m.hasher q) with
    | none => exact .refl _
    | some e => exact ((perm_eraseP hf).map fun e => (e.key, e.keyHash)).symm
  constructor
  · intro e he
    obtain ⟨e', he', heq⟩ := List.mem_map.1 (hp.mem_iff.1 (List.mem_map_of_mem he))
    simp only [Prod.mk.injEq] at heq
    have := hn.hashes e' he'
    rw [heq.1, heq.2] at this
    exact this
  · have := hp.map Prod.snd
    simp only [List.map_map] at this
    exact (this.nodup_iff).2 hn.nodup

/-- The user code hashes with `hash` or panics, only keys of `P` are inserted, and those with the same hash are taken for equal. -/
structure Orderly (hash : H → K → UInt64) (P : K → Prop) (U : HTUser S H K V Q) (o : HashKeys H K Q) (op : MapOp K V Q) : Prop where
  obeys : U.Obeys o
  same : ∀ x a b, P a → P b → hash x a = hash x b → o.eqK a b = true
  hashes : ∀ s x a, (U.hashK s x a).1 = none ∨ (U.hashK s x a).1 = some (hash x a)
  keys : ∀ key v, op = .insert key v ∨ op = .insertMut key v → P key

/-- Without collisions maps stay well-formed whatever panics. -/
theorem NoColl.stepU {hash : H → K → UInt64} {P : K → Prop} (hn : NoColl hash P m) (h : m.Loose A k false l) {op : MapOp K V Q}
    (hU : Orderly hash P U o op) (s : S) :
    ∃ r e f, m.stepU A U s op = .ok (r, e) ∧ Effect.Rel (fun m l => m.Loose A k false l ∧ NoColl hash P m) e f ∧
      match (generalizing := false) r with
      | some r => LooseStep o.eqK o.eqKQ l op r f
      | none => f = .keep ∨ ∃ l', f = .update l' ∧ l'.Perm l := by
  have hW := hU.obeys.within
  rcases h.stepU hW s op with ⟨e, h1, _, h2⟩ | ⟨r, e, h1, h2⟩
  · rcases h2 with rfl | ⟨m', rfl, h2⟩
    · exact ⟨none, .keep, .keep, h1, .keep, .inl rfl⟩
    · obtain ⟨g1, g2, g3⟩ := h2.noColl hn
      refine ⟨none, .update m', .update _, h1, .update ⟨g1, g3⟩, .inr ⟨_, rfl, ?_⟩⟩
      rw [← h.list]; exact g2.map pair
  · obtain ⟨r', e', f, g1, g2, g3⟩ := h.step (U.at_ s o) op
    rw [g1] at h2; cases h2
    refine ⟨some r, e, f, h1, ?_, g2⟩
    have hins : ∀ key v m', P key → m.insertMutU A U key v s = .ok (some (), m') → NoColl hash P m' := by
      intro key v m' hP hm
      rcases h.insertMutU hW key v s with ⟨m'', e1, _⟩ | ⟨m'', e1, e2, e3⟩
      · rw [e1] at hm; cases hm
      · rw [e1] at hm; cases hm
        refine hn.insertMut h (U.at_ s o) hU.same key hP v ?_ e2
        rcases hU.hashes s m.hasher key with e4 | e4
        · rw [e4] at e3; cases e3
        · rw [e4] at e3; exact (Option.some.inj e3).symm
    have hnc : ∀ m', e = .fresh m' ∨ e = .update m' → NoColl hash P m' := by
      intro m' hm'
      cases op with
      | insert key v =>
        simp only [HTMap.stepU, Rep.clone_eq] at h1
        rcases hx : m.insertMutU A U key v s with e1 | ⟨_ | _, m''⟩
        · rw [hx] at h1; cases h1
        · rw [hx] at h1; cases h1
        · rw [hx] at h1; cases h1
          rcases hm' with hm' | hm' <;> cases hm'
          exact hins key v _ (hU.keys key v (.inl rfl)) hx
      | insertMut key v =>
        simp only [HTMap.stepU] at h1
        rcases hx : m.insertMutU A U key v s with e1 | ⟨_ | _, m''⟩
        · rw [hx] at h1; cases h1
        · rw [hx] at h1; cases h1
        · rw [hx] at h1; cases h1
          rcases hm' with hm' | hm' <;> cases hm'
          exact hins key v _ (hU.keys key v (.inr rfl)) hx
      | remove q =>
        simp only [HTMap.step, HTMap.remove, Rep.clone_eq] at g1
        rcases hx : m.removeMut A (U.at_ s o) q with e1 | ⟨b, m''⟩
        · rw [hx] at g1; cases g1
        · rw [hx] at g1
          cases b <;> cases g1 <;> rcases hm' with hm' | hm' <;> cases hm'
          · exact hn
          · exact hn.removeMut h _ q hx
      | removeMut q =>
        simp only [HTMap.step] at g1
        rcases hx : m.removeMut A (U.at_ s o) q with e1 | ⟨b, m''⟩
        · rw [hx] at g1; cases g1
        · rw [hx] at g1; cases g1
          rcases hm' with hm' | hm' <;> cases hm'
          exact hn.removeMut h _ q hx
      | getMut q f =>
        simp only [HTMap.step] at g1
        rcases hx : m.getMut A (U.at_ s o) q f with e1 | ⟨b, m''⟩
        · rw [hx] at g1; cases g1
        · rw [hx] at g1; cases g1
          rcases hm' with hm' | hm' <;> cases hm'
          exact hn.getMut h _ q f hx
      | clone => cases h1; rcases hm' with hm' | hm' <;> cases hm'; exact hn
      | get q => cases g3 <;> rcases hm' with hm' | hm' <;> cases hm' <;> cases g2
      | getKeyValue q => cases g3 <;> rcases hm' with hm' | hm' <;> cases hm' <;> cases g2
      | containsKey q => cases g3 <;> rcases hm' with hm' | hm' <;> cases hm' <;> cases g2
      | index q => cases g3 <;> rcases hm' with hm' | hm' <;> cases hm' <;> cases g2
      | size => cases h1; rcases hm' with hm' | hm' <;> cases hm'
      | isEmpty => cases h1; rcases hm' with hm' | hm' <;> cases hm'
    cases g3 with
    | keep => exact .keep
    | fresh g => exact .fresh ⟨g, hnc _ (.inl rfl)⟩
    | update g => exact .update ⟨g, hnc _ (.inr rfl)⟩

end HTMap
end Rpds
