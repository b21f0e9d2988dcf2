import Verif.Heap.SharedLinear
import Verif.Heap.RedBlackSpec
import Verif.Heap.HashTrieSpec
/-
Lent maps and sets.
-/
set_option autoImplicit false
namespace Rpds
namespace Heap
open Spec

/-- The methods of maps that take `&self`. -/
def mapByRef {K V Q : Type} : MapOp K V Q → Bool
  | .insertMut _ _ | .removeMut _ | .getMut _ _ => false
  | _ => true

/-- The methods of `RedBlackTreeMap` that take `&self`. -/
def rbByRef {K V Q : Type} : RBOp K V Q → Bool
  | .base op => mapByRef op
  | _ => true

/-- The methods of `HashTrieMap` that take `&self`. -/
def htByRef {K V Q : Type} : HT.HTOp K V Q → Bool
  | .base op => mapByRef op
  | _ => true

section
variable {K V Q : Type} {A : Allocator (RLabel K V)} {Ar : Arch} {o : OrdKeys K Q}

theorem readsOnly_rbReadNode (p : Addr) : (readNode p : Prog (RLabel K V) _).ReadsOnly := by
  refine (readsOnly_read p).bind fun c => ?_
  cases HRBNode.ofContent c <;> trivial

theorem readsOnly_rbReadEntry (p : Addr) : (readEntry p : Prog (RLabel K V) _).ReadsOnly := by
  refine (readsOnly_read p).bind ?_
  rintro ⟨l, cs⟩
  cases l <;> trivial

theorem readsOnly_hgetStep (key : Q) {sub : Option Addr → Prog (RLabel K V) (Option (K × V))} (hs : ∀ p, (sub p).ReadsOnly)
    (p : Option Addr) : (hgetStep o key sub p).ReadsOnly := by
  cases p with
  | none => trivial
  | some p =>
    refine (readsOnly_rbReadNode p).bind fun n => (readsOnly_rbReadEntry _).bind fun e => ?_
    split
    · exact hs _
    · trivial
    · exact hs _

theorem readsOnly_hget (key : Q) (fuel : Nat) (p : Option Addr) : (hget o key fuel p : Prog (RLabel K V) _).ReadsOnly := by
  induction fuel generalizing p with
  | zero => exact readsOnly_hgetStep key (sub := fun _ => .panic) (fun _ => trivial) p
  | succ fuel ih => exact readsOnly_hgetStep key ih p

theorem readsOnly_hfirstStep {sub : Option Addr → Prog (RLabel K V) (Option (K × V))} (hs : ∀ p, (sub p).ReadsOnly)
    (p : Option Addr) : (hfirstStep sub p).ReadsOnly := by
  cases p with
  | none => trivial
  | some p =>
    refine (readsOnly_rbReadNode p).bind fun n => ?_
    split
    · exact hs _
    · exact (readsOnly_rbReadEntry _).bind fun e => trivial

theorem readsOnly_hfirst (fuel : Nat) (p : Option Addr) : (hfirst fuel p : Prog (RLabel K V) _).ReadsOnly := by
  induction fuel generalizing p with
  | zero => exact readsOnly_hfirstStep (sub := fun _ => .panic) (fun _ => trivial) p
  | succ fuel ih => exact readsOnly_hfirstStep ih p

theorem readsOnly_hlastStep {sub : Option Addr → Prog (RLabel K V) (Option (K × V))} (hs : ∀ p, (sub p).ReadsOnly)
    (p : Option Addr) : (hlastStep sub p).ReadsOnly := by
  cases p with
  | none => trivial
  | some p =>
    refine (readsOnly_rbReadNode p).bind fun n => ?_
    split
    · exact hs _
    · exact (readsOnly_rbReadEntry _).bind fun e => trivial

theorem readsOnly_hlast (fuel : Nat) (p : Option Addr) : (hlast fuel p : Prog (RLabel K V) _).ReadsOnly := by
  induction fuel generalizing p with
  | zero => exact readsOnly_hlastStep (sub := fun _ => .panic) (fun _ => trivial) p
  | succ fuel ih => exact readsOnly_hlastStep ih p

theorem readsOnly_rbHviewStep {sub : Option Addr → Prog (RLabel K V) (RBTree K V)} (hs : ∀ p, (sub p).ReadsOnly)
    (p : Option Addr) : (hviewStep sub p).ReadsOnly := by
  cases p with
  | none => trivial
  | some p =>
    exact (readsOnly_rbReadNode p).bind fun n => (readsOnly_rbReadEntry _).bind fun e => (hs _).bind fun _ => (hs _).bind fun _ => trivial

theorem readsOnly_rbHview (fuel : Nat) (p : Option Addr) : (hview fuel p : Prog (RLabel K V) _).ReadsOnly := by
  induction fuel generalizing p with
  | zero => exact readsOnly_rbHviewStep (sub := fun _ => .panic) (fun _ => trivial) p
  | succ fuel ih => exact readsOnly_rbHviewStep ih p

theorem safeB_rbClone {hm : HRBMap} {m : RBMap K V} {β : List (Item (RLabel K V))} (h : hm.Is m β) (ρ : List (Item (RLabel K V))) :
    SafeB A none β (fun r σ => ∃ τ, σ = τ ++ ρ ∧ r.Is m τ) hm.clone ρ := by
  obtain ⟨⟨t, e1, rfl, h2⟩, h3⟩ := h
  obtain ⟨root, size⟩ := hm
  simp only at e1 h3
  subst e1 h3
  refine SafeB.bind (safeB_cloneOpt (o := t) (fun s e => by subst e; simp) ρ) ?_
  rintro _ _ rfl
  exact SafeB.ret ⟨optPtr t, rfl, ⟨t, rfl, rfl, h2⟩, rfl⟩

theorem safeB_rbClone' {hm : HRBMap} {m : RBMap K V} {β : List (Item (RLabel K V))} (h : hm.Is m β) :
    SafeB A none β (fun r τ => r.Is m τ) hm.clone [] := by
  refine (safeB_rbClone h []).imp ?_
  rintro r _ ⟨τ, rfl, h1⟩
  rwa [List.append_nil]

theorem safeB_rbRemove {hm : HRBMap} {m m' : RBMap K V} {β : List (Item (RLabel K V))} (h : hm.Is m β)
    (hc : 2 * m.root.height ≤ 4 * Nat.log2 (m.size + 1)) {q : Q} (he : m.remove Ar o q = .ok m') :
    SafeB A none β (fun r τ => r.Is m' τ) (hm.remove Ar o q) [] := by
  obtain ⟨⟨b, m1⟩, h1, h2⟩ := res_bind_ok he
  refine SafeB.bind (safeB_rbClone' h) ?_
  intro hm' τ h3
  refine SafeB.bind (safe_rbRemoveMut h3 hc h1).borrowing ?_
  rintro ⟨_, hm1⟩ σ ⟨rfl, h5⟩
  simp only at h2 h5 ⊢
  split
  · next hb =>
    rw [if_pos hb] at h2
    cases h2
    exact SafeB.ret h5
  · next hb =>
    rw [if_neg hb] at h2
    cases h2
    refine SafeB.bind (safeB_rbClone h σ) ?_
    rintro hm2 _ ⟨τ1, rfl, h6⟩
    refine SafeB.bind (Safe.perm (safe_rbDrop h5 (within_none _) τ1) (by perm_tac)).borrowing ?_
    rintro _ _ rfl
    exact SafeB.ret h6

/-- Lent red-black maps, against the value model. -/
theorem rbImpl_lends_model (Ar : Arch) {o : OrdKeys K Q} (lo : o.Lawful) (A : Allocator (RLabel K V)) :
    (rbImpl Ar o : Impl (RLabel K V) _ _ _).Lends A (RBMap.stepAll Ar o) (RBIs o) rbByRef where
  step := by
    intro hm m β op r e hR hb he
    have rd : e = .keep → (rbHStepAll Ar o hm op).ReadsOnly →
        SafeB A none β (fun x τ => x.1 = r ∧ EffNew (RBIs o) x.2 e τ) (rbHStepAll Ar o hm op) [] := by
      rintro rfl h2
      exact (rbImpl_refines_model Ar lo A).reads hR he h2
    obtain ⟨h, l, hl⟩ := hR
    have hc := hl.fuel
    have hget : ∀ q, (hm.get o q : Prog (RLabel K V) _).ReadsOnly := fun q => (readsOnly_hget q _ _).bind fun _ => trivial
    have hview : (hm.view : Prog (RLabel K V) _).ReadsOnly := (readsOnly_rbHview _ _).bind fun _ => trivial
    cases op with
    | base op =>
      obtain ⟨⟨r', e'⟩, h1, h2⟩ := res_bind_ok he
      obtain ⟨e2, h4, h5⟩ := hl.step (A := Ar) lo op
      cases op with
      | insertMut k v => cases hb
      | removeMut q => cases hb
      | getMut q f => cases hb
      | insert k v =>
        obtain ⟨m', h6, h7⟩ := res_bind_ok h1
        cases h7
        cases h2
        rw [h4] at h1
        cases h1
        have hrep := h5
        cases hrep with
        | fresh hrep =>
        refine SafeB.bind (Q := fun x τ => x.1 = .unit ∧ EffNew (RBIs o) x.2 (.fresh m') τ)
          (SafeB.bind (Q := fun r τ => r.Is m' τ) (SafeB.bind (safeB_rbClone' h) ?_) ?_) ?_
        · intro hm' τ h8
          exact (safe_rbInsertMut h8 hc h6).borrowing
        · intro hm' τ h8
          exact SafeB.ret ⟨rfl, .fresh ⟨h8, _, hrep⟩⟩
        · rintro ⟨x, f⟩ τ ⟨rfl, h8⟩
          exact SafeB.ret ⟨rfl, h8⟩
      | remove q =>
        obtain ⟨m', h6, h7⟩ := res_bind_ok h1
        cases h7
        cases h2
        rw [h4] at h1
        cases h1
        have hrep := h5
        cases hrep with
        | fresh hrep =>
        refine SafeB.bind (Q := fun x τ => x.1 = .unit ∧ EffNew (RBIs o) x.2 (.fresh m') τ)
          (SafeB.bind (safeB_rbRemove h hc h6) ?_) ?_
        · intro hm' τ h8
          exact SafeB.ret ⟨rfl, .fresh ⟨h8, _, hrep⟩⟩
        · rintro ⟨x, f⟩ τ ⟨rfl, h8⟩
          exact SafeB.ret ⟨rfl, h8⟩
      | clone =>
        cases h1
        cases h2
        refine SafeB.bind (Q := fun x τ => x.1 = .unit ∧ EffNew (RBIs o) x.2 (.fresh m.clone) τ)
          (SafeB.bind (safeB_rbClone' h) ?_) ?_
        · intro hm' τ h8
          exact SafeB.ret ⟨rfl, .fresh ⟨h8, l, hl⟩⟩
        · rintro ⟨x, f⟩ τ ⟨rfl, h8⟩
          exact SafeB.ret ⟨rfl, h8⟩
      | get q =>
        cases h1
        cases h2
        exact rd rfl (((hget q).bind fun _ => trivial : (rbHStep Ar o hm (.get q)).ReadsOnly).bind fun _ => trivial)
      | getKeyValue q =>
        cases h1
        cases h2
        exact rd rfl ((((readsOnly_hget q _ _).bind fun _ => trivial : (hm.getKeyValue o q : Prog (RLabel K V) _).ReadsOnly).bind
          fun _ => trivial : (rbHStep Ar o hm (.getKeyValue q)).ReadsOnly).bind fun _ => trivial)
      | containsKey q =>
        cases h1
        cases h2
        exact rd rfl (((hget q).bind fun _ => trivial : (rbHStep Ar o hm (.containsKey q)).ReadsOnly).bind fun _ => trivial)
      | index q =>
        have hro : (rbHStep Ar o hm (.index q : MapOp K V Q)).ReadsOnly := by
          refine (hget q).bind fun x => ?_
          cases x <;> trivial
        refine rd ?_ (hro.bind fun _ => trivial)
        simp only [RBMap.step] at h1
        split at h1
        · cases h1; cases h2; rfl
        · cases h1; cases h2; rfl
        · cases h1
      | size =>
        cases h1
        cases h2
        exact rd rfl trivial
      | isEmpty =>
        cases h1
        cases h2
        exact rd rfl trivial
    | first =>
      cases he
      exact rd rfl (((readsOnly_hfirst _ _).bind fun _ => trivial : (hm.first : Prog (RLabel K V) _).ReadsOnly).bind fun _ => trivial)
    | last =>
      cases he
      exact rd rfl (((readsOnly_hlast _ _).bind fun _ => trivial : (hm.last : Prog (RLabel K V) _).ReadsOnly).bind fun _ => trivial)
    | iter cs =>
      obtain ⟨rs, h1, h2⟩ := res_bind_ok he
      cases h2
      exact rd rfl (hview.bind fun _ => (readsOnly_lift _).bind fun _ => trivial)
    | range start end_ cs =>
      have hro : (rbHStepAll Ar o hm (.range start end_ cs : RBOp K V Q)).ReadsOnly := by
        refine hview.bind fun v => ?_
        cases v.range o start end_ with
        | error x => trivial
        | ok it => exact (readsOnly_lift _).bind fun _ => trivial
      refine rd ?_ hro
      simp only [RBMap.stepAll] at he
      split at he
      · obtain ⟨rs, h1, h2⟩ := res_bind_ok he
        cases h2
        rfl
      · cases he
        rfl

/-- Lent red-black maps. -/
theorem rbImpl_lends (Ar : Arch) {o : OrdKeys K Q} (lo : o.Lawful) (A : Allocator (RLabel K V)) :
    (rbImpl Ar o : Impl (RLabel K V) _ _ _).Lends A (ordMapStep Ar.W o)
      (fun hm l ρ => ∃ m, RBIs o hm m ρ ∧ m.Rep o l) rbByRef :=
  (rbImpl_lends_model Ar lo A).trans fun _ _ op _ _ hr he => rbMap_stepAll lo hr op he

/-- The methods of `RedBlackTreeSet` that take `&self`. -/
def rbSetByRef {T Q : Type} (op : RBSetOp T Q) : Bool := rbByRef (rbSetOp op)

/-- Lent red-black sets. -/
theorem rbSetImpl_lends {T : Type} (Ar : Arch) {o : OrdKeys T Q} (lo : o.Lawful) (A : Allocator (RLabel T Unit)) :
    (rbSetImpl Ar o).Lends A (ordSetStep Ar.W o)
      (fun hm l ρ => ∃ s, (∃ m, RBIs o hm m ρ ∧ m.Rep o s) ∧ s = unitPairs l) rbSetByRef := by
  refine ((rbImpl_lends Ar lo A).adapt rbSetOp rbSetRet).trans (S := fun s l => s = unitPairs l) ?_
  rintro _ l op x f rfl he
  obtain ⟨y, g, h1, h2, h3⟩ := ordMap_set Ar.W l op he
  exact ⟨g, by simp [h1, h2], h3⟩

end

namespace HT
section
variable {H K V Q : Type} {A : Allocator (HLabel K V)} {Ar : Arch} {o : HashKeys H K Q}

theorem readsOnly_htReadNode (p : Addr) : (readNode p : Prog (HLabel K V) _).ReadsOnly := by
  refine (readsOnly_read p).bind fun c => ?_
  cases HHNode.ofContent c <;> trivial

theorem readsOnly_htReadEntry (p : Addr) : (readEntry p : Prog (HLabel K V) _).ReadsOnly := by
  refine (readsOnly_read p).bind ?_
  rintro ⟨l, cs⟩
  cases l <;> trivial

theorem readsOnly_readEwh (p : Addr) : (readEwh p : Prog (HLabel K V) _).ReadsOnly := by
  refine (readsOnly_read p).bind fun c => ?_
  split <;> trivial

theorem readsOnly_hmatches (key : Q) (kh : UInt64) (e : HEnt) : (hmatches o key kh e : Prog (HLabel K V) _).ReadsOnly := by
  unfold hmatches
  split
  · exact (readsOnly_htReadEntry _).bind fun _ => trivial
  · trivial

theorem readsOnly_findEnt (key : Q) (kh : UInt64) (fuel : Nat) (p : Option Addr) :
    (findEnt o key kh fuel p : Prog (HLabel K V) _).ReadsOnly := by
  induction fuel generalizing p with
  | zero => cases p <;> trivial
  | succ fuel ih =>
    cases p with
    | none => trivial
    | some p =>
      refine (HList.readsOnly_readNode p).bind fun x => (readsOnly_readEwh _).bind fun e => (readsOnly_hmatches key kh e).bind fun b => ?_
      split
      · exact (readsOnly_htReadEntry _).bind fun _ => trivial
      · exact ih _

theorem readsOnly_bucketGet (key : Q) (kh : UInt64) (n : HHNode) : (bucketGet o key kh n : Prog (HLabel K V) _).ReadsOnly := by
  cases n with
  | branch bm ps => trivial
  | single e =>
    refine (readsOnly_hmatches key kh e).bind fun b => ?_
    split
    · exact (readsOnly_htReadEntry _).bind fun _ => trivial
    · trivial
  | collision l => exact readsOnly_findEnt key kh _ _

theorem readsOnly_htHget (key : Q) (kh : UInt64) (deg fuel : Nat) (p : Addr) (d : Nat) :
    (hget o Ar key kh deg fuel p d : Prog (HLabel K V) _).ReadsOnly := by
  induction fuel generalizing p d with
  | zero => trivial
  | succ fuel ih =>
    refine (readsOnly_htReadNode p).bind fun n => ?_
    cases n with
    | branch bm ps =>
      refine (readsOnly_lift _).bind fun x => ?_
      split
      · trivial
      · exact (readsOnly_lift _).bind fun q => ih q _
    | single e => exact readsOnly_bucketGet key kh _
    | collision l => exact readsOnly_bucketGet key kh _

theorem readsOnly_viewEnt (e : HEnt) : (viewEnt e : Prog (HLabel K V) _).ReadsOnly :=
  (readsOnly_htReadEntry _).bind fun _ => trivial

theorem readsOnly_htViewLink (fuel : Nat) (p : Option Addr) : (viewLink fuel p : Prog (HLabel K V) _).ReadsOnly := by
  induction fuel generalizing p with
  | zero => cases p <;> trivial
  | succ fuel ih =>
    cases p with
    | none => trivial
    | some p =>
      exact (HList.readsOnly_readNode p).bind fun x => (readsOnly_readEwh _).bind fun e => (readsOnly_viewEnt e).bind fun _ =>
        (ih _).bind fun _ => trivial

theorem readsOnly_viewLast (p : Option Addr) : (viewLast p : Prog (HLabel K V) _).ReadsOnly := by
  cases p with
  | none => trivial
  | some p => exact (readsOnly_readEwh _).bind fun e => (readsOnly_viewEnt e).bind fun _ => trivial

theorem readsOnly_htHview (fuel : Nat) (p : Addr) : (hview fuel p : Prog (HLabel K V) _).ReadsOnly := by
  induction fuel generalizing p with
  | zero => trivial
  | succ fuel ih =>
    refine (readsOnly_htReadNode p).bind fun n => ?_
    cases n with
    | branch bm ps => exact (readsOnly_forAll ih ps).bind fun _ => trivial
    | single e => exact (readsOnly_viewEnt e).bind fun _ => trivial
    | collision l => exact (readsOnly_htViewLink _ _).bind fun _ => (readsOnly_viewLast _).bind fun _ => trivial

theorem safeB_htClone {hm : HHTMap H} {m : HTMap H K V} {β : List (Item (HLabel K V))} (h : hm.Is m β) (ρ : List (Item (HLabel K V))) :
    SafeB A none β (fun r σ => ∃ τ, σ = τ ++ ρ ∧ r.Is m τ) hm.clone ρ := by
  have hh := h
  obtain ⟨⟨t, h1, rfl, h2⟩, h3, h4, h5⟩ := h
  unfold HHTMap.clone
  rw [h1]
  refine SafeB.bind (safeB_clone (.refl t) (by simp) ρ) ?_
  rintro _ _ rfl
  exact SafeB.ret ⟨[.ptr t], rfl, hh⟩

theorem safeB_htClone' {hm : HHTMap H} {m : HTMap H K V} {β : List (Item (HLabel K V))} (h : hm.Is m β) :
    SafeB A none β (fun r τ => r.Is m τ) hm.clone [] := by
  refine (safeB_htClone h []).imp ?_
  rintro r _ ⟨τ, rfl, h1⟩
  rwa [List.append_nil]

theorem safeB_htRemove {hm : HHTMap H} {m m' : HTMap H K V} {β : List (Item (HLabel K V))} (h : hm.Is m β)
    (hf : Shallow trieFuel m.root) {q : Q} (he : m.remove Ar o q = .ok m') :
    SafeB A none β (fun r τ => r.Is m' τ) (hm.remove Ar o q) [] := by
  obtain ⟨⟨b, m1⟩, h1, h2⟩ := res_bind_ok he
  refine SafeB.bind (safeB_htClone' h) ?_
  intro hm' τ h3
  refine SafeB.bind (safe_htRemoveMut (k := 0) h3 hf (.inl rfl) h1).borrowing ?_
  rintro ⟨_, hm1⟩ σ ⟨rfl, h5⟩
  simp only at h2 h5 ⊢
  split
  · next hb =>
    rw [if_pos hb] at h2
    cases h2
    exact SafeB.ret h5
  · next hb =>
    rw [if_neg hb] at h2
    cases h2
    refine SafeB.bind (safeB_htClone h σ) ?_
    rintro hm2 _ ⟨τ1, rfl, h6⟩
    refine SafeB.bind (Safe.perm (safe_htDrop (Ar := Ar) (o := o) (k := 0) h5 (.inl rfl) τ1) (by perm_tac)).borrowing ?_
    rintro _ _ rfl
    exact SafeB.ret h6

/-- Lent hash maps, against the value model. -/
theorem htImpl_lends_model (Ar : Arch) {o : HashKeys H K Q} (lo : o.Lawful) {k : Nat} (c : HConf Ar k) (hW : 2 ^ k ≤ Ar.W % 256) (hasher : H)
    (A : Allocator (HLabel K V)) :
    (htImpl Ar o hasher (2 ^ k) : Impl (HLabel K V) _ _ _).Lends A (HTMap.stepAll Ar o) (HTIs Ar o k) htByRef where
  step := by
    intro hm m β op r e hR hb he
    have rd : e = .keep → (htHStepAll Ar o hm op).ReadsOnly →
        SafeB A none β (fun x τ => x.1 = r ∧ EffNew (HTIs Ar o k) x.2 e τ) (htHStepAll Ar o hm op) [] := by
      rintro rfl h2
      exact (htImpl_refines_model Ar lo c hW hasher A).reads hR he h2
    obtain ⟨h, l, hl⟩ := hR
    have hf : Shallow trieFuel m.root := shallow_of_ok hl.conf.pos m.root 0 trieFuel hl.ok (by decide) (by decide)
    have hget : ∀ q, (hm.get Ar o q : Prog (HLabel K V) _).ReadsOnly := fun q => (readsOnly_htHget q _ _ _ _ _).bind fun _ => trivial
    have hview : (hm.view : Prog (HLabel K V) _).ReadsOnly := (readsOnly_htHview _ _).bind fun _ => trivial
    cases op with
    | base op =>
      obtain ⟨⟨r', e'⟩, h1, h2⟩ := res_bind_ok he
      obtain ⟨e2, h4, h5⟩ := hl.step lo op
      cases op with
      | insertMut k v => cases hb
      | removeMut q => cases hb
      | getMut q f => cases hb
      | insert key v =>
        obtain ⟨m', h6, h7⟩ := res_bind_ok h1
        cases h7
        cases h2
        rw [h4] at h1
        cases h1
        have hrep := h5
        cases hrep with
        | fresh hrep =>
        refine SafeB.bind (Q := fun x τ => x.1 = .unit ∧ EffNew (HTIs Ar o k) x.2 (.fresh m') τ)
          (SafeB.bind (Q := fun r τ => r.Is m' τ) (SafeB.bind (safeB_htClone' h) ?_) ?_) ?_
        · intro hm' τ h8
          exact (safe_htInsertMut h8 h6).borrowing
        · intro hm' τ h8
          exact SafeB.ret ⟨rfl, .fresh ⟨h8, _, hrep⟩⟩
        · rintro ⟨x, f⟩ τ ⟨rfl, h8⟩
          exact SafeB.ret ⟨rfl, h8⟩
      | remove q =>
        obtain ⟨m', h6, h7⟩ := res_bind_ok h1
        cases h7
        cases h2
        rw [h4] at h1
        cases h1
        have hrep := h5
        cases hrep with
        | fresh hrep =>
        refine SafeB.bind (Q := fun x τ => x.1 = .unit ∧ EffNew (HTIs Ar o k) x.2 (.fresh m') τ)
          (SafeB.bind (safeB_htRemove h hf h6) ?_) ?_
        · intro hm' τ h8
          exact SafeB.ret ⟨rfl, .fresh ⟨h8, _, hrep⟩⟩
        · rintro ⟨x, f⟩ τ ⟨rfl, h8⟩
          exact SafeB.ret ⟨rfl, h8⟩
      | clone =>
        cases h1
        cases h2
        refine SafeB.bind (Q := fun x τ => x.1 = .unit ∧ EffNew (HTIs Ar o k) x.2 (.fresh m.clone) τ)
          (SafeB.bind (safeB_htClone' h) ?_) ?_
        · intro hm' τ h8
          exact SafeB.ret ⟨rfl, .fresh ⟨h8, l, hl⟩⟩
        · rintro ⟨x, f⟩ τ ⟨rfl, h8⟩
          exact SafeB.ret ⟨rfl, h8⟩
      | get q =>
        obtain ⟨x, h6, h7⟩ := res_bind_ok h1
        cases h7
        cases h2
        exact rd rfl (((hget q).bind fun _ => trivial : (htHStep Ar o hm (.get q)).ReadsOnly).bind fun _ => trivial)
      | getKeyValue q =>
        obtain ⟨x, h6, h7⟩ := res_bind_ok h1
        cases h7
        cases h2
        exact rd rfl (((readsOnly_htHget q _ _ _ _ _).bind fun _ => trivial : (htHStep Ar o hm (.getKeyValue q)).ReadsOnly).bind
          fun _ => trivial)
      | containsKey q =>
        obtain ⟨x, h6, h7⟩ := res_bind_ok h1
        cases h7
        cases h2
        exact rd rfl (((hget q).bind fun _ => trivial : (htHStep Ar o hm (.containsKey q)).ReadsOnly).bind fun _ => trivial)
      | index q =>
        have hro : (htHStep Ar o hm (.index q : MapOp K V Q)).ReadsOnly := by
          refine (hget q).bind fun x => ?_
          cases x <;> trivial
        refine rd ?_ (hro.bind fun _ => trivial)
        simp only [HTMap.step] at h1
        split at h1
        · cases h1; cases h2; rfl
        · cases h1; cases h2; rfl
        · cases h1
      | size =>
        cases h1
        cases h2
        exact rd rfl trivial
      | isEmpty =>
        cases h1
        cases h2
        exact rd rfl trivial
    | iter n =>
      obtain ⟨rs, h1, h2⟩ := res_bind_ok he
      cases h2
      exact rd rfl (hview.bind fun _ => (readsOnly_lift _).bind fun _ => trivial)
    | count p =>
      obtain ⟨rs, h1, h2⟩ := res_bind_ok he
      cases h2
      exact rd rfl (hview.bind fun _ => (readsOnly_lift _).bind fun _ => trivial)

/-- Lent hash maps. -/
theorem htImpl_lends (Ar : Arch) {o : HashKeys H K Q} (lo : o.Lawful) {k : Nat} (c : HConf Ar k) (hW : 2 ^ k ≤ Ar.W % 256) (hasher : H)
    (A : Allocator (HLabel K V)) :
    (htImpl Ar o hasher (2 ^ k) : Impl (HLabel K V) _ _ _).Lends A (finMapStep o)
      (fun hm l ρ => ∃ m, HTIs Ar o k hm m ρ ∧ m.Rep Ar o k l) htByRef :=
  (htImpl_lends_model Ar lo c hW hasher A).trans fun _ _ op _ _ hr he => htMap_stepAll lo hr op he

/-- The methods of `HashTrieSet` that take `&self`. -/
def htSetByRef {T Q : Type} (op : HTSetOp T Q) : Bool := htByRef (htSetOp op)

/-- Lent hash sets, against the value model. -/
theorem htSetImpl_lends_model {T : Type} (Ar : Arch) {o : HashKeys H T Q} (lo : o.Lawful) {k : Nat} (c : HConf Ar k)
    (hW : 2 ^ k ≤ Ar.W % 256) (hasher : H) (A : Allocator (HLabel T Unit)) :
    (htSetImpl Ar o hasher (2 ^ k)).Lends A (htSetStepAll Ar o) (HTIs Ar o k) htSetByRef :=
  (htImpl_lends_model Ar lo c hW hasher A).adapt htSetOp htSetRet

/-- Lent hash sets. -/
theorem htSetImpl_lends {T : Type} (Ar : Arch) {o : HashKeys H T Q} (lo : o.Lawful) {k : Nat} (c : HConf Ar k)
    (hW : 2 ^ k ≤ Ar.W % 256) (hasher : H) (A : Allocator (HLabel T Unit)) :
    (htSetImpl Ar o hasher (2 ^ k)).Lends A (finSetStep o)
      (fun hm l ρ => ∃ s, (∃ m, HTIs Ar o k hm m ρ ∧ m.Rep Ar o k s) ∧ s = unitPairs l) htSetByRef := by
  refine ((htImpl_lends Ar lo c hW hasher A).adapt htSetOp htSetRet).trans (S := fun s l => s = unitPairs l) ?_
  rintro _ l op x f rfl he
  obtain ⟨y, g, h1, h2, h3⟩ := finMap_set l op he
  exact ⟨g, by simp [h1, h2], h3⟩

end
end HT
end Heap
end Rpds
