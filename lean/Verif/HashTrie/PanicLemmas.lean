import Verif.HashTrie.Panic
/-
Operations with user code that may panic: up to the panic they do what the model without panics does.
-/
set_option autoImplicit false
namespace Rpds
open Spec

/-- The function answers as `b`, or panics (and then `bad`). -/
def Ans {S T : Type} (bad : Prop) (p : T → S → Option Bool × S) (b : T → Bool) : Prop :=
  ∀ t s, ((p t s).1 = none ∧ bad) ∨ (p t s).1 = some (b t)

/-- `x` panics in user code, or does what `y` does. -/
def HAgree {S α N : Type} (bad : Prop) (x : Res (Option α × N × S)) (y : Res (α × N)) : Prop :=
  (∃ n s, x = .ok (none, n, s) ∧ bad) ∨ (∃ a n s, x = .ok (some a, n, s) ∧ y = .ok (a, n)) ∨ ∃ e, x = .error e ∧ y = .error e

/-- `x` panics in user code, or does what `y` does. -/
def HAgree1 {S α : Type} (bad : Prop) (x : Res (Option α × S)) (y : Res α) : Prop :=
  (∃ s, x = .ok (none, s) ∧ bad) ∨ (∃ a s, x = .ok (some a, s) ∧ y = .ok a) ∨ ∃ e, x = .error e ∧ y = .error e

section
variable {S T : Type} {bad : Prop} {p : T → S → Option Bool × S} {b : T → Bool}

theorem listRemoveLoopU_agree (h : Ans bad p b) (fuel : Nat) : ∀ (r : RList T) (bn : List T) (s : S),
    HAgree bad (listRemoveLoopU p fuel r bn s) ((listRemoveLoop b fuel r bn).map fun x => ((x.1, x.2.2), x.2.1)) := by
  induction fuel with
  | zero => intro r bn s; exact .inr (.inr ⟨_, rfl, rfl⟩)
  | succ fuel ih =>
    intro r bn s
    simp only [listRemoveLoopU, listRemoveLoop]
    split
    · cases unwrap r.first with
      | error e => exact .inr (.inr ⟨e, rfl, rfl⟩)
      | ok e =>
        simp only [Res.ok_bind]
        cases r.dropFirstMut with
        | error e => exact .inr (.inr ⟨e, rfl, rfl⟩)
        | ok q =>
          simp only [Res.ok_bind]
          obtain ⟨_, r'⟩ := q
          rcases hp : p e s with ⟨x, s'⟩
          have := h e s
          rw [hp] at this
          rcases this with ⟨h1, h2⟩ | h1
          · simp only at h1; subst h1
            exact .inl ⟨_, _, rfl, h2⟩
          · simp only at h1; subst h1
            cases hb : b e with
            | true => exact .inr (.inl ⟨_, _, _, rfl, by simp [Except.map]⟩)
            | false => exact ih r' (bn ++ [e]) s'
    · exact .inr (.inl ⟨_, _, _, rfl, rfl⟩)

theorem listRemoveFirstU_agree (h : Ans bad p b) (l : RList T) (s : S) : HAgree bad (listRemoveFirstU p l s) (listRemoveFirst b l) := by
  simp only [listRemoveFirstU, listRemoveFirst]
  rcases listRemoveLoopU_agree h (l.len + 1) l [] s with ⟨n, s', h1, h2⟩ | ⟨a, n, s', h1, h2⟩ | ⟨e, h1, h2⟩
  · rw [h1]; exact .inl ⟨_, _, rfl, h2⟩
  · rw [h1]
    cases hl : listRemoveLoop b (l.len + 1) l [] with
    | error e => rw [hl] at h2; cases h2
    | ok q => rw [hl] at h2; cases h2; exact .inr (.inl ⟨_, _, _, rfl, rfl⟩)
  · rw [h1]
    cases hl : listRemoveLoop b (l.len + 1) l [] with
    | error e => rw [hl] at h2; cases h2; exact .inr (.inr ⟨_, rfl, rfl⟩)
    | ok q => rw [hl] at h2; cases h2

theorem iterFindU_agree (h : Ans bad p b) {σ : Type} (next : σ → Res (Option T × σ)) (fuel : Nat) : ∀ (it : σ) (s : S),
    HAgree1 bad (iterFindU next p fuel it s) (iterFind next b fuel it) := by
  induction fuel with
  | zero => intro it s; exact .inr (.inr ⟨_, rfl, rfl⟩)
  | succ fuel ih =>
    intro it s
    simp only [iterFindU, iterFind]
    cases next it with
    | error e => exact .inr (.inr ⟨e, rfl, rfl⟩)
    | ok q =>
      obtain ⟨x, it'⟩ := q
      simp only [Res.ok_bind]
      cases x with
      | none => exact .inr (.inl ⟨_, _, rfl, rfl⟩)
      | some e =>
        simp only
        rcases hp : p e s with ⟨x, s'⟩
        have := h e s
        rw [hp] at this
        rcases this with ⟨h1, h2⟩ | h1
        · simp only at h1; subst h1
          exact .inl ⟨_, rfl, h2⟩
        · simp only at h1; subst h1
          cases hb : b e with
          | true => exact .inr (.inl ⟨_, _, rfl, by simp⟩)
          | false => exact ih it' s'

end

section
variable {S H K V Q : Type} {bad : Prop} {o : HashKeys H K Q} {A : Arch} {eq : S → K → Q → Option Bool × S}
  {clone : S → K × V → Option Unit × S}

/-- `eq` answers as `o`, or panics. -/
def AnsEq (bad : Prop) (eq : S → K → Q → Option Bool × S) (o : HashKeys H K Q) : Prop :=
  ∀ s k q, ((eq s k q).1 = none ∧ bad) ∨ (eq s k q).1 = some (o.eqKQ k q)

theorem AnsEq.matches (h : AnsEq bad eq o) (key : Q) (kh : UInt64) :
    Ans bad (fun e : HEntry K V => e.matchesU eq key kh) fun e => e.matches o key kh := by
  intro e s
  simp only [HEntry.matchesU, HEntry.matches]
  cases e.keyHash == kh with
  | false => exact .inr rfl
  | true => simpa using h s e.key key

theorem Bucket.getU_agree (h : AnsEq bad eq o) (key : Q) (kh : UInt64) (b : Bucket K V) (s : S) :
    HAgree1 bad (b.getU eq key kh s) (b.get o key kh) := by
  cases b with
  | single e =>
    simp only [Bucket.getU, Bucket.get]
    rcases hp : e.matchesU eq key kh s with ⟨x, s'⟩
    have := h.matches key kh e s
    simp only [hp] at this
    rcases this with ⟨h1, h2⟩ | h1
    · subst h1; exact .inl ⟨_, rfl, h2⟩
    · subst h1; exact .inr (.inl ⟨_, _, rfl, rfl⟩)
  | collision l => exact iterFindU_agree (h.matches key kh) _ _ _ _

theorem Bucket.getMutU_agree (h : AnsEq bad eq o) (hc : ∀ s e, ((clone s e).1 = none ∧ bad) ∨ (clone s e).1 = some ()) (key : Q) (kh : UInt64)
    (f : HEntry K V → HEntry K V) (b : Bucket K V) (s : S) : HAgree bad (b.getMutU eq clone key kh f s) (b.getMut o key kh f) := by
  cases b with
  | single e =>
    simp only [Bucket.getMutU, Bucket.getMut]
    rcases hp : e.matchesU eq key kh s with ⟨x, s'⟩
    have := h.matches key kh e s
    simp only [hp] at this
    rcases this with ⟨h1, h2⟩ | h1
    · subst h1; exact .inl ⟨_, _, rfl, h2⟩
    · subst h1
      cases hm : e.matches o key kh with
      | false => exact .inr (.inl ⟨_, _, _, rfl, by simp⟩)
      | true =>
        simp only
        rcases hq : clone s' (e.key, e.value) with ⟨y, s''⟩
        have := hc s' (e.key, e.value)
        simp only [hq] at this
        rcases this with ⟨h1, h2⟩ | h1
        · subst h1; exact .inl ⟨_, _, rfl, h2⟩
        · subst h1; exact .inr (.inl ⟨_, _, _, rfl, by simp⟩)
  | collision l =>
    simp only [Bucket.getMutU, Bucket.getMut]
    rcases listRemoveFirstU_agree (h.matches key kh) l s with ⟨n, s', h1, h2⟩ | ⟨a, n, s', h1, h2⟩ | ⟨e, h1, h2⟩
    · rw [h1]; exact .inl ⟨_, _, rfl, h2⟩
    · rw [h1, h2]
      cases a with
      | none => exact .inr (.inl ⟨_, _, _, rfl, rfl⟩)
      | some e =>
        simp only [Res.ok_bind]
        rcases hq : clone s' (e.key, e.value) with ⟨y, s''⟩
        have := hc s' (e.key, e.value)
        simp only [hq] at this
        rcases this with ⟨h1, h2⟩ | h1
        · subst h1; exact .inl ⟨_, _, rfl, h2⟩
        · subst h1
          simp only
          cases (n.pushFrontMut e).firstMutSet f with
          | none => exact .inr (.inl ⟨_, _, _, rfl, rfl⟩)
          | some l' => exact .inr (.inl ⟨_, _, _, rfl, rfl⟩)
    · rw [h1, h2]; exact .inr (.inr ⟨e, rfl, rfl⟩)

theorem Bucket.insertU_agree {eq : S → K → K → Option Bool × S} (h : AnsEq bad eq o.self) (entry : HEntry K V) (b : Bucket K V) (s : S) :
    HAgree bad (b.insertU eq entry s) (b.insert o entry) := by
  cases b with
  | single e =>
    simp only [Bucket.insertU, Bucket.insert]
    rcases hp : e.matchesU eq entry.key entry.keyHash s with ⟨x, s'⟩
    have := h.matches entry.key entry.keyHash e s
    simp only [hp] at this
    rcases this with ⟨h1, h2⟩ | h1
    · subst h1; exact .inl ⟨_, _, rfl, h2⟩
    · subst h1
      cases hm : e.matches o.self entry.key entry.keyHash with
      | false => exact .inr (.inl ⟨_, _, _, rfl, by simp⟩)
      | true => exact .inr (.inl ⟨_, _, _, rfl, by simp⟩)
  | collision l =>
    simp only [Bucket.insertU, Bucket.insert]
    rcases listRemoveFirstU_agree (h.matches entry.key entry.keyHash) l s with ⟨n, s', h1, h2⟩ | ⟨a, n, s', h1, h2⟩ | ⟨e, h1, h2⟩
    · rw [h1]; exact .inl ⟨_, _, rfl, h2⟩
    · rw [h1, h2]; exact .inr (.inl ⟨_, _, _, rfl, rfl⟩)
    · rw [h1, h2]; exact .inr (.inr ⟨e, rfl, rfl⟩)

theorem Bucket.removeU_agree (h : AnsEq bad eq o) (key : Q) (kh : UInt64) (b : Bucket K V) (s : S) :
    HAgree bad (b.removeU eq key kh s) (b.remove o key kh) := by
  cases b with
  | single e =>
    simp only [Bucket.removeU, Bucket.remove]
    rcases hp : e.matchesU eq key kh s with ⟨x, s'⟩
    have := h.matches key kh e s
    simp only [hp] at this
    rcases this with ⟨h1, h2⟩ | h1
    · subst h1; exact .inl ⟨_, _, rfl, h2⟩
    · subst h1
      cases hm : e.matches o key kh with
      | false => exact .inr (.inl ⟨_, _, _, rfl, by simp⟩)
      | true => exact .inr (.inl ⟨_, _, _, rfl, by simp⟩)
  | collision l =>
    simp only [Bucket.removeU, Bucket.remove]
    rcases listRemoveFirstU_agree (h.matches key kh) l s with ⟨n, s', h1, h2⟩ | ⟨a, n, s', h1, h2⟩ | ⟨e, h1, h2⟩
    · rw [h1]; exact .inl ⟨_, _, rfl, h2⟩
    · rw [h1, h2]
      simp only [Res.ok_bind]
      match n.len with
      | 0 => exact .inr (.inr ⟨_, rfl, rfl⟩)
      | 1 =>
        simp only
        cases unwrap n.first with
        | error e => exact .inr (.inr ⟨_, rfl, rfl⟩)
        | ok e => exact .inr (.inl ⟨_, _, _, rfl, rfl⟩)
      | _ + 2 => exact .inr (.inl ⟨_, _, _, rfl, rfl⟩)
    · rw [h1, h2]; exact .inr (.inr ⟨e, rfl, rfl⟩)

namespace HNode

theorem getAtU_eq (key : Q) (kh : UInt64) (deg : Nat) (arr : List (HNode K V)) (i d : Nat) (s : S) :
    getAtU A eq key kh deg arr i d s = (vecIndex arr i >>= fun c => getU A eq key kh deg c d s) := by
  induction arr generalizing i with
  | nil => simp [getAtU, vecIndex]
  | cons c arr ih => cases i <;> simp [getAtU, ih, vecIndex]

theorem getMutAtU_eq (key : Q) (kh : UInt64) (deg : Nat) (f : HEntry K V → HEntry K V) (arr : List (HNode K V)) (i d : Nat) (s : S) :
    getMutAtU A eq clone key kh deg f arr i d s = (vecIndex arr i >>= fun c => getMutU A eq clone key kh deg f c d s) := by
  induction arr generalizing i with
  | nil => simp [getMutAtU, vecIndex]
  | cons c arr ih => cases i <;> simp [getMutAtU, ih, vecIndex]

theorem removeAtU_eq (key : Q) (kh : UInt64) (deg : Nat) (arr : List (HNode K V)) (i d : Nat) (s : S) :
    removeAtU A eq key kh deg arr i d s = (vecIndex arr i >>= fun c => removeU A eq key kh deg c d s) := by
  induction arr generalizing i with
  | nil => simp [removeAtU, vecIndex]
  | cons c arr ih => cases i <;> simp [removeAtU, ih, vecIndex]

theorem vecIndex_mem {T : Type} {arr : List T} {i : Nat} {c : T} (h : vecIndex arr i = .ok c) : c ∈ arr := by
  simp only [vecIndex] at h
  cases hi : arr[i]? with
  | none => rw [hi] at h; cases h
  | some a => rw [hi] at h; cases h; exact List.mem_of_getElem? hi

theorem writeSlot_of_index {arr : List (HNode K V)} {i bm : Nat} {c : HNode K V} (h : vecIndex arr i = .ok c) (t : HNode K V) :
    SparseArray.writeSlot ⟨bm, arr⟩ i t = .ok ⟨bm, arr.set i t⟩ := by
  simp only [vecIndex] at h
  cases hi : arr[i]? with
  | none => rw [hi] at h; cases h
  | some a =>
    have : i < arr.length := (List.getElem?_eq_some_iff.1 hi).1
    simp [SparseArray.writeSlot, vecSet, this]

theorem getU_agree (h : AnsEq bad eq o) (key : Q) (kh : UInt64) (deg : Nat) (n : HNode K V) : ∀ (d : Nat) (s : S),
    HAgree1 bad (n.getU A eq key kh deg d s) (n.get A o key kh deg d) := by
  induction n using HNode.induct with
  | hl b => intro d s; simp only [getU, get]; exact Bucket.getU_agree h key kh b s
  | hb bm arr ih =>
    intro d s
    simp only [getU, get]
    cases indexFromHash A kh d deg with
    | error e => exact .inr (.inr ⟨_, rfl, rfl⟩)
    | ok x =>
      simp only [Res.ok_bind]
      cases unwrap x with
      | error e => exact .inr (.inr ⟨_, rfl, rfl⟩)
      | ok i =>
        simp only [Res.ok_bind]
        cases SparseArray.slot A bm i with
        | error e => exact .inr (.inr ⟨_, rfl, rfl⟩)
        | ok y =>
          simp only [Res.ok_bind]
          cases y with
          | none => exact .inr (.inl ⟨_, _, rfl, rfl⟩)
          | some j =>
            simp only [getAtU_eq, getAt_eq]
            cases hv : vecIndex arr j with
            | error e => exact .inr (.inr ⟨_, rfl, rfl⟩)
            | ok c => exact ih c (vecIndex_mem hv) (d + 1) s

theorem getMutU_agree (h : AnsEq bad eq o) (hc : ∀ s e, ((clone s e).1 = none ∧ bad) ∨ (clone s e).1 = some ()) (key : Q) (kh : UInt64)
    (deg : Nat) (f : HEntry K V → HEntry K V) (n : HNode K V) : ∀ (d : Nat) (s : S),
    HAgree bad (n.getMutU A eq clone key kh deg f d s) (n.getMut A o key kh deg f d) := by
  induction n using HNode.induct with
  | hl b =>
    intro d s; simp only [getMutU, getMut]
    rcases Bucket.getMutU_agree h hc key kh f b s with ⟨n, s', h1, h2⟩ | ⟨a, n, s', h1, h2⟩ | ⟨e, h1, h2⟩
    · rw [h1]; exact .inl ⟨_, _, rfl, h2⟩
    · rw [h1, h2]; exact .inr (.inl ⟨_, _, _, rfl, rfl⟩)
    · rw [h1, h2]; exact .inr (.inr ⟨e, rfl, rfl⟩)
  | hb bm arr ih =>
    intro d s
    simp only [getMutU, getMut]
    cases indexFromHash A kh d deg with
    | error e => exact .inr (.inr ⟨_, rfl, rfl⟩)
    | ok x =>
      simp only [Res.ok_bind]
      cases unwrap x with
      | error e => exact .inr (.inr ⟨_, rfl, rfl⟩)
      | ok i =>
        simp only [Res.ok_bind]
        cases SparseArray.slot A bm i with
        | error e => exact .inr (.inr ⟨_, rfl, rfl⟩)
        | ok y =>
          simp only [Res.ok_bind]
          cases y with
          | none => exact .inr (.inl ⟨_, _, _, rfl, rfl⟩)
          | some j =>
            simp only [getMutAtU_eq, getMutAt_eq]
            cases hv : vecIndex arr j with
            | error e => exact .inr (.inr ⟨_, rfl, rfl⟩)
            | ok c =>
              simp only [Res.ok_bind]
              rcases ih c (vecIndex_mem hv) (d + 1) s with ⟨n, s', h1, h2⟩ | ⟨a, n, s', h1, h2⟩ | ⟨e, h1, h2⟩
              · simp only [h1, Res.ok_bind, writeSlot_of_index hv]; exact .inl ⟨_, _, rfl, h2⟩
              · simp only [h1, h2, Res.ok_bind, writeSlot_of_index hv]; exact .inr (.inl ⟨_, _, _, rfl, rfl⟩)
              · rw [h1, h2]; exact .inr (.inr ⟨e, rfl, rfl⟩)

theorem removeU_agree (h : AnsEq bad eq o) (key : Q) (kh : UInt64) (deg : Nat) (n : HNode K V) : ∀ (d : Nat) (s : S),
    HAgree bad (n.removeU A eq key kh deg d s) (n.remove A o key kh deg d) := by
  induction n using HNode.induct with
  | hl b =>
    intro d s; simp only [removeU, remove]
    rcases Bucket.removeU_agree h key kh b s with ⟨n, s', h1, h2⟩ | ⟨a, n, s', h1, h2⟩ | ⟨e, h1, h2⟩
    · rw [h1]; cases n <;> exact .inl ⟨_, _, rfl, h2⟩
    · rw [h1, h2]; cases n <;> exact .inr (.inl ⟨_, _, _, rfl, rfl⟩)
    · rw [h1, h2]; exact .inr (.inr ⟨e, rfl, rfl⟩)
  | hb bm arr ih =>
    intro d s
    simp only [removeU, remove]
    cases indexFromHash A kh d deg with
    | error e => exact .inr (.inr ⟨_, rfl, rfl⟩)
    | ok x =>
      simp only [Res.ok_bind]
      cases unwrap x with
      | error e => exact .inr (.inr ⟨_, rfl, rfl⟩)
      | ok i =>
        simp only [Res.ok_bind]
        cases SparseArray.slot A bm i with
        | error e => exact .inr (.inr ⟨_, rfl, rfl⟩)
        | ok y =>
          simp only [Res.ok_bind]
          cases y with
          | none => exact .inr (.inl ⟨_, _, _, rfl, rfl⟩)
          | some j =>
            simp only [removeAtU_eq, removeAt_eq]
            cases hv : vecIndex arr j with
            | error e => exact .inr (.inr ⟨_, rfl, rfl⟩)
            | ok c =>
              simp only [Res.ok_bind]
              rcases ih c (vecIndex_mem hv) (d + 1) s with ⟨n, s', h1, h2⟩ | ⟨a, n, s', h1, h2⟩ | ⟨e, h1, h2⟩
              · simp only [h1, Res.ok_bind, writeSlot_of_index hv]; exact .inl ⟨_, _, rfl, h2⟩
              · simp only [h1, h2, Res.ok_bind, writeSlot_of_index hv]
                cases n.isEmpty A with
                | error e => exact .inr (.inr ⟨_, rfl, rfl⟩)
                | ok em =>
                  simp only [Res.ok_bind]
                  cases a with
                  | false => exact .inr (.inl ⟨_, _, _, rfl, rfl⟩)
                  | true =>
                    cases em with
                    | false =>
                      simp only
                      cases compress A (.branch bm (arr.set j n)) with
                      | error e => exact .inr (.inr ⟨_, rfl, rfl⟩)
                      | ok n' => exact .inr (.inl ⟨_, _, _, rfl, rfl⟩)
                    | true =>
                      simp only
                      cases SparseArray.remove A ⟨bm, arr.set j n⟩ i with
                      | error e => exact .inr (.inr ⟨_, rfl, rfl⟩)
                      | ok t =>
                        simp only [Res.ok_bind]
                        cases compress A (.branch t.bitmap t.array) with
                        | error e => exact .inr (.inr ⟨_, rfl, rfl⟩)
                        | ok n' => exact .inr (.inl ⟨_, _, _, rfl, rfl⟩)
              · rw [h1, h2]; exact .inr (.inr ⟨e, rfl, rfl⟩)

theorem insertU_agree {eq : S → K → K → Option Bool × S} (h : AnsEq bad eq o.self) (deg : Nat) (fuel : Nat) :
    ∀ (e : HEntry K V) (n : HNode K V) (d : Nat) (s : S),
    HAgree bad (n.insertU A eq deg fuel e d s) (n.insert A o deg fuel e d) := by
  induction fuel with
  | zero => intro e n d s; cases n <;> exact .inr (.inr ⟨_, rfl, rfl⟩)
  | succ fuel ih =>
    intro e n d s
    cases n with
    | branch bm arr =>
      simp only [insertU, insert]
      cases indexFromHash A e.keyHash d deg with
      | error e => exact .inr (.inr ⟨_, rfl, rfl⟩)
      | ok x =>
        simp only [Res.ok_bind]
        cases unwrap x with
        | error e => exact .inr (.inr ⟨_, rfl, rfl⟩)
        | ok i =>
          simp only [Res.ok_bind]
          cases SparseArray.slot A bm i with
          | error e => exact .inr (.inr ⟨_, rfl, rfl⟩)
          | ok y =>
            simp only [Res.ok_bind]
            cases y with
            | none =>
              simp only
              cases SparseArray.set A ⟨bm, arr⟩ i (HNode.leaf (.single e)) with
              | error e => exact .inr (.inr ⟨_, rfl, rfl⟩)
              | ok t => exact .inr (.inl ⟨_, _, _, rfl, rfl⟩)
            | some j =>
              simp only
              cases hv : vecIndex arr j with
              | error e => exact .inr (.inr ⟨_, rfl, rfl⟩)
              | ok c =>
                simp only [Res.ok_bind]
                rcases ih e c (d + 1) s with ⟨n, s', h1, h2⟩ | ⟨a, n, s', h1, h2⟩ | ⟨e, h1, h2⟩
                · simp only [h1, Res.ok_bind, writeSlot_of_index hv]; exact .inl ⟨_, _, rfl, h2⟩
                · simp only [h1, h2, Res.ok_bind, writeSlot_of_index hv]; exact .inr (.inl ⟨_, _, _, rfl, rfl⟩)
                · rw [h1, h2]; exact .inr (.inr ⟨e, rfl, rfl⟩)
    | leaf b =>
      simp only [insertU, insert, Bucket.containsKey]
      cases indexFromHash A e.keyHash d deg with
      | error e => exact .inr (.inr ⟨_, rfl, rfl⟩)
      | ok x =>
        simp only [Res.ok_bind]
        rcases Bucket.getU_agree h e.key e.keyHash b s with ⟨s', h1, h2⟩ | ⟨a, s', h1, h2⟩ | ⟨e, h1, h2⟩
        · rw [h1]; exact .inl ⟨_, _, rfl, h2⟩
        · rw [h1, h2]
          simp only [Res.ok_bind, Res.pure_eq]
          have hins : HAgree bad
              (do let (isNew, b, s) ← b.insertU eq e s'
                  Except.ok (isNew, HNode.leaf b, s))
              (do let (isNew, b) ← b.insert o e
                  Except.ok (isNew, HNode.leaf b)) := by
            rcases Bucket.insertU_agree h e b s' with ⟨n, s', h1, h2⟩ | ⟨a, n, s', h1, h2⟩ | ⟨e, h1, h2⟩
            · rw [h1]; exact .inl ⟨_, _, rfl, h2⟩
            · rw [h1, h2]; exact .inr (.inl ⟨_, _, _, rfl, rfl⟩)
            · rw [h1, h2]; exact .inr (.inr ⟨e, rfl, rfl⟩)
          cases x with
          | none => exact hins
          | some i =>
            cases a with
            | some y => exact hins
            | none =>
              cases b with
              | collision l => exact .inr (.inr ⟨_, rfl, rfl⟩)
              | single x =>
                simp only [Option.isNone_some, Bool.not_false, if_true, Option.isSome_none, Bool.false_eq_true, if_false]
                rcases ih x.clone newEmptyBranch d s' with ⟨n, s', h1, h2⟩ | ⟨a, n, s', h1, h2⟩ | ⟨e, h1, h2⟩
                · simp only [h1, Res.ok_bind]; exact .inl ⟨_, _, rfl, h2⟩
                · simp only [h1, h2, Res.ok_bind]
                  rcases ih e n d s' with ⟨n, s', h1, h2⟩ | ⟨a, n, s', h1, h2⟩ | ⟨e, h1, h2⟩
                  · simp only [h1, Res.ok_bind]; exact .inl ⟨_, _, rfl, h2⟩
                  · simp only [h1, h2, Res.ok_bind]; exact .inr (.inl ⟨_, _, _, rfl, rfl⟩)
                  · rw [h1, h2]; exact .inr (.inr ⟨e, rfl, rfl⟩)
                · rw [h1, h2]; exact .inr (.inr ⟨e, rfl, rfl⟩)
        · rw [h1, h2]; exact .inr (.inr ⟨e, rfl, rfl⟩)

end HNode
end
end Rpds
