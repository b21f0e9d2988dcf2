import Verif.Spec.Sequence
/-
Laws of the specifications used for comparison and hashing of sequences.
-/
set_option autoImplicit false
namespace Rpds.Spec
variable {α : Type}

/-- The laws of Rust's `Ord` together with `Eq`: a total order whose `Equal` is exactly `==`. -/
structure LawfulOrd (cmp : α → α → Ordering) (eq : α → α → Bool) : Prop where
  oriented : ∀ a b, cmp b a = (cmp a b).swap
  trans : ∀ a b c, (cmp a b).isLE → (cmp b c).isLE → (cmp a c).isLE
  eq_iff : ∀ a b, eq a b = true ↔ cmp a b = .eq

/-- The laws of Rust's `Eq`: an equivalence relation. -/
structure LawfulEquiv (eq : α → α → Bool) : Prop where
  refl : ∀ a, eq a a = true
  symm : ∀ a b, eq a b = true → eq b a = true
  trans : ∀ a b c, eq a b = true → eq b c = true → eq a c = true

section
variable {cmp : α → α → Ordering} {eq : α → α → Bool}

theorem LawfulOrd.refl (h : LawfulOrd cmp eq) (a : α) : cmp a a = .eq := by
  have := h.oriented a a
  cases h' : cmp a a <;> simp_all

theorem LawfulOrd.equiv (h : LawfulOrd cmp eq) : LawfulEquiv eq where
  refl a := (h.eq_iff a a).2 (h.refl a)
  symm a b hab := by
    rw [h.eq_iff] at *
    rw [h.oriented, hab]; rfl
  trans a b c hab hbc := by
    rw [h.eq_iff] at *
    have h1 := h.trans a b c (by simp [hab]) (by simp [hbc])
    have h2 := h.trans c b a (by rw [h.oriented, hbc]; rfl) (by rw [h.oriented, hab]; rfl)
    rw [h.oriented a c] at h2
    cases hc : cmp a c <;> simp_all

theorem lexCmp_oriented (h : ∀ a b, cmp b a = (cmp a b).swap) (as bs : List α) :
    lexCmp cmp bs as = (lexCmp cmp as bs).swap := by
  induction as generalizing bs with
  | nil => cases bs <;> rfl
  | cons a as ih =>
    cases bs with
    | nil => rfl
    | cons b bs =>
      simp only [lexCmp]
      rw [h a b]
      cases cmp a b <;> simp [ih]

theorem lexCmp_eq_iff (as bs : List α) (h : ∀ a b, eq a b = true ↔ cmp a b = .eq) :
    lexCmp cmp as bs = .eq ↔ seqEq eq as bs = true := by
  induction as generalizing bs with
  | nil => cases bs <;> simp [lexCmp, seqEq]
  | cons a as ih =>
    cases bs with
    | nil => simp [lexCmp, seqEq]
    | cons b bs =>
      simp only [lexCmp, seqEq, Bool.and_eq_true, h a b]
      cases cmp a b <;> simp [ih]

theorem lexCmp_trans (h : LawfulOrd cmp eq) (as bs cs : List α) (h1 : (lexCmp cmp as bs).isLE)
    (h2 : (lexCmp cmp bs cs).isLE) : (lexCmp cmp as cs).isLE := by
  induction as generalizing bs cs with
  | nil => cases cs <;> simp [lexCmp]
  | cons a as ih =>
    cases bs with
    | nil => simp [lexCmp] at h1
    | cons b bs =>
      cases cs with
      | nil => simp [lexCmp] at h2
      | cons c cs =>
        simp only [lexCmp] at *
        have t1 := h.trans a b c
        have t2 := h.trans c b a
        have t3 := h.trans b c a
        have t4 := h.trans c a b
        have t5 := h.trans b a c
        have o1 := h.oriented a b
        have o2 := h.oriented b c
        have o3 := h.oriented a c
        cases hab : cmp a b <;> cases hbc : cmp b c <;> cases hac : cmp a c <;> simp_all
        exact ih _ _ h1 h2

theorem lexCmp_lawful (h : LawfulOrd cmp eq) : LawfulOrd (lexCmp cmp) (seqEq eq) where
  oriented := lexCmp_oriented h.oriented
  trans := lexCmp_trans h
  eq_iff a b := (lexCmp_eq_iff a b h.eq_iff).symm

theorem seqEq_equiv (h : LawfulEquiv eq) : LawfulEquiv (seqEq eq) where
  refl as := by induction as <;> simp_all [seqEq, h.refl]
  symm as bs := by
    induction as generalizing bs with
    | nil => cases bs <;> simp [seqEq]
    | cons a as ih =>
      cases bs with
      | nil => simp [seqEq]
      | cons b bs => simp only [seqEq, Bool.and_eq_true]; exact fun ⟨x, y⟩ => ⟨h.symm _ _ x, ih _ y⟩
  trans as bs cs := by
    induction as generalizing bs cs with
    | nil => cases bs <;> cases cs <;> simp [seqEq]
    | cons a as ih =>
      cases bs <;> cases cs <;> simp only [seqEq, Bool.and_eq_true, Bool.false_eq_true, false_implies, implies_true]
      exact fun ⟨x, y⟩ ⟨z, w⟩ => ⟨h.trans _ _ _ x z, ih _ _ y w⟩

theorem lexPartialCmp_total (as bs : List α) :
    lexPartialCmp (fun a b => some (cmp a b)) as bs = some (lexCmp cmp as bs) := by
  induction as generalizing bs with
  | nil => cases bs <;> rfl
  | cons a as ih =>
    cases bs with
    | nil => rfl
    | cons b bs => simp only [lexPartialCmp, lexCmp]; cases cmp a b <;> simp [ih]

theorem seqEq_iff_forall₂ (as bs : List α) : seqEq eq as bs = true ↔ List.Forall₂ (fun a b => eq a b = true) as bs := by
  induction as generalizing bs with
  | nil =>
    cases bs with
    | nil => simp [seqEq]
    | cons b bs => simp only [seqEq, Bool.false_eq_true, false_iff]; intro h; cases h
  | cons a as ih =>
    cases bs with
    | nil => simp only [seqEq, Bool.false_eq_true, false_iff]; intro h; cases h
    | cons b bs => simp [seqEq, ih]

theorem seqEq_eq_iff [DecidableEq α] (as bs : List α) : seqEq (fun a b : α => a == b) as bs = true ↔ as = bs := by
  induction as generalizing bs with
  | nil => cases bs <;> simp [seqEq]
  | cons a as ih => cases bs <;> simp [seqEq, ih]

theorem foldl_congr_seqEq {S : Type} (ht : S → α → S) (hr : ∀ s a b, eq a b = true → ht s a = ht s b) (as bs : List α) (s : S)
    (h : seqEq eq as bs = true) : as.foldl ht s = bs.foldl ht s := by
  induction as generalizing bs s with
  | nil => cases bs <;> simp_all [seqEq]
  | cons a as ih =>
    cases bs with
    | nil => simp [seqEq] at h
    | cons b bs =>
      simp only [seqEq, Bool.and_eq_true] at h
      simp [hr s a b h.1, ih _ _ h.2]
end

/-- Encoding `enc` is uniquely decodable in front of any continuation, up to `eq`. -/
def PrefixFree {β : Type} (enc : α → List β) (eq : α → α → Bool) : Prop :=
  ∀ a b s t, enc a ++ s = enc b ++ t → eq a b = true ∧ s = t

theorem foldl_enc {β : Type} (enc : α → List β) (as : List α) (s : List β) :
    as.foldl (fun s a => s ++ enc a) s = s ++ as.flatMap enc := by
  induction as generalizing s with
  | nil => simp
  | cons a as ih => simp [ih]

theorem flatMap_prefixFree {β : Type} {enc : α → List β} {eq : α → α → Bool} (h : PrefixFree enc eq) (as bs : List α)
    (hl : as.length = bs.length) (s t : List β) (e : as.flatMap enc ++ s = bs.flatMap enc ++ t) :
    seqEq eq as bs = true ∧ s = t := by
  induction as generalizing bs with
  | nil => cases bs <;> simp_all [seqEq]
  | cons a as ih =>
    cases bs with
    | nil => simp at hl
    | cons b bs =>
      simp only [List.flatMap_cons, List.append_assoc] at e
      obtain ⟨h1, h2⟩ := h _ _ _ _ e
      obtain ⟨h3, h4⟩ := ih _ (by simpa using hl) h2
      exact ⟨by simp [seqEq, h1, h3], h4⟩

end Rpds.Spec
