import Verif.Vector.IterLemmas
import Verif.Spec.Vec
import Verif.Spec.Order
/-
Every vector operation does what the sequence specification says, in both arithmetic modes.
-/
set_option autoImplicit false
namespace Rpds.RVector
variable {T U : Type} {A : Arch} {v : RVector T} {xs : List T} {h : Nat}

/-- `v` represents the items `a.2` and has room for `a.1`. -/
def RepC (A : Arch) (v : RVector T) (a : Nat × List T) : Prop := (∃ h, Rep A v a.2 h) ∧ a.1 = vecCap A v.bits

theorem RepC.step {a : Nat × List T} {op : Op T} {r : Ret T} {f : Effect (Nat × List T)} (hr : RepC A v a)
    (hs : Spec.vecStep a op = .ok (r, f)) : ∃ e, step A v op = .ok (r, e) ∧ Effect.Rel (RepC A) e f := by
  obtain ⟨cap, xs⟩ := a
  obtain ⟨⟨h, hv⟩, hc⟩ := hr
  simp only at hv hc
  subst hc
  cases op with
  | pushBack x =>
    simp only [Spec.vecStep] at hs
    split at hs
    · next hlt =>
      cases hs
      obtain ⟨w, h', h1, h2, h3⟩ := hv.clone.pushBackMut x hlt
      exact ⟨.fresh w, by simp [RVector.step, RVector.pushBack, h1], .fresh ⟨⟨h', h2⟩, by rw [h3]; rfl⟩⟩
    · cases hs
  | pushBackMut x =>
    simp only [Spec.vecStep] at hs
    split at hs
    · next hlt =>
      cases hs
      obtain ⟨w, h', h1, h2, h3⟩ := hv.pushBackMut x hlt
      exact ⟨.update w, by simp [RVector.step, h1], .update ⟨⟨h', h2⟩, by rw [h3]⟩⟩
    · cases hs
  | set i x =>
    simp only [Spec.vecStep] at hs
    rcases hv.set i x with ⟨h1, h2⟩ | ⟨w, h1, h2, h3, h4⟩
    · rw [if_neg (by omega)] at hs; cases hs
      exact ⟨.keep, by simp [RVector.step, h2], .keep⟩
    · rw [if_pos h1] at hs; cases hs
      exact ⟨.fresh w, by simp [RVector.step, h2], .fresh ⟨⟨h, h3⟩, by rw [h4]⟩⟩
  | setMut i x =>
    simp only [Spec.vecStep] at hs; cases hs
    obtain ⟨w, h1, h2, h3, _⟩ := hv.setMut i x
    exact ⟨.update w, by simp [RVector.step, h1], .update ⟨⟨h, h2⟩, by rw [h3]⟩⟩
  | dropLast =>
    simp only [Spec.vecStep] at hs
    rcases hv.dropLast with ⟨h1, h2⟩ | ⟨w, h', h1, h2, h3, h4⟩
    · rw [if_pos h1] at hs; cases hs
      exact ⟨.keep, by simp [RVector.step, h2], .keep⟩
    · rw [if_neg h1] at hs; cases hs
      exact ⟨.fresh w, by simp [RVector.step, h2], .fresh ⟨⟨h', h3⟩, by rw [h4]⟩⟩
  | dropLastMut =>
    simp only [Spec.vecStep] at hs; cases hs
    by_cases hx : xs = []
    · subst hx
      exact ⟨.update v, by simp [RVector.step, hv.dropLastMut_nil], .update ⟨⟨h, hv⟩, rfl⟩⟩
    · obtain ⟨w, h', h1, h2, h3⟩ := hv.dropLastMut hx
      exact ⟨.update w, by simp [RVector.step, h1, hx], .update ⟨⟨h', h2⟩, by rw [h3]⟩⟩
  | getMut i g =>
    simp only [Spec.vecStep] at hs
    rcases hv.modify i g with ⟨h1, h2⟩ | ⟨w, x, h1, h2, h3, h4⟩
    · rw [h1] at hs; cases hs
      exact ⟨.keep, by simp [RVector.step, h2], .keep⟩
    · rw [h1] at hs; cases hs
      exact ⟨.update w, by simp [RVector.step, h2], .update ⟨⟨h, h3⟩, by rw [h4]⟩⟩
  | indexMut i x =>
    simp only [Spec.vecStep] at hs
    rcases hv.modify i (fun _ => x) with ⟨h1, h2⟩ | ⟨w, y, h1, h2, h3, h4⟩
    · rw [if_neg (by simpa using h1)] at hs; cases hs
      exact ⟨.keep, by simp [RVector.step, RVector.indexMut, h2], .keep⟩
    · have hi := (List.getElem?_eq_some_iff.1 h1).1
      rw [if_pos hi] at hs; cases hs
      exact ⟨.update w, by simp [RVector.step, RVector.indexMut, h2], .update ⟨⟨h, h3⟩, by rw [h4]⟩⟩
  | extend ys =>
    simp only [Spec.vecStep] at hs
    split at hs
    · next hlt =>
      cases hs
      obtain ⟨w, h', h1, h2, h3⟩ := hv.extend ys hlt
      exact ⟨.update w, by simp [RVector.step, h1], .update ⟨⟨h', h2⟩, by rw [h3]⟩⟩
    · cases hs
  | clone =>
    simp only [Spec.vecStep] at hs; cases hs
    exact ⟨.fresh v.clone, rfl, .fresh ⟨⟨h, hv.clone⟩, rfl⟩⟩
  | get i =>
    simp only [Spec.vecStep] at hs; cases hs
    exact ⟨.keep, by simp [RVector.step, hv.get], .keep⟩
  | index i =>
    simp only [Spec.vecStep] at hs
    cases hx : xs[i]? with
    | none =>
      rw [hx] at hs; cases hs
      exact ⟨.keep, by simp only [RVector.step, RVector.index, hv.get, hx, Res.ok_bind], .keep⟩
    | some x =>
      rw [hx] at hs; cases hs
      exact ⟨.keep, by simp [RVector.step, RVector.index, hv.get, hx], .keep⟩
  | first =>
    simp only [Spec.vecStep] at hs; cases hs
    exact ⟨.keep, by simp [RVector.step, hv.first], .keep⟩
  | last =>
    simp only [Spec.vecStep] at hs; cases hs
    exact ⟨.keep, by simp [RVector.step, hv.last], .keep⟩
  | len =>
    simp only [Spec.vecStep] at hs; cases hs
    exact ⟨.keep, by simp [RVector.step, hv.len], .keep⟩
  | isEmpty =>
    simp only [Spec.vecStep] at hs; cases hs
    exact ⟨.keep, by simp [RVector.step, hv.isEmpty], .keep⟩
  | iter cs =>
    simp only [Spec.vecStep] at hs; cases hs
    have hr := VIter.rem_new hv
    refine ⟨.keep, ?_, .keep⟩
    simp only [RVector.step, RVector.iter, VIter.sizeHint_ok hr, VIter.deCalls_ok hr, Res.ok_bind, Res.pure_eq]

/-! ### reachable vectors -/

/-- By how many items an operation makes the vector longer. -/
def Op.growth : Op T → Nat
  | .pushBack _ | .pushBackMut _ => 1
  | .extend ys => ys.length
  | _ => 0

/-- The vectors a program can build on a machine `A`: any valid `bits`, any operations that do not make a
version longer than `vecCap`. -/
inductive Reach (A : Arch) : RVector T → Prop where
  | new {b v} : 0 < b → b < A.W → newWithBits b = .ok v → Reach A v
  | fresh {v op r w} : Reach A v → v.len + op.growth ≤ vecCap A v.bits → step A v op = .ok (r, .fresh w) → Reach A w
  | update {v op r w} : Reach A v → v.len + op.growth ≤ vecCap A v.bits → step A v op = .ok (r, .update w) → Reach A w

theorem vecStep_ok {cap : Nat} {xs : List T} (op : Op T) (hc : xs.length + op.growth ≤ cap) :
    ∃ r f, Spec.vecStep (cap, xs) op = .ok (r, f) := by
  cases op with
  | pushBack x => exact ⟨_, _, by rw [Spec.vecStep, if_pos (by simp [Op.growth] at hc; omega)]⟩
  | pushBackMut x => exact ⟨_, _, by rw [Spec.vecStep, if_pos (by simp [Op.growth] at hc; omega)]⟩
  | extend ys => exact ⟨_, _, by rw [Spec.vecStep, if_pos (by simp [Op.growth] at hc; omega)]⟩
  | set i x => simp only [Spec.vecStep]; split <;> exact ⟨_, _, rfl⟩
  | dropLast => simp only [Spec.vecStep]; split <;> exact ⟨_, _, rfl⟩
  | getMut i f => simp only [Spec.vecStep]; split <;> exact ⟨_, _, rfl⟩
  | indexMut i x => simp only [Spec.vecStep]; split <;> exact ⟨_, _, rfl⟩
  | index i => simp only [Spec.vecStep]; split <;> exact ⟨_, _, rfl⟩
  | _ => exact ⟨_, _, rfl⟩

/-- No operation within the capacity panics. -/
theorem Rep.no_panic (hv : Rep A v xs h) (op : Op T) (hc : v.len + op.growth ≤ vecCap A v.bits) :
    ∃ r e, step A v op = .ok (r, e) := by
  obtain ⟨r, f, hs⟩ := vecStep_ok (cap := vecCap A v.bits) (xs := xs) op (by rw [← hv.len]; exact hc)
  obtain ⟨e, h1, _⟩ := RepC.step (A := A) (v := v) ⟨⟨h, hv⟩, rfl⟩ hs
  exact ⟨r, e, h1⟩

theorem Reach.rep (hr : Reach A v) : ∃ xs h, Rep A v xs h := by
  induction hr with
  | new h1 h2 h3 =>
    obtain ⟨w, e1, e2, _⟩ := newWithBits_rep (T := T) (A := A) h1 h2
    rw [h3] at e1; cases e1
    exact ⟨[], 0, e2⟩
  | @fresh v op r w _ hc hs ih =>
    obtain ⟨xs, h, hv⟩ := ih
    obtain ⟨r', f, hs'⟩ := vecStep_ok (cap := vecCap A v.bits) (xs := xs) op (by rw [← hv.len]; exact hc)
    obtain ⟨e, h1, h2⟩ := RepC.step (A := A) (v := v) ⟨⟨h, hv⟩, rfl⟩ hs'
    rw [hs] at h1; cases h1; cases h2
    rename_i a hw
    obtain ⟨⟨h', hw⟩, _⟩ := hw
    exact ⟨_, h', hw⟩
  | @update v op r w _ hc hs ih =>
    obtain ⟨xs, h, hv⟩ := ih
    obtain ⟨r', f, hs'⟩ := vecStep_ok (cap := vecCap A v.bits) (xs := xs) op (by rw [← hv.len]; exact hc)
    obtain ⟨e, h1, h2⟩ := RepC.step (A := A) (v := v) ⟨⟨h, hv⟩, rfl⟩ hs'
    rw [hs] at h1; cases h1; cases h2
    rename_i a hw
    obtain ⟨⟨h', hw⟩, _⟩ := hw
    exact ⟨_, h', hw⟩

/-! ### traits -/

theorem Rep.drives (hv : Rep A v xs h) : Drives (VIter.next A) v.iter xs := VIter.drives (VIter.rem_new hv)

theorem Rep.eq {w : RVector U} {ys : List U} {h' : Nat} (hv : Rep A v xs h) (hw : Rep A w ys h') (eqT : T → U → Bool) :
    v.eq A eqT w = .ok (Spec.seqEq eqT xs ys) := by
  unfold RVector.eq
  rw [hv.length, hw.length]
  by_cases hl : xs.length = ys.length
  · rw [if_pos (by simpa using hl)]
    exact hv.drives.iterEq hw.drives (by simp)
  · rw [if_neg (by simpa using hl)]
    cases hq : Spec.seqEq eqT xs ys
    · rfl
    · exact absurd (Spec.seqEq_length hq) hl

theorem Rep.cmp {w : RVector T} {ys : List T} {h' : Nat} (hv : Rep A v xs h) (hw : Rep A w ys h') (c : T → T → Ordering) :
    v.cmp A c w = .ok (Spec.lexCmp c xs ys) :=
  hv.drives.iterCmp hw.drives (by simp [hv.length])

theorem Rep.partialCmp {w : RVector U} {ys : List U} {h' : Nat} (hv : Rep A v xs h) (hw : Rep A w ys h')
    (c : T → U → Option Ordering) : v.partialCmp A c w = .ok (Spec.lexPartialCmp c xs ys) :=
  hv.drives.iterPartialCmp hw.drives (by simp [hv.length])

theorem Rep.hash {S : Type} (hv : Rep A v xs h) (hu : S → Nat → S) (ht : S → T → S) (s : S) :
    v.hash A hu ht s = .ok (xs.foldl ht (hu s xs.length)) := by
  unfold RVector.hash
  rw [hv.drives.iterHash _ (by simp [hv.length]), hv.len]

theorem Rep.display (hv : Rep A v xs h) (fmt : T → String) :
    v.display A fmt = .ok (Spec.bracketed "[" "]" (xs.map fmt)) := by
  unfold RVector.display
  rw [hv.drives.iterDisplay _ (by simp [hv.length])]
  simp [Spec.bracketed]

theorem Rep.serialize (hv : Rep A v xs h) : v.serialize A = .ok xs := hv.drives.drain (by simp [hv.length])

theorem new_rep (hW : defaultBits < A.W) : ∃ v : RVector T, RVector.new = .ok v ∧ Rep A v [] 0 ∧ v.bits = defaultBits :=
  newWithBits_rep (by decide) hW

theorem rep_fromIter (hW : defaultBits < A.W) (items : List T) (hc : items.length ≤ vecCap A defaultBits) :
    ∃ v h, fromIter A items = .ok v ∧ Rep A v items h ∧ v.bits = defaultBits := by
  obtain ⟨v, h1, h2, h3⟩ := new_rep (T := T) hW
  obtain ⟨w, h', h4, h5, h6⟩ := h2.extend items (by rw [h3]; simpa using hc)
  exact ⟨w, h', by simp [fromIter, h1, h4], by simpa using h5, by rw [h6, h3]⟩

theorem foldlM_push (A : Arch) (v : RVector T) (items : List T) :
    items.foldlM (fun v e => v.pushBackMut A e) v = v.extend A items := by
  induction items generalizing v with
  | nil => rfl
  | cons x xs ih =>
    simp only [List.foldlM_cons, RVector.extend]
    cases v.pushBackMut A x with
    | error e => rfl
    | ok w => simp [ih]

theorem vectorMacro_eq (items : List T) : vectorMacro A items = fromIter A items := by
  simp [vectorMacro, fromIter, foldlM_push]

theorem Rep.visitLoop {E : Type} (hv : Rep A v xs h) (seq : List (Except E T))
    (hc : xs.length + seq.length ≤ vecCap A v.bits) :
    match Spec.collectExcept seq with
    | .ok ys => ∃ w h', v.visitLoop A seq = .ok (.ok w) ∧ Rep A w (xs ++ ys) h'
    | .error e => v.visitLoop A seq = .ok (.error e) := by
  induction seq generalizing v xs h with
  | nil => exact ⟨v, h, rfl, by simpa using hv⟩
  | cons s seq ih =>
    cases s with
    | error e => rfl
    | ok x =>
      simp at hc
      obtain ⟨w, h', h1, h2, h3⟩ := hv.pushBackMut x (by omega)
      have := ih h2 (by rw [h3]; simp; omega)
      simp only [Spec.collectExcept, RVector.visitLoop, h1, Res.ok_bind]
      cases hq : Spec.collectExcept seq with
      | error e => rw [hq] at this; simpa using this
      | ok ys =>
        rw [hq] at this
        obtain ⟨w', h'', h4, h5⟩ := this
        exact ⟨w', h'', h4, by simpa using h5⟩

theorem rep_deserialize {E : Type} (hW : defaultBits < A.W) (seq : List (Except E T))
    (hc : seq.length ≤ vecCap A defaultBits) :
    match Spec.collectExcept seq with
    | .ok ys => ∃ w h', deserialize A seq = .ok (.ok w) ∧ Rep A w ys h'
    | .error e => deserialize A seq = .ok (.error e) := by
  obtain ⟨v, h1, h2, h3⟩ := new_rep (T := T) hW
  have := h2.visitLoop seq (by rw [h3]; simpa using hc)
  simp only [deserialize, h1, Res.ok_bind]
  cases hq : Spec.collectExcept seq with
  | error e => rw [hq] at this; simpa using this
  | ok ys =>
    rw [hq] at this
    simpa using this

end Rpds.RVector
