import Verif.Props.HeapHash
import Verif.Heap.PtrEq
/-
`ptr_eq` (C52): maps that share their root have the same contents, so the short-cuts in `==` and `is_subset` are sound.
-/
set_option autoImplicit false
namespace Rpds
namespace Props
open Heap Heap.HT

section
variable {L H Op Ret σ : Type}

/-- Whatever a client did, and whatever several threads did afterwards: if `ptrEq` answers true for two live handles, the values they
stand for are related by `Same`. -/
def PtrEqSound (impl : Impl L H Op Ret) (new : σ) (step : σ → Op → Res (Ret × Effect σ)) (ptrEq : H → H → Bool) (Same : σ → σ → Prop) :
    Prop :=
  ∀ (A : Allocator L) (setup : List (Cmd Op)) (rs : List (Option Ret)) (ss : List (Option σ)),
    pureClient new step [] setup = .ok (rs, ss) →
    ∃ (hs : List (Option H)) (h : Mem L) (d : Nat), Runs A (client impl [] setup) [] (rs, hs) h d ∧
      (∀ (i j : Nat) (x y : H) (s t : σ), hs[i]? = some (some x) → hs[j]? = some (some y) → ss[i]? = some (some s) →
        ss[j]? = some (some t) → ptrEq x y = true → Same s t) ∧
      ∀ (owner : Nat → Nat) (cmdss : List (List (Cmd Op))) (rss : List (List (Option Ret))) (sss : List (List (Option σ))),
        rss.length = cmdss.length → sss.length = cmdss.length →
        (∀ (i : Nat) (cmds : List (Cmd Op)) (rs : List (Option Ret)) (ss' : List (Option σ)), cmdss[i]? = some cmds → rss[i]? = some rs → sss[i]? = some ss' →
          pureClient new step (handlesOf owner i ss) cmds = .ok (rs, ss')) →
        ∀ sched : List Nat, ∃ ths' h', runThreads A sched (threads impl owner hs 0 cmdss) h = .ok (ths', h') ∧
          ∀ res : List (List (Option Ret) × List (Option H)), ths'.map Thread.result = res.map some →
            ∀ (i j : Nat) (x y : H) (s t : σ),
              ((res.map (·.2)).flatten ++ keepIf (fun j => cmdss.length ≤ owner j) 0 hs)[i]? = some (some x) →
              ((res.map (·.2)).flatten ++ keepIf (fun j => cmdss.length ≤ owner j) 0 hs)[j]? = some (some y) →
              (sss.flatten ++ keepIf (fun j => cmdss.length ≤ owner j) 0 ss)[i]? = some (some s) →
              (sss.flatten ++ keepIf (fun j => cmdss.length ≤ owner j) 0 ss)[j]? = some (some t) → ptrEq x y = true → Same s t

/-- Whatever a client did: `op` on a live handle whose value satisfies `cond` answers a new handle for which `ptrEq` is true. -/
def PtrEqKept (impl : Impl L H Op Ret) (new : σ) (step : σ → Op → Res (Ret × Effect σ)) (ptrEq : H → H → Bool) (op : Op)
    (cond : σ → Prop) : Prop :=
  ∀ (A : Allocator L) (setup : List (Cmd Op)) (rs : List (Option Ret)) (ss : List (Option σ)),
    pureClient new step [] setup = .ok (rs, ss) →
    ∃ (hs : List (Option H)) (h : Mem L) (d : Nat), Runs A (client impl [] setup) [] (rs, hs) h d ∧
      ∀ (i : Nat) (x : H) (s : σ), hs[i]? = some (some x) → ss[i]? = some (some s) → cond s →
        ∃ r x' h' d', Runs A (impl.step x op) h (r, .fresh x') h' d' ∧ ptrEq x x' = true ∧ ptrEq x' x = true

variable {impl : Impl L H Op Ret} {new : σ} {step : σ → Op → Res (Ret × Effect σ)} {R : H → σ → List (Item L) → Prop}
  {ptrEq : H → H → Bool} {Same : σ → σ → Prop}

theorem ptrEqSound_of_refines (hr : ∀ A, impl.Refines A new step R)
    (hp : ∀ (h : Mem L) (x y : H) (s t : σ) (ρ ρ' : List (Item L)), R x s ρ → R y t ρ' → (∀ u, .ptr u ∈ ρ → Val h u) →
      (∀ u, .ptr u ∈ ρ' → Val h u) → ptrEq x y = true → Same s t) : PtrEqSound impl new step ptrEq Same := by
  have main : ∀ {hs : List (Option H)} {ss : List (Option σ)} {ρ : List (Item L)} {h : Mem L}, Handles R hs ss ρ → Own h ρ →
      ∀ (i j : Nat) (x y : H) (s t : σ), hs[i]? = some (some x) → hs[j]? = some (some y) → ss[i]? = some (some s) →
        ss[j]? = some (some t) → ptrEq x y = true → Same s t := by
    intro hs ss ρ h hh ho i j x y s t h1 h2 h3 h4 h5
    obtain ⟨ρ₁, ρ₂, e1, e2⟩ := hh.at h1 h3
    obtain ⟨ρ₁', ρ₂', e3, e4⟩ := hh.at h2 h4
    exact hp h x y s t ρ₁ ρ₁' e1 e3 (fun u hu => ho.val u (e2.mem_iff.2 (by simp [hu])))
      (fun u hu => ho.val u (e4.mem_iff.2 (by simp [hu]))) h5
  intro A setup rs ss he
  obtain ⟨hs, h, d, ρ, e1, hh, ho⟩ := (hr A).runs he
  refine ⟨hs, h, d, e1, main hh ho, ?_⟩
  intro owner cmdss rss sss l1 l2 hpc sched
  obtain ⟨ths', h', e2, sys⟩ := ((hr A).system hh ho owner cmdss rss sss l1 l2 hpc).run sched
  refine ⟨ths', h', e2, fun res hres => ?_⟩
  obtain ⟨ρ', e3, ho', -⟩ := sys.quiet (hr A) res hres
  exact main e3 ho'

theorem ptrEqKept_of_refines (hr : ∀ A, impl.Refines A new step R) {op : Op} {cond : σ → Prop}
    (hp : ∀ A (x : H) (s : σ) (ρ : List (Item L)), R x s ρ → cond s →
      Safe A none (fun y _ => ∃ x', y.2 = .fresh x' ∧ ptrEq x x' = true ∧ ptrEq x' x = true) (impl.step x op) ρ) :
    PtrEqKept impl new step ptrEq op cond := by
  intro A setup rs ss he
  obtain ⟨hs, h, d, ρ, e1, hh, ho⟩ := (hr A).runs he
  refine ⟨hs, h, d, e1, ?_⟩
  intro i x s h1 h2 hc
  obtain ⟨ρ₁, ρ₂, e2, e3⟩ := hh.at h1 h2
  obtain ⟨⟨r, e⟩, h', d', τ, e4, ⟨x', rfl, e5, e6⟩, -⟩ := (hp A x s ρ₁ e2 hc).runs (F := ρ₂) (ho.perm e3)
  exact ⟨r, x', h', d', e4, e5, e6⟩

end

/-! ### Red-black trees -/

section rb
variable {K V Q : Type}

theorem rb_clone_kept {A : Allocator (RLabel K V)} {Ar : Arch} {o : OrdKeys K Q} {x : HRBMap} {m : RBMap K V} {ρ : List (Item (RLabel K V))}
    (h : RBIs o x m ρ) : Safe A none (fun y _ => ∃ x', y.2 = .fresh x' ∧ x.ptrEq x' = true ∧ x'.ptrEq x = true)
      ((rbImpl Ar o : Impl (RLabel K V) _ _ _).step x (.base .clone)) ρ := by
  have : Safe A none (fun y _ => y.2 = Effect.fresh x) (rbHStep Ar o x .clone) ρ := by
    refine Safe.bind (safe_rbClone_same h.1) ?_
    rintro _ _ ⟨rfl, rfl⟩
    exact Safe.ret rfl
  refine Safe.bind this ?_
  rintro ⟨r, e⟩ τ he
  exact Safe.ret ⟨x, he, by simp [HRBMap.ptrEq], by simp [HRBMap.ptrEq]⟩

theorem rb_remove_kept {A : Allocator (RLabel K V)} {Ar : Arch} {o : OrdKeys K Q} (lo : o.Lawful) {x : HRBMap} {m : RBMap K V}
    {ρ : List (Item (RLabel K V))} (h : RBIs o x m ρ) {q : Q} (hq : m.get o q = none) :
    Safe A none (fun y _ => ∃ x', y.2 = .fresh x' ∧ x.ptrEq x' = true ∧ x'.ptrEq x = true)
      ((rbImpl Ar o : Impl (RLabel K V) _ _ _).step x (.base (.remove q))) ρ := by
  obtain ⟨h, l, r⟩ := h
  obtain ⟨m1, h1, -⟩ := r.removeMut (A := Ar) lo q
  rw [r.get lo] at hq
  have hn : Spec.mapGet o.hits l q = none := by simpa using hq
  rw [hn] at h1
  have hc := r.fuel
  have : Safe A none (fun y _ => y.2 = Effect.fresh x) (rbHStep Ar o x (.remove q)) ρ := by
    refine Safe.bind (safe_rbRemove_same h hc h1) ?_
    rintro _ _ rfl
    exact Safe.ret rfl
  refine Safe.bind this ?_
  rintro ⟨r, e⟩ τ he
  exact Safe.ret ⟨x, he, by simp [HRBMap.ptrEq], by simp [HRBMap.ptrEq]⟩

/-- `==` on one map, with and without the short-cut. -/
theorem rb_shortcut {Ar : Arch} {o : OrdKeys K Q} (lo : o.Lawful) {m : RBMap K V} {l : List (K × V)} (r : m.Rep o l) (hf : RBMap.Fits Ar m)
    {eqV : V → V → Bool} (hv : ∀ v, eqV v v = true) : m.eq Ar o eqV true m = m.eq Ar o eqV false m := by
  obtain ⟨b, h1, h2⟩ := r.eq r lo hf eqV
  rw [h1, h2.2 (.refl hv l)]
  rfl

/-- C52 for `RedBlackTreeMap`.  If `ptr_eq` answers true for two live maps they are the same map (same tree, same size, hence the same
answers to everything), and the short-cut in `==` does not change its answer when `==` of values is reflexive.  In terms of finite maps
they have the same entries. -/
theorem C52_rb_map_ptr_eq_sound (Ar : Arch) (o : OrdKeys K Q) (lo : o.Lawful) :
    PtrEqSound (rbImpl Ar o : Impl (RLabel K V) _ _ _) (RBMap.new : RBMap K V) (RBMap.stepAll Ar o) HRBMap.ptrEq
      (fun m m' => m = m' ∧ (RBMap.Fits Ar m → ∀ eqV : V → V → Bool, (∀ v, eqV v v = true) →
        m.eq Ar o eqV true m' = m.eq Ar o eqV false m')) ∧
    PtrEqSound (rbImpl Ar o : Impl (RLabel K V) _ _ _) ([] : List (K × V)) (Spec.ordMapStep Ar.W o) HRBMap.ptrEq List.Perm := by
  refine ⟨ptrEqSound_of_refines (fun A => rbImpl_refines_model Ar lo A) ?_, ptrEqSound_of_refines (fun A => rbImpl_refines Ar lo A) ?_⟩
  · intro h x y m m' ρ ρ' h1 h2 h3 h4 h5
    obtain rfl := h1.ptrEq h2 h3 h4 h5
    obtain ⟨-, l, r⟩ := h1
    exact ⟨rfl, fun hf eqV hv => rb_shortcut lo r hf hv⟩
  · rintro h x y l l' ρ ρ' ⟨m, h1, r⟩ ⟨m', h2, r'⟩ h3 h4 h5
    obtain rfl := h1.ptrEq h2 h3 h4 h5
    exact r.perm.symm.trans r'.perm

/-- C52 for `RedBlackTreeMap`.  A map is `ptr_eq` to its clone and to the result of `remove` with an absent key. -/
theorem C52_rb_map_ptr_eq_kept (Ar : Arch) (o : OrdKeys K Q) (lo : o.Lawful) :
    PtrEqKept (rbImpl Ar o : Impl (RLabel K V) _ _ _) (RBMap.new : RBMap K V) (RBMap.stepAll Ar o) HRBMap.ptrEq (.base .clone)
      (fun _ => True) ∧
    ∀ q, PtrEqKept (rbImpl Ar o : Impl (RLabel K V) _ _ _) (RBMap.new : RBMap K V) (RBMap.stepAll Ar o) HRBMap.ptrEq (.base (.remove q))
      (fun m => m.get o q = none) :=
  ⟨ptrEqKept_of_refines (fun A => rbImpl_refines_model Ar lo A) fun _ _ _ _ h _ => rb_clone_kept h,
    fun _ => ptrEqKept_of_refines (fun A => rbImpl_refines_model Ar lo A) fun _ _ _ _ h hq => rb_remove_kept lo h hq⟩

/-- C52 for `RedBlackTreeSet` (set/red_black_tree_set/mod.rs:209-216, 219-226, 307-309). -/
theorem C52_rb_set_ptr_eq_sound {T : Type} (Ar : Arch) (o : OrdKeys T Q) (lo : o.Lawful) :
    PtrEqSound (rbSetImpl Ar o) ([] : List T) (Spec.ordSetStep Ar.W o) HRBMap.ptrEq List.Perm ∧
    PtrEqSound (rbSetImpl Ar o) (RBMap.new : RBMap T Unit)
      (fun m op => (RBMap.stepAll Ar o m (rbSetOp op)).bind fun x => .ok (rbSetRet x.1, x.2)) HRBMap.ptrEq
      (fun m m' => m = m' ∧ (RBMap.Fits Ar m → RBSet.isSubset Ar o true ⟨m⟩ ⟨m'⟩ = RBSet.isSubset Ar o false ⟨m⟩ ⟨m'⟩ ∧
        RBSet.isSuperset Ar o true ⟨m⟩ ⟨m'⟩ = RBSet.isSuperset Ar o false ⟨m⟩ ⟨m'⟩ ∧
        RBSet.eq Ar o true ⟨m⟩ ⟨m'⟩ = RBSet.eq Ar o false ⟨m⟩ ⟨m'⟩)) := by
  refine ⟨ptrEqSound_of_refines (fun A => rbSetImpl_refines Ar lo A) ?_,
    ptrEqSound_of_refines (fun A => (rbImpl_refines_model Ar lo A).adapt rbSetOp rbSetRet) ?_⟩
  · rintro h x y l l' ρ ρ' ⟨s, ⟨m, h1, r⟩, rfl⟩ ⟨s', ⟨m', h2, r'⟩, rfl⟩ h3 h4 h5
    obtain rfl := h1.ptrEq h2 h3 h4 h5
    have := (r.perm.symm.trans r'.perm).map Prod.fst
    simpa [Spec.unitPairs, Function.comp_def] using this
  · intro h x y m m' ρ ρ' h1 h2 h3 h4 h5
    obtain rfl := h1.ptrEq h2 h3 h4 h5
    obtain ⟨-, l, r⟩ := h1
    refine ⟨rfl, fun hf => ?_⟩
    obtain ⟨l, rfl⟩ : ∃ l', l = Spec.unitPairs l' := ⟨l.map Prod.fst, by simp [Spec.unitPairs, Function.comp_def]⟩
    have r : (RBSet.mk m).Rep o l := r
    obtain ⟨b, e1, e2⟩ := r.isSubset r lo hf hf
    have hb : b = true := e2.2 fun _ h => h
    subst hb
    exact ⟨e1.symm, e1.symm, rb_shortcut lo (m := m) (l := Spec.unitPairs l) r hf fun _ => rfl⟩

/-- C52 for `RedBlackTreeSet`.  A set is `ptr_eq` to its clone and to the result of `remove` with an absent element. -/
theorem C52_rb_set_ptr_eq_kept {T : Type} (Ar : Arch) (o : OrdKeys T Q) (lo : o.Lawful) :
    PtrEqKept (rbSetImpl Ar o) (RBMap.new : RBMap T Unit)
      (fun m op => (RBMap.stepAll Ar o m (rbSetOp op)).bind fun x => .ok (rbSetRet x.1, x.2)) HRBMap.ptrEq (.base .clone)
      (fun _ => True) ∧
    ∀ q, PtrEqKept (rbSetImpl Ar o) (RBMap.new : RBMap T Unit)
      (fun m op => (RBMap.stepAll Ar o m (rbSetOp op)).bind fun x => .ok (rbSetRet x.1, x.2)) HRBMap.ptrEq (.base (.remove q))
      (fun m => RBSet.get o ⟨m⟩ q = none) := by
  refine ⟨ptrEqKept_of_refines (fun A => (rbImpl_refines_model Ar lo A).adapt rbSetOp rbSetRet) fun A x m ρ h _ => ?_,
    fun q => ptrEqKept_of_refines (fun A => (rbImpl_refines_model Ar lo A).adapt rbSetOp rbSetRet) fun A x m ρ h hq => ?_⟩
  · exact Safe.bind (rb_clone_kept h) fun y τ hy => Safe.ret hy
  · have hq' : m.get o q = none := by simpa [RBSet.get, RBMap.getKeyValue, RBMap.get] using hq
    exact Safe.bind (rb_remove_kept lo h hq') fun y τ hy => Safe.ret hy

end rb

/-! ### Hash tries -/

section ht
variable {H K V Q : Type}

theorem insertMut_hasher {Ar : Arch} {o : HashKeys H K Q} {m m' : HTMap H K V} {k : K} {v : V} (h : m.insertMut Ar o k v = .ok m') :
    m'.hasher = m.hasher := by
  obtain ⟨x, -, h2⟩ := res_bind_ok h
  cases h2
  rfl

theorem removeMut_hasher {Ar : Arch} {o : HashKeys H K Q} {m m' : HTMap H K V} {q : Q} {b : Bool}
    (h : m.removeMut Ar o q = .ok (b, m')) : m'.hasher = m.hasher := by
  obtain ⟨⟨b', n⟩, -, h2⟩ := res_bind_ok h
  cases b' with
  | true =>
    obtain ⟨_, -, h3⟩ := res_bind_ok h2
    cases h3
    rfl
  | false =>
    cases h2
    rfl

/-- No operation changes the hasher. -/
theorem stepAll_hasher {Ar : Arch} {o : HashKeys H K Q} {m : HTMap H K V} {hasher : H} (hm : m.hasher = hasher) {op : HTOp K V Q}
    {r : HTRet K V} {e : Effect (HTMap H K V)} (h : HTMap.stepAll Ar o m op = .ok (r, e)) :
    Effect.Rel (fun s a => s = a ∧ a.hasher = hasher) e e := by
  cases op with
  | base op =>
    obtain ⟨⟨r', e'⟩, h1, h2⟩ := res_bind_ok h
    cases h2
    cases op with
    | insert k v =>
      obtain ⟨m', h3, h4⟩ := res_bind_ok h1
      cases h4
      exact .fresh ⟨rfl, (insertMut_hasher h3).trans hm⟩
    | insertMut k v =>
      obtain ⟨m', h3, h4⟩ := res_bind_ok h1
      cases h4
      exact .update ⟨rfl, (insertMut_hasher h3).trans hm⟩
    | remove q =>
      obtain ⟨m', h3, h4⟩ := res_bind_ok h1
      cases h4
      obtain ⟨⟨b, m1⟩, h5, h6⟩ := res_bind_ok h3
      have := removeMut_hasher h5
      cases b with
      | true => cases h6; exact .fresh ⟨rfl, this.trans hm⟩
      | false => cases h6; exact .fresh ⟨rfl, hm⟩
    | removeMut q =>
      obtain ⟨⟨b, m1⟩, h5, h6⟩ := res_bind_ok h1
      cases h6
      exact .update ⟨rfl, (removeMut_hasher h5).trans hm⟩
    | getMut q f =>
      obtain ⟨⟨b, m1⟩, h5, h6⟩ := res_bind_ok h1
      cases h6
      obtain ⟨_, -, h7⟩ := res_bind_ok h5
      cases h7
      exact .update ⟨rfl, hm⟩
    | clone => cases h1; exact .fresh ⟨rfl, hm⟩
    | get q => obtain ⟨_, -, h4⟩ := res_bind_ok h1; cases h4; exact .keep
    | getKeyValue q => obtain ⟨_, -, h4⟩ := res_bind_ok h1; cases h4; exact .keep
    | containsKey q => obtain ⟨_, -, h4⟩ := res_bind_ok h1; cases h4; exact .keep
    | index q =>
      simp only [HTMap.step] at h1
      split at h1 <;> cases h1 <;> exact .keep
    | size => cases h1; exact .keep
    | isEmpty => cases h1; exact .keep
  | iter n => obtain ⟨_, -, h4⟩ := res_bind_ok h; cases h4; exact .keep
  | count p => obtain ⟨_, -, h4⟩ := res_bind_ok h; cases h4; exact .keep

theorem ht_clone_kept {A : Allocator (HLabel K V)} {Ar : Arch} {o : HashKeys H K Q} {hasher : H} {d k : Nat} {x : HHTMap H}
    {m : HTMap H K V} {ρ : List (Item (HLabel K V))} (h : HTIs Ar o k x m ρ) :
    Safe A none (fun y _ => ∃ x', y.2 = .fresh x' ∧ x.ptrEq x' = true ∧ x'.ptrEq x = true)
      ((htImpl Ar o hasher d : Impl (HLabel K V) _ _ _).step x (.base .clone)) ρ := by
  have : Safe A none (fun y _ => y.2 = Effect.fresh x) (htHStep Ar o x .clone) ρ := by
    refine Safe.bind (safe_htClone_same h.1) ?_
    rintro _ _ ⟨rfl, rfl⟩
    exact Safe.ret rfl
  refine Safe.bind this ?_
  rintro ⟨r, e⟩ τ he
  exact Safe.ret ⟨x, he, by simp [HHTMap.ptrEq], by simp [HHTMap.ptrEq]⟩

theorem ht_remove_kept {A : Allocator (HLabel K V)} {Ar : Arch} {o : HashKeys H K Q} (lo : o.Lawful) {hasher : H} {d k : Nat}
    {x : HHTMap H} {m : HTMap H K V} {ρ : List (Item (HLabel K V))} (h : HTIs Ar o k x m ρ) {q : Q} (hq : m.get Ar o q = .ok none) :
    Safe A none (fun y _ => ∃ x', y.2 = .fresh x' ∧ x.ptrEq x' = true ∧ x'.ptrEq x = true)
      ((htImpl Ar o hasher d : Impl (HLabel K V) _ _ _).step x (.base (.remove q))) ρ := by
  obtain ⟨h, l, r⟩ := h
  obtain ⟨m1, h1, -⟩ := r.removeMut lo q
  rw [r.get lo] at hq
  have hn : Spec.mapGet o.eqKQ l q = none := by simpa using hq
  rw [hn] at h1
  have hf : Shallow trieFuel m.root := shallow_of_ok r.conf.pos m.root 0 trieFuel r.ok (by decide) (by decide)
  have : Safe A none (fun y _ => y.2 = Effect.fresh x) (htHStep Ar o x (.remove q)) ρ := by
    refine Safe.bind (safe_htRemove_same h hf h1) ?_
    rintro _ _ rfl
    exact Safe.ret rfl
  refine Safe.bind this ?_
  rintro ⟨r, e⟩ τ he
  exact Safe.ret ⟨x, he, by simp [HHTMap.ptrEq], by simp [HHTMap.ptrEq]⟩

/-- `==` on one map, with and without the short-cut. -/
theorem ht_shortcut {Ar : Arch} {o : HashKeys H K Q} (lo : o.Lawful) {k : Nat} {m : HTMap H K V} {l : List (K × V)} (r : m.Rep Ar o k l)
    {eqV : V → V → Bool} (hv : ∀ v, eqV v v = true) : m.eq Ar o eqV true m = m.eq Ar o eqV false m := by
  obtain ⟨b, h1, h2⟩ := r.eq r lo eqV
  rw [h1, h2.2 (.refl hv l)]
  rfl

/-- The refinement of the value model, where all maps have the hasher of the constructor. -/
theorem htImpl_refines_hasher (Ar : Arch) {o : HashKeys H K Q} (lo : o.Lawful) {k : Nat} (c : HConf Ar k) (hW : 2 ^ k ≤ Ar.W % 256)
    (hasher : H) (A : Allocator (HLabel K V)) :
    (htImpl Ar o hasher (2 ^ k) : Impl (HLabel K V) _ _ _).Refines A ⟨HNode.newEmptyBranch, 0, 2 ^ k, hasher⟩ (HTMap.stepAll Ar o)
      (fun x m ρ => ∃ s, HTIs Ar o k x s ρ ∧ s = m ∧ m.hasher = hasher) :=
  (htImpl_refines_model Ar lo c hW hasher A).trans (S := fun s a => s = a ∧ a.hasher = hasher) ⟨rfl, rfl⟩ (by
    rintro _ m op r f ⟨rfl, hm⟩ he
    exact ⟨f, he, stepAll_hasher hm he⟩)

/-- C52 for `HashTrieMap`.  If `ptr_eq` answers true for two live maps they are the same map (same trie, size, degree and hasher, hence
the same answers to everything), and the short-cut in `==` does not change its answer when `==` of values is reflexive.  In terms of
finite maps they have the same entries. -/
theorem C52_hash_map_ptr_eq_sound (Ar : Arch) (o : HashKeys H K Q) (lo : o.Lawful) (hasher : H) (degree : Nat) (h2 : 2 ≤ degree)
    (m₀ : HTMap H K V) (hm : HTMap.newWithDegree Ar hasher degree = .ok m₀) :
    PtrEqSound (htImpl Ar o hasher degree : Impl (HLabel K V) _ _ _) m₀ (HTMap.stepAll Ar o) HHTMap.ptrEq
      (fun m m' => m = m' ∧ ∀ eqV : V → V → Bool, (∀ v, eqV v v = true) → m.eq Ar o eqV true m' = m.eq Ar o eqV false m') ∧
    PtrEqSound (htImpl Ar o hasher degree : Impl (HLabel K V) _ _ _) ([] : List (K × V)) (Spec.finMapStep o) HHTMap.ptrEq List.Perm := by
  obtain ⟨k, rfl, c, hW, rfl⟩ := conf_of_new hm h2
  refine ⟨ptrEqSound_of_refines (fun A => htImpl_refines_hasher Ar lo c hW hasher A) ?_,
    ptrEqSound_of_refines (fun A => (htImpl_refines_hasher Ar lo c hW hasher A).trans (S := fun m l => m.Rep Ar o k l)
      (HTMap.rep_empty c hasher) fun _ _ op _ _ hr he => htMap_stepAll lo hr op he) ?_⟩
  · rintro h x y m m' ρ ρ' ⟨_, h1, rfl, e1⟩ ⟨_, h2, rfl, e2⟩ h3 h4 h5
    obtain rfl := h1.ptrEq h2 h3 h4 (e1.trans e2.symm) h5
    obtain ⟨-, l, r⟩ := h1
    exact ⟨rfl, fun eqV hv => ht_shortcut lo r hv⟩
  · rintro h x y l l' ρ ρ' ⟨m, ⟨_, h1, rfl, e1⟩, r⟩ ⟨m', ⟨_, h2, rfl, e2⟩, r'⟩ h3 h4 h5
    obtain rfl := h1.ptrEq h2 h3 h4 (e1.trans e2.symm) h5
    exact r.perm.symm.trans r'.perm

/-- C52 for `HashTrieMap`.  A map is `ptr_eq` to its clone and to the result of `remove` with an absent key. -/
theorem C52_hash_map_ptr_eq_kept (Ar : Arch) (o : HashKeys H K Q) (lo : o.Lawful) (hasher : H) (degree : Nat) (h2 : 2 ≤ degree)
    (m₀ : HTMap H K V) (hm : HTMap.newWithDegree Ar hasher degree = .ok m₀) :
    PtrEqKept (htImpl Ar o hasher degree : Impl (HLabel K V) _ _ _) m₀ (HTMap.stepAll Ar o) HHTMap.ptrEq (.base .clone) (fun _ => True) ∧
    ∀ q, PtrEqKept (htImpl Ar o hasher degree : Impl (HLabel K V) _ _ _) m₀ (HTMap.stepAll Ar o) HHTMap.ptrEq (.base (.remove q))
      (fun m => m.get Ar o q = .ok none) := by
  obtain ⟨k, rfl, c, hW, rfl⟩ := conf_of_new hm h2
  exact ⟨ptrEqKept_of_refines (fun A => htImpl_refines_model Ar lo c hW hasher A) fun _ _ _ _ h _ => ht_clone_kept h,
    fun _ => ptrEqKept_of_refines (fun A => htImpl_refines_model Ar lo c hW hasher A) fun _ _ _ _ h hq => ht_remove_kept lo h hq⟩

/-- C52 for `HashTrieSet` (set/hash_trie_set/mod.rs:208-218, 220-231, 280-282). -/
theorem C52_hash_set_ptr_eq_sound {T : Type} (Ar : Arch) (o : HashKeys H T Q) (lo : o.Lawful) (hasher : H) (degree : Nat)
    (h2 : 2 ≤ degree) (m₀ : HTMap H T Unit) (hm : HTMap.newWithDegree Ar hasher degree = .ok m₀) :
    PtrEqSound (htSetImpl Ar o hasher degree) m₀ (htSetStepAll Ar o) HHTMap.ptrEq
      (fun m m' => m = m' ∧ HTSet.isSubset Ar o true ⟨m⟩ ⟨m'⟩ = HTSet.isSubset Ar o false ⟨m⟩ ⟨m'⟩ ∧
        HTSet.isSuperset Ar o true ⟨m⟩ ⟨m'⟩ = HTSet.isSuperset Ar o false ⟨m⟩ ⟨m'⟩ ∧
        HTSet.eq Ar o true ⟨m⟩ ⟨m'⟩ = HTSet.eq Ar o false ⟨m⟩ ⟨m'⟩) ∧
    PtrEqSound (htSetImpl Ar o hasher degree) ([] : List T) (Spec.finSetStep o) HHTMap.ptrEq List.Perm := by
  obtain ⟨k, rfl, c, hW, rfl⟩ := conf_of_new hm h2
  refine ⟨ptrEqSound_of_refines (fun A => (htImpl_refines_hasher Ar lo c hW hasher A).adapt htSetOp htSetRet) ?_,
    ptrEqSound_of_refines (R := fun hm l ρ => ∃ s, (∃ m, (∃ s, HTIs Ar o k hm s ρ ∧ s = m ∧ m.hasher = hasher) ∧ m.Rep Ar o k s) ∧
      s = Spec.unitPairs l) (fun A => ?_) ?_⟩
  · rintro h x y m m' ρ ρ' ⟨_, h1, rfl, e1⟩ ⟨_, h2, rfl, e2⟩ h3 h4 h5
    obtain rfl := h1.ptrEq h2 h3 h4 (e1.trans e2.symm) h5
    obtain ⟨-, l, r⟩ := h1
    refine ⟨rfl, ?_⟩
    rename_i m
    obtain ⟨l, rfl⟩ : ∃ l', l = Spec.unitPairs l' := ⟨l.map Prod.fst, by simp [Spec.unitPairs, Function.comp_def]⟩
    have r' : (HTSet.mk m).Rep Ar o k l := r
    obtain ⟨b, e1, e2⟩ := r'.isSubset r' lo lo rfl
    have hb : b = true := e2.2 fun _ h => h
    subst hb
    exact ⟨e1.symm, e1.symm, ht_shortcut lo r fun _ => rfl⟩
  · refine (((htImpl_refines_hasher Ar lo c hW hasher A).trans (S := fun m l => m.Rep Ar o k l) (new' := [])
      (HTMap.rep_empty c hasher) fun _ _ op _ _ hr he => htMap_stepAll lo hr op he).adapt htSetOp htSetRet).trans
      (S := fun s l => s = Spec.unitPairs l) (new' := []) rfl ?_
    rintro _ l op x f rfl he
    obtain ⟨y, g, h1, h2, h3⟩ := finMap_set l op he
    exact ⟨g, by simp [h1, h2], h3⟩
  · rintro h x y l l' ρ ρ' ⟨_, ⟨m, ⟨_, h1, rfl, e1⟩, r⟩, rfl⟩ ⟨_, ⟨m', ⟨_, h2, rfl, e2⟩, r'⟩, rfl⟩ h3 h4 h5
    obtain rfl := h1.ptrEq h2 h3 h4 (e1.trans e2.symm) h5
    have := (r.perm.symm.trans r'.perm).map Prod.fst
    simpa [Spec.unitPairs, Function.comp_def] using this

/-- C52 for `HashTrieSet`.  A set is `ptr_eq` to its clone and to the result of `remove` with an absent element. -/
theorem C52_hash_set_ptr_eq_kept {T : Type} (Ar : Arch) (o : HashKeys H T Q) (lo : o.Lawful) (hasher : H) (degree : Nat)
    (h2 : 2 ≤ degree) (m₀ : HTMap H T Unit) (hm : HTMap.newWithDegree Ar hasher degree = .ok m₀) :
    PtrEqKept (htSetImpl Ar o hasher degree) m₀ (htSetStepAll Ar o) HHTMap.ptrEq (.base .clone) (fun _ => True) ∧
    ∀ q, PtrEqKept (htSetImpl Ar o hasher degree) m₀ (htSetStepAll Ar o) HHTMap.ptrEq (.base (.remove q))
      (fun m => HTSet.get Ar o ⟨m⟩ q = .ok none) := by
  obtain ⟨k, rfl, c, hW, rfl⟩ := conf_of_new hm h2
  refine ⟨ptrEqKept_of_refines (fun A => htSetImpl_refines_model Ar lo c hW hasher A) fun A x m ρ h _ => ?_,
    fun q => ptrEqKept_of_refines (fun A => htSetImpl_refines_model Ar lo c hW hasher A) fun A x m ρ h hq => ?_⟩
  · exact Safe.bind (ht_clone_kept h) fun y τ hy => Safe.ret hy
  · have hq' : m.get Ar o q = .ok none := by
      obtain ⟨-, l, r⟩ := h
      obtain ⟨oe, h1, h2⟩ := res_bind_ok hq
      rw [r.getKeyValue lo] at h1
      cases h1
      rw [r.get lo]
      cases hn : Spec.mapGet o.eqKQ l q with
      | none => rfl
      | some v => rw [hn] at h2; cases h2
    exact Safe.bind (ht_remove_kept lo h hq') fun y τ hy => Safe.ret hy

theorem not_mapEq_insert {same : K → K → Bool} (he : Spec.LawfulEquiv same) {eqV : V → V → Bool} {v : V} (hv : eqV v v = false)
    (l : List (K × V)) (key : K) : ¬ Spec.MapEq same eqV (Spec.mapInsert same l key v) (Spec.mapInsert same l key v) := by
  intro h
  have := h key
  simp [Spec.mapInsert, Spec.mapGet, he.refl key, hv] at this

/-- C52, only then.  For a value that is not equal to itself the short-cut does change the answer of `==`: a map that contains such a
value is equal to its clone, but comparing the two entry by entry says they differ. -/
theorem C52_shortcut_needs_reflexive (Ar : Arch) (eqV : V → V → Bool) (v : V) (hv : eqV v v = false) :
    (∀ (o : HashKeys H K Q), o.Lawful → ∀ (k : Nat) (m : HTMap H K V) (l : List (K × V)), m.Rep Ar o k l → ∀ key : K,
      ∃ m', m.insert Ar o key v = .ok m' ∧ m'.eq Ar o eqV true m'.clone = .ok true ∧ m'.eq Ar o eqV false m'.clone = .ok false) ∧
    (∀ (o : OrdKeys K Q), o.Lawful → ∀ (m : RBMap K V) (l : List (K × V)), m.Rep o l → 3 ≤ Ar.W → l.length + 2 < 2 ^ Ar.W → ∀ key : K,
      ∃ m', m.insert o key v = .ok m' ∧ m'.eq Ar o eqV true m'.clone = .ok true ∧ m'.eq Ar o eqV false m'.clone = .ok false) := by
  constructor
  · intro o lo k m l r key
    obtain ⟨m', h1, r', -⟩ := r.insert lo key v
    refine ⟨m', h1, rfl, ?_⟩
    obtain ⟨b, h3, h4⟩ := r'.eq r' lo eqV
    show m'.eq Ar o eqV false m' = _
    rw [h3]
    cases b with
    | false => rfl
    | true => exact absurd (h4.1 rfl) (not_mapEq_insert lo.equivK hv l key)
  · intro o lo m l r hW hl key
    obtain ⟨m', h1, r'⟩ := r.insert lo key v
    refine ⟨m', h1, rfl, ?_⟩
    have hf : RBMap.Fits Ar m' := ⟨hW, by
      have := List.length_filter_le (fun p : K × V => !o.same p.1 key) l
      rw [r'.size]
      simp only [Spec.mapInsert, List.length_cons]
      omega⟩
    obtain ⟨b, h3, h4⟩ := r'.eq r' lo hf eqV
    show m'.eq Ar o eqV false m' = _
    rw [h3]
    cases b with
    | false => rfl
    | true => exact absurd (h4.1 rfl) (not_mapEq_insert lo.equivK hv l key)

end ht

/-! ### Non-vacuity -/

/-- The answers of `f` for all pairs of handles after a client. -/
def pairs {L H Op Ret : Type} (impl : Impl L H Op Ret) (n : Nat) (f : H → H → Bool) (cmds : List (Cmd Op)) : Option (List (List Bool)) :=
  (outcome (bump L) n (client impl [] cmds) []).map fun x =>
    let hs := x.1.2.filterMap id
    hs.map fun a => hs.map fun b => f a b

-- handle 1 is a clone of handle 0; handle 2 the result of removing an absent key; handle 3 a map with the same contents made anew;
-- the clone is then changed in handle 4, and changed back in handle 5
example : pairs (htImpl ⟨.debug, 64⟩ exKeys 10 64 : Impl (HLabel _ Nat) _ _ _) 3000 HHTMap.ptrEq
    [.new, .run 0 (.base (.insertMut (1, "a") 10)), .run 0 (.base (.insertMut (11, "b") 20)), .run 0 (.base .clone),
      .run 0 (.base (.remove 5)), .new, .run 3 (.base (.insertMut (11, "b") 20)), .run 3 (.base (.insertMut (1, "a") 10)),
      .run 1 (.base (.insert (2, "c") 30)), .run 4 (.base (.remove 2))] =
    some [[true, true, true, false, false, false], [true, true, true, false, false, false], [true, true, true, false, false, false],
      [false, false, false, true, false, false], [false, false, false, false, true, false],
      [false, false, false, false, false, true]] := by
  decide +kernel
-- the same with red-black trees; two empty maps are always `ptr_eq`
example : pairs (rbImpl ⟨.debug, 64⟩ exOrd : Impl (RLabel _ Nat) _ _ _) 3000 HRBMap.ptrEq
    [.new, .run 0 (.base (.insertMut (1, "a") 10)), .run 0 (.base (.insertMut (11, "b") 20)), .run 0 (.base .clone),
      .run 0 (.base (.remove 5)), .new, .new, .run 0 (.base (.insert (1, "a") 10))] =
    some [[true, true, true, false, false, false], [true, true, true, false, false, false], [true, true, true, false, false, false],
      [false, false, false, true, true, false], [false, false, false, true, true, false],
      [false, false, false, false, false, true]] := by
  decide +kernel
-- sets
example : pairs (htSetImpl ⟨.debug, 64⟩ exKeys 10 64) 3000 HHTMap.ptrEq
    [.new, .run 0 (.base (.insertMut (1, "a"))), .run 0 (.base .clone), .run 1 (.base (.remove 5)), .run 1 (.base (.remove 1)), .new] =
    some [[true, true, true, false, false], [true, true, true, false, false], [true, true, true, false, false],
      [false, false, false, true, false], [false, false, false, false, true]] := by
  decide +kernel
example : pairs (rbSetImpl ⟨.debug, 64⟩ exOrd) 3000 HRBMap.ptrEq
    [.new, .run 0 (.base (.insertMut (1, "a"))), .run 0 (.base .clone), .run 1 (.base (.remove 5)), .run 1 (.base (.remove 1)), .new] =
    some [[true, true, true, false, false], [true, true, true, false, false], [true, true, true, false, false],
      [false, false, false, true, true], [false, false, false, true, true]] := by
  decide +kernel
-- the commands of these examples satisfy the hypotheses of C52
example : (pureClient [] (Spec.finMapStep exKeys) [] [.new, .run 0 (.base (.insertMut (1, "a") 10)), .run 0 (.base .clone),
    .run 0 (.base (.remove 5))]).map (·.2) = .ok [some [((1, "a"), 10)], some [((1, "a"), 10)], some [((1, "a"), 10)]] := by
  decide +kernel
-- a value that is not equal to itself
example : (fun a b : Nat => a == b && a != 0) 0 0 = false := rfl

end Props
end Rpds
