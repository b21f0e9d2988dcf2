import Verif.Heap.HashTriePanic
import Verif.Heap.RedBlackPanicMap
import Verif.Heap.SharedTrees
import Verif.Heap.Weights
/-
`HashTrieMap` on the heap with user code that may panic refines `HashTrieMap` of the value model with the same user code
(`HTMap.stepX`), where also the panics of the library itself unwind.
-/
set_option autoImplicit false
set_option linter.unusedSectionVars false
namespace Rpds
namespace Heap
namespace HT
open Spec

section model
variable {S H K V Q : Type} (Ar : Arch) (U : HTUser S H K V Q)

/-- `HashTrieMap::insert_mut` (794-801): the hash is computed before the entry gets its cell. -/
def HHTMap.insertMutX (m : HHTMap H) (key : K) (value : V) (s : S) : Prog (HLabel K V) (Option Unit × HHTMap H) :=
  match U.hashK s m.hasher key with
  | (none, _) => .ret (none, m)
  | (some kh, s) =>
    Prog.bind (Heap.new (.entry key value) []) fun e =>
    Prog.bind (modNode m.root fun n => hinsertX Ar U.eqK U.drop m.degree HTMap.insertFuel ⟨kh, e⟩ n 0 s) fun x =>
      match x.1.1 with
      | none => .ret (none, { m with root := x.2 })
      | some false => .ret (some (), { m with root := x.2 })
      | some true =>
        match Ar.uadd m.size 1 with
        | .error _ => .ret (none, { m with root := x.2 })
        | .ok size => .ret (some (), { m with root := x.2, size })

/-- `HashTrieMap::remove_mut` (819-835). -/
def HHTMap.removeMutX (m : HHTMap H) (key : Q) (s : S) : Prog (HLabel K V) (Option Bool × HHTMap H) :=
  match U.hashQ s m.hasher key with
  | (none, _) => .ret (none, m)
  | (some kh, s) =>
    Prog.bind (modNode m.root fun n => hremoveX Ar U.eqQ U.drop key kh m.degree trieFuel n 0 s) fun x =>
      match x.1.1 with
      | none => .ret (none, { m with root := x.2 })
      | some false => .ret (some false, { m with root := x.2 })
      | some true =>
        match Ar.usub m.size 1 with
        | .error _ => .ret (none, { m with root := x.2 })
        | .ok size => .ret (some true, { m with root := x.2, size })

/-- `HashTrieMap::get_mut` (900-911) and a write through the reference. -/
def HHTMap.getMutX (m : HHTMap H) (key : Q) (f : V → V) (s : S) : Prog (HLabel K V) (Option (Option V) × HHTMap H) :=
  match U.hashQ s m.hasher key with
  | (none, _) => .ret (none, m)
  | (some kh, s) =>
    Prog.bind (modNode m.root fun n => hgetMutX Ar U.eqQ U.clone key kh m.degree f trieFuel n 0 s) fun x =>
    .ret (x.1.1, { m with root := x.2 })

/-- `self.root.get(key, hash(key), 0, self.degree)` with the reads. -/
def HHTMap.lookupX (m : HHTMap H) (key : Q) (s : S) : Prog (HLabel K V) (Option (Option (K × V))) :=
  match U.hashQ s m.hasher key with
  | (none, _) => .ret none
  | (some kh, s) => Prog.bind (hgetX Ar U.eqQ key kh m.degree trieFuel m.root 0 s) fun x => .ret x.1

/-- An operation on a map, as `HTMap.stepX`: if `insert` or `remove` panics the new map is dropped. -/
def htHStepX (s : S) (m : HHTMap H) : MapOp K V Q → Prog (HLabel K V) (Option (MapRet K V) × Effect (HHTMap H))
  | .insert k v =>
    Prog.bind m.clone fun new_map =>
    Prog.bind (new_map.insertMutX Ar U k v s) fun x =>
      match x.1 with
      | none => Prog.bind x.2.dropMap fun _ => .ret (none, .keep)
      | some _ => .ret (some .unit, .fresh x.2)
  | .insertMut k v => Prog.bind (m.insertMutX Ar U k v s) fun x => .ret (x.1.map fun _ => .unit, .update x.2)
  | .remove q =>
    Prog.bind m.clone fun new_map =>
    Prog.bind (new_map.removeMutX Ar U q s) fun x =>
      match x.1 with
      | none => Prog.bind x.2.dropMap fun _ => .ret (none, .keep)
      | some true => .ret (some .unit, .fresh x.2)
      | some false =>
        Prog.bind m.clone fun m' =>
        Prog.bind x.2.dropMap fun _ => .ret (some .unit, .fresh m')
  | .removeMut q => Prog.bind (m.removeMutX Ar U q s) fun x => .ret (x.1.map .bool, .update x.2)
  | .getMut q f => Prog.bind (m.getMutX Ar U q f s) fun x => .ret (x.1.map .optV, .update x.2)
  | .clone => Prog.bind m.clone fun m' => .ret (some .unit, .fresh m')
  | .get q => Prog.bind (m.lookupX Ar U q s) fun x => .ret (x.map fun x => .optV (x.map Prod.snd), .keep)
  | .getKeyValue q => Prog.bind (m.lookupX Ar U q s) fun x => .ret (x.map .optKV, .keep)
  | .containsKey q => Prog.bind (m.lookupX Ar U q s) fun x => .ret (x.map fun x => .bool x.isSome, .keep)
  | .index q =>
    Prog.bind (m.lookupX Ar U q s) fun x =>
      .ret (x.map fun x => match x with | none => .panicked | some e => .optV (some e.2), .keep)
  | .size => .ret (some (.nat m.size), .keep)
  | .isEmpty => .ret (some (.bool (m.size == 0)), .keep)

end model

/-- `HashTrieMap` for clients; every operation comes with the user code it calls and with the state that code starts in. -/
def htImplX (S : Type) {H : Type} (K V Q : Type) (Ar : Arch) (hasher : H) (degree : Nat) :
    Impl (HLabel K V) (HHTMap H) (HTUser S H K V Q × S × MapOp K V Q) (Option (MapRet K V)) where
  ptrs m := [m.root]
  new := HHTMap.newWithDegree Ar hasher degree
  step m p := htHStepX Ar p.1 p.2.1 m p.2.2
  drop m := m.dropMap

variable {S H K V Q : Type}

/-- A map on the heap represents a map of the value model that operations accept. -/
def HTSoundIs (Ar : Arch) (hm : HHTMap H) (m : HTMap H K V) (ρ : List (Item (HLabel K V))) : Prop := hm.Is m ρ ∧ m.Sound Ar

theorem shallow_of_sound {Ar : Arch} {k : Nat} (hk : 1 ≤ k) (n : HNode K V) :
    ∀ d fuel, n.Sound Ar k d → 66 ≤ fuel + d → 1 ≤ fuel → Shallow fuel n := by
  induction n using HNode.induct with
  | hb bm arr ih =>
    intro d fuel h hf h1
    obtain ⟨fuel, rfl⟩ : ∃ f, fuel = f + 1 := ⟨fuel - 1, by omega⟩
    intro c hc
    have hd : d * k < 64 := (HNode.sound_branch.1 h).1.resolve_right (by rintro rfl; cases hc)
    have hd' : d < 64 := Nat.lt_of_le_of_lt (Nat.le_mul_of_pos_right d hk) hd
    obtain ⟨_, _, hi⟩ := f2_memR (HNode.sound_branch.1 h).2 hc
    exact ih c hc (d + 1) fuel hi (by omega) (by omega)
  | hl b =>
    intro d fuel h hf h1
    obtain ⟨fuel, rfl⟩ : ∃ f, fuel = f + 1 := ⟨fuel - 1, by omega⟩
    trivial

theorem _root_.Rpds.HTMap.Sound.shallow {Ar : Arch} {m : HTMap H K V} (h : m.Sound Ar) : Shallow trieFuel m.root := by
  obtain ⟨k, c, -, h⟩ := h
  exact shallow_of_sound c.pos m.root 0 trieFuel h (by decide) (by decide)

section
variable {A : Allocator (HLabel K V)} {Ar : Arch} {U : HTUser S H K V Q} {hm : HHTMap H} {m : HTMap H K V} {ρ : List (Item (HLabel K V))}

theorem safe_dropAny (h : hm.Is m ρ) (F : List (Item (HLabel K V))) : Safe A none (fun _ σ => σ = F) hm.dropMap (ρ ++ F) := by
  obtain ⟨⟨t, h1, rfl, h2⟩, -, -, -⟩ := h
  rw [HHTMap.dropMap, h1]
  exact safe_drop (within_none _)

theorem safe_htInsertMutX (h : hm.Is m ρ) {key : K} {v : V} {s : S} {x : Option Unit} {m' : HTMap H K V}
    (he : m.insertMutX Ar U key v s = .ok (x, m')) : Safe A none (fun r σ => r.1 = x ∧ r.2.Is m' σ) (hm.insertMutX Ar U key v s) ρ := by
  have hh := h
  obtain ⟨⟨t, h1, rfl, h2⟩, h3, h4, h5⟩ := h
  simp only [HTMap.insertMutX] at he
  unfold HHTMap.insertMutX
  rw [h5]
  rcases hu : U.hashK s m.hasher key with ⟨_ | kh, s1⟩ <;> rw [hu] at he
  · cases he
    exact Safe.ret ⟨rfl, hh⟩
  · obtain ⟨⟨b, n', s2⟩, g1, g2⟩ := res_bind_ok he
    rw [Rpds.HNode.clone_eq] at g1
    simp only
    rw [h1, h3, h4]
    refine Safe.bindFrame (F := [.ptr t]) (safe_new (HLabel.entry key v) []) (.refl _) ?_
    rintro e _ rfl
    refine Safe.bind (Safe.perm (safe_modNode h2 (a := (b, s2)) (n' := n') (E := [.ptr (.node e (.entry key v) [])]) fun hn τ hτ => ?_)
      (.swap _ _ _)) ?_
    · exact Safe.perm (safe_hinsertX m.degree HTMap.insertFuel hτ (x := ⟨key, v, kh⟩) ⟨rfl, rfl, rfl, rfl⟩ g1)
        (List.perm_append_singleton _ _)
    · rintro ⟨_, p⟩ _ ⟨rfl, t', rfl, h6, rfl⟩
      rcases b with _ | _ | _
      · cases g2
        exact Safe.ret ⟨rfl, ⟨t', rfl, rfl, h6⟩, rfl, rfl, rfl⟩
      · cases g2
        exact Safe.ret ⟨rfl, ⟨t', rfl, rfl, h6⟩, rfl, rfl, rfl⟩
      · simp only at g2 ⊢
        rcases hu : Ar.uadd m.size 1 with _ | size <;> rw [hu] at g2 <;> cases g2
        · exact Safe.ret ⟨rfl, ⟨t', rfl, rfl, h6⟩, rfl, rfl, rfl⟩
        · exact Safe.ret ⟨rfl, ⟨t', rfl, rfl, h6⟩, rfl, rfl, rfl⟩

theorem safe_htRemoveMutX (h : hm.Is m ρ) (hf : Shallow trieFuel m.root) {q : Q} {s : S} {x : Option Bool} {m' : HTMap H K V}
    (he : m.removeMutX Ar U q s = .ok (x, m')) : Safe A none (fun r σ => r.1 = x ∧ r.2.Is m' σ) (hm.removeMutX Ar U q s) ρ := by
  have hh := h
  obtain ⟨⟨t, h1, rfl, h2⟩, h3, h4, h5⟩ := h
  simp only [HTMap.removeMutX] at he
  unfold HHTMap.removeMutX
  rw [h5]
  rcases hu : U.hashQ s m.hasher q with ⟨_ | kh, s1⟩ <;> rw [hu] at he
  · cases he
    exact Safe.ret ⟨rfl, hh⟩
  · obtain ⟨⟨b, n', s2⟩, g1, g2⟩ := res_bind_ok he
    rw [Rpds.HNode.clone_eq] at g1
    simp only
    rw [h1, h3, h4]
    refine Safe.bind (safe_modNode h2 (a := (b, s2)) (n' := n') (E := []) fun hn τ hτ => ?_) ?_
    · rw [List.append_nil]
      exact safe_hremoveX q _ m.degree trieFuel hf hτ g1
    · rintro ⟨_, p⟩ _ ⟨rfl, t', rfl, h6, rfl⟩
      rcases b with _ | _ | _
      · cases g2
        exact Safe.ret ⟨rfl, ⟨t', rfl, rfl, h6⟩, rfl, rfl, rfl⟩
      · cases g2
        exact Safe.ret ⟨rfl, ⟨t', rfl, rfl, h6⟩, rfl, rfl, rfl⟩
      · simp only at g2 ⊢
        rcases hu : Ar.usub m.size 1 with _ | size <;> rw [hu] at g2 <;> cases g2
        · exact Safe.ret ⟨rfl, ⟨t', rfl, rfl, h6⟩, rfl, rfl, rfl⟩
        · exact Safe.ret ⟨rfl, ⟨t', rfl, rfl, h6⟩, rfl, rfl, rfl⟩

theorem safe_htGetMutX (h : hm.Is m ρ) (hf : Shallow trieFuel m.root) {q : Q} {f : V → V} {s : S} {x : Option (Option V)} {m' : HTMap H K V}
    (he : m.getMutX Ar U q f s = .ok (x, m')) : Safe A none (fun r σ => r.1 = x ∧ r.2.Is m' σ) (hm.getMutX Ar U q f s) ρ := by
  have hh := h
  obtain ⟨⟨t, h1, rfl, h2⟩, h3, h4, h5⟩ := h
  simp only [HTMap.getMutX] at he
  unfold HHTMap.getMutX
  rw [h5]
  rcases hu : U.hashQ s m.hasher q with ⟨_ | kh, s1⟩ <;> rw [hu] at he
  · cases he
    exact Safe.ret ⟨rfl, hh⟩
  · obtain ⟨⟨oe, n', s2⟩, g1, g2⟩ := res_bind_ok he
    rw [Rpds.HNode.clone_eq] at g1
    cases g2
    simp only
    rw [h1, h4]
    refine Safe.bind (safe_modNode h2 (a := (oe.map fun x => x.map (·.value), s2)) (n' := n') (E := []) fun hn τ hτ => ?_) ?_
    · rw [List.append_nil]
      exact safe_hgetMutX q _ m.degree f trieFuel hf hτ g1
    · rintro ⟨_, p⟩ _ ⟨rfl, t', rfl, h6, rfl⟩
      exact Safe.ret ⟨rfl, ⟨t', rfl, rfl, h6⟩, h3, rfl, rfl⟩

theorem safe_htLookupX (h : hm.Is m ρ) (hf : Shallow trieFuel m.root) {q : Q} {s : S} {oe : Option (Option (HEntry K V))}
    (he : m.lookupX Ar U q s = .ok oe) :
    Safe A none (fun r σ => r = (oe.map fun x => x.map kv) ∧ hm.Is m σ) (hm.lookupX Ar U q s) ρ := by
  have hh := h
  obtain ⟨⟨t, h1, rfl, h2⟩, h3, h4, h5⟩ := h
  simp only [HTMap.lookupX] at he
  unfold HHTMap.lookupX
  rw [h5]
  rcases hu : U.hashQ s m.hasher q with ⟨_ | kh, s1⟩ <;> rw [hu] at he
  · cases he
    exact Safe.ret ⟨rfl, hh⟩
  · obtain ⟨⟨oe', s2⟩, g1, g2⟩ := res_bind_ok he
    cases g2
    simp only
    rw [h1, h4]
    refine Safe.bind (safe_hgetX q _ m.degree (t := t) (by simp) trieFuel (.refl t) hf h2 g1) ?_
    rintro r σ ⟨rfl, rfl⟩
    exact Safe.ret ⟨rfl, hh⟩

theorem safe_htHStepX (h : hm.Is m ρ) (hf : Shallow trieFuel m.root) (s : S) (op : MapOp K V Q) {r : Option (MapRet K V)}
    {e : Effect (HTMap H K V)} (he : m.stepX Ar U s op = .ok (r, e)) :
    Safe A none (fun x τ => x.1 = r ∧ HTEff hm m x.2 e τ) (htHStepX Ar U s hm op) ρ := by
  have look : ∀ q (f : Option (K × V) → MapRet K V) (g : Option (HEntry K V) → MapRet K V), (∀ x, f (x.map kv) = g x) → ∀ {r e}, (do
      let r ← m.lookupX Ar U q s
      .ok (r.map g, .keep) : Res _) = .ok (r, e) →
      Safe A none (fun x τ => x.1 = r ∧ HTEff hm m x.2 e τ)
        (Prog.bind (hm.lookupX Ar U q s) fun x => .ret (x.map f, .keep)) ρ := by
    rintro q f g hfg r e he
    obtain ⟨oe, h1, h2⟩ := res_bind_ok he
    cases h2
    refine Safe.bind (safe_htLookupX h hf h1) ?_
    rintro _ τ ⟨rfl, h3⟩
    refine Safe.ret ⟨?_, .keep h3⟩
    cases oe with
    | none => rfl
    | some oe => simp only [Option.map_some, hfg]
  cases op with
  | insert k v =>
    obtain ⟨⟨x, m'⟩, h1, h2⟩ := res_bind_ok he
    refine Safe.bind (safe_htClone h) ?_
    rintro hm' _ ⟨τ, τ', rfl, h3, h4⟩
    refine Safe.bindFrame (F := τ') (safe_htInsertMutX h3 h1) (.refl _) ?_
    rintro ⟨y, hm1⟩ σ ⟨rfl, h5⟩
    rcases y with _ | b
    · cases h2
      refine Safe.bind (safe_dropAny h5 τ') ?_
      rintro _ _ rfl
      exact Safe.ret ⟨rfl, .keep h4⟩
    · cases h2
      exact Safe.ret ⟨rfl, .fresh h5 h4⟩
  | insertMut k v =>
    obtain ⟨⟨x, m'⟩, h1, h2⟩ := res_bind_ok he
    refine Safe.bind (safe_htInsertMutX h h1) ?_
    rintro ⟨y, hm1⟩ σ ⟨rfl, h5⟩
    cases y <;> cases h2 <;> exact Safe.ret ⟨rfl, .update h5⟩
  | remove q =>
    obtain ⟨⟨x, m'⟩, h1, h2⟩ := res_bind_ok he
    refine Safe.bind (safe_htClone h) ?_
    rintro hm' _ ⟨τ, τ', rfl, h3, h4⟩
    refine Safe.bindFrame (F := τ') (safe_htRemoveMutX h3 hf h1) (.refl _) ?_
    rintro ⟨y, hm1⟩ σ ⟨rfl, h5⟩
    rcases y with _ | b
    · cases h2
      refine Safe.bind (safe_dropAny h5 τ') ?_
      rintro _ _ rfl
      exact Safe.ret ⟨rfl, .keep h4⟩
    · cases h2
      cases b with
      | true => exact Safe.ret ⟨rfl, .fresh h5 h4⟩
      | false =>
        refine Safe.bindFrame (F := σ) (safe_htClone h4) (by perm_tac) ?_
        rintro hm2 _ ⟨τ1, τ2, rfl, h6, h7⟩
        refine Safe.bind (Safe.perm (safe_dropAny h5 (τ1 ++ τ2)) (by perm_tac)) ?_
        rintro _ _ rfl
        exact Safe.ret ⟨rfl, .fresh h6 h7⟩
  | removeMut q =>
    obtain ⟨⟨x, m'⟩, h1, h2⟩ := res_bind_ok he
    refine Safe.bind (safe_htRemoveMutX h hf h1) ?_
    rintro ⟨y, hm1⟩ σ ⟨rfl, h5⟩
    cases y <;> cases h2 <;> exact Safe.ret ⟨rfl, .update h5⟩
  | getMut q f =>
    obtain ⟨⟨x, m'⟩, h1, h2⟩ := res_bind_ok he
    refine Safe.bind (safe_htGetMutX h hf h1) ?_
    rintro ⟨y, hm1⟩ σ ⟨rfl, h5⟩
    cases y <;> cases h2 <;> exact Safe.ret ⟨rfl, .update h5⟩
  | clone =>
    cases he
    refine Safe.bind (safe_htClone h) ?_
    rintro hm' _ ⟨τ, τ', rfl, h3, h4⟩
    exact Safe.ret ⟨rfl, .fresh h3 h4⟩
  | get q => exact look q _ _ (fun x => by cases x <;> rfl) he
  | getKeyValue q => exact look q _ _ (fun x => by cases x <;> rfl) he
  | containsKey q => exact look q _ _ (fun x => by cases x <;> rfl) he
  | index q => exact look q _ _ (fun x => by cases x <;> rfl) he
  | size =>
    cases he
    exact Safe.ret ⟨by rw [h.size]; rfl, .keep h⟩
  | isEmpty =>
    cases he
    exact Safe.ret ⟨by rw [h.size]; rfl, .keep h⟩

theorem HTEff.sound {e : Effect (HHTMap H)} {f : Effect (HTMap H K V)} (h : HTEff hm m e f ρ) (hm' : m.Sound Ar)
    (hf : HTMap.Keeps (HTMap.Sound Ar) f) : EffOwn (HTSoundIs Ar) hm m e f ρ := by
  cases h with
  | keep hk => exact .keep ⟨hk, hm'⟩
  | fresh h1 h2 => exact .fresh ⟨h1, hf⟩ ⟨h2, hm'⟩
  | update h1 => exact .update ⟨h1, hf⟩

end

/-- The heap version of `HashTrieMap` does what the value model does, whatever the user code does. -/
theorem htImplX_refines (S : Type) {H : Type} (K V Q : Type) (Ar : Arch) {k : Nat} (c : HConf Ar k) (hW : 2 ^ k ≤ Ar.W % 256) (hasher : H)
    (A : Allocator (HLabel K V)) :
    (htImplX S K V Q Ar hasher (2 ^ k)).Refines A (⟨HNode.newEmptyBranch, 0, 2 ^ k, hasher⟩ : HTMap H K V)
      (fun m p => m.stepX Ar p.1 p.2.1 p.2.2) (HTSoundIs Ar) where
  new := by
    refine Safe.liftBind (x := ()) ?_ (Safe.liftBind (x := ()) ?_ ?_)
    · rw [isPow2_pow c.small]; rfl
    · rw [decide_eq_true hW]; rfl
    · refine Safe.bind (safe_new (HLabel.branch 0) []) ?_
      rintro p _ rfl
      refine Safe.ret ⟨⟨⟨.node p (.branch 0) [], rfl, rfl, ?_⟩, rfl, rfl, rfl⟩, HTMap.empty_sound c⟩
      show IsN (HNode.branch 0 []) _
      rw [IsN]
      exact ⟨rfl, by rw [IsNs]; rfl⟩
  step := by
    rintro hm m ρ ⟨U, s, op⟩ r e ⟨h, hs⟩ he
    refine (safe_htHStepX h hs.shallow s op he).imp ?_
    rintro ⟨x, f⟩ τ ⟨rfl, h3⟩
    obtain ⟨r', e', h4, h5⟩ := HTMap.stepX_total U hs s op
    rw [he] at h4
    cases h4
    exact ⟨rfl, h3.sound hs h5⟩
  drop := by
    rintro hm m ρ ⟨h, -⟩
    have := safe_dropAny (A := A) h []
    rw [List.append_nil] at this
    exact this
  ptrs := by
    rintro hm m ρ ⟨⟨⟨t, e1, rfl, h2⟩, -, -, -⟩, -⟩
    exact ⟨[t], rfl, by simp only [htImplX, e1]; rfl⟩

/-! ### Lent maps -/

section
variable {A : Allocator (HLabel K V)} {Ar : Arch} {eq : S → K → Q → Option Bool × S} {U : HTUser S H K V Q}

theorem readsOnly_hmatchesU (key : Q) (kh : UInt64) (e : HEnt) (s : S) : (hmatchesU eq key kh e s : Prog (HLabel K V) _).ReadsOnly := by
  unfold hmatchesU
  split
  · exact (readsOnly_htReadEntry _).bind fun _ => trivial
  · trivial

theorem readsOnly_findEntU (key : Q) (kh : UInt64) (fuel : Nat) (p : Option Addr) (s : S) :
    (findEntU eq key kh fuel p s : Prog (HLabel K V) _).ReadsOnly := by
  induction fuel generalizing p s with
  | zero => cases p <;> trivial
  | succ fuel ih =>
    cases p with
    | none => trivial
    | some p =>
      refine (HList.readsOnly_readNode p).bind fun x => (readsOnly_readEwh _).bind fun e => (readsOnly_hmatchesU key kh e s).bind fun b => ?_
      split
      · trivial
      · exact (readsOnly_htReadEntry _).bind fun _ => trivial
      · exact ih _ _

theorem readsOnly_bucketGetU (key : Q) (kh : UInt64) (n : HHNode) (s : S) : (bucketGetU eq key kh s n : Prog (HLabel K V) _).ReadsOnly := by
  cases n with
  | branch bm ps => trivial
  | single e =>
    refine (readsOnly_hmatchesU key kh e s).bind fun b => ?_
    split
    · trivial
    · exact (readsOnly_htReadEntry _).bind fun _ => trivial
    · trivial
  | collision l => exact readsOnly_findEntU key kh _ _ _

theorem readsOnly_htHgetX (key : Q) (kh : UInt64) (deg fuel : Nat) (p : Addr) (d : Nat) (s : S) :
    (hgetX Ar eq key kh deg fuel p d s : Prog (HLabel K V) _).ReadsOnly := by
  induction fuel generalizing p d s with
  | zero => trivial
  | succ fuel ih =>
    refine (readsOnly_htReadNode p).bind fun n => ?_
    cases n with
    | branch bm ps =>
      refine (readsOnly_lift _).bind fun x => ?_
      split
      · trivial
      · trivial
      · exact (readsOnly_lift _).bind fun q => ih q _ _
    | single e => exact readsOnly_bucketGetU key kh _ _
    | collision l => exact readsOnly_bucketGetU key kh _ _

theorem readsOnly_lookupX (hm : HHTMap H) (q : Q) (s : S) : (hm.lookupX Ar U q s : Prog (HLabel K V) _).ReadsOnly := by
  unfold HHTMap.lookupX
  split
  · trivial
  · exact (readsOnly_htHgetX q _ _ _ _ _ _).bind fun _ => trivial

/-- Lent hash maps with user code that may panic. -/
theorem htImplX_lends (S : Type) {H : Type} (K V Q : Type) (Ar : Arch) {k : Nat} (c : HConf Ar k) (hW : 2 ^ k ≤ Ar.W % 256) (hasher : H)
    (A : Allocator (HLabel K V)) :
    (htImplX S K V Q Ar hasher (2 ^ k)).Lends A (fun (m : HTMap H K V) p => m.stepX Ar p.1 p.2.1 p.2.2) (HTSoundIs Ar) userByRef where
  step := by
    rintro hm m β ⟨U, s, op⟩ r e hR hb he
    have rd : e = .keep → (htHStepX Ar U s hm op).ReadsOnly →
        SafeB A none β (fun x τ => x.1 = r ∧ EffNew (HTSoundIs Ar) x.2 e τ) (htHStepX Ar U s hm op) [] := by
      rintro rfl h2
      exact (htImplX_refines S K V Q Ar c hW hasher A).reads (op := (U, s, op)) hR he h2
    obtain ⟨h, hs⟩ := hR
    have hf := hs.shallow
    obtain ⟨r', e', h4, h5⟩ := HTMap.stepX_total U hs s op
    have hee := he
    simp only at hee
    rw [h4] at hee
    cases hee
    have look : ∀ q (f : Option (Option (K × V)) → Option (MapRet K V) × Effect (HHTMap H)),
        (Prog.bind (hm.lookupX Ar U q s) fun x => .ret (f x) : Prog (HLabel K V) _).ReadsOnly :=
      fun q f => (readsOnly_lookupX hm q s).bind fun _ => trivial
    have keep : ∀ {q} {g : Option (HEntry K V) → MapRet K V} {r e}, (do
        let r ← m.lookupX Ar U q s
        .ok (r.map g, .keep) : Res (_ × Effect (HTMap H K V))) = .ok (r, e) → e = .keep := by
      intro q g r e h1
      obtain ⟨_, _, h2⟩ := res_bind_ok h1
      cases h2
      rfl
    cases op with
    | insertMut k v => cases hb
    | removeMut q => cases hb
    | getMut q f => cases hb
    | insert k v =>
      obtain ⟨⟨x, m'⟩, h1, h2⟩ := res_bind_ok h4
      refine SafeB.bind (safeB_htClone' h) ?_
      intro hm' τ h8
      refine SafeB.bind (safe_htInsertMutX h8 h1).borrowing ?_
      rintro ⟨y, hm1⟩ σ ⟨rfl, h9⟩
      rcases y with _ | b
      · cases h2
        have := safe_dropAny (A := A) h9 []
        rw [List.append_nil] at this
        refine SafeB.bind this.borrowing ?_
        rintro _ _ rfl
        exact SafeB.ret ⟨rfl, .keep⟩
      · cases h2
        exact SafeB.ret ⟨rfl, .fresh ⟨h9, h5⟩⟩
    | remove q =>
      obtain ⟨⟨x, m'⟩, h1, h2⟩ := res_bind_ok h4
      refine SafeB.bind (safeB_htClone' h) ?_
      intro hm' τ h8
      refine SafeB.bind (safe_htRemoveMutX h8 hf h1).borrowing ?_
      rintro ⟨y, hm1⟩ σ ⟨rfl, h9⟩
      rcases y with _ | b
      · cases h2
        have := safe_dropAny (A := A) h9 []
        rw [List.append_nil] at this
        refine SafeB.bind this.borrowing ?_
        rintro _ _ rfl
        exact SafeB.ret ⟨rfl, .keep⟩
      · cases h2
        cases b with
        | true => exact SafeB.ret ⟨rfl, .fresh ⟨h9, h5⟩⟩
        | false =>
          refine SafeB.bind (safeB_htClone h σ) ?_
          rintro hm2 _ ⟨τ1, rfl, h6⟩
          refine SafeB.bind (Safe.perm (safe_dropAny h9 τ1) (by perm_tac)).borrowing ?_
          rintro _ _ rfl
          exact SafeB.ret ⟨rfl, .fresh ⟨h6, h5⟩⟩
    | clone =>
      cases h4
      refine SafeB.bind (safeB_htClone' h) ?_
      intro hm' τ h8
      exact SafeB.ret ⟨rfl, .fresh ⟨h8, hs⟩⟩
    | get q => exact rd (keep h4) (look q _)
    | getKeyValue q => exact rd (keep h4) (look q _)
    | containsKey q => exact rd (keep h4) (look q _)
    | index q => exact rd (keep h4) (look q _)
    | size => cases h4; exact rd rfl trivial
    | isEmpty => cases h4; exact rd rfl trivial

end

/-! ### Memory -/

/-- A bound on the cells of a trie, by its nodes. -/
def cells : HNode K V → Nat
  | .branch _ arr => 1 + cellsAll arr
  | .leaf (.single _) => 2
  | .leaf (.collision l) => 3 * l.len + 3
where
  /-- Of the nodes of an array. -/
  cellsAll : List (HNode K V) → Nat
    | [] => 0
    | n :: ns => cells n + cellsAll ns

theorem IsN.cells_le {Ar : Arch} {k : Nat} (n : HNode K V) : ∀ (d : Nat) (t : ATree (HLabel K V)), IsN n t → n.Sound Ar k d → t.size ≤ cells n := by
  induction n using HNode.induct with
  | hl b =>
    intro d t hn hok
    rw [ATree.size_eq]
    cases b with
    | single x =>
      obtain ⟨-, te, h1, h2⟩ := hn
      rw [h1]
      simp [size_entIs h2, cells]
    | collision r =>
      obtain ⟨th, tl, -, h1, h2, h3, -⟩ := hn
      rw [HNode.Sound] at hok
      have g1 := h2.weight_le size_ewhIs
      have g2 := h3.weight_le size_ewhIs
      rw [h1, List.map_append, List.sum_append, cells, RList.len]
      have : (if r.last.isSome then 2 else 0) ≤ 2 := by split <;> omega
      rw [RList.Counted] at hok
      omega
  | hb bm arr ih =>
    intro d t hn hok
    obtain ⟨-, hn⟩ := hn
    rw [isNs_iff] at hn
    have hch : ∀ c ∈ arr, c.Sound Ar k (d + 1) := fun c hc => by
      obtain ⟨_, _, hi⟩ := f2_memR (HNode.sound_branch.1 hok).2 hc
      exact hi
    rw [ATree.size_eq, cells]
    suffices (t.kids.map ATree.size).sum ≤ cells.cellsAll arr by omega
    generalize t.kids = ts at hn
    clear hok
    induction hn with
    | nil => simp [cells.cellsAll]
    | @cons u n ts ns h1 h2 ih2 =>
      have e1 := ih n (by simp) (d + 1) u h1 (hch n (by simp))
      have e2 := ih2 (fun n hn => ih n (by simp [hn])) (fun c hc => hch c (by simp [hc]))
      simp only [List.map_cons, List.sum_cons, cells.cellsAll]
      omega

theorem HTSoundIs.weight_le {Ar : Arch} {hm : HHTMap H} {m : HTMap H K V} {ρ : List (Item (HLabel K V))} (h : HTSoundIs Ar hm m ρ) :
    weight ρ ≤ cells m.root := by
  obtain ⟨⟨⟨t, -, rfl, hn⟩, -, -, -⟩, k, -, -, hs⟩ := h
  rw [weight_ptr]
  exact hn.cells_le m.root 0 t hs

end HT
end Heap
end Rpds
