import Verif.ANF.ShrCoin

/-!
# Shrink reduction: relation and simulation

`SE` relates a term to what shrinking may turn it into, given facts about the values of variables of the target.  The
simulation keeps an environment `V` of source values that is indexed by the variables of the target.
-/

namespace ANF
namespace Shr
open Ll (put)
open Inl (Ctx inlineLet sets Lev)

/-- What is known about a variable of the target: the constructor it holds, or the function it holds and the renaming
for the free variables of the function. -/
inductive Fact
  | con (t : Tag) (zs : List Var)
  | fn (t : Tag) (xs : List Var) (m : Exp) (τ : Var → Var)

/-- Facts about the variables. -/
abbrev Facts := Var → Option Fact

/-- The target variables a fact is about, besides its own. -/
def Fact.Uses : Fact → Var → Prop
  | .con _ zs, y => y ∈ zs
  | .fn _ xs m τ, y => ∃ z ∈ m.fv, z ∉ xs ∧ τ z = y

/-- No fact is about the variable. -/
def Fresh (Γ : Facts) (x : Var) : Prop := ∀ y a, Γ y = some a → y ≠ x ∧ ¬ a.Uses x

/-- Facts that say the same: the renaming of a function only matters on its free variables. -/
def Fact.Same : Fact → Fact → Prop
  | .con t zs, .con t' zs' => t = t' ∧ zs = zs'
  | .fn t xs m τ, .fn t' xs' m' τ' => t = t' ∧ xs = xs' ∧ m = m' ∧ ∀ z ∈ m.fv, z ∉ xs → τ z = τ' z
  | _, _ => False

/-- A binder that neither the facts nor the renaming of the variables in scope mention. -/
def New (Γ : Facts) (σ : Var → Var) (x : Var) (X : Finset Var) : Prop :=
  Fresh Γ x ∧ σ x = x ∧ ∀ z ∈ X, z ≠ x → σ z ≠ x

/-- The branch at a position. -/
def nth : Brs → Nat → Option (Tag × Exp)
  | .nil, _ => none
  | .cons t e _, 0 => some (t, e)
  | .cons _ _ bs, i + 1 => nth bs i

theorem nth_find : ∀ {bs bs' : Brs} {t e e'}, bs'.tags = bs.tags → findTag t bs = some e → findTag t bs' = some e' →
    ∃ i, nth bs i = some (t, e) ∧ nth bs' i = some (t, e')
  | .nil, _, t, e, e', _, h, _ => by simp [findTag] at h
  | .cons u k bs, .nil, t, e, e', ht, _, _ => by simp [Brs.tags] at ht
  | .cons u k bs, .cons u' k' bs', t, e, e', ht, h, h' => by
    simp only [Brs.tags, List.cons.injEq] at ht
    obtain ⟨rfl, ht⟩ := ht
    simp only [findTag] at h h'
    split at h
    · next he => rw [if_pos he] at h'; cases h; cases h'; subst he; exact ⟨0, rfl, rfl⟩
    · next he =>
      rw [if_neg he] at h'
      obtain ⟨i, h1, h2⟩ := nth_find ht h h'
      exact ⟨i + 1, h1, h2⟩

/-- Source and target of shrinking, with the number of calls that are inlined. -/
inductive SE : Nat → Facts → (Var → Var) → Exp → Exp → Prop
  | weak {d d' Γ Γ' σ e e'} (hd : d' ≤ d) (hΓ : ∀ y a, Γ' y = some a → ∃ a', Γ y = some a' ∧ a'.Same a)
      (h : SE d' Γ' σ e e') :
      SE d Γ σ e e'
  | halt {d Γ σ x} : SE d Γ σ (.halt x) (.halt (σ x))
  | constr {d Γ σ x t ys e e'} (hx : New Γ σ x e.fv) (hy : x ∉ ys.map σ)
      (h : SE d (put Γ x (some (.con t (ys.map σ)))) σ e e') :
      SE d Γ σ (.constr x t ys e) (.constr x t (ys.map σ) e')
  | constrDead {d Γ σ x t ys e e'} (hx : New Γ σ x e.fv) (hy : x ∉ ys.map σ) (hdead : x ∉ e'.fv)
      (h : SE d (put Γ x (some (.con t (ys.map σ)))) σ e e') : SE d Γ σ (.constr x t ys e) e'
  | proj {d Γ σ x t i y e e'} (hx : New Γ σ x e.fv) (h : SE d Γ σ e e') :
      SE d Γ σ (.proj x t i y e) (.proj x t i (σ y) e')
  | projDead {d Γ σ x t i y e e'} (hx : New Γ σ x e.fv) (hdead : x ∉ e'.fv) (h : SE d Γ σ e e') :
      SE d Γ σ (.proj x t i y e) e'
  | projFold {d Γ σ x t i y e e' t' zs z} (hk : Γ (σ y) = some (.con t' zs)) (hz : zs[i]? = some z)
      (h : SE d Γ (put σ x z) e e') : SE d Γ σ (.proj x t i y e) e'
  | letapp {d Γ σ x f t ys e e'} (hx : New Γ σ x e.fv) (h : SE d Γ σ e e') :
      SE d Γ σ (.letapp x f t ys e) (.letapp x (σ f) t (ys.map σ) e')
  | letinl {d Γ σ σ' x f t ys e e' t' xs m τ C z} (hk : Γ (σ f) = some (.fn t' xs m τ)) (hn : xs.Nodup)
      (hlen : xs.length = ys.length) (hC : inlineLet m x = some (C, z))
      (hin : ∀ (i : Nat) w y, xs[i]? = some w → ys[i]? = some y → σ' w = σ y)
      (hout : ∀ w ∈ m.fv, w ∉ xs → σ' w = τ w) (hrest : ∀ w ∈ e.fv, w ≠ x → σ' w = σ w ∧ w ∉ m.bv)
      (hx : x ∉ e.bv) (hz : z ∉ e.bv) (h : SE d Γ σ' (C.plug (ren (put id x z) e)) e') :
      SE (d + 1) Γ σ (.letapp x f t ys e) e'
  | primVal {d Γ σ x p e e'} (hx : New Γ σ x e.fv) (h : SE d Γ σ e e') :
      SE d Γ σ (.primVal x p e) (.primVal x p e')
  | prim {d Γ σ x p ys e e'} (hx : New Γ σ x e.fv) (h : SE d Γ σ e e') :
      SE d Γ σ (.prim x p ys e) (.prim x p (ys.map σ) e')
  | case {d Γ σ v bs bs'} (ht : bs'.tags = bs.tags)
      (h : ∀ (i : Nat) t e t' e', nth bs i = some (t, e) → nth bs' i = some (t', e') → SE d Γ σ e e') :
      SE d Γ σ (.case v bs) (.case (σ v) bs')
  | caseFold {d Γ σ v bs t zs e e'} (hk : Γ (σ v) = some (.con t zs)) (hf : findTag t bs = some e)
      (h : SE d Γ σ e e') : SE d Γ σ (.case v bs) e'
  | fn {d Γ Γ' σ B B' e e'} (hn : ∀ f ∈ B.names, Fresh Γ f ∧ σ f = f) (hσ : ∀ z ∈ (Exp.fn B e).fv, σ z ∉ B.names)
      (hΓ : ∀ y a, Γ' y = some a → Γ y = some a ∨ ∃ t xs m, findDef y B = some (t, xs, m) ∧ a = .fn t xs m σ)
      (hs : ∀ f t' xs' m', findDef f B' = some (t', xs', m') → ∃ m, findDef f B = some (t', xs', m))
      (hp : ∀ f t xs m, findDef f B' ≠ none → findDef f B = some (t, xs, m) →
        (∀ x ∈ xs, Fresh Γ x ∧ σ x = x) ∧ ∀ z ∈ m.fv, z ∉ xs → σ z ∉ xs)
      (hb : ∀ f t xs m t' xs' m', findDef f B = some (t, xs, m) → findDef f B' = some (t', xs', m') → SE d Γ σ m m')
      (hd1 : ∀ f ∈ B.names, f ∉ B'.fv) (hd2 : ∀ f ∈ B.names, f ∈ e'.fv → f ∈ B'.names)
      (h : SE d Γ' σ e e') : SE d Γ σ (.fn B e) (mkFn B' e')
  | app {d Γ σ f t ys} : SE d Γ σ (.app f t ys) (.app (σ f) t (ys.map σ))
  | appinl {d Γ σ σ' f t ys e' t' xs m τ} (hk : Γ (σ f) = some (.fn t' xs m τ)) (hn : xs.Nodup)
      (hlen : xs.length = ys.length) (hin : ∀ (i : Nat) w y, xs[i]? = some w → ys[i]? = some y → σ' w = σ y)
      (hout : ∀ w ∈ m.fv, w ∉ xs → σ' w = τ w) (h : SE d Γ σ' m e') : SE (d + 1) Γ σ (.app f t ys) e'

/-- A bundle and what is left of it. -/
structure Bund (d : Nat) (Γ : Facts) (σ : Var → Var) (B B' : Defs) : Prop where
  new : ∀ f ∈ B.names, Fresh Γ f ∧ σ f = f
  away : ∀ z ∈ B.fv, σ z ∉ B.names
  shape : ∀ f t' xs' m', findDef f B' = some (t', xs', m') → ∃ m, findDef f B = some (t', xs', m)
  params : ∀ f t xs m, findDef f B' ≠ none → findDef f B = some (t, xs, m) →
    (∀ x ∈ xs, Fresh Γ x ∧ σ x = x) ∧ ∀ z ∈ m.fv, z ∉ xs → σ z ∉ xs
  bodies : ∀ f t xs m t' xs' m', findDef f B = some (t, xs, m) → findDef f B' = some (t', xs', m') → SE d Γ σ m m'
  dead : ∀ f ∈ B.names, f ∉ B'.fv

/-- The facts hold. -/
def Holds (Γ : Facts) (V : Env) : Prop := ∀ y a, Γ y = some a → match a with
  | .con t zs => ∃ vs, V y = some (.constr t vs) ∧ getList V zs = some vs
  | .fn t xs m τ => ∃ ρ B f, V y = some (.fn ρ B f) ∧ findDef f B = some (t, xs, m) ∧
      ∀ z ∈ m.fv, z ∉ xs → defFuns B B ρ ρ z = V (τ z)

/-- Values. -/
inductive VR (D : Nat) : Val → Val → Prop
  | pre {v w v'} : RV v w → VR D w v' → VR D v v'
  | constr {t : Tag} {vs vs' : List Val} (len : vs.length = vs'.length)
      (args : ∀ (i : Nat) v v', vs[i]? = some v → vs'[i]? = some v' → VR D v v') : VR D (.constr t vs) (.constr t vs')
  | prim {p : PVal} : VR D (.prim p) (.prim p)
  | fn {ρ B f ρ' B' d Γ σ V} (le : d ≤ D) (mem : f ∈ B'.names) (bd : Bund d Γ σ B B') (holds : Holds Γ V)
      (agree : ∀ y ∈ B.fv, ρ y = V (σ y)) (dom : ∀ y v, y ∈ B'.fv → V y = some v → ∃ v', ρ' y = some v')
      (rel : ∀ y v v', y ∈ B'.fv → V y = some v → ρ' y = some v' → VR D v v') : VR D (.fn ρ B f) (.fn ρ' B' f)

theorem all2_pre {D vs vs' ws} (h : All2 RV vs vs') (h' : All2 (VR D) vs' ws) : All2 (VR D) vs ws := by
  refine ⟨h.1.trans h'.1, fun i v w hv hw => ?_⟩
  obtain ⟨u, hu, hr⟩ := h.get hv
  exact .pre hr (h'.2 i u w hu hw)

theorem VR.conInv {D} : ∀ {v w}, VR D v w → ∀ {t vs}, v = .constr t vs → ∃ vs', w = .constr t vs' ∧ All2 (VR D) vs vs' := by
  intro v w h
  induction h with
  | pre hr _ ih =>
    rintro t vs rfl
    obtain ⟨vs₁, rfl, h1⟩ := RV.data.conInv hr
    obtain ⟨vs₂, rfl, h2⟩ := ih rfl
    exact ⟨vs₂, rfl, all2_pre h1 h2⟩
  | constr len args => rintro t vs h; cases h; exact ⟨_, rfl, len, args⟩
  | prim => rintro t vs h; cases h
  | fn => rintro t vs h; cases h

theorem VR.prmInv {D} : ∀ {v w}, VR D v w → ∀ {p}, v = .prim p → w = .prim p := by
  intro v w h
  induction h with
  | pre hr _ ih => rintro p rfl; exact ih (RV.data.prmInv hr)
  | constr => rintro t h; cases h
  | prim => rintro t h; cases h; rfl
  | fn => rintro t h; cases h

theorem VR.fnInv {D} : ∀ {v w}, VR D v w → ∀ {ρ B f}, v = .fn ρ B f → ∃ ρ' B' f', w = .fn ρ' B' f' := by
  intro v w h
  induction h with
  | pre hr _ ih =>
    rintro ρ B f rfl
    obtain ⟨ρ', B', f', h⟩ := RV.data.fnInv hr
    exact ih h
  | constr => rintro _ _ _ h; cases h
  | prim => rintro _ _ _ h; cases h
  | fn => rintro _ _ _ h; exact ⟨_, _, _, rfl⟩

theorem VR.data (D : Nat) : DataRel (VR D) where
  con h := .constr h.1 h.2
  conInv h := h.conInv rfl
  prm := .prim
  prmInv h := h.prmInv rfl
  fnInv h := h.fnInv rfl

/-- The invariant of environments. -/
structure Inv (D : Nat) (Γ : Facts) (σ : Var → Var) (X Y : Finset Var) (V ρ ρ' : Env) : Prop where
  holds : Holds Γ V
  agree : ∀ y ∈ X, ρ y = V (σ y)
  look : ∀ y ∈ Y, Look (VR D) V ρ' y y

section
variable {D : Nat} {Γ : Facts} {σ : Var → Var} {X Y : Finset Var} {V ρ ρ' : Env}

theorem Inv.mono (h : Inv D Γ σ X Y V ρ ρ') {X' Y' : Finset Var} (hx : ∀ y ∈ X', y ∈ X) (hy : ∀ y ∈ Y', y ∈ Y) :
    Inv D Γ σ X' Y' V ρ ρ' := ⟨h.holds, fun y hm => h.agree y (hx y hm), fun y hm => h.look y (hy y hm)⟩

theorem Inv.lookX (h : Inv D Γ σ X Y V ρ ρ') {y} (hx : y ∈ X) (hy : σ y ∈ Y) : Look (VR D) ρ ρ' y (σ y) := by
  intro v hv
  rw [h.agree y hx] at hv
  exact h.look _ hy v hv

theorem Inv.looks (h : Inv D Γ σ X Y V ρ ρ') {ys : List Var} (hx : ∀ y ∈ ys, y ∈ X) (hy : ∀ y ∈ ys, σ y ∈ Y) :
    Looks (VR D) ρ ρ' ys (ys.map σ) := Looks.map fun y hm => h.lookX (hx y hm) (hy y hm)

theorem Holds.set (h : Holds Γ V) {x v} (hf : Fresh Γ x) : Holds Γ (V.set x v) := by
  intro y a hy
  obtain ⟨hne, hu⟩ := hf y a hy
  have := h y a hy
  cases a with
  | con t zs =>
    obtain ⟨vs, h1, h2⟩ := this
    refine ⟨vs, by rw [set_other hne]; exact h1, ?_⟩
    rw [← h2]
    exact getList_congr fun z hz => set_other (by rintro rfl; exact hu hz)
  | fn t xs m τ =>
    obtain ⟨ρf, B, f, h1, h2, h3⟩ := this
    refine ⟨ρf, B, f, by rw [set_other hne]; exact h1, h2, fun z hz hzx => ?_⟩
    rw [set_other (by intro he; exact hu ⟨z, hz, hzx, he⟩)]
    exact h3 z hz hzx

theorem Holds.agree (h : Holds Γ V) {V' : Env} (hk : ∀ y a, Γ y = some a → V' y = V y)
    (hu : ∀ y a, Γ y = some a → ∀ z, a.Uses z → V' z = V z) : Holds Γ V' := by
  intro y a hy
  have := h y a hy
  cases a with
  | con t zs =>
    obtain ⟨vs, h1, h2⟩ := this
    exact ⟨vs, (hk y _ hy).trans h1, by rw [← h2]; exact getList_congr fun z hz => hu y _ hy z hz⟩
  | fn t xs m τ =>
    obtain ⟨ρf, B, f, h1, h2, h3⟩ := this
    refine ⟨ρf, B, f, (hk y _ hy).trans h1, h2, fun z hz hzx => ?_⟩
    rw [hu y _ hy _ ⟨z, hz, hzx, rfl⟩]
    exact h3 z hz hzx

theorem Holds.same (h : Holds Γ V) {Γ' : Facts} (hΓ : ∀ y a, Γ' y = some a → ∃ a', Γ y = some a' ∧ a'.Same a) :
    Holds Γ' V := by
  intro y a hy
  obtain ⟨a', h1, h2⟩ := hΓ y a hy
  have := h y a' h1
  cases a with
  | con t zs =>
    cases a' with
    | con t' zs' => obtain ⟨rfl, rfl⟩ := h2; exact this
    | fn => exact h2.elim
  | fn t xs m τ =>
    cases a' with
    | con => exact h2.elim
    | fn t' xs' m' τ' =>
      obtain ⟨rfl, rfl, rfl, h3⟩ := h2
      obtain ⟨ρf, B, f, k1, k2, k3⟩ := this
      exact ⟨ρf, B, f, k1, k2, fun z hz hzx => by rw [← h3 z hz hzx]; exact k3 z hz hzx⟩

theorem Holds.defs (h : Holds Γ V) {B : Defs} {ρ : Env} (hn : ∀ f ∈ B.names, Fresh Γ f) : Holds Γ (defFuns B B ρ V) :=
  h.agree (fun y a hy => defFuns_not_mem fun hm => ((hn y hm) y a hy).1 rfl)
    (fun y a hy z hz => defFuns_not_mem fun hm => ((hn z hm) y a hy).2 hz)

theorem Holds.params (h : Holds Γ V) {xs vs V₁} (hn : ∀ f ∈ xs, Fresh Γ f) (hs : setLists xs vs V = some V₁) : Holds Γ V₁ :=
  h.agree (fun y a hy => setLists_not_mem hs y fun hm => ((hn y hm) y a hy).1 rfl)
    (fun y a hy z hz => setLists_not_mem hs z fun hm => ((hn z hm) y a hy).2 hz)

theorem New.agree {x v Z} (hx : New Γ σ x Z) (h : ∀ y ∈ X, ρ y = V (σ y)) (hZ : ∀ y ∈ Z, y ≠ x → y ∈ X) :
    ∀ y ∈ Z, (ρ.set x v) y = (V.set x v) (σ y) := by
  intro y hy
  by_cases hyx : y = x
  · subst hyx; rw [hx.2.1, set_self, set_self]
  · rw [set_other hyx, set_other (hx.2.2 y hy hyx)]
    exact h y (hZ y hy hyx)

/-- A binder that is kept. -/
theorem Inv.set (h : Inv D Γ σ X Y V ρ ρ') {X' Y' : Finset Var} {x v v'} (hx : New Γ σ x X')
    (hX : ∀ y ∈ X', y ≠ x → y ∈ X) (hY : ∀ y ∈ Y', y ≠ x → y ∈ Y) (hr : VR D v v') :
    Inv D Γ σ X' Y' (V.set x v) (ρ.set x v) (ρ'.set x v') where
  holds := h.holds.set hx.1
  agree := hx.agree h.agree hX
  look y hy w hw := by
    by_cases hyx : y = x
    · subst hyx; rw [set_self] at hw ⊢; cases hw; exact ⟨v', rfl, hr⟩
    · rw [set_other hyx] at hw ⊢; exact h.look y (hY y hy hyx) w hw

/-- A binder that is dropped. -/
theorem Inv.drop (h : Inv D Γ σ X Y V ρ ρ') {X' Y' : Finset Var} {x v} (hx : New Γ σ x X')
    (hX : ∀ y ∈ X', y ≠ x → y ∈ X) (hY : ∀ y ∈ Y', y ≠ x ∧ y ∈ Y) :
    Inv D Γ σ X' Y' (V.set x v) (ρ.set x v) ρ' where
  holds := h.holds.set hx.1
  agree := hx.agree h.agree hX
  look y hy w hw := by
    obtain ⟨h1, h2⟩ := hY y hy
    rw [set_other h1] at hw
    exact h.look y h2 w hw

/-- The fact about a constructor that was just built. -/
theorem Holds.con (h : Holds Γ V) {x t zs vs} (hx : x ∉ zs) (hf : Fresh Γ x) (hg : getList V zs = some vs) :
    Holds (put Γ x (some (.con t zs))) (V.set x (.constr t vs)) := by
  intro y a hy
  by_cases hyx : y = x
  · subst hyx
    rw [Inl.put_self] at hy; cases hy
    refine ⟨vs, set_self, ?_⟩
    rw [← hg]
    exact getList_congr fun z hz => set_other (by rintro rfl; exact hx hz)
  · rw [Inl.put_other hyx] at hy
    exact h.set hf y a hy

theorem getList_map {ρ V : Env} {σ : Var → Var} : ∀ {ys : List Var}, (∀ y ∈ ys, ρ y = V (σ y)) →
    getList V (ys.map σ) = getList ρ ys
  | [], _ => rfl
  | y :: ys, h => by
    simp only [List.map, getList]
    rw [h y (by simp), getList_map (fun z hz => h z (by simp [hz]))]

/-- Entering a bundle. -/
theorem Inv.defs (h : Inv D Γ σ X Y V ρ ρ') {Γ' : Facts} {d : Nat} {B B' : Defs} {X' Y' : Finset Var} (hd : d ≤ D)
    (hb : Bund d Γ σ B B')
    (hΓ : ∀ y a, Γ' y = some a → Γ y = some a ∨ ∃ t xs m, findDef y B = some (t, xs, m) ∧ a = .fn t xs m σ)
    (hB : ∀ y ∈ B.fv, y ∈ X) (hB' : ∀ y ∈ B'.fv, y ∈ Y) (hX : ∀ y ∈ X', y ∉ B.names → y ∈ X ∧ σ y ∉ B.names)
    (hY : ∀ y ∈ Y', y ∈ B'.names ∨ y ∉ B.names ∧ y ∈ Y) :
    Inv D Γ' σ X' Y' (defFuns B B ρ V) (defFuns B B ρ ρ) (defFuns B' B' ρ' ρ') := by
  have hn := hb.new
  have hsub : ∀ y ∈ B'.names, y ∈ B.names := by
    intro y hy
    obtain ⟨⟨t, xs, m⟩, hm⟩ := findDef_some hy
    obtain ⟨m', hm'⟩ := hb.shape _ _ _ _ hm
    exact findDef_mem hm'
  refine ⟨?_, ?_, ?_⟩
  · intro y a hy
    rcases hΓ y a hy with hy | ⟨t, xs, m, hm, rfl⟩
    · exact (h.holds.defs fun f hf => (hn f hf).1) y a hy
    · refine ⟨ρ, B, y, defFuns_mem (findDef_mem hm), hm, fun z hz hzx => ?_⟩
      by_cases hzn : z ∈ B.names
      · rw [(hn z hzn).2, defFuns_mem hzn, defFuns_mem hzn]
      · rcases fv_body hm z hz with h3 | h3 | h3
        · exact absurd h3 hzx
        · exact absurd h3 hzn
        · rw [defFuns_not_mem hzn, defFuns_not_mem (hb.away z h3)]
          exact h.agree z (hB z h3)
  · intro y hy
    by_cases hyn : y ∈ B.names
    · rw [(hn y hyn).2, defFuns_mem hyn, defFuns_mem hyn]
    · obtain ⟨h1, h2⟩ := hX y hy hyn
      rw [defFuns_not_mem hyn, defFuns_not_mem h2]; exact h.agree y h1
  · intro y hy v hv
    rcases hY y hy with hm | ⟨h1, h2⟩
    · rw [defFuns_mem (hsub y hm)] at hv; cases hv
      refine ⟨_, defFuns_mem hm, .fn hd hm hb h.holds (fun z hz => h.agree z (hB z hz)) ?_ ?_⟩
      · intro z v hz hv
        obtain ⟨v', h1, _⟩ := h.look z (hB' z hz) v hv
        exact ⟨v', h1⟩
      · intro z v v' hz hv hv'
        obtain ⟨v'', h1, h2⟩ := h.look z (hB' z hz) v hv
        rw [hv'] at h1; cases h1; exact h2
    · rw [defFuns_not_mem h1] at hv
      rw [defFuns_not_mem fun hm => h1 (hsub y hm)]
      exact h.look y h2 v hv

/-- Entering a function. -/
theorem Inv.params (h : Inv D Γ σ X Y V ρ ρ') {xs vs vs' ρ₁} {X' Y' : Finset Var} (hn : ∀ x ∈ xs, Fresh Γ x ∧ σ x = x)
    (hσ : ∀ z ∈ X', z ∉ xs → z ∈ X ∧ σ z ∉ xs) (hY : ∀ z ∈ Y', z ∉ xs → z ∈ Y) (hr : All2 (VR D) vs vs')
    (hs : setLists xs vs ρ = some ρ₁) :
    ∃ V₁ ρ₁', setLists xs vs' ρ' = some ρ₁' ∧ Inv D Γ σ X' Y' V₁ ρ₁ ρ₁' := by
  obtain ⟨V₁, hV⟩ := setLists_exists (xs := xs) (vs := vs) V (setLists_len hs)
  have hl : EnvR (VR D) Y V ρ' := fun y hy => h.look y hy
  obtain ⟨ρ₁', q1, q2⟩ := hl.setLists hr hV hY
  refine ⟨V₁, ρ₁', q1, h.holds.params (fun x hx => (hn x hx).1) hV, ?_, fun y hy => q2 y hy⟩
  intro y hy
  by_cases hyx : y ∈ xs
  · rw [(hn y hyx).2]; exact Inl.setLists_same hs hV hyx
  · obtain ⟨h1, h2⟩ := hσ y hy hyx
    rw [setLists_not_mem hs y hyx, setLists_not_mem hV _ h2]
    exact h.agree y h1

end

/-- The simulation at one call bound of the source. -/
def Sim (S : Sig) (b : Bool) (D N : Nat) : Prop :=
  ∀ (e e' : Exp) (M d : Nat) (Γ : Facts) (σ : Var → Var) (V ρ ρ' : Env), Lev b D N M d → d ≤ D →
    SE d Γ σ e e' → Inv D Γ σ e.fv e'.fv V ρ ρ' →
    FRel b (VR D) (evalE S (callAt S N) e ρ) (evalE S (callAt S M) e' ρ')

/-- The state at the entry of a function body. -/
def Entry (D : Nat) (ρ : Env) (e : Exp) (ρ' : Env) (e' : Exp) : Prop :=
  ∃ d Γ σ V, d ≤ D ∧ SE d Γ σ e e' ∧ Inv D Γ σ e.fv e'.fv V ρ ρ'

theorem fn_apply {D ρ B f ρ' B' d Γ σ V ft vs vs' ρ₁ e₁} (le : d ≤ D) (mem : f ∈ B'.names) (bd : Bund d Γ σ B B')
    (hi : Inv D Γ σ B.fv B'.fv V ρ ρ') (ha : applyV (.fn ρ B f) ft vs = some (ρ₁, e₁)) (hr : All2 (VR D) vs vs') :
    ∃ ρ₁' e₁', applyV (.fn ρ' B' f) ft vs' = some (ρ₁', e₁') ∧ Entry D ρ₁ e₁ ρ₁' e₁' := by
  obtain ⟨xs, ρ₂, m, h1, h2, h3⟩ := applyV_some ha
  cases h3
  obtain ⟨⟨t', xs', m'⟩, h1'⟩ := findDef_some mem
  obtain ⟨m₂, hm₂⟩ := bd.shape _ _ _ _ h1'
  rw [h1] at hm₂; cases hm₂
  obtain ⟨p1, p2⟩ := bd.params f ft xs e₁ (by rw [h1']; simp) h1
  have hsub : ∀ y ∈ B'.names, y ∈ B.names := by
    intro y hy
    obtain ⟨⟨t, xs, m⟩, hm⟩ := findDef_some hy
    obtain ⟨m', hm'⟩ := bd.shape _ _ _ _ hm
    exact findDef_mem hm'
  have i1 : Inv D Γ σ (B.fv ∪ B.names.toFinset) (B'.fv ∪ B'.names.toFinset) (defFuns B B ρ V) (defFuns B B ρ ρ)
      (defFuns B' B' ρ' ρ') := by
    refine hi.defs le bd (fun y a h => .inl h) (fun _ h => h) (fun _ h => h) ?_ ?_
    · intro y hy hn
      have : y ∈ B.fv := by simpa [hn] using hy
      exact ⟨this, bd.away y this⟩
    · intro y hy
      rw [Finset.mem_union, List.mem_toFinset] at hy
      rcases hy with hy | hy
      · exact .inr ⟨fun hn => bd.dead y hn hy, hy⟩
      · exact .inl hy
  obtain ⟨V₁, ρ₁', q1, q2⟩ := i1.params (X' := e₁.fv) (Y' := m'.fv) p1 (fun z hz hzx => by
      refine ⟨?_, p2 z hz hzx⟩
      rcases fv_body h1 z hz with h | h | h
      · exact absurd h hzx
      · simp [h]
      · simp [h]) (fun z hz hzx => by
      rcases fv_body h1' z hz with h | h | h
      · exact absurd h hzx
      · simp [h]
      · simp [h]) hr h2
  exact ⟨ρ₁', m', applyV_eq h1' q1, d, Γ, σ, V₁, le, bd.bodies _ _ _ _ _ _ _ h1 h1', q2⟩

/-- Calls of related functions. -/
theorem call_sim {S b D N M d} (ih : ∀ N' < N, Sim S b D N') (hl : Lev b D N M d) {v v'} (hv : VR D v v') :
    ∀ {ft vs vs' ρ₁ e₁}, All2 (VR D) vs vs' → applyV v ft vs = some (ρ₁, e₁) →
    ∃ ρ₁' e₁', applyV v' ft vs' = some (ρ₁', e₁') ∧ FRel b (VR D) (callAt S N ρ₁ e₁) (callAt S M ρ₁' e₁') := by
  induction hv with
  | pre hr _ ihv =>
    intro ft vs vs' ρ₁ e₁ hvs ha
    obtain ⟨ρ₂, e₂, h1, h2⟩ := RV.call (S := S) (b := b) (N := N) (M := N) (by cases b <;> simp [Lv]) hr (all2_same vs) ha
    obtain ⟨ρ₃, e₃, h3, h4⟩ := ihv hvs h1
    exact ⟨ρ₃, e₃, h3, frel_trans (fun _ _ _ a b => .pre a b) h2 h4⟩
  | constr => intro ft vs vs' ρ₁ e₁ _ ha; simp [applyV] at ha
  | prim => intro ft vs vs' ρ₁ e₁ _ ha; simp [applyV] at ha
  | @fn ρ B f ρ' B' d₁ Γ₁ σ₁ V₁ le mem bd holds agree dom rel _ =>
    intro ft vs vs' ρ₁ e₁ hvs ha
    obtain ⟨ρ₁', e₁', h1, d', Γ, σ, V, h2, h3, h4⟩ := fn_apply le mem bd
      ⟨holds, agree, fun y hy v hv => by
        obtain ⟨v', h'⟩ := dom y v hy hv
        exact ⟨v', h', rel y v v' hy hv h'⟩⟩ ha hvs
    refine ⟨ρ₁', e₁', h1, ?_⟩
    cases b with
    | false =>
      cases N with
      | zero => exact FRel.free
      | succ N =>
        simp only [Lev] at hl
        obtain ⟨M, rfl⟩ : ∃ M', M = M' + 1 := ⟨M - 1, by simp at hl; omega⟩
        simp only [callAt, run_callAt]
        exact ih N (by omega) _ _ M d' Γ σ V _ _ (by simp only [Lev]; simp at hl ⊢; exact hl) h2 h3 h4
    | true =>
      cases M with
      | zero => exact FRel.oot
      | succ M =>
        simp only [Lev, if_true] at hl
        have hm : (M + 1) * (D + 1) = M * (D + 1) + D + 1 := by ring
        rw [hm] at hl
        obtain ⟨N, rfl⟩ : ∃ N', N = N' + 1 := ⟨N - 1, by omega⟩
        simp only [callAt, run_callAt]
        exact ih N (by omega) _ _ M d' Γ σ V _ _ (by simp only [Lev, if_true]; omega) h2 h3 h4

theorem callee_sim {S b D N M d Γ σ X Y V ρ ρ'} (ih : ∀ N' < N, Sim S b D N') (hl : Lev b D N M d)
    (hi : Inv D Γ σ X Y V ρ ρ') {f ft} {ys : List Var} (hf : f ∈ X) (hf' : σ f ∈ Y) (hy : ∀ y ∈ ys, y ∈ X)
    (hy' : ∀ y ∈ ys, σ y ∈ Y) :
    ∀ ρ₁ e₁, callee ρ f ft ys = some (ρ₁, e₁) → ∃ ρ₁' e₁', callee ρ' (σ f) ft (ys.map σ) = some (ρ₁', e₁') ∧
      FRel b (VR D) (callAt S N ρ₁ e₁) (callAt S M ρ₁' e₁') := by
  intro ρ₁ e₁ hc
  obtain ⟨v, vs, h1, h2, h3⟩ := callee_applyV.mp hc
  obtain ⟨v', h1', hv⟩ := hi.lookX hf hf' v h1
  obtain ⟨vs', h2', hvs⟩ := hi.looks hy hy' vs h2
  obtain ⟨ρ₁', e₁', h3', h4⟩ := call_sim ih hl hv hvs h3
  exact ⟨ρ₁', e₁', callee_applyV.mpr ⟨v', vs', h1', h2', h3'⟩, h4⟩

/-- The values of the parameters in the environment after inlining. -/
theorem inl_in {ρ V : Env} {σ σ' : Var → Var} {xs ys : List Var} {ρ₀ : Env} (hn : xs.Nodup)
    (hy : ∀ y ∈ ys, ρ y = V (σ y)) (hin : ∀ (i : Nat) w y, xs[i]? = some w → ys[i]? = some y → σ' w = σ y) :
    ∀ vs ρ₂, getList ρ ys = some vs → setLists xs vs ρ₀ = some ρ₂ → ∀ z ∈ xs, ρ₂ z = V (σ' z) := by
  intro vs ρ₂ hg hs z hz
  obtain ⟨i, h1, h2⟩ := setLists_mem hs z hz
  have hi : i < xs.length := (List.getElem?_eq_some_iff.mp h1).1
  rw [setLists_len hs, getList_length hg] at hi
  have hyi := List.getElem?_eq_getElem hi
  rw [h2, hin i z _ h1 hyi, ← hy _ (List.getElem_mem hi)]
  exact (getList_nth hg hyi).symm

/-- The bound of the source after a call was inlined. -/
theorem lev_inl {b D N M d} (hl : Lev b D N M (d + 1)) : ∃ N', N' ≤ N ∧ (b = true → N' < N) ∧ (b = false → N' = N) ∧
    Lev b D N' M d ∧ (if b = true then N' + 1 ≤ N else N ≤ N') := by
  cases b with
  | false => exact ⟨N, le_rfl, by simp, by simp, by simpa [Lev] using hl, by simp⟩
  | true =>
    simp only [Lev, if_true] at hl
    exact ⟨N - 1, by omega, fun _ => by omega, by simp, by simp only [Lev, if_true]; omega, by simp only [if_true]; omega⟩

theorem fn_mkFn {S call B' e' ρ'} : evalE S call (mkFn B' e') ρ' = evalE S call e' (defFuns B' B' ρ' ρ') := by
  cases B' with
  | nil => rfl
  | cons => simp only [mkFn, evalE]

theorem mkFn_fv {B' e'} : ∀ y, y ∈ (mkFn B' e').fv ↔ (y ∈ B'.fvRaw ∨ y ∈ e'.fv) ∧ y ∉ B'.names := by
  intro y
  cases B' with
  | nil => simp [mkFn, Defs.fvRaw, Defs.names]
  | cons => simp [mkFn, Exp.fv]

theorem findTag_some {t : Tag} {bs : Brs} : t ∈ bs.tags → ∃ e, findTag t bs = some e := by
  induction bs using Brs.ind with
  | nil => simp [Brs.tags]
  | cons t' e bs ih =>
    intro hm
    simp only [Brs.tags, List.mem_cons, findTag] at hm ⊢
    split
    · exact ⟨_, rfl⟩
    · next hne => exact ih (hm.resolve_left fun h => hne h.symm)

/-- The simulation for terms. -/
theorem sim_exp {S b D N} (ih : ∀ N' < N, Sim S b D N') {d Γ σ e e'} (h : SE d Γ σ e e') :
    ∀ {M V ρ ρ'}, Lev b D N M d → d ≤ D → Inv D Γ σ e.fv e'.fv V ρ ρ' →
    FRel b (VR D) (evalE S (callAt S N) e ρ) (evalE S (callAt S M) e' ρ') := by
  induction h with
  | weak hd hΓ _ ihe =>
    intro M V ρ ρ' hl hD hi
    refine ihe ?_ (by omega) ⟨hi.holds.same hΓ, hi.agree, hi.look⟩
    simp only [Lev] at hl ⊢
    split at hl <;> simp_all; omega
  | halt =>
    intro M V ρ ρ' hl hD hi
    exact flex_halt (hi.lookX (by simp [Exp.fv]) (by simp [Exp.fv]))
  | @constr d Γ σ x t ys e e' hx hy _ ihe =>
    intro M V ρ ρ' hl hD hi
    refine flex_constr (VR.data D) (hi.looks (fun y hy => by simp [Exp.fv, hy]) (fun y hy => by
      simp only [Exp.fv, Finset.mem_union, List.mem_toFinset]; exact .inl (List.mem_map_of_mem hy))) ?_
    intro vs vs' hg hg' hr
    refine ihe (V := V.set x (.constr t vs)) hl hD ⟨?_, ?_, ?_⟩
    · refine hi.holds.con hy hx.1 ?_
      rw [getList_map (ρ := ρ) fun y hy => hi.agree y (by simp [Exp.fv, hy])]; exact hg
    · exact hx.agree hi.agree fun y hy h => by simp [Exp.fv, hy, h]
    · exact (hi.set (X' := e.fv) hx (fun y hy h => by simp [Exp.fv, hy, h]) (fun y hy h => by simp [Exp.fv, hy, h]) hr).look
  | @constrDead d Γ σ x t ys e e' hx hy hdead _ ihe =>
    intro M V ρ ρ' hl hD hi
    simp only [evalE]
    rcases hg : getList ρ ys with _ | vs
    · trivial
    refine ihe (V := V.set x (.constr t vs)) hl hD ⟨?_, ?_, ?_⟩
    · refine hi.holds.con hy hx.1 ?_
      rw [getList_map (ρ := ρ) fun y hy => hi.agree y (by simp [Exp.fv, hy])]; exact hg
    · exact hx.agree hi.agree fun y hy h => by simp [Exp.fv, hy, h]
    · exact (hi.drop (X' := e.fv) hx (fun y hy h => by simp [Exp.fv, hy, h])
        (fun y hm => ⟨by rintro rfl; exact hdead hm, hm⟩)).look
  | @proj d Γ σ x t i y e e' hx _ ihe =>
    intro M V ρ ρ' hl hD hi
    refine flex_proj (VR.data D) (hi.lookX (by simp [Exp.fv]) (by simp [Exp.fv])) ?_
    intro v v' hr
    exact ihe hl hD (hi.set hx (fun y hy h => by simp [Exp.fv, hy, h]) (fun y hy h => by simp [Exp.fv, hy, h]) hr)
  | @projDead d Γ σ x t i y e e' hx hdead _ ihe =>
    intro M V ρ ρ' hl hD hi
    simp only [evalE]
    rcases hv : ρ y with _ | v
    · trivial
    cases v with
    | prim => trivial
    | fn => trivial
    | constr t' vs =>
      dsimp only
      split
      · rcases hn : vs[i]? with _ | w
        · trivial
        · exact ihe hl hD (hi.drop hx (fun y hy h => by simp [Exp.fv, hy, h])
            (fun y hy => ⟨by rintro rfl; exact hdead hy, hy⟩))
      · trivial
  | @projFold d Γ σ x t i y e e' t' zs z hk hz _ ihe =>
    intro M V ρ ρ' hl hD hi
    obtain ⟨vs, h1, h2⟩ := hi.holds _ _ hk
    have hv : ρ y = some (.constr t' vs) := by rw [hi.agree y (by simp [Exp.fv])]; exact h1
    simp only [evalE, hv]
    split
    · rcases hn : vs[i]? with _ | w
      · trivial
      · refine ihe hl hD ⟨hi.holds, ?_, hi.look⟩
        intro u hu
        by_cases hux : u = x
        · subst hux; rw [set_self, Inl.put_self, getList_nth h2 hz, hn]
        · rw [set_other hux, Inl.put_other hux]
          exact hi.agree u (by simp [Exp.fv, hu, hux])
    · trivial
  | @letapp d Γ σ x f t ys e e' hx _ ihe =>
    intro M V ρ ρ' hl hD hi
    refine flex_letapp (callee_sim ih hl hi (by simp [Exp.fv]) (by simp [Exp.fv]) (fun y hy => by simp [Exp.fv, hy])
      (fun y hy => by simp only [Exp.fv, Finset.mem_insert, Finset.mem_union, List.mem_toFinset]
                      exact .inr (.inl (List.mem_map_of_mem hy)))) ?_
    intro v v' hr
    exact ihe hl hD (hi.set hx (fun y hy h => by simp [Exp.fv, hy, h]) (fun y hy h => by simp [Exp.fv, hy, h]) hr)
  | @letinl d Γ σ σ' x f t ys e e' t' xs m τ C z hk hn _ hC hin hout hrest hx hz hse ihe =>
    intro M V ρ ρ' hl hD hi
    obtain ⟨ρf, B, f', h1, h2, h3⟩ := hi.holds _ _ hk
    obtain ⟨N', hN, ht, hf, hl', hlv⟩ := lev_inl hl
    have hi' : Inv D Γ σ' (C.plug (ren (put id x z) e)).fv e'.fv V (fun z => V (σ' z)) ρ' :=
      ⟨hi.holds, fun _ _ => rfl, hi.look⟩
    refine frel_trans (fun _ _ _ a b => .pre a b) (letapp_inl (ρ₁ := fun z => V (σ' z)) hlv
      ((hi.agree f (by simp [Exp.fv])).trans h1) h2 hC ?_ (inl_in hn (fun y hy => hi.agree y (by simp [Exp.fv, hy])) hin)
      ?_ hx hz) ?_
    · intro w hw hwx; rw [h3 w hw hwx, hout w hw hwx]
    · intro w hw hwx
      obtain ⟨q1, q2⟩ := hrest w hw hwx
      exact ⟨by rw [q1]; exact hi.agree w (by simp [Exp.fv, hw, hwx]), q2⟩
    · cases b with
      | false => obtain rfl := hf rfl; exact ihe hl' (by omega) hi'
      | true => exact ih N' (ht rfl) _ _ M d Γ σ' V _ _ hl' (by omega) hse hi'
  | @primVal d Γ σ x p e e' hx _ ihe =>
    intro M V ρ ρ' hl hD hi
    refine flex_primVal (VR.data D) ?_
    intro hr
    exact ihe hl hD (hi.set hx (fun y hy h => by simp [Exp.fv, hy, h]) (fun y hy h => by simp [Exp.fv, hy, h]) hr)
  | @prim d Γ σ x p ys e e' hx _ ihe =>
    intro M V ρ ρ' hl hD hi
    refine flex_prim (VR.data D) (hi.looks (fun y hy => by simp [Exp.fv, hy]) (fun y hy => by
      simp only [Exp.fv, Finset.mem_union, List.mem_toFinset]; exact .inl (List.mem_map_of_mem hy))) ?_
    intro v hr
    exact ihe hl hD (hi.set hx (fun y hy h => by simp [Exp.fv, hy, h]) (fun y hy h => by simp [Exp.fv, hy, h]) hr)
  | @case d Γ σ v bs bs' ht _ ihb =>
    intro M V ρ ρ' hl hD hi
    refine flex_case (VR.data D) (hi.lookX (by simp [Exp.fv]) (by simp [Exp.fv])) ht ?_
    intro t vs e _ hf
    have hm := findTag_mem hf
    rw [← ht] at hm
    obtain ⟨e', hf'⟩ := findTag_some hm
    obtain ⟨i, hi1, hi2⟩ := nth_find ht hf hf'
    exact ⟨e', hf', ihb i t e t e' hi1 hi2 hl hD (hi.mono (fun y hy => by simp [Exp.fv, findTag_fv hf y hy])
      (fun y hy => by simp [Exp.fv, findTag_fv hf' y hy]))⟩
  | @caseFold d Γ σ v bs t zs e e' hk hf _ ihe =>
    intro M V ρ ρ' hl hD hi
    obtain ⟨vs, h1, h2⟩ := hi.holds _ _ hk
    have hv : ρ v = some (.constr t vs) := by rw [hi.agree v (by simp [Exp.fv])]; exact h1
    simp only [evalE, hv, evalB_findTag, hf]
    split
    · exact ihe hl hD (hi.mono (fun y hy => by simp [Exp.fv, findTag_fv hf y hy]) (fun _ h => h))
    · trivial
  | @fn d Γ Γ' σ B B' e e' hn hσ hΓ hs hp hb hd1 hd2 _ _ ihe =>
    intro M V ρ ρ' hl hD hi
    rw [fn_mkFn]
    simp only [evalE]
    have hfv : ∀ y, y ∈ B.fv → y ∈ (Exp.fn B e).fv := by
      intro y hy
      simp only [Defs.fv, Finset.mem_sdiff, List.mem_toFinset] at hy
      simp [Exp.fv, hy]
    refine ihe hl hD (hi.defs hD ⟨hn, fun z hz => hσ z (hfv z hz), hs, hp, hb, hd1⟩ hΓ hfv ?_ ?_ ?_)
    · intro y hy
      simp only [Defs.fv, Finset.mem_sdiff, List.mem_toFinset] at hy
      exact (mkFn_fv y).mpr ⟨.inl hy.1, hy.2⟩
    · intro y hy hyn
      have : y ∈ (Exp.fn B e).fv := by simp [Exp.fv, hy, hyn]
      exact ⟨this, hσ y this⟩
    · intro y hy
      by_cases hy' : y ∈ B'.names
      · exact .inl hy'
      · refine .inr ⟨fun hm => hy' (hd2 y hm hy), (mkFn_fv y).mpr ⟨.inr hy, hy'⟩⟩
  | @app d Γ σ f t ys =>
    intro M V ρ ρ' hl hD hi
    exact flex_app (callee_sim ih hl hi (by simp [Exp.fv]) (by simp [Exp.fv]) (fun y hy => by simp [Exp.fv, hy])
      (fun y hy => by simp only [Exp.fv, Finset.mem_insert, List.mem_toFinset]
                      exact .inr (List.mem_map_of_mem hy)))
  | @appinl d Γ σ σ' f t ys e' t' xs m τ hk hn _ hin hout hse ihe =>
    intro M V ρ ρ' hl hD hi
    obtain ⟨ρf, B, f', h1, h2, h3⟩ := hi.holds _ _ hk
    obtain ⟨N', hN, ht, hf, hl', hlv⟩ := lev_inl hl
    have hi' : Inv D Γ σ' m.fv e'.fv V (fun z => V (σ' z)) ρ' := ⟨hi.holds, fun _ _ => rfl, hi.look⟩
    refine frel_trans (fun _ _ _ a b => .pre a b) (app_inl (ρ₁ := fun z => V (σ' z)) hlv
      ((hi.agree f (by simp [Exp.fv])).trans h1) h2 ?_ (inl_in hn (fun y hy => hi.agree y (by simp [Exp.fv, hy])) hin)) ?_
    · intro w hw hwx; rw [h3 w hw hwx, hout w hw hwx]
    · cases b with
      | false => obtain rfl := hf rfl; exact ihe hl' (by omega) hi'
      | true => exact ih N' (ht rfl) _ _ M d Γ σ' V _ _ hl' (by omega) hse hi'

theorem sim_all (S : Sig) (b : Bool) (D : Nat) : ∀ N, Sim S b D N := by
  intro N
  induction N using Nat.strong_induction_on with
  | _ N ih => exact fun e e' M d Γ σ V ρ ρ' hl hd hr hi => sim_exp ih hr hl hd hi

/-- Related closed programs have the same meaning. -/
theorem preserves_of_SE {S : Sig} {d σ e e'} (hr : SE d (fun _ => none) σ e e') (hc : e.fv = ∅) (hc' : e'.fv = ∅) :
    Preserves S e S e' := by
  have hi : Inv d (fun _ => none) σ e.fv e'.fv emp emp emp :=
    ⟨by intro y a h; simp at h, by simp [hc], by simp [hc']⟩
  refine preserves_of_flex (VR.data d).obs (fun N => ⟨N, ?_⟩) (fun M => ⟨M * (d + 1) + d, ?_⟩)
  · rw [run_callAt, run_callAt]
    exact sim_all S false d N _ _ _ d _ _ emp _ _ (by simp [Lev]) le_rfl hr hi
  · rw [run_callAt, run_callAt]
    exact sim_all S true d _ _ _ _ d _ _ emp _ _ (by simp [Lev]) le_rfl hr hi

end Shr
end ANF
