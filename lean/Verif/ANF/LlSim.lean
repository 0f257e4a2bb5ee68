import Verif.ANF.LlModel
import Verif.ANF.UncSim

/-!
# Lambda lifting: simulation

`LE k n P ζ σ e e'` relates a term whose variables are below `k` to a lifted one: `P` is what is in scope, `ζ` gives the
lifted functions in scope with their tags and the variables they take, `σ` renames.  Names below `n` are taken.
-/

namespace ANF
namespace Ll

/-- Known lifted functions: new name, new tag, lifted variables. -/
abbrev Known := Var → Option (Var × Tag × List Var)

/-- The two forms of a call. -/
def Call (P : Finset Var) (ζ : Known) (σ : Var → Var) (f : Var) (ft : Tag) (ys : List Var) (g : Var) (gt : Tag)
    (zs : List Var) : Prop :=
  f ∈ P ∧ (∀ y ∈ ys, y ∈ P) ∧ (g = σ f ∧ gt = ft ∧ zs = ys.map σ ∨
    ∃ args, ζ f = some (g, gt, args) ∧ zs = (ys ++ args).map σ)

/-- A bundle of wrappers `Bw` for the functions of `B`, with names from `lo` to `hi`. -/
structure Wraps (lo hi : Nat) (ζ : Known) (σ : Var → Var) (B Bw : Defs) (σ' : Var → Var) : Prop where
  le : lo ≤ hi
  out : ∀ y, y ∉ B.names → σ' y = σ y
  names : ∀ g ∈ Bw.names, lo ≤ g
  find : ∀ f ft xs e, findDef f B = some (ft, xs, e) → ∃ f' ft' args xs', ζ f = some (f', ft', args) ∧
    (lo ≤ σ' f ∧ σ' f < hi) ∧ findDef (σ' f) Bw = some (ft, xs', .app f' ft' (xs' ++ args.map σ)) ∧
    xs.length = xs'.length ∧ xs'.Nodup ∧ ∀ x ∈ xs', lo ≤ x
  fvs : ∀ z ∈ Bw.fvRaw, ∃ f ∈ B.names, ∃ f' ft' args, ζ f = some (f', ft', args) ∧ (z = f' ∨ ∃ x ∈ args, z = σ x)
  tags : Bw.caseTags = []

mutual
/-- Terms. -/
inductive LE (k : Nat) : Nat → Finset Var → Known → (Var → Var) → Exp → Exp → Prop
  | constr {n P ζ σ x t ys e e'} : x ∉ P → x < k → (∀ y ∈ ys, y ∈ P) → LE k n (insert x P) ζ σ e e' →
      LE k n P ζ σ (.constr x t ys e) (.constr x t (ys.map σ) e')
  | case {n P ζ σ x bs bs'} : x ∈ P → LB k n P ζ σ bs bs' → LE k n P ζ σ (.case x bs) (.case (σ x) bs')
  | proj {n P ζ σ x t i y e e'} : x ∉ P → x < k → y ∈ P → LE k n (insert x P) ζ σ e e' →
      LE k n P ζ σ (.proj x t i y e) (.proj x t i (σ y) e')
  | letapp {n P ζ σ x f ft ys e g gt zs e'} : x ∉ P → x < k → Call P ζ σ f ft ys g gt zs → LE k n (insert x P) ζ σ e e' →
      LE k n P ζ σ (.letapp x f ft ys e) (.letapp x g gt zs e')
  | keep {n m P ζ σ B B' e e'} : (∀ f ∈ B.names, f ∉ P ∧ f < k) → n ≤ m →
      LD k n (P ∪ B.names.toFinset) ζ σ B B' → LE k m (P ∪ B.names.toFinset) ζ σ e e' →
      LE k n P ζ σ (.fn B e) (.fn B' e')
  | lift {n n₁ n₂ n₃ P ζ ζ' σ σ' args B B' Bw e e'} : (∀ f ∈ B.names, f ∉ P ∧ f < k) → (∀ x ∈ args, x ∈ P) →
      (∀ f, f ∉ B.names → ζ' f = ζ f) →
      (∀ f ∈ B.names, ∃ f' ft', ζ' f = some (f', ft', args) ∧ n ≤ f' ∧ f' < n₁) → n ≤ n₁ →
      LL k n₁ (P ∪ B.names.toFinset) ζ' σ args B B B' → n₁ ≤ n₂ → Wraps n₂ n₃ ζ' σ B Bw σ' →
      LE k n₃ (P ∪ B.names.toFinset) ζ' σ' e e' → LE k n P ζ σ (.fn B e) (.fn B' (.fn Bw e'))
  | app {n P ζ σ f ft ys g gt zs} : Call P ζ σ f ft ys g gt zs → LE k n P ζ σ (.app f ft ys) (.app g gt zs)
  | primVal {n P ζ σ x p e e'} : x ∉ P → x < k → LE k n (insert x P) ζ σ e e' →
      LE k n P ζ σ (.primVal x p e) (.primVal x p e')
  | prim {n P ζ σ x p ys e e'} : x ∉ P → x < k → (∀ y ∈ ys, y ∈ P) → LE k n (insert x P) ζ σ e e' →
      LE k n P ζ σ (.prim x p ys e) (.prim x p (ys.map σ) e')
  | halt {n P ζ σ x} : x ∈ P → LE k n P ζ σ (.halt x) (.halt (σ x))
/-- Branches. -/
inductive LB (k : Nat) : Nat → Finset Var → Known → (Var → Var) → Brs → Brs → Prop
  | nil {n P ζ σ} : LB k n P ζ σ .nil .nil
  | cons {n m P ζ σ t e e' bs bs'} : n ≤ m → LE k n P ζ σ e e' → LB k m P ζ σ bs bs' →
      LB k n P ζ σ (.cons t e bs) (.cons t e' bs')
/-- Bundles that are not lifted. -/
inductive LD (k : Nat) : Nat → Finset Var → Known → (Var → Var) → Defs → Defs → Prop
  | nil {n P ζ σ} : LD k n P ζ σ .nil .nil
  | cons {n m P ζ σ f ft xs e e' B B'} : n ≤ m → (∀ x ∈ xs, x ∉ P ∧ x < k) →
      LE k n (P ∪ xs.toFinset) ζ σ e e' → LD k m P ζ σ B B' →
      LD k n P ζ σ (.cons f ft xs e B) (.cons f ft xs e' B')
/-- Bundles that are lifted. -/
inductive LL (k : Nat) : Nat → Finset Var → Known → (Var → Var) → List Var → Defs → Defs → Defs → Prop
  | nil {n P ζ σ args Bf} : LL k n P ζ σ args Bf .nil .nil
  | cons {n n₁ n₂ m P ζ σ σ₁ σ₂ args Bf f ft xs e B f' ft' ys Bw e' B'} : ζ f = some (f', ft', args) → f' ∉ B'.names →
      (∀ x ∈ xs, x ∉ P ∧ x < k) → (∀ y ∈ ys, n ≤ y ∧ y < n₁) → ys.Nodup → args.length = ys.length → n ≤ n₁ →
      (∀ x, x ∉ args → σ₁ x = σ x) → (∀ (i : Nat) x y, args[i]? = some x → ys[i]? = some y → σ₁ x = y) →
      Wraps n₁ n₂ ζ σ₁ Bf Bw σ₂ → LE k n₂ (P ∪ xs.toFinset) ζ σ₂ e e' → n ≤ m → LL k m P ζ σ args Bf B B' →
      LL k n P ζ σ args Bf (.cons f ft xs e B) (.cons f' ft' (xs ++ ys) (.fn Bw e') B')
end

/-- Well-formedness of the static data. -/
structure SOk (k n : Nat) (P : Finset Var) (ζ : Known) (σ : Var → Var) : Prop where
  kn : k ≤ n
  sig : ∀ y, σ y = y ∨ y ∈ P ∧ k ≤ σ y ∧ σ y < n
  bnd : ∀ y ∈ P, y < k
  known : ∀ f f' ft' args, ζ f = some (f', ft', args) → f ∈ P ∧ (∀ x ∈ args, x ∈ P) ∧ k ≤ f' ∧ f' < n

theorem SOk.mono {k n m P ζ σ} (h : SOk k n P ζ σ) (hm : n ≤ m) : SOk k m P ζ σ where
  kn := h.kn.trans hm
  sig y := (h.sig y).imp_right fun h => ⟨h.1, h.2.1, h.2.2.trans_le hm⟩
  bnd := h.bnd
  known f f' ft' args hz := by
    obtain ⟨h1, h2, h3, h4⟩ := h.known f f' ft' args hz
    exact ⟨h1, h2, h3, h4.trans_le hm⟩

theorem SOk.grow {k n P Q ζ σ} (h : SOk k n P ζ σ) (hPQ : ∀ x ∈ P, x ∈ Q) (hQ : ∀ x ∈ Q, x ∉ P → x < k) : SOk k n Q ζ σ where
  kn := h.kn
  sig y := (h.sig y).imp_right fun h => ⟨hPQ _ h.1, h.2⟩
  bnd y hy := by
    by_cases hp : y ∈ P
    · exact h.bnd y hp
    · exact hQ y hy hp
  known f f' ft' args hz := by
    obtain ⟨h1, h2, h3, h4⟩ := h.known f f' ft' args hz
    exact ⟨hPQ _ h1, fun x hx => hPQ _ (h2 x hx), h3, h4⟩

theorem SOk.out {k n P ζ σ} (h : SOk k n P ζ σ) {x} (hx : x ∉ P) : σ x = x :=
  (h.sig x).resolve_right fun h => hx h.1

theorem SOk.lt {k n P ζ σ} (h : SOk k n P ζ σ) {x} (hx : x ∈ P) : σ x < n := by
  rcases h.sig x with h1 | h1
  · rw [h1]; exact (h.bnd x hx).trans_le h.kn
  · exact h1.2.2

/-- A renamed variable is not a variable of the source that is out of scope. -/
theorem SOk.sep {k n P ζ σ} (h : SOk k n P ζ σ) {x y} (hx : x ∈ P) (hy : y ∉ P) (hk : y < k) : σ x ≠ y := by
  rcases h.sig x with h1 | h1
  · rw [h1]; rintro rfl; exact hy hx
  · rintro rfl; vomega

/-- The static facts about a lifted bundle. -/
structure Lifts (k n n₁ : Nat) (P : Finset Var) (ζ ζ' : Known) (σ : Var → Var) (args : List Var) (B B' : Defs) : Prop where
  so : SOk k n P ζ σ
  le : n ≤ n₁
  names : ∀ f ∈ B.names, f ∉ P ∧ f < k
  argsIn : ∀ x ∈ args, x ∈ P
  out : ∀ f, f ∉ B.names → ζ' f = ζ f
  ins : ∀ f ∈ B.names, ∃ f' ft', ζ' f = some (f', ft', args) ∧ n ≤ f' ∧ f' < n₁
  bodies : LL k n₁ (P ∪ B.names.toFinset) ζ' σ args B B B'

mutual
/-- Source and target values. -/
inductive VR (k : Nat) : Val → Val → Prop
  | constr {t : Tag} {vs vs' : List Val} (len : vs.length = vs'.length)
      (args : ∀ (i : Nat) v v', vs[i]? = some v → vs'[i]? = some v' → VR k v v') : VR k (.constr t vs) (.constr t vs')
  | prim {p : PVal} : VR k (.prim p) (.prim p)
  | fn {n : Nat} {P ζ σ} {ρ ρ' : Env} {B B' : Defs} {f : Var} (so : SOk k n P ζ σ)
      (names : ∀ f ∈ B.names, f ∉ P ∧ f < k) (ld : LD k n (P ∪ B.names.toFinset) ζ σ B B')
      (dom : ∀ x ∈ P, ∃ v, ρ x = some v) (dom' : ∀ x ∈ P, ∃ v, ρ' (σ x) = some v)
      (rel : ∀ x ∈ P, ∀ v v', ρ x = some v → ρ' (σ x) = some v' → VR k v v')
      (fns : ∀ h h' ht' as, ζ h = some (h', ht', as) → ∃ ρh Bh ρt Bt, ρ h = some (.fn ρh Bh h) ∧
        ρ' h' = some (.fn ρt Bt h') ∧ ∀ x ∈ as, ρh x = ρ x)
      (kvs : ∀ h h' ht' as ρh Bh ρt Bt, ζ h = some (h', ht', as) → ρ h = some (.fn ρh Bh h) →
        ρ' h' = some (.fn ρt Bt h') → KV k as ρh Bh h ρt Bt h' ht') :
      VR k (.fn ρ B f) (.fn ρ' B' f)
  | wrap {args : List Var} {ρ : Env} {B : Defs} {f : Var} {ρt : Env} {Bt : Defs} {f' : Var} {ft' : Tag} {ρw : Env}
      {Bw : Defs} {g : Var} {ft : Tag} {xs' zs : List Var} {ws : List Val} (kv : KV k args ρ B f ρt Bt f' ft')
      (find : findDef g Bw = some (ft, xs', .app f' ft' (xs' ++ zs)))
      (par : ∀ t xs e, findDef f B = some (t, xs, e) → t = ft ∧ xs.length = xs'.length)
      (lk : ρw f' = some (.fn ρt Bt f')) (hf : f' ∉ Bw.names ∧ f' ∉ xs') (hz : ∀ z ∈ zs, z ∉ Bw.names ∧ z ∉ xs')
      (nd : xs'.Nodup) (ga : getList ρw zs = some ws) (len : args.length = ws.length)
      (arel : ∀ (i : Nat) x v w, args[i]? = some x → ρ x = some v → ws[i]? = some w → VR k v w) :
      VR k (.fn ρ B f) (.fn ρw Bw g)
/-- A function of the source and its lifted form. -/
inductive KV (k : Nat) : List Var → Env → Defs → Var → Env → Defs → Var → Tag → Prop
  | mk {n n₁ : Nat} {P ζ ζ' σ args} {ρ : Env} {B : Defs} {f : Var} {ρ' : Env} {B' : Defs} {f' : Var} {ft' : Tag}
      (lifts : Lifts k n n₁ P ζ ζ' σ args B B') (hf : f ∈ B.names) (zf : ζ' f = some (f', ft', args))
      (dom : ∀ x ∈ P, ∃ v, ρ x = some v) (dom' : ∀ x ∈ P, ∃ v, ρ' (σ x) = some v)
      (rel : ∀ x ∈ P, ∀ v v', ρ x = some v → ρ' (σ x) = some v' → VR k v v')
      (fns : ∀ h h' ht' as, ζ h = some (h', ht', as) → ∃ ρh Bh ρt Bt, ρ h = some (.fn ρh Bh h) ∧
        ρ' h' = some (.fn ρt Bt h') ∧ ∀ x ∈ as, ρh x = ρ x)
      (kvs : ∀ h h' ht' as ρh Bh ρt Bt, ζ h = some (h', ht', as) → ρ h = some (.fn ρh Bh h) →
        ρ' h' = some (.fn ρt Bt h') → KV k as ρh Bh h ρt Bt h' ht') :
      KV k args ρ B f ρ' B' f' ft'
end

theorem VR.data (k : Nat) : DataRel (VR k) where
  con h := .constr h.1 h.2
  conInv h := by cases h with | constr h1 h2 => exact ⟨_, rfl, h1, h2⟩
  prm := .prim
  prmInv h := by cases h; rfl
  fnInv h := by cases h <;> exact ⟨_, _, _, rfl⟩

/-- The invariant on environments. -/
structure Inv (k : Nat) (P : Finset Var) (ζ : Known) (σ : Var → Var) (ρ ρ' : Env) : Prop where
  env : ∀ x ∈ P, ∃ v v', ρ x = some v ∧ ρ' (σ x) = some v' ∧ VR k v v'
  fns : ∀ h h' ht' as, ζ h = some (h', ht', as) → ∃ ρh Bh ρt Bt, ρ h = some (.fn ρh Bh h) ∧
    ρ' h' = some (.fn ρt Bt h') ∧ (∀ x ∈ as, ρh x = ρ x) ∧ KV k as ρh Bh h ρt Bt h' ht'

theorem Inv.of {k P ζ σ} {ρ ρ' : Env} (dom : ∀ x ∈ P, ∃ v, ρ x = some v) (dom' : ∀ x ∈ P, ∃ v, ρ' (σ x) = some v)
    (rel : ∀ x ∈ P, ∀ v v', ρ x = some v → ρ' (σ x) = some v' → VR k v v')
    (fns : ∀ h h' ht' as, ζ h = some (h', ht', as) → ∃ ρh Bh ρt Bt, ρ h = some (.fn ρh Bh h) ∧
      ρ' h' = some (.fn ρt Bt h') ∧ ∀ x ∈ as, ρh x = ρ x)
    (kvs : ∀ h h' ht' as ρh Bh ρt Bt, ζ h = some (h', ht', as) → ρ h = some (.fn ρh Bh h) →
      ρ' h' = some (.fn ρt Bt h') → KV k as ρh Bh h ρt Bt h' ht') : Inv k P ζ σ ρ ρ' where
  env x hx := by
    obtain ⟨v, hv⟩ := dom x hx
    obtain ⟨v', hv'⟩ := dom' x hx
    exact ⟨v, v', hv, hv', rel x hx v v' hv hv'⟩
  fns h h' ht' as hz := by
    obtain ⟨ρh, Bh, ρt, Bt, h1, h2, h3⟩ := fns h h' ht' as hz
    exact ⟨ρh, Bh, ρt, Bt, h1, h2, h3, kvs h h' ht' as ρh Bh ρt Bt hz h1 h2⟩

section
variable {k n : Nat} {P : Finset Var} {ζ : Known} {σ : Var → Var} {ρ ρ' : Env}

theorem Inv.dom (h : Inv k P ζ σ ρ ρ') : ∀ x ∈ P, ∃ v, ρ x = some v := fun x hx =>
  let ⟨v, _, h1, _⟩ := h.env x hx; ⟨v, h1⟩
theorem Inv.dom' (h : Inv k P ζ σ ρ ρ') : ∀ x ∈ P, ∃ v, ρ' (σ x) = some v := fun x hx =>
  let ⟨_, v, _, h1, _⟩ := h.env x hx; ⟨v, h1⟩
theorem Inv.rel (h : Inv k P ζ σ ρ ρ') : ∀ x ∈ P, ∀ v v', ρ x = some v → ρ' (σ x) = some v' → VR k v v' := by
  intro x hx v v' h1 h2
  obtain ⟨w, w', h3, h4, h5⟩ := h.env x hx
  rw [h1] at h3; cases h3
  rw [h2] at h4; cases h4
  exact h5
theorem Inv.fns' (h : Inv k P ζ σ ρ ρ') : ∀ h h' ht' as, ζ h = some (h', ht', as) → ∃ ρh Bh ρt Bt,
    ρ h = some (.fn ρh Bh h) ∧ ρ' h' = some (.fn ρt Bt h') ∧ ∀ x ∈ as, ρh x = ρ x := by
  intro g h' ht' as hz
  obtain ⟨ρh, Bh, ρt, Bt, h1, h2, h3, _⟩ := h.fns g h' ht' as hz
  exact ⟨ρh, Bh, ρt, Bt, h1, h2, h3⟩
theorem Inv.kvs (h : Inv k P ζ σ ρ ρ') : ∀ h h' ht' as ρh Bh ρt Bt, ζ h = some (h', ht', as) →
    ρ h = some (.fn ρh Bh h) → ρ' h' = some (.fn ρt Bt h') → KV k as ρh Bh h ρt Bt h' ht' := by
  intro g h' ht' as ρh Bh ρt Bt hz h1 h2
  obtain ⟨ρh1, Bh1, ρt1, Bt1, h3, h4, _, h5⟩ := h.fns g h' ht' as hz
  rw [h1] at h3; cases h3
  rw [h2] at h4; cases h4
  exact h5

theorem Inv.look (h : Inv k P ζ σ ρ ρ') {x} (hx : x ∈ P) : Look (VR k) ρ ρ' x (σ x) := by
  intro v hv
  obtain ⟨w, w', h1, h2, h3⟩ := h.env x hx
  rw [hv] at h1; cases h1
  exact ⟨w', h2, h3⟩

theorem Inv.looks (h : Inv k P ζ σ ρ ρ') {xs} (hx : ∀ x ∈ xs, x ∈ P) : Looks (VR k) ρ ρ' xs (xs.map σ) :=
  Looks.map fun x hxs => h.look (hx x hxs)

/-- Changing the environments away from what is in scope, and adding related variables. -/
theorem Inv.grow (h : Inv k P ζ σ ρ ρ') (so : SOk k n P ζ σ) {r r' : Env} {Q : Finset Var} (hQ : ∀ x ∈ Q, x ∉ P → σ x = x ∧
      ∃ v v', r x = some v ∧ r' x = some v' ∧ VR k v v')
    (hs : ∀ x ∈ P, r x = ρ x) (ht : ∀ x ∈ P, r' (σ x) = ρ' (σ x))
    (hz : ∀ h h' ht' as, ζ h = some (h', ht', as) → r' h' = ρ' h') : Inv k Q ζ σ r r' where
  env x hx := by
    by_cases hp : x ∈ P
    · rw [hs x hp, ht x hp]; exact h.env x hp
    · obtain ⟨h1, h2⟩ := hQ x hx hp
      rw [h1]; exact h2
  fns g h' ht' as hk := by
    obtain ⟨ρh, Bh, ρt, Bt, h1, h2, h3, h4⟩ := h.fns g h' ht' as hk
    obtain ⟨k1, k2, _⟩ := so.known g h' ht' as hk
    refine ⟨ρh, Bh, ρt, Bt, by rw [hs g k1, h1], by rw [hz g h' ht' as hk, h2], fun x hx => ?_, h4⟩
    rw [h3 x hx, hs x (k2 x hx)]

theorem Inv.set (h : Inv k P ζ σ ρ ρ') (so : SOk k n P ζ σ) {x v v'} (hx : x ∉ P) (hk : x < k) (hr : VR k v v') :
    Inv k (insert x P) ζ σ (ρ.set x v) (ρ'.set x v') := by
  refine h.grow so ?_ ?_ ?_ ?_
  · intro y hy hp
    obtain rfl : y = x := by
      rw [Finset.mem_insert] at hy; exact hy.resolve_right hp
    exact ⟨so.out hx, v, v', set_self, set_self, hr⟩
  · intro y hy; exact set_other (by rintro rfl; exact hx hy)
  · intro y hy; exact set_other (so.sep hy hx hk)
  · intro g h' ht' as hz
    have := (so.known g h' ht' as hz).2.2.1
    exact set_other (by rintro rfl; vomega)

theorem Inv.setLists (h : Inv k P ζ σ ρ ρ') (so : SOk k n P ζ σ) {xs : List Var} {vs vs' : List Val} {ρ₁}
    (hx : ∀ x ∈ xs, x ∉ P ∧ x < k) (hv : All2 (VR k) vs vs') (hs : setLists xs vs ρ = some ρ₁) :
    ∃ ρ₁', ANF.setLists xs vs' ρ' = some ρ₁' ∧ Inv k (P ∪ xs.toFinset) ζ σ ρ₁ ρ₁' := by
  obtain ⟨ρ₁', h1⟩ := setLists_exists (xs := xs) (vs := vs') ρ' (by rw [setLists_len hs, hv.1])
  refine ⟨ρ₁', h1, h.grow so ?_ ?_ ?_ ?_⟩
  · intro y hy hp
    have hy : y ∈ xs := by simpa [hp] using hy
    refine ⟨so.out hp, ?_⟩
    obtain ⟨i, hi, h2⟩ := setLists_mem hs y hy
    obtain ⟨v, hiv⟩ : ∃ v, vs[i]? = some v := by
      have hlt := (List.getElem?_eq_some_iff.1 hi).1
      rw [setLists_len hs] at hlt
      exact ⟨_, List.getElem?_eq_getElem hlt⟩
    rw [hiv] at h2
    obtain ⟨v', h3, h4⟩ : ∃ v', ρ₁' y = some v' ∧ VR k v v' := by
      have h0 : ERel (VR k) (fun _ => False) id ρ ρ' := fun x hx => hx.elim
      obtain ⟨ρ₂, hr, hrel⟩ := h0.setLists hv hs
      rw [h1] at hr; cases hr
      exact hrel y (.inl hy) v h2
    exact ⟨v, v', h2, h3, h4⟩
  · intro y hy; exact setLists_not_mem hs y (fun hm => (hx y hm).1 hy)
  · intro y hy; exact setLists_not_mem h1 _ (fun hm => so.sep hy (hx _ hm).1 (hx _ hm).2 rfl)
  · intro g h' ht' as hz
    have := (so.known g h' ht' as hz).2.2.1
    exact setLists_not_mem h1 _ (fun hm => by have := (hx _ hm).2; vomega)

end

/-! ## Finding functions and branches -/

theorem LB.tags {k n P ζ σ} : ∀ {bs bs' : Brs}, LB k n P ζ σ bs bs' → bs'.tags = bs.tags := by
  intro bs
  induction bs using Brs.ind generalizing n with
  | nil => intro bs' h; cases h; rfl
  | cons t e bs ih => intro bs' h; cases h with | cons _ _ h => simp only [Brs.tags, ih h]

theorem LB.find {k n P ζ σ} : ∀ {bs bs' : Brs} {t e}, LB k n P ζ σ bs bs' → findTag t bs = some e →
    ∃ m e', n ≤ m ∧ findTag t bs' = some e' ∧ LE k m P ζ σ e e' := by
  intro bs
  induction bs using Brs.ind generalizing n with
  | nil => intro bs' t e _ h; simp [findTag] at h
  | cons t' e' bs ih =>
    intro bs' t e hb h
    cases hb with
    | cons hm he hbs =>
      simp only [findTag] at h ⊢
      split at h
      · next ht => cases h; rw [if_pos ht]; exact ⟨_, _, le_rfl, rfl, he⟩
      · next ht =>
        rw [if_neg ht]
        obtain ⟨m', e₁, h1, h2, h3⟩ := ih hbs h
        exact ⟨m', e₁, hm.trans h1, h2, h3⟩

theorem LD.names {k n P ζ σ} : ∀ {B B' : Defs}, LD k n P ζ σ B B' → B'.names = B.names := by
  intro B
  induction B using Defs.ind generalizing n with
  | nil => intro B' h; cases h; rfl
  | cons f ft xs e B ih => intro B' h; cases h with | cons _ _ _ h => simp only [Defs.names, ih h]

theorem LD.find {k n P ζ σ} : ∀ {B B' : Defs} {f ft xs e}, LD k n P ζ σ B B' → findDef f B = some (ft, xs, e) →
    ∃ m e', n ≤ m ∧ findDef f B' = some (ft, xs, e') ∧ (∀ x ∈ xs, x ∉ P ∧ x < k) ∧ LE k m (P ∪ xs.toFinset) ζ σ e e' := by
  intro B
  induction B using Defs.ind generalizing n with
  | nil => intro B' f ft xs e _ h; simp [findDef] at h
  | cons f0 ft0 xs0 e0 B ih =>
    intro B' f ft xs e hp h
    cases hp with
    | cons hm hx he hB =>
      simp only [findDef] at h ⊢
      split at h
      · next hff => cases h; rw [if_pos hff]; exact ⟨_, _, le_rfl, rfl, hx, he⟩
      · next hff =>
        rw [if_neg hff]
        obtain ⟨m', e₁, h1, h2, h3⟩ := ih hB h
        exact ⟨m', e₁, hm.trans h1, h2, h3⟩

/-- A lifted function in the target bundle. -/
structure Entry (k n : Nat) (P : Finset Var) (ζ : Known) (σ : Var → Var) (args : List Var) (Bf B' : Defs) (xs : List Var)
    (e : Exp) (f' : Var) (ft' : Tag) (n₀ n₁ n₂ : Nat) (σ₁ σ₂ : Var → Var) (ys : List Var) (Bw : Defs) (e' : Exp) : Prop where
  le : n ≤ n₀
  find : findDef f' B' = some (ft', xs ++ ys, .fn Bw e')
  params : ∀ x ∈ xs, x ∉ P ∧ x < k
  fresh : ∀ y ∈ ys, n₀ ≤ y ∧ y < n₁
  nodup : ys.Nodup
  len : args.length = ys.length
  le₁ : n₀ ≤ n₁
  out : ∀ x, x ∉ args → σ₁ x = σ x
  sub : ∀ (i : Nat) x y, args[i]? = some x → ys[i]? = some y → σ₁ x = y
  wraps : Wraps n₁ n₂ ζ σ₁ Bf Bw σ₂
  body : LE k n₂ (P ∪ xs.toFinset) ζ σ₂ e e'

theorem LL.names {k n P ζ σ args Bf} : ∀ {B B' : Defs}, LL k n P ζ σ args Bf B B' → ∀ g ∈ B'.names, ∃ f ∈ B.names, ∃ ft',
    ζ f = some (g, ft', args) := by
  intro B
  induction B using Defs.ind generalizing n with
  | nil => intro B' h g hg; cases h; simp [Defs.names] at hg
  | cons f ft xs e B ih =>
    intro B' h g hg
    cases h with
    | cons hz _ _ _ _ _ _ _ _ _ _ _ hB =>
      simp only [Defs.names, List.mem_cons] at hg
      rcases hg with rfl | hg
      · exact ⟨f, by simp [Defs.names], _, hz⟩
      · obtain ⟨f1, h1, h2⟩ := ih hB g hg
        exact ⟨f1, by simp [Defs.names, h1], h2⟩

theorem LL.find {k n P ζ σ args Bf} : ∀ {B B' : Defs} {f ft xs e}, LL k n P ζ σ args Bf B B' →
    findDef f B = some (ft, xs, e) → ∃ f' ft', ζ f = some (f', ft', args) ∧ ∃ n₀ n₁ n₂ σ₁ σ₂ ys Bw e',
      Entry k n P ζ σ args Bf B' xs e f' ft' n₀ n₁ n₂ σ₁ σ₂ ys Bw e' := by
  intro B
  induction B using Defs.ind generalizing n with
  | nil => intro B' f ft xs e _ h; simp [findDef] at h
  | cons f0 ft0 xs0 e0 B ih =>
    intro B' f ft xs e hp h
    cases hp with
    | @cons _ n₁ n₂ m _ _ _ σ₁ σ₂ _ _ _ _ _ _ _ f' ft' ys Bw e' B1 hz hn hx hy hnd hl hle ho hs hw he hm hB =>
      simp only [findDef] at h
      split at h
      · next hff =>
        cases h; subst hff
        exact ⟨f', ft', hz, n, n₁, n₂, σ₁, σ₂, ys, Bw, e', ⟨le_rfl, by simp [findDef], hx, hy, hnd, hl, hle, ho, hs, hw, he⟩⟩
      · next hff =>
        obtain ⟨g', gt', h1, a, b, c, d, e1, f1, g1, i1, hE⟩ := ih hB h
        refine ⟨g', gt', h1, a, b, c, d, e1, f1, g1, i1, { hE with le := hm.trans hE.le, find := ?_ }⟩
        have : ¬ g' = f' := fun h => hn (h ▸ findDef_mem hE.find)
        simp only [findDef, if_neg this, hE.find]

/-! ## Bundles and calls -/

theorem Lifts.so' {k n n₁ P ζ ζ' σ args B B'} (h : Lifts k n n₁ P ζ ζ' σ args B B') :
    SOk k n₁ (P ∪ B.names.toFinset) ζ' σ where
  kn := h.so.kn.trans h.le
  sig y := (h.so.sig y).imp_right fun hy => ⟨by simp [hy.1], hy.2.1, hy.2.2.trans_le h.le⟩
  bnd y hy := by
    simp only [Finset.mem_union, List.mem_toFinset] at hy
    exact hy.elim (h.so.bnd y) fun hy => (h.names y hy).2
  known f f' ft' as hz := by
    by_cases hf : f ∈ B.names
    · obtain ⟨g, gt, h1, h2, h3⟩ := h.ins f hf
      rw [hz] at h1; cases h1
      exact ⟨by simp [hf], fun x hx => by simp [h.argsIn x hx], h.so.kn.trans h2, h3⟩
    · rw [h.out f hf] at hz
      obtain ⟨h1, h2, h3, h4⟩ := h.so.known f f' ft' as hz
      exact ⟨by simp [h1], fun x hx => by simp [h2 x hx], h3, h4.trans_le h.le⟩

/-- The names of a lifted bundle. -/
theorem Lifts.tnames {k n n₁ P ζ ζ' σ args B B'} (h : Lifts k n n₁ P ζ ζ' σ args B B') : ∀ g ∈ B'.names, n ≤ g := by
  intro g hg
  obtain ⟨f, hf, ft', hz⟩ := h.bodies.names g hg
  obtain ⟨g', gt', h1, h2, _⟩ := h.ins f hf
  rw [hz] at h1; cases h1
  exact h2

/-- Every function of the bundle has its lifted form. -/
theorem Lifts.entry {k n n₁ P ζ ζ' σ args B B'} (h : Lifts k n n₁ P ζ ζ' σ args B B') {f f' ft' as} (hf : f ∈ B.names)
    (hz : ζ' f = some (f', ft', as)) : f' ∈ B'.names ∧ as = args ∧ n ≤ f' ∧ f' < n₁ := by
  obtain ⟨⟨ft, xs, e⟩, hd⟩ := findDef_some hf
  obtain ⟨g', gt', h1, _, _, _, _, _, _, _, _, hE⟩ := h.bodies.find hd
  obtain ⟨g2, gt2, h2, h3, h4⟩ := h.ins f hf
  rw [hz] at h1 h2
  cases h1; cases h2
  exact ⟨findDef_mem hE.find, rfl, h3, h4⟩

/-- The known functions after a lifted bundle. -/
theorem lift_fns {k n n₁ P ζ ζ' σ args B B'} (h : Lifts k n n₁ P ζ ζ' σ args B B') {ρ ρ' r r' : Env} (hi : Inv k P ζ σ ρ ρ')
    (hr : ∀ x ∈ P, r x = ρ x) (hn : ∀ f ∈ B.names, r f = some (.fn ρ B f))
    (ht : ∀ f' ∈ B'.names, r' f' = some (.fn ρ' B' f'))
    (hk : ∀ f f' ft' as, ζ f = some (f', ft', as) → r' f' = ρ' f') :
    ∀ f f' ft' as, ζ' f = some (f', ft', as) → ∃ ρh Bh ρt Bt, r f = some (.fn ρh Bh f) ∧
      r' f' = some (.fn ρt Bt f') ∧ (∀ x ∈ as, ρh x = r x) ∧ KV k as ρh Bh f ρt Bt f' ft' := by
  intro f f' ft' as hz
  by_cases hf : f ∈ B.names
  · obtain ⟨h1, rfl, _⟩ := h.entry hf hz
    refine ⟨ρ, B, ρ', B', hn f hf, ht f' h1, fun x hx => (hr x (h.argsIn x hx)).symm, ?_⟩
    exact .mk h hf hz hi.dom hi.dom' hi.rel hi.fns' hi.kvs
  · rw [h.out f hf] at hz
    obtain ⟨ρh, Bh, ρt, Bt, h1, h2, h3, h4⟩ := hi.fns f f' ft' as hz
    obtain ⟨k1, k2, _⟩ := h.so.known f f' ft' as hz
    exact ⟨ρh, Bh, ρt, Bt, by rw [hr f k1, h1], by rw [hk f f' ft' as hz, h2], fun x hx => by rw [h3 x hx, hr x (k2 x hx)], h4⟩

theorem Wraps.so {k lo hi Q ζ σ σ' B Bw} (w : Wraps lo hi ζ σ B Bw σ') (so : SOk k lo Q ζ σ) (hB : ∀ f ∈ B.names, f ∈ Q) :
    SOk k hi Q ζ σ' where
  kn := so.kn.trans w.le
  sig y := by
    by_cases hy : y ∈ B.names
    · obtain ⟨⟨ft, xs, e⟩, hd⟩ := findDef_some hy
      obtain ⟨_, _, _, _, _, h1, _⟩ := w.find y ft xs e hd
      exact .inr ⟨hB y hy, so.kn.trans h1.1, h1.2⟩
    · rw [w.out y hy]
      exact (so.sig y).imp_right fun h => ⟨h.1, h.2.1, h.2.2.trans_le w.le⟩
  bnd := so.bnd
  known f f' ft' as hz := by
    obtain ⟨h1, h2, h3, h4⟩ := so.known f f' ft' as hz
    exact ⟨h1, h2, h3, h4.trans_le w.le⟩

/-- Binding the wrappers establishes the invariant. -/
theorem wrap_inv {k lo hi Q ζ σ σ' B Bw} (w : Wraps lo hi ζ σ B Bw σ') (so : SOk k lo Q ζ σ) {ρ r r' : Env}
    (hB : ∀ f ∈ B.names, r f = some (.fn ρ B f))
    (hargs : ∀ f ∈ B.names, ∀ f' ft' as, ζ f = some (f', ft', as) → ∀ x ∈ as, x ∉ B.names)
    (henv : ∀ x ∈ Q, x ∉ B.names → ∃ v v', r x = some v ∧ r' (σ x) = some v' ∧ VR k v v')
    (hfns : ∀ f f' ft' as, ζ f = some (f', ft', as) → ∃ ρh Bh ρt Bt, r f = some (.fn ρh Bh f) ∧
      r' f' = some (.fn ρt Bt f') ∧ (∀ x ∈ as, ρh x = r x) ∧ KV k as ρh Bh f ρt Bt f' ft') :
    Inv k Q ζ σ' r (defFuns Bw Bw r' r') := by
  have hlt : ∀ y, y < lo → defFuns Bw Bw r' r' y = r' y := fun y hy =>
    defFuns_not_mem fun h => by have := w.names y h; vomega
  constructor
  · intro x hx
    by_cases hn : x ∈ B.names
    · obtain ⟨⟨ft, xs, e⟩, hd⟩ := findDef_some hn
      obtain ⟨f', ft', args, xs', hz, h1, h2, h3, h4, h5⟩ := w.find x ft xs e hd
      obtain ⟨ρh, Bh, ρt, Bt, k1, k2, k3, k4⟩ := hfns x f' ft' args hz
      rw [hB x hn] at k1; cases k1
      obtain ⟨_, ka, kb, kc⟩ := so.known x f' ft' args hz
      have hsrc : ∃ us, getList r args = some us := by
        have : ∀ as : List Var, (∀ y ∈ as, ∃ v, r y = some v) → ∃ us, getList r as = some us := by
          intro as
          induction as with
          | nil => intro _; exact ⟨[], rfl⟩
          | cons a as ih =>
            intro h
            obtain ⟨v, hv⟩ := h a (by simp)
            obtain ⟨us, hu⟩ := ih fun y hy => h y (by simp [hy])
            exact ⟨v :: us, by simp only [getList, hv, hu]⟩
        exact this args fun y hy => let ⟨v, _, h, _⟩ := henv y (ka y hy) (hargs x hn f' ft' args hz y hy); ⟨v, h⟩
      obtain ⟨us, hus⟩ := hsrc
      have hl : Looks (VR k) r r' args (args.map σ) := by
        refine Looks.map fun y hy v hv => ?_
        obtain ⟨u, u', h6, h7, h8⟩ := henv y (ka y hy) (hargs x hn f' ft' args hz y hy)
        rw [hv] at h6; cases h6
        exact ⟨u', h7, h8⟩
      obtain ⟨ws, hws, hrel⟩ := hl us hus
      refine ⟨_, .fn r' Bw (σ' x), hB x hn, defFuns_mem (findDef_mem h2), ?_⟩
      refine .wrap k4 h2 ?_ k2 ⟨?_, ?_⟩ ?_ h4 hws ?_ ?_
      · intro t ys e' hd'
        rw [hd] at hd'; cases hd'
        exact ⟨rfl, h3⟩
      · intro h; have := w.names f' h; vomega
      · intro h; have := h5 f' h; vomega
      · intro z hz'
        obtain ⟨y, hy, rfl⟩ := List.mem_map.mp hz'
        have := so.lt (ka y hy)
        refine ⟨fun h => ?_, fun h => ?_⟩
        · have := w.names _ h; vomega
        · have := h5 _ h; vomega
      · rw [← hrel.1, getList_length hus]
      · intro i y v u h6 h7 h8
        rw [k3 y (List.mem_of_getElem? h6)] at h7
        have := getList_nth hus h6
        rw [h7] at this
        exact hrel.2 i v u this.symm h8
    · obtain ⟨v, v', h1, h2, h3⟩ := henv x hx hn
      rw [w.out x hn, hlt _ (so.lt hx)]
      exact ⟨v, v', h1, h2, h3⟩
  · intro f f' ft' as hz
    rw [hlt _ (so.known f f' ft' as hz).2.2.2]
    exact hfns f f' ft' as hz

/-- A source and a target term in related environments. -/
def Body (k : Nat) (ρ : Env) (e : Exp) (ρ' : Env) (e' : Exp) : Prop :=
  ∃ n P ζ σ, SOk k n P ζ σ ∧ LE k n P ζ σ e e' ∧ Inv k P ζ σ ρ ρ'

theorem keep_inv {k n P ζ σ} {ρ ρ' : Env} {B B' : Defs} (so : SOk k n P ζ σ) (hi : Inv k P ζ σ ρ ρ')
    (names : ∀ f ∈ B.names, f ∉ P ∧ f < k) (ld : LD k n (P ∪ B.names.toFinset) ζ σ B B') :
    Inv k (P ∪ B.names.toFinset) ζ σ (defFuns B B ρ ρ) (defFuns B' B' ρ' ρ') := by
  have hn := ld.names
  refine hi.grow so ?_ ?_ ?_ ?_
  · intro x hx hp
    have hx : x ∈ B.names := by simpa [hp] using hx
    exact ⟨so.out hp, _, _, defFuns_mem hx, defFuns_mem (hn ▸ hx), .fn so names ld hi.dom hi.dom' hi.rel hi.fns' hi.kvs⟩
  · intro x hx; exact defFuns_not_mem fun h => (names x h).1 hx
  · intro x hx
    refine defFuns_not_mem fun h => ?_
    rw [hn] at h
    exact so.sep hx (names _ h).1 (names _ h).2 rfl
  · intro g h' ht' as hz
    refine defFuns_not_mem fun h => ?_
    rw [hn] at h
    have := (names _ h).2
    have := (so.known g h' ht' as hz).2.2.1
    vomega

theorem SOk.union {k n P ζ σ} (h : SOk k n P ζ σ) {xs : List Var} (hx : ∀ x ∈ xs, x < k) : SOk k n (P ∪ xs.toFinset) ζ σ :=
  h.grow (fun x hx => by simp [hx]) (fun x h1 h2 => hx x (by simpa [h2] using h1))

theorem SOk.insert {k n P ζ σ} (h : SOk k n P ζ σ) {x : Var} (hx : x < k) : SOk k n (insert x P) ζ σ :=
  h.grow (fun x hx => by simp [hx]) (fun y h1 h2 => by
    have : y = x := by simpa [h2] using h1
    rw [this]; exact hx)

/-- Calling a lifted function with the values of its variables. -/
theorem kv_apply {k args ρ B f ρt Bt f' ft'} (h : KV k args ρ B f ρt Bt f' ft') {ft vs vs' ws ρ₁ e₁}
    (ha : applyV (.fn ρ B f) ft vs = some (ρ₁, e₁)) (hv : All2 (VR k) vs vs') (hl : args.length = ws.length)
    (hw : ∀ (i : Nat) x v w, args[i]? = some x → ρ x = some v → ws[i]? = some w → VR k v w) :
    ∃ ρ₁' Bw e', applyV (.fn ρt Bt f') ft' (vs' ++ ws) = some (ρ₁', .fn Bw e') ∧
      Body k ρ₁ e₁ (defFuns Bw Bw ρ₁' ρ₁') e' := by
  cases h with
  | @mk n n₁ P ζ ζ' σ _ _ _ _ _ _ _ _ hL hf zf dom dom' rel fns kvs =>
    have hi : Inv k P ζ σ ρ ρt := .of dom dom' rel fns kvs
    obtain ⟨xs, ρ₂, e₂, h1, h2, h3⟩ := applyV_some ha
    cases h3
    obtain ⟨g', gt', hz, n₀, N₁, N₂, σ₁, σ₂, ys, Bw, e', hE⟩ := hL.bodies.find h1
    rw [zf] at hz; cases hz
    obtain ⟨ρa, ha1⟩ := setLists_exists (xs := ys) (vs := ws) (defFuns Bt Bt ρt ρt) (by rw [← hE.len, hl])
    obtain ⟨ρ₁', ha2⟩ := setLists_exists (xs := xs) (vs := vs') ρa (by rw [setLists_len h2, hv.1])
    refine ⟨ρ₁', Bw, e', applyV_eq hE.find (setLists_append ha1 ha2), ?_⟩
    have so' := hL.so'
    have hn₀ : n₁ ≤ n₀ := hE.le
    have hkn := hL.so.kn
    have hnn := hL.le
    have hn01 := hE.le₁
    have hargs' : ∀ x ∈ args, x ∉ B.names := fun x hx h => (hL.names x h).1 (hL.argsIn x hx)
    have hxs : ∀ x ∈ xs, x ∉ P ∧ x ∉ B.names ∧ x < k := fun x hx => by
      have := hE.params x hx
      simp only [Finset.mem_union, List.mem_toFinset, not_or] at this
      exact ⟨this.1.1, this.1.2, this.2⟩
    -- the renaming in the body
    have hσ : ∀ x ∈ args, ∃ i : Nat, ∃ y, args[i]? = some x ∧ ys[i]? = some y ∧ σ₁ x = y := by
      intro x hx
      obtain ⟨i, hi'⟩ := List.getElem?_of_mem hx
      have hlt := (List.getElem?_eq_some_iff.1 hi').1
      rw [hE.len] at hlt
      exact ⟨i, _, hi', List.getElem?_eq_getElem hlt, hE.sub i x _ hi' (List.getElem?_eq_getElem hlt)⟩
    have so1 : SOk k N₁ (P ∪ B.names.toFinset) ζ' σ₁ := by
      constructor
      · vomega
      · intro y
        by_cases hy : y ∈ args
        · obtain ⟨i, z, _, h5, h6⟩ := hσ y hy
          have := hE.fresh z (List.mem_of_getElem? h5)
          rw [h6]
          refine .inr ⟨by simp [hL.argsIn y hy], ?_, this.2⟩
          vomega
        · rw [hE.out y hy]
          refine (so'.sig y).imp_right fun h => ⟨h.1, h.2.1, ?_⟩
          have := h.2.2; vomega
      · exact so'.bnd
      · intro h h' ht' as hz
        obtain ⟨a, b, c, d⟩ := so'.known h h' ht' as hz
        exact ⟨a, b, c, by vomega⟩
    have so2 := so1.union (xs := xs) fun x hx => (hxs x hx).2.2
    -- lookups in the target
    have tl : ∀ y, y < n₀ → y ∉ xs → ρ₁' y = defFuns Bt Bt ρt ρt y := by
      intro y hy hx
      rw [setLists_not_mem ha2 y hx]
      exact setLists_not_mem ha1 y fun h => by have := (hE.fresh y h).1; vomega
    have sl : ∀ y, y ∉ xs → ρ₁ y = defFuns B B ρ ρ y := fun y hy => setLists_not_mem h2 y hy
    have slP : ∀ x ∈ P, ρ₁ x = ρ x := fun x hx => by
      rw [sl x fun h => (hxs x h).1 hx]
      exact defFuns_not_mem fun h => (hL.names x h).1 hx
    have tlP : ∀ y, y < n → y ∉ xs → ρ₁' y = ρt y := fun y hy hx => by
      rw [tl y (by vomega) hx]
      exact defFuns_not_mem fun h => by have := hL.tnames y h; vomega
    refine ⟨N₂, _, ζ', σ₂, hE.wraps.so so2 (fun f hf => by simp [hf]), hE.body,
      wrap_inv hE.wraps so2 (ρ := ρ) ?_ ?_ ?_ ?_⟩
    · intro g hg
      rw [sl g fun h => (hxs g h).2.1 hg]
      exact defFuns_mem hg
    · intro g hg g' gt' as hz x hx
      obtain ⟨_, rfl, _⟩ := hL.entry hg hz
      exact hargs' x hx
    · intro x hx hn
      simp only [Finset.mem_union, List.mem_toFinset, or_assoc] at hx
      by_cases hxx : x ∈ xs
      · have hσx : σ₁ x = x := by
          rw [hE.out x fun h => (hxs x hxx).1 (hL.argsIn x h)]
          exact hL.so.out (hxs x hxx).1
        rw [hσx]
        obtain ⟨i, hi', h4⟩ := setLists_mem h2 x hxx
        obtain ⟨v, hiv⟩ : ∃ v, vs[i]? = some v := by
          have hlt := (List.getElem?_eq_some_iff.1 hi').1
          rw [setLists_len h2] at hlt
          exact ⟨_, List.getElem?_eq_getElem hlt⟩
        rw [hiv] at h4
        have h0 : ERel (VR k) (fun _ => False) id (defFuns B B ρ ρ) ρa := fun x hx => hx.elim
        obtain ⟨ρ₃, hr, hrel⟩ := h0.setLists hv h2
        rw [ha2] at hr; cases hr
        obtain ⟨v', h5, h6⟩ := hrel x (.inl hxx) v h4
        exact ⟨v, v', h4, h5, h6⟩
      · have hP : x ∈ P := by
          rcases hx with h | h | h
          · exact h
          · exact absurd h hn
          · exact absurd h hxx
        rw [slP x hP]
        by_cases hxa : x ∈ args
        · obtain ⟨i, y, h4, h5, h6⟩ := hσ x hxa
          obtain ⟨v, hv'⟩ := dom x hP
          have hfr := hE.fresh y (List.mem_of_getElem? h5)
          have hwi : ρ₁' y = ws[i]? := by
            rw [setLists_not_mem ha2 y fun h => by have := (hxs y h).2.2; vomega]
            exact setLists_nth ha1 hE.nodup h5
          obtain ⟨u, hu⟩ : ∃ u, ws[i]? = some u := by
            have hlt := (List.getElem?_eq_some_iff.1 h4).1
            rw [hl] at hlt
            exact ⟨_, List.getElem?_eq_getElem hlt⟩
          exact ⟨v, u, hv', by rw [h6, hwi, hu], hw i x v u h4 hv' hu⟩
        · rw [hE.out x hxa, tlP _ (hL.so.lt hP) fun h => hL.so.sep hP (hxs _ h).1 (hxs _ h).2.2 rfl]
          exact hi.env x hP
    · refine lift_fns hL hi slP ?_ ?_ ?_
      · intro g hg
        rw [sl g fun h => (hxs g h).2.1 hg]
        exact defFuns_mem hg
      · intro g hg
        obtain ⟨g0, hg0, gt0, hz0⟩ := hL.bodies.names g hg
        have hb := (hL.entry hg0 hz0).2.2
        rw [tl g (by vomega) fun h => by have := (hxs g h).2.2; vomega]
        exact defFuns_mem hg
      · intro g g' gt' as hz
        obtain ⟨_, _, h4, h5⟩ := hL.so.known g g' gt' as hz
        exact tlP g' h5 fun h => by have := (hxs g' h).2.2; vomega

/-- How the call bounds of the two sides are related. -/
abbrev Lev := Unc.Lev

/-- Related calls: of values, and of known functions. -/
structure CallOk (S : Sig) (b : Bool) (k n m : Nat) : Prop where
  val : ∀ v v' ft vs vs', VR k v v' → All2 (VR k) vs vs' → ∀ ρ₁ e₁, applyV v ft vs = some (ρ₁, e₁) →
    ∃ ρ₁' e₁', applyV v' ft vs' = some (ρ₁', e₁') ∧ FRel b (VR k) (callAt S n ρ₁ e₁) (callAt S m ρ₁' e₁')
  known : ∀ args ρ B f ρt Bt f' ft' ft vs vs' ws ρ₁ e₁, KV k args ρ B f ρt Bt f' ft' →
    applyV (.fn ρ B f) ft vs = some (ρ₁, e₁) → All2 (VR k) vs vs' → args.length = ws.length →
    (∀ (i : Nat) x v w, args[i]? = some x → ρ x = some v → ws[i]? = some w → VR k v w) →
    ∃ ρ₁' e₁', applyV (.fn ρt Bt f') ft' (vs' ++ ws) = some (ρ₁', e₁') ∧
      FRel b (VR k) (callAt S n ρ₁ e₁) (callAt S m ρ₁' e₁')

theorem CallOk.callee {S b k n m} (h : CallOk S b k n m) {N P ζ σ} {ρ ρ' : Env} (so : SOk k N P ζ σ)
    (hi : Inv k P ζ σ ρ ρ') {f ft ys g gt zs} (hc : Call P ζ σ f ft ys g gt zs) : ∀ ρ₁ e₁, callee ρ f ft ys = some (ρ₁, e₁) →
      ∃ ρ₁' e₁', callee ρ' g gt zs = some (ρ₁', e₁') ∧ FRel b (VR k) (callAt S n ρ₁ e₁) (callAt S m ρ₁' e₁') := by
  intro ρ₁ e₁ hce
  obtain ⟨v, vs, h1, h2, h3⟩ := callee_applyV.mp hce
  obtain ⟨hf, hys, hc⟩ := hc
  obtain ⟨vs', h2', hrs⟩ := hi.looks hys vs h2
  rcases hc with ⟨rfl, rfl, rfl⟩ | ⟨args, hz, rfl⟩
  · obtain ⟨v', h1', hr⟩ := hi.look hf v h1
    obtain ⟨ρ₁', e₁', h3', hb⟩ := h.val v v' gt vs vs' hr hrs ρ₁ e₁ h3
    exact ⟨ρ₁', e₁', callee_applyV.mpr ⟨v', vs', h1', h2', h3'⟩, hb⟩
  · obtain ⟨ρh, Bh, ρt, Bt, k1, k2, k3, k4⟩ := hi.fns f g gt args hz
    rw [h1] at k1; cases k1
    obtain ⟨_, ka, _, _⟩ := so.known f g gt args hz
    obtain ⟨us, hus⟩ : ∃ us, getList ρ args = some us := by
      have : ∀ as : List Var, (∀ y ∈ as, y ∈ P) → ∃ us, getList ρ as = some us := by
        intro as
        induction as with
        | nil => intro _; exact ⟨[], rfl⟩
        | cons a as ih =>
          intro h
          obtain ⟨v, hv⟩ := hi.dom a (h a (by simp))
          obtain ⟨us, hu⟩ := ih fun y hy => h y (by simp [hy])
          exact ⟨v :: us, by simp only [getList, hv, hu]⟩
      exact this args ka
    obtain ⟨ws, hws, hrel⟩ := hi.looks ka us hus
    obtain ⟨ρ₁', e₁', h3', hb⟩ := h.known args ρh Bh f ρt Bt g gt ft vs vs' ws ρ₁ e₁ k4 h3 hrs
      (by rw [← hrel.1, getList_length hus]) (by
        intro i x v w h4 h5 h6
        rw [k3 x (List.mem_of_getElem? h4)] at h5
        have := getList_nth hus h4
        rw [h5] at this
        exact hrel.2 i v w this.symm h6)
    refine ⟨ρ₁', e₁', callee_applyV.mpr ⟨_, _, k2, ?_, h3'⟩, hb⟩
    rw [List.map_append]
    exact getList_append h2' hws

theorem sim_exp {S b k n m} (hcall : CallOk S b k n m) : ∀ {e e' : Exp} {N P ζ σ}, LE k N P ζ σ e e' → SOk k N P ζ σ →
    ∀ {ρ ρ' : Env}, Inv k P ζ σ ρ ρ' → FRel b (VR k) (evalE S (callAt S n) e ρ) (evalE S (callAt S m) e' ρ')
  | .constr x t ys e, _, _, _, _, _, .constr hx hk hy he, so, ρ, ρ', hi => by
    refine flex_constr (VR.data k) (hi.looks hy) ?_
    intro vs vs' _ _ hr
    exact sim_exp hcall he (so.insert hk) (hi.set so hx hk hr)
  | .case x bs, _, _, _, _, _, .case hx hb, so, ρ, ρ', hi => by
    refine flex_case (VR.data k) (hi.look hx) hb.tags ?_
    intro t vs e _ hf
    obtain ⟨M, e', hm, hf', he⟩ := hb.find hf
    have hsz : sizeOf e < sizeOf bs := findTag_sizeOf hf
    exact ⟨e', hf', sim_exp hcall he (so.mono hm) hi⟩
  | .proj x t i y e, _, _, _, _, _, .proj hx hk hy he, so, ρ, ρ', hi => by
    refine flex_proj (VR.data k) (hi.look hy) ?_
    intro v v' hr
    exact sim_exp hcall he (so.insert hk) (hi.set so hx hk hr)
  | .letapp x f ft ys e, _, _, _, _, _, .letapp hx hk hc he, so, ρ, ρ', hi => by
    refine flex_letapp (hcall.callee so hi hc) ?_
    intro v v' hr
    exact sim_exp hcall he (so.insert hk) (hi.set so hx hk hr)
  | .fn B e, _, _, _, _, _, .keep hn hm hB he, so, ρ, ρ', hi => by
    simp only [evalE]
    exact sim_exp hcall he ((so.union fun f hf => (hn f hf).2).mono hm) (keep_inv so hi hn hB)
  | .fn B e, _, _, P, _, _, @LE.lift _ _ _ _ _ _ _ _ _ _ _ _ _ _ _ _ hn ha ho hin hle hB h12 hw he, so, ρ, ρ', hi => by
    have hL : Lifts k _ _ _ _ _ _ _ B _ := ⟨so, hle, hn, ha, ho, hin, hB⟩
    have so' := hL.so'.mono h12
    simp only [evalE]
    refine sim_exp hcall he (hw.so so' fun f hf => by simp [hf]) (wrap_inv hw so' (ρ := ρ) ?_ ?_ ?_ ?_)
    · intro f hf; exact defFuns_mem hf
    · intro f hf f' ft' as hz x hx h
      obtain ⟨_, rfl, _⟩ := hL.entry hf hz
      exact (hn x h).1 (ha x hx)
    · intro x hx hxn
      have hP : x ∈ P := by simpa [hxn] using hx
      rw [defFuns_not_mem hxn, defFuns_not_mem fun h => by
        have := hL.tnames _ h; have := so.lt hP; vomega]
      exact hi.env x hP
    · refine lift_fns hL hi ?_ ?_ ?_ ?_
      · intro x hx; exact defFuns_not_mem fun h => (hn x h).1 hx
      · intro f hf; exact defFuns_mem hf
      · intro f hf; exact defFuns_mem hf
      · intro f f' ft' as hz
        have := (so.known f f' ft' as hz).2.2.2
        exact defFuns_not_mem fun h => by have := hL.tnames _ h; vomega
  | .app f ft ys, _, _, _, _, _, .app hc, so, ρ, ρ', hi => flex_app (hcall.callee so hi hc)
  | .primVal x p e, _, _, _, _, _, .primVal hx hk he, so, ρ, ρ', hi => by
    refine flex_primVal (VR.data k) ?_
    intro hr
    exact sim_exp hcall he (so.insert hk) (hi.set so hx hk hr)
  | .prim x p ys e, _, _, _, _, _, .prim hx hk hy he, so, ρ, ρ', hi => by
    refine flex_prim (VR.data k) (hi.looks hy) ?_
    intro v hr
    exact sim_exp hcall he (so.insert hk) (hi.set so hx hk hr)
  | .halt x, _, _, _, _, _, .halt hx, so, ρ, ρ', hi => flex_halt (hi.look hx)
termination_by e => sizeOf e

/-- Calling a wrapper calls the lifted function. -/
theorem wrap_apply {k} {args : List Var} {ρ : Env} {B : Defs} {f : Var} {ρw : Env} {Bw : Defs} {g : Var} {ft₀ : Tag}
    {xs' zs : List Var} {ws : List Val} {f' ft' ρt Bt} {ft vs vs' ρ₁ e₁} (kv : KV k args ρ B f ρt Bt f' ft')
    (find : findDef g Bw = some (ft₀, xs', .app f' ft' (xs' ++ zs)))
    (par : ∀ t xs e, findDef f B = some (t, xs, e) → t = ft₀ ∧ xs.length = xs'.length)
    (lk : ρw f' = some (.fn ρt Bt f')) (hf : f' ∉ Bw.names ∧ f' ∉ xs') (hz : ∀ z ∈ zs, z ∉ Bw.names ∧ z ∉ xs')
    (nd : xs'.Nodup) (ga : getList ρw zs = some ws)
    (ha : applyV (.fn ρ B f) ft vs = some (ρ₁, e₁)) (hv : All2 (VR k) vs vs') :
    ∃ ρ₁', applyV (.fn ρw Bw g) ft vs' = some (ρ₁', .app f' ft' (xs' ++ zs)) ∧
      ∀ r, applyV (.fn ρt Bt f') ft' (vs' ++ ws) = some r → callee ρ₁' f' ft' (xs' ++ zs) = some r := by
  obtain ⟨xs, ρ₂, e₂, h1, h2, h3⟩ := applyV_some ha
  obtain ⟨rfl, h4⟩ := par _ _ _ h1
  obtain ⟨ρ₁', h5⟩ := setLists_exists (xs := xs') (vs := vs') (defFuns Bw Bw ρw ρw) (by rw [← h4, setLists_len h2, hv.1])
  refine ⟨ρ₁', applyV_eq find h5, fun r hr => callee_applyV.mpr ⟨_, _, ?_, getList_append (getList_setLists h5 nd) ?_, hr⟩⟩
  · rw [setLists_not_mem h5 f' hf.2, defFuns_not_mem hf.1, lk]
  · rw [← ga]
    exact getList_congr fun z hz' => by rw [setLists_not_mem h5 z (hz z hz').2, defFuns_not_mem (hz z hz').1]

/-- Calling a function that was not lifted. -/
theorem fn_apply {k n P ζ σ} {ρ ρ' : Env} {B B' : Defs} {f : Var} (so : SOk k n P ζ σ) (hi : Inv k P ζ σ ρ ρ')
    (names : ∀ f ∈ B.names, f ∉ P ∧ f < k) (ld : LD k n (P ∪ B.names.toFinset) ζ σ B B') {ft vs vs' ρ₁ e₁}
    (ha : applyV (.fn ρ B f) ft vs = some (ρ₁, e₁)) (hv : All2 (VR k) vs vs') :
    ∃ ρ₁' e₁', applyV (.fn ρ' B' f) ft vs' = some (ρ₁', e₁') ∧ Body k ρ₁ e₁ ρ₁' e₁' := by
  obtain ⟨xs, ρ₂, e₂, h1, h2, h3⟩ := applyV_some ha
  cases h3
  obtain ⟨m, e', hm, h4, hx, he⟩ := ld.find h1
  have so' := so.union (xs := B.names) fun f hf => (names f hf).2
  obtain ⟨ρ₁', h5, h6⟩ := (keep_inv so hi names ld).setLists so' hx hv h2
  exact ⟨ρ₁', e', applyV_eq h4 h5, m, _, ζ, σ, (so'.union fun x h => (hx x h).2).mono hm, he, h6⟩

theorem callOk (S : Sig) (b : Bool) (k : Nat) : ∀ n m, Lev b n m → CallOk S b k n m := by
  intro n
  induction n with
  | zero =>
    intro m hl
    have fin : ∀ ρ₁ e₁ ρ₁' e₁', FRel b (VR k) (callAt S 0 ρ₁ e₁) (callAt S m ρ₁' e₁') := by
      intro ρ₁ e₁ ρ₁' e₁'
      cases b with
      | false => exact FRel.free
      | true =>
        have : m = 0 := by simpa [Lev, Unc.Lev] using hl
        subst this
        exact FRel.oot
    constructor
    · intro v v' ft vs vs' hr hrs ρ₁ e₁ ha
      cases hr with
      | constr => simp [applyV] at ha
      | prim => simp [applyV] at ha
      | fn so names ld dom dom' rel fns kvs =>
        obtain ⟨ρ₁', e₁', h, _⟩ := fn_apply so (.of dom dom' rel fns kvs) names ld ha hrs
        exact ⟨ρ₁', e₁', h, fin ..⟩
      | wrap kv find par lk hf hz nd ga len arel =>
        obtain ⟨ρ₁', h, _⟩ := wrap_apply kv find par lk hf hz nd ga ha hrs
        exact ⟨ρ₁', _, h, fin ..⟩
    · intro args ρ B f ρt Bt f' ft' ft vs vs' ws ρ₁ e₁ kv ha hv hl hw
      obtain ⟨ρ₁', Bw, e', h, _⟩ := kv_apply kv ha hv hl hw
      exact ⟨ρ₁', _, h, fin ..⟩
  | succ n ih =>
    intro m hl
    have step : ∀ M {e e' : Exp} {ρ ρ' : Env}, (M = 0 → b = true) → (∀ M', M = M' + 1 → Lev b n M') → Body k ρ e ρ' e' →
        FRel b (VR k) (callAt S (n + 1) ρ e) (callAt S M ρ' e') := by
      intro M e e' ρ ρ' hz hM hb
      cases M with
      | zero => rw [hz rfl]; exact FRel.oot
      | succ M =>
        obtain ⟨N, P, ζ, σ, so, he, hi⟩ := hb
        simp only [callAt, run_callAt]
        exact sim_exp (ih M (hM M rfl)) he so hi
    have stepK : ∀ M {e e' : Exp} {ρ ρ' : Env} {Bw}, (M = 0 → b = true) → (∀ M', M = M' + 1 → Lev b n M') →
        Body k ρ e (defFuns Bw Bw ρ' ρ') e' → FRel b (VR k) (callAt S (n + 1) ρ e) (callAt S M ρ' (.fn Bw e')) := by
      intro M e e' ρ ρ' Bw hz hM hb
      have := step M hz hM hb
      cases M with
      | zero => exact this
      | succ M => simpa only [callAt, run_callAt, evalE] using this
    have hm0 : m = 0 → b = true := by
      rintro rfl
      cases b with
      | false => simp [Lev, Unc.Lev] at hl
      | true => rfl
    have hm1 : ∀ M', m = M' + 1 → Lev b n M' := by
      rintro M' rfl
      simp only [Lev, Unc.Lev] at hl ⊢; split at hl <;> simp_all <;> omega
    constructor
    · intro v v' ft vs vs' hr hrs ρ₁ e₁ ha
      cases hr with
      | constr => simp [applyV] at ha
      | prim => simp [applyV] at ha
      | fn so names ld dom dom' rel fns kvs =>
        obtain ⟨ρ₁', e₁', h, hb⟩ := fn_apply so (.of dom dom' rel fns kvs) names ld ha hrs
        exact ⟨ρ₁', e₁', h, step m hm0 hm1 hb⟩
      | @wrap args ρ B f ρt Bt f' ft' ρw Bw g ft₀ xs' zs ws kv find par lk hf hz nd ga len arel =>
        obtain ⟨ρ₁', h, hc⟩ := wrap_apply kv find par lk hf hz nd ga ha hrs
        refine ⟨ρ₁', _, h, ?_⟩
        obtain ⟨ρ₂', Bw', e', h2, hb⟩ := kv_apply kv ha hrs len arel
        cases m with
        | zero => rw [hm0 rfl]; exact FRel.oot
        | succ m =>
          have : callAt S (m + 1) ρ₁' (.app f' ft' (xs' ++ zs)) = callAt S m ρ₂' (.fn Bw' e') := by
            simp only [callAt, run_callAt, evalE, hc _ h2]
          rw [this]
          refine stepK m ?_ ?_ hb
          · rintro rfl
            cases b with
            | false => simp [Lev, Unc.Lev] at hl; omega
            | true => rfl
          · rintro M' rfl
            simp only [Lev, Unc.Lev] at hl ⊢; split at hl <;> simp_all <;> omega
    · intro args ρ B f ρt Bt f' ft' ft vs vs' ws ρ₁ e₁ kv ha hv hl hw
      obtain ⟨ρ₁', Bw, e', h, hb⟩ := kv_apply kv ha hv hl hw
      exact ⟨ρ₁', _, h, stepK m hm0 hm1 hb⟩

theorem preserves_of_LE {S k n e e'} (h : LE k n ∅ (fun _ => none) id e e') (hk : k ≤ n) : Preserves S e S e' := by
  have so : SOk k n ∅ (fun _ => none) id := ⟨hk, fun _ => .inl rfl, by simp, by simp⟩
  have hi : Inv k ∅ (fun _ => none) id emp emp := ⟨by simp, by simp⟩
  refine preserves_of_flex (R := VR k) (VR.data k).obs ?_ ?_
  · intro n
    refine ⟨2 * n, ?_⟩
    rw [run_callAt, run_callAt]
    exact sim_exp (callOk S false k n (2 * n) (by simp [Lev, Unc.Lev])) h so hi
  · intro m
    refine ⟨m, ?_⟩
    rw [run_callAt, run_callAt]
    exact sim_exp (callOk S true k m m (by simp [Lev, Unc.Lev])) h so hi

end Ll
end ANF
