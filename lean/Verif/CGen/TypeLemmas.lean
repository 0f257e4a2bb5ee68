import Verif.CGen.TypeSpec
import Verif.CGen.ScopeGen

/-! # The types in generated functions -/

namespace CGen.Text

open ANF
open CPrint (CE CS LS CTy CTys CFn Name SameE SameEs Same SameL)

/-! ## What is read has the same types -/

section
variable {Γ : TEnv} {ext : Bool} {r : CTy}

theorem lvalue_same {a b : CE} (h : SameE a b) : lvalue a = lvalue b := by
  induction h with
  | trans _ _ ih1 ih2 => exact ih1.trans ih2
  | field _ _ ih => exact ih
  | _ => rfl

theorem addressable_same {a b : CE} (h : SameE a b) : addressable a = addressable b := by
  induction h with
  | trans _ _ ih1 ih2 => exact ih1.trans ih2
  | field _ _ ih => exact ih
  | _ => rfl

theorem hasTy_same {a b : CE} (h : SameE a b) : ∀ t, HasTy Γ a t ↔ HasTy Γ b t := by
  induction h with
  | refl => exact fun _ => Iff.rfl
  | trans _ _ ih1 ih2 => exact fun t => (ih1 t).trans (ih2 t)
  | deref _ ih =>
    exact fun t => ⟨fun | .deref h h' => .deref ((ih _).1 h) h', fun | .deref h h' => .deref ((ih _).2 h) h'⟩
  | field f _ ih =>
    exact fun t => ⟨fun | .field h h' => .field ((ih _).1 h) h', fun | .field h h' => .field ((ih _).2 h) h'⟩
  | unop o _ ih =>
    exact fun t => ⟨fun | .notbool h h' => .notbool ((ih _).1 h) h' | .unop h0 h h' => .unop h0 ((ih _).1 h) h',
      fun | .notbool h h' => .notbool ((ih _).2 h) h' | .unop h0 h h' => .unop h0 ((ih _).2 h) h'⟩
  | addrof hs ih =>
    exact fun t => ⟨fun | .addrof h0 h => .addrof (addressable_same hs ▸ h0) ((ih _).1 h),
      fun | .addrof h0 h => .addrof (addressable_same hs ▸ h0) ((ih _).2 h)⟩
  | binop o _ _ ih1 ih2 =>
    exact fun t => ⟨fun
      | .ptrAdd h1 h2 h3 h4 h5 => .ptrAdd ((ih1 _).1 h1) h2 h3 ((ih2 _).1 h4) h5
      | .ptrSub h1 h2 h3 h4 h5 => .ptrSub ((ih1 _).1 h1) h2 ((ih2 _).1 h3) h4 h5
      | .arith h0 h1 h2 h3 h4 => .arith h0 ((ih1 _).1 h1) h2 ((ih2 _).1 h3) h4
      | .cmp h0 h1 h2 h3 h4 => .cmp h0 ((ih1 _).1 h1) h2 ((ih2 _).1 h3) h4, fun
      | .ptrAdd h1 h2 h3 h4 h5 => .ptrAdd ((ih1 _).2 h1) h2 h3 ((ih2 _).2 h4) h5
      | .ptrSub h1 h2 h3 h4 h5 => .ptrSub ((ih1 _).2 h1) h2 ((ih2 _).2 h3) h4 h5
      | .arith h0 h1 h2 h3 h4 => .arith h0 ((ih1 _).2 h1) h2 ((ih2 _).2 h3) h4
      | .cmp h0 h1 h2 h3 h4 => .cmp h0 ((ih1 _).2 h1) h2 ((ih2 _).2 h3) h4⟩
  | cast t _ ih =>
    exact fun u => ⟨fun | .cast h h1 h2 => .cast ((ih _).1 h) h1 h2, fun | .cast h h1 h2 => .cast ((ih _).2 h) h1 h2⟩
  | fnCast a as va rt =>
    intro u
    constructor
    · intro h
      cases h with
      | cast h h1 h2 => exact HasTy.cast (t := .ptr (.fn as va rt)) h h1 rfl
    · intro h
      cases h with
      | cast h h1 h2 => exact HasTy.cast (t := .fn as va rt) h h1 rfl
  | int =>
    intro u
    constructor
    · intro h
      cases h
      exact HasTy.unop (b := .int) (by decide) .cint rfl
    · intro h
      cases h with
      | unop h0 h h' =>
        cases h
        exact HasTy.cint (u := false)
  | long =>
    intro u
    constructor
    · intro h
      cases h
      exact HasTy.unop (b := .llong) (by decide) .clong rfl
    · intro h
      cases h with
      | unop h0 h h' =>
        cases h
        exact HasTy.clong (u := false)

theorem fit_same {a b : CE} (h : SameE a b) (t : CTy) : Fit ext Γ t a ↔ Fit ext Γ t b :=
  exists_congr fun u => and_congr (hasTy_same h u) Iff.rfl

theorem argsOk_same : ∀ {as bs : List CE}, SameEs as bs → ∀ ts va, ArgsOk ext Γ as ts va ↔ ArgsOk ext Γ bs ts va
  | _, _, .nil, _, _ => Iff.rfl
  | _, _, .cons h hs, .cons t ts, va => and_congr (fit_same h t) (argsOk_same hs ts va)
  | _, _, .cons h hs, .nil, va => by
    refine and_congr Iff.rfl ?_
    have key : ∀ {as bs : List CE}, SameEs as bs → ((∀ e ∈ as, ∃ u, HasTy Γ e u ∧ scalar (decay u) = true) ↔
        ∀ e ∈ bs, ∃ u, HasTy Γ e u ∧ scalar (decay u) = true) := by
      intro as bs h
      induction h with
      | nil => simp
      | cons h _ ih =>
        simp only [List.forall_mem_cons]
        exact and_congr (exists_congr fun u => and_congr (hasTy_same h u) Iff.rfl) ih
    exact key (.cons h hs)

theorem labels_same : ∀ {a b : LS}, SameL a b → labels a = labels b
  | _, _, .nil => rfl
  | _, _, .cons _ _ h => by rw [labels, labels, labels_same h]

mutual
theorem typedS_same : ∀ {a b : CS}, Same a b → (TypedS ext Γ r a ↔ TypedS ext Γ r b)
  | _, _, .refl _ => Iff.rfl
  | _, _, .symm h => (typedS_same h).symm
  | _, _, .trans h h' => (typedS_same h).trans (typedS_same h')
  | _, _, .assign h h' => and_congr (by rw [lvalue_same h]) (exists_congr fun t => and_congr (hasTy_same h t) (fit_same h' t))
  | _, _, .set _ h => exists_congr fun t => and_congr Iff.rfl (fit_same h t)
  | _, _, .temp _ _ => ⟨fun ⟨_, t, h1, h2⟩ => ⟨t, by cases h1; assumption, h2⟩, fun ⟨t, h1, h2⟩ => ⟨rfl, t, .temp h1, h2⟩⟩
  | _, _, .call _ h hs => exists_congr fun u => exists_congr fun ts => exists_congr fun va => exists_congr fun t =>
      and_congr (hasTy_same h u) (and_congr Iff.rfl (and_congr (argsOk_same hs ts va) Iff.rfl))
  | _, _, .ret h => fit_same h r
  | _, _, .seq h h' => and_congr (typedS_same h) (typedS_same h')
  | _, _, .assoc _ _ _ => and_assoc
  | _, _, .skipL _ => ⟨fun h => h.2, fun h => ⟨trivial, h⟩⟩
  | _, _, .skipR _ => ⟨fun h => h.1, fun h => ⟨h, trivial⟩⟩
  | _, _, .ite h h1 h2 => and_congr (exists_congr fun u => and_congr (hasTy_same h u) Iff.rfl) (and_congr (typedS_same h1) (typedS_same h2))
  | _, _, .not e a => ⟨fun ⟨⟨u, h, h'⟩, _, h2⟩ => ⟨⟨_, .notbool h h', rfl⟩, h2, trivial⟩,
      fun ⟨⟨u, h, h'⟩, h2, _⟩ => ⟨by cases h with | notbool h3 h4 => exact ⟨_, h3, h4⟩ | unop h0 _ _ => exact absurd rfl h0, trivial, h2⟩⟩
  | _, _, .switch h h' => and_congr (exists_congr fun i => and_congr (hasTy_same h _) Iff.rfl) (and_congr (by rw [labels_same h']) (typedL_same h'))
theorem typedL_same : ∀ {a b : LS}, SameL a b → (TypedL ext Γ r a ↔ TypedL ext Γ r b)
  | _, _, .nil => Iff.rfl
  | _, _, .cons _ h h' => and_congr (typedS_same h) (typedL_same h')
end

end

/-! ## The types the generator relies on -/

variable {N : Names} {Γ : TEnv} {ext : Bool} {r : CTy} {T : Var → Prop}

/-- What all functions declare, and what the headers do. -/
structure OwnT (N : Names) (Γ : TEnv) (T : Var → Prop) : Prop where
  args : Γ.temps (N.tmp 26) valPtr
  alloc : Γ.temps (N.tmp 28) valPtr
  limit : Γ.temps (N.tmp 29) valPtr
  tinfo : Γ.temps (N.tmp 91) (threadInf N)
  frame : Γ.vars (N.ext 79) (stackframeT N)
  gc : Γ.vars (N.ext 80) (.fn (.cons (threadInf N) .nil) false (.base .void))
  roots : ∃ n, Γ.vars (N.ext 84) (.arr val n)
  fnext : Γ.fields (N.ext 78) (N.ext 87) valPtr
  froot : Γ.fields (N.ext 78) (N.ext 84) valPtr
  fprev : Γ.fields (N.ext 78) (N.ext 89) (.ptr (stackframeT N))
  talloc : Γ.fields (N.ext 31) (N.ext 28) valPtr
  tlimit : Γ.fields (N.ext 31) (N.ext 29) valPtr
  targs : ∃ n, Γ.fields (N.ext 31) (N.ext 26) (.arr val n)
  tfp : Γ.fields (N.ext 31) (N.ext 86) (.ptr (stackframeT N))
  tnalloc : Γ.fields (N.ext 31) (N.ext 92) (.base .ullong)
  temps : ∀ x, T x → Γ.temps (N.tmp x) val

local notation "WS" => TypedS ext Γ val
local notation "WL" => TypedL ext Γ val

theorem assign_val {b : CPrint.Base} (h : isInt b = true) : Assignable ext val (.base b) := .inl ⟨_, _, rfl, rfl, rfl, h⟩
theorem assign_ptr {t : CTy} : Assignable ext (.ptr t) (.ptr t) := .inr (.inl ⟨_, rfl, rfl⟩)

theorem lit_ty (z : Int) : HasTy Γ (lit z) (.base .llong) := HasTy.clong (u := false)
theorem lit_fit (z : Int) : Fit ext Γ val (lit z) := ⟨_, lit_ty z, assign_val rfl⟩

variable (ho : OwnT N Γ T)
include ho

theorem tinf_ty : HasTy Γ (tinf N) (threadInf N) := .temp ho.tinfo

theorem tinf_fit : Fit ext Γ (threadInf N) (tinf N) := ⟨_, tinf_ty ho, assign_ptr⟩

theorem tfield_ty {f : Var} {t : CTy} (h : Γ.fields (N.ext 31) (N.ext f) t) : HasTy Γ (tfield N f) t := .field (.deref (tinf_ty ho) rfl) h

theorem ffield_ty {f : Var} {t : CTy} (h : Γ.fields (N.ext 78) (N.ext f) t) : HasTy Γ (ffield N f) t := .field (.var ho.frame) h

theorem allocP_ty : HasTy Γ (allocP N) valPtr := .temp ho.alloc

theorem limitP_ty : HasTy Γ (limitP N) valPtr := .temp ho.limit

theorem argE_ty (n : Nat) : HasTy Γ (argE N n) val := .deref (.ptrAdd (.temp ho.args) rfl rfl (lit_ty _) rfl) rfl

theorem roots_fit : Fit ext Γ valPtr (roots N) := by
  obtain ⟨n, h⟩ := ho.roots
  exact ⟨_, .var h, assign_ptr⟩

theorem rootE_ty (n : Nat) : HasTy Γ (rootE N n) val := by
  obtain ⟨_, h⟩ := ho.roots
  exact .deref (.ptrAdd (.var h) rfl rfl (lit_ty _) rfl) rfl

theorem tvar_ty {x : Var} (hx : T x) : HasTy Γ (tvar N x) val := .temp (ho.temps x hx)

theorem tvar_fit {x : Var} (hx : T x) : Fit ext Γ val (tvar N x) := ⟨_, tvar_ty ho hx, assign_val rfl⟩

theorem initStack_ty : WS (initStack N) :=
  ⟨⟨rfl, _, ffield_ty ho ho.fnext, roots_fit ho⟩, ⟨rfl, _, ffield_ty ho ho.froot, roots_fit ho⟩,
    ⟨rfl, _, ffield_ty ho ho.fprev, _, tfield_ty ho ho.tfp, assign_ptr⟩⟩

theorem setStack_ty (sp : Nat) (b : Bool) : WS (setStack N sp b) := by
  unfold setStack
  split
  · trivial
  · exact ⟨rfl, _, tfield_ty ho ho.tfp, _, .addrof rfl (.var ho.frame), assign_ptr⟩

theorem updateStack_ty (sp : Nat) : WS (updateStack N sp) := by
  unfold updateStack
  split
  · trivial
  · obtain ⟨n, h⟩ := ho.roots
    exact ⟨rfl, _, ffield_ty ho ho.fnext, _, .ptrAdd (.var h) rfl rfl (lit_ty _) rfl, assign_ptr⟩

theorem resetStack_ty (sp : Nat) (b : Bool) : WS (resetStack N sp b) := by
  unfold resetStack
  split
  · trivial
  · exact ⟨rfl, _, tfield_ty ho ho.tfp, _, ffield_ty ho ho.fprev, assign_ptr⟩

theorem pushAux_ty : ∀ (xs : List Var) (n : Nat) (s : CS), (∀ x ∈ xs, T x) → WS s → WS (pushAux N xs n s).1
  | [], n, s, _, h => h
  | x :: xs, n, s, hx, h => pushAux_ty xs _ _ (fun y hy => hx y (by simp [hy]))
      ⟨⟨rfl, _, rootE_ty ho n, tvar_fit ho (hx x (by simp))⟩, h⟩

theorem popAux_ty : ∀ (xs : List Var) (n : Nat) (s : CS), (∀ x ∈ xs, T x) → WS s → WS (popAux N xs n s)
  | [], n, s, _, h => h
  | x :: xs, n, s, hx, h => popAux_ty xs _ _ (fun y hy => hx y (by simp [hy]))
      ⟨⟨_, ho.temps x (hx x (by simp)), _, rootE_ty ho n, assign_val rfl⟩, h⟩

theorem loadAlloc_ty : WS (loadAlloc N) := ⟨_, ho.alloc, _, tfield_ty ho ho.talloc, assign_ptr⟩
theorem loadLimit_ty : WS (loadLimit N) := ⟨_, ho.limit, _, tfield_ty ho ho.tlimit, assign_ptr⟩
theorem loadArgs_ty : WS (loadArgs N) := by
  obtain ⟨n, h⟩ := ho.targs
  exact ⟨_, ho.args, _, tfield_ty ho h, assign_ptr⟩
theorem saveAlloc_ty : WS (saveAlloc N) := ⟨rfl, _, tfield_ty ho ho.talloc, _, allocP_ty ho, assign_ptr⟩
theorem saveLimit_ty : WS (saveLimit N) := ⟨rfl, _, tfield_ty ho ho.tlimit, _, limitP_ty ho, assign_ptr⟩

theorem gcCall_ty (n : Nat) (xs : List Var) (off : Nat) (hx : ∀ x ∈ xs, T x) : WS (gcCall N n xs off).1 := by
  unfold gcCall
  dsimp only
  split
  · trivial
  · refine ⟨⟨_, .notbool (.cmp rfl (lit_ty _) rfl (.ptrSub (limitP_ty ho) rfl (allocP_ty ho) rfl rfl) rfl) rfl, rfl⟩,
      ⟨⟨pushAux_ty ho xs off _ hx trivial, updateStack_ty ho _, setStack_ty ho _ _⟩,
        ⟨rfl, _, tfield_ty ho ho.tnalloc, _, lit_ty _, .inl ⟨_, _, rfl, rfl, rfl, rfl⟩⟩,
        ⟨_, _, _, _, .var ho.gc, rfl, ⟨tinf_fit ho, trivial⟩, fun y h => (by cases h)⟩,
        ⟨popAux_ty ho xs off _ hx trivial, resetStack_ty ho _ _⟩, loadAlloc_ty ho, loadLimit_ty ho⟩, trivial⟩

theorem fieldE_ty {x : Var} (hx : T x) (n : Int) : HasTy Γ (fieldE N x n) val :=
  .deref (.ptrAdd (.cast (t := valPtr) (tvar_ty ho hx) rfl rfl) rfl rfl (lit_ty _) rfl) rfl

section
variable {fns : List Var} (hfn : ∀ f ∈ fns, ∃ ts va, Γ.vars (N.ext f) (.fn ts va val))
include hfn

theorem makeVar_ty {x : Var} (hx : T x ∨ x ∈ fns) : ∃ u, HasTy Γ (makeVar N fns x) u ∧ scalar (decay u) = true := by
  unfold makeVar
  split
  · next h =>
    obtain ⟨ts, va, h⟩ := hfn x h
    exact ⟨_, .var h, rfl⟩
  · next h => exact ⟨_, tvar_ty ho (hx.resolve_right h), rfl⟩

theorem makeVar_fit {x : Var} (hx : T x ∨ x ∈ fns) (he : ext = true ∨ x ∉ fns) : Fit ext Γ val (makeVar N fns x) := by
  unfold makeVar
  split
  · next h =>
    obtain ⟨ts, va, h'⟩ := hfn x h
    exact ⟨_, .var h', .inr (.inr ⟨he.resolve_right fun hn => hn h, _, _, _, _, rfl, rfl, rfl⟩)⟩
  · next h => exact tvar_fit ho (hx.resolve_right h)

theorem assignFields_ty {x : Var} (hx : T x) : ∀ (n : Nat) (vs : List Var), (∀ v ∈ vs, T v ∨ v ∈ fns) → (∀ v ∈ vs, ext = true ∨ v ∉ fns) →
    WS (assignFields N fns x n vs)
  | _, [], _, _ => trivial
  | _, [v], h, h' => ⟨rfl, _, fieldE_ty ho hx _, makeVar_fit ho hfn (h v (by simp)) (h' v (by simp))⟩
  | _, v :: w :: vs, h, h' => ⟨⟨rfl, _, fieldE_ty ho hx _, makeVar_fit ho hfn (h v (by simp)) (h' v (by simp))⟩,
      assignFields_ty hx _ (w :: vs) (fun u hu => h u (by simp [List.mem_cons.1 hu])) (fun u hu => h' u (by simp [List.mem_cons.1 hu]))⟩

theorem assignConstructor_ty {cenv : Ctor.PMap Ctor.Info} {x : Var} (hx : T x) {t : Tag} {vs : List Var} (hv : ∀ v ∈ vs, T v ∨ v ∈ fns)
    (he : ∀ v ∈ vs, ext = true ∨ v ∉ fns) {c : CS} (h : assignConstructor N cenv fns x t vs = some c) : WS c := by
  unfold assignConstructor at h
  split at h
  · cases h; exact ⟨_, ho.temps x hx, lit_fit _⟩
  · cases h
    exact ⟨⟨_, ho.temps x hx, _, .cast (t := val) (.ptrAdd (allocP_ty ho) rfl rfl (lit_ty _) rfl) rfl rfl, assign_val rfl⟩,
      ⟨_, ho.alloc, _, .ptrAdd (allocP_ty ho) rfl rfl (lit_ty _) rfl, assign_ptr⟩, ⟨rfl, _, fieldE_ty ho hx _, lit_fit _⟩,
      assignFields_ty ho hfn hx _ vs hv he⟩
  · cases h

theorem mkCallVars_ty : ∀ {n : Nat} {vs : List Var} {es : List CE}, (∀ v ∈ vs, T v ∨ v ∈ fns) → (∀ v ∈ vs, ext = true ∨ v ∉ fns) →
    mkCallVars N fns n vs = some es → ArgsOk ext Γ es (funTyList n) false
  | 0, [], es, _, _, h => by cases h; trivial
  | n + 1, v :: vs, es, hv, he, h => by
    simp only [mkCallVars, Option.map_eq_some_iff] at h
    obtain ⟨es', h1, rfl⟩ := h
    exact ⟨makeVar_fit ho hfn (hv v (by simp)) (he v (by simp)), mkCallVars_ty (fun u hu => hv u (by simp [hu])) (fun u hu => he u (by simp [hu])) h1⟩
  | 0, _ :: _, _, _, _, h => by cases h
  | _ + 1, [], _, _, _, h => by cases h

theorem mkCall_ty {np : Nat} {x : Var} (hx : T x) {f : CE} (hf : ∃ u, HasTy Γ f u ∧ scalar (decay u) = true) {n : Nat} {vs : List Var}
    (hv : ∀ v ∈ vs, T v ∨ v ∈ fns) (he : ∀ v ∈ vs, ext = true ∨ v ∉ fns) {c : CS} (h : mkCall N np fns x f n vs = some c) : WS c := by
  simp only [mkCall, Option.map_eq_some_iff] at h
  obtain ⟨es, h1, rfl⟩ := h
  obtain ⟨u, hu, hs⟩ := hf
  exact ⟨_, _, _, _, .cast (t := .ptr (mkFunTy N n)) hu hs rfl, rfl, ⟨tinf_fit ho, mkCallVars_ty ho hfn (fun v h => hv v (List.mem_of_mem_take h))
    (fun v h => he v (List.mem_of_mem_take h)) h1⟩, fun y hy => (by cases hy; exact ⟨_, ho.temps x hx, assign_val rfl⟩)⟩

theorem mkPrimCall_ty {x : Var} (hx : T x) {p : Tag} (hp : ∃ ts va t, Γ.vars (N.ext p) (.fn ts va t)) {vs : List Var} (hv : ∀ v ∈ vs, T v ∨ v ∈ fns)
    (he : ∀ v ∈ vs, ext = true ∨ v ∉ fns) {c : CS} (h : mkPrimCall N x p fns vs = some c) : WS c := by
  simp only [mkPrimCall, Option.map_eq_some_iff] at h
  obtain ⟨es, h1, rfl⟩ := h
  obtain ⟨ts, va, t, hp⟩ := hp
  exact ⟨_, _, _, _, .cast (t := mkPrimTy vs.length) (.var hp) rfl rfl, rfl, mkCallVars_ty ho hfn hv he h1,
    fun y hy => (by cases hy; exact ⟨_, ho.temps x hx, assign_val rfl⟩)⟩

theorem mkPrimCallTinfo_ty {x : Var} (hx : T x) {p : Tag} (hp : ∃ ts va t, Γ.vars (N.ext p) (.fn ts va t)) {vs : List Var} (hv : ∀ v ∈ vs, T v ∨ v ∈ fns)
    (he : ∀ v ∈ vs, ext = true ∨ v ∉ fns) {c : CS} (h : mkPrimCallTinfo N x p fns vs = some c) : WS c := by
  simp only [mkPrimCallTinfo, Option.map_eq_some_iff] at h
  obtain ⟨es, h1, rfl⟩ := h
  obtain ⟨ts, va, t, hp⟩ := hp
  exact ⟨_, _, _, _, .cast (t := mkFunTy N vs.length) (.var hp) rfl rfl, rfl, ⟨tinf_fit ho, mkCallVars_ty ho hfn hv he h1⟩,
    fun y hy => (by cases hy; exact ⟨_, ho.temps x hx, assign_val rfl⟩)⟩

omit hfn in
theorem asgnFunVars_ty : ∀ {vs : List Var} {ind : List Nat} {c : CS}, (∀ v ∈ vs, T v) → asgnFunVars' N vs ind = some c → WS c
  | [], [], c, _, h => by cases h; trivial
  | v :: vs, i :: ind, c, hv, h => by
    simp only [asgnFunVars', Option.map_eq_some_iff] at h
    obtain ⟨c', h1, rfl⟩ := h
    exact ⟨⟨_, ho.temps v (hv v (by simp)), _, argE_ty ho i, assign_val rfl⟩, asgnFunVars_ty (fun u hu => hv u (by simp [hu])) h1⟩
  | [], _ :: _, _, _, h => by cases h
  | _ :: _, [], _, _, h => by cases h

theorem asgnAppVars'_ty : ∀ {vs : List Var} {ind : List Nat} {c : CS}, (∀ v ∈ vs, T v ∨ v ∈ fns) → (∀ v ∈ vs, ext = true ∨ v ∉ fns) →
    asgnAppVars' N fns vs ind = some c → WS c
  | [], [], c, _, _, h => by cases h; trivial
  | v :: vs, i :: ind, c, hv, he, h => by
    simp only [asgnAppVars', Option.map_eq_some_iff] at h
    obtain ⟨c', h1, rfl⟩ := h
    exact ⟨asgnAppVars'_ty (fun u hu => hv u (by simp [hu])) (fun u hu => he u (by simp [hu])) h1,
      ⟨rfl, _, argE_ty ho i, makeVar_fit ho hfn (hv v (by simp)) (he v (by simp))⟩⟩
  | [], _ :: _, _, _, _, h => by cases h
  | _ :: _, [], _, _, _, h => by cases h

theorem asgnAppVars_ty {np : Nat} {vs : List Var} {ind : List Nat} {c : CS} (hv : ∀ v ∈ vs, T v ∨ v ∈ fns) (he : ∀ v ∈ vs, ext = true ∨ v ∉ fns)
    (h : asgnAppVars N np fns vs ind = some c) : WS c := by
  simp only [asgnAppVars, Option.map_eq_some_iff] at h
  obtain ⟨c', h1, rfl⟩ := h
  exact ⟨loadArgs_ty ho, asgnAppVars'_ty ho hfn (fun v h => hv v (List.mem_of_mem_drop h)) (fun v h => he v (List.mem_of_mem_drop h)) h1⟩

omit hfn in
theorem aroundCall_ty {loc : Finset Var} (hloc : ∀ x ∈ loc, T x) {x : Var} {e : Exp} {c k : CS} (hc : WS c) (hk : WS k) :
    WS (aroundCall N loc x e c k) := by
  have h1 : ∀ y ∈ elements ((e.fv ∩ loc).erase x), T y := fun y hy =>
    hloc y (Finset.mem_inter.1 (Finset.mem_of_mem_erase (mem_elements.1 hy))).2
  have h2 : ∀ y ∈ (if x ∈ e.fv ∩ loc then [x] else []), T y := by
    intro y hy
    split at hy
    · next h =>
      simp only [List.mem_singleton] at hy
      exact hloc y (hy ▸ (Finset.mem_inter.1 h).2)
    · cases hy
  exact ⟨saveAlloc_ty ho, saveLimit_ty ho, ⟨pushAux_ty ho _ _ _ h1 trivial, updateStack_ty ho _, setStack_ty ho _ _⟩, hc, loadAlloc_ty ho,
    loadLimit_ty ho, gcCall_ty ho _ _ _ h2, ⟨popAux_ty ho _ _ _ h1 trivial, resetStack_ty ho _ _⟩, hk⟩

end

theorem caseSwitch_ty {x : Var} (hx : T x) {ls ls' : LS} (h : WL ls) (h' : WL ls') (hn : (labels ls).Nodup) (hn' : (labels ls').Nodup) :
    WS (caseSwitch N x ls ls') :=
  ⟨⟨_, .cmp rfl (.arith rfl (tvar_ty ho hx) rfl .cint rfl) rfl .cint rfl, rfl⟩,
    ⟨⟨_, .arith rfl (fieldE_ty ho hx _) rfl (lit_ty _) rfl, rfl⟩, hn, h⟩, ⟨⟨_, .arith rfl (tvar_ty ho hx) rfl (lit_ty _) rfl, rfl⟩, hn', h'⟩⟩

end CGen.Text
