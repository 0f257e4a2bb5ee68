import Verif.CGen.ScopeSpec

/-! # The names in generated functions -/

namespace CGen.Text

open ANF
open CPrint (CE CS LS CTy CFn Name SameE SameEs Same SameL)

/-! ## What is read has the same names -/

section
variable {t v : Name → Prop}

theorem within_same : ∀ {a b : CE}, SameE a b → (Within t v a ↔ Within t v b) := by
  intro a b h
  induction h with
  | refl => exact Iff.rfl
  | trans _ _ ih1 ih2 => exact ih1.trans ih2
  | deref _ ih => exact ih
  | field _ _ ih => exact ih
  | unop _ _ ih => exact ih
  | addrof _ ih => exact ih
  | binop _ _ _ ih1 ih2 => exact and_congr ih1 ih2
  | cast _ _ ih => exact ih
  | fnCast => exact Iff.rfl
  | int => exact Iff.rfl
  | long => exact Iff.rfl

theorem within_sames : ∀ {as bs : List CE}, SameEs as bs → ((∀ a ∈ as, Within t v a) ↔ ∀ b ∈ bs, Within t v b)
  | _, _, .nil => Iff.rfl
  | _, _, .cons h hs => by
    simp only [List.forall_mem_cons]
    exact and_congr (within_same h) (within_sames hs)

mutual
theorem withinS_same : ∀ {a b : CS}, Same a b → (WithinS t v a ↔ WithinS t v b)
  | _, _, .refl _ => Iff.rfl
  | _, _, .symm h => (withinS_same h).symm
  | _, _, .trans h h' => (withinS_same h).trans (withinS_same h')
  | _, _, .assign h h' => and_congr (within_same h) (within_same h')
  | _, _, .set _ h => and_congr Iff.rfl (within_same h)
  | _, _, .temp _ _ => Iff.rfl
  | _, _, .call _ h hs => and_congr Iff.rfl (and_congr (within_same h) (within_sames hs))
  | _, _, .ret h => within_same h
  | _, _, .seq h h' => and_congr (withinS_same h) (withinS_same h')
  | _, _, .assoc _ _ _ => and_assoc
  | _, _, .skipL _ => ⟨fun h => h.2, fun h => ⟨trivial, h⟩⟩
  | _, _, .skipR _ => ⟨fun h => h.1, fun h => ⟨h, trivial⟩⟩
  | _, _, .ite h h1 h2 => and_congr (within_same h) (and_congr (withinS_same h1) (withinS_same h2))
  | _, _, .not _ _ => ⟨fun h => ⟨h.1, h.2.2, trivial⟩, fun h => ⟨h.1, trivial, h.2.1⟩⟩
  | _, _, .switch h h' => and_congr (within_same h) (withinL_same h')
theorem withinL_same : ∀ {a b : LS}, SameL a b → (WithinL t v a ↔ WithinL t v b)
  | _, _, .nil => Iff.rfl
  | _, _, .cons _ h h' => and_congr (withinS_same h) (withinL_same h')
end

end

/-! ## The names the generator uses -/

variable {N : Names} {T : Var → Prop} {V : Var → Prop}

/-- The names of some temporaries. -/
def tn (N : Names) (T : Var → Prop) (n : Name) : Prop := ∃ x, T x ∧ n = N.tmp x

/-- The names of some variables and functions. -/
def vn (N : Names) (V : Var → Prop) (n : Name) : Prop := ∃ x, V x ∧ n = N.ext x

/-- The temporaries and variables all functions have. -/
structure Own (T V : Var → Prop) : Prop where
  args : T 26
  alloc : T 28
  limit : T 29
  tinfo : T 91
  frame : V 79
  gc : V 80
  roots : V 84

local notation "WE" => Within (tn N T) (vn N V)
local notation "WS" => WithinS (tn N T) (vn N V)
local notation "WL" => WithinL (tn N T) (vn N V)

variable (ho : Own T V)
include ho

theorem tinf_in : WE (tinf N) := ⟨91, ho.tinfo, rfl⟩

theorem tfield_in (f : Var) : WE (tfield N f) := tinf_in ho

theorem ffield_in (f : Var) : WE (ffield N f) := ⟨79, ho.frame, rfl⟩

theorem allocP_in : WE (allocP N) := ⟨28, ho.alloc, rfl⟩

theorem limitP_in : WE (limitP N) := ⟨29, ho.limit, rfl⟩

theorem argE_in (n : Nat) : WE (argE N n) := ⟨⟨26, ho.args, rfl⟩, trivial⟩

theorem rootE_in (n : Nat) : WE (rootE N n) := ⟨⟨84, ho.roots, rfl⟩, trivial⟩

theorem initStack_in : WS (initStack N) :=
  ⟨⟨ffield_in ho _, ⟨84, ho.roots, rfl⟩⟩, ⟨ffield_in ho _, ⟨84, ho.roots, rfl⟩⟩, ⟨ffield_in ho _, tfield_in ho _⟩⟩

theorem setStack_in (sp : Nat) (b : Bool) : WS (setStack N sp b) := by
  unfold setStack
  split
  · trivial
  · exact ⟨tfield_in ho _, ⟨79, ho.frame, rfl⟩⟩

theorem updateStack_in (sp : Nat) : WS (updateStack N sp) := by
  unfold updateStack
  split
  · trivial
  · exact ⟨ffield_in ho _, ⟨84, ho.roots, rfl⟩, trivial⟩

theorem resetStack_in (sp : Nat) (b : Bool) : WS (resetStack N sp b) := by
  unfold resetStack
  split
  · trivial
  · exact ⟨tfield_in ho _, ffield_in ho _⟩

theorem pushAux_in : ∀ (xs : List Var) (n : Nat) (s : CS), (∀ x ∈ xs, T x) → WS s → WS (pushAux N xs n s).1
  | [], n, s, _, h => h
  | x :: xs, n, s, hx, h => pushAux_in xs _ _ (fun y hy => hx y (by simp [hy])) ⟨⟨rootE_in ho n, ⟨x, hx x (by simp), rfl⟩⟩, h⟩

theorem popAux_in : ∀ (xs : List Var) (n : Nat) (s : CS), (∀ x ∈ xs, T x) → WS s → WS (popAux N xs n s)
  | [], n, s, _, h => h
  | x :: xs, n, s, hx, h => popAux_in xs _ _ (fun y hy => hx y (by simp [hy])) ⟨⟨⟨x, hx x (by simp), rfl⟩, rootE_in ho n⟩, h⟩

theorem loadAlloc_in : WS (loadAlloc N) := ⟨⟨28, ho.alloc, rfl⟩, tfield_in ho _⟩
theorem loadLimit_in : WS (loadLimit N) := ⟨⟨29, ho.limit, rfl⟩, tfield_in ho _⟩
theorem loadArgs_in : WS (loadArgs N) := ⟨⟨26, ho.args, rfl⟩, tfield_in ho _⟩
theorem saveAlloc_in : WS (saveAlloc N) := ⟨tfield_in ho _, allocP_in ho⟩
theorem saveLimit_in : WS (saveLimit N) := ⟨tfield_in ho _, limitP_in ho⟩

theorem gcCall_in (n : Nat) (xs : List Var) (off : Nat) (hx : ∀ x ∈ xs, T x) : WS (gcCall N n xs off).1 := by
  unfold gcCall
  dsimp only
  split
  · trivial
  · exact ⟨⟨trivial, limitP_in ho, allocP_in ho⟩,
      ⟨⟨pushAux_in ho xs off _ hx trivial, updateStack_in ho _, setStack_in ho _ _⟩, ⟨tfield_in ho _, trivial⟩,
        ⟨fun x h => (by cases h), ⟨80, ho.gc, rfl⟩, fun a ha => (by simp only [List.mem_singleton] at ha; subst ha; exact tinf_in ho)⟩,
        ⟨popAux_in ho xs off _ hx trivial, resetStack_in ho _ _⟩, loadAlloc_in ho, loadLimit_in ho⟩, trivial⟩

omit ho in
theorem fieldE_in {x : Var} (hx : T x) (n : Int) : WE (fieldE N x n) := ⟨⟨x, hx, rfl⟩, trivial⟩

section
variable {fns : List Var} (hfn : ∀ f ∈ fns, V f)
include hfn

omit ho in
theorem makeVar_in {x : Var} (hx : T x ∨ x ∈ fns) : WE (makeVar N fns x) := by
  unfold makeVar
  split
  · next h => exact ⟨x, hfn x h, rfl⟩
  · next h => exact ⟨x, hx.resolve_right h, rfl⟩

omit ho in
theorem assignFields_in {x : Var} (hx : T x) : ∀ (n : Nat) (vs : List Var), (∀ v ∈ vs, T v ∨ v ∈ fns) → WS (assignFields N fns x n vs)
  | _, [], _ => trivial
  | _, [v], h => ⟨fieldE_in hx _, makeVar_in hfn (h v (by simp))⟩
  | _, v :: w :: vs, h => ⟨⟨fieldE_in hx _, makeVar_in hfn (h v (by simp))⟩, assignFields_in hx _ (w :: vs) fun u hu => h u (by simp [List.mem_cons.1 hu])⟩

theorem assignConstructor_in {cenv : Ctor.PMap Ctor.Info} {x : Var} (hx : T x) {t : Tag} {vs : List Var} (hv : ∀ v ∈ vs, T v ∨ v ∈ fns) {c : CS}
    (h : assignConstructor N cenv fns x t vs = some c) : WS c := by
  unfold assignConstructor at h
  split at h
  · cases h; exact ⟨⟨x, hx, rfl⟩, trivial⟩
  · cases h
    exact ⟨⟨⟨x, hx, rfl⟩, allocP_in ho, trivial⟩, ⟨⟨28, ho.alloc, rfl⟩, allocP_in ho, trivial⟩, ⟨fieldE_in hx _, trivial⟩,
      assignFields_in hfn hx _ vs hv⟩
  · cases h

omit ho in
theorem mkCallVars_in : ∀ {n : Nat} {vs : List Var} {es : List CE}, (∀ v ∈ vs, T v ∨ v ∈ fns) → mkCallVars N fns n vs = some es → ∀ e ∈ es, WE e
  | 0, [], es, _, h => by cases h; simp
  | n + 1, v :: vs, es, hv, h => by
    simp only [mkCallVars, Option.map_eq_some_iff] at h
    obtain ⟨es', h1, rfl⟩ := h
    intro e he
    rcases List.mem_cons.1 he with rfl | he
    · exact makeVar_in hfn (hv v (by simp))
    · exact mkCallVars_in (fun u hu => hv u (by simp [hu])) h1 e he
  | 0, _ :: _, _, _, h => by cases h
  | _ + 1, [], _, _, h => by cases h

theorem mkCall_in {np : Nat} {x : Var} (hx : T x) {f : CE} (hf : WE f) {n : Nat} {vs : List Var} (hv : ∀ v ∈ vs, T v ∨ v ∈ fns) {c : CS}
    (h : mkCall N np fns x f n vs = some c) : WS c := by
  simp only [mkCall, Option.map_eq_some_iff] at h
  obtain ⟨es, h1, rfl⟩ := h
  refine ⟨fun y hy => (by cases hy; exact ⟨x, hx, rfl⟩), hf, fun a ha => ?_⟩
  rcases List.mem_cons.1 ha with rfl | ha
  · exact tinf_in ho
  · exact mkCallVars_in hfn (fun v h => hv v (List.mem_of_mem_take h)) h1 a ha

omit ho in
theorem mkPrimCall_in {x : Var} (hx : T x) {p : Tag} (hp : V p) {vs : List Var} (hv : ∀ v ∈ vs, T v ∨ v ∈ fns) {c : CS}
    (h : mkPrimCall N x p fns vs = some c) : WS c := by
  simp only [mkPrimCall, Option.map_eq_some_iff] at h
  obtain ⟨es, h1, rfl⟩ := h
  exact ⟨fun y hy => (by cases hy; exact ⟨x, hx, rfl⟩), ⟨p, hp, rfl⟩, mkCallVars_in hfn hv h1⟩

theorem mkPrimCallTinfo_in {x : Var} (hx : T x) {p : Tag} (hp : V p) {vs : List Var} (hv : ∀ v ∈ vs, T v ∨ v ∈ fns) {c : CS}
    (h : mkPrimCallTinfo N x p fns vs = some c) : WS c := by
  simp only [mkPrimCallTinfo, Option.map_eq_some_iff] at h
  obtain ⟨es, h1, rfl⟩ := h
  refine ⟨fun y hy => (by cases hy; exact ⟨x, hx, rfl⟩), ⟨p, hp, rfl⟩, fun a ha => ?_⟩
  rcases List.mem_cons.1 ha with rfl | ha
  · exact tinf_in ho
  · exact mkCallVars_in hfn hv h1 a ha

omit hfn in
theorem asgnFunVars_in : ∀ {vs : List Var} {ind : List Nat} {c : CS}, (∀ v ∈ vs, T v) → asgnFunVars' N vs ind = some c → WS c
  | [], [], c, _, h => by cases h; trivial
  | v :: vs, i :: ind, c, hv, h => by
    simp only [asgnFunVars', Option.map_eq_some_iff] at h
    obtain ⟨c', h1, rfl⟩ := h
    exact ⟨⟨⟨v, hv v (by simp), rfl⟩, argE_in ho i⟩, asgnFunVars_in (fun u hu => hv u (by simp [hu])) h1⟩
  | [], _ :: _, _, _, h => by cases h
  | _ :: _, [], _, _, h => by cases h

theorem asgnAppVars'_in : ∀ {vs : List Var} {ind : List Nat} {c : CS}, (∀ v ∈ vs, T v ∨ v ∈ fns) → asgnAppVars' N fns vs ind = some c → WS c
  | [], [], c, _, h => by cases h; trivial
  | v :: vs, i :: ind, c, hv, h => by
    simp only [asgnAppVars', Option.map_eq_some_iff] at h
    obtain ⟨c', h1, rfl⟩ := h
    exact ⟨asgnAppVars'_in (fun u hu => hv u (by simp [hu])) h1, ⟨argE_in ho i, makeVar_in hfn (hv v (by simp))⟩⟩
  | [], _ :: _, _, _, h => by cases h
  | _ :: _, [], _, _, h => by cases h

theorem asgnAppVars_in {np : Nat} {vs : List Var} {ind : List Nat} {c : CS} (hv : ∀ v ∈ vs, T v ∨ v ∈ fns)
    (h : asgnAppVars N np fns vs ind = some c) : WS c := by
  simp only [asgnAppVars, Option.map_eq_some_iff] at h
  obtain ⟨c', h1, rfl⟩ := h
  exact ⟨loadArgs_in ho, asgnAppVars'_in ho hfn (fun v h => hv v (List.mem_of_mem_drop h)) h1⟩

omit hfn in
theorem aroundCall_in {loc : Finset Var} (hloc : ∀ x ∈ loc, T x) {x : Var} {e : Exp} {c k : CS} (hc : WS c) (hk : WS k) :
    WS (aroundCall N loc x e c k) := by
  have h1 : ∀ y ∈ elements ((e.fv ∩ loc).erase x), T y := fun y hy =>
    hloc y (Finset.mem_inter.1 (Finset.mem_of_mem_erase (mem_elements.1 hy))).2
  have h2 : ∀ y ∈ (if x ∈ e.fv ∩ loc then [x] else []), T y := by
    intro y hy
    split at hy
    · next h =>
      simp only [List.mem_singleton] at hy
      exact hloc y (hy ▸ (Finset.mem_inter.1 h).2)
    · cases hy
  exact ⟨saveAlloc_in ho, saveLimit_in ho, ⟨pushAux_in ho _ _ _ h1 trivial, updateStack_in ho _, setStack_in ho _ _⟩, hc, loadAlloc_in ho,
    loadLimit_in ho, gcCall_in ho _ _ _ h2, ⟨popAux_in ho _ _ _ h1 trivial, resetStack_in ho _ _⟩, hk⟩

end

theorem caseSwitch_in {x : Var} (hx : T x) {ls ls' : LS} (h : WL ls) (h' : WL ls') : WS (caseSwitch N x ls ls') :=
  ⟨⟨⟨⟨x, hx, rfl⟩, trivial⟩, trivial⟩, ⟨⟨fieldE_in hx _, trivial⟩, h⟩, ⟨⟨⟨x, hx, rfl⟩, trivial⟩, h'⟩⟩

end CGen.Text
