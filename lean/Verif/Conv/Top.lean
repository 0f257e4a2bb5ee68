import Verif.Conv.AnfSim
import Verif.Conv.Agree
import Verif.Ctor.Props
import Verif.ANF.State

/-!
# ANF conversion of whole programs

`convert_top_anf` with the tag assignment of `convert_env`, totality, and what makes a source program well typed enough
for its matches to be dispatched on.
-/

namespace Conv

open Src (Dcon)
open ANF (Var Tag)
open Ctor (Kername Ityp Cnstr Declares convertEnv dconToInfo defaultCtorTag defaultIndTag)

/-! ## Totality -/

section
variable {P : Params}

mutual
theorem conv_total : ∀ (e : Src.Exp) (vn : List Var) (k : Nat), e.wfp P.arity vn.length → ∃ r, conv P e vn k = some r
  | .var i, vn, k, h => by simp only [Src.Exp.wfp] at h; simp [conv, h]
  | .lam e, vn, k, h => by
    simp only [Src.Exp.wfp] at h
    obtain ⟨⟨x, C, k'⟩, h'⟩ := conv_total e (k :: vn) (k + 2) (by rw [List.length_cons, Nat.add_comm]; exact h)
    simp [conv, h']
  | .app e₁ e₂, vn, k, h => by
    simp only [Src.Exp.wfp] at h
    obtain ⟨⟨x₁, C₁, k₁⟩, h₁⟩ := conv_total e₁ vn k h.1
    obtain ⟨⟨x₂, C₂, k₂⟩, h₂⟩ := conv_total e₂ vn k₁ h.2
    simp [conv, h₁, h₂]
  | .con d es, vn, k, h => by
    simp only [Src.Exp.wfp] at h
    obtain ⟨⟨x₁, C₁, k₁⟩, h₁⟩ := convs_total es vn (k + 1) h
    simp [conv, h₁]
  | .mtch e bs, vn, k, h => by
    simp only [Src.Exp.wfp] at h
    obtain ⟨⟨x₁, C₁, k₁⟩, h₁⟩ := conv_total e vn (k + 2) h.1
    obtain ⟨⟨x₂, k₂⟩, h₂⟩ := convB_total bs (k + 1) vn k₁ h.2
    simp [conv, h₁, h₂]
  | .letin e₁ e₂, vn, k, h => by
    simp only [Src.Exp.wfp] at h
    obtain ⟨⟨x₁, C₁, k₁⟩, h₁⟩ := conv_total e₁ vn k h.1
    obtain ⟨⟨x₂, C₂, k₂⟩, h₂⟩ := conv_total e₂ (x₁ :: vn) k₁ (by rw [List.length_cons, Nat.add_comm]; exact h.2)
    simp [conv, h₁, h₂]
  | .fix fs n, vn, k, h => by
    simp only [Src.Exp.wfp] at h
    obtain ⟨⟨x₁, B, k₁⟩, h₁⟩ := convF_total fs (List.range' k fs.len) n ((List.range' k fs.len).reverse ++ vn) (k + fs.len)
      (by simp) (by simpa using h.2)
    simp [conv, addFixNames_spec, h₁]
  | .prf, vn, k, h => ⟨_, rfl⟩
  | .pval p, vn, k, h => ⟨_, rfl⟩
  | .prim p, vn, k, h => by
    obtain ⟨n, hn⟩ := h
    simp [conv, hn]
theorem convs_total : ∀ (es : Src.Exps) (vn : List Var) (k : Nat), es.wfp P.arity vn.length → ∃ r, convs P es vn k = some r
  | .nil, vn, k, h => ⟨_, rfl⟩
  | .cons e es, vn, k, h => by
    simp only [Src.Exps.wfp] at h
    obtain ⟨⟨x₁, C₁, k₁⟩, h₁⟩ := conv_total e vn k h.1
    obtain ⟨⟨x₂, C₂, k₂⟩, h₂⟩ := convs_total es vn k₁ h.2
    simp [convs, h₁, h₂]
theorem convF_total : ∀ (fs : Src.Fns) (names : List Var) (i : Nat) (vn : List Var) (k : Nat), names.length = fs.len →
    fs.wfp P.arity vn.length → ∃ r, convF P fs names i vn k = some r
  | .nil, names, i, vn, k, hl, h => by
    cases names with
    | nil => exact ⟨_, rfl⟩
    | cons => simp [Src.Fns.len] at hl
  | .cons e fs, [], i, vn, k, hl, h => by simp [Src.Fns.len] at hl
  | .cons (.lam e) fs, f :: names, i, vn, k, hl, h => by
    simp only [Src.Fns.wfp, Src.Exp.wfp] at h
    obtain ⟨⟨x₁, C₁, k₁⟩, h₁⟩ := conv_total e (k :: vn) (k + 1) (by rw [List.length_cons, Nat.add_comm]; exact h.1)
    obtain ⟨⟨x₂, C₂, k₂⟩, h₂⟩ := convF_total fs names (i - 1) vn k₁ (by simpa [Src.Fns.len] using hl) h.2.2
    simp [convF, h₁, h₂]
  | .cons (.var _) _, _ :: _, _, _, _, _, h => by simp [Src.Fns.wfp] at h
  | .cons (.app _ _) _, _ :: _, _, _, _, _, h => by simp [Src.Fns.wfp] at h
  | .cons (.con _ _) _, _ :: _, _, _, _, _, h => by simp [Src.Fns.wfp] at h
  | .cons (.mtch _ _) _, _ :: _, _, _, _, _, h => by simp [Src.Fns.wfp] at h
  | .cons (.letin _ _) _, _ :: _, _, _, _, _, h => by simp [Src.Fns.wfp] at h
  | .cons (.fix _ _) _, _ :: _, _, _, _, _, h => by simp [Src.Fns.wfp] at h
  | .cons (.prf) _, _ :: _, _, _, _, _, h => by simp [Src.Fns.wfp] at h
  | .cons (.pval _) _, _ :: _, _, _, _, _, h => by simp [Src.Fns.wfp] at h
  | .cons (.prim _) _, _ :: _, _, _, _, _, h => by simp [Src.Fns.wfp] at h
theorem convB_total : ∀ (bs : Src.Brs) (y : Var) (vn : List Var) (k : Nat), bs.wfp P.arity vn.length →
    ∃ r, convB P bs y vn k = some r
  | .nil, y, vn, k, h => ⟨_, rfl⟩
  | .cons d n e bs, y, vn, k, h => by
    simp only [Src.Brs.wfp] at h
    obtain ⟨⟨ps, k₁⟩, h₁⟩ := convB_total bs y vn k h.2
    obtain ⟨⟨x₂, C₂, k₂⟩, h₂⟩ := conv_total e (List.range' k₁ n ++ vn) (k₁ + n) (by simpa using h.1)
    simp [convB, freshList_spec, h₁, h₂]
end
end

/-! ## Declared constructors -/

/-- The inductive types of a program: the declarations, and the qualified name and position of inductive type number `i`
(the source model numbers the inductive types). -/
structure Types where
  decls : List (Kername × List Ityp)
  name : Nat → Kername × Nat

/-- Distinct blocks, and distinct numbers for distinct types. -/
structure Types.Ok (T : Types) : Prop where
  nodup : (T.decls.map (·.1)).Nodup
  inj : ∀ i j, T.name i = T.name j → i = j

/-- Constructor `d` is declared with `n` arguments. -/
def Types.Declared (T : Types) (d : Dcon) (n : Nat) : Prop :=
  ∃ t c, Declares T.decls (T.name d.1).1 (T.name d.1).2 d.2 t c ∧ c.arity = n

/-- All branches belong to inductive type number `i` and bind the arguments of their constructor. -/
def Types.Branches (T : Types) (i : Nat) : Src.Brs → Prop
  | .nil => True
  | .cons d n _ bs => d.1 = i ∧ T.Declared d n ∧ T.Branches i bs

mutual
/-- Constructors are declared and fully applied; the branches of a match belong to one type. -/
def Typed (T : Types) : Src.Exp → Prop
  | .var _ => True
  | .lam e => Typed T e
  | .app e₁ e₂ => Typed T e₁ ∧ Typed T e₂
  | .con d es => T.Declared d es.len ∧ TypedEs T es
  | .mtch e bs => Typed T e ∧ (∃ i, T.Branches i bs) ∧ TypedB T bs
  | .letin e₁ e₂ => Typed T e₁ ∧ Typed T e₂
  | .fix fs _ => TypedF T fs
  | .prf => True
  | .pval _ => True
  | .prim _ => True
/-- The same for argument lists. -/
def TypedEs (T : Types) : Src.Exps → Prop
  | .nil => True
  | .cons e es => Typed T e ∧ TypedEs T es
/-- The same for recursive functions. -/
def TypedF (T : Types) : Src.Fns → Prop
  | .nil => True
  | .cons e es => Typed T e ∧ TypedF T es
/-- The same for branches. -/
def TypedB (T : Types) : Src.Brs → Prop
  | .nil => True
  | .cons _ _ e bs => Typed T e ∧ TypedB T bs
end

/-- `dcon_to_tag` with the map built by `convert_env` (LambdaBoxLocal_to_LambdaANF.v:41-48, 68-69). -/
def Types.tag (T : Types) (d : Dcon) : Tag :=
  dconToInfo defaultCtorTag ⟨(T.name d.1).1, (T.name d.1).2, d.2⟩ (convertEnv defaultCtorTag defaultIndTag T.decls).dcm

/-- The tags of toplevel.v:48-49 and the constructor map of the program. -/
def Types.params (T : Types) (arity : Nat → Option Nat) : Params :=
  { funTag := 3, konTag := 2, defaultTag := defaultCtorTag, tag := T.tag, arity := arity }

/-- The constructor environment of the program. -/
def Types.cenv (T : Types) : Ctor.PMap Ctor.Info := (convertEnv defaultCtorTag defaultIndTag T.decls).ce

/-- `convert_top_anf` (LambdaBoxLocal_to_LambdaANF.v:780-787) as called by `compile_LambdaANF_ANF` (toplevel.v:69-80);
`k` is the first variable. -/
def convertTopAnf (T : Types) (arity : Nat → Option Nat) (k : Nat) (e : Src.Exp) : Option (ANF.Exp × ANF.Comp) :=
  match convExp (T.params arity) e k with
  | some (e', k') =>
    let r := convertEnv defaultCtorTag defaultIndTag T.decls
    some (e', { next := k', ctag := r.ncT, itag := r.niT, ftag := 3 + 1, cenv := r.ce })
  | none => none

theorem Types.tag_spec {T : Types} (hT : T.Ok) {d n} (h : T.Declared d n) :
    defaultCtorTag < T.tag d ∧ T.tag d ≠ Ctor.cloTag ∧
      T.tag d < (convertEnv defaultCtorTag defaultIndTag T.decls).ncT ∧ ∃ i, T.cenv (T.tag d) = some i ∧ i.arity = n := by
  obtain ⟨t, c, hd, rfl⟩ := h
  obtain ⟨h1, h2, h3, itag, _, _, _, h4, _⟩ := Ctor.C45_info T.decls hT.nodup _ _ _ t c hd
  exact ⟨h1, h2, h3, _, h4, rfl⟩

theorem Types.tag_inj {T : Types} (hT : T.Ok) {d d' n n'} (h : T.Declared d n) (h' : T.Declared d' n')
    (he : T.tag d = T.tag d') : d = d' := by
  obtain ⟨t, c, hd, rfl⟩ := h
  obtain ⟨t', c', hd', rfl⟩ := h'
  obtain ⟨h1, h2, h3⟩ := Ctor.C45_injective T.decls hT.nodup _ _ _ _ _ _ t t' c c' hd hd' he
  exact Prod.ext (hT.inj _ _ (Prod.ext h1 h2)) h3

theorem Types.tag_type {T : Types} (hT : T.Ok) {d d' n n'} (h : T.Declared d n) (h' : T.Declared d' n')
    (he : d.1 = d'.1) : ∃ i i', T.cenv (T.tag d) = some i ∧ T.cenv (T.tag d') = some i' ∧ i.indTag = i'.indTag := by
  obtain ⟨t, c, hd, rfl⟩ := h
  obtain ⟨t', c', hd', rfl⟩ := h'
  obtain ⟨_, _, _, itag, _, _, _, h4, _⟩ := Ctor.C45_info T.decls hT.nodup _ _ _ t c hd
  obtain ⟨_, _, _, itag', _, _, _, h4', _⟩ := Ctor.C45_info T.decls hT.nodup _ _ _ t' c' hd'
  refine ⟨_, _, h4, h4', ?_⟩
  exact (Ctor.C45_types T.decls hT.nodup _ _ _ _ _ _ t t' c c' hd hd' _ _ h4 h4').2 (by rw [he]; exact ⟨rfl, rfl⟩)

theorem Types.Branches.mem {T : Types} {i d} : ∀ {bs}, T.Branches i bs → d ∈ dcons bs → d.1 = i ∧ ∃ n, T.Declared d n := by
  intro bs
  induction bs using Src.Brs.ind with
  | h0 => intro _ h; cases h
  | h1 d' n e bs ih =>
    intro h hd
    simp only [dcons, List.mem_cons] at hd
    rcases hd with rfl | hd
    · exact ⟨h.1, n, h.2.1⟩
    · exact ih h.2.2 hd

theorem consistent_of {cenv : Ctor.PMap Ctor.Info} {t : Tag} {ts : List Tag}
    (h : ∀ t' ∈ ts, ∃ i i', cenv t = some i ∧ cenv t' = some i' ∧ i.indTag = i'.indTag) :
    ANF.consistent cenv t ts = true := by
  induction ts with
  | nil => rfl
  | cons t' ts ih =>
    obtain ⟨i, i', h1, h2, h3⟩ := h t' (by simp)
    simp [ANF.consistent, h1, h2, h3, ih (fun t' h' => h t' (by simp [h']))]

theorem Types.Branches.ok {T : Types} (hT : T.Ok) {arity i bs} (h : T.Branches i bs) : BrsOk (T.params arity) T.cenv bs := by
  constructor
  · intro d hd d' hd' he
    obtain ⟨_, n, h1⟩ := h.mem hd
    obtain ⟨_, n', h1'⟩ := h.mem hd'
    exact Types.tag_inj hT h1 h1' he
  · intro d hd
    refine consistent_of ?_
    intro t' ht'
    obtain ⟨d', hd', rfl⟩ := List.mem_map.1 ht'
    obtain ⟨e1, n, h1⟩ := h.mem hd
    obtain ⟨e2, n', h1'⟩ := h.mem hd'
    exact Types.tag_type hT h1 h1' (by rw [e1, e2])

mutual
theorem Typed.ok {T : Types} (hT : T.Ok) {arity} : ∀ {e}, Typed T e → okE (T.params arity) T.cenv e
  | .var _, _ => trivial
  | .lam e, h => Typed.ok (e := e) hT h
  | .app e₁ e₂, h => ⟨Typed.ok hT h.1, Typed.ok hT h.2⟩
  | .con d es, h => TypedEs.ok hT h.2
  | .mtch e bs, h => by obtain ⟨i, hi⟩ := h.2.1; exact ⟨Typed.ok hT h.1, hi.ok hT, TypedB.ok hT h.2.2⟩
  | .letin e₁ e₂, h => ⟨Typed.ok hT h.1, Typed.ok hT h.2⟩
  | .fix fs _, h => TypedF.ok (fs := fs) hT h
  | .prf, _ => trivial
  | .pval _, _ => trivial
  | .prim _, _ => trivial
theorem TypedEs.ok {T : Types} (hT : T.Ok) {arity} : ∀ {es}, TypedEs T es → okEs (T.params arity) T.cenv es
  | .nil, _ => trivial
  | .cons e es, h => ⟨Typed.ok hT h.1, TypedEs.ok hT h.2⟩
theorem TypedF.ok {T : Types} (hT : T.Ok) {arity} : ∀ {fs}, TypedF T fs → okF (T.params arity) T.cenv fs
  | .nil, _ => trivial
  | .cons e es, h => ⟨Typed.ok hT h.1, TypedF.ok hT h.2⟩
theorem TypedB.ok {T : Types} (hT : T.Ok) {arity} : ∀ {bs}, TypedB T bs → okB (T.params arity) T.cenv bs
  | .nil, _ => trivial
  | .cons d n e bs, h => ⟨Typed.ok hT h.1, TypedB.ok hT h.2⟩
end

end Conv
