import Verif.CGen.ScopeLemmas

/-! # The names in generated functions: bodies and definitions -/

namespace CGen.Text

open ANF
open CPrint (CE CS LS CTy CFn Name SameE SameEs Same SameL)

variable {N : Names} {T : Var → Prop} {V : Var → Prop}

local notation "WE" => Within (tn N T) (vn N V)
local notation "WS" => WithinS (tn N T) (vn N V)
local notation "WL" => WithinL (tn N T) (vn N V)

theorem or_erase {fns : List Var} {x : Var} {F : Finset Var} (hx : T x) (h : ∀ y ∈ F.erase x, T y ∨ y ∈ fns) : ∀ y ∈ F, T y ∨ y ∈ fns :=
  of_erase (P := fun y => T y ∨ y ∈ fns) (.inl hx) h

mutual
theorem genE_in (ho : Own T V) {C : Cfg} {fenv : FEnv} {fns : List Var} (hfn : ∀ f ∈ fns, V f) (hpr : ∀ p, C.prims p ≠ none → V p)
    {loc : Finset Var} (hloc : ∀ x ∈ loc, T x) {tail : Bool} (ht : tail = true → T C.result) : ∀ (e : Exp) {sl : Nat} {c : CS} {m : Nat},
    (∀ x ∈ localsE e, T x) → (∀ x ∈ e.fv, T x ∨ x ∈ fns) → PlainE fns tail e → genE N C fenv fns loc e sl = some (c, m) → WS c
  | .constr x t vs e, sl, c, m, hl, hv, hp, h => by
    rw [genE] at h
    split at h
    · next p s n h1 h2 =>
      cases h
      have hx := hl x (by simp [localsE])
      refine ⟨assignConstructor_in ho hfn hx (fun v h => hv v (by simp [Exp.fv, h])) h1,
        genE_in ho hfn hpr hloc ht e (fun y hy => hl y (by simp [localsE, hy])) ?_ hp h2⟩
      exact or_erase hx fun y hy => hv y (by rw [Exp.fv]; exact Finset.mem_union_right _ hy)
    · cases h
  | .case x bs, sl, c, m, hl, hv, hp, h => by
    rw [genE] at h
    split at h
    · next ls ls' n h1 =>
      cases h
      have hx := (hv x (by simp [Exp.fv])).resolve_right hp.1
      obtain ⟨h3, h4⟩ := genBs_in ho hfn hpr hloc ht bs hl (fun y hy => hv y (by rw [Exp.fv]; exact Finset.mem_insert_of_mem hy)) hp.2 h1
      exact caseSwitch_in ho hx h3 h4
    · cases h
  | .proj x t n v e, sl, c, m, hl, hv, hp, h => by
    rw [genE] at h
    split at h
    · next s n h1 =>
      cases h
      have hx := hl x (by simp [localsE])
      refine ⟨⟨⟨x, hx, rfl⟩, fieldE_in ((hv v (by simp [Exp.fv])).resolve_right hp.1) _⟩,
        genE_in ho hfn hpr hloc ht e (fun y hy => hl y (by simp [localsE, hy])) ?_ hp.2 h1⟩
      exact or_erase hx fun y hy => hv y (by rw [Exp.fv]; exact Finset.mem_insert_of_mem hy)
    · cases h
  | .letapp x f t vs e, sl, c, m, hl, hv, hp, h => by
    rw [genE] at h
    split at h
    · next a ind hi =>
      split at h
      · next asgn d h1 h2 =>
        split at h
        · next s n h3 =>
          cases h
          have hx := hl x (by simp [localsE])
          have hvs : ∀ v ∈ vs, T v ∨ v ∈ fns := fun v h => hv v (by simp [Exp.fv, h])
          refine ⟨asgnAppVars_in ho hfn hvs h1, aroundCall_in ho hloc
            (mkCall_in ho hfn hx (makeVar_in hfn (hv f (by simp [Exp.fv]))) hvs h2)
            (genE_in ho hfn hpr hloc ht e (fun y hy => hl y (by simp [localsE, hy])) ?_ hp h3)⟩
          exact or_erase hx fun y hy => hv y (by rw [Exp.fv]; exact Finset.mem_insert_of_mem (Finset.mem_union_right _ hy))
        · cases h
      · cases h
    · cases h
  | .fn B e, sl, c, m, hl, hv, hp, h => by rw [genE] at h; cases h
  | .app f t vs, sl, c, m, hl, hv, hp, h => by
    rw [genE] at h
    split at h
    · next a ind hi =>
      split at h
      · next asgn d h1 h2 =>
        cases h
        have hr := ht hp
        have hvs : ∀ v ∈ vs, T v ∨ v ∈ fns := fun v h => hv v (by simp [Exp.fv, h])
        exact ⟨asgnAppVars_in ho hfn hvs h1, saveAlloc_in ho, saveLimit_in ho,
          mkCall_in ho hfn hr (makeVar_in hfn (hv f (by simp [Exp.fv]))) hvs h2, makeVar_in hfn (.inl hr)⟩
      · cases h
    · cases h
  | .primVal x p e, sl, c, m, hl, hv, hp, h => by
    rw [genE] at h
    split at h
    · next d s n h1 h2 =>
      cases h
      have hx := hl x (by simp [localsE])
      refine ⟨?_, genE_in ho hfn hpr hloc ht e (fun y hy => hl y (by simp [localsE, hy])) (or_erase hx hv) hp h2⟩
      unfold compilePrim at h1
      split at h1
      · cases h1; exact ⟨⟨x, hx, rfl⟩, trivial⟩
      · cases h1
    · cases h
  | .prim x p vs e, sl, c, m, hl, hv, hp, h => by
    rw [genE] at h
    have hx := hl x (by simp [localsE])
    have hvs : ∀ v ∈ vs, T v ∨ v ∈ fns := fun v h => hv v (by simp [Exp.fv, h])
    have hev := or_erase (F := e.fv) (fns := fns) hx fun y hy => hv y (by rw [Exp.fv]; exact Finset.mem_union_right _ hy)
    split at h
    · next hq =>
      split at h
      · next d s n h1 h2 =>
        cases h
        exact ⟨mkPrimCall_in hfn hx (hpr p (by simp [hq])) hvs h1,
          genE_in ho hfn hpr hloc ht e (fun y hy => hl y (by simp [localsE, hy])) hev hp h2⟩
      · cases h
    · next hq =>
      split at h
      · next d s n h1 h2 =>
        cases h
        exact aroundCall_in ho hloc (mkPrimCallTinfo_in ho hfn hx (hpr p (by simp [hq])) hvs h1)
          (genE_in ho hfn hpr hloc ht e (fun y hy => hl y (by simp [localsE, hy])) hev hp h2)
      · cases h
    · cases h
  | .halt x, sl, c, m, hl, hv, hp, h => by
    rw [genE] at h
    cases h
    exact ⟨saveAlloc_in ho, saveLimit_in ho, makeVar_in hfn (hv x (by simp [Exp.fv]))⟩
theorem genBs_in (ho : Own T V) {C : Cfg} {fenv : FEnv} {fns : List Var} (hfn : ∀ f ∈ fns, V f) (hpr : ∀ p, C.prims p ≠ none → V p)
    {loc : Finset Var} (hloc : ∀ x ∈ loc, T x) {tail : Bool} (ht : tail = true → T C.result) : ∀ (bs : Brs) {sl : Nat} {ls ls' : LS} {m : Nat},
    (∀ x ∈ localsBs bs, T x) → (∀ x ∈ bs.fv, T x ∨ x ∈ fns) → PlainBs fns tail bs → genBs N C fenv fns loc bs sl = some (ls, ls', m) →
    WL ls ∧ WL ls'
  | .nil, sl, ls, ls', m, hl, hv, hp, h => by
    rw [genBs] at h
    cases h
    exact ⟨trivial, trivial⟩
  | .cons t e bs, sl, ls, ls', m, hl, hv, hp, h => by
    rw [genBs] at h
    rw [localsBs] at hl
    rw [Brs.fv] at hv
    split at h
    · next s n l1 l2 n' h1 h2 =>
      have h3 := genE_in ho hfn hpr hloc ht e (fun y hy => hl y (List.mem_append_left _ hy)) (fun y hy => hv y (Finset.mem_union_left _ hy)) hp.1 h1
      obtain ⟨h4, h5⟩ := genBs_in ho hfn hpr hloc ht bs (fun y hy => hl y (List.mem_append_right _ hy))
        (fun y hy => hv y (Finset.mem_union_right _ hy)) hp.2 h2
      split at h
      · split at h <;> (cases h; exact ⟨⟨⟨h3, trivial⟩, h4⟩, h5⟩)
      · split at h <;> (cases h; exact ⟨h4, ⟨h3, trivial⟩, h5⟩)
      · cases h
    · cases h
end

end CGen.Text
