import Verif.CGen.Cps.Model
import Verif.CGen.Calls

/-! # Calls in programs compiled by the backend for continuation-passing style -/

namespace CGen.Cps

open ANF

variable {C : Cfg} {fenv : FEnv} {fns : List Var} {cenv : Ctor.PMap Ctor.Info}

mutual
theorem calls_trV (hf : FenvOk (arOf fenv) fenv) : ∀ (e : Exp) (s : VStmt), trV C fenv fns e = some s → SeenE cenv e → OkE cenv (arOf fenv) e
  | .constr x t ys e, s, h, hs => by
    simp only [trV] at h
    split at h
    case h_2 => cases h
    rename_i h1
    exact ⟨hs.1, calls_trV hf e _ h1 hs.2⟩
  | .case x bs, s, h, hs => by
    simp only [trV] at h
    split at h
    case h_2 => cases h
    rename_i h1
    simp only [SeenE] at hs
    simp only [OkE]
    exact calls_trVs hf bs _ _ h1 hs
  | .proj x t k y e, s, h, hs => by
    simp only [trV] at h
    split at h
    case h_2 => cases h
    rename_i h1
    simp only [SeenE] at hs
    simp only [OkE]
    exact calls_trV hf e _ h1 hs
  | .letapp x f t ys e, s, h, hs => by
    simp only [trV] at h
    split at h
    case h_2 => cases h
    rename_i s' a ind h3 hft
    obtain ⟨rfl, hi⟩ := hf t a ind hft
    split at h
    case h_2 => cases h
    rename_i asgn c h1 h2
    simp only [mkCallV, Option.map_eq_some_iff] at h2
    obtain ⟨es, h2, _⟩ := h2
    exact ⟨call_len hi h1 h2, calls_trV hf e _ h3 hs.2⟩
  | .fn B e, s, h, hs => by simp [trV] at h
  | .app f t ys, s, h, hs => by
    simp only [trV] at h
    split at h
    case h_2 => cases h
    rename_i a ind hft
    obtain ⟨rfl, hi⟩ := hf t a ind hft
    split at h
    case h_2 => cases h
    rename_i asgn c h1 h2
    simp only [mkCallV, Option.map_eq_some_iff] at h2
    obtain ⟨es, h2, _⟩ := h2
    exact call_len hi h1 h2
  | .primVal x p e, s, h, hs => by
    simp only [trV] at h
    split at h
    case h_2 => cases h
    rename_i h1
    exact ⟨hs.1, calls_trV hf e _ h1 hs.2⟩
  | .prim x p ys e, s, h, hs => by
    simp only [SeenE] at hs
    simp only [OkE]
    simp only [trV] at h
    split at h
    · rename_i h1; exact calls_trV hf e _ h1 hs
    · rename_i h1; exact calls_trV hf e _ h1 hs
    · cases h
  | .halt x, s, h, hs => trivial
theorem calls_trVs (hf : FenvOk (arOf fenv) fenv) : ∀ (bs : Brs) (l l' : VL), trVs C fenv fns bs = some (l, l') →
    SeenBs cenv bs → OkBs cenv (arOf fenv) bs
  | .nil, _, _, _, _ => trivial
  | .cons t e bs, l, l', h, hs => by
    simp only [trVs] at h
    split at h
    case h_2 => cases h
    rename_i h1 h2
    exact ⟨hs.1, calls_trV hf e _ h1 hs.2.1, calls_trVs hf bs _ _ h2 hs.2.2⟩
end

theorem calls_trVDef (hf : FenvOk (arOf fenv) fenv) {f : Var} {t : Tag} {xs : List Var} {e : Exp} {F : VFun} (h : trVDef C fenv fns f t xs e = some F)
    (hs : SeenE cenv e) : OkE cenv (arOf fenv) e := by
  simp only [trVDef] at h
  split at h
  · cases h
  split at h
  case h_2 => cases h
  rename_i h1 _ _
  exact calls_trV hf e _ h1 hs

end CGen.Cps
