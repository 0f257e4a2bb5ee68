import Verif.IR.Model
import Verif.ANF.SemProps

/-!
# Programs that differ in the tags of functions compute the same, unless one goes wrong
-/

namespace IR
open ANF

mutual
/-- The second value is the first one without tags of functions. -/
inductive VR : Val → Val → Prop
  | constr {t vs ws} : VRs vs ws → VR (.constr t vs) (.constr t ws)
  | prim {p} : VR (.prim p) (.prim p)
  | fn {ρ ρ' B f} : (∀ x, VRo (ρ x) (ρ' x)) → VR (.fn ρ B f) (.fn ρ' (untagD B) f)
inductive VRs : List Val → List Val → Prop
  | nil : VRs [] []
  | cons {v w vs ws} : VR v w → VRs vs ws → VRs (v :: vs) (w :: ws)
inductive VRo : Option Val → Option Val → Prop
  | none : VRo none none
  | some {v w} : VR v w → VRo (some v) (some w)
end

/-- Environments. -/
def ER (ρ ρ' : Env) : Prop := ∀ x, VRo (ρ x) (ρ' x)

/-- Outcomes; a program that goes wrong may do anything without tags. -/
def ResR : Res → Res → Prop
  | .stuck, _ => True
  | .oot, .oot => True
  | .val v, .val w => VR v w
  | _, _ => False

theorem ER.set {ρ ρ' : Env} {x : Var} {v w : Val} (h : ER ρ ρ') (hv : VR v w) : ER (ρ.set x v) (ρ'.set x w) := by
  intro y
  unfold Env.set
  split
  · exact .some hv
  · exact h y

theorem getList_rel {ρ ρ' : Env} (h : ER ρ ρ') : ∀ {ys : List Var} {vs : List Val}, getList ρ ys = some vs → ∃ ws, getList ρ' ys = some ws ∧ VRs vs ws
  | [], vs, hg => by cases hg; exact ⟨[], rfl, .nil⟩
  | y :: ys, vs, hg => by
    simp only [getList] at hg
    split at hg
    · next v vs' h1 h2 =>
      cases hg
      obtain ⟨ws, h3, h4⟩ := getList_rel h h2
      have := h y
      rw [h1] at this
      cases hw : ρ' y with
      | none => rw [hw] at this; cases this
      | some w =>
        rw [hw] at this
        cases this with
        | some hv => exact ⟨w :: ws, by simp [getList, hw, h3], .cons hv h4⟩
    · cases hg

theorem setLists_rel : ∀ {xs : List Var} {vs ws : List Val} {ρ ρ' ρ1 : Env}, ER ρ ρ' → VRs vs ws → setLists xs vs ρ = some ρ1 →
    ∃ ρ1', setLists xs ws ρ' = some ρ1' ∧ ER ρ1 ρ1'
  | [], _, _, ρ, ρ', ρ1, h, .nil, hs => by cases hs; exact ⟨ρ', rfl, h⟩
  | [], _, _, ρ, ρ', ρ1, h, .cons _ _, hs => by cases hs
  | x :: xs, _, _, ρ, ρ', ρ1, h, .nil, hs => by cases hs
  | x :: xs, _, _, ρ, ρ', ρ1, h, .cons hv hvs, hs => by
    simp only [setLists] at hs
    split at hs
    · next ρ2 h2 =>
      cases hs
      obtain ⟨ρ2', h3, h4⟩ := setLists_rel h hvs h2
      exact ⟨_, by simp [setLists, h3], h4.set hv⟩
    · cases hs

theorem defFuns_rel {ρ ρ' : Env} (B0 : Defs) (h : ER ρ ρ') : ∀ (B : Defs) {ρ1 ρ1' : Env}, ER ρ1 ρ1' →
    ER (defFuns B0 B ρ ρ1) (defFuns (untagD B0) (untagD B) ρ' ρ1')
  | .nil, _, _, h1 => h1
  | .cons f _ _ _ B, _, _, h1 => (defFuns_rel B0 h B h1).set (.fn h)

theorem findDef_rel {f : Var} : ∀ {B : Defs} {ft : Tag} {xs : List Var} {e : Exp}, findDef f B = some (ft, xs, e) →
    findDef f (untagD B) = some (0, xs, untag e)
  | .nil, _, _, _, h => by cases h
  | .cons f' t ys e' B, ft, xs, e, h => by
    simp only [findDef] at h
    simp only [untagD, findDef]
    split at h
    · next hf => cases h; simp [hf]
    · next hf => simp only [hf, if_false]; exact findDef_rel h

theorem callee_rel {ρ ρ' ρ1 : Env} {f : Var} {ft : Tag} {ys : List Var} {e : Exp} (h : ER ρ ρ') (hc : callee ρ f ft ys = some (ρ1, e)) :
    ∃ ρ1', callee ρ' f 0 ys = some (ρ1', untag e) ∧ ER ρ1 ρ1' := by
  unfold callee at hc
  split at hc
  · next ρ2 B f' vs h1 h2 =>
    obtain ⟨ws, h3, h4⟩ := getList_rel h h2
    have hf := h f
    rw [h1] at hf
    cases hw : ρ' f with
    | none => rw [hw] at hf; cases hf
    | some w =>
      rw [hw] at hf
      cases hf with
      | some hv =>
        cases hv with
        | fn hρ =>
          split at hc
          · next ft' xs eb h5 =>
            split at hc
            · cases hs : setLists xs vs (defFuns B B ρ2 ρ2) with
              | none => rw [hs] at hc; cases hc
              | some ρ3 =>
                rw [hs] at hc
                cases hc
                obtain ⟨ρ3', h6, h7⟩ := setLists_rel (defFuns_rel B hρ B hρ) h4 hs
                exact ⟨ρ3', by simp [callee, hw, h3, findDef_rel h5, h6], h7⟩
            · cases hc
          · cases hc
  · cases hc

theorem asPrims_rel : ∀ {vs ws : List Val} {ps : List PVal}, VRs vs ws → asPrims vs = some ps → asPrims ws = some ps
  | _, _, _, .nil, h => h
  | _, _, _, .cons .prim hvs, h => by
    simp only [asPrims, Option.map_eq_some_iff] at h ⊢
    obtain ⟨qs, h1, h2⟩ := h
    exact ⟨qs, asPrims_rel hvs h1, h2⟩
  | _, _, _, .cons (.constr _) _, h => by cases h
  | _, _, _, .cons (.fn _) _, h => by cases h

mutual
theorem toVal_rel : ∀ a : FO, VR a.toVal a.toVal
  | .con t vs => by rw [FO.toVal]; exact .constr (toVals_rel vs)
  | .prim p => by rw [FO.toVal]; exact .prim
theorem toVals_rel : ∀ vs : List FO, VRs (FO.toVals vs) (FO.toVals vs)
  | [] => by rw [FO.toVals]; exact .nil
  | v :: vs => by rw [FO.toVals]; exact .cons (toVal_rel v) (toVals_rel vs)
end

mutual
/-- Data without functions are only related to themselves. -/
theorem toVal_left : ∀ (a : FO) (w : Val), VR a.toVal w → w = a.toVal
  | .con t vs, w, h => by
    rw [FO.toVal] at h ⊢
    cases h with
    | constr h => rw [toVals_left vs _ h]
  | .prim p, w, h => by
    rw [FO.toVal] at h ⊢
    cases h; rfl
theorem toVals_left : ∀ (vs : List FO) (ws : List Val), VRs (FO.toVals vs) ws → ws = FO.toVals vs
  | [], ws, h => by rw [FO.toVals] at h ⊢; cases h; rfl
  | v :: vs, ws, h => by
    rw [FO.toVals] at h ⊢
    cases h with
    | cons h1 h2 => rw [toVal_left v _ h1, toVals_left vs _ h2]
end

mutual
theorem toVal_right : ∀ (a : FO) (w : Val), VR w a.toVal → w = a.toVal
  | .con t vs, w, h => by
    rw [FO.toVal] at h ⊢
    cases h with
    | constr h => rw [toVals_right vs _ h]
  | .prim p, w, h => by
    rw [FO.toVal] at h ⊢
    cases h; rfl
theorem toVals_right : ∀ (vs : List FO) (ws : List Val), VRs ws (FO.toVals vs) → ws = FO.toVals vs
  | [], ws, h => by rw [FO.toVals] at h ⊢; cases h; rfl
  | v :: vs, ws, h => by
    rw [FO.toVals] at h ⊢
    cases h with
    | cons h1 h2 => rw [toVal_right v _ h1, toVals_right vs _ h2]
end

theorem tags_untag : ∀ bs : Brs, (untagB bs).tags = bs.tags
  | .nil => rfl
  | .cons t e bs => by simp [untagB, Brs.tags, tags_untag bs]

theorem nth_rel : ∀ {vs ws : List Val} {n : Nat} {v : Val}, VRs vs ws → vs[n]? = some v → ∃ w, ws[n]? = some w ∧ VR v w
  | _, _, _, _, .nil, h => by simp at h
  | _, _, 0, _, .cons hv _, h => by simp at h; subst h; exact ⟨_, rfl, hv⟩
  | _, _, n + 1, _, .cons _ hvs, h => by simpa using nth_rel hvs (by simpa using h)

/-- What is asked of the calls. -/
def CallR (call call' : Env → Exp → Res) : Prop := ∀ ρ ρ' e, ER ρ ρ' → ResR (call ρ e) (call' ρ' (untag e))

theorem lookup_rel {ρ ρ' : Env} {x : Var} {v : Val} (h : ER ρ ρ') (hx : ρ x = some v) : ∃ w, ρ' x = some w ∧ VR v w := by
  have := h x
  rw [hx] at this
  cases hw : ρ' x with
  | none => rw [hw] at this; cases this
  | some w => rw [hw] at this; cases this with | some hv => exact ⟨w, rfl, hv⟩

mutual
theorem evalE_rel {S : Sig} {call call' : Env → Exp → Res} (hc : CallR call call') : ∀ (e : Exp) {ρ ρ' : Env}, ER ρ ρ' →
    ResR (evalE S call e ρ) (evalE S call' (untag e) ρ')
  | .constr x t ys e, ρ, ρ', h => by
    simp only [evalE, untag]
    cases hg : getList ρ ys with
    | none => trivial
    | some vs =>
      obtain ⟨ws, h1, h2⟩ := getList_rel h hg
      simp only [h1]
      exact evalE_rel hc e (h.set (.constr h2))
  | .case y bs, ρ, ρ', h => by
    simp only [evalE, untag]
    cases hy : ρ y with
    | none => trivial
    | some v =>
      obtain ⟨w, h1, h2⟩ := lookup_rel h hy
      cases h2 with
      | constr h3 =>
        simp only [h1, tags_untag]
        split
        · exact evalB_rel hc _ bs h
        · trivial
      | prim => trivial
      | fn _ => trivial
  | .proj x t n y e, ρ, ρ', h => by
    simp only [evalE, untag]
    cases hy : ρ y with
    | none => trivial
    | some v =>
      obtain ⟨w, h1, h2⟩ := lookup_rel h hy
      cases h2 with
      | @constr t' vs ws h3 =>
        simp only [h1]
        split
        · cases hn : vs[n]? with
          | none => trivial
          | some v =>
            obtain ⟨w, h4, h5⟩ := nth_rel h3 hn
            simp only [h4]
            exact evalE_rel hc e (h.set h5)
        · trivial
      | prim => trivial
      | fn _ => trivial
  | .letapp x f ft ys e, ρ, ρ', h => by
    simp only [evalE, untag]
    cases hf : callee ρ f ft ys with
    | none => trivial
    | some p =>
      obtain ⟨ρ1, eb⟩ := p
      obtain ⟨ρ1', h1, h2⟩ := callee_rel h hf
      simp only [h1]
      have h3 := hc _ _ eb h2
      cases h4 : call ρ1 eb with
      | stuck => trivial
      | oot =>
        rw [h4] at h3
        cases h5 : call' ρ1' (untag eb) <;> rw [h5] at h3 <;> first | trivial | exact h3.elim
      | val v =>
        rw [h4] at h3
        cases h5 : call' ρ1' (untag eb) <;> rw [h5] at h3
        · exact evalE_rel hc e (h.set h3)
        · exact h3.elim
        · exact h3.elim
  | .fn B e, ρ, ρ', h => by
    simp only [evalE, untag]
    exact evalE_rel hc e (defFuns_rel B h B h)
  | .app f ft ys, ρ, ρ', h => by
    simp only [evalE, untag]
    cases hf : callee ρ f ft ys with
    | none => trivial
    | some p =>
      obtain ⟨ρ1, eb⟩ := p
      obtain ⟨ρ1', h1, h2⟩ := callee_rel h hf
      simp only [h1]
      exact hc _ _ eb h2
  | .primVal x p e, ρ, ρ', h => by
    simp only [evalE, untag]
    exact evalE_rel hc e (h.set .prim)
  | .prim x p ys e, ρ, ρ', h => by
    simp only [evalE, untag]
    cases hg : getList ρ ys with
    | none => trivial
    | some vs =>
      obtain ⟨ws, h1, h2⟩ := getList_rel h hg
      simp only [h1]
      cases ho : S.op p vs with
      | none => trivial
      | some v =>
        unfold Sig.op at ho
        cases ha : asPrims vs with
        | none => rw [ha] at ho; cases ho
        | some ps =>
          rw [ha] at ho
          simp only [Option.map_eq_some_iff] at ho
          obtain ⟨a, h3, rfl⟩ := ho
          have h4 : S.op p ws = some a.toVal := by simp [Sig.op, asPrims_rel h2 ha, h3]
          simp only [h4]
          exact evalE_rel hc e (h.set (toVal_rel a))
  | .halt x, ρ, ρ', h => by
    simp only [evalE, untag]
    cases hx : ρ x with
    | none => trivial
    | some v =>
      obtain ⟨w, h1, h2⟩ := lookup_rel h hx
      simp only [h1]
      exact h2
theorem evalB_rel {S : Sig} {call call' : Env → Exp → Res} (hc : CallR call call') (t : Tag) : ∀ (bs : Brs) {ρ ρ' : Env}, ER ρ ρ' →
    ResR (evalB S call t bs ρ) (evalB S call' t (untagB bs) ρ')
  | .nil, ρ, ρ', h => by simp only [evalB]; trivial
  | .cons t' e bs, ρ, ρ', h => by
    simp only [evalB, untagB]
    split
    · exact evalE_rel hc e h
    · exact evalB_rel hc t bs h
end

theorem run_rel (S : Sig) : ∀ (n : Nat) (ρ ρ' : Env) (e : Exp), ER ρ ρ' → ResR (run S n ρ e) (run S n ρ' (untag e))
  | 0, ρ, ρ', e, h => evalE_rel (call := fun _ _ => .oot) (call' := fun _ _ => .oot) (fun _ _ _ _ => trivial) e h
  | n + 1, ρ, ρ', e, h => evalE_rel (fun ρ ρ' e h => run_rel S n ρ ρ' e h) e h

theorem emp_rel : ER emp emp := fun _ => .none

end IR
