import Verif.ANF.SemLemmas

/-!
# What a transformation has to preserve

The specification used by all pass theorems: the constructor tree a program computes (functions are opaque leaves), and
divergence.
-/

namespace ANF

/-- Values that represent a function: functions and closure records (closure conversion turns the first into the
second). -/
inductive FnLike : Val → Prop
  | fn {ρ B f} : FnLike (.fn ρ B f)
  | clo {v w} : FnLike v → FnLike (.constr Ctor.cloTag [v, w])

/-- Two values look the same to an observer who can inspect constructors and primitives but not functions: a function is
replaced by something that represents a function. -/
inductive Obs : Val → Val → Prop
  | constr {t : Tag} {vs vs' : List Val} (len : vs.length = vs'.length)
      (args : ∀ (i : Nat) v v', vs[i]? = some v → vs'[i]? = some v' → Obs v v') : Obs (.constr t vs) (.constr t vs')
  | prim {p : PVal} : Obs (.prim p) (.prim p)
  | fn {ρ B f v} : FnLike v → Obs (.fn ρ B f) v

/-- A transformed closed program returns a value that looks the same whenever the original returns, and diverges
whenever the original diverges. -/
def Preserves (S : Sig) (e : Exp) (S' : Sig) (e' : Exp) : Prop :=
  (∀ v, Returns S emp e v → ∃ v', Returns S' emp e' v' ∧ Obs v v') ∧ (Diverges S emp e → Diverges S' emp e')

mutual
theorem FO.obs_eq : ∀ (d : FO) (v : Val), Obs d.toVal v → v = d.toVal
  | .con t ds, v, h => by
    simp only [FO.toVal] at h ⊢
    cases h with | constr len args => rw [FO.obs_eqs ds _ len.symm args]
  | .prim p, v, h => by simp only [FO.toVal] at h ⊢; cases h; rfl
theorem FO.obs_eqs : ∀ (ds : List FO) (vs : List Val), vs.length = (FO.toVals ds).length →
    (∀ (i : Nat) v v', (FO.toVals ds)[i]? = some v → vs[i]? = some v' → Obs v v') → vs = FO.toVals ds
  | [], vs, len, _ => by
    simp only [FO.toVals] at len ⊢
    exact List.eq_nil_of_length_eq_zero len
  | d :: ds, [], len, _ => by simp [FO.toVals] at len
  | d :: ds, v :: vs, len, h => by
    simp only [FO.toVals] at len h ⊢
    rw [FO.obs_eq d v (h 0 _ _ rfl rfl), FO.obs_eqs ds vs (by simpa using len) (fun i a b ha hb => h (i + 1) a b ha hb)]
end

/-- First-order results are preserved exactly. -/
theorem Preserves.data {S e S' e'} (h : Preserves S e S' e') {d : FO} (hr : Returns S emp e d.toVal) :
    Returns S' emp e' d.toVal := by
  obtain ⟨v', hr', ho⟩ := h.1 _ hr
  rw [FO.obs_eq d v' ho] at hr'
  exact hr'

theorem FnLike.obs {v : Val} (h : FnLike v) : ∀ {w}, Obs v w → FnLike w := by
  induction h with
  | fn => intro w hw; cases hw with | fn h => exact h
  | clo _ ih =>
    intro w hw
    cases hw with
    | @constr _ _ vs' len args =>
      match vs', len with
      | [a, b], _ => exact .clo (ih (args 0 _ _ rfl rfl))

theorem Obs.trans {u v : Val} (h : Obs u v) : ∀ {w}, Obs v w → Obs u w := by
  induction h with
  | constr len args ih =>
    intro w hw
    cases hw with
    | constr len' args' =>
      refine .constr (len.trans len') ?_
      intro i a c ha hc
      have hi : i < _ := (List.getElem?_eq_some_iff.mp ha).1
      rw [len] at hi
      have hb := List.getElem?_eq_getElem hi
      exact ih i a _ ha hb (args' i _ _ hb hc)
  | prim => intro w hw; exact hw
  | fn h => intro w hw; exact .fn (h.obs hw)

mutual
theorem Obs.refl : ∀ v : Val, Obs v v
  | .constr _ vs => .constr rfl (Obs.refls vs)
  | .fn _ _ _ => .fn .fn
  | .prim _ => .prim
theorem Obs.refls : ∀ (vs : List Val) (i : Nat) (v v' : Val), vs[i]? = some v → vs[i]? = some v' → Obs v v'
  | [], _, _, _, h, _ => by simp at h
  | w :: _, 0, v, v', h, h' => by
    have e1 : w = v := by simpa using h
    have e2 : w = v' := by simpa using h'
    rw [← e1, ← e2]; exact Obs.refl w
  | _ :: vs, i + 1, v, v', h, h' => Obs.refls vs i v v' (by simpa using h) (by simpa using h')
end

theorem Preserves.refl (S : Sig) (e : Exp) : Preserves S e S e := ⟨fun v h => ⟨v, h, .refl v⟩, fun h => h⟩

theorem Preserves.trans {S e S' e' S'' e''} (h : Preserves S e S' e') (h' : Preserves S' e' S'' e'') :
    Preserves S e S'' e'' := by
  refine ⟨fun v hv => ?_, fun hd => h'.2 (h.2 hd)⟩
  obtain ⟨v', hr', ho⟩ := h.1 v hv
  obtain ⟨v'', hr'', ho'⟩ := h'.1 v' hr'
  exact ⟨v'', hr'', ho.trans ho'⟩

end ANF
