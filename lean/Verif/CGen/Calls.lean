import Verif.CGen.Frag

/-!
# Calls in compiled programs

The backend refuses a program in which two calls through one tag pass different numbers of arguments, so the calls of a
compiled program agree with the table of function tags.  (It does not refuse all functions that take another number of
arguments than their tag says.)
-/

namespace CGen

open ANF

variable {C : Cfg} {fenv : FEnv} {fns : List Var} {loc : Finset Var} {cenv : Ctor.PMap Ctor.Info}

/-- The number of arguments the table gives for a tag. -/
def arOf (m : FEnv) (t : Tag) : Nat := match m t with
  | some (a, _) => a
  | none => 0

/-- Every entry of the table is a number of arguments, at most 1024, and the positions of that many arguments. -/
def FenvWf (m : FEnv) : Prop := ∀ t a ind, m t = some (a, ind) → ind = List.range a ∧ a ≤ maxArgs

theorem FenvWf.ok {m} (h : FenvWf m) : FenvOk (arOf m) m := by
  intro t a ind ht
  have : arOf m t = a := by rw [arOf, ht]
  rw [this]
  exact ⟨rfl, (h t a ind ht).1⟩

theorem FenvWf.le {m} (h : FenvWf m) (t : Tag) : arOf m t ≤ maxArgs := by
  unfold arOf
  split
  · next a ind ht => exact (h t a ind ht).2
  · exact Nat.zero_le _

theorem FenvWf.set {m} (h : FenvWf m) {t : Tag} {vs : List Var} (hl : vs.length ≤ 1024) :
    FenvWf (m.set t (vs.length, makeArgList vs)) := by
  intro u a ind hu
  unfold FEnv.set at hu
  split at hu
  · simp only [Option.some.injEq, Prod.mk.injEq] at hu
    obtain ⟨rfl, rfl⟩ := hu
    exact ⟨makeArgList_eq vs, hl⟩
  · exact h u a ind hu

theorem seenBs_toList : ∀ {bs : Brs}, SeenBs cenv bs → ∀ te ∈ bs.toList, SeenE cenv te.2 := by
  intro bs
  induction bs using Brs.ind with
  | nil => intro _ te h; simp [Brs.toList] at h
  | cons t e bs ih =>
    intro h te hte
    simp only [SeenBs] at h
    simp only [Brs.toList, List.mem_cons] at hte
    rcases hte with rfl | hte
    · exact h.2.1
    · exact ih h.2.2 te hte

mutual
theorem funEnvE_wf : ∀ (n : Nat) (e : Exp) (m : FEnv), SeenE cenv e → FenvWf m → FenvWf (funEnvE n e m)
  | 0, _, _, _, hm => by simpa [funEnvE] using hm
  | n + 1, .constr _ _ _ e, m, h, hm => by
    simp only [SeenE] at h; simp only [funEnvE]; exact funEnvE_wf n e m h.2 hm
  | n + 1, .case _ bs, m, h, hm => by
    simp only [SeenE] at h
    simp only [funEnvE]
    have hb := seenBs_toList h
    generalize bs.toList = L at hb
    induction L generalizing m with
    | nil => exact hm
    | cons te L ih =>
      rw [List.foldl_cons]
      exact ih _ (funEnvE_wf n te.2 m (hb te (by simp)) hm) (fun u hu => hb u (List.mem_cons_of_mem _ hu))
  | n + 1, .proj _ _ _ _ e, m, h, hm => by
    simp only [SeenE] at h; simp only [funEnvE]; exact funEnvE_wf n e m h hm
  | n + 1, .letapp _ _ t vs e, m, h, hm => by
    simp only [SeenE] at h; simp only [funEnvE]; exact funEnvE_wf n e _ h.2 (hm.set h.1)
  | n + 1, .fn B e, m, h, hm => by
    simp only [SeenE] at h; simp only [funEnvE]; exact funEnvE_wf n e _ h.2 (funEnvB_wf n B m h.1 hm)
  | _ + 1, .app _ t vs, m, h, hm => by
    simp only [SeenE] at h; simp only [funEnvE]; exact hm.set h
  | n + 1, .primVal _ _ e, m, h, hm => by
    simp only [SeenE] at h; simp only [funEnvE]; exact funEnvE_wf n e m h.2 hm
  | n + 1, .prim _ _ _ e, m, h, hm => by
    simp only [SeenE] at h; simp only [funEnvE]; exact funEnvE_wf n e m h hm
  | _ + 1, .halt _, m, _, hm => by simpa [funEnvE] using hm
theorem funEnvB_wf : ∀ (n : Nat) (B : Defs) (m : FEnv), SeenB cenv B → FenvWf m → FenvWf (funEnvB n B m)
  | 0, _, _, _, hm => by simpa [funEnvB] using hm
  | _ + 1, .nil, m, _, hm => by simpa [funEnvB] using hm
  | n + 1, .cons _ t vs e B, m, h, hm => by
    simp only [SeenB] at h; simp only [funEnvB]
    exact funEnvB_wf n B _ h.2.2 (funEnvE_wf n e _ h.2.1 (hm.set h.1))
end

theorem funEnv_wf {e} (h : SeenE cenv e) : FenvWf (funEnv e) := funEnvE_wf _ e _ h (fun _ _ _ h => by cases h)

theorem asgnAppVars'_len : ∀ {vs : List Var} {ind : List Nat} {st}, asgnAppVars' fns vs ind = some st → vs.length = ind.length
  | [], [], _, _ => rfl
  | _ :: vs, _ :: ind, _, h => by
    simp only [asgnAppVars', Option.map_eq_some_iff] at h
    obtain ⟨_, h, _⟩ := h
    simp [asgnAppVars'_len h]
  | [], _ :: _, _, h => by simp [asgnAppVars'] at h
  | _ :: _, [], _, h => by simp [asgnAppVars'] at h

theorem mkCallVars_len {n : Nat} {vs : List Var} {es} (h : mkCallVars fns n vs = some es) : n = vs.length := (mkCallVars_spec (me := 0) h).1

/-- A call that is accepted passes as many arguments as the table says. -/
theorem call_len {vs : List Var} {a np : Nat} {ind : List Nat} {st es} (hi : ind = List.range a) (h1 : asgnAppVars np fns vs ind = some st)
    (h2 : mkCallVars fns (min a np) (vs.take np) = some es) : vs.length = a := by
  simp only [asgnAppVars, Option.map_eq_some_iff] at h1
  obtain ⟨_, h1, _⟩ := h1
  have h3 := asgnAppVars'_len h1
  have h4 := mkCallVars_len h2
  subst hi
  simp only [List.length_drop, List.length_range, List.length_take] at h3 h4
  omega

mutual
theorem calls_trE (hf : FenvOk (arOf fenv) fenv) : ∀ (e : Exp) (sl : Nat) (s : CStmt) (n : Nat), trE C fenv fns loc e sl = some (s, n) → SeenE cenv e →
    OkE cenv (arOf fenv) e
  | .constr x t ys e, sl, s, n, h, hs => by
    simp only [trE] at h
    split at h
    case h_2 => cases h
    rename_i h1
    exact ⟨hs.1, calls_trE hf e _ _ _ h1 hs.2⟩
  | .case x bs, sl, s, n, h, hs => by
    simp only [trE] at h
    split at h
    case h_2 => cases h
    rename_i h1
    simp only [SeenE] at hs
    simp only [OkE]
    exact calls_trBs hf bs _ _ _ _ h1 hs
  | .proj x t k y e, sl, s, n, h, hs => by
    simp only [trE] at h
    split at h
    case h_2 => cases h
    rename_i h1
    simp only [SeenE] at hs
    simp only [OkE]
    exact calls_trE hf e _ _ _ h1 hs
  | .letapp x f t ys e, sl, s, n, h, hs => by
    simp only [trE] at h
    split at h
    case h_2 => cases h
    rename_i a ind hft
    obtain ⟨rfl, hi⟩ := hf t a ind hft
    split at h
    case h_2 => cases h
    rename_i asgn c h1 h2
    split at h
    case h_2 => cases h
    rename_i h3
    simp only [mkCall, Option.map_eq_some_iff] at h2
    obtain ⟨es, h2, _⟩ := h2
    exact ⟨call_len hi h1 h2, calls_trE hf e _ _ _ h3 hs.2⟩
  | .fn B e, sl, s, n, h, hs => by simp [trE] at h
  | .app f t ys, sl, s, n, h, hs => by
    simp only [trE] at h
    split at h
    case h_2 => cases h
    rename_i a ind hft
    obtain ⟨rfl, hi⟩ := hf t a ind hft
    split at h
    case h_2 => cases h
    rename_i asgn c h1 h2
    simp only [mkCall, Option.map_eq_some_iff] at h2
    obtain ⟨es, h2, _⟩ := h2
    exact call_len hi h1 h2
  | .primVal x p e, sl, s, n, h, hs => by
    simp only [trE] at h
    split at h
    case h_2 => cases h
    rename_i h1
    exact ⟨hs.1, calls_trE hf e _ _ _ h1 hs.2⟩
  | .prim x p ys e, sl, s, n, h, hs => by
    simp only [SeenE] at hs
    simp only [OkE]
    simp only [trE] at h
    split at h
    · split at h
      case h_2 => cases h
      rename_i h1
      exact calls_trE hf e _ _ _ h1 hs
    · split at h
      case h_2 => cases h
      rename_i h1
      exact calls_trE hf e _ _ _ h1 hs
    · cases h
  | .halt x, sl, s, n, h, hs => trivial
theorem calls_trBs (hf : FenvOk (arOf fenv) fenv) : ∀ (bs : Brs) (sl : Nat) (l l' : LStmt) (n : Nat), trBs C fenv fns loc bs sl = some (l, l', n) →
    SeenBs cenv bs → OkBs cenv (arOf fenv) bs
  | .nil, _, _, _, _, _, _ => trivial
  | .cons t e bs, sl, l, l', n, h, hs => by
    simp only [trBs] at h
    split at h
    case h_2 => cases h
    rename_i h1 h2
    exact ⟨hs.1, calls_trE hf e _ _ _ h1 hs.2.1, calls_trBs hf bs _ _ _ _ h2 hs.2.2⟩
end

theorem calls_trDef (hf : FenvOk (arOf fenv) fenv) {f : Var} {t : Tag} {xs : List Var} {e : Exp} {F : CFun} (h : trDef C fenv fns f t xs e = some F)
    (hs : SeenE cenv e) : OkE cenv (arOf fenv) e := by
  simp only [trDef] at h
  split at h
  · cases h
  split at h
  case h_2 => cases h
  rename_i h1
  exact calls_trE hf e _ _ _ h1 hs

end CGen
