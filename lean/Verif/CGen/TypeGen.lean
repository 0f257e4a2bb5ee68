import Verif.CGen.TypeLemmas

/-! # The types in generated functions: bodies -/

namespace CGen.Text

open ANF
open CPrint (CE CS LS CTy CTys CFn Name)

variable {N : Names} {Γ : TEnv} {ext : Bool} {T : Var → Prop}

local notation "WS" => TypedS ext Γ val
local notation "WL" => TypedL ext Γ val

theorem boxed_label (o a : Nat) : (Rep.boxed o a).tag % 256 = ((o % 256 : Nat) : Int) := by
  simp only [Rep.tag]
  omega

theorem enum_label (o : Nat) : (Rep.enum o).tag / 2 = (o : Int) := by
  simp only [Rep.tag]
  omega

theorem genBs_labels {C : Cfg} {fenv : FEnv} {fns : List Var} {loc : Finset Var} : ∀ (bs : Brs) {sl : Nat} {ls ls' : LS} {m : Nat},
    genBs N C fenv fns loc bs sl = some (ls, ls', m) → (∀ z, some z ∈ labels ls → ∃ o ∈ (ords C.cenv bs).1, z = (o : Int)) ∧
    (∀ z, some z ∈ labels ls' → ∃ o ∈ (ords C.cenv bs).2, z = (o : Int)) ∧
    ((ords C.cenv bs).1.Nodup → (labels ls).Nodup) ∧ ((ords C.cenv bs).2.Nodup → (labels ls').Nodup)
  | .nil, sl, ls, ls', m, h => by
    rw [genBs] at h
    cases h
    exact ⟨by simp [labels], by simp [labels], by simp [labels], by simp [labels]⟩
  | .cons t e bs, sl, ls, ls', m, h => by
    rw [genBs] at h
    split at h
    · next s n l1 l2 n' h1 h2 =>
      obtain ⟨g1, g2, g3, g4⟩ := genBs_labels bs h2
      split at h
      · next o a hr =>
        have ho : ords C.cenv (.cons t e bs) = (o % 256 :: (ords C.cenv bs).1, (ords C.cenv bs).2) := by rw [ords, hr]
        rw [ho]
        split at h
        · cases h
          exact ⟨by simp [labels], g2, by simp [labels], g4⟩
        · next l s' r =>
          cases h
          rw [boxed_label]
          refine ⟨fun z hz => ?_, g2, fun hn => ?_, g4⟩
          · rw [labels] at hz
            rcases List.mem_cons.1 hz with hz | hz
            · cases hz
              exact ⟨_, List.mem_cons_self, rfl⟩
            · obtain ⟨o', h', rfl⟩ := g1 z hz
              exact ⟨o', List.mem_cons_of_mem _ h', rfl⟩
          · obtain ⟨n1, n2⟩ := List.nodup_cons.1 hn
            rw [labels]
            refine List.nodup_cons.2 ⟨fun hz => ?_, g3 n2⟩
            obtain ⟨o', h', e'⟩ := g1 _ hz
            exact n1 (by rw [Int.ofNat_inj.1 e']; exact h')
      · next o hr =>
        have ho : ords C.cenv (.cons t e bs) = ((ords C.cenv bs).1, o :: (ords C.cenv bs).2) := by rw [ords, hr]
        rw [ho]
        split at h
        · cases h
          exact ⟨g1, by simp [labels], g3, by simp [labels]⟩
        · next l s' r =>
          cases h
          rw [enum_label]
          refine ⟨g1, fun z hz => ?_, g3, fun hn => ?_⟩
          · rw [labels] at hz
            rcases List.mem_cons.1 hz with hz | hz
            · cases hz
              exact ⟨_, List.mem_cons_self, rfl⟩
            · obtain ⟨o', h', rfl⟩ := g2 z hz
              exact ⟨o', List.mem_cons_of_mem _ h', rfl⟩
          · obtain ⟨n1, n2⟩ := List.nodup_cons.1 hn
            rw [labels]
            refine List.nodup_cons.2 ⟨fun hz => ?_, g4 n2⟩
            obtain ⟨o', h', e'⟩ := g2 _ hz
            exact n1 (by rw [Int.ofNat_inj.1 e']; exact h')
      · cases h
    · cases h

theorem or_all {fns vs : List Var} {Q : Prop} (h : ext = true ∨ (∀ v ∈ vs, v ∉ fns) ∧ Q) : ∀ v ∈ vs, ext = true ∨ v ∉ fns :=
  fun v hv => h.imp id fun h => h.1 v hv

mutual
theorem genE_ty (ho : OwnT N Γ T) {C : Cfg} {fenv : FEnv} {fns : List Var} (hfn : ∀ f ∈ fns, ∃ ts va, Γ.vars (N.ext f) (.fn ts va val))
    {P : Tag → Prop} (hpr : ∀ p, P p → ∃ ts va t, Γ.vars (N.ext p) (.fn ts va t))
    {loc : Finset Var} (hloc : ∀ x ∈ loc, T x) {tail : Bool} (ht : tail = true → T C.result ∧ C.result ∉ fns) : ∀ (e : Exp) {sl : Nat} {c : CS} {m : Nat},
    (∀ x ∈ localsE e, T x) → (∀ x ∈ e.fv, T x ∨ x ∈ fns) → PlainE fns tail e → (ext = true ∨ FirstE fns e) → OnceE C.cenv e → (∀ p ∈ primsE e, P p) →
    genE N C fenv fns loc e sl = some (c, m) → WS c
  | .constr x t vs e, sl, c, m, hl, hv, hp, hf, hd, hq, h => by
    rw [genE] at h
    split at h
    · next p s n h1 h2 =>
      cases h
      have hx := hl x (by simp [localsE])
      refine ⟨assignConstructor_ty ho hfn hx (fun v h => hv v (by simp [Exp.fv, h])) (or_all hf) h1,
        genE_ty ho hfn hpr hloc ht e (fun y hy => hl y (by simp [localsE, hy])) ?_ hp (hf.imp id And.right) hd hq h2⟩
      exact or_erase hx fun y hy => hv y (by rw [Exp.fv]; exact Finset.mem_union_right _ hy)
    · cases h
  | .case x bs, sl, c, m, hl, hv, hp, hf, hd, hq, h => by
    rw [genE] at h
    split at h
    · next ls ls' n h1 =>
      cases h
      have hx := (hv x (by simp [Exp.fv])).resolve_right hp.1
      obtain ⟨h3, h4⟩ := genBs_ty ho hfn hpr hloc ht bs hl (fun y hy => hv y (by rw [Exp.fv]; exact Finset.mem_insert_of_mem hy)) hp.2 hf hd.2.2 hq h1
      obtain ⟨-, -, h5, h6⟩ := genBs_labels bs h1
      exact caseSwitch_ty ho hx h3 h4 (h5 hd.1) (h6 hd.2.1)
    · cases h
  | .proj x t n v e, sl, c, m, hl, hv, hp, hf, hd, hq, h => by
    rw [genE] at h
    split at h
    · next s n h1 =>
      cases h
      have hx := hl x (by simp [localsE])
      refine ⟨⟨_, ho.temps x hx, _, fieldE_ty ho ((hv v (by simp [Exp.fv])).resolve_right hp.1) _, assign_val rfl⟩,
        genE_ty ho hfn hpr hloc ht e (fun y hy => hl y (by simp [localsE, hy])) ?_ hp.2 hf hd hq h1⟩
      exact or_erase hx fun y hy => hv y (by rw [Exp.fv]; exact Finset.mem_insert_of_mem hy)
    · cases h
  | .letapp x f t vs e, sl, c, m, hl, hv, hp, hf, hd, hq, h => by
    rw [genE] at h
    split at h
    · next a ind hi =>
      split at h
      · next asgn d h1 h2 =>
        split at h
        · next s n h3 =>
          cases h
          have hx := hl x (by simp [localsE])
          have hvs : ∀ v ∈ vs, T v ∨ v ∈ fns := fun v h => hv v (by simp [Exp.fv, h])
          refine ⟨asgnAppVars_ty ho hfn hvs (or_all hf) h1, aroundCall_ty ho hloc
            (mkCall_ty ho hfn hx (makeVar_ty ho hfn (hv f (by simp [Exp.fv]))) hvs (or_all hf) h2)
            (genE_ty ho hfn hpr hloc ht e (fun y hy => hl y (by simp [localsE, hy])) ?_ hp (hf.imp id And.right) hd hq h3)⟩
          exact or_erase hx fun y hy => hv y (by rw [Exp.fv]; exact Finset.mem_insert_of_mem (Finset.mem_union_right _ hy))
        · cases h
      · cases h
    · cases h
  | .fn B e, sl, c, m, hl, hv, hp, hf, hd, hq, h => by rw [genE] at h; cases h
  | .app f t vs, sl, c, m, hl, hv, hp, hf, hd, hq, h => by
    rw [genE] at h
    split at h
    · next a ind hi =>
      split at h
      · next asgn d h1 h2 =>
        cases h
        have hr := ht hp
        have hvs : ∀ v ∈ vs, T v ∨ v ∈ fns := fun v h => hv v (by simp [Exp.fv, h])
        have hfs : ∀ v ∈ vs, ext = true ∨ v ∉ fns := fun v hv => hf.imp id fun h => h v hv
        exact ⟨asgnAppVars_ty ho hfn hvs hfs h1, saveAlloc_ty ho, saveLimit_ty ho,
          mkCall_ty ho hfn hr.1 (makeVar_ty ho hfn (hv f (by simp [Exp.fv]))) hvs hfs h2, makeVar_fit ho hfn (.inl hr.1) (.inr hr.2)⟩
      · cases h
    · cases h
  | .primVal x p e, sl, c, m, hl, hv, hp, hf, hd, hq, h => by
    rw [genE] at h
    split at h
    · next d s n h1 h2 =>
      cases h
      have hx := hl x (by simp [localsE])
      refine ⟨?_, genE_ty ho hfn hpr hloc ht e (fun y hy => hl y (by simp [localsE, hy])) (or_erase hx hv) hp hf hd hq h2⟩
      unfold compilePrim at h1
      split at h1
      · cases h1; exact ⟨_, ho.temps x hx, _, HasTy.clong (u := true), assign_val rfl⟩
      · cases h1
    · cases h
  | .prim x p vs e, sl, c, m, hl, hv, hp, hf, hd, hq, h => by
    rw [genE] at h
    have hx := hl x (by simp [localsE])
    have hvs : ∀ v ∈ vs, T v ∨ v ∈ fns := fun v h => hv v (by simp [Exp.fv, h])
    have hev := or_erase (F := e.fv) (fns := fns) hx fun y hy => hv y (by rw [Exp.fv]; exact Finset.mem_union_right _ hy)
    have hP := hpr p (hq p (by simp [primsE]))
    have hq' : ∀ p ∈ primsE e, P p := fun q h => hq q (by simp [primsE, h])
    split at h
    · split at h
      · next d s n h1 h2 =>
        cases h
        exact ⟨mkPrimCall_ty ho hfn hx hP hvs (or_all hf) h1,
          genE_ty ho hfn hpr hloc ht e (fun y hy => hl y (by simp [localsE, hy])) hev hp (hf.imp id And.right) hd hq' h2⟩
      · cases h
    · split at h
      · next d s n h1 h2 =>
        cases h
        exact aroundCall_ty ho hloc (mkPrimCallTinfo_ty ho hfn hx hP hvs (or_all hf) h1)
          (genE_ty ho hfn hpr hloc ht e (fun y hy => hl y (by simp [localsE, hy])) hev hp (hf.imp id And.right) hd hq' h2)
      · cases h
    · cases h
  | .halt x, sl, c, m, hl, hv, hp, hf, hd, hq, h => by
    rw [genE] at h
    cases h
    exact ⟨saveAlloc_ty ho, saveLimit_ty ho, makeVar_fit ho hfn (hv x (by simp [Exp.fv])) hf⟩
theorem genBs_ty (ho : OwnT N Γ T) {C : Cfg} {fenv : FEnv} {fns : List Var} (hfn : ∀ f ∈ fns, ∃ ts va, Γ.vars (N.ext f) (.fn ts va val))
    {P : Tag → Prop} (hpr : ∀ p, P p → ∃ ts va t, Γ.vars (N.ext p) (.fn ts va t))
    {loc : Finset Var} (hloc : ∀ x ∈ loc, T x) {tail : Bool} (ht : tail = true → T C.result ∧ C.result ∉ fns) : ∀ (bs : Brs) {sl : Nat} {ls ls' : LS} {m : Nat},
    (∀ x ∈ localsBs bs, T x) → (∀ x ∈ bs.fv, T x ∨ x ∈ fns) → PlainBs fns tail bs → (ext = true ∨ FirstBs fns bs) → OnceBs C.cenv bs →
    (∀ p ∈ primsBs bs, P p) → genBs N C fenv fns loc bs sl = some (ls, ls', m) → WL ls ∧ WL ls'
  | .nil, sl, ls, ls', m, hl, hv, hp, hf, hd, hq, h => by
    rw [genBs] at h
    cases h
    exact ⟨trivial, trivial⟩
  | .cons t e bs, sl, ls, ls', m, hl, hv, hp, hf, hd, hq, h => by
    rw [genBs] at h
    rw [localsBs] at hl
    rw [Brs.fv] at hv
    rw [primsBs] at hq
    split at h
    · next s n l1 l2 n' h1 h2 =>
      have h3 := genE_ty ho hfn hpr hloc ht e (fun y hy => hl y (List.mem_append_left _ hy)) (fun y hy => hv y (Finset.mem_union_left _ hy)) hp.1
        (hf.imp id And.left) hd.1 (fun q h => hq q (List.mem_append_left _ h)) h1
      obtain ⟨h4, h5⟩ := genBs_ty ho hfn hpr hloc ht bs (fun y hy => hl y (List.mem_append_right _ hy))
        (fun y hy => hv y (Finset.mem_union_right _ hy)) hp.2 (hf.imp id And.right) hd.2 (fun q h => hq q (List.mem_append_right _ h)) h2
      split at h
      · split at h <;> (cases h; exact ⟨⟨⟨h3, trivial⟩, h4⟩, h5⟩)
      · split at h <;> (cases h; exact ⟨h4, ⟨h3, trivial⟩, h5⟩)
      · cases h
    · cases h
end

end CGen.Text
