import Verif.ANF.InlRel

/-!
# Inlining: simulation

Inlined code of several functions runs in one target environment.  `Γ` is the source environment that corresponds to
it: it extends the environments of all functions in the map.
-/

namespace ANF
namespace Inl
open Ll (put)

/-- The variables a term with the given free variables can mention after inlining. -/
def Live (fm : FM) (X : Finset Var) (y : Var) : Prop :=
  y ∈ X ∨ ∃ k t xs b, fm k = some (t, xs, b) ∧ (y = k ∨ y ∈ b.fv ∧ y ∉ xs)

/-- The functions in the map are those in the environment, and the environments of their bodies agree with it. -/
def Knows (fm : FM) (Γ : Env) : Prop :=
  ∀ k t xs b, fm k = some (t, xs, b) → ∃ ρ B, Γ k = some (.fn ρ B k) ∧ findDef k B = some (t, xs, b) ∧
    ∀ y ∈ b.fv, y ∉ xs → defFuns B B ρ ρ y = Γ y

/-- Values. -/
inductive VR (D : Nat) : Val → Val → Prop
  | constr {t : Tag} {vs vs' : List Val} (len : vs.length = vs'.length)
      (args : ∀ (i : Nat) v v', vs[i]? = some v → vs'[i]? = some v' → VR D v v') : VR D (.constr t vs) (.constr t vs')
  | prim {p : PVal} : VR D (.prim p) (.prim p)
  | fn {ρ B f ρ' B' d n n₁ fm σ Γ ns e₀} (le : d ≤ D) (mem : f ∈ B.names) (len : ns.length = B.names.length)
      (nd : ns.Nodup) (fresh : ∀ y ∈ ns, n ≤ y ∧ y < n₁) (hn : n ≤ n₁)
      (rd : RD d n₁ (addDefs B fm) (sets B.names ns σ) B B') (good : Good fm (.fn B e₀)) (known : Knows fm Γ)
      (agree : ∀ y ∈ B.fv, ρ y = Γ y) (lt : ∀ y, Live fm B.fv y → σ y < n)
      (dom : ∀ y v, Live fm B.fv y → Γ y = some v → ∃ v', ρ' (σ y) = some v')
      (rel : ∀ y v v', Live fm B.fv y → Γ y = some v → ρ' (σ y) = some v' → VR D v v') :
      VR D (.fn ρ B f) (.fn ρ' B' (sets B.names ns σ f))

theorem VR.data (D : Nat) : DataRel (VR D) where
  con h := .constr h.1 h.2
  conInv h := by cases h with | constr len args => exact ⟨_, rfl, len, args⟩
  prm := .prim
  prmInv h := by cases h; rfl
  fnInv h := by cases h; exact ⟨_, _, _, rfl⟩

/-- The invariant of environments. -/
structure Inv (D : Nat) (fm : FM) (σ : Var → Var) (n : Var) (X : Finset Var) (Γ ρ ρ' : Env) : Prop where
  known : Knows fm Γ
  agree : ∀ y ∈ X, ρ y = Γ y
  look : ∀ y, Live fm X y → Look (VR D) Γ ρ' y (σ y)
  lt : ∀ y, Live fm X y → σ y < n

section
variable {D : Nat} {fm : FM} {σ : Var → Var} {n : Var} {X : Finset Var} {Γ ρ ρ' : Env}

theorem Live.mono {Y : Finset Var} {y} (h : Live fm Y y) (hs : ∀ y ∈ Y, y ∈ X) : Live fm X y := by
  rcases h with h | h
  · exact .inl (hs y h)
  · exact .inr h

theorem Live.rem {f y} (h : Live (put fm f none) X y) : Live fm X y := by
  rcases h with h | ⟨k, t, xs, b, hk, h⟩
  · exact .inl h
  · exact .inr ⟨k, t, xs, b, (rem_some hk).2, h⟩

theorem Inv.mono (h : Inv D fm σ n X Γ ρ ρ') {Y : Finset Var} (hs : ∀ y ∈ Y, y ∈ X) : Inv D fm σ n Y Γ ρ ρ' :=
  ⟨h.known, fun y hy => h.agree y (hs y hy), fun y hy => h.look y (hy.mono hs), fun y hy => h.lt y (hy.mono hs)⟩

theorem Inv.rem (h : Inv D fm σ n X Γ ρ ρ') (f : Var) : Inv D (put fm f none) σ n X Γ ρ ρ' :=
  ⟨fun k t xs b hk => h.known k t xs b (rem_some hk).2, h.agree, fun y hy => h.look y hy.rem, fun y hy => h.lt y hy.rem⟩

theorem Inv.lookX (h : Inv D fm σ n X Γ ρ ρ') {y} (hy : y ∈ X) : Look (VR D) ρ ρ' y (σ y) := by
  intro v hv
  rw [h.agree y hy] at hv
  exact h.look y (.inl hy) v hv

theorem Inv.looks (h : Inv D fm σ n X Γ ρ ρ') {ys : List Var} (hy : ∀ y ∈ ys, y ∈ X) : Looks (VR D) ρ ρ' ys (ys.map σ) :=
  Looks.map fun y hm => h.lookX (hy y hm)

/-- A set of binders that does not disturb the functions in the map. -/
def Off (fm : FM) (x : Var) : Prop := ∀ k t xs b, fm k = some (t, xs, b) → x ≠ k ∧ (x ∈ b.fv → x ∈ xs)

theorem Live.other {Y : Finset Var} {x y} (h : Live fm Y y) (hY : ∀ y ∈ Y, y = x ∨ y ∈ X) (hyx : y ≠ x) : Live fm X y := by
  rcases h with h | h
  · rcases hY y h with h | h
    · exact absurd h hyx
    · exact .inl h
  · exact .inr h

theorem Knows.set (h : Knows fm Γ) {x v} (ho : Off fm x) : Knows fm (Γ.set x v) := by
  intro k t xs b hk
  obtain ⟨ρk, Bk, h1, h2, h3⟩ := h k t xs b hk
  obtain ⟨o1, o2⟩ := ho k t xs b hk
  refine ⟨ρk, Bk, by rw [set_other (Ne.symm o1)]; exact h1, h2, fun y hy hyx => ?_⟩
  have : y ≠ x := by rintro rfl; exact hyx (o2 hy)
  rw [set_other this]; exact h3 y hy hyx

/-- A value is bound to a variable in the source and is found under a name in the new target environment. -/
theorem Inv.bind (h : Inv D fm σ n X Γ ρ ρ') {Y : Finset Var} {x z : Var} {m : Var} {v v' : Val} {ρ₁' : Env} (ho : Off fm x)
    (hY : ∀ y ∈ Y, y = x ∨ y ∈ X) (hr : VR D v v') (hz : ρ₁' z = some v') (hzm : z < m) (hnm : n ≤ m)
    (hk : ∀ y, y < n → ρ₁' y = ρ' y) : Inv D fm (put σ x z) m Y (Γ.set x v) (ρ.set x v) ρ₁' where
  known := h.known.set ho
  agree y hy := by
    by_cases hyx : y = x
    · subst hyx; rw [set_self, set_self]
    · rw [set_other hyx, set_other hyx]
      exact h.agree y ((hY y hy).resolve_left hyx)
  look y hy w hw := by
    by_cases hyx : y = x
    · subst hyx; rw [set_self] at hw; cases hw
      rw [put_self]; exact ⟨v', hz, hr⟩
    · rw [set_other hyx] at hw
      have hl := hy.other hY hyx
      rw [put_other hyx, hk _ (h.lt y hl)]
      exact h.look y hl w hw
  lt y hy := by
    by_cases hyx : y = x
    · subst hyx; rw [put_self]; exact hzm
    · rw [put_other hyx]; exact (h.lt y (hy.other hY hyx)).trans_le hnm

theorem Inv.set (h : Inv D fm σ n X Γ ρ ρ') {Y : Finset Var} {x x' : Var} {v v' : Val} (ho : Off fm x)
    (hY : ∀ y ∈ Y, y = x ∨ y ∈ X) (hr : VR D v v') (hx : n ≤ x') :
    Inv D fm (put σ x x') (x' + 1) Y (Γ.set x v) (ρ.set x v) (ρ'.set x' v') :=
  h.bind ho hY hr set_self (Nat.lt_succ_self x') (Nat.le_succ_of_le hx) fun y hy =>
    set_other (by rintro rfl; exact absurd hx (Nat.not_le.mpr hy))

theorem Knows.setLists (h : Knows fm Γ) {xs vs Γ₁} (hs : setLists xs vs Γ = some Γ₁) (ho : ∀ x ∈ xs, Off fm x) :
    Knows fm Γ₁ := by
  intro k t ys b hk
  obtain ⟨ρk, Bk, h1, h2, h3⟩ := h k t ys b hk
  have hkx : k ∉ xs := fun hm => (ho k hm k t ys b hk).1 rfl
  refine ⟨ρk, Bk, by rw [setLists_not_mem hs k hkx]; exact h1, h2, fun y hy hyx => ?_⟩
  have : y ∉ xs := fun hm => hyx ((ho y hm k t ys b hk).2 hy)
  rw [setLists_not_mem hs y this]; exact h3 y hy hyx

theorem setLists_same {xs vs} {ρ Γ ρ₁ Γ₁ : Env} (h1 : setLists xs vs ρ = some ρ₁) (h2 : setLists xs vs Γ = some Γ₁) {y}
    (hy : y ∈ xs) : ρ₁ y = Γ₁ y := by
  induction xs generalizing vs ρ₁ Γ₁ with
  | nil => simp at hy
  | cons x xs ih =>
    cases vs with
    | nil => simp [setLists] at h1
    | cons v vs =>
      simp only [setLists] at h1 h2
      rcases hr : setLists xs vs ρ with _ | ρ₂ <;> simp only [hr] at h1
      · cases h1
      rcases hr' : setLists xs vs Γ with _ | Γ₂ <;> simp only [hr'] at h2
      · cases h2
      cases h1; cases h2
      by_cases hyx : y = x
      · subst hyx; rw [set_self, set_self]
      · rw [set_other hyx, set_other hyx]
        exact ih hr hr' (by simpa [hyx] using hy)

theorem Live.others {Y : Finset Var} {xs : List Var} {y} (h : Live fm Y y) (hY : ∀ y ∈ Y, y ∈ xs ∨ y ∈ X) (hyx : y ∉ xs) :
    Live fm X y := by
  rcases h with h | h
  · rcases hY y h with h | h
    · exact absurd h hyx
    · exact .inl h
  · exact .inr h

/-- Entering a function whose parameters have new names. -/
theorem Inv.params (h : Inv D fm σ n X Γ ρ ρ') {Y : Finset Var} {xs xs' : List Var} {m : Var} {vs vs' : List Val} {ρ₁ : Env}
    (ho : ∀ x ∈ xs, Off fm x) (hnd : xs.Nodup) (hY : ∀ y ∈ Y, y ∈ xs ∨ y ∈ X) (hr : All2 (VR D) vs vs') (hl : xs'.length = xs.length)
    (hnd' : xs'.Nodup) (hf : ∀ y ∈ xs', n ≤ y ∧ y < m) (hnm : n ≤ m) (hs : setLists xs vs ρ = some ρ₁) :
    ∃ Γ₁ ρ₁', setLists xs' vs' ρ' = some ρ₁' ∧ Inv D fm (sets xs xs' σ) m Y Γ₁ ρ₁ ρ₁' := by
  have hlen := setLists_len hs
  obtain ⟨Γ₁, hΓ⟩ := setLists_exists (xs := xs) (vs := vs) Γ hlen
  obtain ⟨ρ₁', hρ⟩ := setLists_exists (xs := xs') (vs := vs') ρ' (by rw [hl, hlen, hr.1])
  refine ⟨Γ₁, ρ₁', hρ, h.known.setLists hΓ ho, ?_, ?_, ?_⟩
  · intro y hy
    by_cases hyx : y ∈ xs
    · exact setLists_same hs hΓ hyx
    · rw [setLists_not_mem hs y hyx, setLists_not_mem hΓ y hyx]
      exact h.agree y ((hY y hy).resolve_left hyx)
  · intro y hy v hv
    by_cases hyx : y ∈ xs
    · obtain ⟨i, h1, h2⟩ := sets_mem (σ := σ) hyx hl.symm
      rw [setLists_nth hΓ hnd h1] at hv
      obtain ⟨v', hv', hrv⟩ := hr.get hv
      exact ⟨v', by rw [setLists_nth hρ hnd' h2]; exact hv', hrv⟩
    · have hlv := hy.others hY hyx
      rw [setLists_not_mem hΓ y hyx] at hv
      rw [sets_not_mem hyx, setLists_not_mem hρ _ fun hm => by
        have := (hf _ hm).1; have := h.lt y hlv; vomega]
      exact h.look y hlv v hv
  · intro y hy
    by_cases hyx : y ∈ xs
    · exact (hf _ (sets_in hyx hl.symm)).2
    · rw [sets_not_mem hyx]; exact (h.lt y (hy.others hY hyx)).trans_le hnm

/-- Entering an inlined function: parameters stand for the arguments. -/
theorem Inv.inl (h : Inv D fm σ n X Γ ρ ρ') {f t xs b} {ys : List Var} {vs : List Val} {ρf : Env} {B : Defs} {ρ₁ : Env}
    (hf : fm f = some (t, xs, b)) (hΓ : Γ f = some (.fn ρf B f)) (hd : findDef f B = some (t, xs, b))
    (ha : ∀ y ∈ b.fv, y ∉ xs → defFuns B B ρf ρf y = Γ y)
    (ho : ∀ x ∈ xs, Off (put fm f none) x) (hnd : xs.Nodup) (hy : ∀ y ∈ ys, y ∈ X) (hg : getList ρ ys = some vs)
    (hs : setLists xs vs (defFuns B B ρf ρf) = some ρ₁) :
    ∃ Γ₁, Inv D (put fm f none) (sets xs (ys.map σ) σ) n b.fv Γ₁ ρ₁ ρ' := by
  have hlen := setLists_len hs
  have hl : xs.length = (ys.map σ).length := by rw [List.length_map, hlen, getList_length hg]
  obtain ⟨Γ₁, hΓ₁⟩ := setLists_exists (xs := xs) (vs := vs) Γ hlen
  have out : ∀ y, Live (put fm f none) b.fv y → y ∉ xs → Live fm X y := by
    intro y hl hyx
    rcases hl with hl | ⟨k, t', xs', b', hk, h'⟩
    · exact .inr ⟨f, t, xs, b, hf, .inr ⟨hl, hyx⟩⟩
    · exact .inr ⟨k, t', xs', b', (rem_some hk).2, h'⟩
  refine ⟨Γ₁, (h.rem f).known.setLists hΓ₁ ho, ?_, ?_, ?_⟩
  · intro y hyb
    by_cases hyx : y ∈ xs
    · exact setLists_same hs hΓ₁ hyx
    · rw [setLists_not_mem hs y hyx, setLists_not_mem hΓ₁ y hyx]; exact ha y hyb hyx
  · intro y hlv v hv
    by_cases hyx : y ∈ xs
    · obtain ⟨i, h1, h2⟩ := sets_mem (σ := σ) hyx hl
      rw [setLists_nth hΓ₁ hnd h1] at hv
      rw [List.getElem?_map, Option.map_eq_some_iff] at h2
      obtain ⟨w, hw, hw'⟩ := h2
      have hv2 : ρ w = some v := by rw [getList_nth hg hw]; exact hv
      rw [← hw']
      exact h.lookX (hy w (List.mem_of_getElem? hw)) v hv2
    · rw [setLists_not_mem hΓ₁ y hyx] at hv
      rw [sets_not_mem hyx]
      exact h.look y (out y hlv hyx) v hv
  · intro y hlv
    by_cases hyx : y ∈ xs
    · have := sets_in (σ := σ) hyx hl
      rw [List.mem_map] at this
      obtain ⟨w, hw, hw'⟩ := this
      rw [← hw']; exact h.lt w (.inl (hy w hw))
    · rw [sets_not_mem hyx]; exact h.lt y (out y hlv hyx)

theorem sets_inj {B : Defs} (hn : B.names.Nodup) {ns : List Var} (hl : ns.length = B.names.length) (hnd : ns.Nodup) :
    ∀ f ∈ B.names, ∀ g ∈ B.names, sets B.names ns σ f = sets B.names ns σ g → f = g := by
  intro f hf g hg h
  have := sets_map (σ := σ) hn hl.symm
  exact List.inj_on_of_nodup_map (by rw [this]; exact hnd) hf hg h

theorem Good.names {fm B e} (h : Good fm (.fn B e)) : B.names.Nodup := by
  have := h.nodup; simp only [Exp.bv] at this
  exact (this.sublist (List.sublist_append_left _ _)).sublist (names_bv B)

/-- Entering a bundle. -/
theorem Inv.defs {B B' : Defs} {e₀ : Exp} {d : Nat} {n₁ : Var} {ns : List Var} {X₀ Y : Finset Var}
    (h : Inv D fm σ n X₀ Γ ρ ρ') (hX : ∀ y ∈ B.fv, y ∈ X₀) (hY : ∀ y ∈ Y, y ∈ B.names ∨ y ∈ X₀) (hd : d ≤ D)
    (hl : ns.length = B.names.length) (hnd : ns.Nodup) (hf : ∀ y ∈ ns, n ≤ y ∧ y < n₁) (hnn : n ≤ n₁)
    (hr : RD d n₁ (addDefs B fm) (sets B.names ns σ) B B') (hg : Good fm (.fn B e₀)) :
    Inv D (addDefs B fm) (sets B.names ns σ) n₁ Y (defFuns B B ρ Γ) (defFuns B B ρ ρ) (defFuns B' B' ρ' ρ') := by
  have hB' : B'.names = ns := by rw [hr.names, sets_map hg.names hl.symm]
  have hBb : ∀ y ∈ B.names, y ∈ (Exp.fn B e₀).bv := fun y hy => by
    simp only [Exp.bv, List.mem_append]; exact .inl ((names_bv B).subset hy)
  have out : ∀ y, Live (addDefs B fm) Y y → y ∉ B.names → Live fm X₀ y := by
    intro y hlv hyn
    rcases hlv with hlv | ⟨k, t, xs, b, hk, h'⟩
    · exact .inl ((hY y hlv).resolve_left hyn)
    · rcases addDefs_some hk with hk | ⟨hkn, hk⟩
      · rcases h' with rfl | ⟨h1, h2⟩
        · exact absurd (findDef_mem hk) hyn
        · rcases fv_body hk y h1 with h3 | h3 | h3
          · exact absurd h3 h2
          · exact absurd h3 hyn
          · exact .inl (hX y h3)
      · exact .inr ⟨k, t, xs, b, hk, h'⟩
  have hv : ∀ f ∈ B.names, VR D (.fn ρ B f) (.fn ρ' B' (sets B.names ns σ f)) := fun f hm =>
    .fn hd hm hl hnd hf hnn hr hg h.known (fun y hy => h.agree y (hX y hy)) (fun y hy => h.lt y (hy.mono hX))
      (fun y v hy hv => by obtain ⟨v', h1, _⟩ := h.look y (hy.mono hX) v hv; exact ⟨v', h1⟩)
      (fun y v v' hy hv hv' => by
        obtain ⟨v'', h1, h2⟩ := h.look y (hy.mono hX) v hv
        rw [hv'] at h1; cases h1; exact h2)
  refine ⟨?_, ?_, ?_, ?_⟩
  · intro k t xs b hk
    rcases addDefs_some hk with hk | ⟨hkn, hk⟩
    · refine ⟨ρ, B, defFuns_mem (findDef_mem hk), hk, fun y hy hyx => ?_⟩
      by_cases hyn : y ∈ B.names
      · rw [defFuns_mem hyn, defFuns_mem hyn]
      · rw [defFuns_not_mem hyn, defFuns_not_mem hyn]
        rcases fv_body hk y hy with h3 | h3 | h3
        · exact absurd h3 hyx
        · exact absurd h3 hyn
        · exact h.agree y (hX y h3)
    · obtain ⟨ρk, Bk, h1, h2, h3⟩ := h.known k t xs b hk
      refine ⟨ρk, Bk, by rw [defFuns_not_mem hkn]; exact h1, h2, fun y hy hyx => ?_⟩
      have : y ∉ B.names := fun hm => ((hg.body hk).2.2.2 y (hBb y hm)).2 hy
      rw [defFuns_not_mem this]; exact h3 y hy hyx
  · intro y hy
    by_cases hyn : y ∈ B.names
    · rw [defFuns_mem hyn, defFuns_mem hyn]
    · rw [defFuns_not_mem hyn, defFuns_not_mem hyn]
      exact h.agree y ((hY y hy).resolve_left hyn)
  · intro y hlv v hval
    by_cases hyn : y ∈ B.names
    · rw [defFuns_mem hyn] at hval; cases hval
      exact ⟨_, defFuns_mem (by rw [hB']; exact sets_in hyn hl.symm), hv y hyn⟩
    · have hl' := out y hlv hyn
      rw [defFuns_not_mem hyn] at hval
      rw [sets_not_mem hyn, defFuns_not_mem fun hm => by
        rw [hB'] at hm; have := (hf _ hm).1; have := h.lt y hl'; vomega]
      exact h.look y hl' v hval
  · intro y hlv
    by_cases hyn : y ∈ B.names
    · exact (hf _ (sets_in hyn hl.symm)).2
    · rw [sets_not_mem hyn]; exact (h.lt y (out y hlv hyn)).trans_le hnn

end

/-- Running a straight-line body in place of a `let`. -/
theorem flex_inlineLet {S : Sig} {b : Bool} {R : Val → Val → Prop} {call' : Env → Exp → Res} {k : Val → Res} {ec' : Exp} :
    ∀ {eb' : Exp} {x' : Var} {C : Ctx} {z : Var} {r : Res} {ρ' : Env}, inlineLet eb' x' = some (C, z) →
    FRel b R r (evalE S call' eb' ρ') →
    (∀ v v' ρ₁', R v v' → ρ₁' z = some v' → (∀ y, y ∉ eb'.bv → y ≠ x' → ρ₁' y = ρ' y) →
      FRel b R (k v) (evalE S call' ec' ρ₁')) →
    FRel b R (letK r k) (evalE S call' (C.plug ec') ρ')
  | .constr y t ys e, x', C, z, r, ρ', h, hr, hk => by
    simp only [inlineLet, Option.map_eq_some_iff, Prod.mk.injEq] at h
    obtain ⟨⟨C', z'⟩, h, rfl, rfl⟩ := h
    simp only [Ctx.plug, evalE] at hr ⊢
    rcases hg : getList ρ' ys with _ | vs <;> simp only [hg] at hr ⊢
    · cases r <;> simp only [FRel, letK] at hr ⊢ <;> first | exact hr.elim | exact hr | trivial
    · refine flex_inlineLet h hr fun v v' ρ₁' h1 h2 h3 => hk v v' ρ₁' h1 h2 fun w hw hwx => ?_
      simp only [Exp.bv, List.mem_cons, not_or] at hw
      rw [h3 w hw.2 hwx, set_other hw.1]
  | .case _ _, _, _, _, _, _, h, _, _ => by simp [inlineLet] at h
  | .proj y t i w e, x', C, z, r, ρ', h, hr, hk => by
    simp only [inlineLet, Option.map_eq_some_iff, Prod.mk.injEq] at h
    obtain ⟨⟨C', z'⟩, h, rfl, rfl⟩ := h
    have stuck : FRel b R r .stuck → FRel b R (letK r k) .stuck := by
      intro hr
      cases r <;> simp only [FRel, letK] at hr ⊢ <;> first | exact hr.elim | exact hr | trivial
    simp only [Ctx.plug, evalE] at hr ⊢
    rcases hg : ρ' w with _ | v <;> simp only [hg] at hr ⊢
    · exact stuck hr
    cases v with
    | fn => exact stuck hr
    | prim => exact stuck hr
    | constr t' vs =>
      dsimp only at hr ⊢
      by_cases ht : t' = t
      · simp only [ht, if_true] at hr ⊢
        rcases hn : vs[i]? with _ | v <;> simp only [hn] at hr ⊢
        · exact stuck hr
        · refine flex_inlineLet h hr fun v v' ρ₁' h1 h2 h3 => hk v v' ρ₁' h1 h2 fun w hw hwx => ?_
          simp only [Exp.bv, List.mem_cons, not_or] at hw
          rw [h3 w hw.2 hwx, set_other hw.1]
      · simp only [ht, if_false] at hr ⊢
        exact stuck hr
  | .letapp y f t ys e, x', C, z, r, ρ', h, hr, hk => by
    simp only [inlineLet, Option.map_eq_some_iff, Prod.mk.injEq] at h
    obtain ⟨⟨C', z'⟩, h, rfl, rfl⟩ := h
    have stuck : FRel b R r .stuck → FRel b R (letK r k) .stuck := by
      intro hr
      cases r <;> simp only [FRel, letK] at hr ⊢ <;> first | exact hr.elim | exact hr | trivial
    have oot : FRel b R r .oot → FRel b R (letK r k) .oot := by
      intro hr
      cases r <;> simp only [FRel, letK] at hr ⊢
      · subst hr; exact FRel.oot
    rw [evalE_letapp] at hr
    rw [Ctx.plug, evalE_letapp]
    rcases hc : callee ρ' f t ys with _ | ⟨ρ₁, e₁⟩ <;> simp only [hc] at hr ⊢
    · exact stuck hr
    rcases hcall : call' ρ₁ e₁ with v | _ | _ <;> rw [hcall] at hr <;> simp only [letK] at hr
    · refine flex_inlineLet h hr fun v v' ρ₁' h1 h2 h3 => hk v v' ρ₁' h1 h2 fun w hw hwx => ?_
      simp only [Exp.bv, List.mem_cons, not_or] at hw
      rw [h3 w hw.2 hwx, set_other hw.1]
    · exact oot hr
    · exact stuck hr
  | .fn B e, x', C, z, r, ρ', h, hr, hk => by
    simp only [inlineLet, Option.map_eq_some_iff, Prod.mk.injEq] at h
    obtain ⟨⟨C', z'⟩, h, rfl, rfl⟩ := h
    simp only [Ctx.plug, evalE] at hr ⊢
    refine flex_inlineLet h hr fun v v' ρ₁' h1 h2 h3 => hk v v' ρ₁' h1 h2 fun w hw hwx => ?_
    simp only [Exp.bv, List.mem_append, not_or] at hw
    rw [h3 w hw.2 hwx, defFuns_not_mem fun hm => hw.1 ((names_bv B).subset hm)]
  | .app f t ys, x', C, z, r, ρ', h, hr, hk => by
    simp only [inlineLet, Option.some.injEq, Prod.mk.injEq] at h
    obtain ⟨rfl, rfl⟩ := h
    rw [Ctx.plug, evalE_letapp]
    simp only [evalE] at hr
    rcases hc : callee ρ' f t ys with _ | ⟨ρ₁, e₁⟩ <;> simp only [hc] at hr ⊢
    · cases r <;> simp only [FRel, letK] at hr ⊢ <;> first | exact hr.elim | exact hr | trivial
    refine flex_letK hr fun v v' hv => ?_
    exact hk v v' _ hv set_self fun y _ hy => set_other hy
  | .primVal y p e, x', C, z, r, ρ', h, hr, hk => by
    simp only [inlineLet, Option.map_eq_some_iff, Prod.mk.injEq] at h
    obtain ⟨⟨C', z'⟩, h, rfl, rfl⟩ := h
    simp only [Ctx.plug, evalE] at hr ⊢
    refine flex_inlineLet h hr fun v v' ρ₁' h1 h2 h3 => hk v v' ρ₁' h1 h2 fun w hw hwx => ?_
    simp only [Exp.bv, List.mem_cons, not_or] at hw
    rw [h3 w hw.2 hwx, set_other hw.1]
  | .prim y p ys e, x', C, z, r, ρ', h, hr, hk => by
    simp only [inlineLet, Option.map_eq_some_iff, Prod.mk.injEq] at h
    obtain ⟨⟨C', z'⟩, h, rfl, rfl⟩ := h
    have stuck : FRel b R r .stuck → FRel b R (letK r k) .stuck := by
      intro hr
      cases r <;> simp only [FRel, letK] at hr ⊢ <;> first | exact hr.elim | exact hr | trivial
    simp only [Ctx.plug, evalE] at hr ⊢
    rcases hg : getList ρ' ys with _ | vs <;> simp only [hg] at hr ⊢
    · exact stuck hr
    rcases ho : S.op p vs with _ | v <;> simp only [ho] at hr ⊢
    · exact stuck hr
    refine flex_inlineLet h hr fun v v' ρ₁' h1 h2 h3 => hk v v' ρ₁' h1 h2 fun w hw hwx => ?_
    simp only [Exp.bv, List.mem_cons, not_or] at hw
    rw [h3 w hw.2 hwx, set_other hw.1]
  | .halt y, x', C, z, r, ρ', h, hr, hk => by
    simp only [inlineLet, Option.some.injEq, Prod.mk.injEq] at h
    obtain ⟨rfl, rfl⟩ := h
    simp only [Ctx.plug, evalE] at hr ⊢
    rcases hv : ρ' y with _ | v' <;> simp only [hv] at hr
    · cases r with
      | stuck => trivial
      | oot => simp only [FRel] at hr; subst hr; exact FRel.free
      | val v => exact hr.elim
    · cases r with
      | stuck => trivial
      | oot => simp only [FRel] at hr; subst hr; exact FRel.free
      | val v => exact hk v v' ρ' hr hv fun _ _ _ => rfl

/-! ## The simulation -/

/-- Call bounds of the two sides: a source call that is inlined costs nothing in the target. -/
def Lev (b : Bool) (D N M d : Nat) : Prop := if b = true then M * (D + 1) + d ≤ N else N ≤ M

theorem Good.off {fm e x} (h : Good fm e) (hx : x ∈ e.bv) : Off fm x := fun _ _ _ _ hk =>
  ⟨((h.body hk).2.2.2 x hx).1, fun hb => absurd hb ((h.body hk).2.2.2 x hx).2⟩

theorem Good.offParam {fm e f t xs b} (h : Good fm e) (hf : fm f = some (t, xs, b)) :
    ∀ x ∈ xs, Off (put fm f none) x := by
  intro x hx k t' xs' b' hk
  obtain ⟨hkf, hk⟩ := rem_some hk
  have := h.pair (Ne.symm hkf) hf hk x (List.mem_append_left _ hx)
  exact ⟨this.1, fun hb => absurd hb this.2.2⟩

theorem Good.paramsNodup {fm e f t xs b} (h : Good fm e) (hf : fm f = some (t, xs, b)) : xs.Nodup :=
  (h.body hf).1.sublist (List.sublist_append_left _ _)

/-- The state at the entry of a function body. -/
def Entry (D : Nat) (ρ : Env) (e : Exp) (ρ' : Env) (e' : Exp) : Prop :=
  ∃ d n fm σ Γ, d ≤ D ∧ RE d n fm σ e e' ∧ Good fm e ∧ Inv D fm σ n e.fv Γ ρ ρ'

theorem fn_apply {D v v' ft vs vs' ρ₁ e₁} (hv : VR D v v') (ha : applyV v ft vs = some (ρ₁, e₁)) (hr : All2 (VR D) vs vs') :
    ∃ ρ₁' e₁', applyV v' ft vs' = some (ρ₁', e₁') ∧ Entry D ρ₁ e₁ ρ₁' e₁' := by
  cases hv with
  | constr => simp [applyV] at ha
  | prim => simp [applyV] at ha
  | @fn ρ B f ρ' B' d n n₁ fm σ Γ ns e₀ le mem len nd fresh hn rd good known agree lt dom rel =>
    obtain ⟨xs, ρ₂, b, h1, h2, h3⟩ := applyV_some ha
    cases h3
    obtain ⟨xs', b', m, q1, q2, q3, q4, q5, q6⟩ := rd.find (sets_inj good.names len nd) h1
    have inv : Inv D fm σ n B.fv Γ ρ ρ' := ⟨known, agree, fun y hy v hv => by
      obtain ⟨v', h'⟩ := dom y v hy hv
      exact ⟨v', h', rel y v v' hy hv h'⟩, lt⟩
    have gf := good.fn
    have hk : addDefs B fm f = some (ft, xs, e₁) := addDefs_find h1
    have inv₁ := inv.defs (Y := B.names.toFinset ∪ B.fv) (fun _ h => h) (fun y hy => by simpa using hy) le len nd fresh hn
      rd good
    obtain ⟨Γ₂, ρ₂', q7, q8⟩ := (inv₁.rem f).params (Y := e₁.fv) (gf.offParam hk) (gf.paramsNodup hk) (fun y hy => by
      rcases fv_body h1 y hy with h | h | h
      · exact .inl h
      · exact .inr (by simp [h])
      · exact .inr (by simp [h])) hr q2 q3 q4 q5 h2
    exact ⟨ρ₂', b', applyV_eq q1 q7, d, m, _, _, Γ₂, le, q6, gf.known hk, q8⟩

/-- The simulation at one call bound of the source. -/
def Sim (S : Sig) (b : Bool) (D N : Nat) : Prop :=
  ∀ (e e' : Exp) (M d : Nat) (n : Var) (fm : FM) (σ : Var → Var) (Γ ρ ρ' : Env), Lev b D N M d → d ≤ D →
    RE d n fm σ e e' → Good fm e → Inv D fm σ n e.fv Γ ρ ρ' →
    FRel b (VR D) (evalE S (callAt S N) e ρ) (evalE S (callAt S M) e' ρ')

/-- Calls of related functions. -/
theorem call_sim {S b D N M d} (ih : ∀ N', N = N' + 1 → Sim S b D N') (hl : Lev b D N M d) {v v' ft vs vs' ρ₁ e₁}
    (hv : VR D v v') (hr : All2 (VR D) vs vs') (ha : applyV v ft vs = some (ρ₁, e₁)) :
    ∃ ρ₁' e₁', applyV v' ft vs' = some (ρ₁', e₁') ∧ FRel b (VR D) (callAt S N ρ₁ e₁) (callAt S M ρ₁' e₁') := by
  obtain ⟨ρ₁', e₁', h1, d', n, fm, σ, Γ, h2, h3, h4, h5⟩ := fn_apply hv ha hr
  refine ⟨ρ₁', e₁', h1, ?_⟩
  cases b with
  | false =>
    cases N with
    | zero => exact FRel.free
    | succ N =>
      simp only [Lev] at hl
      obtain ⟨M, rfl⟩ : ∃ M', M = M' + 1 := ⟨M - 1, by simp at hl; omega⟩
      simp only [callAt, run_callAt]
      exact ih N rfl _ _ M d' n fm σ Γ _ _ (by simp only [Lev]; simp at hl ⊢; exact hl) h2 h3 h4 h5
  | true =>
    cases M with
    | zero => exact FRel.oot
    | succ M =>
      simp only [Lev, if_true] at hl
      have hm : (M + 1) * (D + 1) = M * (D + 1) + D + 1 := by ring
      rw [hm] at hl
      obtain ⟨N, rfl⟩ : ∃ N', N = N' + 1 := ⟨N - 1, by omega⟩
      simp only [callAt, run_callAt]
      exact ih N rfl _ _ M d' n fm σ Γ _ _ (by simp only [Lev, if_true]; omega) h2 h3 h4 h5

theorem callee_sim {S b D N M d fm σ n X Γ ρ ρ'} (ih : ∀ N', N = N' + 1 → Sim S b D N') (hl : Lev b D N M d)
    (hi : Inv D fm σ n X Γ ρ ρ') {f ft} {ys : List Var} (hf : f ∈ X) (hy : ∀ y ∈ ys, y ∈ X) :
    ∀ ρ₁ e₁, callee ρ f ft ys = some (ρ₁, e₁) → ∃ ρ₁' e₁', callee ρ' (σ f) ft (ys.map σ) = some (ρ₁', e₁') ∧
      FRel b (VR D) (callAt S N ρ₁ e₁) (callAt S M ρ₁' e₁') := by
  intro ρ₁ e₁ hc
  obtain ⟨v, vs, h1, h2, h3⟩ := callee_applyV.mp hc
  obtain ⟨v', h1', hv⟩ := hi.lookX hf v h1
  obtain ⟨vs', h2', hvs⟩ := hi.looks hy vs h2
  obtain ⟨ρ₁', e₁', h3', h4⟩ := call_sim ih hl hv hvs h3
  exact ⟨ρ₁', e₁', callee_applyV.mpr ⟨v', vs', h1', h2', h3'⟩, h4⟩

/-- An inlined call: the body runs in place of the call. -/
theorem inl_sim {S b D N M d fm σ n m X Γ ρ ρ' e} (ih : ∀ N', N = N' + 1 → Sim S b D N') (hl : Lev b D N M (d + 1))
    (hd : d + 1 ≤ D) (hg : Good fm e) (hi : Inv D fm σ n X Γ ρ ρ') (hnm : n ≤ m) {f ft ft' xs eb eb'} {ys : List Var}
    (hf : f ∈ X) (hy : ∀ y ∈ ys, y ∈ X) (hk : fm f = some (ft', xs, eb))
    (hr : RE d m (put fm f none) (sets xs (ys.map σ) σ) eb eb') {ρ₁ e₁} (hc : callee ρ f ft ys = some (ρ₁, e₁)) :
    FRel b (VR D) (callAt S N ρ₁ e₁) (evalE S (callAt S M) eb' ρ') := by
  obtain ⟨v, vs, h1, h2, h3⟩ := callee_applyV.mp hc
  obtain ⟨ρf, B, k1, k2, k3⟩ := hi.known f ft' xs eb hk
  rw [hi.agree f hf, k1] at h1; cases h1
  obtain ⟨xs₂, ρ₂, b₂, a1, a2, a3⟩ := applyV_some h3
  rw [k2] at a1; cases a1; cases a3
  obtain ⟨Γ₁, inv⟩ := hi.inl hk k1 k2 k3 (hg.offParam hk) (hg.paramsNodup hk) hy h2 a2
  have inv' : Inv D (put fm f none) (sets xs (ys.map σ) σ) m eb.fv Γ₁ ρ₁ ρ' :=
    ⟨inv.known, inv.agree, inv.look, fun y hy => (inv.lt y hy).trans_le hnm⟩
  cases N with
  | zero =>
    cases b with
    | false => exact FRel.free
    | true => simp [Lev] at hl
  | succ N =>
    simp only [callAt, run_callAt]
    refine ih N rfl _ _ M d m _ _ Γ₁ _ _ ?_ (by omega) hr (hg.known hk) inv'
    simp only [Lev] at hl ⊢
    split at hl <;> simp_all <;> omega

/-- The simulation for terms. -/
theorem sim_exp {S b D N} (ih : ∀ N', N = N' + 1 → Sim S b D N') : ∀ {e e' : Exp} {M d n fm σ Γ ρ ρ'}, Lev b D N M d → d ≤ D →
    RE d n fm σ e e' → Good fm e → Inv D fm σ n e.fv Γ ρ ρ' →
    FRel b (VR D) (evalE S (callAt S N) e ρ) (evalE S (callAt S M) e' ρ')
  | .constr x t ys e, _, M, d, n, fm, σ, Γ, ρ, ρ', hl, hd, .constr hx he, hg, hi => by
    refine flex_constr (VR.data D) (hi.looks fun y hy => by simp [Exp.fv, hy]) ?_
    intro vs vs' _ _ hr
    refine sim_exp ih hl hd he (hg.tail rfl ?_) (hi.set (hg.off (by simp [Exp.bv])) ?_ hr hx)
    all_goals intro y hy; by_cases h : y = x <;> simp [Exp.fv, hy, h]
  | .case x bs, _, M, d, n, fm, σ, Γ, ρ, ρ', hl, hd, .case hb, hg, hi => by
    refine flex_case (VR.data D) (hi.lookX (by simp [Exp.fv])) hb.tags ?_
    intro t vs e _ hf
    obtain ⟨e', hf', he⟩ := hb.find hf
    have hsz : sizeOf e < sizeOf bs := findTag_sizeOf hf
    have hfv : ∀ y ∈ e.fv, y ∈ (Exp.case x bs).fv := fun y hy => by simp [Exp.fv, findTag_fv hf y hy]
    exact ⟨e', hf', sim_exp ih hl hd he (hg.sub (findTag_bv hf) fun y hy => .inl (hfv y hy)) (hi.mono hfv)⟩
  | .proj x t i y e, _, M, d, n, fm, σ, Γ, ρ, ρ', hl, hd, .proj hx he, hg, hi => by
    refine flex_proj (VR.data D) (hi.lookX (by simp [Exp.fv])) ?_
    intro v v' hr
    refine sim_exp ih hl hd he (hg.tail rfl ?_) (hi.set (hg.off (by simp [Exp.bv])) ?_ hr hx)
    all_goals intro y hy; by_cases h : y = x <;> simp [Exp.fv, hy, h]
  | .letapp x f t ys e, e', M, d₀, n, fm, σ, Γ, ρ, ρ', hl, hd, hr₀, hg, hi => by
    have hfv : ∀ y ∈ e.fv, y = x ∨ y ∈ (Exp.letapp x f t ys e).fv := by
      intro y hy; by_cases h : y = x <;> simp [Exp.fv, hy, h]
    cases hr₀ with
    | letapp hx he =>
      refine flex_letapp (callee_sim ih hl hi (by simp [Exp.fv]) fun y hy => by simp [Exp.fv, hy]) ?_
      intro v v' hr
      exact sim_exp ih hl hd he (hg.tail rfl hfv) (hi.set (hg.off (by simp [Exp.bv])) hfv hr hx)
    | @letinl d _ n₂ _ _ _ x' _ _ _ _ ft xs eb eb' C z ec' hk hlen hx hb hC hz hn he =>
      rw [evalE_letapp]
      rcases hc : callee ρ f t ys with _ | ⟨ρ₁, e₁⟩
      · trivial
      dsimp only
      refine flex_inlineLet hC (inl_sim ih hl hd hg hi (Nat.le_succ_of_le hx) (by simp [Exp.fv])
        (fun y hy => by simp [Exp.fv, hy]) hk hb hc) ?_
      intro v v' ρ₁' hr hv hout
      have hl' : Lev b D N M d := by
        simp only [Lev] at hl ⊢
        split at hl <;> simp_all; omega
      refine sim_exp ih hl' (by omega) he (hg.tail rfl hfv) (hi.bind (hg.off (by simp [Exp.bv])) hfv hr hv hz hn
        fun y hy => hout y ?_ ?_)
      · intro hm; have := hb.bv y hm; vomega
      · rintro rfl; vomega
  | .fn B e, _, M, d, n, fm, σ, Γ, ρ, ρ', hl, hd, .fn h1 h2 h3 h4 h5 h6, hg, hi => by
    simp only [evalE]
    refine sim_exp ih hl hd h6 hg.fn (hi.defs ?_ ?_ hd h1 h2 h3 h4 h5 hg)
    · intro y hy
      simp only [Defs.fv, Finset.mem_sdiff, List.mem_toFinset] at hy
      simp [Exp.fv, hy]
    · intro y hy; by_cases h : y ∈ B.names <;> simp [Exp.fv, hy, h]
  | .app f t ys, _, M, d, n, fm, σ, Γ, ρ, ρ', hl, hd, .app, hg, hi =>
    flex_app (callee_sim ih hl hi (by simp [Exp.fv]) fun y hy => by simp [Exp.fv, hy])
  | .app f t ys, _, M, _, n, fm, σ, Γ, ρ, ρ', hl, hd, .appinl hk hlen hb, hg, hi => by
    simp only [evalE]
    rcases hc : callee ρ f t ys with _ | ⟨ρ₁, e₁⟩
    · trivial
    exact inl_sim ih hl hd hg hi le_rfl (by simp [Exp.fv]) (fun y hy => by simp [Exp.fv, hy]) hk hb hc
  | .primVal x p e, _, M, d, n, fm, σ, Γ, ρ, ρ', hl, hd, .primVal hx he, hg, hi => by
    refine flex_primVal (VR.data D) ?_
    intro hr
    refine sim_exp ih hl hd he (hg.tail rfl ?_) (hi.set (hg.off (by simp [Exp.bv])) ?_ hr hx)
    all_goals intro y hy; by_cases h : y = x <;> simp [Exp.fv, hy, h]
  | .prim x p ys e, _, M, d, n, fm, σ, Γ, ρ, ρ', hl, hd, .prim hx he, hg, hi => by
    refine flex_prim (VR.data D) (hi.looks fun y hy => by simp [Exp.fv, hy]) ?_
    intro v hr
    refine sim_exp ih hl hd he (hg.tail rfl ?_) (hi.set (hg.off (by simp [Exp.bv])) ?_ hr hx)
    all_goals intro y hy; by_cases h : y = x <;> simp [Exp.fv, hy, h]
  | .halt x, _, M, d, n, fm, σ, Γ, ρ, ρ', hl, hd, .halt, hg, hi => flex_halt (hi.lookX (by simp [Exp.fv]))
termination_by e => sizeOf e

theorem sim_all (S : Sig) (b : Bool) (D : Nat) : ∀ N, Sim S b D N := by
  intro N
  induction N with
  | zero => exact fun e e' M d n fm σ Γ ρ ρ' hl hd hr hg hi => sim_exp (by intro N' h; omega) hl hd hr hg hi
  | succ N ih =>
    exact fun e e' M d n fm σ Γ ρ ρ' hl hd hr hg hi =>
      sim_exp (by intro N' h; obtain rfl : N = N' := by omega
                  exact ih) hl hd hr hg hi

/-- Related closed programs have the same meaning. -/
theorem preserves_of_RE {S : Sig} {d n σ e e'} (hr : RE d n (fun _ => none) σ e e') (hb : e.bv.Nodup) (hc : e.fv = ∅) :
    Preserves S e S e' := by
  have hg : Good (fun _ => none) e := ⟨hb, by simp [hc], by simp, by simp⟩
  have hi : Inv d (fun _ => none) σ n e.fv emp emp emp := by
    refine ⟨by simp [Knows], by simp, ?_, ?_⟩ <;> simp [Live, hc]
  refine preserves_of_flex (VR.data d).obs (fun N => ⟨N, ?_⟩) (fun M => ⟨M * (d + 1) + d, ?_⟩)
  · rw [run_callAt, run_callAt]
    exact sim_all S false d N _ _ _ d n _ _ emp _ _ (by simp [Lev]) le_rfl hr hg hi
  · rw [run_callAt, run_callAt]
    exact sim_all S true d _ _ _ _ d n _ _ emp _ _ (by simp [Lev]) le_rfl hr hg hi

end Inl
end ANF
