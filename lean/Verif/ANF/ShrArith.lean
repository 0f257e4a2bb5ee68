import Verif.ANF.ShrCount

/-!
# Shrink reduction: counting lemmas

How the census changes when a parameter becomes an argument, and the occurrences, binders and free variables of an
inlined body in a context.
-/

namespace ANF
namespace Shr
open Ll (put)
open Inl (Ctx inlineLet sets)

theorem cn_put {σ : Var → Var} {v w y : Var} : ∀ {l : List Var}, cn (put σ v w) l y + (if σ v = y then cn id l v else 0) =
    cn σ l y + (if w = y then cn id l v else 0)
  | [] => by simp
  | z :: l => by
    have ih := cn_put (σ := σ) (v := v) (w := w) (y := y) (l := l)
    simp only [cn_cons, id]
    by_cases hz : z = v
    · subst hz
      rw [Inl.put_self]
      split at ih <;> split at ih <;> simp_all <;> omega
    · rw [Inl.put_other hz]
      simp only [hz, if_false, Nat.zero_add]
      omega

theorem cn_fix {σ : Var → Var} {v : Var} (h : σ v = v) : ∀ {l : List Var}, cn id l v ≤ cn σ l v
  | [] => by simp
  | z :: l => by
    have ih := cn_fix h (l := l)
    simp only [cn_cons, id]
    by_cases hz : z = v
    · subst hz; simp only [h, if_true]; omega
    · simp only [hz, if_false]; omega

/-- The occurrences of parameters whose argument is `y`. -/
def moved (g : Var → Nat) (y : Var) : List Var → List Var → Nat
  | y₀ :: ys, x :: xs => (if y₀ = y then g x else 0) + moved g y ys xs
  | _, _ => 0

theorem moved_le {g g' : Var → Nat} {y} : ∀ {ys xs : List Var}, (∀ x ∈ xs, g x ≤ g' x) → moved g y ys xs ≤ moved g' y ys xs
  | [], _, _ => by simp [moved]
  | _ :: _, [], _ => by simp [moved]
  | y₀ :: ys, x :: xs, h => by
    have h1 := h x (by simp)
    have h2 := moved_le (y := y) (ys := ys) (xs := xs) fun z hz => h z (by simp [hz])
    simp only [moved]; split <;> omega

theorem cn_sets {σ : Var → Var} {L : List Var} {y} : ∀ {xs ys : List Var}, xs.Nodup → (∀ x ∈ xs, σ x = x) → y ∉ xs →
    cn (sets xs ys σ) L y = cn σ L y + moved (cn id L) y ys xs
  | [], ys, _, _, _ => by cases ys <;> simp [sets, moved]
  | x :: xs, [], _, _, _ => by simp [sets, moved]
  | x :: xs, y₀ :: ys, hn, hi, hy => by
    rw [List.nodup_cons] at hn
    simp only [List.mem_cons, not_or] at hy
    have ih := cn_sets (L := L) (ys := ys) hn.2 (fun z hz => hi z (by simp [hz])) hy.2
    have := cn_put (σ := sets xs ys σ) (v := x) (w := y₀) (y := y) (l := L)
    rw [Inl.sets_not_mem hn.1, hi x (by simp), if_neg (Ne.symm hy.1)] at this
    simp only [sets, moved]
    omega

theorem countInl_ge {y} : ∀ {ys xs : List Var} {c : Count}, xs.Nodup → (∀ x ∈ xs, x ∉ ys) → y ∉ xs →
    c y + moved c y ys xs ≤ countInl ys xs c y + cn id ys y
  | [], xs, c, _, _, _ => by simp [countInl, moved]
  | _ :: _, [], c, _, _, _ => by simp [countInl, moved]
  | y₀ :: ys, x :: xs, c, hn, hd, hy => by
    rw [List.nodup_cons] at hn
    simp only [List.mem_cons, not_or] at hy
    have ih := countInl_ge (y := y) (ys := ys) (xs := xs) (c := put (put c x 0) y₀ (c y₀ + c x - 1)) hn.2
      (fun z hz => by have := hd z (by simp [hz]); simp at this; exact this.2) hy.2
    have hm : moved c y ys xs ≤ moved (put (put c x 0) y₀ (c y₀ + c x - 1)) y ys xs := by
      refine moved_le fun z hz => ?_
      have hzy : z ≠ y₀ := by have := hd z (by simp [hz]); simp at this; exact this.1
      have hzx : z ≠ x := by rintro rfl; exact hn.1 hz
      rw [Inl.put_other hzy, Inl.put_other hzx]
    simp only [countInl, moved, cn_cons, id]
    by_cases h : y₀ = y
    · subst h; rw [Inl.put_self] at ih; simp only [if_true]; omega
    · rw [Inl.put_other (Ne.symm h), Inl.put_other hy.1] at ih; simp only [h, if_false]; omega

theorem countInl_le {y} : ∀ {ys xs : List Var} {c : Count}, y ∉ ys → countInl ys xs c y ≤ c y
  | [], xs, c, _ => by simp [countInl]
  | _ :: _, [], c, _ => by simp [countInl]
  | y₀ :: ys, x :: xs, c, h => by
    simp only [List.mem_cons, not_or] at h
    have ih := countInl_le (y := y) (ys := ys) (xs := xs) (c := put (put c x 0) y₀ (c y₀ + c x - 1)) h.2
    rw [Inl.put_other h.1] at ih
    simp only [countInl]
    by_cases hx : y = x
    · subst hx; rw [Inl.put_self] at ih; omega
    · rw [Inl.put_other hx] at ih; exact ih

theorem inl_count {σ : Var → Var} {xs ys L : List Var} {c : Count} {R : Var → Nat} (hn : xs.Nodup)
    (hd : ∀ x ∈ xs, x ∉ ys) (hi : ∀ x ∈ xs, σ x = x) {y} (hy : y ∉ xs) (hc : cn σ L y + cn id ys y + R y ≤ c y)
    (hx : ∀ x ∈ xs, cn σ L x ≤ c x) : cn (sets xs ys σ) L y + R y ≤ countInl ys xs c y := by
  have h1 := cn_sets (L := L) (ys := ys) hn hi hy
  have h2 := countInl_ge (c := c) hn hd hy
  have h3 : moved (cn id L) y ys xs ≤ moved c y ys xs := moved_le fun x hxm => (cn_fix (hi x hxm)).trans (hx x hxm)
  omega

mutual
theorem uses_ren (δ : Var → Var) : ∀ e : Exp, uses (ren δ e) = (uses e).map δ
  | .constr _ _ _ e => by simp [ren, uses, uses_ren δ e]
  | .primVal _ _ e => by simp [ren, uses, uses_ren δ e]
  | .prim _ _ _ e => by simp [ren, uses, uses_ren δ e]
  | .proj _ _ _ _ e => by simp [ren, uses, uses_ren δ e]
  | .letapp _ _ _ _ e => by simp [ren, uses, uses_ren δ e]
  | .case _ bs => by simp [ren, uses, usesB_ren δ bs]
  | .fn B e => by simp [ren, uses, uses_ren δ e, usesD_ren δ B]
  | .app _ _ _ => by simp [ren, uses]
  | .halt _ => by simp [ren, uses]
theorem usesB_ren (δ : Var → Var) : ∀ bs : Brs, usesB (renB δ bs) = (usesB bs).map δ
  | .nil => rfl
  | .cons _ e bs => by simp [renB, usesB, uses_ren δ e, usesB_ren δ bs]
theorem usesD_ren (δ : Var → Var) : ∀ B : Defs, usesD (renD δ B) = (usesD B).map δ
  | .nil => rfl
  | .cons _ _ _ e B => by simp [renD, usesD, uses_ren δ e, usesD_ren δ B]
end

/-- The occurrences in an inlined body in a context. -/
theorem plug_uses {k : Exp} : ∀ {m : Exp} {x C z}, inlineLet m x = some (C, z) →
    (z = x ∧ ∀ σ y, cn σ (uses (C.plug k)) y = cn σ (uses m) y + cn σ (uses k) y) ∨
    (z ∈ uses m ∧ (C.plug k).bv = m.bv ++ k.bv ∧
      ∀ σ y, cn σ (uses (C.plug k)) y + (if σ z = y then 1 else 0) = cn σ (uses m) y + cn σ (uses k) y)
  | .constr y t ys e, x, C, z, h => by
    simp only [inlineLet, Option.map_eq_some_iff, Prod.mk.injEq] at h
    obtain ⟨⟨C', z'⟩, h, rfl, rfl⟩ := h
    rcases plug_uses (k := k) h with ⟨h1, h2⟩ | ⟨h1, h0, h2⟩
    · refine .inl ⟨h1, fun σ w => ?_⟩; have := h2 σ w; simp only [Ctx.plug, uses, cn_append]; omega
    · refine .inr ⟨by simp [uses, h1], by simp [Ctx.plug, Exp.bv, h0], fun σ w => ?_⟩
      have := h2 σ w; simp only [Ctx.plug, uses, cn_append]; omega
  | .case _ _, _, _, _, h => by simp [inlineLet] at h
  | .proj y t i w e, x, C, z, h => by
    simp only [inlineLet, Option.map_eq_some_iff, Prod.mk.injEq] at h
    obtain ⟨⟨C', z'⟩, h, rfl, rfl⟩ := h
    rcases plug_uses (k := k) h with ⟨h1, h2⟩ | ⟨h1, h0, h2⟩
    · refine .inl ⟨h1, fun σ w => ?_⟩; have := h2 σ w; simp only [Ctx.plug, uses, cn_cons]; omega
    · refine .inr ⟨by simp [uses, h1], by simp [Ctx.plug, Exp.bv, h0], fun σ w => ?_⟩
      have := h2 σ w; simp only [Ctx.plug, uses, cn_cons]; omega
  | .letapp y f t ys e, x, C, z, h => by
    simp only [inlineLet, Option.map_eq_some_iff, Prod.mk.injEq] at h
    obtain ⟨⟨C', z'⟩, h, rfl, rfl⟩ := h
    rcases plug_uses (k := k) h with ⟨h1, h2⟩ | ⟨h1, h0, h2⟩
    · refine .inl ⟨h1, fun σ w => ?_⟩; have := h2 σ w; simp only [Ctx.plug, uses, cn_cons, cn_append]; omega
    · refine .inr ⟨by simp [uses, h1], by simp [Ctx.plug, Exp.bv, h0], fun σ w => ?_⟩
      have := h2 σ w; simp only [Ctx.plug, uses, cn_cons, cn_append]; omega
  | .fn B e, x, C, z, h => by
    simp only [inlineLet, Option.map_eq_some_iff, Prod.mk.injEq] at h
    obtain ⟨⟨C', z'⟩, h, rfl, rfl⟩ := h
    rcases plug_uses (k := k) h with ⟨h1, h2⟩ | ⟨h1, h0, h2⟩
    · refine .inl ⟨h1, fun σ w => ?_⟩; have := h2 σ w; simp only [Ctx.plug, uses, cn_append]; omega
    · refine .inr ⟨by simp [uses, h1], by simp [Ctx.plug, Exp.bv, h0], fun σ w => ?_⟩
      have := h2 σ w; simp only [Ctx.plug, uses, cn_append]; omega
  | .app f t ys, x, C, z, h => by
    simp only [inlineLet, Option.some.injEq, Prod.mk.injEq] at h
    obtain ⟨rfl, rfl⟩ := h
    exact .inl ⟨rfl, fun σ w => by simp only [Ctx.plug, uses, cn_cons, cn_append]; omega⟩
  | .primVal y p e, x, C, z, h => by
    simp only [inlineLet, Option.map_eq_some_iff, Prod.mk.injEq] at h
    obtain ⟨⟨C', z'⟩, h, rfl, rfl⟩ := h
    rcases plug_uses (k := k) h with ⟨h1, h2⟩ | ⟨h1, h0, h2⟩
    · refine .inl ⟨h1, fun σ w => ?_⟩; have := h2 σ w; simp only [Ctx.plug, uses]; omega
    · refine .inr ⟨by simp [uses, h1], by simp [Ctx.plug, Exp.bv, h0], fun σ w => ?_⟩
      have := h2 σ w; simp only [Ctx.plug, uses]; omega
  | .prim y p ys e, x, C, z, h => by
    simp only [inlineLet, Option.map_eq_some_iff, Prod.mk.injEq] at h
    obtain ⟨⟨C', z'⟩, h, rfl, rfl⟩ := h
    rcases plug_uses (k := k) h with ⟨h1, h2⟩ | ⟨h1, h0, h2⟩
    · refine .inl ⟨h1, fun σ w => ?_⟩; have := h2 σ w; simp only [Ctx.plug, uses, cn_append]; omega
    · refine .inr ⟨by simp [uses, h1], by simp [Ctx.plug, Exp.bv, h0], fun σ w => ?_⟩
      have := h2 σ w; simp only [Ctx.plug, uses, cn_append]; omega
  | .halt y, x, C, z, h => by
    simp only [inlineLet, Option.some.injEq, Prod.mk.injEq] at h
    obtain ⟨rfl, rfl⟩ := h
    exact .inr ⟨by simp [uses], by simp [Ctx.plug, Exp.bv], fun σ w => by simp [Ctx.plug, uses]; omega⟩

theorem plug_fv {k : Exp} {y : Var} : ∀ {m : Exp} {x C z}, inlineLet m x = some (C, z) → y ∈ (C.plug k).fv →
    y ∈ m.fv ∨ y ∈ k.fv ∧ y ≠ z
  | .constr w t ys e, x, C, z, h, hy => by
    simp only [inlineLet, Option.map_eq_some_iff, Prod.mk.injEq] at h
    obtain ⟨⟨C', z'⟩, h, rfl, rfl⟩ := h
    have ih := plug_fv (k := k) (y := y) h
    simp only [Ctx.plug, Exp.fv, Finset.mem_union, Finset.mem_erase, List.mem_toFinset] at hy ⊢; tauto
  | .case _ _, _, _, _, h, _ => by simp [inlineLet] at h
  | .proj w t i u e, x, C, z, h, hy => by
    simp only [inlineLet, Option.map_eq_some_iff, Prod.mk.injEq] at h
    obtain ⟨⟨C', z'⟩, h, rfl, rfl⟩ := h
    have ih := plug_fv (k := k) (y := y) h
    simp only [Ctx.plug, Exp.fv, Finset.mem_insert, Finset.mem_erase] at hy ⊢; tauto
  | .letapp w f t ys e, x, C, z, h, hy => by
    simp only [inlineLet, Option.map_eq_some_iff, Prod.mk.injEq] at h
    obtain ⟨⟨C', z'⟩, h, rfl, rfl⟩ := h
    have ih := plug_fv (k := k) (y := y) h
    simp only [Ctx.plug, Exp.fv, Finset.mem_insert, Finset.mem_union, Finset.mem_erase, List.mem_toFinset] at hy ⊢; tauto
  | .fn B e, x, C, z, h, hy => by
    simp only [inlineLet, Option.map_eq_some_iff, Prod.mk.injEq] at h
    obtain ⟨⟨C', z'⟩, h, rfl, rfl⟩ := h
    have ih := plug_fv (k := k) (y := y) h
    simp only [Ctx.plug, Exp.fv, Finset.mem_sdiff, Finset.mem_union, List.mem_toFinset] at hy ⊢; tauto
  | .app f t ys, x, C, z, h, hy => by
    simp only [inlineLet, Option.some.injEq, Prod.mk.injEq] at h
    obtain ⟨rfl, rfl⟩ := h
    simp only [Ctx.plug, Exp.fv, Finset.mem_insert, Finset.mem_union, Finset.mem_erase, List.mem_toFinset] at hy ⊢; tauto
  | .primVal w p e, x, C, z, h, hy => by
    simp only [inlineLet, Option.map_eq_some_iff, Prod.mk.injEq] at h
    obtain ⟨⟨C', z'⟩, h, rfl, rfl⟩ := h
    have ih := plug_fv (k := k) (y := y) h
    simp only [Ctx.plug, Exp.fv, Finset.mem_erase] at hy ⊢; tauto
  | .prim w p ys e, x, C, z, h, hy => by
    simp only [inlineLet, Option.map_eq_some_iff, Prod.mk.injEq] at h
    obtain ⟨⟨C', z'⟩, h, rfl, rfl⟩ := h
    have ih := plug_fv (k := k) (y := y) h
    simp only [Ctx.plug, Exp.fv, Finset.mem_union, Finset.mem_erase, List.mem_toFinset] at hy ⊢; tauto
  | .halt w, x, C, z, h, hy => by
    simp only [inlineLet, Option.some.injEq, Prod.mk.injEq] at h
    obtain ⟨rfl, rfl⟩ := h
    simp only [Ctx.plug, Exp.fv, Finset.mem_singleton] at hy ⊢
    by_cases h : y = w
    · exact .inl h
    · exact .inr ⟨hy, h⟩

mutual
theorem ren_fv {x z : Var} : ∀ (e : Exp), x ∉ e.bv → ∀ y ∈ (ren (put id x z) e).fv, y ∈ e.fv ∧ y ≠ x ∨ y = z ∧ x ∈ e.fv
  | .constr w t ys e, hx, y, hy => by
    simp only [Exp.bv, List.mem_cons, not_or] at hx
    have ih := ren_fv (z := z) e hx.2 y
    simp only [ren, Exp.fv, Finset.mem_union, Finset.mem_erase, List.mem_toFinset, List.mem_map] at hy ⊢
    rcases hy with ⟨u, hu, rfl⟩ | ⟨h1, h2⟩
    · by_cases h : u = x
      · subst h; rw [Inl.put_self]; exact .inr ⟨rfl, .inl hu⟩
      · rw [Inl.put_other h]; exact .inl ⟨.inl hu, h⟩
    · have := hx.1; tauto
  | .primVal w p e, hx, y, hy => by
    simp only [Exp.bv, List.mem_cons, not_or] at hx
    have ih := ren_fv (z := z) e hx.2 y
    simp only [ren, Exp.fv, Finset.mem_erase] at hy ⊢
    have := hx.1; tauto
  | .prim w p ys e, hx, y, hy => by
    simp only [Exp.bv, List.mem_cons, not_or] at hx
    have ih := ren_fv (z := z) e hx.2 y
    simp only [ren, Exp.fv, Finset.mem_union, Finset.mem_erase, List.mem_toFinset, List.mem_map] at hy ⊢
    rcases hy with ⟨u, hu, rfl⟩ | ⟨h1, h2⟩
    · by_cases h : u = x
      · subst h; rw [Inl.put_self]; exact .inr ⟨rfl, .inl hu⟩
      · rw [Inl.put_other h]; exact .inl ⟨.inl hu, h⟩
    · have := hx.1; tauto
  | .case v bs, hx, y, hy => by
    simp only [Exp.bv] at hx
    have ih := renB_fv (z := z) bs hx y
    simp only [ren, Exp.fv, Finset.mem_insert] at hy ⊢
    rcases hy with rfl | h1
    · by_cases h : v = x
      · subst h; rw [Inl.put_self]; exact .inr ⟨rfl, .inl rfl⟩
      · rw [Inl.put_other h]; exact .inl ⟨.inl rfl, h⟩
    · tauto
  | .proj w t i v e, hx, y, hy => by
    simp only [Exp.bv, List.mem_cons, not_or] at hx
    have ih := ren_fv (z := z) e hx.2 y
    simp only [ren, Exp.fv, Finset.mem_insert, Finset.mem_erase] at hy ⊢
    rcases hy with rfl | ⟨h1, h2⟩
    · by_cases h : v = x
      · subst h; rw [Inl.put_self]; exact .inr ⟨rfl, .inl rfl⟩
      · rw [Inl.put_other h]; exact .inl ⟨.inl rfl, h⟩
    · have := hx.1; tauto
  | .letapp w f t ys e, hx, y, hy => by
    simp only [Exp.bv, List.mem_cons, not_or] at hx
    have ih := ren_fv (z := z) e hx.2 y
    simp only [ren, Exp.fv, Finset.mem_insert, Finset.mem_union, Finset.mem_erase, List.mem_toFinset, List.mem_map] at hy ⊢
    rcases hy with rfl | ⟨u, hu, rfl⟩ | ⟨h1, h2⟩
    · by_cases h : f = x
      · subst h; rw [Inl.put_self]; exact .inr ⟨rfl, .inl rfl⟩
      · rw [Inl.put_other h]; exact .inl ⟨.inl rfl, h⟩
    · by_cases h : u = x
      · subst h; rw [Inl.put_self]; exact .inr ⟨rfl, .inr (.inl hu)⟩
      · rw [Inl.put_other h]; exact .inl ⟨.inr (.inl hu), h⟩
    · have := hx.1; tauto
  | .fn B e, hx, y, hy => by
    simp only [Exp.bv, List.mem_append, not_or] at hx
    have ih := ren_fv (z := z) e hx.2 y
    have ihD := renD_fv (z := z) B hx.1 y
    have hn : x ∉ B.names := fun h => hx.1 ((names_bv B).subset h)
    simp only [ren, Exp.fv, Finset.mem_sdiff, Finset.mem_union, List.mem_toFinset, renD_names] at hy ⊢
    tauto
  | .app f t ys, hx, y, hy => by
    simp only [ren, Exp.fv, Finset.mem_insert, List.mem_toFinset, List.mem_map] at hy ⊢
    rcases hy with rfl | ⟨u, hu, rfl⟩
    · by_cases h : f = x
      · subst h; rw [Inl.put_self]; exact .inr ⟨rfl, .inl rfl⟩
      · rw [Inl.put_other h]; exact .inl ⟨.inl rfl, h⟩
    · by_cases h : u = x
      · subst h; rw [Inl.put_self]; exact .inr ⟨rfl, .inr hu⟩
      · rw [Inl.put_other h]; exact .inl ⟨.inr hu, h⟩
  | .halt v, hx, y, hy => by
    simp only [ren, Exp.fv, Finset.mem_singleton] at hy ⊢
    subst hy
    by_cases h : v = x
    · subst h; rw [Inl.put_self]; exact .inr ⟨rfl, rfl⟩
    · rw [Inl.put_other h]; exact .inl ⟨rfl, h⟩
theorem renB_fv {x z : Var} : ∀ (bs : Brs), x ∉ bs.bv → ∀ y ∈ (renB (put id x z) bs).fv,
    y ∈ bs.fv ∧ y ≠ x ∨ y = z ∧ x ∈ bs.fv
  | .nil, _, y, hy => by simp [renB, Brs.fv] at hy
  | .cons t e bs, hx, y, hy => by
    simp only [Brs.bv, List.mem_append, not_or] at hx
    have ih := ren_fv (z := z) e hx.1 y
    have ihB := renB_fv (z := z) bs hx.2 y
    simp only [renB, Brs.fv, Finset.mem_union] at hy ⊢
    tauto
theorem renD_fv {x z : Var} : ∀ (B : Defs), x ∉ B.bv → ∀ y ∈ (renD (put id x z) B).fvRaw,
    y ∈ B.fvRaw ∧ y ≠ x ∨ y = z ∧ x ∈ B.fvRaw
  | .nil, _, y, hy => by simp [renD, Defs.fvRaw] at hy
  | .cons f t xs e B, hx, y, hy => by
    simp only [Defs.bv, List.mem_append, List.mem_cons, not_or] at hx
    have ih := ren_fv (z := z) e hx.2.2.1 y
    have ihB := renD_fv (z := z) B hx.2.2.2 y
    have hxs := hx.2.1
    simp only [renD, Defs.fvRaw, Finset.mem_union, Finset.mem_sdiff, List.mem_toFinset] at hy ⊢
    tauto
end

end Shr
end ANF
