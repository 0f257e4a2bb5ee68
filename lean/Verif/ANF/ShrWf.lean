import Verif.ANF.ShrGood
import Verif.ANF.InlGen

/-!
# Shrink reduction: variables and tags of the result
-/

namespace ANF
namespace Shr
open Ll (put)
open Inl (Ctx inlineLet sets)

theorem nth_bv : ∀ {bs : Brs} {i t e}, nth bs i = some (t, e) → e.bv.Sublist bs.bv
  | .cons u k bs, 0, t, e, h => by cases h; exact List.sublist_append_left _ _
  | .cons u k bs, i + 1, t, e, h => (nth_bv (bs := bs) h).trans (List.sublist_append_right _ _)

theorem nth_tail : ∀ {bs : Brs} {i t e}, nth bs i = some (t, e) → (∀ y ∈ e.fv, y ∈ bs.fv) ∧ ∀ u ∈ e.caseTags, u ∈ bs.caseTags
  | .cons u k bs, 0, t, e, h => by cases h; exact ⟨fun y hy => by simp [Brs.fv, hy], fun y hy => by simp [Brs.caseTags, hy]⟩
  | .cons u k bs, i + 1, t, e, h => by
    obtain ⟨h1, h2⟩ := nth_tail (bs := bs) h
    exact ⟨fun y hy => by simp [Brs.fv, h1 y hy], fun y hy => by simp [Brs.caseTags, h2 y hy]⟩

theorem brs_fv : ∀ {bs : Brs} {y}, y ∈ bs.fv → ∃ i t e, nth bs i = some (t, e) ∧ y ∈ e.fv
  | .nil, y, h => by simp [Brs.fv] at h
  | .cons u k bs, y, h => by
    simp only [Brs.fv, Finset.mem_union] at h
    rcases h with h | h
    · exact ⟨0, u, k, rfl, h⟩
    · obtain ⟨i, t, e, h1, h2⟩ := brs_fv h
      exact ⟨i + 1, t, e, h1, h2⟩

theorem nth_zip : ∀ {bs bs' : Brs} {i t e}, bs.tags = bs'.tags → nth bs i = some (t, e) → ∃ e', nth bs' i = some (t, e')
  | .cons u k bs, .nil, i, t, e, ht, h => by simp [Brs.tags] at ht
  | .cons u k bs, .cons u' k' bs', 0, t, e, ht, h => by
    simp only [Brs.tags, List.cons.injEq] at ht
    cases h; obtain ⟨rfl, _⟩ := ht; exact ⟨k', rfl⟩
  | .cons u k bs, .cons u' k' bs', i + 1, t, e, ht, h => by
    simp only [Brs.tags, List.cons.injEq] at ht
    exact nth_zip (bs := bs) (bs' := bs') ht.2 h

theorem brs_caseTags : ∀ {bs : Brs} {u}, u ∈ bs.caseTags → u ∈ bs.tags ∨ ∃ i t e, nth bs i = some (t, e) ∧ u ∈ e.caseTags
  | .nil, y, h => by simp [Brs.caseTags] at h
  | .cons u k bs, y, h => by
    simp only [Brs.caseTags, List.mem_cons, List.mem_append] at h
    simp only [Brs.tags, List.mem_cons]
    rcases h with h | h | h
    · exact .inl (.inl h)
    · exact .inr ⟨0, u, k, rfl, h⟩
    · rcases brs_caseTags h with h | ⟨i, t, e, h1, h2⟩
      · exact .inl (.inr h)
      · exact .inr ⟨i + 1, t, e, h1, h2⟩

theorem fvRaw_find : ∀ {B : Defs} {y}, B.names.Nodup → y ∈ B.fvRaw → ∃ f t xs m, findDef f B = some (t, xs, m) ∧ y ∈ m.fv ∧ y ∉ xs
  | .nil, y, _, h => by simp [Defs.fvRaw] at h
  | .cons f t xs m B, y, hn, h => by
    simp only [Defs.names, List.nodup_cons] at hn
    simp only [Defs.fvRaw, Finset.mem_union, Finset.mem_sdiff, List.mem_toFinset] at h
    rcases h with h | h
    · exact ⟨f, t, xs, m, by simp [findDef], h⟩
    · obtain ⟨g, t', xs', m', h1, h2⟩ := fvRaw_find hn.2 h
      refine ⟨g, t', xs', m', ?_, h2⟩
      rw [findDef, if_neg (by rintro rfl; exact hn.1 (findDef_mem h1))]; exact h1

theorem caseTags_find : ∀ {B : Defs} {u}, B.names.Nodup → u ∈ B.caseTags → ∃ f t xs m, findDef f B = some (t, xs, m) ∧ u ∈ m.caseTags
  | .nil, y, _, h => by simp [Defs.caseTags] at h
  | .cons f t xs m B, y, hn, h => by
    simp only [Defs.names, List.nodup_cons] at hn
    simp only [Defs.caseTags, List.mem_append] at h
    rcases h with h | h
    · exact ⟨f, t, xs, m, by simp [findDef], h⟩
    · obtain ⟨g, t', xs', m', h1, h2⟩ := caseTags_find hn.2 h
      refine ⟨g, t', xs', m', ?_, h2⟩
      rw [findDef, if_neg (by rintro rfl; exact hn.1 (findDef_mem h1))]; exact h1

mutual
theorem ren_caseTags {σ} : ∀ e : Exp, (ren σ e).caseTags = e.caseTags
  | .constr x t ys e => by simp only [ren, Exp.caseTags, ren_caseTags e]
  | .case v bs => by simp only [ren, Exp.caseTags, renB_caseTags bs]
  | .proj x t i y e => by simp only [ren, Exp.caseTags, ren_caseTags e]
  | .letapp x f t ys e => by simp only [ren, Exp.caseTags, ren_caseTags e]
  | .fn B e => by simp only [ren, Exp.caseTags, ren_caseTags e, renD_caseTags B]
  | .app f t ys => by simp only [ren, Exp.caseTags]
  | .primVal x p e => by simp only [ren, Exp.caseTags, ren_caseTags e]
  | .prim x p ys e => by simp only [ren, Exp.caseTags, ren_caseTags e]
  | .halt x => by simp only [ren, Exp.caseTags]
theorem renB_caseTags {σ} : ∀ bs : Brs, (renB σ bs).caseTags = bs.caseTags
  | .nil => rfl
  | .cons t e bs => by simp only [renB, Brs.caseTags, ren_caseTags e, renB_caseTags bs]
theorem renD_caseTags {σ} : ∀ B : Defs, (renD σ B).caseTags = B.caseTags
  | .nil => rfl
  | .cons f t xs e B => by simp only [renD, Defs.caseTags, ren_caseTags e, renD_caseTags B]
end

/-- Free variables of the target are renamed free variables of the source, or are in the facts. -/
theorem SE.free {d Γ σ e e'} (h : SE d Γ σ e e') : e'.bv.Nodup → ∀ y ∈ e'.fv,
    (∃ z ∈ e.fv, σ z = y) ∨ ∃ k a, Γ k = some a ∧ a.Uses y := by
  induction h with
  | weak hd hΓ h ih =>
    intro hn y hy
    rcases ih hn y hy with h | ⟨k, a, h1, h2⟩
    · exact .inl h
    · obtain ⟨a', h3, h4⟩ := hΓ k a h1
      refine .inr ⟨k, a', h3, ?_⟩
      cases a <;> cases a' <;> simp only [Fact.Same] at h4
      · obtain ⟨rfl, rfl⟩ := h4; exact h2
      · obtain ⟨rfl, rfl, rfl, h5⟩ := h4
        obtain ⟨z, z1, z2, z3⟩ := h2
        exact ⟨z, z1, z2, by rw [h5 z z1 z2]; exact z3⟩
  | halt =>
    intro hn y hy
    simp only [Exp.fv, Finset.mem_singleton] at hy
    exact .inl ⟨_, by simp [Exp.fv], hy.symm⟩
  | @constr d Γ σ x t ys e e' hx hy h ih =>
    intro hn y hy'
    simp only [Exp.bv, List.nodup_cons] at hn
    simp only [Exp.fv, Finset.mem_union, Finset.mem_erase, List.mem_toFinset] at hy' ⊢
    have base : y ∈ ys.map σ → (∃ z, (z ∈ ys ∨ z ≠ x ∧ z ∈ e.fv) ∧ σ z = y) ∨ ∃ k a, Γ k = some a ∧ a.Uses y := by
      intro h; obtain ⟨z, h1, h2⟩ := List.mem_map.mp h; exact .inl ⟨z, .inl h1, h2⟩
    rcases hy' with hy' | ⟨hne, hy'⟩
    · exact base hy'
    · rcases ih hn.2 y hy' with ⟨z, h1, h2⟩ | ⟨k, a, h1, h2⟩
      · exact .inl ⟨z, .inr ⟨by rintro rfl; exact hne (h2.symm.trans hx.2.1), h1⟩, h2⟩
      · by_cases hk : k = x
        · subst hk; rw [Inl.put_self] at h1; cases h1; exact base h2
        · rw [Inl.put_other hk] at h1; exact .inr ⟨k, a, h1, h2⟩
  | @constrDead d Γ σ x t ys e e' hx hy hdead h ih =>
    intro hn y hy'
    have hne : y ≠ x := by rintro rfl; exact hdead hy'
    simp only [Exp.fv, Finset.mem_union, Finset.mem_erase, List.mem_toFinset]
    rcases ih hn y hy' with ⟨z, h1, h2⟩ | ⟨k, a, h1, h2⟩
    · exact .inl ⟨z, .inr ⟨by rintro rfl; exact hne (h2.symm.trans hx.2.1), h1⟩, h2⟩
    · by_cases hk : k = x
      · subst hk; rw [Inl.put_self] at h1; cases h1
        obtain ⟨z, h1, h2⟩ := List.mem_map.mp h2; exact .inl ⟨z, .inl h1, h2⟩
      · rw [Inl.put_other hk] at h1; exact .inr ⟨k, a, h1, h2⟩
  | @proj d Γ σ x t i y₀ e e' hx h ih =>
    intro hn y hy'
    simp only [Exp.bv, List.nodup_cons] at hn
    simp only [Exp.fv, Finset.mem_insert, Finset.mem_erase] at hy' ⊢
    rcases hy' with hy' | ⟨hne, hy'⟩
    · exact .inl ⟨y₀, .inl rfl, hy'.symm⟩
    · rcases ih hn.2 y hy' with ⟨z, h1, h2⟩ | h1
      · exact .inl ⟨z, .inr ⟨by rintro rfl; exact hne (h2.symm.trans hx.2.1), h1⟩, h2⟩
      · exact .inr h1
  | @projDead d Γ σ x t i y₀ e e' hx hdead h ih =>
    intro hn y hy'
    have hne : y ≠ x := by rintro rfl; exact hdead hy'
    simp only [Exp.fv, Finset.mem_insert, Finset.mem_erase]
    rcases ih hn y hy' with ⟨z, h1, h2⟩ | h1
    · exact .inl ⟨z, .inr ⟨by rintro rfl; exact hne (h2.symm.trans hx.2.1), h1⟩, h2⟩
    · exact .inr h1
  | @projFold d Γ σ x t i y₀ e e' t' zs z₀ hk hz h ih =>
    intro hn y hy'
    simp only [Exp.fv, Finset.mem_insert, Finset.mem_erase]
    rcases ih hn y hy' with ⟨z, h1, h2⟩ | h1
    · by_cases hzx : z = x
      · subst hzx; rw [Inl.put_self] at h2; subst h2
        exact .inr ⟨_, _, hk, List.mem_of_getElem? hz⟩
      · rw [Inl.put_other hzx] at h2; exact .inl ⟨z, .inr ⟨hzx, h1⟩, h2⟩
    · exact .inr h1
  | @letapp d Γ σ x f t ys e e' hx h ih =>
    intro hn y hy'
    simp only [Exp.bv, List.nodup_cons] at hn
    simp only [Exp.fv, Finset.mem_insert, Finset.mem_union, Finset.mem_erase, List.mem_toFinset] at hy' ⊢
    rcases hy' with hy' | hy' | ⟨hne, hy'⟩
    · exact .inl ⟨f, .inl rfl, hy'.symm⟩
    · obtain ⟨z, h1, h2⟩ := List.mem_map.mp hy'; exact .inl ⟨z, .inr (.inl h1), h2⟩
    · rcases ih hn.2 y hy' with ⟨z, h1, h2⟩ | h1
      · exact .inl ⟨z, .inr (.inr ⟨by rintro rfl; exact hne (h2.symm.trans hx.2.1), h1⟩), h2⟩
      · exact .inr h1
  | @letinl d Γ σ σ' x f t ys e e' t' xs m τ C z hk hxs hlen hC hin hout hrest hx hz h ih =>
    intro hn y hy'
    simp only [Exp.fv, Finset.mem_insert, Finset.mem_union, Finset.mem_erase, List.mem_toFinset]
    rcases ih hn y hy' with ⟨w, h1, h2⟩ | h1
    · rcases plug_fv hC h1 with h3 | ⟨h3, h4⟩
      · by_cases hw : w ∈ xs
        · obtain ⟨i, hi⟩ := List.mem_iff_getElem?.mp hw
          have hlt : i < ys.length := by
            have := (List.getElem?_eq_some_iff.mp hi).1; omega
          have := hin i w ys[i] hi (List.getElem?_eq_getElem hlt)
          exact .inl ⟨ys[i], .inr (.inl (List.getElem_mem hlt)), by rw [← this]; exact h2⟩
        · exact .inr ⟨_, _, hk, w, h3, hw, by rw [← hout w h3 hw]; exact h2⟩
      · rcases ren_fv e hx w h3 with ⟨h5, h6⟩ | ⟨h5, _⟩
        · exact .inl ⟨w, .inr (.inr ⟨h6, h5⟩), by rw [← (hrest w h5 h6).1]; exact h2⟩
        · exact absurd h5 h4
    · exact .inr h1
  | @primVal d Γ σ x p e e' hx h ih =>
    intro hn y hy'
    simp only [Exp.bv, List.nodup_cons] at hn
    simp only [Exp.fv, Finset.mem_erase] at hy' ⊢
    rcases ih hn.2 y hy'.2 with ⟨z, h1, h2⟩ | h1
    · exact .inl ⟨z, ⟨by rintro rfl; exact hy'.1 (h2.symm.trans hx.2.1), h1⟩, h2⟩
    · exact .inr h1
  | @prim d Γ σ x p ys e e' hx h ih =>
    intro hn y hy'
    simp only [Exp.bv, List.nodup_cons] at hn
    simp only [Exp.fv, Finset.mem_union, Finset.mem_erase, List.mem_toFinset] at hy' ⊢
    rcases hy' with hy' | ⟨hne, hy'⟩
    · obtain ⟨z, h1, h2⟩ := List.mem_map.mp hy'; exact .inl ⟨z, .inl h1, h2⟩
    · rcases ih hn.2 y hy' with ⟨z, h1, h2⟩ | h1
      · exact .inl ⟨z, .inr ⟨by rintro rfl; exact hne (h2.symm.trans hx.2.1), h1⟩, h2⟩
      · exact .inr h1
  | @case d Γ σ v bs bs' ht h ih =>
    intro hn y hy'
    simp only [Exp.bv] at hn
    simp only [Exp.fv, Finset.mem_insert] at hy' ⊢
    rcases hy' with hy' | hy'
    · exact .inl ⟨v, .inl rfl, hy'.symm⟩
    · obtain ⟨i, t, e', h1, h2⟩ := brs_fv hy'
      obtain ⟨e, h3⟩ := nth_zip ht h1
      rcases ih i t e t e' h3 h1 ((nth_bv h1).nodup hn) y h2 with ⟨z, h4, h5⟩ | h4
      · exact .inl ⟨z, .inr ((nth_tail h3).1 z h4), h5⟩
      · exact .inr h4
  | @caseFold d Γ σ v bs t zs e e' hk hf h ih =>
    intro hn y hy'
    simp only [Exp.fv, Finset.mem_insert]
    rcases ih hn y hy' with ⟨z, h4, h5⟩ | h4
    · exact .inl ⟨z, .inr (findTag_fv hf z h4), h5⟩
    · exact .inr h4
  | @fn d Γ Γ' σ B B' e e' hn hσ hΓ hs hp hb hd1 hd2 h ihb ihe =>
    intro hnd y hy'
    have hnd' : (B'.bv ++ e'.bv).Nodup := by
      rw [nodup_cn] at hnd ⊢
      intro w; have := hnd w; rw [mkFn_bv] at this; rw [cn_append]; exact this
    have hBn := (List.nodup_append.mp hnd').1
    have hEn := (List.nodup_append.mp hnd').2.1
    have hnot : y ∉ B'.names ∧ (y ∈ B'.fvRaw ∨ y ∈ e'.fv) := by
      cases B' with
      | nil => exact ⟨by simp [Defs.names], .inr hy'⟩
      | cons f t xs m B' =>
        simp only [mkFn, Exp.fv, Finset.mem_sdiff, Finset.mem_union, List.mem_toFinset] at hy'
        exact ⟨hy'.2, hy'.1⟩
    have hyB : y ∉ B.names := by
      intro hm
      rcases hnot.2 with h1 | h1
      · exact hd1 y hm (by simp only [Defs.fv, Finset.mem_sdiff, List.mem_toFinset]; exact ⟨h1, hnot.1⟩)
      · exact hnot.1 (hd2 y hm h1)
    have fin : ∀ z, (z ∈ B.fvRaw ∨ z ∈ e.fv) → σ z = y → (∃ z ∈ (Exp.fn B e).fv, σ z = y) ∨ ∃ k a, Γ k = some a ∧ a.Uses y := by
      intro z hz hzy
      refine .inl ⟨z, ?_, hzy⟩
      simp only [Exp.fv, Finset.mem_sdiff, Finset.mem_union, List.mem_toFinset]
      exact ⟨hz, fun hm => hyB (by rw [← hzy, (hn z hm).2]; exact hm)⟩
    rcases hnot.2 with h1 | h1
    · obtain ⟨f, t, xs, m', h2, h3, h4⟩ := fvRaw_find ((names_bv B').nodup hBn) h1
      obtain ⟨m, h5⟩ := hs f t xs m' h2
      have h6 : m'.bv.Nodup := ((List.sublist_append_right _ _).trans (findDef_bv h2)).nodup hBn
      rcases ihb f t xs m t xs m' h5 h2 h6 y h3 with ⟨z, z1, z2⟩ | h7
      · refine fin z (.inl (mem_subs_fv (find_subs h5) z z1 fun hzx => ?_)) z2
        have := ((hp f t xs m (by rw [h2]; simp) h5).1 z hzx).2
        exact h4 (by rw [← z2, this]; exact hzx)
      · exact .inr h7
    · rcases ihe hEn y h1 with ⟨z, z1, z2⟩ | ⟨k, a, k1, k2⟩
      · exact fin z (.inr z1) z2
      · rcases hΓ k a k1 with k3 | ⟨t, xs, m, k3, rfl⟩
        · exact .inr ⟨k, a, k3, k2⟩
        · obtain ⟨z, z1, z2, z3⟩ := k2
          exact fin z (.inl (mem_subs_fv (find_subs k3) z z1 z2)) z3
  | @app d Γ σ f t ys =>
    intro hn y hy'
    simp only [Exp.fv, Finset.mem_insert, List.mem_toFinset] at hy' ⊢
    rcases hy' with hy' | hy'
    · exact .inl ⟨f, .inl rfl, hy'.symm⟩
    · obtain ⟨z, h1, h2⟩ := List.mem_map.mp hy'; exact .inl ⟨z, .inr h1, h2⟩
  | @appinl d Γ σ σ' f t ys e' t' xs m τ hk hxs hlen hin hout h ih =>
    intro hn y hy'
    simp only [Exp.fv, Finset.mem_insert, List.mem_toFinset]
    rcases ih hn y hy' with ⟨w, h3, h2⟩ | h1
    · by_cases hw : w ∈ xs
      · obtain ⟨i, hi⟩ := List.mem_iff_getElem?.mp hw
        have hlt : i < ys.length := by
          have := (List.getElem?_eq_some_iff.mp hi).1; omega
        have := hin i w ys[i] hi (List.getElem?_eq_getElem hlt)
        exact .inl ⟨ys[i], .inr (List.getElem_mem hlt), by rw [← this]; exact h2⟩
      · exact .inr ⟨_, _, hk, w, h3, hw, by rw [← hout w h3 hw]; exact h2⟩
    · exact .inr h1

/-- Tags matched on. -/
theorem SE.tagged {d Γ σ e e'} (h : SE d Γ σ e e') : e'.bv.Nodup → ∀ {T : Tag → Prop},
    (∀ k t xs m τ, Γ k = some (.fn t xs m τ) → ∀ u ∈ m.caseTags, T u) → (∀ u ∈ e.caseTags, T u) → ∀ u ∈ e'.caseTags, T u := by
  induction h with
  | @weak d d' Γ Γ' σ e e' hd hΓ h ih =>
    intro hn T hT
    refine ih hn fun k t xs m τ hk => ?_
    obtain ⟨a', h3, h4⟩ := hΓ _ _ hk
    cases a' with
    | con t zs => exact h4.elim
    | fn t xs m τ => obtain ⟨rfl, rfl, rfl, _⟩ := h4; exact hT _ _ _ _ _ h3
  | halt => intro hn T hT he u hu; simp [Exp.caseTags] at hu
  | @constr d Γ σ x t ys e e' hx hy h ih =>
    intro hn T hT
    simp only [Exp.bv, List.nodup_cons] at hn
    simp only [Exp.caseTags]
    refine ih hn.2 fun k t xs m τ hk => ?_
    by_cases hkx : k = x
    · subst hkx; rw [Inl.put_self] at hk; cases hk
    · rw [Inl.put_other hkx] at hk; exact hT _ _ _ _ _ hk
  | @constrDead d Γ σ x t ys e e' hx hy hdead h ih =>
    intro hn T hT
    simp only [Exp.caseTags]
    refine ih hn fun k t xs m τ hk => ?_
    by_cases hkx : k = x
    · subst hkx; rw [Inl.put_self] at hk; cases hk
    · rw [Inl.put_other hkx] at hk; exact hT _ _ _ _ _ hk
  | proj hx h ih =>
    intro hn T hT
    simp only [Exp.bv, List.nodup_cons] at hn
    exact ih hn.2 hT
  | projDead hx hdead h ih => intro hn T hT; exact ih hn hT
  | projFold hk hz h ih => intro hn T hT; exact ih hn hT
  | letapp hx h ih =>
    intro hn T hT
    simp only [Exp.bv, List.nodup_cons] at hn
    exact ih hn.2 hT
  | @letinl d Γ σ σ' x f t ys e e' t' xs m τ C z hk hxs hlen hC hin hout hrest hx hz h ih =>
    intro hn T hT he
    refine ih hn hT (Inl.inlineLet_caseTags hC (hT _ _ _ _ _ hk) ?_)
    rw [ren_caseTags]; exact he
  | primVal hx h ih =>
    intro hn T hT
    simp only [Exp.bv, List.nodup_cons] at hn
    exact ih hn.2 hT
  | prim hx h ih =>
    intro hn T hT
    simp only [Exp.bv, List.nodup_cons] at hn
    exact ih hn.2 hT
  | @case d Γ σ v bs bs' ht h ih =>
    intro hn T hT he u hu
    simp only [Exp.caseTags] at he hu
    rcases brs_caseTags hu with h1 | ⟨i, t, e', h1, h2⟩
    · rw [ht] at h1; exact he u (tags_caseTags h1)
    · obtain ⟨e, h3⟩ := nth_zip ht h1
      exact ih i t e t e' h3 h1 ((nth_bv h1).nodup hn) hT (fun u hu => he u ((nth_tail h3).2 u hu)) u h2
  | @caseFold d Γ σ v bs t zs e e' hk hf h ih =>
    intro hn T hT he
    exact ih hn hT fun u hu => he u (findTag_caseTags hf u hu)
  | @fn d Γ Γ' σ B B' e e' hn hσ hΓ hs hp hb hd1 hd2 h ihb ihe =>
    intro hnd T hT he u hu
    have hnd' : (B'.bv ++ e'.bv).Nodup := by
      rw [nodup_cn] at hnd ⊢
      intro w; have := hnd w; rw [mkFn_bv] at this; rw [cn_append]; exact this
    have hBn := (List.nodup_append.mp hnd').1
    have hEn := (List.nodup_append.mp hnd').2.1
    have hu' : u ∈ B'.caseTags ∨ u ∈ e'.caseTags := by
      cases B' with
      | nil => exact .inr hu
      | cons f t xs m B' => simpa [mkFn, Exp.caseTags] using hu
    rcases hu' with h1 | h1
    · obtain ⟨f, t, xs, m', h2, h3⟩ := caseTags_find ((names_bv B').nodup hBn) h1
      obtain ⟨m, h5⟩ := hs f t xs m' h2
      have h6 : m'.bv.Nodup := ((List.sublist_append_right _ _).trans (findDef_bv h2)).nodup hBn
      refine ihb f t xs m t xs m' h5 h2 h6 hT (fun v hv => he v ?_) u h3
      simp only [Exp.caseTags, List.mem_append]
      exact .inl (findDef_caseTags h5 v hv)
    · refine ihe hEn (fun k t xs m τ hk v hv => ?_) (fun v hv => he v (by simp [Exp.caseTags, hv])) u h1
      rcases hΓ _ _ hk with k3 | ⟨t, xs, m, k3, k4⟩
      · exact hT _ _ _ _ _ k3 v hv
      · cases k4
        refine he v ?_
        simp only [Exp.caseTags, List.mem_append]
        exact .inl (findDef_caseTags k3 v hv)
  | app => intro hn T hT he u hu; simp [Exp.caseTags] at hu
  | @appinl d Γ σ σ' f t ys e' t' xs m τ hk hxs hlen hin hout h ih =>
    intro hn T hT _
    exact ih hn hT (hT _ _ _ _ _ hk)

/-! ## The top of the pass -/

/-- The pass on a closed program contracts its body. -/
theorem shrinkTop_eq (e : Exp) : shrinkTop e =
    (contract (fuel e - 1) id (initCensus (wrap e)) e [] fun _ => false).map fun r => (r.out, r.steps) := by
  obtain ⟨n, hn⟩ : ∃ n, fuel e = n + 2 := ⟨tsizeD (.cons (Unc.maxVar e + 1) 1 (elements e.fv) e .nil) + 1, by
    simp only [fuel, wrap, tsize]; omega⟩
  have hc : initCensus (wrap e) (Unc.maxVar e + 1) ≠ 0 := by
    rw [initCensus_eq, wrap, uses, cn_append]
    simp [uses]
  rw [shrinkTop, hn]
  generalize initCensus (wrap e) = c at hc ⊢
  have h1 : contract (n + 1) id c (.halt (Unc.maxVar e + 1)) [(Unc.maxVar e + 1, .fn 1 (elements e.fv) e)] (fun _ => false)
      = some ⟨.halt (Unc.maxVar e + 1), 0, c, fun _ => false⟩ := rfl
  rw [wrap, contract]
  simp only [preFun, if_neg hc, h1, postFun]
  simp only [Bool.false_eq_true, if_false, Nat.add_sub_cancel, show n + 2 - 1 = n + 1 from rfl]
  cases contract (n + 1) id c e [] (fun _ => false) with
  | none => rfl
  | some r => simp [mkFn]

theorem start {e : Exp} (hc : e.fv = ∅) (hb : e.bv.Nodup) :
    Pre (fun _ => 0) id (initCensus (wrap e)) (uses e) e.bv (· ∈ e.fv) [] (fun _ => false) [] where
  cnt y := by
    rw [initCensus_eq, wrap, uses, cn_append]
    simp only [usesD, cn_append, pu, cn_nil]; omega
  gone f hf := by cases hf
  con x t ys h := by cases h
  uc w := by have := nodup_cn.mp hb w; simpa [un, pb] using this
  fre y hy := by rw [hc] at hy; simp at hy
  frp f t xs m h := by cases h
  kz w _ := rfl
  ids w _ := rfl
  away z _ := rfl
  keys f v h := by cases h

/-- The pass returns a program, related to its argument and no larger. -/
theorem shrink_spec {e : Exp} (hc : e.fv = ∅) (hb : e.bv.Nodup) : ∃ e' n, shrinkTop e = some (e', n) ∧
    (∃ d, SE d (fun _ => none) id e e') ∧ e'.bv.Nodup ∧ (∀ x ∈ e'.bv, x ∈ e.bv) ∧ tsize e' ≤ tsize e := by
  have hs : subSize (fun _ => false) [] = 0 := rfl
  obtain ⟨r, hr⟩ := contract_total (fuel e - 1) id (initCensus (wrap e)) e [] (fun _ => false) (by
    simp only [hs, fuel, wrap, tsize, tsizeD]; omega)
  have hm := contract_massive _ _ _ _ _ _ _ hr
  have hle : ∀ w, cn id r.out.bv w ≤ cn id e.bv w := fun w => by have := hm.bvs w; simpa [pb] using this
  refine ⟨r.out, r.steps, by rw [shrinkTop_eq, hr]; rfl, ?_, ?_, fun x hx => ?_, ?_⟩
  · exact (contract_good _ _ _ _ _ _ _ _ _ hr (start hc hb)).2
  · rw [nodup_cn] at hb ⊢
    intro w; have := hb w; have := hle w; omega
  · have := hle x; have := cn_mem.mpr hx; exact cn_mem.mp (by omega)
  · have := hm.size; simp only [hs, subSize] at this; exact this

end Shr
end ANF
