import Verif.Conv.CpsSim
import Verif.Conv.AnfWf

/-!
# The output of CPS conversion is closed, and its binders are fresh

All binders are distinct but one: the continuation of a whole program is both a function and a parameter.
-/

namespace Conv.Cps

open ANF (Var Tag)

variable {P : Params}

/-- Permutations of binder lists, by counting. -/
macro "perm_count" : tactic => `(tactic| (
  rw [List.perm_iff_count]
  intro a
  simp only [List.count_append, List.count_cons, List.count_nil]
  omega))

mutual
theorem cps_total : ∀ (e : Src.Exp) (vn : List Var) k n, e.wfp P.arity vn.length → ∃ r, cps P e vn k n = some r
  | .var i, vn, k, n, h => by
    simp only [Src.Exp.wfp] at h
    simp [cps, List.getElem?_eq_getElem h]
  | .app e₁ e₂, vn, k, n, h => by
    simp only [Src.Exp.wfp] at h
    obtain ⟨⟨e₁', n₁⟩, h₁⟩ := cps_total e₁ vn (n + 1) (n + 4) h.1
    obtain ⟨⟨e₂', n₂⟩, h₂⟩ := cps_total e₂ vn (n + 3) n₁ h.2
    simp [cps, h₁, h₂]
  | .lam e, vn, k, n, h => by
    simp only [Src.Exp.wfp] at h
    obtain ⟨⟨e', n₁⟩, h₁⟩ := cps_total e (n :: vn) (n + 2) (n + 3) (by simpa [Nat.add_comm] using h)
    simp [cps, h₁]
  | .letin e₁ e₂, vn, k, n, h => by
    simp only [Src.Exp.wfp] at h
    obtain ⟨⟨e₂', n₁⟩, h₁⟩ := cps_total e₂ (n :: vn) k (n + 2) (by simpa [Nat.add_comm] using h.2)
    obtain ⟨⟨e₁', n₂⟩, h₂⟩ := cps_total e₁ vn (n + 1) n₁ h.1
    simp [cps, h₁, h₂]
  | .con d es, vn, k, n, h => by
    simp only [Src.Exp.wfp] at h
    simp only [cps, freshList_spec]
    exact cpss_total es vn _ _ _ _ h (by simp) (by simp)
  | .fix fs i, vn, k, n, h => by
    simp only [Src.Exp.wfp] at h
    obtain ⟨⟨B, n₁⟩, h₁⟩ := cpsF_total fs ((List.range' n fs.len).reverse ++ vn) (List.range' n fs.len) (n + fs.len)
      (by simpa using h.2)
    simp [cps, freshList_spec, h₁, List.getElem?_range' h.1]
  | .mtch e bs, vn, k, n, h => by
    simp only [Src.Exp.wfp] at h
    obtain ⟨⟨e', n₁⟩, h₁⟩ := cps_total e vn (n + 1) (n + 2) h.1
    obtain ⟨⟨pats, n₂⟩, h₂⟩ := cpsB_total bs vn k n n₁ h.2
    simp [cps, h₁, h₂]
  | .prf, vn, k, n, h => by simp [cps]
  | .pval p, vn, k, n, h => by simp [cps]
  | .prim p, vn, k, n, h => by
    obtain ⟨m, hm⟩ := h
    simp [cps, hm]
theorem cpss_total : ∀ (es : Src.Exps) (vn : List Var) a xs ks n, es.wfp P.arity vn.length → xs.length = es.len →
    ks.length = es.len → ∃ r, cpss P es vn a xs ks n = some r
  | .nil, vn, a, xs, ks, n, h, _, _ => by simp [cpss]
  | .cons e es, vn, a, [], ks, n, h, hx, _ => by simp [Src.Exps.len] at hx
  | .cons e es, vn, a, _ :: _, [], n, h, _, hk => by simp [Src.Exps.len] at hk
  | .cons e es, vn, a, x :: xs, k :: ks, n, h, hx, hk => by
    simp only [Src.Exps.wfp] at h
    obtain ⟨⟨e', n₁⟩, h₁⟩ := cps_total e vn k n h.1
    obtain ⟨⟨e'', n₂⟩, h₂⟩ := cpss_total es vn a xs ks n₁ h.2 (by simpa [Src.Exps.len] using hx)
      (by simpa [Src.Exps.len] using hk)
    simp [cpss, h₁, h₂]
theorem cpsF_total : ∀ (fs : Src.Fns) (vn : List Var) names n, fs.wfp P.arity vn.length → ∃ r, cpsF P fs vn names n = some r
  | .nil, vn, names, n, h => by simp [cpsF]
  | .cons (.lam e) fs, vn, names, n, h => by
    simp only [Src.Fns.wfp, Src.Exp.wfp] at h
    obtain ⟨⟨e', n₁⟩, h₁⟩ := cps_total e (n :: vn) (n + 1) (n + 2) (by simpa [Nat.add_comm] using h.1)
    obtain ⟨⟨B, n₂⟩, h₂⟩ := cpsF_total fs vn names.tail n₁ h.2.2
    simp [cpsF, h₁, h₂]
  | .cons (.var _) _, _, _, _, h => by simp [Src.Fns.wfp] at h
  | .cons (.app _ _) _, _, _, _, h => by simp [Src.Fns.wfp] at h
  | .cons (.con _ _) _, _, _, _, h => by simp [Src.Fns.wfp] at h
  | .cons (.mtch _ _) _, _, _, _, h => by simp [Src.Fns.wfp] at h
  | .cons (.letin _ _) _, _, _, _, h => by simp [Src.Fns.wfp] at h
  | .cons (.fix _ _) _, _, _, _, h => by simp [Src.Fns.wfp] at h
  | .cons (.prf) _, _, _, _, h => by simp [Src.Fns.wfp] at h
  | .cons (.pval _) _, _, _, _, h => by simp [Src.Fns.wfp] at h
  | .cons (.prim _) _, _, _, _, h => by simp [Src.Fns.wfp] at h
theorem cpsB_total : ∀ (bs : Src.Brs) (vn : List Var) k r n, bs.wfp P.arity vn.length → ∃ p, cpsB P bs vn k r n = some p
  | .nil, vn, k, r, n, h => by simp [cpsB]
  | .cons d m e bs, vn, k, r, n, h => by
    simp only [Src.Brs.wfp] at h
    obtain ⟨⟨pats, n₁⟩, h₁⟩ := cpsB_total bs vn k r n h.2
    obtain ⟨⟨e', n₂⟩, h₂⟩ := cps_total e (List.range' n₁ m ++ vn) k (n₁ + m) (by simpa using h.1)
    simp [cpsB, freshList_spec, h₁, h₂]
end

theorem cpsPrim_wf {p : Nat} : ∀ (m : Nat) (args : List Var) (k : Var) (n : Nat),
    Fresh (cpsPrim P p m args k n).1.bv n (cpsPrim P p m args k n).2 ∧
      ∀ y ∈ (cpsPrim P p m args k n).1.fv, y = k ∨ y ∈ args
  | 0, args, k, n => by
    refine ⟨.one, fun y hy => ?_⟩
    simp only [cpsPrim, ANF.Exp.fv, Finset.mem_union, Finset.mem_erase, Finset.mem_insert, List.mem_toFinset, List.mem_cons,
      List.not_mem_nil, or_false, List.mem_reverse] at hy
    tauto
  | m + 1, args, k, n => by
    obtain ⟨f, v⟩ := cpsPrim_wf (p := p) m (n :: args) (n + 1) (n + 3)
    have hb := cpsPrim_bound (P := P) (p := p) m (n :: args) (n + 1) (n + 3)
    constructor
    · have h1 : Fresh (n :: (n + 1) :: (n + 2) :: (cpsPrim P p m (n :: args) (n + 1) (n + 3)).1.bv) n
          (cpsPrim P p m (n :: args) (n + 1) (n + 3)).2 :=
        .cons (.cons (.cons f (by vomega)) (by vomega)) (by vomega)
      refine h1.perm ?_
      simp only [cpsPrim, ANF.Exp.bv, ANF.Defs.bv]
      perm_count
    · intro y hy
      have a := v y
      simp only [cpsPrim, ANF.Exp.fv, ANF.Defs.fvRaw, ANF.Defs.names, Finset.mem_sdiff, Finset.mem_union, Finset.mem_insert,
        List.mem_toFinset, List.mem_cons, List.not_mem_nil, or_false, Finset.notMem_empty] at hy a
      tauto

mutual
theorem cps_wf : ∀ (e : Src.Exp) {vn k n e' n'}, cps P e vn k n = some (e', n') → e.wfp P.arity vn.length →
    Fresh e'.bv n n' ∧ ∀ y ∈ e'.fv, y = k ∨ y ∈ vn
  | .var i, vn, k, n, e', n', h, hw => by
    simp only [cps] at h
    split at h <;> simp at h
    obtain ⟨rfl, rfl⟩ := h
    rename_i v hv
    refine ⟨.nil, fun y hy => ?_⟩
    simp only [ANF.Exp.fv, Finset.mem_insert, List.mem_toFinset, List.mem_singleton] at hy
    rcases hy with rfl | rfl
    · exact .inl rfl
    · exact .inr (List.mem_of_getElem? hv)
  | .app e₁ e₂, vn, k, n, e', n', h, hw => by
    simp only [Src.Exp.wfp] at hw
    simp only [cps] at h
    split at h <;> try simp at h
    rename_i e₁' n₁ h₁
    split at h <;> simp at h
    rename_i e₂' n₂ h₂
    obtain ⟨rfl, rfl⟩ := h
    have hb₁ := cps_bound e₁ hw.1 h₁
    have hb₂ := cps_bound e₂ hw.2 h₂
    obtain ⟨f₁, v₁⟩ := cps_wf e₁ h₁ hw.1
    obtain ⟨f₂, v₂⟩ := cps_wf e₂ h₂ hw.2
    constructor
    · have h1 : Fresh (n :: (n + 1) :: (n + 2) :: (n + 3) :: (e₁'.bv ++ e₂'.bv)) n n₂ :=
        .cons (.cons (.cons (.cons (f₁.append f₂ (by vomega) (by vomega)) (by vomega)) (by vomega)) (by vomega)) (by vomega)
      refine h1.perm ?_
      simp only [ANF.Exp.bv, ANF.Defs.bv]
      perm_count
    · intro y hy
      have a := v₁ y; have b := v₂ y
      simp only [ANF.Exp.fv, ANF.Defs.fvRaw, ANF.Defs.names, Finset.mem_sdiff, Finset.mem_union, Finset.mem_insert,
        List.mem_toFinset, List.mem_cons, List.not_mem_nil, or_false, Finset.notMem_empty] at hy
      tauto
  | .lam e, vn, k, n, e', n', h, hw => by
    simp only [Src.Exp.wfp] at hw
    simp only [cps] at h
    split at h <;> simp at h
    rename_i e₁' n₁ h₁
    obtain ⟨rfl, rfl⟩ := h
    have hb₁ := cps_bound e (by simpa [Nat.add_comm] using hw) h₁
    obtain ⟨f₁, v₁⟩ := cps_wf e h₁ (by simpa [Nat.add_comm] using hw)
    constructor
    · have h1 : Fresh (n :: (n + 1) :: (n + 2) :: e₁'.bv) n n₁ :=
        .cons (.cons (.cons f₁ (by vomega)) (by vomega)) (by vomega)
      refine h1.perm ?_
      simp only [ANF.Exp.bv, ANF.Defs.bv]
      perm_count
    · intro y hy
      have a := v₁ y
      simp only [ANF.Exp.fv, ANF.Defs.fvRaw, ANF.Defs.names, Finset.mem_sdiff, Finset.mem_union, Finset.mem_insert,
        List.mem_toFinset, List.mem_cons, List.not_mem_nil, or_false, Finset.notMem_empty] at hy a
      tauto
  | .letin e₁ e₂, vn, k, n, e', n', h, hw => by
    simp only [Src.Exp.wfp] at hw
    simp only [cps] at h
    split at h <;> try simp at h
    rename_i e₂' n₁ h₂
    split at h <;> simp at h
    rename_i e₁' n₂ h₁
    obtain ⟨rfl, rfl⟩ := h
    have hb₂ := cps_bound e₂ (by simpa [Nat.add_comm] using hw.2) h₂
    have hb₁ := cps_bound e₁ hw.1 h₁
    obtain ⟨f₂, v₂⟩ := cps_wf e₂ h₂ (by simpa [Nat.add_comm] using hw.2)
    obtain ⟨f₁, v₁⟩ := cps_wf e₁ h₁ hw.1
    constructor
    · have h1 : Fresh (n :: (n + 1) :: (e₂'.bv ++ e₁'.bv)) n n₂ :=
        .cons (.cons (f₂.append f₁ (by vomega) (by vomega)) (by vomega)) (by vomega)
      refine h1.perm ?_
      simp only [ANF.Exp.bv, ANF.Defs.bv]
      perm_count
    · intro y hy
      have a := v₁ y; have b := v₂ y
      simp only [ANF.Exp.fv, ANF.Defs.fvRaw, ANF.Defs.names, Finset.mem_sdiff, Finset.mem_union, Finset.mem_insert,
        List.mem_toFinset, List.mem_cons, List.not_mem_nil, or_false, Finset.notMem_empty] at hy a b
      tauto
  | .con d es, vn, k, n, e', n', h, hw => by
    simp only [Src.Exp.wfp] at hw
    simp only [cps, freshList_spec] at h
    have hb := cpss_bound es hw h
    obtain ⟨⟨l, f, hp⟩, v⟩ := cpss_wf es h (by simp) (by simp) hw
    constructor
    · have h1 : Fresh (n :: (List.range' (n + 1) es.len ++ (List.range' (n + 1 + es.len) es.len ++ l))) n n' :=
        .cons ((Fresh.range' _ _).append ((Fresh.range' _ _).append f (by vomega) (by vomega)) (by vomega) (by vomega)) (by vomega)
      refine h1.perm (List.Perm.trans ?_ hp.symm)
      simp only [ANF.Exp.bv]
      perm_count
    · intro y hy
      have := v y hy
      simp only [ANF.Exp.fv, Finset.mem_union, Finset.mem_erase, Finset.mem_insert, List.mem_toFinset, List.mem_singleton] at this
      tauto
  | .fix fs i, vn, k, n, e', n', h, hw => by
    simp only [Src.Exp.wfp] at hw
    simp only [cps, freshList_spec] at h
    split at h <;> try simp at h
    rename_i B n₁ h₁
    split at h <;> simp at h
    rename_i f hf
    obtain ⟨rfl, rfl⟩ := h
    have hb := cpsF_bound fs (by simpa using hw.2) h₁
    have hn := cpsF_names fs h₁ (by simp)
    have hfm := List.mem_of_getElem? hf
    obtain ⟨⟨l, f₁, hp⟩, v₁⟩ := cpsF_wf fs h₁ (by simp) (by simpa using hw.2)
    constructor
    · refine ((Fresh.range' n fs.len).append f₁ (by vomega) hb).perm ?_
      simp only [ANF.Exp.bv, List.append_nil]
      exact hp.symm
    · intro y hy
      have a := v₁ y
      simp only [ANF.Exp.fv, hn, Finset.mem_sdiff, Finset.mem_union, Finset.mem_insert, List.mem_toFinset,
        List.mem_singleton, List.mem_append, List.mem_reverse] at hy a
      obtain ⟨hy | rfl | rfl, hh⟩ := hy
      · exact .inr ((a hy).resolve_left hh)
      · exact .inl rfl
      · exact absurd hfm hh
  | .mtch e bs, vn, k, n, e', n', h, hw => by
    simp only [Src.Exp.wfp] at hw
    simp only [cps] at h
    split at h <;> try simp at h
    rename_i e₁' n₁ h₁
    split at h <;> simp at h
    rename_i pats n₂ h₂
    obtain ⟨rfl, rfl⟩ := h
    have hb₁ := cps_bound e hw.1 h₁
    have hb₂ := cpsB_bound bs hw.2 h₂
    obtain ⟨f₁, v₁⟩ := cps_wf e h₁ hw.1
    obtain ⟨f₂, v₂⟩ := cpsB_wf bs h₂ hw.2
    constructor
    · have h1 : Fresh (n :: (n + 1) :: (e₁'.bv ++ pats.bv)) n n₂ :=
        .cons (.cons (f₁.append f₂ (by vomega) (by vomega)) (by vomega)) (by vomega)
      refine h1.perm ?_
      simp only [ANF.Exp.bv, ANF.Defs.bv]
      perm_count
    · intro y hy
      have a := v₁ y; have b := v₂ y
      simp only [ANF.Exp.fv, ANF.Defs.fvRaw, ANF.Defs.names, Finset.mem_sdiff, Finset.mem_union, Finset.mem_insert,
        List.mem_toFinset, List.mem_cons, List.not_mem_nil, or_false, Finset.notMem_empty] at hy
      tauto
  | .prf, vn, k, n, e', n', h, hw => by
    simp only [cps, Option.some.injEq, Prod.mk.injEq] at h
    obtain ⟨rfl, rfl⟩ := h
    refine ⟨.one, fun y hy => ?_⟩
    simp only [ANF.Exp.fv, Finset.mem_union, Finset.mem_erase, Finset.mem_insert, List.mem_toFinset, List.mem_cons,
      List.not_mem_nil, or_false, false_or] at hy
    tauto
  | .pval p, vn, k, n, e', n', h, hw => by
    simp only [cps, Option.some.injEq, Prod.mk.injEq] at h
    obtain ⟨rfl, rfl⟩ := h
    refine ⟨.one, fun y hy => ?_⟩
    simp only [ANF.Exp.fv, Finset.mem_union, Finset.mem_erase, Finset.mem_insert, List.mem_toFinset, List.mem_cons,
      List.not_mem_nil, or_false, false_or] at hy
    tauto
  | .prim p, vn, k, n, e', n', h, hw => by
    simp only [cps] at h
    split at h <;> simp at h
    rename_i m _
    obtain ⟨f, v⟩ := cpsPrim_wf (P := P) (p := p) m [] k n
    rw [h] at f v
    exact ⟨f, fun y hy => (v y hy).imp_right (by simp)⟩
theorem cpss_wf : ∀ (es : Src.Exps) {vn a xs ks n e' n'}, cpss P es vn a xs ks n = some (e', n') → xs.length = es.len →
    ks.length = es.len → es.wfp P.arity vn.length →
    (∃ l, Fresh l n n' ∧ e'.bv.Perm (xs ++ (ks ++ (l ++ a.bv)))) ∧ ∀ y ∈ e'.fv, y ∈ vn ∨ (y ∈ a.fv ∧ y ∉ xs)
  | .nil, vn, a, xs, ks, n, e', n', h, hx, hk, hw => by
    simp only [cpss, Option.some.injEq, Prod.mk.injEq] at h
    obtain ⟨rfl, rfl⟩ := h
    have hx : xs = [] := List.eq_nil_of_length_eq_zero (by simpa [Src.Exps.len] using hx)
    have hk : ks = [] := List.eq_nil_of_length_eq_zero (by simpa [Src.Exps.len] using hk)
    subst hx; subst hk
    exact ⟨⟨[], .nil, by simp⟩, fun y hy => .inr ⟨hy, by simp⟩⟩
  | .cons e es, vn, a, [], ks, n, e', n', h, _, _, hw => by simp [cpss] at h
  | .cons e es, vn, a, _ :: _, [], n, e', n', h, _, _, hw => by simp [cpss] at h
  | .cons e es, vn, a, x :: xs, k :: ks, n, e', n', h, hx, hk, hw => by
    simp only [Src.Exps.wfp] at hw
    simp only [cpss] at h
    split at h <;> try simp at h
    rename_i e₁' n₁ h₁
    split at h <;> simp at h
    rename_i e₂' n₂ h₂
    obtain ⟨rfl, rfl⟩ := h
    have hb₁ := cps_bound e hw.1 h₁
    have hb₂ := cpss_bound es hw.2 h₂
    obtain ⟨f₁, v₁⟩ := cps_wf e h₁ hw.1
    obtain ⟨⟨l, f₂, hp⟩, v₂⟩ := cpss_wf es h₂ (by simpa [Src.Exps.len] using hx) (by simpa [Src.Exps.len] using hk) hw.2
    constructor
    · refine ⟨e₁'.bv ++ l, f₁.append f₂ hb₁ hb₂, ?_⟩
      simp only [ANF.Exp.bv, ANF.Defs.bv]
      rw [List.perm_iff_count] at hp ⊢
      intro z; have := hp z
      simp only [List.count_append, List.count_cons, List.count_nil] at this ⊢
      omega
    · intro y hy
      have a := v₁ y; have b := v₂ y
      simp only [ANF.Exp.fv, ANF.Defs.fvRaw, ANF.Defs.names, Finset.mem_sdiff, Finset.mem_union, Finset.mem_insert,
        List.mem_toFinset, List.mem_cons, List.not_mem_nil, or_false, Finset.notMem_empty] at hy ⊢
      tauto
theorem cpsF_wf : ∀ (fs : Src.Fns) {vn names n B n'}, cpsF P fs vn names n = some (B, n') → names.length = fs.len →
    fs.wfp P.arity vn.length → (∃ l, Fresh l n n' ∧ B.bv.Perm (names ++ l)) ∧ ∀ y ∈ B.fvRaw, y ∈ vn
  | .nil, vn, names, n, B, n', h, hl, hw => by
    simp only [cpsF, Option.some.injEq, Prod.mk.injEq] at h
    obtain ⟨rfl, rfl⟩ := h
    have hl : names = [] := List.eq_nil_of_length_eq_zero (by simpa [Src.Fns.len] using hl)
    subst hl
    exact ⟨⟨[], .nil, by simp [ANF.Defs.bv]⟩, by simp [ANF.Defs.fvRaw]⟩
  | .cons (.lam e) fs, vn, [], n, B, n', h, hl, hw => by simp [Src.Fns.len] at hl
  | .cons (.lam e) fs, vn, f :: names, n, B, n', h, hl, hw => by
    simp only [Src.Fns.wfp, Src.Exp.wfp] at hw
    simp only [cpsF] at h
    split at h <;> try simp at h
    rename_i e₁' n₁ h₁
    split at h <;> simp at h
    rename_i B' n₂ h₂
    obtain ⟨rfl, rfl⟩ := h
    have hb₁ := cps_bound e (by simpa [Nat.add_comm] using hw.1) h₁
    have hb₂ := cpsF_bound fs hw.2.2 h₂
    obtain ⟨f₁, v₁⟩ := cps_wf e h₁ (by simpa [Nat.add_comm] using hw.1)
    obtain ⟨⟨l, f₂, hp⟩, v₂⟩ := cpsF_wf fs h₂ (by simpa [Src.Fns.len] using hl) hw.2.2
    constructor
    · refine ⟨n :: (n + 1) :: (e₁'.bv ++ l), .cons (.cons (f₁.append f₂ hb₁ hb₂) (by vomega)) (by vomega), ?_⟩
      simp only [ANF.Defs.bv]
      rw [List.perm_iff_count] at hp ⊢
      intro z; have := hp z
      simp only [List.count_append, List.count_cons, List.count_nil, List.tail_cons] at this ⊢
      omega
    · intro y hy
      have a := v₁ y; have b := v₂ y
      simp only [ANF.Defs.fvRaw, Finset.mem_sdiff, Finset.mem_union, List.mem_toFinset, List.mem_cons, List.not_mem_nil,
        or_false] at hy a
      tauto
  | .cons (.var _) _, _, _, _, _, _, h, _, _ => by simp [cpsF] at h
  | .cons (.app _ _) _, _, _, _, _, _, h, _, _ => by simp [cpsF] at h
  | .cons (.con _ _) _, _, _, _, _, _, h, _, _ => by simp [cpsF] at h
  | .cons (.mtch _ _) _, _, _, _, _, _, h, _, _ => by simp [cpsF] at h
  | .cons (.letin _ _) _, _, _, _, _, _, h, _, _ => by simp [cpsF] at h
  | .cons (.fix _ _) _, _, _, _, _, _, h, _, _ => by simp [cpsF] at h
  | .cons (.prf) _, _, _, _, _, _, h, _, _ => by simp [cpsF] at h
  | .cons (.pval _) _, _, _, _, _, _, h, _, _ => by simp [cpsF] at h
  | .cons (.prim _) _, _, _, _, _, _, h, _, _ => by simp [cpsF] at h
theorem cpsB_wf : ∀ (bs : Src.Brs) {vn k r n pats n'}, cpsB P bs vn k r n = some (pats, n') → bs.wfp P.arity vn.length →
    Fresh pats.bv n n' ∧ ∀ y ∈ pats.fv, y = r ∨ y = k ∨ y ∈ vn
  | .nil, vn, k, r, n, pats, n', h, hw => by
    simp only [cpsB, Option.some.injEq, Prod.mk.injEq] at h
    obtain ⟨rfl, rfl⟩ := h
    exact ⟨.nil, by simp [ANF.Brs.fv]⟩
  | .cons d m e bs, vn, k, r, n, pats, n', h, hw => by
    simp only [Src.Brs.wfp] at hw
    simp only [cpsB, freshList_spec] at h
    split at h <;> try simp at h
    rename_i ps n₁ h₁
    split at h <;> simp at h
    rename_i e₁' n₂ h₂
    obtain ⟨rfl, rfl⟩ := h
    have hb₁ := cpsB_bound bs hw.2 h₁
    have hb₂ := cps_bound e (by simpa using hw.1) h₂
    obtain ⟨f₁, v₁⟩ := cpsB_wf bs h₁ hw.2
    obtain ⟨f₂, v₂⟩ := cps_wf e h₂ (by simpa using hw.1)
    constructor
    · have h1 : Fresh (ps.bv ++ (List.range' n₁ m ++ e₁'.bv)) n n₂ :=
        f₁.append ((Fresh.range' _ _).append f₂ (by vomega) hb₂) hb₁ (by vomega)
      refine h1.perm ?_
      simp only [ANF.Brs.bv, Ctx.bv_fill, ctxBindProj_bv]
      perm_count
    · intro y hy
      have a := v₁ y; have b := v₂ y
      simp only [ANF.Brs.fv, Finset.mem_union] at hy
      rcases hy with hy | hy
      · have := ctxBindProj_scoped (P.tag d) (r := r) (Γ := {r}) (by simp) (List.range' n₁ m) m e₁' hy
        simp only [ctxBindProj_spine, Finset.mem_union, Finset.mem_sdiff, Finset.mem_singleton, List.mem_toFinset,
          List.mem_append] at this b
        tauto
      · exact a hy
end

end Conv.Cps
