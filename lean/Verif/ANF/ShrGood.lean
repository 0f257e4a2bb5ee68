import Verif.ANF.ShrInline

/-!
# Shrink reduction: what `contract` returns is related to its argument
-/

namespace ANF
namespace Shr
open Ll (put)
open Inl (Ctx inlineLet sets)

/-- `rec` keeps the census invariant and its results are related to its arguments. -/
def Good (rec : Rec) : Prop := ∀ K σ c e s im Z r, rec σ c e s im = some r →
  Pre K σ c (uses e) e.bv (· ∈ e.fv) s im Z →
  Post K σ c s im Z (uses r.out) r.count r.im ∧ ∃ d, SE d (facts σ im s) σ e r.out

theorem SE.up {d d' Γ σ e e'} (h : SE d Γ σ e e') (hd : d ≤ d') : SE d' Γ σ e e' :=
  .weak hd (fun _ a ha => ⟨a, ha, Same_refl a⟩) h

/-! ## Branches -/

theorem conCases_good {rec : Rec} (hr : Good rec) {σ s} : ∀ {bs K c im Z q}, conCases rec σ s c im bs = some q →
    Pre K σ c (usesB bs) bs.bv (· ∈ bs.fv) s im Z →
    Post K σ c s im Z (usesB q.out) q.count q.im ∧ q.out.tags = bs.tags ∧
      ∃ d, ∀ (i : Nat) t e t' e', nth bs i = some (t, e) → nth q.out i = some (t', e') → SE d (facts σ im s) σ e e'
  | .nil, K, c, im, Z, q, h, hp => by
    cases h
    refine ⟨⟨.refl _, fun _ h => h, hp.gone, fun y => ?_, fun w hw => by simp [usesB] at hw⟩, rfl, 0, fun i t e t' e' h => ?_⟩
    · simpa [usesB] using hp.cnt y
    · simp [nth] at h
  | .cons t e bs, K, c, im, Z, q, h, hp => by
    simp only [conCases] at h
    split at h
    · cases h
    · next r hr1 =>
      split at h
      · cases h
      · next q' hq =>
        cases h
        have p1 : Pre (fun y => K y + cn σ (usesB bs) y) σ c (uses e) e.bv (· ∈ e.fv) s im (bs.bv ++ Z) := by
          refine hp.move (.refl _) (fun y => ?_) hp.gone (fun y => by omega) (fun w => ?_) (fun y hy => ?_) (fun w hw => ?_)
          · have := hp.cnt y; rw [usesB, cn_append] at this; omega
          · simp only [un, Brs.bv, cn_append]; omega
          · have := hp.fre y (by simp only [Brs.fv, Finset.mem_union]; exact .inl hy)
            simp only [un, Brs.bv, cn_append] at this ⊢; omega
          · have h1 := hp.kz w (by simp only [Brs.bv, cn_append]; omega)
            have : cn σ (usesB bs) w = 0 := by
              by_contra hn
              obtain ⟨z, hz, hzw⟩ := cn_pos.mp (Nat.pos_of_ne_zero hn)
              have h2 := hp.away z (by rw [hzw]; simp only [un, Brs.bv, cn_append]; omega)
              rw [hzw] at h2; subst h2
              rcases usesB_scope bs w hz with h3 | h3
              · have := hp.fre w (by simp only [Brs.fv, Finset.mem_union]; exact .inr h3)
                simp only [un, Brs.bv, cn_append] at this; omega
              · have := cn_mem.mpr h3; have := hp.uc w
                simp only [un, Brs.bv, cn_append] at this; omega
            omega
        obtain ⟨o1, d1, e1⟩ := hr _ _ _ _ _ _ _ _ hr1 p1
        have p2 : Pre (fun y => K y + cn id (uses r.out) y) σ r.count (usesB bs) bs.bv (· ∈ bs.fv) s r.im Z := by
          refine hp.move o1.mono (fun y => ?_) o1.gone (fun y => by omega) (fun w => ?_) (fun y hy => ?_) (fun w hw => ?_)
          · have := o1.cnt y; omega
          · have := o1.mono.pb (σ := id) (y := w) (s := s)
            simp only [un, Brs.bv, cn_append]; omega
          · have := hp.fre y (by simp only [Brs.fv, Finset.mem_union]; exact .inr hy)
            have := o1.mono.pb (σ := id) (y := y) (s := s)
            simp only [un, Brs.bv, cn_append] at *; omega
          · have := o1.mono.pb (σ := id) (y := w) (s := s)
            have h1 := hp.kz w (by simp only [Brs.bv, cn_append]; omega)
            have : cn id (uses r.out) w = 0 := by
              by_contra hn
              have := o1.avoid w (cn_mem.mp (Nat.pos_of_ne_zero hn))
              simp only [cn_append] at this; omega
            omega
        obtain ⟨o2, ht, d2, e2⟩ := conCases_good hr hq p2
        refine ⟨⟨o1.mono.trans o2.mono, fun y hy => o2.dead y (o1.dead y hy), o2.gone, fun y => ?_, fun w hw => ?_⟩, ?_,
          max d1 d2, ?_⟩
        · have := o2.cnt y; simp only [usesB, cn_append]; omega
        · simp only [usesB, List.mem_append] at hw
          rcases hw with hw | hw
          · have h1 := o1.avoid w hw
            have := o2.mono.pb (σ := id) (y := w) (s := s)
            simp only [cn_append] at h1
            exact ⟨by dsimp only; omega, by omega⟩
          · exact o2.avoid w hw
        · simp [Brs.tags, ht]
        · intro i u a u' a' ha ha'
          cases i with
          | zero => cases ha; cases ha'; exact e1.up (le_max_left _ _)
          | succ i => exact .weak (le_max_right _ _) (facts_mono o1.mono) (e2 i u a u' a' ha ha')

/-! ## Bundles -/

theorem mem_subs_fv {B : Defs} {f t xs m} (h : (f, .fn t xs m) ∈ subs B) : ∀ y ∈ m.fv, y ∉ xs → y ∈ B.fvRaw := by
  induction B using Defs.ind with
  | nil => simp [subs] at h
  | cons g t' xs' m' B ih =>
    intro y hy hx
    simp only [subs, List.mem_cons, Prod.mk.injEq, SVal.fn.injEq] at h
    simp only [Defs.fvRaw, Finset.mem_union, Finset.mem_sdiff, List.mem_toFinset]
    rcases h with ⟨_, _, rfl, rfl⟩ | h
    · exact .inl ⟨hy, hx⟩
    · exact .inr (ih h y hy hx)

theorem mem_subs_con {B : Defs} {x t ys} : (x, .con t ys) ∉ subs B := by
  induction B using Defs.ind with
  | nil => simp [subs]
  | cons g t' xs' m' B ih => simp [subs, ih]

theorem mem_subs_names {B : Defs} {x v} (h : (x, v) ∈ subs B) : x ∈ B.names := by
  induction B using Defs.ind with
  | nil => simp [subs] at h
  | cons g t' xs' m' B ih =>
    simp only [subs, List.mem_cons, Prod.mk.injEq] at h
    simp only [Defs.names, List.mem_cons]
    exact h.imp (·.1) ih

theorem find_subs {B : Defs} {f t xs m} (h : findDef f B = some (t, xs, m)) : (f, .fn t xs m) ∈ subs B := by
  induction B using Defs.ind with
  | nil => simp [findDef] at h
  | cons g t' xs' m' B ih =>
    simp only [findDef] at h
    simp only [subs, List.mem_cons, Prod.mk.injEq, SVal.fn.injEq]
    split at h
    · next he => subst he; cases h; exact .inl ⟨rfl, rfl, rfl, rfl⟩
    · exact .inr (ih h)

theorem get_subs {B : Defs} {y s} : Sub.get y (subs B ++ s) = match findDef y B with
    | some (t, xs, m) => some (.fn t xs m)
    | none => Sub.get y s := by
  induction B using Defs.ind with
  | nil => rfl
  | cons g t' xs' m' B ih =>
    simp only [subs, List.cons_append, Sub.get, findDef]
    by_cases h : g = y
    · subst h; simp
    · rw [if_neg h, if_neg (Ne.symm h), ih]

theorem subs_uses {im σ y} {B : Defs} : cn σ (pu im (subs B)) y ≤ cn σ (usesD B) y := by
  induction B using Defs.ind with
  | nil => simp [subs, pu]
  | cons g t' xs' m' B ih => by_cases hf : im g = true <;> simp [subs, pu, usesD, hf] <;> omega

theorem preFun_le {σ s} : ∀ {B : Defs} {c y}, (preFun σ c s B).2.1 y ≤ c y
  | .nil, c, y => le_rfl
  | .cons f t xs e B, c, y => by
    simp only [preFun]
    split
    · exact preFun_le.trans (by rw [decE_eq]; omega)
    · exact preFun_le

theorem preFun_cnt {σ s} : ∀ {B : Defs} {c y}, cn σ (usesD B) y ≤ c y →
    c y + cn σ (usesD (preFun σ c s B).1) y ≤ (preFun σ c s B).2.1 y + cn σ (usesD B) y
  | .nil, c, y, _ => by simp [preFun, usesD]
  | .cons f t xs e B, c, y, h => by
    simp only [usesD, cn_append] at h
    simp only [preFun]
    split
    · have := preFun_cnt (σ := σ) (s := s) (B := B) (c := decE σ e c) (y := y) (by rw [decE_eq]; omega)
      rw [decE_eq] at this
      simp only [usesD, cn_append]; omega
    · have := preFun_cnt (σ := σ) (s := s) (B := B) (c := c) (y := y) (by omega)
      simp only [usesD, cn_append]; omega

theorem preFun_dead {σ s} : ∀ {B : Defs} {c f}, f ∈ B.names → f ∉ (preFun σ c s B).1.names → (preFun σ c s B).2.1 f = 0
  | .nil, c, f, h, _ => by simp [Defs.names] at h
  | .cons g t xs e B, c, f, h, h' => by
    simp only [Defs.names, List.mem_cons] at h
    simp only [preFun] at h' ⊢
    split
    · next hg =>
      rw [if_pos hg] at h'
      rcases h with rfl | h
      · have := preFun_le (σ := σ) (s := s) (B := B) (c := decE σ e c) (y := f)
        rw [decE_eq] at this; omega
      · exact preFun_dead h h'
    · next hg =>
      rw [if_neg hg] at h'
      simp only [Defs.names, List.mem_cons, not_or] at h'
      rcases h with rfl | h
      · exact absurd rfl h'.1
      · exact preFun_dead h h'.2

theorem preFun_names {σ s} : ∀ {B : Defs} {c f}, f ∈ (preFun σ c s B).1.names → f ∈ B.names
  | .nil, c, f, h => h
  | .cons g t xs e B, c, f, h => by
    simp only [preFun] at h
    simp only [Defs.names, List.mem_cons]
    split at h
    · exact .inr (preFun_names h)
    · simp only [Defs.names, List.mem_cons] at h
      exact h.imp id preFun_names

theorem preFun_nodup {σ s} : ∀ {B : Defs} {c}, B.names.Nodup → (preFun σ c s B).1.names.Nodup
  | .nil, c, h => h
  | .cons g t xs e B, c, h => by
    simp only [Defs.names, List.nodup_cons] at h
    simp only [preFun]
    split
    · exact preFun_nodup h.2
    · simp only [Defs.names, List.nodup_cons]
      exact ⟨fun hm => h.1 (preFun_names hm), preFun_nodup h.2⟩

theorem preFun_find {σ s} : ∀ {B : Defs} {c f r}, B.names.Nodup → findDef f (preFun σ c s B).1 = some r → findDef f B = some r
  | .nil, c, f, r, _, h => h
  | .cons g t xs e B, c, f, r, hn, h => by
    simp only [Defs.names, List.nodup_cons] at hn
    simp only [preFun] at h
    simp only [findDef]
    split at h
    · have h1 := preFun_find hn.2 h
      rw [if_neg (by rintro rfl; exact hn.1 (findDef_mem h1))]; exact h1
    · simp only [findDef] at h
      split
      · next he => rw [if_pos he] at h; exact h
      · next he => rw [if_neg he] at h; exact preFun_find hn.2 h

theorem preFun_b {σ s im w} : ∀ {B : Defs} {c}, cn id B.names w + cn id (pb im (subs (preFun σ c s B).1)) w ≤ cn id B.bv w
  | .nil, c => by simp [preFun, subs, pb, Defs.names, Defs.bv]
  | .cons g t xs e B, c => by
    simp only [preFun]
    split
    · have := preFun_b (σ := σ) (s := s) (im := im) (w := w) (B := B) (c := decE σ e c)
      simp only [Defs.names, Defs.bv, cn_cons, cn_append]; omega
    · have := preFun_b (σ := σ) (s := s) (im := im) (w := w) (B := B) (c := c)
      by_cases hf : im g = true <;> simp [subs, pb, Defs.bv, Defs.names, hf] <;> omega

/-- Free variables of the functions of a bundle that are not inlined. -/
def PF (im : Var → Bool) (B : Defs) (y : Var) : Prop :=
  ∃ f t xs m, (f, .fn t xs m) ∈ subs B ∧ im f = false ∧ y ∈ m.fv ∧ y ∉ xs

theorem PF.mono {im im' B y} (h : PF im' B y) (hm : Mono im im') : PF im B y := by
  obtain ⟨f, t, xs, m, h1, h2, h3⟩ := h
  exact ⟨f, t, xs, m, h1, hm.neg h2, h3⟩

theorem PF.tail {im f t xs m B y} (h : PF im B y) : PF im (.cons f t xs m B) y := by
  obtain ⟨f', t', xs', m', h1, h2⟩ := h
  exact ⟨f', t', xs', m', by simp [subs, h1], h2⟩

theorem pu_subs_scope {im : Var → Bool} {B z} (h : z ∈ pu im (subs B)) : PF im B z ∨ 0 < cn id (pb im (subs B)) z := by
  obtain ⟨f, t, xs, m, h1, h2, h3⟩ := mem_pu h
  have := pull_b (σ := id) (y := z) h2 h1
  by_cases hx : z ∈ xs
  · have := cn_mem.mpr hx; right; omega
  · rcases uses_scope m z h3 with h4 | h4
    · exact .inl ⟨f, t, xs, m, h1, h2, h4, hx⟩
    · have := cn_mem.mpr h4; right; omega

theorem postFun_good {rec : Rec} (hr : Good rec) {σ s} : ∀ {B K c im Z q}, postFun rec σ s c im B = some q → B.names.Nodup →
    Pre K σ c (pu im (subs B)) (pb im (subs B)) (PF im B) s im Z →
    Post K σ c s im Z (usesD q.out) q.count q.im ∧ (∀ f ∈ B.names, f ∉ q.out.names → q.count f = 0) ∧
      ∃ d, ∀ f t xs m', findDef f q.out = some (t, xs, m') →
        ∃ m, findDef f B = some (t, xs, m) ∧ SE d (facts σ im s) σ m m'
  | .nil, K, c, im, Z, q, h, _, hp => by
    cases h
    refine ⟨⟨.refl _, fun _ h => h, hp.gone, fun y => ?_, fun w hw => by simp [usesD] at hw⟩,
      fun f hf => by simp [Defs.names] at hf, 0, fun f t xs m h => by simp [findDef] at h⟩
    simpa [usesD, subs, pu] using hp.cnt y
  | .cons f t xs e B, K, c, im, Z, q, h, hn, hp => by
    simp only [Defs.names, List.nodup_cons] at hn
    simp only [postFun] at h
    have lift : ∀ {q : Out Defs} {d}, (∀ g t' xs' m', findDef g q.out = some (t', xs', m') →
        ∃ m, findDef g B = some (t', xs', m) ∧ SE d (facts σ im s) σ m m') →
        ∀ g t' xs' m', findDef g q.out = some (t', xs', m') →
        ∃ m, findDef g (.cons f t xs e B) = some (t', xs', m) ∧ SE d (facts σ im s) σ m m' := by
      intro q d hs g t' xs' m' hg
      obtain ⟨m, h1, h2⟩ := hs g t' xs' m' hg
      refine ⟨m, ?_, h2⟩
      rw [findDef, if_neg (by rintro rfl; exact hn.1 (findDef_mem h1))]; exact h1
    split at h
    · next hf =>
      have p : Pre K σ c (pu im (subs B)) (pb im (subs B)) (PF im B) s im Z := by
        simp only [subs, pu, pb, if_pos hf] at hp
        exact hp.move (.refl _) hp.cnt hp.gone (fun _ => le_rfl) (fun _ => le_rfl) (fun y hy => hp.fre y hy.tail) hp.kz
      obtain ⟨o, hd, d, hs⟩ := postFun_good hr h hn.2 p
      refine ⟨o, fun g hg hg' => ?_, d, lift hs⟩
      simp only [Defs.names, List.mem_cons] at hg
      rcases hg with rfl | hg
      · exact o.dead g (hp.gone g hf)
      · exact hd g hg hg'
    · next hf =>
      have hff : im f = false := by simpa using hf
      simp only [subs, pu, pb, if_neg hf] at hp
      split at h
      · next hc =>
        have p : Pre K σ (decE σ e c) (pu im (subs B)) (pb im (subs B)) (PF im B) s im Z := by
          refine hp.move (.refl _) (fun y => ?_) (fun g hg => ?_) (fun _ => le_rfl) (fun w => ?_) (fun y hy => ?_)
            (fun w hw => hp.kz w (by simp only [cn_append]; omega))
          · have := hp.cnt y; rw [cn_append] at this; rw [decE_eq]; omega
          · rw [decE_eq, hp.gone g hg]; omega
          · simp only [un, cn_append]; omega
          · have := hp.fre y hy.tail; simp only [un, cn_append] at this ⊢; omega
        obtain ⟨o, hd, d, hs⟩ := postFun_good hr h hn.2 p
        have hdec : ∀ y, c y = 0 → decE σ e c y = 0 := fun y hy => by rw [decE_eq]; omega
        refine ⟨o.pre hdec, fun g hg hg' => ?_, d, lift hs⟩
        simp only [Defs.names, List.mem_cons] at hg
        rcases hg with rfl | hg
        · exact o.dead g (hdec g hc)
        · exact hd g hg hg'
      · next hc =>
        split at h
        · cases h
        · next r hr1 =>
          split at h
          · cases h
          · next q' hq =>
            cases h
            have p1 : Pre (fun y => K y + cn σ (pu im (subs B)) y) σ c (uses e) e.bv (· ∈ e.fv) s im (pb im (subs B) ++ Z) := by
              refine hp.move (.refl _) (fun y => ?_) hp.gone (fun y => by omega) (fun w => ?_) (fun y hy => ?_) (fun w hw => ?_)
              · have := hp.cnt y; rw [cn_append] at this; omega
              · simp only [un, cn_append]; omega
              · by_cases hx : y ∈ xs
                · have := cn_mem.mpr hx; have := hp.uc y; simp only [un, cn_append] at this ⊢; omega
                · have := hp.fre y ⟨f, t, xs, e, by simp [subs], hff, hy, hx⟩
                  simp only [un, cn_append] at this ⊢; omega
              · have h1 := hp.kz w (by simp only [cn_append]; omega)
                have : cn σ (pu im (subs B)) w = 0 := by
                  by_contra hne
                  obtain ⟨z, hz, hzw⟩ := cn_pos.mp (Nat.pos_of_ne_zero hne)
                  have h2 := hp.away z (by rw [hzw]; simp only [un, cn_append]; omega)
                  rw [hzw] at h2; subst h2
                  rcases pu_subs_scope hz with h3 | h3
                  · have := hp.fre w h3.tail; simp only [un, cn_append] at this; omega
                  · have := hp.uc w; simp only [un, cn_append] at this; omega
                omega
            obtain ⟨o1, d1, e1⟩ := hr _ _ _ _ _ _ _ _ hr1 p1
            have p2 : Pre (fun y => K y + cn id (uses r.out) y) σ r.count (pu r.im (subs B)) (pb r.im (subs B)) (PF r.im B) s
                r.im Z := by
              refine hp.move o1.mono (fun y => ?_) o1.gone (fun y => by omega) (fun w => ?_) (fun y hy => ?_) (fun w hw => ?_)
              · have := o1.cnt y; have := o1.mono.pu (σ := σ) (y := y) (s := subs B); omega
              · have := o1.mono.pb (σ := id) (y := w) (s := s)
                have := o1.mono.pb (σ := id) (y := w) (s := subs B)
                simp only [un, cn_append]; omega
              · have := hp.fre y (hy.mono o1.mono).tail
                have := o1.mono.pb (σ := id) (y := y) (s := s)
                have := o1.mono.pb (σ := id) (y := y) (s := subs B)
                simp only [un, cn_append] at *; omega
              · have := o1.mono.pb (σ := id) (y := w) (s := s)
                have := o1.mono.pb (σ := id) (y := w) (s := subs B)
                have h1 := hp.kz w (by simp only [cn_append]; omega)
                have : cn id (uses r.out) w = 0 := by
                  by_contra hne
                  have := o1.avoid w (cn_mem.mp (Nat.pos_of_ne_zero hne))
                  simp only [cn_append] at this; omega
                omega
            obtain ⟨o2, hd, d2, hs⟩ := postFun_good hr hq hn.2 p2
            refine ⟨⟨o1.mono.trans o2.mono, fun y hy => o2.dead y (o1.dead y hy), o2.gone, fun y => ?_, fun w hw => ?_⟩,
              fun g hg hg' => ?_, max d1 d2, fun g t' xs' m' hg => ?_⟩
            · have := o2.cnt y; simp only [usesD, cn_append]; omega
            · simp only [usesD, List.mem_append] at hw
              rcases hw with hw | hw
              · have h1 := o1.avoid w hw
                have := o2.mono.pb (σ := id) (y := w) (s := s)
                simp only [cn_append] at h1
                exact ⟨by dsimp only; omega, by omega⟩
              · exact o2.avoid w hw
            · simp only [Defs.names, List.mem_cons, not_or] at hg hg'
              exact hd g (hg.resolve_left hg'.1) hg'.2
            · simp only [findDef] at hg ⊢
              split at hg
              · next he =>
                cases hg
                rw [if_pos he]
                exact ⟨e, rfl, e1.up (le_max_left _ _)⟩
              · next he =>
                rw [if_neg he]
                obtain ⟨m, h1, h2⟩ := hs g t' xs' m' hg
                exact ⟨m, h1, .weak (le_max_right _ _) (facts_mono o1.mono) h2⟩

theorem mkFn_uses {B e} : uses (mkFn B e) = usesD B ++ uses e := by
  cases B <;> simp [mkFn, uses, usesD]

theorem fn_good {rec : Rec} (hr : Good rec) {K σ c B e s im Z r q}
    (h1 : rec σ (preFun σ c s B).2.1 e (preFun σ c s B).2.2 im = some r)
    (h2 : postFun rec σ s r.count r.im (preFun σ c s B).1 = some q)
    (hp : Pre K σ c (uses (.fn B e)) (Exp.fn B e).bv (· ∈ (Exp.fn B e).fv) s im Z) :
    Post K σ c s im Z (uses (mkFn q.out r.out)) q.count q.im ∧ ∃ d, SE d (facts σ im s) σ (.fn B e) (mkFn q.out r.out) := by
  rw [preFun_sub] at h1
  have hle : ∀ y, (preFun σ c s B).2.1 y ≤ c y := fun y => preFun_le
  have hb : ∀ im w, cn id B.names w + cn id (pb im (subs (preFun σ c s B).1)) w ≤ cn id B.bv w := fun im w => preFun_b
  have hnd : B.names.Nodup := nodup_cn.mpr fun w => by
    have := hb im w; have := hp.uc w; simp only [un, Exp.bv, cn_append] at this; omega
  have hfind : ∀ {f r}, findDef f (preFun σ c s B).1 = some r → findDef f B = some r := fun h => preFun_find hnd h
  -- a free variable of a function
  have hfr : ∀ im', Mono im im' → ∀ y ∈ B.fvRaw, cn id (pb im' (subs (preFun σ c s B).1)) y + cn id (pb im s) y + cn id e.bv y + cn id Z y = 0 := by
    intro im' _ y hy
    by_cases hyn : y ∈ B.names
    · have := cn_mem.mpr hyn; have := hb im' y; have := hp.uc y
      simp only [un, Exp.bv, cn_append] at this; omega
    · have h := hp.fre y (by simp only [Exp.fv, Finset.mem_sdiff, Finset.mem_union, List.mem_toFinset]; exact ⟨.inl hy, hyn⟩)
      have := hb im' y
      simp only [un, Exp.bv, cn_append] at h; omega
  have hfe : ∀ y ∈ e.fv, cn id (pb im (subs (preFun σ c s B).1)) y + cn id (pb im s) y + cn id e.bv y + cn id Z y = 0 := by
    intro y hy
    by_cases hyn : y ∈ B.names
    · have := cn_mem.mpr hyn; have := hb im y; have := hp.uc y
      simp only [un, Exp.bv, cn_append] at this; omega
    · have h := hp.fre y (by simp only [Exp.fv, Finset.mem_sdiff, Finset.mem_union, List.mem_toFinset]; exact ⟨.inr hy, hyn⟩)
      have := hb im y
      simp only [un, Exp.bv, cn_append] at h; omega
  have hraw : ∀ f t xs m, (f, .fn t xs m) ∈ subs (preFun σ c s B).1 → ∀ y ∈ m.fv, y ∉ xs → y ∈ B.fvRaw := by
    intro f t xs m hm y hy hx
    have hf := mem_subs_names hm
    have hn1 := preFun_nodup (σ := σ) (s := s) (c := c) hnd
    -- the entry is the definition
    have : ∀ {D : Defs}, D.names.Nodup → (f, SVal.fn t xs m) ∈ subs D → findDef f D = some (t, xs, m) := by
      intro D
      induction D using Defs.ind with
      | nil => intro _ h; simp [subs] at h
      | cons g t' xs' m' D ih =>
        intro hn h
        simp only [Defs.names, List.nodup_cons] at hn
        simp only [subs, List.mem_cons, Prod.mk.injEq, SVal.fn.injEq] at h
        rw [findDef]
        rcases h with ⟨rfl, rfl, rfl, rfl⟩ | h
        · simp
        · rw [if_neg (by rintro rfl; exact hn.1 (mem_subs_names h))]; exact ih hn.2 h
    exact mem_subs_fv (find_subs (hfind (this hn1 hm))) y hy hx
  have p1 : Pre K σ (preFun σ c s B).2.1 (uses e) e.bv (· ∈ e.fv) (subs (preFun σ c s B).1 ++ s) im Z := by
    have hU : ∀ w, un e.bv im (subs (preFun σ c s B).1 ++ s) Z w + cn id B.names w ≤ un (Exp.fn B e).bv im s Z w := by
      intro w; have := hb im w
      simp only [un, Exp.bv, cn_append, pb_append]; omega
    refine ⟨fun y => ?_, fun f hf => ?_, ?_, fun w => ?_, fun y hy => ?_, ?_, fun w hw => ?_, fun w hw => ?_, fun z hz => ?_, ?_⟩
    · have := hp.cnt y
      simp only [uses, cn_append] at this
      have := preFun_cnt (σ := σ) (s := s) (B := B) (c := c) (y := y) (by omega)
      have := subs_uses (im := im) (σ := σ) (y := y) (B := (preFun σ c s B).1)
      simp only [pu_append, cn_append]; omega
    · have := hp.gone f hf; have := hle f; omega
    · intro x t ys hx y hy
      rcases List.mem_append.mp hx with hx | hx
      · exact absurd hx mem_subs_con
      · obtain ⟨q1, q2⟩ := hp.con x t ys hx y hy
        have := hU (σ y); exact ⟨q1, by omega⟩
    · have := hp.uc w; have := hU w; omega
    · have := hfe y hy; simp only [un, pb_append, cn_append]; omega
    · intro f t xs m hf hi y hy hx
      rcases List.mem_append.mp hf with hf | hf
      · have := hfr im (.refl _) y (hraw f t xs m hf y hy hx)
        simp only [un, pb_append, cn_append]; omega
      · have := hp.frp f t xs m hf hi y hy hx; have := hU y; omega
    · exact hp.kz w (by have := hb im w; simp only [Exp.bv, cn_append, pb_append] at hw ⊢; omega)
    · exact hp.ids w (by have := hU w; omega)
    · exact hp.away z (by have := hU (σ z); omega)
    · intro f v hf
      rcases List.mem_append.mp hf with hf | hf
      · have := cn_mem.mpr (preFun_names (mem_subs_names hf)); have := hU f; have := hp.uc f; omega
      · have := hp.keys f v hf; have := hU f; omega
  obtain ⟨o1, d1, e1⟩ := hr _ _ _ _ _ _ _ _ h1 p1
  have p2 : Pre (fun y => K y + cn id (uses r.out) y) σ r.count (pu r.im (subs (preFun σ c s B).1))
      (pb r.im (subs (preFun σ c s B).1)) (PF r.im (preFun σ c s B).1) s r.im Z := by
    refine hp.move o1.mono (fun y => ?_) o1.gone (fun y => by omega) (fun w => ?_) (fun y hy => ?_) (fun w hw => ?_)
    · have := o1.cnt y; simp only [pu_append, cn_append] at this; omega
    · have := o1.mono.pb (σ := id) (y := w) (s := s); have := hb r.im w
      simp only [un, Exp.bv, cn_append]; omega
    · obtain ⟨f, t, xs, m, k1, k2, k3, k4⟩ := hy
      have := hfr r.im o1.mono y (hraw f t xs m k1 y k3 k4)
      have := o1.mono.pb (σ := id) (y := y) (s := s)
      simp only [un]; omega
    · have := o1.mono.pb (σ := id) (y := w) (s := s); have := hb r.im w
      have h := hp.kz w (by simp only [Exp.bv, cn_append]; omega)
      have : cn id (uses r.out) w = 0 := by
        by_contra hne
        have := o1.avoid w (cn_mem.mp (Nat.pos_of_ne_zero hne))
        simp only [pb_append, cn_append] at this; omega
      omega
  obtain ⟨o2, hd, d2, hs⟩ := postFun_good hr h2 (preFun_nodup hnd) p2
  have hzero : ∀ f ∈ B.names, f ∉ q.out.names → q.count f = 0 := by
    intro f hf hf'
    by_cases hf1 : f ∈ (preFun σ c s B).1.names
    · exact hd f hf1 hf'
    · exact o2.dead f (o1.dead f (preFun_dead hf hf1))
  have hu : ∀ y, cn id (usesD q.out) y + cn id (uses r.out) y ≤ q.count y := fun y => by have := o2.cnt y; omega
  have hnb : ∀ f ∈ B.names, 0 < un (Exp.fn B e).bv im s Z f := by
    intro f hf
    have := cn_mem.mpr hf; have := hb im f; simp only [un, Exp.bv, cn_append]; omega
  refine ⟨⟨o1.mono.trans o2.mono, fun y hy => o2.dead y (o1.dead y (by have := hle y; omega)), o2.gone, fun y => ?_,
    fun w hw => ?_⟩, max d1 d2, ?_⟩
  · have := o2.cnt y; rw [mkFn_uses, cn_append]; omega
  · rw [mkFn_uses, List.mem_append] at hw
    rcases hw with hw | hw
    · exact o2.avoid w hw
    · have h := o1.avoid w hw
      have := o2.mono.pb (σ := id) (y := w) (s := s)
      simp only [pb_append, cn_append] at h
      exact ⟨by omega, h.2⟩
  · refine .fn (Γ' := facts σ im (subs (preFun σ c s B).1 ++ s)) (fun f hf => ⟨hp.fresh (hnb f hf), hp.ids f (hnb f hf)⟩)
      (fun z hz hm => ?_) ?_ ?_ ?_ ?_ ?_ ?_ (e1.up (le_max_left _ _))
    · have := hnb _ hm; have := hp.use hz; omega
    · intro y a hy
      simp only [facts, get_subs] at hy
      rcases hf : findDef y (preFun σ c s B).1 with _ | ⟨t, xs, m⟩
      · rw [hf] at hy; exact .inl hy
      · rw [hf] at hy
        dsimp only at hy
        split at hy
        · cases hy
        · cases hy; exact .inr ⟨t, xs, m, hfind hf, rfl⟩
    · intro f t' xs' m' hf
      obtain ⟨m, k1, _⟩ := hs f t' xs' m' hf
      exact ⟨m, hfind k1⟩
    · intro f t xs m _ hf
      have hx : ∀ x ∈ xs, 0 < un (Exp.fn B e).bv im s Z x := by
        intro x hx
        have := cn_mem.mpr ((findDef_bv hf).subset (List.mem_append_left _ hx))
        simp only [un, Exp.bv, cn_append]; omega
      refine ⟨fun x h => ⟨hp.fresh (hx x h), hp.ids x (hx x h)⟩, fun z hz hzx hm => ?_⟩
      rw [hp.away z (hx _ hm)] at hm
      exact hzx hm
    · intro f t xs m t' xs' m' hf hf'
      obtain ⟨m₁, k1, k2⟩ := hs f t' xs' m' hf'
      have := hfind k1
      rw [hf] at this; cases this
      exact .weak (le_max_right _ _) (facts_mono o1.mono) k2
    · intro f hf hm
      simp only [Defs.fv, Finset.mem_sdiff, List.mem_toFinset] at hm
      have := hzero f hf hm.2
      have := cn_mem.mpr (usesD_fv _ _ hm.1)
      have := hu f; omega
    · intro f hf hm
      by_contra hn
      have := hzero f hf hn
      have := cn_mem.mpr (uses_fv _ _ hm)
      have := hu f; omega

/-! ## Terms -/

theorem contract_good : ∀ n, Good (contract n)
  | 0 => fun _ _ _ _ _ _ _ _ h => by cases h
  | n + 1 => by
    have ih := contract_good n
    intro K σ c e s im Z r h hp
    cases e with
    | halt v =>
      cases h
      have hu := hp.use (y := v) (by simp [Exp.fv])
      refine ⟨⟨.refl _, fun _ h => h, hp.gone, hp.cnt, fun w hw => ?_⟩, 0, .halt⟩
      simp only [uses, List.mem_singleton] at hw
      subst hw
      simp only [un] at hu
      exact ⟨by dsimp only; omega, by omega⟩
    | constr x t ys e =>
      have hl : ∀ z ∈ ys, z ∈ (Exp.constr x t ys e).fv := fun z hz => by simp [Exp.fv, hz]
      have he : ∀ z ∈ e.fv, z ≠ x → z ∈ (Exp.constr x t ys e).fv := fun z hz hx => by simp [Exp.fv, hz, hx]
      simp only [uses, Exp.bv] at hp
      have hx : 0 < un (x :: e.bv) im s Z x := by simp [un]
      have hy : x ∉ ys.map σ := by
        intro hm
        obtain ⟨z, hz, rfl⟩ := List.mem_map.mp hm
        have := hp.use (hl z hz); omega
      simp only [contract] at h
      split at h
      · next hc =>
        obtain ⟨r₀, h1, h2, h3, h4⟩ := incr_out h
        rw [h2, h3, h4]
        obtain ⟨o, d, hs⟩ := ih _ _ _ _ _ _ _ _ h1 (hp.drop he)
        have hdec : ∀ y, c y = 0 → decL σ ys c y = 0 := fun y hy => by rw [decL_eq]; omega
        refine ⟨o.pre hdec, d, .constrDead (hp.new hx _) hy (o.absent (o.dead x (hdec x hc))) (.weak le_rfl ?_ hs)⟩
        intro y a ha
        have := hp.fresh hx y a ha
        exact ⟨a, by rw [Inl.put_other this.1]; exact ha, Same_refl a⟩
      · obtain ⟨r₀, h1, rfl⟩ := Option.map_eq_some_iff.mp h
        obtain ⟨o, d, hs⟩ := ih _ _ _ _ _ _ _ _ h1 (hp.cons (t := t) hl he)
        rw [facts_con] at hs
        have o' : Post (fun y => K y + cn σ ys y) σ c s im Z (uses r₀.out) r₀.count r₀.im := ⟨o.mono, o.dead, o.gone, o.cnt, o.avoid⟩
        split
        · next hr => exact ⟨o'.dropped, d, .constrDead (hp.new hx _) hy (o.absent hr) hs⟩
        · exact ⟨Post.keep hp hl o', d, .constr (hp.new hx _) hy hs⟩
    | proj v t i y e =>
      have hl : ∀ z ∈ [y], z ∈ (Exp.proj v t i y e).fv := fun z hz => by simp at hz; simp [Exp.fv, hz]
      have he : ∀ z ∈ e.fv, z ≠ v → z ∈ (Exp.proj v t i y e).fv := fun z hz hx => by simp [Exp.fv, hz, hx]
      simp only [uses, Exp.bv] at hp
      have hp' : Pre K σ c ([y] ++ uses e) (v :: e.bv) (· ∈ (Exp.proj v t i y e).fv) s im Z := hp
      have hx : 0 < un (v :: e.bv) im s Z v := by simp [un]
      simp only [contract] at h
      split at h
      · next hc =>
        obtain ⟨r₀, h1, h2, h3, h4⟩ := incr_out h
        rw [h2, h3, h4]
        obtain ⟨o, d, hs⟩ := ih _ _ _ _ _ _ _ _ h1 (hp'.drop he)
        have hdec : ∀ w, c w = 0 → decL σ [y] c w = 0 := fun y hy => by rw [decL_eq]; omega
        exact ⟨o.pre hdec, d, .projDead (hp.new hx _) (o.absent (o.dead v (hdec v hc))) hs⟩
      · have keep : ∀ r, (contract n σ c e s im).map (fun r : Out Exp =>
            if r.count v = 0 then (⟨r.out, r.steps + 1, decL σ [y] r.count, r.im⟩ : Out Exp)
            else ⟨.proj v t i (σ y) r.out, r.steps, r.count, r.im⟩) = some r →
            Post K σ c s im Z (uses r.out) r.count r.im ∧ ∃ d, SE d (facts σ im s) σ (.proj v t i y e) r.out := by
          intro r h
          obtain ⟨r₀, h1, rfl⟩ := Option.map_eq_some_iff.mp h
          obtain ⟨o, d, hs⟩ := ih _ _ _ _ _ _ _ _ h1 (hp'.step hl he)
          split
          · next hr => exact ⟨o.dropped, d, .projDead (hp.new hx _) (o.absent hr) hs⟩
          · exact ⟨Post.keep hp' hl o, d, .proj (hp.new hx _) hs⟩
        split at h
        · next t' ys' hg =>
          split at h
          · next yn hn =>
            obtain ⟨r₀, h1, h2, h3, h4⟩ := incr_out h
            rw [h2, h3, h4]
            obtain ⟨k1, k2⟩ := hp.con _ _ _ (get_mem hg) yn (List.mem_of_getElem? hn)
            obtain ⟨p, hz⟩ := hp.fold (y := y) (yn := yn) (e := e) he k1 k2
            obtain ⟨o, d, hs⟩ := ih _ _ _ _ _ _ _ _ h1 p
            have hA : ∀ z ∈ [v], 0 < cn id (v :: e.bv) z + cn id (pb im s) z := by
              intro z hz; simp only [List.mem_singleton] at hz; subst hz; simp
            have hA' : ∀ z ∈ [v], un e.bv im s Z z = 0 := by
              intro z hz; simp only [List.mem_singleton] at hz; subst hz
              have := hp.uc z; simp only [un, cn_cons, id, if_true] at this ⊢; omega
            have hσ : ∀ z, z ∉ [v] → put σ v (σ yn) z = σ z := by
              intro z hz; simp only [List.mem_singleton] at hz; exact Inl.put_other hz
            refine ⟨o.subst (.refl _) (fun z hzp => hσ z (hp.pendA (.refl _) hA hA' z hzp)) hz, d, ?_⟩
            refine .projFold (t' := t') (zs := ys'.map σ) (z := σ yn) ?_ ?_ (.weak le_rfl (hp.factsA (.refl _) hσ hA) hs)
            · simp only [facts, hg]
            · rw [List.getElem?_map, hn]; rfl
          · exact keep r h
        · exact keep r h
    | letapp x f t ys e =>
      have hys : ∀ z ∈ ys, z ∈ (Exp.letapp x f t ys e).fv := fun z hz => by simp [Exp.fv, hz]
      have hl : ∀ z ∈ f :: ys, z ∈ (Exp.letapp x f t ys e).fv := fun z hz => by
        simp only [List.mem_cons] at hz; simp only [Exp.fv, Finset.mem_insert, Finset.mem_union, List.mem_toFinset]; tauto
      have he : ∀ z ∈ e.fv, z ≠ x → z ∈ (Exp.letapp x f t ys e).fv := fun z hz hx => by simp [Exp.fv, hz, hx]
      simp only [uses, Exp.bv] at hp
      have hp' : Pre K σ c ((f :: ys) ++ uses e) (x :: e.bv) (· ∈ (Exp.letapp x f t ys e).fv) s im Z := hp
      have hx : 0 < un (x :: e.bv) im s Z x := by simp [un]
      simp only [contract] at h
      have keep : ∀ r, (contract n σ c e s im).map (fun r : Out Exp =>
          (⟨.letapp x (σ f) t (ys.map σ) r.out, r.steps, r.count, r.im⟩ : Out Exp)) = some r →
          Post K σ c s im Z (uses r.out) r.count r.im ∧ ∃ d, SE d (facts σ im s) σ (.letapp x f t ys e) r.out := by
        intro r h
        obtain ⟨r₀, h1, rfl⟩ := Option.map_eq_some_iff.mp h
        obtain ⟨o, d, hs⟩ := ih _ _ _ _ _ _ _ _ h1 (hp'.step hl he)
        exact ⟨Post.keep hp' hl o, d, .letapp (hp.new hx _) hs⟩
      split at h
      · next xs m hi =>
        obtain ⟨hc1, hg, hlen, hf⟩ := inlinable_some hi
        split at h
        · next C x' hC =>
          obtain ⟨r₀, h1, h2, h3, h4⟩ := incr_out h
          rw [h2, h3, h4]
          obtain ⟨p, hz⟩ := hp.letinl he hys (get_mem hg) hf hc1 hlen hC
          have hk := hp.called hys (get_mem hg) hf hc1 hlen
          obtain ⟨hxe, hze, hfree, hxx, hxm, hue⟩ := hp.letc he (get_mem hg) hf hk hC
          obtain ⟨o, d, hs⟩ := ih _ _ _ _ _ _ _ _ h1 p
          have hA : ∀ w ∈ xs, 0 < cn id (x :: e.bv) w + cn id (pb im s) w := fun w hw => by have := (hk.par w hw).1; omega
          have hA' : ∀ w ∈ xs, un [] (put im (σ f) true) s Z w = 0 := fun w hw => by
            have := hk.out w hw; simp only [un, cn_nil]; omega
          refine ⟨o.subst (Mono.put _ _) (fun z hzp => Inl.sets_not_mem (hp.pendA (Mono.put _ _) hA hA' z hzp)) hz, d + 1, ?_⟩
          refine .letinl (t' := t) (xs := xs) (m := m) (τ := σ) (σ' := sets xs (ys.map σ) σ) (C := C) (z := x') ?_ hk.nodup
            hlen.symm hC ?_ (fun w _ hw => Inl.sets_not_mem hw) ?_ hxe hze
            (.weak le_rfl (hp.factsA (Mono.put _ _) (fun z hz => Inl.sets_not_mem hz) hA) hs)
          · simp [facts, hg, hf]
          · intro i w y hw hy
            have := Inl.sets_map (σ := σ) (ys := ys.map σ) hk.nodup (by simp [hlen])
            have h5 := congrArg (·[i]?) this
            simp only [List.getElem?_map, hw, hy, Option.map_some, Option.some.injEq] at h5
            exact h5
          · intro w hw hwx
            obtain ⟨q1, q2⟩ := hfree w hw hwx
            exact ⟨Inl.sets_not_mem q1, q2⟩
        · exact keep r h
      · exact keep r h
    | primVal x p e =>
      have he : ∀ z ∈ e.fv, z ≠ x → z ∈ (Exp.primVal x p e).fv := fun z hz hx => by simp [Exp.fv, hz, hx]
      simp only [uses, Exp.bv] at hp
      have hp' : Pre K σ c ([] ++ uses e) (x :: e.bv) (· ∈ (Exp.primVal x p e).fv) s im Z := hp
      have hx : 0 < un (x :: e.bv) im s Z x := by simp [un]
      simp only [contract] at h
      obtain ⟨r₀, h1, rfl⟩ := Option.map_eq_some_iff.mp h
      obtain ⟨o, d, hs⟩ := ih _ _ _ _ _ _ _ _ h1 (hp'.step (by simp) he)
      exact ⟨Post.keep hp' (by simp) o, d, .primVal (hp.new hx _) hs⟩
    | prim x p ys e =>
      have hl : ∀ z ∈ ys, z ∈ (Exp.prim x p ys e).fv := fun z hz => by simp [Exp.fv, hz]
      have he : ∀ z ∈ e.fv, z ≠ x → z ∈ (Exp.prim x p ys e).fv := fun z hz hx => by simp [Exp.fv, hz, hx]
      simp only [uses, Exp.bv] at hp
      have hx : 0 < un (x :: e.bv) im s Z x := by simp [un]
      simp only [contract] at h
      obtain ⟨r₀, h1, rfl⟩ := Option.map_eq_some_iff.mp h
      obtain ⟨o, d, hs⟩ := ih _ _ _ _ _ _ _ _ h1 (hp.step hl he)
      exact ⟨Post.keep hp hl o, d, .prim (hp.new hx _) hs⟩
    | case v bs =>
      have hv := hp.use (y := v) (by simp [Exp.fv])
      simp only [uses, Exp.bv] at hp hv
      simp only [contract] at h
      have keep : ∀ r, (conCases (contract n) σ s c im bs).map (fun r : Out Brs =>
          (⟨.case (σ v) r.out, r.steps, r.count, r.im⟩ : Out Exp)) = some r →
          Post K σ c s im Z (uses r.out) r.count r.im ∧ ∃ d, SE d (facts σ im s) σ (.case v bs) r.out := by
        intro r h
        obtain ⟨r₀, h1, rfl⟩ := Option.map_eq_some_iff.mp h
        have p : Pre (fun y => K y + cn σ [v] y) σ c (usesB bs) bs.bv (· ∈ bs.fv) s im Z := by
          refine hp.move (.refl _) (fun y => ?_) hp.gone (fun y => by omega) (fun _ => le_rfl)
            (fun y hy => hp.fre y (by simp [Exp.fv, hy])) (fun w hw => ?_)
          · have := hp.cnt y; simp only [cn_cons, cn_nil] at this ⊢; omega
          · have := hp.kz w hw
            have : σ v ≠ w := by rintro rfl; simp only [un] at hv; omega
            simp only [cn_cons, cn_nil, if_neg this]; omega
        obtain ⟨o, ht, d, hs⟩ := conCases_good ih h1 p
        refine ⟨⟨o.mono, o.dead, o.gone, fun y => ?_, fun w hw => ?_⟩, d, .case ht hs⟩
        · have := o.cnt y; simp only [uses, cn_cons, cn_nil, id] at this ⊢; omega
        · simp only [uses, List.mem_cons] at hw
          rcases hw with rfl | hw
          · have := o.mono.pb (σ := id) (y := σ v) (s := s)
            simp only [un] at hv
            exact ⟨by dsimp only; omega, by omega⟩
          · exact o.avoid w hw
      split at h
      · next t' ys' hg =>
        split at h
        · next k hk =>
          obtain ⟨r₀, h1, h2, h3, h4⟩ := incr_out h
          rw [h2, h3, h4]
          have hz : ∀ y, c y = 0 → decCase σ t' bs (decL σ [v] c) y = 0 := by
            intro y hy
            have := decCase_le (σ := σ) (t := t') (bs := bs) (c := decL σ [v] c) (y := y)
            rw [decL_eq] at this; omega
          have hsub := fun w => Sublist_cn (findTag_bv hk) id w
          have p : Pre K σ (decCase σ t' bs (decL σ [v] c)) (uses k) k.bv (· ∈ k.fv) s im Z := by
            refine hp.move (.refl _) (fun y => ?_) (fun f hf => hz f (hp.gone f hf)) (fun y => le_rfl) (fun w => ?_)
              (fun y hy => ?_) (fun w hw => hp.kz w (by have := hsub w; omega))
            · have := hp.cnt y
              have := decCase_ge (σ := σ) (c := decL σ [v] c) (y := y) hk
              rw [decL_eq] at this
              simp only [cn_cons, cn_nil] at *; omega
            · have := hsub w; simp only [un]; omega
            · have := hp.fre y (by simp only [Exp.fv, Finset.mem_insert]; exact .inr (findTag_fv hk y hy))
              have := hsub y; simp only [un] at *; omega
          obtain ⟨o, d, hs⟩ := ih _ _ _ _ _ _ _ _ h1 p
          exact ⟨o.pre hz, d, .caseFold (t := t') (zs := ys'.map σ) (by simp only [facts, hg]) hk hs⟩
        · exact keep r h
      · exact keep r h
    | fn B e =>
      simp only [contract] at h
      split at h
      · cases h
      · next r₁ hr1 =>
        split at h
        · cases h
        · next q hq =>
          cases h
          exact fn_good ih hr1 hq hp
    | app f t ys =>
      have hys : ∀ z ∈ ys, z ∈ (Exp.app f t ys).fv := fun z hz => by simp [Exp.fv, hz]
      have hl : ∀ z ∈ f :: ys, z ∈ (Exp.app f t ys).fv := fun z hz => by
        simp only [List.mem_cons] at hz; simp only [Exp.fv, Finset.mem_insert, List.mem_toFinset]; exact hz
      simp only [contract] at h
      split at h
      · next xs m hi =>
        obtain ⟨hc1, hg, hlen, hf⟩ := inlinable_some hi
        obtain ⟨r₀, h1, h2, h3, h4⟩ := incr_out h
        rw [h2, h3, h4]
        simp only [uses, Exp.bv] at hp
        obtain ⟨hk, p⟩ := hp.app hys (get_mem hg) hf hc1 hlen
        obtain ⟨o, d, hs⟩ := ih _ _ _ _ _ _ _ _ h1 p
        have hA : ∀ w ∈ xs, 0 < cn id [] w + cn id (pb im s) w := fun w hw => by have := (hk.par w hw).1; omega
        have hA' : ∀ w ∈ xs, un [] (put im (σ f) true) s Z w = 0 := fun w hw => by
          have := hk.out w hw; simp only [un, cn_nil]; omega
        refine ⟨o.subst (Mono.put _ _) (fun z hzp => Inl.sets_not_mem (hp.pendA (Mono.put _ _) hA hA' z hzp)) hk.dead, d + 1, ?_⟩
        refine .appinl (t' := t) (xs := xs) (m := m) (τ := σ) (σ' := sets xs (ys.map σ) σ) ?_ hk.nodup hlen.symm ?_
          (fun w _ hw => Inl.sets_not_mem hw)
          (.weak le_rfl (hp.factsA (Mono.put _ _) (fun z hz => Inl.sets_not_mem hz) hA) hs)
        · simp [facts, hg, hf]
        · intro i w y hw hy
          have := Inl.sets_map (σ := σ) (ys := ys.map σ) hk.nodup (by simp [hlen])
          have h5 := congrArg (·[i]?) this
          simp only [List.getElem?_map, hw, hy, Option.map_some, Option.some.injEq] at h5
          exact h5
      · cases h
        refine ⟨⟨.refl _, fun _ h => h, hp.gone, fun y => ?_, fun w hw => ?_⟩, 0, .app⟩
        · have := hp.cnt y
          have hm : cn id ((f :: ys).map σ) y = cn σ (f :: ys) y := cn_map
          change cn id ((f :: ys).map σ) y + _ + _ ≤ _
          rw [hm]; exact this
        · have hw' : w ∈ (f :: ys).map σ := hw
          obtain ⟨z, hz, rfl⟩ := List.mem_map.mp hw'
          have := hp.use (hl z hz)
          simp only [un] at this
          exact ⟨by dsimp only; omega, by omega⟩

end Shr
end ANF
