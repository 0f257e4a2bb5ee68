import Verif.ANF.ShrProps

/-!
# Shrink reduction of a program in continuation-passing style

`convert_whole_exp` (LambdaBoxLocal_to_LambdaANF.v:380-388) binds the name of the initial continuation twice: as a function
and as the parameter of the function that runs the program.  `shrink_spec` asks for distinct binders; here the first
contraction, which inlines that function, is followed step by step.
-/

namespace ANF
namespace Shr
open Ll (put)
open Inl (sets)

/-- The result of `convert_whole_exp` for a body `e`. -/
def whole (f k x : Var) (t : Tag) (e : Exp) : Exp :=
  .fn (.cons f t [k] e (.cons k t [x] (.halt x) .nil)) (.app f t [k])

/-- `e` has that form, `k` is the only free variable of the body, and the binders are otherwise distinct. -/
def WholeCps (e : Exp) : Prop := ∃ f k x t m, e = whole f k x t m ∧ (∀ y ∈ m.fv, y = k) ∧ (f :: k :: x :: m.bv).Nodup

theorem put_id (k : Var) : put id k k = id := by
  funext y
  by_cases h : y = k
  · subst h; rw [Inl.put_self]; rfl
  · rw [Inl.put_other h]

section
variable {f k x : Var} {t : Tag} {e : Exp}

theorem whole_closed (hfv : ∀ y ∈ e.fv, y = k) : (whole f k x t e).fv = ∅ := by
  refine Finset.eq_empty_of_forall_notMem fun y hy => ?_
  simp only [whole, Exp.fv, Defs.fvRaw, Defs.names, Finset.mem_sdiff, Finset.mem_union, List.mem_toFinset, List.mem_cons,
    List.not_mem_nil, or_false, Finset.mem_insert, Finset.mem_singleton, Finset.notMem_empty] at hy
  obtain ⟨h1, h2⟩ := hy
  push Not at h2
  rcases h1 with (⟨h3, h4⟩ | ⟨h3, h4⟩) | h3 | h3
  · exact h4 (hfv y h3)
  · exact h4 h3
  · exact h2.1 h3
  · exact h2.2 h3

/-- The pass on such a program. -/
theorem shrink_whole (hfv : ∀ y ∈ e.fv, y = k) (hb : (f :: k :: x :: e.bv).Nodup) :
    ∃ e' n, shrinkTop (whole f k x t e) = some (e', n) ∧ (∃ d, SE d (fun _ => none) id (whole f k x t e) e') ∧
      e'.bv.Nodup ∧ (∀ y ∈ e'.bv, y ∈ (whole f k x t e).bv) ∧ tsize e' ≤ tsize (whole f k x t e) := by
  simp only [List.nodup_cons, List.mem_cons, not_or] at hb
  obtain ⟨⟨hfk, hfx, hfe⟩, ⟨hkx, hke⟩, hxe, hbv⟩ := hb
  have hus : ∀ y ∈ uses e, y = k ∨ y ∈ e.bv := fun y hy => (uses_scope e y hy).imp_left (hfv y)
  have hfu : cn id (uses e) f = 0 := cn_zero.mpr fun h => by
    rcases hus f h with h | h
    · exact hfk h
    · exact hfe h
  have hxu : cn id (uses e) x = 0 := cn_zero.mpr fun h => by
    rcases hus x h with h | h
    · exact hkx h.symm
    · exact hxe h
  -- the census
  have hM : f ≤ Unc.maxVar (whole f k x t e) ∧ k ≤ Unc.maxVar (whole f k x t e) := by
    constructor <;>
    · refine le_max_of_le_left (Finset.le_sup (f := id) (Finset.mem_union_right _ (List.mem_toFinset.2 ?_)))
      simp [whole, Exp.bv, Defs.bv]
  have hc : ∀ y, cn id (uses e) y + (if x = y then 1 else 0) + (if f = y then 1 else 0) + (if k = y then 1 else 0) ≤
      initCensus (wrap (whole f k x t e)) y := by
    intro y
    rw [initCensus_eq]
    simp only [wrap, whole, uses, usesD, cn_append, cn_cons, cn_nil, id]
    omega
  have hcf : initCensus (wrap (whole f k x t e)) f = 1 := by
    rw [initCensus_eq]
    simp only [wrap, whole, uses, usesD, cn_append, cn_cons, cn_nil, id, hfu, if_neg (Ne.symm hfk), if_neg (Ne.symm hfx), if_true]
    rw [if_neg (by have := hM.1; simp only [whole] at this; vomega)]
  have hck : 0 < initCensus (wrap (whole f k x t e)) k := by have := hc k; simp only [if_true] at this; omega
  have htop := shrinkTop_eq (whole f k x t e)
  generalize initCensus (wrap (whole f k x t e)) = c at hc hcf hck htop
  obtain ⟨n, hn, hlt⟩ : ∃ n, fuel (whole f k x t e) - 1 = n + 2 ∧ tsize e + 1 < n :=
    ⟨tsize e + 8, by simp only [fuel, wrap, whole, tsize, tsizeD]; omega, by omega⟩
  -- inlining the first function
  let s : Sub := [(f, .fn t [k] e), (k, .fn t [x] (.halt x))]
  let im : Var → Bool := put (fun _ => false) f true
  let c₁ : Count := countInl [k] [k] (put c f 0)
  have imf : im f = true := Inl.put_self
  have imo : ∀ {y}, y ≠ f → im y = false := fun h => Inl.put_other h
  have imt : ∀ {y}, im y = true → y = f := fun {y} h => by
    by_contra hne; rw [imo hne] at h; cases h
  have imk : im k = false := imo (Ne.symm hfk)
  have hc₁f : c₁ f = 0 := by
    show put (put (put c f 0) k 0) k _ f = 0
    rw [Inl.put_other hfk, Inl.put_other hfk, Inl.put_self]
  have hc₁k : c k ≤ c₁ k := by
    show _ ≤ put (put (put c f 0) k 0) k (put c f 0 k + put c f 0 k - 1) k
    rw [Inl.put_self, Inl.put_other (Ne.symm hfk)]; omega
  have hc₁ : ∀ y, y ≠ f → y ≠ k → c₁ y = c y := fun y h1 h2 => by
    show put (put (put c f 0) k 0) k _ y = _
    rw [Inl.put_other h2, Inl.put_other h2, Inl.put_other h1]
  have hpb : pb im s = [x] := by simp [pb, s, imf, imk, Exp.bv]
  have hpu : pu im s = [x] := by simp [pu, s, imf, imk, uses]
  have hss : subSize im s = 1 := by simp [subSize, s, imf, imk, tsize]
  obtain ⟨r, hr⟩ := contract_total n id c₁ e s im (by omega)
  have hm := contract_massive _ _ _ _ _ _ _ hr
  have hx0 : ∀ y, y = k → cn id e.bv y + cn id [x] y = 0 := by
    rintro y rfl
    rw [cn_zero.mpr hke, cn_zero.mpr (by simpa using hkx)]
  have hp : Pre (fun _ => 0) id c₁ (uses e) e.bv (· ∈ e.fv) s im [] := by
    refine ⟨fun y => ?_, fun g hg => ?_, ?_, fun w => ?_, fun y hy => ?_, ?_, fun _ _ => rfl, fun _ _ => rfl, fun _ _ => rfl, ?_⟩
    · rw [hpu]
      have := hc y
      by_cases h1 : y = f
      · subst h1; simp [hfu, Ne.symm hfx]
      by_cases h2 : y = k
      · subst h2; simp only [cn_cons, cn_nil, id] at *; omega
      · rw [hc₁ y h1 h2]; simp only [cn_cons, cn_nil, id] at *; omega
    · rw [imt hg]; exact hc₁f
    · intro y t' ys hy; simp [s] at hy
    · have := nodup_cn.mp hbv w
      simp only [un, hpb, cn_cons, cn_nil, id]
      split
      · next h => subst h; rw [cn_zero.mpr hxe]
      · omega
    · have := hx0 y (hfv y hy)
      simp only [un, hpb, cn_nil]; omega
    · intro g t' xs m hg hi y hy hyx
      simp only [s, List.mem_cons, Prod.mk.injEq, SVal.fn.injEq, List.not_mem_nil, or_false] at hg
      rcases hg with ⟨rfl, _⟩ | ⟨rfl, _, rfl, rfl⟩
      · rw [imf] at hi; cases hi
      · simp only [Exp.fv, Finset.mem_singleton] at hy; subst hy; simp at hyx
    · intro g v hg
      simp only [un, hpb, cn_nil]
      simp only [s, List.mem_cons, Prod.mk.injEq, List.not_mem_nil, or_false] at hg
      rcases hg with ⟨rfl, _⟩ | ⟨rfl, _⟩
      · rw [cn_zero.mpr hfe, cn_zero.mpr (by simpa using hfx)]
      · have := hx0 g rfl; omega
  obtain ⟨o, d, hs⟩ := contract_good _ _ _ _ _ _ _ _ _ hr hp
  have hrf : r.im f = true := o.mono f imf
  have hzf : r.count f = 0 := o.gone f hrf
  have hnf : f ∉ r.out.fv := o.absent hzf
  -- the bundle
  let B : Defs := .cons f t [k] e (.cons k t [x] (.halt x) .nil)
  obtain ⟨q, hq, hB, hqm⟩ : ∃ q, postFun (contract (n + 1)) id [] r.count r.im B = some q ∧
      (q.out = .nil ∧ k ∉ r.out.fv ∨ q.out = .cons k t [x] (.halt x) .nil ∧ r.im k = false) ∧ q.steps = 0 := by
    simp only [B, postFun, hrf, if_true]
    cases hk : r.im k with
    | true => exact ⟨_, rfl, .inl ⟨rfl, o.absent (o.gone k hk)⟩, rfl⟩
    | false =>
      simp only [Bool.false_eq_true, if_false]
      split
      · next h0 => exact ⟨_, rfl, .inl ⟨rfl, o.absent h0⟩, rfl⟩
      · exact ⟨_, rfl, .inr ⟨rfl, trivial⟩, rfl⟩
  have hrun : contract (n + 2) id c (whole f k x t e) [] (fun _ => false) =
      some ⟨mkFn q.out r.out, r.steps + 1 + q.steps + (if q.out = .nil then 1 else 0), q.count, q.im⟩ := by
    have hpre : preFun id c [] B = (B, c, s) := by
      simp only [B, preFun, hcf, if_neg (Nat.one_ne_zero), if_neg (Nat.pos_iff_ne_zero.mp hck)]; rfl
    have hi : inlinable c s (fun _ => false) f t 1 = some ([k], e) := by
      simp [inlinable, hcf, s, Sub.get]
    have happ : contract (n + 1) id c (.app f t [k]) s (fun _ => false) = some r.incr := by
      simp only [contract, id, List.map_cons, List.map_nil, List.length_cons, List.length_nil, Nat.zero_add, hi]
      show (contract n (put id k k) c₁ e s im).map Out.incr = _
      rw [put_id, hr]; rfl
    show (match contract (n + 1) id (preFun id c [] B).2.1 (.app f t [k]) (preFun id c [] B).2.2 (fun _ => false) with
      | none => none
      | some r => match postFun (contract (n + 1)) id [] r.count r.im (preFun id c [] B).1 with
        | none => none
        | some q => some (⟨mkFn q.out r.out, r.steps + q.steps + (if q.out = Defs.nil then 1 else 0), q.count, q.im⟩ : Out Exp)) = _
    rw [hpre]
    simp only [happ, Out.incr, hq]
  rw [hn, hrun, Option.map_some] at htop
  have hqf : ∀ {y t' xs' m'}, findDef y q.out = some (t', xs', m') → y = k ∧ t' = t ∧ xs' = [x] ∧ m' = .halt x := by
    intro y t' xs' m' h
    rcases hB with ⟨hB, _⟩ | ⟨hB, _⟩ <;> rw [hB] at h
    · cases h
    · rw [findDef] at h
      split at h
      · next h' => cases h; exact ⟨h', rfl, rfl, rfl⟩
      · cases h
  have hBk : findDef k B = some (t, [x], .halt x) := by simp only [B]; rw [findDef, if_neg (Ne.symm hfk), findDef, if_pos rfl]
  have hqfv : q.out.fv = ∅ := by
    rcases hB with ⟨hB, _⟩ | ⟨hB, _⟩ <;> rw [hB] <;> simp [Defs.fv, Defs.fvRaw, Exp.fv]
  refine ⟨_, _, htop, ⟨d + 1, ?_⟩, ?_, ?_, ?_⟩
  · let Γ : Facts := fun y => if y = f then some (.fn t [k] e id) else if y = k then some (.fn t [x] (.halt x) id) else none
    have hno : ∀ z, Fresh (fun _ => none) z := fun z y a h => by cases h
    have hcl := whole_closed (f := f) (x := x) (t := t) hfv
    refine SE.fn (Γ' := Γ) (fun _ _ => ⟨hno _, rfl⟩) (fun z hz => by rw [whole] at hcl; rw [hcl] at hz; simp at hz) (fun y a hy => ?_) ?_ ?_ ?_ ?_ ?_ ?_
    · right
      simp only [Γ] at hy
      split at hy
      · next h => subst h; cases hy; exact ⟨_, _, _, by rw [findDef, if_pos rfl], rfl⟩
      · next h =>
        split at hy
        · next h' => subst h'; cases hy; exact ⟨_, _, _, by rw [findDef, if_neg (Ne.symm hfk), findDef, if_pos rfl], rfl⟩
        · cases hy
    · intro g t' xs' m' hg
      obtain ⟨rfl, rfl, rfl, rfl⟩ := hqf hg
      exact ⟨_, hBk⟩
    · intro g t' xs m hg hgB
      refine ⟨fun _ _ => ⟨hno _, rfl⟩, fun z hz hzx => hzx⟩
    · intro g t₁ xs₁ m₁ t₂ xs₂ m₂ h1 h2
      obtain ⟨rfl, rfl, rfl, rfl⟩ := hqf h2
      rw [show findDef g _ = _ from hBk] at h1
      cases h1
      exact .halt
    · intro g _ hg; rw [hqfv] at hg; simp at hg
    · intro g hg hgo
      simp only [Defs.names, List.mem_cons, List.not_mem_nil, or_false] at hg
      rcases hg with rfl | rfl
      · exact absurd hgo hnf
      · rcases hB with ⟨_, hB⟩ | ⟨hB, _⟩
        · exact absurd hgo hB
        · rw [hB]; simp [Defs.names]
    · refine .appinl (t' := t) (xs := [k]) (m := e) (τ := id) (σ' := id) (by simp [Γ]) (by simp) rfl ?_ (fun _ _ _ => rfl)
        (.weak le_rfl ?_ hs)
      · intro i w y h1 h2
        rw [h1] at h2; cases h2; rfl
      · intro y a ha
        simp only [facts, s, Sub.get] at ha
        refine ⟨a, ?_, Same_refl a⟩
        by_cases h1 : f = y
        · subst h1; simp [imf] at ha
        · by_cases h2 : k = y
          · subst h2; simp [h1, imk] at ha; simp [Γ, Ne.symm h1, ha]
          · simp [h1, h2] at ha
  · rw [nodup_cn]
    intro w
    have h1 := hm.bvs w
    have h2 := nodup_cn.mp hbv w
    have h3 := hx0 w
    rw [hpb] at h1
    rcases hB with ⟨hB, _⟩ | ⟨hB, hk⟩ <;> rw [hB]
    · show cn id r.out.bv w ≤ 1
      by_cases hwx : w = x
      · subst hwx; rw [cn_zero.mpr hxe] at h1; simp at h1; omega
      · rw [(cn_zero (l := [x])).mpr (by simpa using hwx)] at h1; omega
    · have h4 : pb r.im s = [x] := by simp [pb, s, hrf, hk, Exp.bv]
      rw [h4] at h1
      have h5 : w = x → cn id e.bv w = 0 := fun h => by rw [h, cn_zero.mpr hxe]
      show cn id (k :: (([x] ++ []) ++ [] ++ r.out.bv)) w ≤ 1
      simp only [cn_cons, cn_append, cn_nil, id] at h1 h3 ⊢
      by_cases hwk : k = w <;> by_cases hwx : x = w <;> simp [hwk, hwx] at * <;> omega
  · intro y hy
    have h1 := hm.bvs y
    rw [hpb] at h1
    have key : y ∈ r.out.bv → y ∈ (whole f k x t e).bv := fun h => by
      have := cn_mem.mpr h
      have : 0 < cn id (e.bv ++ [x]) y := by rw [cn_append]; omega
      have := cn_mem.mp this
      simp only [whole, Exp.bv, Defs.bv, List.mem_append, List.mem_cons, List.not_mem_nil, or_false] at this ⊢
      tauto
    rcases hB with ⟨hB, _⟩ | ⟨hB, hk⟩ <;> rw [hB] at hy
    · exact key hy
    · simp only [mkFn, Exp.bv, Defs.bv, List.mem_append, List.mem_cons, List.not_mem_nil, or_false] at hy
      rcases hy with ⟨h | h⟩ | h
      · simp [whole, Exp.bv, Defs.bv, h]
      · simp [whole, Exp.bv, Defs.bv, h]
      · exact key h
  · have h1 := hm.size
    rw [hss] at h1
    simp only [whole, tsize, tsizeD]
    rcases hB with ⟨hB, _⟩ | ⟨hB, hk⟩ <;> rw [hB]
    · show tsize r.out ≤ _
      omega
    · simp only [mkFn, tsize, tsizeD]; omega
end

end Shr
end ANF
