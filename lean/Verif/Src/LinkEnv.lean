import Verif.Src.LinkBack

/-!
# Linking: from environments to values of constants, and the two directions together
-/

namespace Mut

theorem lookupDfn_cons_ne {c d e p} (h : c ≠ d) : lookupDfn c ((d, e) :: p) = lookupDfn c p := by
  simp [lookupDfn, lookup, h]

theorem lookupDfn_fresh {c d p t} (h : lookup d p = none) (hc : lookupDfn c p = some t) : c ≠ d := by
  rintro rfl; simp [lookupDfn, h] at hc

theorem Wcbv.weaken {d e p} (hd : lookup d p = none) {t s} (h : Wcbv p t s) : Wcbv ((d, e) :: p) t s := by
  refine Mut.Wcbv.rec (motive_1 := fun t s _ => Wcbv ((d, e) :: p) t s)
    (motive_2 := fun t s _ => Wcbvs ((d, e) :: p) t s) ?_ ?_ ?_ ?_ ?_ ?_ ?_ ?_ ?_ ?_ ?_ ?_ ?_ ?_ h
  · intro t; exact .lam _
  · exact .proof
  · intro v; exact .prim _
  · intro f a a' _ _ h1 h2; exact .appProof h1 h2
  · intro i r ts ts' _ h; exact .con h
  · intro ds m; exact .fix _ _
  · intro c t s hl _ h
    exact .const (by rw [lookupDfn_cons_ne (lookupDfn_fresh hd hl)]; exact hl) h
  · intro f b a a' s _ _ _ h1 h2 h3; exact .appLam h1 h2 h3
  · intro d d' b s _ _ h1 h2; exact .letin h1 h2
  · intro ds m f a a' x s _ hx _ _ h1 h2 h3; exact .appFix h1 hx h2 h3
  · intro f f' a a' _ hh _ h1 h2; exact .appCong h1 hh h2
  · intro t i n ts bs c s _ hc _ h1 h2; exact .case h1 hc h2
  · exact .nil
  · intro t t' ts ts' _ _ h1 h2; exact .cons h1 h2

mutual
theorem Term.crct_weaken {D D' : Name → Prop} (h : ∀ c, D c → D' c) : ∀ (t : Term) {n : Nat}, t.crct D n → t.crct D' n
  | .rel j, _, hc => by simpa [Term.crct] using hc
  | .proof, _, _ => by simp [Term.crct]
  | .lam t, _, hc => by simp only [Term.crct] at hc ⊢; exact t.crct_weaken h hc
  | .letin t u, _, hc => by simp only [Term.crct] at hc ⊢; exact ⟨t.crct_weaken h hc.1, u.crct_weaken h hc.2⟩
  | .app t u, _, hc => by simp only [Term.crct] at hc ⊢; exact ⟨t.crct_weaken h hc.1, u.crct_weaken h hc.2⟩
  | .const c, _, hc => by simp only [Term.crct] at hc ⊢; exact h c hc
  | .con i m ts, _, hc => by simp only [Term.crct] at hc ⊢; exact ts.crct_weaken h hc
  | .case i t bs, _, hc => by simp only [Term.crct] at hc ⊢; exact ⟨t.crct_weaken h hc.1, bs.crct_weaken h hc.2⟩
  | .fix ds m, _, hc => by simp only [Term.crct] at hc ⊢; exact ⟨hc.1, ds.crct_weaken h hc.2⟩
  | .prim _, _, _ => by simp [Term.crct]
  | .wrong, _, hc => by simp [Term.crct] at hc
theorem Terms.crct_weaken {D D' : Name → Prop} (h : ∀ c, D c → D' c) : ∀ (t : Terms) {n : Nat}, t.crct D n → t.crct D' n
  | .nil, _, _ => by simp [Terms.crct]
  | .cons t ts, _, hc => by simp only [Terms.crct] at hc ⊢; exact ⟨t.crct_weaken h hc.1, ts.crct_weaken h hc.2⟩
theorem Brs.crct_weaken {D D' : Name → Prop} (h : ∀ c, D c → D' c) : ∀ (t : Brs) {n : Nat}, t.crct D n → t.crct D' n
  | .nil, _, _ => by simp [Brs.crct]
  | .cons m t ts, _, hc => by simp only [Brs.crct] at hc ⊢; exact ⟨t.crct_weaken h hc.1, ts.crct_weaken h hc.2⟩
theorem Defs.crct_weaken {D D' : Name → Prop} (h : ∀ c, D c → D' c) : ∀ (t : Defs) {n : Nat}, t.crct D n → t.crct D' n
  | .nil, _, _ => by simp [Defs.crct]
  | .cons t ts, _, hc => by
    simp only [Defs.crct] at hc ⊢; exact ⟨t.crct_weaken h hc.1, hc.2.1, ts.crct_weaken h hc.2.2⟩
end

theorem Defined.cons {d e p c} (hd : lookup d p = none) (h : Defined p c) : Defined ((d, e) :: p) c := by
  obtain ⟨t, ht⟩ := h
  exact ⟨t, by rw [lookupDfn_cons_ne (lookupDfn_fresh hd ht)]; exact ht⟩

/-- A constant body is correct in the environment. -/
theorem CrctEnv.body : ∀ {p : Environ}, CrctEnv p → ∀ {c t}, lookupDfn c p = some t → t.crct (Defined p) 0
  | [], _, c, t, h => by simp [lookupDfn, lookup] at h
  | (d, .trm u) :: p, hp, c, t, h => by
    simp only [CrctEnv] at hp
    by_cases hc : c = d
    · subst hc
      simp only [lookupDfn, lookup, if_true, Option.some.injEq] at h
      subst h
      exact u.crct_weaken (fun c h => h.cons hp.2.1) hp.2.2
    · rw [lookupDfn_cons_ne hc] at h
      exact t.crct_weaken (fun c h => h.cons hp.2.1) (hp.1.body h)
  | (d, .typ) :: p, hp, c, t, h => by
    simp only [CrctEnv] at hp
    have hc : c ≠ d := by rintro rfl; simp [lookupDfn, lookup] at h
    rw [lookupDfn_cons_ne hc] at h
    exact t.crct_weaken (fun c h => h.cons hp.2) (hp.1.body h)

/-- Every constant evaluates, in the environment of the constants before it. -/
def ConstsEval : Environ → Prop
  | [] => True
  | (_, .trm t) :: p => ConstsEval p ∧ ∃ s, Wcbv p t s
  | (_, .typ) :: p => ConstsEval p

end Mut

namespace Src

open Mut (Term Terms Name Environ Entry Wcbv Wcbvs Defined CrctEnv ConstsEval lookup lookupDfn lookupDfn_cons_ne lookupDfn_fresh)

theorem valOf_head (c e E v vs) : valOf ((c, e) :: E) (v :: vs) c = v := by simp [valOf, cstOffset]

theorem valOf_tail {c d : Name} (e E v vs) (h : d ≠ c) : valOf ((c, e) :: E) (v :: vs) d = valOf E vs d := by
  simp [valOf, cstOffset, h, Nat.add_comm 1]

theorem valOf_closed {E vs} (h : Closed vs) (c) : (valOf E vs c).wf 0 := by
  unfold valOf
  cases hv : vs[cstOffset E c]? with
  | none => simp [Exp.wf]
  | some v => exact h v (List.mem_of_getElem? hv)

/-- Moving from an environment to the next one does not change the translation of an older body. -/
theorem trS_extend {c e E v vs p} (hc : lookup c p = none) {t : Term} {n} (ht : t.crct (Defined p) n) :
    trS (valOf ((c, e) :: E) (v :: vs)) t = trS (valOf E vs) t := by
  refine trS_congr (D := Defined p) ?_ t ht
  rintro d ⟨u, hu⟩
  exact valOf_tail e E v vs (lookupDfn_fresh hc hu)

theorem vals_of_evalEnv {P} : ∀ {p : Environ} {vs}, CrctEnv p → (∀ c, Defined p c → findPrim P c = none) →
    EvalEnv (translateEnv P p) vs → Vals' p (valOf (translateEnv P p) vs)
  | [], vs, _, _, h => by
    cases h
    refine ⟨⟨fun c => by simp [valOf, Exp.wf], ?_⟩, ?_⟩ <;> (intro c t h; simp [lookupDfn, lookup] at h)
  | (d, .trm u) :: p, vs, hp, hP, h => by
    have hwE := translateEnv_wf hp hP
    have hcl := h.closed hwE
    simp only [CrctEnv] at hp
    rw [translateEnv_trm] at h ⊢
    have hP' : ∀ c, Defined p c → findPrim P c = none := fun c hc => hP c (hc.cons hp.2.1)
    cases h with
    | cons hE he =>
      rename_i v vs
      have ih := vals_of_evalEnv hp.1 hP' hE
      have hoff : ∀ c, Defined p c → cstOffset (translateEnv P p) c < vs.length := by
        intro c hc; rw [hE.length]; exact defined_offset hp.1 c hc
      rw [msub_trans hP' hoff u 0 hp.2.2] at he
      refine ⟨⟨fun c => valOf_closed hcl c, ?_⟩, ?_⟩
      · intro c t hl
        by_cases hc : c = d
        · subst hc
          simp only [lookupDfn, lookup, if_true, Option.some.injEq] at hl
          subst hl
          rw [valOf_head, trS_extend hp.2.1 hp.2.2]
          exact ⟨trS_wf ih.closed _ hp.2.2, he⟩
        · rw [lookupDfn_cons_ne hc] at hl
          rw [valOf_tail _ _ _ _ hc, trS_extend hp.2.1 (hp.1.body hl)]
          exact ih.body c t hl
      · intro c t hl
        by_cases hc : c = d
        · subst hc
          simp only [lookupDfn, lookup, if_true, Option.some.injEq] at hl
          subst hl
          obtain ⟨n, hn⟩ := he.toN
          obtain ⟨s, h1, h2, h3⟩ := (eval_back ih n).1 _ _ hp.2.2 hn
          refine ⟨s, h1.weaken hp.2.1, ?_, s.crct_weaken (fun c h => h.cons hp.2.1) h3⟩
          rw [valOf_head, trS_extend hp.2.1 h3, h2]
        · rw [lookupDfn_cons_ne hc] at hl
          obtain ⟨s, h1, h2, h3⟩ := ih.reach c t hl
          refine ⟨s, h1.weaken hp.2.1, ?_, s.crct_weaken (fun c h => h.cons hp.2.1) h3⟩
          rw [valOf_tail _ _ _ _ hc, trS_extend hp.2.1 h3, h2]
  | (d, .typ) :: p, vs, hp, hP, h => by
    simp only [CrctEnv] at hp
    rw [translateEnv_typ] at h ⊢
    have ih := vals_of_evalEnv hp.1 (fun c hc => hP c (hc.cons hp.2)) h
    have hne : ∀ {c t}, lookupDfn c ((d, .typ) :: p) = some t → c ≠ d := by
      rintro c t h rfl; simp [lookupDfn, lookup] at h
    refine ⟨⟨ih.closed, ?_⟩, ?_⟩
    · intro c t hl
      have := hne hl
      rw [lookupDfn_cons_ne this] at hl
      exact ih.body c t hl
    · intro c t hl
      have := hne hl
      rw [lookupDfn_cons_ne this] at hl
      obtain ⟨s, h1, h2, h3⟩ := ih.reach c t hl
      exact ⟨s, h1.weaken hp.2, h2, s.crct_weaken (fun c h => h.cons hp.2) h3⟩

theorem evalEnv_iff {P} : ∀ {p : Environ}, CrctEnv p → (∀ c, Defined p c → findPrim P c = none) →
    ((∃ vs, EvalEnv (translateEnv P p) vs) ↔ ConstsEval p)
  | [], _, _ => ⟨fun _ => trivial, fun _ => ⟨[], .nil⟩⟩
  | (d, .trm u) :: p, hp, hP => by
    simp only [CrctEnv] at hp
    have hP' : ∀ c, Defined p c → findPrim P c = none := fun c hc => hP c (hc.cons hp.2.1)
    have ih := evalEnv_iff hp.1 hP'
    rw [translateEnv_trm]
    simp only [ConstsEval]
    have key : ∀ {vs}, EvalEnv (translateEnv P p) vs →
        ((∃ v, Eval (msub vs 0 (trans (translateEnv P p) P 0 u)) v) ↔ ∃ s, Wcbv p u s) := by
      intro vs hE
      have hV := vals_of_evalEnv hp.1 hP' hE
      have hoff : ∀ c, Defined p c → cstOffset (translateEnv P p) c < vs.length := by
        intro c hc; rw [hE.length]; exact defined_offset hp.1 c hc
      rw [msub_trans hP' hoff u 0 hp.2.2]
      constructor
      · rintro ⟨v, hv⟩
        obtain ⟨n, hn⟩ := hv.toN
        obtain ⟨s, h1, _, _⟩ := (eval_back hV n).1 _ _ hp.2.2 hn
        exact ⟨s, h1⟩
      · rintro ⟨s, hs⟩
        exact ⟨_, Wcbv.trS hV.toVals hs (trS_wf hV.closed _ hp.2.2)⟩
    constructor
    · rintro ⟨vs, h⟩
      cases h with
      | cons hE he => exact ⟨ih.1 ⟨_, hE⟩, (key hE).1 ⟨_, he⟩⟩
    · rintro ⟨h1, h2⟩
      obtain ⟨vs, hE⟩ := ih.2 h1
      obtain ⟨v, hv⟩ := (key hE).2 h2
      exact ⟨v :: vs, .cons hE hv⟩
  | (d, .typ) :: p, hp, hP => by
    simp only [CrctEnv] at hp
    rw [translateEnv_typ]
    exact evalEnv_iff hp.1 (fun c hc => hP c (hc.cons hp.2))

/-- The main lemma: evaluation of the linked program. -/
theorem link_iff {P} {p : Environ} (hp : CrctEnv p) (hP : ∀ c, Defined p c → findPrim P c = none) {t : Term}
    (ht : t.crct (Defined p) 0) {v : Exp} :
    Eval (translateProgram P p t) v ↔
      ConstsEval p ∧ ∃ s, Wcbv p t s ∧ ∃ vs, EvalEnv (translateEnv P p) vs ∧ v = trS (valOf (translateEnv P p) vs) s := by
  unfold translateProgram
  rw [eval_mkLets (translateEnv_wf hp hP)]
  constructor
  · rintro ⟨vs, hE, h⟩
    refine ⟨(evalEnv_iff hp hP).1 ⟨vs, hE⟩, ?_⟩
    have hV := vals_of_evalEnv hp hP hE
    have hoff : ∀ c, Defined p c → cstOffset (translateEnv P p) c < vs.length := by
      intro c hc; rw [hE.length]; exact defined_offset hp c hc
    rw [msub_trans hP hoff t 0 ht] at h
    obtain ⟨n, hn⟩ := h.toN
    obtain ⟨s, h1, h2, _⟩ := (eval_back hV n).1 _ _ ht hn
    exact ⟨s, h1, vs, hE, h2⟩
  · rintro ⟨_, s, hs, vs, hE, rfl⟩
    refine ⟨vs, hE, ?_⟩
    have hV := vals_of_evalEnv hp hP hE
    have hoff : ∀ c, Defined p c → cstOffset (translateEnv P p) c < vs.length := by
      intro c hc; rw [hE.length]; exact defined_offset hp c hc
    rw [msub_trans hP hoff t 0 ht]
    exact Wcbv.trS hV.toVals hs (trS_wf hV.closed _ ht)

end Src
