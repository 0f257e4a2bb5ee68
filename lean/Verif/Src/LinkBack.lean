import Verif.Src.LinkSim

/-!
# Linking reflects evaluation; the environment as nested lets
-/

namespace Mut

variable {D : Name → Prop}

mutual
theorem Term.crct_mono : ∀ (t : Term) {i k : Nat}, t.crct D i → i ≤ k → t.crct D k
  | .rel j, i, k, h, hk => by simp only [Term.crct] at h ⊢; omega
  | .proof, _, _, _, _ => by simp [Term.crct]
  | .lam t, i, k, h, hk => by simp only [Term.crct] at h ⊢; exact t.crct_mono h (by omega)
  | .letin t u, i, k, h, hk => by
    simp only [Term.crct] at h ⊢; exact ⟨t.crct_mono h.1 hk, u.crct_mono h.2 (by omega)⟩
  | .app t u, i, k, h, hk => by simp only [Term.crct] at h ⊢; exact ⟨t.crct_mono h.1 hk, u.crct_mono h.2 hk⟩
  | .const c, _, _, h, _ => by simpa [Term.crct] using h
  | .con i m ts, _, k, h, hk => by simp only [Term.crct] at h ⊢; exact ts.crct_mono h hk
  | .case i t bs, _, k, h, hk => by simp only [Term.crct] at h ⊢; exact ⟨t.crct_mono h.1 hk, bs.crct_mono h.2 hk⟩
  | .fix ds m, i, k, h, hk => by simp only [Term.crct] at h ⊢; exact ⟨h.1, ds.crct_mono h.2 (by omega)⟩
  | .prim _, _, _, _, _ => by simp [Term.crct]
  | .wrong, _, _, h, _ => by simp [Term.crct] at h
theorem Terms.crct_mono : ∀ (t : Terms) {i k : Nat}, t.crct D i → i ≤ k → t.crct D k
  | .nil, _, _, _, _ => by simp [Terms.crct]
  | .cons t ts, i, k, h, hk => by simp only [Terms.crct] at h ⊢; exact ⟨t.crct_mono h.1 hk, ts.crct_mono h.2 hk⟩
theorem Brs.crct_mono : ∀ (t : Brs) {i k : Nat}, t.crct D i → i ≤ k → t.crct D k
  | .nil, _, _, _, _ => by simp [Brs.crct]
  | .cons m t ts, i, k, h, hk => by
    simp only [Brs.crct] at h ⊢; exact ⟨t.crct_mono h.1 (by omega), ts.crct_mono h.2 hk⟩
theorem Defs.crct_mono : ∀ (t : Defs) {i k : Nat}, t.crct D i → i ≤ k → t.crct D k
  | .nil, _, _, _, _ => by simp [Defs.crct]
  | .cons t ts, i, k, h, hk => by
    simp only [Defs.crct] at h ⊢; exact ⟨t.crct_mono h.1 hk, h.2.1, ts.crct_mono h.2.2 hk⟩
end

theorem instD_length (a k ds) : (instD a k ds).len = ds.len := by
  induction ds using Mut.Defs.ind with
  | h0 => rfl
  | h1 e es ih => simp [instD, Mut.Defs.len, ih]

mutual
theorem inst_crct {a : Term} (ha : a.crct D 0) : ∀ (t : Term) {k i : Nat}, t.crct D (i + 1) → k ≤ i → (inst a k t).crct D i
  | .rel j, k, i, h, hk => by
    simp only [Term.crct] at h; simp only [inst]
    split
    · exact a.crct_mono ha (by omega)
    · split <;> (simp only [Term.crct]; omega)
  | .proof, _, _, _, _ => by simp [inst, Term.crct]
  | .lam t, k, i, h, hk => by simp only [Term.crct] at h; simp only [inst, Term.crct]; exact inst_crct ha t h (by omega)
  | .letin t u, k, i, h, hk => by
    simp only [Term.crct] at h; simp only [inst, Term.crct]; exact ⟨inst_crct ha t h.1 hk, inst_crct ha u h.2 (by omega)⟩
  | .app t u, k, i, h, hk => by
    simp only [Term.crct] at h; simp only [inst, Term.crct]; exact ⟨inst_crct ha t h.1 hk, inst_crct ha u h.2 hk⟩
  | .const c, _, _, h, _ => by simpa [inst, Term.crct] using h
  | .con j m ts, k, i, h, hk => by simp only [Term.crct] at h; simp only [inst, Term.crct]; exact insts_crct ha ts h hk
  | .case j t bs, k, i, h, hk => by
    simp only [Term.crct] at h; simp only [inst, Term.crct]; exact ⟨inst_crct ha t h.1 hk, instB_crct ha bs h.2 hk⟩
  | .fix ds m, k, i, h, hk => by
    simp only [Term.crct] at h; simp only [inst, Term.crct, instD_length]
    exact ⟨h.1, instD_crct ha ds h.2 (by omega)⟩
  | .prim _, _, _, _, _ => by simp [inst, Term.crct]
  | .wrong, _, _, h, _ => by simp [Term.crct] at h
theorem insts_crct {a : Term} (ha : a.crct D 0) : ∀ (t : Terms) {k i : Nat}, t.crct D (i + 1) → k ≤ i → (insts a k t).crct D i
  | .nil, _, _, _, _ => by simp [insts, Terms.crct]
  | .cons t ts, k, i, h, hk => by
    simp only [Terms.crct] at h; simp only [insts, Terms.crct]; exact ⟨inst_crct ha t h.1 hk, insts_crct ha ts h.2 hk⟩
theorem instB_crct {a : Term} (ha : a.crct D 0) : ∀ (t : Brs) {k i : Nat}, t.crct D (i + 1) → k ≤ i → (instB a k t).crct D i
  | .nil, _, _, _, _ => by simp [instB, Brs.crct]
  | .cons m t ts, k, i, h, hk => by
    simp only [Brs.crct] at h; simp only [instB, Brs.crct]
    exact ⟨inst_crct ha t h.1 (by omega), instB_crct ha ts h.2 hk⟩
theorem instD_crct {a : Term} (ha : a.crct D 0) : ∀ (t : Defs) {k i : Nat}, t.crct D (i + 1) → k ≤ i → (instD a k t).crct D i
  | .nil, _, _, _, _ => by simp [instD, Defs.crct]
  | .cons t ts, k, i, h, hk => by
    simp only [Defs.crct] at h; simp only [instD, Defs.crct]
    refine ⟨inst_crct ha t h.1 hk, ?_, instD_crct ha ts h.2.2 hk⟩
    obtain ⟨b, hb⟩ := h.2.1
    subst hb; exact ⟨_, rfl⟩
end

theorem instl_crct : ∀ (ts : Terms) (t : Term), ts.crct D 0 → t.crct D ts.len → (instl ts 0 t).crct D 0 := by
  intro ts
  induction ts using Mut.Terms.ind with
  | h0 => intro t _ h; simpa [instl, Terms.len] using h
  | h1 a s ih =>
    intro t hs h
    simp only [Terms.crct] at hs
    exact ih _ hs.2 (inst_crct hs.1 t h (by omega))

theorem Brs.nth_crct : ∀ {bs : Brs} {n m : Nat} {t i}, bs.crct D i → bs.nth n = some (m, t) → t.crct D (m + i) := by
  intro bs
  induction bs using Brs.ind with
  | h0 => intro n m t i _ h; cases n <;> simp [Brs.nth] at h
  | h1 m' t' bs ih =>
    intro n m t i hc h
    simp only [Brs.crct] at hc
    cases n with
    | zero => simp only [Brs.nth, Option.some.injEq, Prod.mk.injEq] at h; obtain ⟨rfl, rfl⟩ := h; exact hc.1
    | succ n => exact ih hc.2 h

theorem Defs.nth_crct : ∀ {ds : Defs} {n : Nat} {t i}, ds.crct D i → ds.nth n = some t → t.crct D i := by
  intro bs
  induction bs using Defs.ind with
  | h0 => intro n t i _ h; cases n <;> simp [Defs.nth] at h
  | h1 t' bs ih =>
    intro n t i hc h
    simp only [Defs.crct] at hc
    cases n with
    | zero => simp only [Defs.nth, Option.some.injEq] at h; subst h; exact hc.1
    | succ n => exact ih hc.2.2 h

theorem caseStep_crct {n ts bs c} (hts : Terms.crct D 0 ts) (hbs : Brs.crct D 0 bs) (h : caseStep n ts bs = some c) :
    c.crct D 0 := by
  unfold caseStep at h
  split at h
  · rename_i m t hn
    split at h
    · rename_i hm
      cases h; subst hm
      exact instl_crct ts t hts (by simpa using Brs.nth_crct hbs hn)
    · simp at h
  · simp at h

theorem mem_listToZero' {n m : Nat} (h : m ∈ listToZero n) : m < n := by
  induction n with
  | zero => simp [listToZero] at h
  | succ n ih => simp only [listToZero, List.mem_cons] at h; rcases h with rfl | h <;> [omega; (have := ih h; omega)]

theorem foldl_inst_crct (g : Nat → Term) : ∀ (L : List Nat) (t : Term) , (∀ k ∈ L, (g k).crct D 0) →
    t.crct D L.length → (L.foldl (fun e k => inst (g k) 0 e) t).crct D 0
  | [], t, _, h => by simpa using h
  | k :: L, t, hg, h => by
    simp only [List.foldl]
    refine foldl_inst_crct g L _ (fun k hk => hg k (List.mem_cons_of_mem _ hk)) ?_
    exact inst_crct (hg k (List.mem_cons_self ..)) t (by simpa using h) (Nat.zero_le _)

theorem fixStep_crct {ds : Defs} {m x} (hd : ds.crct D ds.len) (h : fixStep ds m = some x) : x.crct D 0 := by
  unfold fixStep at h
  split at h
  · rename_i b hb
    cases h
    have hl : (listToZero ds.len).length = ds.len := by
      generalize ds.len = n
      induction n with
      | zero => rfl
      | succ n ih => simp [listToZero, ih]
    refine foldl_inst_crct (fun k => .fix ds k) _ _ (fun k hk => ?_) (by rw [hl]; exact Defs.nth_crct hd hb)
    simp only [Term.crct, Nat.add_zero]
    exact ⟨mem_listToZero' hk, hd⟩
  · simp at h

end Mut

namespace Src

open Mut (Term Terms Name Environ Entry Wcbv Wcbvs Defined CrctEnv lookup lookupDfn inst insts instB instD instl caseStep fixStep)

variable {σ : Name → Exp}

/-- `σ` gives each constant of `p` its value, and that value is reached in LambdaBoxMut. -/
structure Vals' (p : Environ) (σ : Name → Exp) : Prop extends Vals p σ where
  reach : ∀ c t, lookupDfn c p = some t → ∃ s, Wcbv p t s ∧ trS σ s = σ c ∧ s.crct (Defined p) 0

theorem eval_back {p : Environ} (hV : Vals' p σ) : ∀ n,
    (∀ t v, t.crct (Defined p) 0 → evalN n (trS σ t) = some v →
      ∃ s, Wcbv p t s ∧ v = trS σ s ∧ s.crct (Defined p) 0) ∧
    (∀ ts vs, ts.crct (Defined p) 0 → evalsN n (trSs σ ts) = some vs →
      ∃ ss, Wcbvs p ts ss ∧ vs = trSs σ ss ∧ ss.crct (Defined p) 0) := by
  have hσ := hV.closed
  intro n
  induction n with
  | zero => exact ⟨fun e v _ h => by simp [evalN] at h, fun e v _ h => by simp [evalsN] at h⟩
  | succ n ih =>
    obtain ⟨ih, ihs⟩ := ih
    refine ⟨fun t v hc h => ?_, fun ts vs hc h => ?_⟩
    · cases t with
      | const c =>
        simp only [Term.crct] at hc
        obtain ⟨t, ht⟩ := hc
        obtain ⟨s, h1, h2, h3⟩ := hV.reach c t ht
        have hb := (hV.body c t ht).2
        have : v = σ c := ((evalN_sound _).1 _ _ h).det hb.idem
        exact ⟨s, .const ht h1, by rw [this, h2], h3⟩
      | rel i => simp [trS, evalN] at h
      | proof => simp only [trS, evalN, Option.some.injEq] at h; subst h; exact ⟨.proof, .proof, rfl, hc⟩
      | lam b => simp only [trS, evalN, Option.some.injEq] at h; subst h; exact ⟨.lam b, .lam _, rfl, hc⟩
      | fix ds m => simp only [trS, evalN, Option.some.injEq] at h; subst h; exact ⟨.fix ds m, .fix _ _, rfl, hc⟩
      | prim q => simp only [trS, evalN, Option.some.injEq] at h; subst h; exact ⟨.prim q, .prim _, rfl, hc⟩
      | wrong => simp [Term.crct] at hc
      | con i r ts =>
        simp only [Term.crct] at hc
        simp only [trS, evalN] at h
        split at h
        · simp at h
        · rename_i vs hv
          obtain ⟨ss, h1, h2, h3⟩ := ihs _ _ hc hv
          simp only [Option.some.injEq] at h; subst h
          exact ⟨.con i r ss, .con h1, by rw [h2]; rfl, by simpa [Term.crct] using h3⟩
      | letin d b =>
        simp only [Term.crct] at hc
        simp only [trS, evalN] at h
        split at h
        · simp at h
        · rename_i w hw
          obtain ⟨d', h1, h2, h3⟩ := ih _ _ hc.1 hw
          subst h2
          rw [← trS_inst hσ] at h
          obtain ⟨s, h4, h5, h6⟩ := ih _ _ (Mut.inst_crct h3 b (by have := hc.2; rwa [Nat.add_comm] at this) (Nat.le_refl _)) h
          exact ⟨s, .letin h1 h4, h5, h6⟩
      | app f a =>
        simp only [Term.crct] at hc
        simp only [trS, evalN] at h
        cases hf : evalN n (trS σ f) with
        | none => rw [hf] at h; simp at h
        | some vf =>
          rw [hf] at h
          obtain ⟨f', g1, g2, g3⟩ := ih _ _ hc.1 hf
          have gh := g1.value.1
          cases ha : evalN n (trS σ a) with
          | none => rw [ha] at h; cases vf <;> simp at h
          | some va =>
            rw [ha] at h
            obtain ⟨a', k1, k2, k3⟩ := ih _ _ hc.2 ha
            cases f' with
            | lam b =>
              simp only [trS] at g2; subst g2 k2
              simp only at h
              rw [← trS_inst hσ] at h
              simp only [Term.crct] at g3
              obtain ⟨s, h4, h5, h6⟩ := ih _ _ (Mut.inst_crct k3 b (by rwa [Nat.add_comm] at g3) (Nat.le_refl _)) h
              exact ⟨s, .appLam g1 k1 h4, h5, h6⟩
            | proof =>
              simp only [trS] at g2; subst g2 k2
              simp only [Option.some.injEq] at h; subst h
              exact ⟨.proof, .appProof g1 k1, rfl, by simp [Term.crct]⟩
            | fix ds m =>
              simp only [trS] at g2; subst g2 k2
              simp only [Term.crct, Nat.add_zero] at g3
              simp only at h
              have hx := trS_fix hσ (ds := ds) (m := m)
              split at h
              · rename_i e' he'
                rw [he'] at hx
                simp only [Option.map_some] at hx
                symm at hx
                simp only [Option.map_eq_some_iff] at hx
                obtain ⟨x, hx1, hx2⟩ := hx
                rw [← hx2] at h
                obtain ⟨s, h4, h5, h6⟩ := ih (.app x a') v (by
                  simp only [Term.crct]; exact ⟨Mut.fixStep_crct g3.2 hx1, k3⟩) h
                exact ⟨s, .appFix g1 hx1 k1 h4, h5, h6⟩
              · simp at h
            | con i r ts => simp only [trS] at g2; subst g2; simp at h
            | prim q => simp only [trS] at g2; subst g2; simp at h
            | _ => simp [Term.head] at gh
      | case i t bs =>
        simp only [Term.crct] at hc
        simp only [trS, evalN] at h
        cases ht : evalN n (trS σ t) with
        | none => rw [ht] at h; simp at h
        | some vt =>
          rw [ht] at h
          obtain ⟨t', g1, g2, g3⟩ := ih _ _ hc.1 ht
          have gh := g1.value.1
          cases t' with
          | con j r ts =>
            simp only [trS] at g2; subst g2
            simp only [Term.crct] at g3
            have hwt := trSs_wf hσ ts g3
            simp only at h
            split at h
            · simp at h
            · rename_i e' he'
              by_cases hij : i = j
              · subst hij
                have hx := trS_case hσ (i := i) (n := r) (bs := bs) hwt
                rw [he'] at hx
                simp only [Option.map_some] at hx
                symm at hx
                simp only [Option.map_eq_some_iff] at hx
                obtain ⟨x, hx1, hx2⟩ := hx
                rw [← hx2] at h
                obtain ⟨s, h4, h5, h6⟩ := ih x v (Mut.caseStep_crct g3 hc.2 hx1) h
                exact ⟨s, .case g1 hx1 h4, h5, h6⟩
              · exfalso
                have : ∀ (bs : Mut.Brs) k, findBranch (j, r) (trSs σ ts).len (trSB σ i k bs) = none := by
                  intro bs
                  induction bs using Mut.Brs.ind with
                  | h0 => intro k; rfl
                  | h1 m t bs ih =>
                    intro k
                    simp only [trSB, findBranch]
                    rw [if_neg (by simp only [Prod.mk.injEq, not_and]; intro h; exact absurd h.symm hij)]
                    exact ih _
                rw [this] at he'; simp at he'
          | lam b => simp only [trS] at g2; subst g2; simp at h
          | proof => simp only [trS] at g2; subst g2; simp at h
          | fix ds m => simp only [trS] at g2; subst g2; simp at h
          | prim q => simp only [trS] at g2; subst g2; simp at h
          | _ => simp [Term.head] at gh
    · cases ts with
      | nil => simp only [trSs, evalsN, Option.some.injEq] at h; subst h; exact ⟨.nil, .nil, rfl, hc⟩
      | cons t ts =>
        simp only [Terms.crct] at hc
        simp only [trSs, evalsN] at h
        split at h
        · rename_i v vs h1 h2
          obtain ⟨s, a1, a2, a3⟩ := ih _ _ hc.1 h1
          obtain ⟨ss, b1, b2, b3⟩ := ihs _ _ hc.2 h2
          simp only [Option.some.injEq] at h; subst h
          exact ⟨.cons s ss, .cons a1 b1, by rw [a2, b2]; rfl, by simp only [Terms.crct]; exact ⟨a3, b3⟩⟩
        · simp at h

/-! ### The nested lets -/

/-- The values of the bindings of a list of nested lets, the innermost first. -/
inductive EvalEnv : LEnv → List Exp → Prop
  | nil : EvalEnv [] []
  | cons {c e E v vs} : EvalEnv E vs → Eval (msub vs 0 e) v → EvalEnv ((c, e) :: E) (v :: vs)

/-- All bindings are closed over the earlier ones. -/
def LEnv.wf : LEnv → Prop
  | [] => True
  | (_, e) :: E => e.wf E.length ∧ LEnv.wf E

theorem EvalEnv.length {E vs} (h : EvalEnv E vs) : vs.length = E.length := by
  induction h with
  | nil => rfl
  | cons _ _ ih => simp [ih]

theorem EvalEnv.closed {E vs} (h : EvalEnv E vs) : LEnv.wf E → Closed vs := by
  induction h with
  | nil => intro _ v hv; simp at hv
  | cons hE he ih =>
    rename_i c e E v vs
    intro hw
    simp only [LEnv.wf] at hw
    have hcl := ih hw.2
    intro w hw'
    simp only [List.mem_cons] at hw'
    rcases hw' with rfl | hw'
    · exact he.wf (msub_wf hcl e (by rw [hE.length, Nat.zero_add]; exact hw.1))
    · exact hcl w hw'

theorem eval_mkLets : ∀ {E : LEnv} {t v}, LEnv.wf E →
    (Eval (mkLets E t) v ↔ ∃ vs, EvalEnv E vs ∧ Eval (msub vs 0 t) v)
  | [], t, v, _ => by
    constructor
    · intro h; exact ⟨[], .nil, by rw [msub_nil]; exact h⟩
    · rintro ⟨vs, hE, h⟩
      cases hE
      rw [msub_nil] at h; exact h
  | (c, e) :: E, t, v, hw => by
    simp only [LEnv.wf] at hw
    have hm : mkLets ((c, e) :: E) t = mkLets E (.letin e t) := rfl
    rw [hm, eval_mkLets hw.2]
    constructor
    · rintro ⟨vs, hE, h⟩
      simp only [msub] at h
      cases h with
      | letin h1 h2 =>
        rename_i v₁
        refine ⟨v₁ :: vs, .cons hE h1, ?_⟩
        rw [sbst_msub (hE.closed hw.2)] at h2; exact h2
    · rintro ⟨vs, hE, h⟩
      cases hE with
      | cons hE h1 =>
        refine ⟨_, hE, ?_⟩
        simp only [msub]
        refine .letin h1 ?_
        rw [sbst_msub (hE.closed hw.2)]; exact h

/-- The value of a constant. -/
def valOf (E : LEnv) (vs : List Exp) (c : Name) : Exp := (vs[cstOffset E c]?).getD .prf

mutual
theorem msub_trans {E : LEnv} {P vs D} (hP : ∀ c, D c → findPrim P c = none) (hD : ∀ c, D c → cstOffset E c < vs.length) :
    ∀ (t : Term) (k : Nat), t.crct D k → msub vs k (trans E P k t) = trS (valOf E vs) t
  | .rel m, k, h => by simp only [Term.crct] at h; simp only [trans, msub, trS]; rw [if_pos h]
  | .proof, _, _ => rfl
  | .lam t, k, h => by
    simp only [Term.crct] at h; simp only [trans, msub, trS]; rw [Nat.add_comm k 1, msub_trans hP hD t _ h]
  | .letin t u, k, h => by
    simp only [Term.crct] at h; simp only [trans, msub, trS]
    rw [Nat.add_comm k 1, msub_trans hP hD t _ h.1, msub_trans hP hD u _ h.2]
  | .app t u, k, h => by
    simp only [Term.crct] at h; simp only [trans, msub, trS]
    rw [msub_trans hP hD t _ h.1, msub_trans hP hD u _ h.2]
  | .const c, k, h => by
    simp only [Term.crct] at h
    simp only [trans, hP c h, msub, trS]
    rw [if_neg (by omega), Nat.add_sub_cancel]
    have := hD c h
    simp [valOf, List.getElem?_eq_getElem this]
  | .con i m ts, k, h => by simp only [Term.crct] at h; simp only [trans, msub, trS]; rw [msubs_transs hP hD ts _ h]
  | .case i t bs, k, h => by
    simp only [Term.crct] at h; simp only [trans, msub, trS]
    rw [msub_trans hP hD t _ h.1, msubB_transB hP hD i bs _ _ h.2]
  | .fix ds m, k, h => by
    simp only [Term.crct] at h; simp only [trans, msub, trS, transD_len]; rw [msubF_transD hP hD ds _ h.2]
  | .prim p, _, _ => rfl
  | .wrong, _, _ => rfl
theorem msubs_transs {E : LEnv} {P vs D} (hP : ∀ c, D c → findPrim P c = none) (hD : ∀ c, D c → cstOffset E c < vs.length) :
    ∀ (t : Terms) (k : Nat), t.crct D k → msubs vs k (transs E P k t) = trSs (valOf E vs) t
  | .nil, _, _ => rfl
  | .cons t ts, k, h => by
    simp only [Terms.crct] at h; simp only [transs, msubs, trSs]
    rw [msub_trans hP hD t _ h.1, msubs_transs hP hD ts _ h.2]
theorem msubB_transB {E : LEnv} {P vs D} (hP : ∀ c, D c → findPrim P c = none) (hD : ∀ c, D c → cstOffset E c < vs.length)
    (i : Nat) : ∀ (t : Mut.Brs) (k n : Nat), t.crct D k → msubB vs k (transB E P i k n t) = trSB (valOf E vs) i n t
  | .nil, _, _, _ => rfl
  | .cons m t ts, k, n, h => by
    simp only [Mut.Brs.crct] at h; simp only [transB, msubB, trSB]
    rw [Nat.add_comm k m, msub_trans hP hD t _ h.1, msubB_transB hP hD i ts _ _ h.2]
theorem msubF_transD {E : LEnv} {P vs D} (hP : ∀ c, D c → findPrim P c = none) (hD : ∀ c, D c → cstOffset E c < vs.length) :
    ∀ (t : Mut.Defs) (k : Nat), t.crct D k → msubF vs k (transD E P k t) = trSD (valOf E vs) t
  | .nil, _, _ => rfl
  | .cons t ts, k, h => by
    simp only [Mut.Defs.crct] at h; simp only [transD, msubF, trSD]
    rw [msub_trans hP hD t _ h.1, msubF_transD hP hD ts _ h.2.2]
end

mutual
theorem trans_wf {E : LEnv} {P D} (hP : ∀ c, D c → findPrim P c = none) (hD : ∀ c, D c → cstOffset E c < E.length) :
    ∀ (t : Term) (k : Nat), t.crct D k → (trans E P k t).wf (E.length + k)
  | .rel m, k, h => by simp only [Term.crct] at h; simp only [trans, Exp.wf]; omega
  | .proof, _, _ => by simp [trans, Exp.wf]
  | .lam t, k, h => by
    simp only [Term.crct] at h; simp only [trans, Exp.wf]; rw [Nat.add_left_comm]; exact trans_wf hP hD t _ h
  | .letin t u, k, h => by
    simp only [Term.crct] at h; simp only [trans, Exp.wf]
    rw [Nat.add_left_comm]
    exact ⟨trans_wf hP hD t _ h.1, trans_wf hP hD u _ h.2⟩
  | .app t u, k, h => by
    simp only [Term.crct] at h; simp only [trans, Exp.wf]
    exact ⟨trans_wf hP hD t _ h.1, trans_wf hP hD u _ h.2⟩
  | .const c, k, h => by
    simp only [Term.crct] at h
    simp only [trans, hP c h, Exp.wf]
    have := hD c h
    omega
  | .con i m ts, k, h => by simp only [Term.crct] at h; simp only [trans, Exp.wf]; exact transs_wf hP hD ts _ h
  | .case i t bs, k, h => by
    simp only [Term.crct] at h; simp only [trans, Exp.wf]
    exact ⟨trans_wf hP hD t _ h.1, transB_wf hP hD i bs _ _ h.2⟩
  | .fix ds m, k, h => by
    simp only [Term.crct] at h; simp only [trans, Exp.wf, transD_len]
    refine ⟨h.1, ?_⟩
    rw [Nat.add_left_comm]; exact transD_wf hP hD ds _ h.2
  | .prim p, _, _ => by simp [trans, Exp.wf]
  | .wrong, _, h => by simp [Term.crct] at h
theorem transs_wf {E : LEnv} {P D} (hP : ∀ c, D c → findPrim P c = none) (hD : ∀ c, D c → cstOffset E c < E.length) :
    ∀ (t : Terms) (k : Nat), t.crct D k → (transs E P k t).wf (E.length + k)
  | .nil, _, _ => by simp [transs, Exps.wf]
  | .cons t ts, k, h => by
    simp only [Terms.crct] at h; simp only [transs, Exps.wf]
    exact ⟨trans_wf hP hD t _ h.1, transs_wf hP hD ts _ h.2⟩
theorem transB_wf {E : LEnv} {P D} (hP : ∀ c, D c → findPrim P c = none) (hD : ∀ c, D c → cstOffset E c < E.length)
    (i : Nat) : ∀ (t : Mut.Brs) (k n : Nat), t.crct D k → (transB E P i k n t).wf (E.length + k)
  | .nil, _, _, _ => by simp [transB, Brs.wf]
  | .cons m t ts, k, n, h => by
    simp only [Mut.Brs.crct] at h; simp only [transB, Brs.wf]
    refine ⟨?_, transB_wf hP hD i ts _ _ h.2⟩
    rw [Nat.add_left_comm, Nat.add_comm k m]; exact trans_wf hP hD t _ h.1
theorem transD_wf {E : LEnv} {P D} (hP : ∀ c, D c → findPrim P c = none) (hD : ∀ c, D c → cstOffset E c < E.length) :
    ∀ (t : Mut.Defs) (k : Nat), t.crct D k → (transD E P k t).wf (E.length + k)
  | .nil, _, _ => by simp [transD, Fns.wf]
  | .cons t ts, k, h => by
    simp only [Mut.Defs.crct] at h; simp only [transD, Fns.wf]
    refine ⟨trans_wf hP hD t _ h.1, ?_, transD_wf hP hD ts _ h.2.2⟩
    obtain ⟨b, hb⟩ := h.2.1
    subst hb; exact ⟨_, rfl⟩
end

theorem translateEnv_trm (P c t p) : translateEnv P ((c, .trm t) :: p) =
    (c, trans (translateEnv P p) P 0 t) :: translateEnv P p := rfl

theorem translateEnv_typ (P c p) : translateEnv P ((c, .typ) :: p) = translateEnv P p := rfl

theorem defined_offset {P} : ∀ {p : Environ}, CrctEnv p → ∀ c, Defined p c →
    cstOffset (translateEnv P p) c < (translateEnv P p).length
  | [], _, c, h => by obtain ⟨t, ht⟩ := h; simp [lookupDfn, lookup] at ht
  | (d, .trm u) :: p, hp, c, h => by
    simp only [CrctEnv] at hp
    rw [translateEnv_trm]
    simp only [cstOffset, List.length_cons]
    split
    · omega
    · rename_i hne
      obtain ⟨t, ht⟩ := h
      have : Defined p c := ⟨t, by simpa [lookupDfn, lookup, hne] using ht⟩
      have := defined_offset (P := P) hp.1 c this
      omega
  | (d, .typ) :: p, hp, c, h => by
    simp only [CrctEnv] at hp
    rw [translateEnv_typ]
    obtain ⟨t, ht⟩ := h
    have hne : c ≠ d := by rintro rfl; simp [lookupDfn, lookup] at ht
    exact defined_offset hp.1 c ⟨t, by simpa [lookupDfn, lookup, hne] using ht⟩

theorem translateEnv_wf {P} : ∀ {p : Environ}, CrctEnv p → (∀ c, Defined p c → findPrim P c = none) →
    LEnv.wf (translateEnv P p)
  | [], _, _ => trivial
  | (d, .trm u) :: p, hp, hP => by
    simp only [CrctEnv] at hp
    rw [translateEnv_trm]
    have hP' : ∀ c, Defined p c → findPrim P c = none := by
      rintro c ⟨t, ht⟩
      refine hP c ⟨t, ?_⟩
      have hne : c ≠ d := by rintro rfl; simp [lookupDfn, hp.2.1] at ht
      simpa [lookupDfn, lookup, hne] using ht
    refine ⟨?_, translateEnv_wf hp.1 hP'⟩
    have := trans_wf hP' (defined_offset (P := P) hp.1) u 0 hp.2.2
    simpa using this
  | (d, .typ) :: p, hp, hP => by
    simp only [CrctEnv] at hp
    rw [translateEnv_typ]
    refine translateEnv_wf hp.1 ?_
    rintro c ⟨t, ht⟩
    refine hP c ⟨t, ?_⟩
    have hne : c ≠ d := by rintro rfl; simp [lookupDfn, hp.2] at ht
    simpa [lookupDfn, lookup, hne] using ht

end Src
