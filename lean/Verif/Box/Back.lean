import Verif.Box.Sim
import Verif.Src.MutEval

/-!
# What a converted program computes, the source computes

`compile` represents a delayed computation as a function and `tForce` as its application, so the target can go on where
the source is stuck: a delayed computation applied to an argument, a function forced.  `Confuses` describes the source
programs whose evaluation reaches such a point.
-/

namespace Box

open Mut (Name inst Wcbv Wcbvs wcbvN wcbvsN)

variable {I : Inds} {E : Ctx}

mutual
/-- Call-by-value evaluation of the term reaches a delayed computation in function position, forces a value that is not
a delayed computation, or matches on a value of a propositional type. -/
inductive Confuses (I : Inds) (E : Ctx) : Term → Prop
  | appLazy {f u a a'} : Eval I E f (.lazy u) → Eval I E a a' → Confuses I E (.app f a)
  | forceOther {t w} : Eval I E t w → (∀ u, w ≠ .lazy u) → Confuses I E (.force t)
  | matchProp {i p t n ts bs pars k} : Eval I E t (.con i n ts) → lookupCtor I i n = some (true, pars, k) →
      Confuses I E (.case i p t bs)
  | appFun {f a} : Confuses I E f → Confuses I E (.app f a)
  | appArg {f f' a} : Eval I E f f' → Confuses I E a → Confuses I E (.app f a)
  | beta {f b a a'} : Eval I E f (.lam b) → Eval I E a a' → Confuses I E (csubst a' 0 b) → Confuses I E (.app f a)
  | fix {f ds n x a a'} : Eval I E f (.fix ds n) → unfoldFix ds n = some x → Eval I E a a' →
      Confuses I E (.app x a') → Confuses I E (.app f a)
  | letDef {d b} : Confuses I E d → Confuses I E (.letin d b)
  | zeta {d d' b} : Eval I E d d' → Confuses I E (csubst d' 0 b) → Confuses I E (.letin d b)
  | scrut {i p t bs} : Confuses I E t → Confuses I E (.case i p t bs)
  | iota {i p t n ts bs pars k m b} : Eval I E t (.con i n ts) → lookupCtor I i n = some (false, pars, k) →
      bs.nth n = some (m, b) → (ts.list.drop pars).length = m → Confuses I E (iota pars ts b) → Confuses I E (.case i p t bs)
  | delta {c t} : lookup c E = some (.constant (some t)) → Confuses I E t → Confuses I E (.const c)
  | con {i n ts} : ConfusesL I E ts → Confuses I E (.con i n ts)
  | forced {t} : Confuses I E t → Confuses I E (.force t)
  | force {t u} : Eval I E t (.lazy u) → Confuses I E u → Confuses I E (.force t)
/-- The same for one of the arguments of a constructor. -/
inductive ConfusesL (I : Inds) (E : Ctx) : Terms → Prop
  | head {t ts} : Confuses I E t → ConfusesL I E (.cons t ts)
  | tail {t ts} : ConfusesL I E ts → ConfusesL I E (.cons t ts)
end

theorem compile_proof_inv {t : Term} (h : compile t = .proof) : t = .box := by cases t <;> simp_all [compile]

theorem compile_lam_inv {t : Term} {b} (h : compile t = .lam b) :
    (∃ b', t = .lam b' ∧ b = compile b') ∨ ∃ u, t = .lazy u ∧ b = lift 0 (compile u) := by
  cases t <;> simp_all [compile]

theorem compile_con_inv {t : Term} {i n ts} (h : compile t = .con i n ts) : ∃ ts', t = .con i n ts' ∧ ts = compiles ts' := by
  cases t <;> simp_all [compile]

theorem compile_fix_inv {t : Term} {ds n} (h : compile t = .fix ds n) : ∃ ds', t = .fix ds' n ∧ ds = compileD ds' := by
  cases t <;> simp_all [compile]

theorem compile_back (hI : NoPars I) (hE : WfCtx I E) : ∀ n,
    (∀ t s, t.wf I E 0 → wcbvN (compileCtx E) n (compile t) = some s →
      (∃ v, Eval I E t v ∧ s = compile v) ∨ Confuses I E t) ∧
    (∀ ts ss, ts.wf I E 0 → wcbvsN (compileCtx E) n (compiles ts) = some ss →
      (∃ vs, Evals I E ts vs ∧ ss = compiles vs) ∨ ConfusesL I E ts) := by
  intro n
  induction n with
  | zero => exact ⟨fun t s _ h => by simp [wcbvN] at h, fun t s _ h => by simp [wcbvsN] at h⟩
  | succ n ih =>
    obtain ⟨ih, ihs⟩ := ih
    refine ⟨fun t s hw h => ?_, fun ts ss hw h => ?_⟩
    · cases t with
      | box => simp only [compile, wcbvN, Option.some.injEq] at h; exact .inl ⟨.box, .box, by rw [← h]; rfl⟩
      | rel i => simp [compile, wcbvN] at h
      | var => simp [Term.wf] at hw
      | evar => simp [Term.wf] at hw
      | lam b => simp only [compile, wcbvN, Option.some.injEq] at h; exact .inl ⟨.lam b, .lam _, by rw [← h]; rfl⟩
      | fix ds m => simp only [compile, wcbvN, Option.some.injEq] at h; exact .inl ⟨.fix ds m, .fixAtom _ _, by rw [← h]; rfl⟩
      | prim p => simp only [compile, wcbvN, Option.some.injEq] at h; exact .inl ⟨.prim p, .prim _, by rw [← h]; rfl⟩
      | lazy b => simp only [compile, wcbvN, Option.some.injEq] at h; exact .inl ⟨.lazy b, .lazy _, by rw [← h]; rfl⟩
      | proj t => simp [Term.wf] at hw
      | cofix ds n => simp [Term.wf] at hw
      | array ts => simp [Term.wf] at hw
      | const c =>
        simp only [Term.wf] at hw
        obtain ⟨t, ht⟩ := hw
        simp only [compile, wcbvN, lookup_compile, ht, Option.map_some, compileDecl] at h
        rcases ih t s (hE.body ht) h with ⟨v, hv, e⟩ | hc
        · exact .inl ⟨v, .delta ht hv, e⟩
        · exact .inr (.delta ht hc)
      | letin d b =>
        simp only [Term.wf] at hw
        simp only [compile, wcbvN] at h
        split at h
        · rename_i s' hs'
          rcases ih d s' hw.1 hs' with ⟨v, hv, rfl⟩ | hc
          · have wv := (hv.sim hI hE hw.1).1
            rw [← compile_csubst (compile_crct _ wv)] at h
            rcases ih _ s (csubst_wf wv b hw.2 (Nat.zero_le _)) h with ⟨w, hw', e⟩ | hc
            · exact .inl ⟨w, .zeta hv hw', e⟩
            · exact .inr (.zeta hv hc)
          · exact .inr (.letDef hc)
        · simp at h
      | con i m ts =>
        simp only [Term.wf] at hw
        simp only [compile, wcbvN] at h
        split at h
        · rename_i ss hss
          rcases ihs ts ss hw.2 hss with ⟨vs, hv, rfl⟩ | hc
          · simp only [Option.some.injEq] at h
            obtain ⟨p, pars, a, hc, hl⟩ := hw.1
            exact .inl ⟨.con i m vs, .con hc hl.symm hv, by rw [← h]; rfl⟩
          · exact .inr (.con hc)
        · simp at h
      | case i p t bs =>
        simp only [Term.wf] at hw
        simp only [compile, wcbvN] at h
        split at h
        · simp at h
        · rename_i j r ts ht
          split at h
          · simp at h
          · rename_i c hc
            split at h
            · rename_i hij
              subst hij
              rcases ih t _ hw.2.1 ht with ⟨v, hv, e⟩ | hc'
              · obtain ⟨ts', rfl, rfl⟩ := compile_con_inv e.symm
                have wv := (hv.sim hI hE hw.2.1).1
                simp only [Term.wf] at wv
                obtain ⟨⟨pr, pars, a, hct, hl⟩, wts⟩ := wv
                obtain rfl := lookupCtor_pars hI hct
                cases pr with
                | true => exact .inr (.matchProp hv hct)
                | false =>
                  simp only [Mut.caseStep, compileB_nth, compiles_len] at hc
                  cases hb : bs.nth r with
                  | none => simp [hb] at hc
                  | some x =>
                    obtain ⟨m, b⟩ := x
                    simp only [hb, Option.map_some] at hc
                    split at hc
                    · rename_i hm
                      simp only [Option.some.injEq] at hc
                      have hm' : (ts'.list.drop 0).length = m := by simp [hm]
                      have hbw : b.wf I E m := by simpa using Brs.nth_wf hw.2.2 hb
                      rw [← hc, ← compile_substl_rev ts' b (compiles_crct _ wts)] at h
                      have hi : Box.iota 0 ts' b = substl ts'.list.reverse b := rfl
                      rw [← hi] at h
                      rcases ih _ s (iota_wf wts hbw hm') h with ⟨w, hw', e⟩ | hc
                      · exact .inl ⟨w, .iota hv hct hb hl.symm hm' hw', e⟩
                      · exact .inr (.iota hv hct hb hm' hc)
                    · simp at hc
              · exact .inr (.scrut hc')
            · simp at h
        · simp at h
      | app f a =>
        simp only [Term.wf] at hw
        simp only [compile, wcbvN] at h
        cases hf : wcbvN (compileCtx E) n (compile f) with
        | none => simp [hf] at h
        | some g =>
          rcases ih f g hw.1 hf with ⟨fv, hfv, e⟩ | hc
          · have wf' := (hfv.sim hI hE hw.1).1
            simp only [hf] at h
            have hhead := (Mut.Wcbv.value (Mut.Wcbv.iffN.2 ⟨n, hf⟩)).1
            cases g with
            | proof =>
              simp only at h
              obtain rfl := compile_proof_inv e.symm
              split at h
              · simp at h
              · rename_i a' ha'
                rcases ih a a' hw.2 ha' with ⟨av, hav, rfl⟩ | hc
                · simp only [Option.some.injEq] at h; exact .inl ⟨.box, .appBox hfv hav, by rw [← h]; rfl⟩
                · exact .inr (.appArg hfv hc)
            | lam b =>
              simp only at h
              split at h
              · simp at h
              · rename_i a' ha'
                rcases ih a a' hw.2 ha' with ⟨av, hav, rfl⟩ | hc
                · have wa := (hav.sim hI hE hw.2).1
                  rcases compile_lam_inv e.symm with ⟨b', rfl, rfl⟩ | ⟨u, rfl, rfl⟩
                  · rw [← compile_csubst (compile_crct _ wa)] at h
                    simp only [Term.wf] at wf'
                    rcases ih _ s (csubst_wf wa b' wf' (Nat.zero_le _)) h with ⟨w, hw', e⟩ | hc
                    · exact .inl ⟨w, .beta hfv hav hw', e⟩
                    · exact .inr (.beta hfv hav hc)
                  · exact .inr (.appLazy hfv hav)
                · exact .inr (.appArg hfv hc)
            | fix ds m =>
              simp only at h
              obtain ⟨ds', rfl, rfl⟩ := compile_fix_inv e.symm
              simp only [Term.wf, Nat.add_zero] at wf'
              rw [compile_fixStep (compileD_crct _ wf'.2)] at h
              split at h
              · simp at h
              · rename_i x hx
                rw [Option.map_eq_some_iff] at hx
                obtain ⟨x', hx', rfl⟩ := hx
                split at h
                · simp at h
                · rename_i a' ha'
                  rcases ih a a' hw.2 ha' with ⟨av, hav, rfl⟩ | hc
                  · have wa := (hav.sim hI hE hw.2).1
                    have hap : Mut.Term.app (compile x') (compile av) = compile (.app x' av) := rfl
                    rw [hap] at h
                    rcases ih (.app x' av) s (by simp only [Term.wf]; exact ⟨unfoldFix_wf wf'.2 hx', wa⟩) h with ⟨w, hw', e⟩ | hc
                    · exact .inl ⟨w, .fix hfv hx' hav hw', e⟩
                    · exact .inr (.fix hfv hx' hav hc)
                  · exact .inr (.appArg hfv hc)
            | con => simp at h
            | prim => simp at h
            | rel => simp [Mut.Term.head] at hhead
            | letin => simp [Mut.Term.head] at hhead
            | app => simp [Mut.Term.head] at hhead
            | const => simp [Mut.Term.head] at hhead
            | case => simp [Mut.Term.head] at hhead
            | wrong => simp [Mut.Term.head] at hhead
          · exact .inr (.appFun hc)
      | force t =>
        simp only [Term.wf] at hw
        simp only [compile, wcbvN] at h
        cases hf : wcbvN (compileCtx E) n (compile t) with
        | none => simp [hf] at h
        | some g =>
          rcases ih t g hw hf with ⟨tv, htv, e⟩ | hc
          · have wt := (htv.sim hI hE hw).1
            simp only [hf] at h
            by_cases hlz : ∃ u, tv = .lazy u
            · obtain ⟨u, rfl⟩ := hlz
              subst e
              simp only [compile] at h
              split at h
              · simp at h
              · rename_i a' ha'
                rw [inst_lift_same] at h
                rcases ih u s wt h with ⟨w, hw', e⟩ | hc
                · exact .inl ⟨w, .force htv hw', e⟩
                · exact .inr (.force htv hc)
            · exact .inr (.forceOther htv fun u hu => hlz ⟨u, hu⟩)
          · exact .inr (.forced hc)
    · cases ts with
      | nil => simp only [compiles, wcbvsN, Option.some.injEq] at h; exact .inl ⟨.nil, .nil, by rw [← h]; rfl⟩
      | cons t ts =>
        simp only [Terms.wf] at hw
        simp only [compiles, wcbvsN] at h
        split at h
        · rename_i v vs hv hvs
          rcases ih t v hw.1 hv with ⟨w, hw1, rfl⟩ | hc
          · rcases ihs ts vs hw.2 hvs with ⟨ws, hw2, rfl⟩ | hc
            · simp only [Option.some.injEq] at h; exact .inl ⟨.cons w ws, .cons hw1 hw2, by rw [← h]; rfl⟩
            · exact .inr (.tail hc)
          · exact .inr (.head hc)
        · simp at h

/-! ## Programs that cannot confuse -/

mutual
/-- The term neither delays nor forces. -/
def Term.strict : Term → Prop
  | .lam t => t.strict
  | .letin t u => t.strict ∧ u.strict
  | .app t u => t.strict ∧ u.strict
  | .con _ _ ts => ts.strict
  | .case _ _ t bs => t.strict ∧ bs.strict
  | .proj t => t.strict
  | .fix ds _ => ds.strict
  | .cofix ds _ => ds.strict
  | .array ts => ts.strict
  | .lazy _ => False
  | .force _ => False
  | _ => True
/-- The same for argument lists. -/
def Terms.strict : Terms → Prop
  | .nil => True
  | .cons t ts => t.strict ∧ ts.strict
/-- The same for branches. -/
def Brs.strict : Brs → Prop
  | .nil => True
  | .cons _ t bs => t.strict ∧ bs.strict
/-- The same for definitions. -/
def Defs.strict : Defs → Prop
  | .nil => True
  | .cons t ds => t.strict ∧ ds.strict
end

/-- No constant delays or forces. -/
def StrictCtx (E : Ctx) : Prop := ∀ c t, lookup c E = some (.constant (some t)) → t.strict

/-- No inductive type is a proposition (matches on proofs are removed before). -/
def NoProps (I : Inds) : Prop := ∀ i d, I i = some d → d.prop = false

mutual
theorem csubst_strict {a : Term} (ha : a.strict) : ∀ (t : Term) (k : Nat), t.strict → (csubst a k t).strict
  | .rel n, k, _ => by simp only [csubst]; split; exact ha; split <;> simp [Term.strict]
  | .box, _, _ => by simp [csubst, Term.strict]
  | .var, _, _ => by simp [csubst, Term.strict]
  | .evar, _, _ => by simp [csubst, Term.strict]
  | .lam t, k, h => by simp only [csubst, Term.strict] at h ⊢; exact csubst_strict ha t _ h
  | .letin t u, k, h => by
    simp only [csubst, Term.strict] at h ⊢; exact ⟨csubst_strict ha t _ h.1, csubst_strict ha u _ h.2⟩
  | .app t u, k, h => by
    simp only [csubst, Term.strict] at h ⊢; exact ⟨csubst_strict ha t _ h.1, csubst_strict ha u _ h.2⟩
  | .const c, _, _ => by simp [csubst, Term.strict]
  | .con i n ts, k, h => by simp only [csubst, Term.strict] at h ⊢; exact csubsts_strict ha ts _ h
  | .case i p t bs, k, h => by
    simp only [csubst, Term.strict] at h ⊢; exact ⟨csubst_strict ha t _ h.1, csubstB_strict ha bs _ h.2⟩
  | .proj t, k, h => by simp only [csubst, Term.strict] at h ⊢; exact csubst_strict ha t _ h
  | .fix ds n, k, h => by simp only [csubst, Term.strict] at h ⊢; exact csubstD_strict ha ds _ h
  | .cofix ds n, k, h => by simp only [csubst, Term.strict] at h ⊢; exact csubstD_strict ha ds _ h
  | .prim p, _, _ => by simp [csubst, Term.strict]
  | .array ts, k, h => by simp only [csubst, Term.strict] at h ⊢; exact csubsts_strict ha ts _ h
  | .lazy t, k, h => by simp [Term.strict] at h
  | .force t, k, h => by simp [Term.strict] at h
theorem csubsts_strict {a : Term} (ha : a.strict) : ∀ (t : Terms) (k : Nat), t.strict → (csubsts a k t).strict
  | .nil, _, _ => by simp [csubsts, Terms.strict]
  | .cons t ts, k, h => by
    simp only [csubsts, Terms.strict] at h ⊢; exact ⟨csubst_strict ha t _ h.1, csubsts_strict ha ts _ h.2⟩
theorem csubstB_strict {a : Term} (ha : a.strict) : ∀ (t : Brs) (k : Nat), t.strict → (csubstB a k t).strict
  | .nil, _, _ => by simp [csubstB, Brs.strict]
  | .cons m t ts, k, h => by
    simp only [csubstB, Brs.strict] at h ⊢; exact ⟨csubst_strict ha t _ h.1, csubstB_strict ha ts _ h.2⟩
theorem csubstD_strict {a : Term} (ha : a.strict) : ∀ (t : Defs) (k : Nat), t.strict → (csubstD a k t).strict
  | .nil, _, _ => by simp [csubstD, Defs.strict]
  | .cons t ts, k, h => by
    simp only [csubstD, Defs.strict] at h ⊢; exact ⟨csubst_strict ha t _ h.1, csubstD_strict ha ts _ h.2⟩
end

theorem substl_strict : ∀ (l : List Term) (b : Term), (∀ t ∈ l, t.strict) → b.strict → (substl l b).strict
  | [], b, _, h => h
  | t :: l, b, hl, h => substl_strict l _ (fun t ht => hl t (List.mem_cons_of_mem _ ht))
      (csubst_strict (hl t (List.mem_cons_self ..)) b _ h)

theorem Terms.strict_list {ts : Terms} (h : ts.strict) : ∀ t ∈ ts.list, t.strict := by
  induction ts using Terms.ind with
  | h0 => intro t ht; simp [Terms.list] at ht
  | h1 e es ih =>
    simp only [Terms.strict] at h
    intro t ht
    rcases List.mem_cons.1 ht with rfl | ht
    · exact h.1
    · exact ih h.2 t ht

theorem Brs.nth_strict : ∀ {bs : Brs} {n m : Nat} {t}, bs.strict → bs.nth n = some (m, t) → t.strict := by
  intro bs
  induction bs using Brs.ind with
  | h0 => intro n m t _ h; cases n <;> simp [Brs.nth] at h
  | h1 m' t' bs ih =>
    intro n m t hc h
    simp only [Brs.strict] at hc
    cases n with
    | zero => simp only [Brs.nth, Option.some.injEq, Prod.mk.injEq] at h; obtain ⟨rfl, rfl⟩ := h; exact hc.1
    | succ n => exact ih hc.2 h

theorem Defs.nth_strict : ∀ {ds : Defs} {n : Nat} {t}, ds.strict → ds.nth n = some t → t.strict := by
  intro bs
  induction bs using Defs.ind with
  | h0 => intro n t _ h; cases n <;> simp [Defs.nth] at h
  | h1 t' bs ih =>
    intro n t hc h
    simp only [Defs.strict] at hc
    cases n with
    | zero => simp only [Defs.nth, Option.some.injEq] at h; subst h; exact hc.1
    | succ n => exact ih hc.2 h

theorem unfoldFix_strict {ds : Defs} {n x} (hd : ds.strict) (h : unfoldFix ds n = some x) : x.strict := by
  simp only [unfoldFix, Option.map_eq_some_iff] at h
  obtain ⟨b, hb, rfl⟩ := h
  refine substl_strict _ _ (fun t ht => ?_) (Defs.nth_strict hd hb)
  obtain ⟨m, hm, rfl⟩ := mem_fixSubst ht
  simpa only [Term.strict] using hd

theorem iota_strict {pars ts b} (hts : Terms.strict ts) (hb : b.strict) : (iota pars ts b).strict :=
  substl_strict _ _ (fun t ht => Terms.strict_list hts t (List.mem_of_mem_drop (List.mem_reverse.1 ht))) hb

theorem Eval.strict (hE : StrictCtx E) {t v} (h : Eval I E t v) : t.strict → v.strict := by
  refine Eval.rec (motive_1 := fun t v _ => t.strict → v.strict)
    (motive_2 := fun t v _ => t.strict → v.strict)
    ?_ ?_ ?_ ?_ ?_ ?_ ?_ ?_ ?_ ?_ ?_ ?_ ?_ ?_ ?_ ?_ h
  · intro f a a' _ _ h1 h2 hw; simp [Term.strict]
  · intro f b a a' v _ _ _ h1 h2 h3 hw
    simp only [Term.strict] at hw h1
    exact h3 (csubst_strict (h2 hw.2) _ _ (h1 hw.1))
  · intro d d' b v _ _ h1 h2 hw
    simp only [Term.strict] at hw
    exact h2 (csubst_strict (h1 hw.1) _ _ hw.2)
  · intro i p t n ts bs pars k m b v _ hc hb hl hm _ h1 h2 hw
    simp only [Term.strict] at hw h1
    exact h2 (iota_strict (h1 hw.1) (Brs.nth_strict hw.2 hb))
  · intro f ds n x a a' v _ hx _ _ h1 h2 h3 hw
    simp only [Term.strict] at hw h1 h3
    exact h3 ⟨unfoldFix_strict (h1 hw.1) hx, h2 hw.2⟩
  · intro c t v hl _ h1 _; exact h1 (hE c t hl)
  · intro i n ts ts' p pars k hc hl _ h1 hw; simp only [Term.strict] at hw ⊢; exact h1 hw
  · intro f f' a a' _ hh _ h1 h2 hw; simp only [Term.strict] at hw ⊢; exact ⟨h1 hw.1, h2 hw.2⟩
  · intro p _; simp [Term.strict]
  · intro t u v _ _ h1 h2 hw; simp [Term.strict] at hw
  · intro _; simp [Term.strict]
  · intro t hw; exact hw
  · intro ds n hw; exact hw
  · intro t hw; exact hw
  · intro h; exact h
  · intro t t' ts ts' _ _ h1 h2 hw; simp only [Terms.strict] at hw ⊢; exact ⟨h1 hw.1, h2 hw.2⟩

/-- A program with no delayed computation and no propositional type never confuses. -/
theorem Confuses.not_strict (hE : StrictCtx E) (hI : NoProps I) {t} (h : Confuses I E t) : ¬ t.strict := by
  refine Confuses.rec (motive_1 := fun t _ => ¬ t.strict) (motive_2 := fun t _ => ¬ t.strict)
    ?_ ?_ ?_ ?_ ?_ ?_ ?_ ?_ ?_ ?_ ?_ ?_ ?_ ?_ ?_ ?_ ?_ h
  · intro f u a a' hf _ hs; simp only [Term.strict] at hs; simpa [Term.strict] using hf.strict hE hs.1
  · intro t w _ _ hs; simp [Term.strict] at hs
  · intro i p t n ts bs pars k _ hc hs
    unfold lookupCtor at hc
    split at hc
    · rename_i d hd
      simp only [Option.map_eq_some_iff, Prod.mk.injEq, hI _ _ hd] at hc
      obtain ⟨_, _, h, _⟩ := hc; cases h
    · simp at hc
  · intro f a _ ih hs; simp only [Term.strict] at hs; exact ih hs.1
  · intro f f' a _ _ ih hs; simp only [Term.strict] at hs; exact ih hs.2
  · intro f b a a' h1 h2 _ ih hs
    simp only [Term.strict] at hs
    have := h1.strict hE hs.1
    simp only [Term.strict] at this
    exact ih (csubst_strict (h2.strict hE hs.2) _ _ this)
  · intro f ds n x a a' h1 hx h2 _ ih hs
    simp only [Term.strict] at hs ih
    have := h1.strict hE hs.1
    simp only [Term.strict] at this
    exact ih ⟨unfoldFix_strict this hx, h2.strict hE hs.2⟩
  · intro d b _ ih hs; simp only [Term.strict] at hs; exact ih hs.1
  · intro d d' b h1 _ ih hs; simp only [Term.strict] at hs; exact ih (csubst_strict (h1.strict hE hs.1) _ _ hs.2)
  · intro i p t bs _ ih hs; simp only [Term.strict] at hs; exact ih hs.1
  · intro i p t n ts bs pars k m b h1 _ hb _ _ ih hs
    simp only [Term.strict] at hs
    have := h1.strict hE hs.1
    simp only [Term.strict] at this
    exact ih (iota_strict this (Brs.nth_strict hs.2 hb))
  · intro c t hl _ ih _; exact ih (hE c t hl)
  · intro i n ts _ ih hs; simp only [Term.strict] at hs; exact ih hs
  · intro t _ ih hs; simp [Term.strict] at hs
  · intro t u _ _ ih hs; simp [Term.strict] at hs
  · intro t ts _ ih hs; simp only [Terms.strict] at hs; exact ih hs.1
  · intro t ts _ ih hs; simp only [Terms.strict] at hs; exact ih hs.2

/-! ## Evaluation is a function, and a confused program has no value -/

theorem Eval.det {t v} (h : Eval I E t v) : ∀ {w}, Eval I E t w → v = w := by
  refine Eval.rec (motive_1 := fun t v _ => ∀ {w}, Eval I E t w → v = w)
    (motive_2 := fun t v _ => ∀ {w}, Evals I E t w → v = w)
    ?_ ?_ ?_ ?_ ?_ ?_ ?_ ?_ ?_ ?_ ?_ ?_ ?_ ?_ ?_ ?_ h
  · intro f a a' _ _ h1 h2 w hw
    cases hw with
    | appBox => rfl
    | beta k1 => cases h1 k1
    | fix k1 => cases h1 k1
    | appCong k1 hh => cases h1 k1; simp [Term.headed] at hh
  · intro f b a a' v _ _ _ h1 h2 h3 w hw
    cases hw with
    | appBox k1 => cases h1 k1
    | beta k1 k2 k3 => cases h1 k1; cases h2 k2; exact h3 k3
    | fix k1 => cases h1 k1
    | appCong k1 hh => cases h1 k1; simp [Term.headed] at hh
  · intro d d' b v _ _ h1 h2 w hw
    cases hw with
    | zeta k1 k2 => cases h1 k1; exact h2 k2
  · intro i p t n ts bs pars k m b v _ hc hb hl hm _ h1 h2 w hw
    cases hw with
    | iota k1 hc' hb' hl' hm' k2 =>
      cases h1 k1
      rw [hc] at hc'; rw [hb] at hb'
      cases hc'; cases hb'
      exact h2 k2
  · intro f ds n x a a' v _ hx _ _ h1 h2 h3 w hw
    cases hw with
    | appBox k1 => cases h1 k1
    | beta k1 => cases h1 k1
    | fix k1 hx' k2 k3 => cases h1 k1; rw [hx] at hx'; cases hx'; cases h2 k2; exact h3 k3
    | appCong k1 hh => cases h1 k1; simp [Term.headed] at hh
  · intro c t v hl _ h1 w hw
    cases hw with
    | delta hl' k1 => rw [hl] at hl'; cases hl'; exact h1 k1
  · intro i n ts ts' p pars k hc hl _ h1 w hw
    cases hw with
    | con _ _ k1 => rw [h1 k1]
  · intro f f' a a' _ hh _ h1 h2 w hw
    cases hw with
    | appBox k1 => cases h1 k1; simp [Term.headed] at hh
    | beta k1 => cases h1 k1; simp [Term.headed] at hh
    | fix k1 => cases h1 k1; simp [Term.headed] at hh
    | appCong k1 _ k2 => rw [h1 k1, h2 k2]
  · intro p w hw; cases hw; rfl
  · intro t u v _ _ h1 h2 w hw
    cases hw with
    | force k1 k2 => cases h1 k1; exact h2 k2
  · intro w hw; cases hw; rfl
  · intro t w hw; cases hw; rfl
  · intro ds n w hw; cases hw; rfl
  · intro t w hw; cases hw; rfl
  · intro w hw; cases hw; rfl
  · intro t t' ts ts' _ _ h1 h2 w hw
    cases hw with
    | cons k1 k2 => rw [h1 k1, h2 k2]

theorem Confuses.stuck {t} (h : Confuses I E t) : ∀ v, ¬ Eval I E t v := by
  refine Confuses.rec (motive_1 := fun t _ => ∀ v, ¬ Eval I E t v) (motive_2 := fun t _ => ∀ v, ¬ Evals I E t v)
    ?_ ?_ ?_ ?_ ?_ ?_ ?_ ?_ ?_ ?_ ?_ ?_ ?_ ?_ ?_ ?_ ?_ h
  · intro f u a a' hf _ v hv
    cases hv with
    | appBox k1 => cases hf.det k1
    | beta k1 => cases hf.det k1
    | fix k1 => cases hf.det k1
    | appCong k1 hh => cases hf.det k1; simp [Term.headed, Term.headed.applied] at hh
  · intro t w ht hn v hv
    cases hv with
    | force k1 => exact hn _ (ht.det k1)
  · intro i p t n ts bs pars k ht hc v hv
    cases hv with
    | iota k1 hc' => cases ht.det k1; rw [hc] at hc'; cases hc'
  · intro f a _ ih v hv
    cases hv with
    | appBox k1 => exact ih _ k1
    | beta k1 => exact ih _ k1
    | fix k1 => exact ih _ k1
    | appCong k1 => exact ih _ k1
  · intro f f' a _ _ ih v hv
    cases hv with
    | appBox _ k2 => exact ih _ k2
    | beta _ k2 => exact ih _ k2
    | fix _ _ k2 => exact ih _ k2
    | appCong _ _ k2 => exact ih _ k2
  · intro f b a a' h1 h2 _ ih v hv
    cases hv with
    | appBox k1 => cases h1.det k1
    | beta k1 k2 k3 => cases h1.det k1; cases h2.det k2; exact ih _ k3
    | fix k1 => cases h1.det k1
    | appCong k1 hh => cases h1.det k1; simp [Term.headed] at hh
  · intro f ds n x a a' h1 hx h2 _ ih v hv
    cases hv with
    | appBox k1 => cases h1.det k1
    | beta k1 => cases h1.det k1
    | fix k1 hx' k2 k3 => cases h1.det k1; rw [hx] at hx'; cases hx'; cases h2.det k2; exact ih _ k3
    | appCong k1 hh => cases h1.det k1; simp [Term.headed] at hh
  · intro d b _ ih v hv
    cases hv with
    | zeta k1 => exact ih _ k1
  · intro d d' b h1 _ ih v hv
    cases hv with
    | zeta k1 k2 => cases h1.det k1; exact ih _ k2
  · intro i p t bs _ ih v hv
    cases hv with
    | iota k1 => exact ih _ k1
  · intro i p t n ts bs pars k m b h1 hc hb _ _ ih v hv
    cases hv with
    | iota k1 hc' hb' _ _ k2 => cases h1.det k1; rw [hc] at hc'; rw [hb] at hb'; cases hc'; cases hb'; exact ih _ k2
  · intro c t hl _ ih v hv
    cases hv with
    | delta hl' k1 => rw [hl] at hl'; cases hl'; exact ih _ k1
  · intro i n ts _ ih v hv
    cases hv with
    | con _ _ k1 => exact ih _ k1
  · intro t _ ih v hv
    cases hv with
    | force k1 => exact ih _ k1
  · intro t u h1 _ ih v hv
    cases hv with
    | force k1 k2 => cases h1.det k1; exact ih _ k2
  · intro t ts _ ih v hv
    cases hv with
    | cons k1 => exact ih _ k1
  · intro t ts _ ih v hv
    cases hv with
    | cons _ k2 => exact ih _ k2

end Box
