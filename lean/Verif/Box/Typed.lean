import Verif.Box.Sim
import Verif.Conv.Top

/-!
# A well-formed erased program uses constructors as declared

The conversion to LambdaANF asks that constructors are declared and fully applied and that branches bind the arguments of
their constructors (`Conv.Typed`).  Here that condition is reduced to conditions on the erased program.
-/

namespace Box

open Conv (Types Typed TypedEs TypedF TypedB)

variable {I : Inds} {E : Ctx} {T : Types}

mutual
/-- Every branch binds as many variables as its constructor has arguments. -/
def Term.arities (I : Inds) : Term → Prop
  | .lam t => t.arities I
  | .letin t u => t.arities I ∧ u.arities I
  | .app t u => t.arities I ∧ u.arities I
  | .con _ _ ts => ts.arities I
  | .case i _ t bs => t.arities I ∧ (∀ n m b, bs.nth n = some (m, b) → ∃ p pars, lookupCtor I i n = some (p, pars, m)) ∧ bs.arities I
  | .fix ds _ => ds.arities I
  | .lazy t => t.arities I
  | .force t => t.arities I
  | _ => True
/-- The same for argument lists. -/
def Terms.arities (I : Inds) : Terms → Prop
  | .nil => True
  | .cons t ts => t.arities I ∧ ts.arities I
/-- The same for branches. -/
def Brs.arities (I : Inds) : Brs → Prop
  | .nil => True
  | .cons _ t bs => t.arities I ∧ bs.arities I
/-- The same for definitions. -/
def Defs.arities (I : Inds) : Defs → Prop
  | .nil => True
  | .cons t ds => t.arities I ∧ ds.arities I
end

/-- The same for every constant. -/
def AritiesCtx (I : Inds) : Ctx → Prop
  | [] => True
  | (_, .constant (some t)) :: E => AritiesCtx I E ∧ t.arities I
  | (_, _) :: E => AritiesCtx I E

/-- The declarations handed to the later phases list the constructors of the erased program's inductive types. -/
def Agree (I : Inds) (T : Types) : Prop := ∀ i n p pars a, lookupCtor I i n = some (p, pars, a) → T.Declared (i, n) a

mutual
/-- `Conv.Typed` for LambdaBoxMut. -/
def MTyped (T : Types) : Mut.Term → Prop
  | .lam t => MTyped T t
  | .letin t u => MTyped T t ∧ MTyped T u
  | .app t u => MTyped T t ∧ MTyped T u
  | .con i n ts => T.Declared (i, n) ts.len ∧ MTypeds T ts
  | .case i t bs => MTyped T t ∧ (∀ n m b, bs.nth n = some (m, b) → T.Declared (i, n) m) ∧ MTypedB T bs
  | .fix ds _ => MTypedD T ds
  | _ => True
def MTypeds (T : Types) : Mut.Terms → Prop
  | .nil => True
  | .cons t ts => MTyped T t ∧ MTypeds T ts
def MTypedB (T : Types) : Mut.Brs → Prop
  | .nil => True
  | .cons _ t bs => MTyped T t ∧ MTypedB T bs
def MTypedD (T : Types) : Mut.Defs → Prop
  | .nil => True
  | .cons t ds => MTyped T t ∧ MTypedD T ds
end

@[simp] theorem lifts_len (k ts) : (lifts k ts).len = ts.len := by
  induction ts using Mut.Terms.ind with
  | h0 => rfl
  | h1 e es ih => simp [lifts, Mut.Terms.len, ih]

theorem liftB_nth : ∀ (bs : Mut.Brs) (k n : Nat), (liftB k bs).nth n = (bs.nth n).map (fun x => (x.1, lift (x.1 + k) x.2)) := by
  intro bs
  induction bs using Mut.Brs.ind with
  | h0 => intro k n; cases n <;> rfl
  | h1 m t bs ih => intro k n; cases n with
    | zero => rfl
    | succ n => simpa [liftB, Mut.Brs.nth] using ih k n

mutual
theorem lift_typed : ∀ (t : Mut.Term) (k : Nat), MTyped T t → MTyped T (lift k t)
  | .rel _, _, _ => by simp [lift, MTyped]
  | .proof, _, _ => by simp [lift, MTyped]
  | .lam t, k, h => by simp only [lift, MTyped] at h ⊢; exact lift_typed t _ h
  | .letin t u, k, h => by simp only [lift, MTyped] at h ⊢; exact ⟨lift_typed t _ h.1, lift_typed u _ h.2⟩
  | .app t u, k, h => by simp only [lift, MTyped] at h ⊢; exact ⟨lift_typed t _ h.1, lift_typed u _ h.2⟩
  | .const c, _, _ => by simp [lift, MTyped]
  | .con i m ts, k, h => by simp only [lift, MTyped, lifts_len] at h ⊢; exact ⟨h.1, lifts_typed ts _ h.2⟩
  | .case i t bs, k, h => by
    simp only [lift, MTyped] at h ⊢
    refine ⟨lift_typed t _ h.1, fun n m b hb => ?_, liftB_typed bs _ h.2.2⟩
    rw [liftB_nth, Option.map_eq_some_iff] at hb
    obtain ⟨⟨m', b'⟩, hb, e⟩ := hb
    cases e; exact h.2.1 n _ _ hb
  | .fix ds m, k, h => by simp only [lift, MTyped] at h ⊢; exact liftD_typed ds _ h
  | .prim _, _, _ => by simp [lift, MTyped]
  | .wrong, _, _ => by simp [lift, MTyped]
theorem lifts_typed : ∀ (t : Mut.Terms) (k : Nat), MTypeds T t → MTypeds T (lifts k t)
  | .nil, _, _ => by simp [lifts, MTypeds]
  | .cons t ts, k, h => by simp only [lifts, MTypeds] at h ⊢; exact ⟨lift_typed t _ h.1, lifts_typed ts _ h.2⟩
theorem liftB_typed : ∀ (t : Mut.Brs) (k : Nat), MTypedB T t → MTypedB T (liftB k t)
  | .nil, _, _ => by simp [liftB, MTypedB]
  | .cons m t ts, k, h => by simp only [liftB, MTypedB] at h ⊢; exact ⟨lift_typed t _ h.1, liftB_typed ts _ h.2⟩
theorem liftD_typed : ∀ (t : Mut.Defs) (k : Nat), MTypedD T t → MTypedD T (liftD k t)
  | .nil, _, _ => by simp [liftD, MTypedD]
  | .cons t ts, k, h => by simp only [liftD, MTypedD] at h ⊢; exact ⟨lift_typed t _ h.1, liftD_typed ts _ h.2⟩
end

mutual
theorem compile_typed (hI : NoPars I) (hT : Agree I T) : ∀ (t : Term) {k : Nat}, t.wf I E k → t.arities I → MTyped T (compile t)
  | .rel n, k, _, _ => by simp [compile, MTyped]
  | .box, _, _, _ => by simp [compile, MTyped]
  | .var, _, h, _ => by simp [Term.wf] at h
  | .evar, _, h, _ => by simp [Term.wf] at h
  | .lam t, k, h, ha => by simp only [Term.wf, Term.arities, compile, MTyped] at h ha ⊢; exact compile_typed hI hT t h ha
  | .letin t u, k, h, ha => by
    simp only [Term.wf, Term.arities, compile, MTyped] at h ha ⊢
    exact ⟨compile_typed hI hT t h.1 ha.1, compile_typed hI hT u h.2 ha.2⟩
  | .app t u, k, h, ha => by
    simp only [Term.wf, Term.arities, compile, MTyped] at h ha ⊢
    exact ⟨compile_typed hI hT t h.1 ha.1, compile_typed hI hT u h.2 ha.2⟩
  | .const c, _, _, _ => by simp [compile, MTyped]
  | .con i n ts, k, h, ha => by
    simp only [Term.wf, Term.arities, compile, MTyped, compiles_len] at h ha ⊢
    obtain ⟨⟨p, pars, a, hc, hl⟩, h⟩ := h
    obtain rfl := lookupCtor_pars hI hc
    refine ⟨?_, compiles_typed hI hT ts h ha⟩
    rw [← hl, Nat.zero_add]; exact hT _ _ _ _ _ hc
  | .case i p t bs, k, h, ha => by
    simp only [Term.wf, Term.arities, compile, MTyped] at h ha ⊢
    refine ⟨compile_typed hI hT t h.2.1 ha.1, fun n m b hb => ?_, compileB_typed hI hT bs h.2.2 ha.2.2⟩
    rw [compileB_nth, Option.map_eq_some_iff] at hb
    obtain ⟨⟨m', b'⟩, hb, e⟩ := hb
    cases e
    obtain ⟨_, _, hc⟩ := ha.2.1 _ _ _ hb
    exact hT _ _ _ _ _ hc
  | .proj t, k, h, _ => by simp [Term.wf] at h
  | .fix ds n, k, h, ha => by simp only [Term.wf, Term.arities, compile, MTyped] at h ha ⊢; exact compileD_typed hI hT ds h.2 ha
  | .cofix ds n, k, h, _ => by simp [Term.wf] at h
  | .prim p, _, _, _ => by simp [compile, MTyped]
  | .array ts, k, h, _ => by simp [Term.wf] at h
  | .lazy t, k, h, ha => by
    simp only [Term.wf, Term.arities, compile, MTyped] at h ha ⊢; exact lift_typed _ _ (compile_typed hI hT t h ha)
  | .force t, k, h, ha => by
    simp only [Term.wf, Term.arities, compile, MTyped] at h ha ⊢; exact ⟨compile_typed hI hT t h ha, trivial⟩
theorem compiles_typed (hI : NoPars I) (hT : Agree I T) : ∀ (t : Terms) {k : Nat}, t.wf I E k → t.arities I → MTypeds T (compiles t)
  | .nil, _, _, _ => by simp [compiles, MTypeds]
  | .cons t ts, k, h, ha => by
    simp only [Terms.wf, Terms.arities, compiles, MTypeds] at h ha ⊢
    exact ⟨compile_typed hI hT t h.1 ha.1, compiles_typed hI hT ts h.2 ha.2⟩
theorem compileB_typed (hI : NoPars I) (hT : Agree I T) : ∀ (t : Brs) {k : Nat}, t.wf I E k → t.arities I → MTypedB T (compileB t)
  | .nil, _, _, _ => by simp [compileB, MTypedB]
  | .cons m t ts, k, h, ha => by
    simp only [Brs.wf, Brs.arities, compileB, MTypedB] at h ha ⊢
    exact ⟨compile_typed hI hT t h.1 ha.1, compileB_typed hI hT ts h.2 ha.2⟩
theorem compileD_typed (hI : NoPars I) (hT : Agree I T) : ∀ (t : Defs) {k : Nat}, t.wf I E k → t.arities I → MTypedD T (compileD t)
  | .nil, _, _, _ => by simp [compileD, MTypedD]
  | .cons t ts, k, h, ha => by
    simp only [Defs.wf, Defs.arities, compileD, MTypedD] at h ha ⊢
    exact ⟨compile_typed hI hT t h.1 ha.1, compileD_typed hI hT ts h.2.2 ha.2⟩
end

@[simp] theorem transs_len (L P k ts) : (Src.transs L P k ts).len = ts.len := by
  induction ts using Mut.Terms.ind with
  | h0 => rfl
  | h1 e es ih => simp [Src.transs, Mut.Terms.len, Src.Exps.len, ih]

theorem transB_branches (L : Src.LEnv) (P : List (Mut.Name × Nat)) (i k : Nat) : ∀ (bs : Mut.Brs) (j : Nat),
    (∀ n m b, bs.nth n = some (m, b) → T.Declared (i, j + n) m) → T.Branches i (Src.transB L P i k j bs) := by
  intro bs
  induction bs using Mut.Brs.ind with
  | h0 => intro j _; simp [Src.transB, Types.Branches]
  | h1 m t bs ih =>
    intro j h
    simp only [Src.transB, Types.Branches]
    refine ⟨trivial, by simpa using h 0 m t rfl, ih (j + 1) fun n m' b hb => ?_⟩
    have := h (n + 1) m' b hb
    rwa [show j + (n + 1) = j + 1 + n by omega] at this

mutual
theorem trans_typed (L : Src.LEnv) (P : List (Mut.Name × Nat)) : ∀ (t : Mut.Term) (k : Nat), MTyped T t → Typed T (Src.trans L P k t)
  | .rel _, _, _ => by simp [Src.trans, Typed]
  | .proof, _, _ => by simp [Src.trans, Typed]
  | .lam t, k, h => by simp only [Src.trans, Typed, MTyped] at h ⊢; exact trans_typed L P t _ h
  | .letin t u, k, h => by
    simp only [Src.trans, Typed, MTyped] at h ⊢; exact ⟨trans_typed L P t _ h.1, trans_typed L P u _ h.2⟩
  | .app t u, k, h => by
    simp only [Src.trans, Typed, MTyped] at h ⊢; exact ⟨trans_typed L P t _ h.1, trans_typed L P u _ h.2⟩
  | .const c, _, _ => by simp only [Src.trans]; split <;> simp [Typed]
  | .con i m ts, k, h => by
    simp only [Src.trans, Typed, MTyped, transs_len] at h ⊢; exact ⟨h.1, transs_typed L P ts _ h.2⟩
  | .case i t bs, k, h => by
    simp only [Src.trans, Typed, MTyped] at h ⊢
    exact ⟨trans_typed L P t _ h.1, ⟨i, transB_branches L P i k bs 0 (by simpa using h.2.1)⟩, transB_typed L P i bs _ _ h.2.2⟩
  | .fix ds m, k, h => by simp only [Src.trans, Typed, MTyped] at h ⊢; exact transD_typed L P ds _ h
  | .prim _, _, _ => by simp [Src.trans, Typed]
  | .wrong, _, _ => by simp [Src.trans, Typed]
theorem transs_typed (L : Src.LEnv) (P : List (Mut.Name × Nat)) : ∀ (t : Mut.Terms) (k : Nat), MTypeds T t → TypedEs T (Src.transs L P k t)
  | .nil, _, _ => by simp [Src.transs, TypedEs]
  | .cons t ts, k, h => by
    simp only [Src.transs, TypedEs, MTypeds] at h ⊢; exact ⟨trans_typed L P t _ h.1, transs_typed L P ts _ h.2⟩
theorem transB_typed (L : Src.LEnv) (P : List (Mut.Name × Nat)) (i : Nat) : ∀ (t : Mut.Brs) (k j : Nat), MTypedB T t →
    TypedB T (Src.transB L P i k j t)
  | .nil, _, _, _ => by simp [Src.transB, TypedB]
  | .cons m t ts, k, j, h => by
    simp only [Src.transB, TypedB, MTypedB] at h ⊢; exact ⟨trans_typed L P t _ h.1, transB_typed L P i ts _ _ h.2⟩
theorem transD_typed (L : Src.LEnv) (P : List (Mut.Name × Nat)) : ∀ (t : Mut.Defs) (k : Nat), MTypedD T t → TypedF T (Src.transD L P k t)
  | .nil, _, _ => by simp [Src.transD, TypedF]
  | .cons t ts, k, h => by
    simp only [Src.transD, TypedF, MTypedD] at h ⊢; exact ⟨trans_typed L P t _ h.1, transD_typed L P ts _ h.2⟩
end

theorem mkLets_typed : ∀ (L : Src.LEnv) (e : Src.Exp), (∀ x ∈ L, Typed T x.2) → Typed T e → Typed T (Src.mkLets L e)
  | [], e, _, h => h
  | x :: L, e, hL, h => by
    have : Src.mkLets (x :: L) e = Src.mkLets L (.letin x.2 e) := rfl
    rw [this]
    exact mkLets_typed L _ (fun y hy => hL y (List.mem_cons_of_mem _ hy)) ⟨hL x (List.mem_cons_self ..), h⟩

theorem translateEnv_typed (hI : NoPars I) (hT : Agree I T) (P : List (Mut.Name × Nat)) : ∀ {E : Ctx}, WfCtx I E → AritiesCtx I E →
    ∀ x ∈ Src.translateEnv P (compileCtx E), Typed T x.2
  | [], _, _, x, hx => by simp [compileCtx, Src.translateEnv] at hx
  | (c, .constant (some t)) :: E, h, ha, x, hx => by
    simp only [WfCtx, AritiesCtx] at h ha
    have : Src.translateEnv P (compileCtx ((c, .constant (some t)) :: E)) =
      (c, Src.trans (Src.translateEnv P (compileCtx E)) P 0 (compile t)) :: Src.translateEnv P (compileCtx E) := rfl
    rw [this] at hx
    rcases List.mem_cons.1 hx with rfl | hx
    · exact trans_typed _ P _ _ (compile_typed hI hT t h.2.2 ha.2)
    · exact translateEnv_typed hI hT P h.1 ha.1 x hx
  | (c, .constant none) :: E, h, _, _, _ => by simp [WfCtx] at h
  | (c, .inductives) :: E, h, ha, x, hx => by
    simp only [WfCtx, AritiesCtx] at h ha
    exact translateEnv_typed hI hT P h.1 ha x hx

end Box
