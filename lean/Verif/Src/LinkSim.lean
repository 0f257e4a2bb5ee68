import Verif.Src.Link
import Verif.Src.MutEval
import Verif.Src.Subst

/-!
# Linking preserves evaluation

The linked program is related to the source through `trS σ`, the translation that replaces a constant by its (closed)
value at once.
-/

namespace Src

open Mut (Term Terms Name Environ Entry Wcbv Wcbvs Defined CrctEnv lookupDfn inst insts instB instD instl caseStep fixStep)

mutual
/-- Translation of a term where each constant is replaced by the expression `σ` gives it. -/
def trS (σ : Name → Exp) : Term → Exp
  | .wrong => .prf
  | .proof => .prf
  | .rel n => .var n
  | .lam t => .lam (trS σ t)
  | .letin t u => .letin (trS σ t) (trS σ u)
  | .app t u => .app (trS σ t) (trS σ u)
  | .const s => σ s
  | .con i c ts => .con (i, c) (trSs σ ts)
  | .case i t bs => .mtch (trS σ t) (trSB σ i 0 bs)
  | .fix ds n => .fix (trSD σ ds) n
  | .prim p => .pval p
/-- `trS` on arguments. -/
def trSs (σ : Name → Exp) : Terms → Exps
  | .nil => .nil
  | .cons t ts => .cons (trS σ t) (trSs σ ts)
/-- `trS` on branches. -/
def trSB (σ : Name → Exp) (i : Nat) : Nat → Mut.Brs → Brs
  | _, .nil => .nil
  | n, .cons m t bs => .cons (i, n) m (trS σ t) (trSB σ i (n + 1) bs)
/-- `trS` on definitions. -/
def trSD (σ : Name → Exp) : Mut.Defs → Fns
  | .nil => .nil
  | .cons t ds => .cons (trS σ t) (trSD σ ds)
end

variable {σ : Name → Exp}

@[simp] theorem trSD_len (ds) : (trSD σ ds).len = ds.len := by
  induction ds using Mut.Defs.ind with
  | h0 => rfl
  | h1 e es ih => simp [trSD, Fns.len, Mut.Defs.len, ih]

@[simp] theorem trSs_len (ds) : (trSs σ ds).len = ds.len := by
  induction ds using Mut.Terms.ind with
  | h0 => rfl
  | h1 e es ih => simp [trSs, Exps.len, Mut.Terms.len, ih]

@[simp] theorem transD_len (E P k ds) : (transD E P k ds).len = ds.len := by
  induction ds using Mut.Defs.ind with
  | h0 => rfl
  | h1 e es ih => simp [transD, Fns.len, Mut.Defs.len, ih]

@[simp] theorem instD_len (a k ds) : (instD a k ds).len = ds.len := by
  induction ds using Mut.Defs.ind with
  | h0 => rfl
  | h1 e es ih => simp [instD, Mut.Defs.len, ih]

mutual
theorem trS_inst (hσ : ∀ c, (σ c).wf 0) (a : Term) : ∀ (t : Term) (k : Nat), trS σ (inst a k t) = sbst (trS σ a) k (trS σ t)
  | .rel m, k => by
    simp only [inst, trS, sbst]
    by_cases h1 : k = m
    · subst h1; simp
    · by_cases h2 : m < k
      · simp [h1, h2, trS]
      · simp [h1, h2, trS, Ne.symm h1]
  | .proof, _ => rfl
  | .lam t, k => by simp only [inst, trS, sbst, trS_inst hσ a t]
  | .letin t u, k => by simp only [inst, trS, sbst, trS_inst hσ a t, trS_inst hσ a u]
  | .app t u, k => by simp only [inst, trS, sbst, trS_inst hσ a t, trS_inst hσ a u]
  | .const c, k => by simp only [inst, trS]; exact (sbst_closed _ _ (hσ c) (Nat.zero_le _)).symm
  | .con i m ts, k => by simp only [inst, trS, sbst, trSs_insts hσ a ts]
  | .case i t bs, k => by simp only [inst, trS, sbst, trS_inst hσ a t, trSB_instB hσ a i bs]
  | .fix ds m, k => by
    simp only [inst, trS, sbst, trSD_len, trSD_instD hσ a ds]
    rw [Nat.add_comm]
  | .prim p, _ => rfl
  | .wrong, _ => rfl
theorem trSs_insts (hσ : ∀ c, (σ c).wf 0) (a : Term) : ∀ (t : Terms) (k : Nat),
    trSs σ (insts a k t) = sbsts (trS σ a) k (trSs σ t)
  | .nil, _ => rfl
  | .cons t ts, k => by simp only [insts, trSs, sbsts, trS_inst hσ a t, trSs_insts hσ a ts]
theorem trSB_instB (hσ : ∀ c, (σ c).wf 0) (a : Term) (i : Nat) : ∀ (t : Mut.Brs) (k n : Nat),
    trSB σ i n (instB a k t) = sbstB (trS σ a) k (trSB σ i n t)
  | .nil, _, _ => rfl
  | .cons m t ts, k, n => by simp only [instB, trSB, sbstB, trS_inst hσ a t, trSB_instB hσ a i ts]
theorem trSD_instD (hσ : ∀ c, (σ c).wf 0) (a : Term) : ∀ (t : Mut.Defs) (k : Nat),
    trSD σ (instD a k t) = sbstF (trS σ a) k (trSD σ t)
  | .nil, _ => rfl
  | .cons t ts, k => by simp only [instD, trSD, sbstF, trS_inst hσ a t, trSD_instD hσ a ts]
end

/-! ### Closedness of the translation -/

mutual
theorem trS_wf {D : Name → Prop} (hσ : ∀ c, (σ c).wf 0) : ∀ (t : Term) {n : Nat}, t.crct D n → (trS σ t).wf n
  | .rel m, n, h => by simpa [trS, Exp.wf, Term.crct] using h
  | .proof, _, _ => by simp [trS, Exp.wf]
  | .lam t, n, h => by simp only [Term.crct] at h; simp only [trS, Exp.wf]; exact trS_wf hσ t h
  | .letin t u, n, h => by
    simp only [Term.crct] at h; simp only [trS, Exp.wf]; exact ⟨trS_wf hσ t h.1, trS_wf hσ u h.2⟩
  | .app t u, n, h => by
    simp only [Term.crct] at h; simp only [trS, Exp.wf]; exact ⟨trS_wf hσ t h.1, trS_wf hσ u h.2⟩
  | .const c, n, h => by simp only [trS]; exact (σ c).wf_mono (hσ c) (Nat.zero_le _)
  | .con i m ts, n, h => by simp only [Term.crct] at h; simp only [trS, Exp.wf]; exact trSs_wf hσ ts h
  | .case i t bs, n, h => by
    simp only [Term.crct] at h; simp only [trS, Exp.wf]; exact ⟨trS_wf hσ t h.1, trSB_wf hσ i bs h.2⟩
  | .fix ds m, n, h => by
    simp only [Term.crct] at h; simp only [trS, Exp.wf, trSD_len]; exact ⟨h.1, trSD_wf hσ ds h.2⟩
  | .prim p, _, _ => by simp [trS, Exp.wf]
  | .wrong, _, h => by simp [Term.crct] at h
theorem trSs_wf {D : Name → Prop} (hσ : ∀ c, (σ c).wf 0) : ∀ (t : Terms) {n : Nat}, t.crct D n → (trSs σ t).wf n
  | .nil, _, _ => by simp [trSs, Exps.wf]
  | .cons t ts, n, h => by
    simp only [Terms.crct] at h; simp only [trSs, Exps.wf]; exact ⟨trS_wf hσ t h.1, trSs_wf hσ ts h.2⟩
theorem trSB_wf {D : Name → Prop} (hσ : ∀ c, (σ c).wf 0) (i : Nat) : ∀ (t : Mut.Brs) {n k : Nat}, t.crct D n →
    (trSB σ i k t).wf n
  | .nil, _, _, _ => by simp [trSB, Brs.wf]
  | .cons m t ts, n, k, h => by
    simp only [Mut.Brs.crct] at h; simp only [trSB, Brs.wf]; exact ⟨trS_wf hσ t h.1, trSB_wf hσ i ts h.2⟩
theorem trSD_wf {D : Name → Prop} (hσ : ∀ c, (σ c).wf 0) : ∀ (t : Mut.Defs) {n : Nat}, t.crct D n → (trSD σ t).wf n
  | .nil, _, _ => by simp [trSD, Fns.wf]
  | .cons t ts, n, h => by
    simp only [Mut.Defs.crct] at h; simp only [trSD, Fns.wf]
    refine ⟨trS_wf hσ t h.1, ?_, trSD_wf hσ ts h.2.2⟩
    obtain ⟨b, hb⟩ := h.2.1
    subst hb; exact ⟨_, rfl⟩
end

/-! ### `trS` only looks at the constants that occur -/

mutual
theorem trS_congr {D : Name → Prop} {τ : Name → Exp} (h : ∀ c, D c → σ c = τ c) : ∀ (t : Term) {n : Nat}, t.crct D n →
    trS σ t = trS τ t
  | .rel m, _, _ => rfl
  | .proof, _, _ => rfl
  | .lam t, n, hc => by simp only [Term.crct] at hc; simp only [trS, trS_congr h t hc]
  | .letin t u, n, hc => by simp only [Term.crct] at hc; simp only [trS, trS_congr h t hc.1, trS_congr h u hc.2]
  | .app t u, n, hc => by simp only [Term.crct] at hc; simp only [trS, trS_congr h t hc.1, trS_congr h u hc.2]
  | .const c, n, hc => by simp only [Term.crct] at hc; simp only [trS, h c hc]
  | .con i m ts, n, hc => by simp only [Term.crct] at hc; simp only [trS, trSs_congr h ts hc]
  | .case i t bs, n, hc => by
    simp only [Term.crct] at hc; simp only [trS, trS_congr h t hc.1, trSB_congr h i bs hc.2]
  | .fix ds m, n, hc => by simp only [Term.crct] at hc; simp only [trS, trSD_congr h ds hc.2]
  | .prim p, _, _ => rfl
  | .wrong, _, _ => rfl
theorem trSs_congr {D : Name → Prop} {τ : Name → Exp} (h : ∀ c, D c → σ c = τ c) : ∀ (t : Terms) {n : Nat}, t.crct D n →
    trSs σ t = trSs τ t
  | .nil, _, _ => rfl
  | .cons t ts, n, hc => by
    simp only [Terms.crct] at hc; simp only [trSs, trS_congr h t hc.1, trSs_congr h ts hc.2]
theorem trSB_congr {D : Name → Prop} {τ : Name → Exp} (h : ∀ c, D c → σ c = τ c) (i : Nat) : ∀ (t : Mut.Brs) {n k : Nat},
    t.crct D n → trSB σ i k t = trSB τ i k t
  | .nil, _, _, _ => rfl
  | .cons m t ts, n, k, hc => by
    simp only [Mut.Brs.crct] at hc; simp only [trSB, trS_congr h t hc.1, trSB_congr h i ts hc.2]
theorem trSD_congr {D : Name → Prop} {τ : Name → Exp} (h : ∀ c, D c → σ c = τ c) : ∀ (t : Mut.Defs) {n : Nat},
    t.crct D n → trSD σ t = trSD τ t
  | .nil, _, _ => rfl
  | .cons t ts, n, hc => by
    simp only [Mut.Defs.crct] at hc; simp only [trSD, trS_congr h t hc.1, trSD_congr h ts hc.2.2]
end

/-! ### Steps -/

theorem trS_instl (hσ : ∀ c, (σ c).wf 0) : ∀ (ts : Terms) (t : Term) (k : Nat), (trSs σ ts).wf 0 →
    trS σ (instl ts k t) = msub (trSs σ ts).list.reverse k (trS σ t) := by
  intro ts
  induction ts using Mut.Terms.ind with
  | h0 => intro t k _; simp [instl, trSs, Exps.list, msub_nil]
  | h1 a s ih =>
    intro t k h
    simp only [trSs, Exps.wf] at h
    simp only [instl, trSs, Exps.list, List.reverse_cons]
    rw [ih _ k h.2, trS_inst hσ]
    have : s.len + k = (trSs σ s).list.reverse.length + k := by simp
    rw [this, msub_sbst h.1]

theorem trSB_find (i : Nat) (m : Nat) : ∀ (bs : Mut.Brs) (j n : Nat),
    findBranch (i, j + n) m (trSB σ i j bs) = match bs.nth n with
      | some (m', t) => if m' = m then some (trS σ t) else none
      | none => none := by
  intro bs
  induction bs using Mut.Brs.ind with
  | h0 => intro j n; cases n <;> simp [trSB, findBranch, Mut.Brs.nth]
  | h1 m' t bs ih =>
    intro j n
    cases n with
    | zero => simp [trSB, findBranch, Mut.Brs.nth]
    | succ n =>
      simp only [trSB, findBranch, Mut.Brs.nth]
      rw [if_neg (by simp)]
      have := ih (j + 1) n
      rwa [show j + 1 + n = j + (n + 1) by omega] at this

theorem trS_case (hσ : ∀ c, (σ c).wf 0) {i n ts bs} (hw : (trSs σ ts).wf 0) :
    (findBranch (i, n) (trSs σ ts).len (trSB σ i 0 bs)).map (fun e => sbstList e (trSs σ ts)) =
      (caseStep n ts bs).map (trS σ) := by
  have := trSB_find (σ := σ) i ts.len bs 0 n
  rw [Nat.zero_add] at this
  rw [trSs_len, this]
  unfold caseStep
  cases bs.nth n with
  | none => rfl
  | some x =>
    obtain ⟨m, t⟩ := x
    simp only
    split
    · simp only [Option.map_some]
      rw [trS_instl hσ ts t 0 hw, sbstList_msub hw]
    · rfl

theorem trSD_nth : ∀ (ds : Mut.Defs) (n : Nat), Fns.nth n (trSD σ ds) = (ds.nth n).map (trS σ) := by
  intro ds
  induction ds using Mut.Defs.ind with
  | h0 => intro n; cases n <;> rfl
  | h1 t ds ih => intro n; cases n with
    | zero => rfl
    | succ n => exact ih n

theorem listToZero_same (n) : Mut.listToZero n = listToZero n := by
  induction n with
  | zero => rfl
  | succ n ih => simp [Mut.listToZero, listToZero, ih]

theorem trS_foldl (hσ : ∀ c, (σ c).wf 0) (ds : Mut.Defs) : ∀ (L : List Nat) (t : Term),
    trS σ (L.foldl (fun b k => inst (.fix ds k) 0 b) t) =
      L.foldl (fun e k => sbst (.fix (trSD σ ds) k) 0 e) (trS σ t)
  | [], t => rfl
  | k :: L, t => by
    simp only [List.foldl]
    rw [trS_foldl hσ ds L, trS_inst hσ]
    rfl

theorem trS_fix (hσ : ∀ c, (σ c).wf 0) {ds : Mut.Defs} {m : Nat} :
    (Fns.nth m (trSD σ ds)).map (sbstFix (trSD σ ds)) = (fixStep ds m).map (trS σ) := by
  rw [trSD_nth]
  unfold fixStep
  cases ds.nth m with
  | none => rfl
  | some b =>
    simp only [Option.map_some, sbstFix, trSD_len]
    rw [trS_foldl hσ, listToZero_same]

/-! ### Evaluation: from LambdaBoxMut to LambdaBoxLocal -/

/-- `σ` gives each constant of `p` its value. -/
structure Vals (p : Environ) (σ : Name → Exp) : Prop where
  closed : ∀ c, (σ c).wf 0
  body : ∀ c t, lookupDfn c p = some t → (trS σ t).wf 0 ∧ Eval (trS σ t) (σ c)

theorem Wcbv.trS {p : Environ} (hV : Vals p σ) {t s} (h : Wcbv p t s) : (trS σ t).wf 0 → Eval (trS σ t) (trS σ s) := by
  have hσ := hV.closed
  refine Mut.Wcbv.rec (motive_1 := fun t s _ => (Src.trS σ t).wf 0 → Eval (Src.trS σ t) (Src.trS σ s))
    (motive_2 := fun t s _ => (trSs σ t).wf 0 → Evals (trSs σ t) (trSs σ s)) ?_ ?_ ?_ ?_ ?_ ?_ ?_ ?_ ?_ ?_ ?_ ?_ ?_ ?_ h
  · intro t _; exact .lam _
  · intro _; exact .prf
  · intro v _; exact .pval _
  · intro f a a' _ _ h1 h2 hw
    simp only [Src.trS, Exp.wf] at hw h1 ⊢
    exact .prfApp (h1 hw.1) (h2 hw.2)
  · intro i r ts ts' _ h hw
    simp only [Src.trS, Exp.wf] at hw ⊢
    exact .con (h hw)
  · intro ds m _; exact .fix _ _
  · intro c t s hl _ h hw
    obtain ⟨h1, h2⟩ := hV.body c t hl
    rw [(h h1).det h2]
    exact h2.idem
  · intro f b a a' s _ _ _ h1 h2 h3 hw
    simp only [Src.trS, Exp.wf] at hw h1 ⊢
    have e1 := h1 hw.1
    have e2 := h2 hw.2
    rw [trS_inst hσ] at h3
    refine .app e1 e2 (h3 ?_)
    have := e1.wf hw.1
    simp only [Exp.wf] at this
    exact sbst_wf (e2.wf hw.2) _ (by rwa [Nat.add_comm] at this) (Nat.le_refl _)
  · intro d d' b s _ _ h1 h2 hw
    simp only [Src.trS, Exp.wf] at hw ⊢
    have e1 := h1 hw.1
    rw [trS_inst hσ] at h2
    refine .letin e1 (h2 ?_)
    exact sbst_wf (e1.wf hw.1) _ (by have := hw.2; rwa [Nat.add_comm] at this) (Nat.le_refl _)
  · intro ds m f a a' x s _ hx _ _ h1 h2 h3 hw
    simp only [Src.trS, Exp.wf] at hw h1 h3 ⊢
    have e1 := h1 hw.1
    have e2 := h2 hw.2
    have hf := trS_fix hσ (ds := ds) (m := m)
    rw [hx] at hf
    simp only [Option.map_some, Option.map_eq_some_iff] at hf
    obtain ⟨e', he', hs⟩ := hf
    have hw1 := e1.wf hw.1
    simp only [Exp.wf, Nat.add_zero] at hw1
    rw [← hs] at h3
    exact .fixApp e1 e2 he' (h3 ⟨sbstFix_wf hw1.2 (Fns.nth_wf hw1.2 he').1, e2.wf hw.2⟩)
  · intro f f' a a' hf hh _ _ _ _
    rw [hf.value.1] at hh; simp at hh
  · intro t i n ts bs c s _ hc _ h1 h2 hw
    simp only [Src.trS, Exp.wf] at hw h1 ⊢
    have e1 := h1 hw.1
    have hw1 := e1.wf hw.1
    simp only [Exp.wf] at hw1
    have hf := trS_case hσ (i := i) (n := n) (bs := bs) hw1
    rw [hc] at hf
    simp only [Option.map_some, Option.map_eq_some_iff] at hf
    obtain ⟨e', he', hs⟩ := hf
    rw [← hs] at h2
    exact .mtch e1 he' (h2 (sbstList_wf _ hw1 0 (findBranch_wf hw.2 he')))
  · intro _; exact .nil
  · intro t t' ts ts' _ _ h1 h2 hw
    simp only [trSs, Exps.wf] at hw ⊢
    exact .cons (h1 hw.1) (h2 hw.2)

end Src
