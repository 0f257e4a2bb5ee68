import Verif.Src.LocalEval

/-!
# Closed expressions, parallel substitution, preservation of well-formedness
-/

namespace Src

@[simp] theorem sbstF_len (v k fs) : (sbstF v k fs).len = fs.len := by
  induction fs using Fns.ind with
  | h0 => rfl
  | h1 e es ih => simp [sbstF, Fns.len, ih]

@[simp] theorem sbsts_len (v k es) : (sbsts v k es).len = es.len := by
  induction es using Exps.ind with
  | h0 => rfl
  | h1 e es ih => simp [sbsts, Exps.len, ih]

mutual
/-- A well-formed expression is not changed by substitution above its free variables. -/
theorem sbst_closed (v : Exp) : ∀ (e : Exp) {i k : Nat}, e.wf i → i ≤ k → sbst v k e = e
  | .var j, i, k, h, hk => by simp only [Exp.wf] at h; simp only [sbst]; rw [if_pos (by omega)]
  | .lam e, i, k, h, hk => by simp only [Exp.wf] at h; simp only [sbst]; rw [sbst_closed v e h (by omega)]
  | .app e₁ e₂, i, k, h, hk => by
    simp only [Exp.wf] at h; simp only [sbst]; rw [sbst_closed v e₁ h.1 hk, sbst_closed v e₂ h.2 hk]
  | .con d es, i, k, h, hk => by simp only [Exp.wf] at h; simp only [sbst]; rw [sbsts_closed v es h hk]
  | .mtch e bs, i, k, h, hk => by
    simp only [Exp.wf] at h; simp only [sbst]; rw [sbst_closed v e h.1 hk, sbstB_closed v bs h.2 hk]
  | .letin e₁ e₂, i, k, h, hk => by
    simp only [Exp.wf] at h; simp only [sbst]; rw [sbst_closed v e₁ h.1 hk, sbst_closed v e₂ h.2 (by omega)]
  | .fix fs j, i, k, h, hk => by simp only [Exp.wf] at h; simp only [sbst]; rw [sbstF_closed v fs h.2 (by omega)]
  | .prf, _, _, _, _ => rfl
  | .pval _, _, _, _, _ => rfl
  | .prim _, _, _, _, _ => rfl
theorem sbsts_closed (v : Exp) : ∀ (es : Exps) {i k : Nat}, es.wf i → i ≤ k → sbsts v k es = es
  | .nil, _, _, _, _ => rfl
  | .cons e es, i, k, h, hk => by
    simp only [Exps.wf] at h; simp only [sbsts]; rw [sbst_closed v e h.1 hk, sbsts_closed v es h.2 hk]
theorem sbstF_closed (v : Exp) : ∀ (es : Fns) {i k : Nat}, es.wf i → i ≤ k → sbstF v k es = es
  | .nil, _, _, _, _ => rfl
  | .cons e es, i, k, h, hk => by
    simp only [Fns.wf] at h; simp only [sbstF]; rw [sbst_closed v e h.1 hk, sbstF_closed v es h.2.2 hk]
theorem sbstB_closed (v : Exp) : ∀ (es : Brs) {i k : Nat}, es.wf i → i ≤ k → sbstB v k es = es
  | .nil, _, _, _, _ => rfl
  | .cons d n e es, i, k, h, hk => by
    simp only [Brs.wf] at h; simp only [sbstB]; rw [sbst_closed v e h.1 (by omega), sbstB_closed v es h.2 hk]
end

mutual
theorem Exp.wf_mono : ∀ (e : Exp) {i k : Nat}, e.wf i → i ≤ k → e.wf k
  | .var j, i, k, h, hk => by simp only [Exp.wf] at h ⊢; omega
  | .lam e, i, k, h, hk => by simp only [Exp.wf] at h ⊢; exact e.wf_mono h (by omega)
  | .app e₁ e₂, i, k, h, hk => by simp only [Exp.wf] at h ⊢; exact ⟨e₁.wf_mono h.1 hk, e₂.wf_mono h.2 hk⟩
  | .con d es, i, k, h, hk => by simp only [Exp.wf] at h ⊢; exact es.wf_mono h hk
  | .mtch e bs, i, k, h, hk => by simp only [Exp.wf] at h ⊢; exact ⟨e.wf_mono h.1 hk, bs.wf_mono h.2 hk⟩
  | .letin e₁ e₂, i, k, h, hk => by
    simp only [Exp.wf] at h ⊢; exact ⟨e₁.wf_mono h.1 hk, e₂.wf_mono h.2 (by omega)⟩
  | .fix fs j, i, k, h, hk => by simp only [Exp.wf] at h ⊢; exact ⟨h.1, fs.wf_mono h.2 (by omega)⟩
  | .prf, _, _, _, _ => by simp [Exp.wf]
  | .pval _, _, _, _, _ => by simp [Exp.wf]
  | .prim _, _, _, h, _ => by simp [Exp.wf] at h
theorem Exps.wf_mono : ∀ (es : Exps) {i k : Nat}, es.wf i → i ≤ k → es.wf k
  | .nil, _, _, _, _ => by simp [Exps.wf]
  | .cons e es, i, k, h, hk => by simp only [Exps.wf] at h ⊢; exact ⟨e.wf_mono h.1 hk, es.wf_mono h.2 hk⟩
theorem Fns.wf_mono : ∀ (es : Fns) {i k : Nat}, es.wf i → i ≤ k → es.wf k
  | .nil, _, _, _, _ => by simp [Fns.wf]
  | .cons e es, i, k, h, hk => by
    simp only [Fns.wf] at h ⊢; exact ⟨e.wf_mono h.1 hk, h.2.1, es.wf_mono h.2.2 hk⟩
theorem Brs.wf_mono : ∀ (es : Brs) {i k : Nat}, es.wf i → i ≤ k → es.wf k
  | .nil, _, _, _, _ => by simp [Brs.wf]
  | .cons d n e es, i, k, h, hk => by
    simp only [Brs.wf] at h ⊢; exact ⟨e.wf_mono h.1 (by omega), es.wf_mono h.2 hk⟩
end

theorem sbst_isLam {v k e} (h : ∃ b, e = Exp.lam b) : ∃ b, sbst v k e = Exp.lam b := by
  obtain ⟨b, rfl⟩ := h; exact ⟨_, rfl⟩

mutual
theorem sbst_wf {v : Exp} (hv : v.wf 0) : ∀ (e : Exp) {k i : Nat}, e.wf (i + 1) → k ≤ i → (sbst v k e).wf i
  | .var j, k, i, h, hk => by
    simp only [Exp.wf] at h; simp only [sbst]
    split
    · simp only [Exp.wf]; omega
    · split
      · exact v.wf_mono hv (by omega)
      · simp only [Exp.wf]; omega
  | .lam e, k, i, h, hk => by
    simp only [Exp.wf] at h; simp only [sbst, Exp.wf]
    exact sbst_wf hv e h (by omega)
  | .app e₁ e₂, k, i, h, hk => by
    simp only [Exp.wf] at h; simp only [sbst, Exp.wf]; exact ⟨sbst_wf hv e₁ h.1 hk, sbst_wf hv e₂ h.2 hk⟩
  | .con d es, k, i, h, hk => by simp only [Exp.wf] at h; simp only [sbst, Exp.wf]; exact sbsts_wf hv es h hk
  | .mtch e bs, k, i, h, hk => by
    simp only [Exp.wf] at h; simp only [sbst, Exp.wf]; exact ⟨sbst_wf hv e h.1 hk, sbstB_wf hv bs h.2 hk⟩
  | .letin e₁ e₂, k, i, h, hk => by
    simp only [Exp.wf] at h; simp only [sbst, Exp.wf]
    exact ⟨sbst_wf hv e₁ h.1 hk, sbst_wf hv e₂ h.2 (by omega)⟩
  | .fix fs j, k, i, h, hk => by
    simp only [Exp.wf] at h; simp only [sbst, Exp.wf, sbstF_len]
    exact ⟨h.1, sbstF_wf hv fs h.2 (by omega)⟩
  | .prf, _, _, _, _ => by simp [sbst, Exp.wf]
  | .pval _, _, _, _, _ => by simp [sbst, Exp.wf]
  | .prim _, _, _, h, _ => by simp [Exp.wf] at h
theorem sbsts_wf {v : Exp} (hv : v.wf 0) : ∀ (es : Exps) {k i : Nat}, es.wf (i + 1) → k ≤ i → (sbsts v k es).wf i
  | .nil, _, _, _, _ => by simp [sbsts, Exps.wf]
  | .cons e es, k, i, h, hk => by
    simp only [Exps.wf] at h; simp only [sbsts, Exps.wf]; exact ⟨sbst_wf hv e h.1 hk, sbsts_wf hv es h.2 hk⟩
theorem sbstF_wf {v : Exp} (hv : v.wf 0) : ∀ (es : Fns) {k i : Nat}, es.wf (i + 1) → k ≤ i → (sbstF v k es).wf i
  | .nil, _, _, _, _ => by simp [sbstF, Fns.wf]
  | .cons e es, k, i, h, hk => by
    simp only [Fns.wf] at h; simp only [sbstF, Fns.wf]
    exact ⟨sbst_wf hv e h.1 hk, sbst_isLam h.2.1, sbstF_wf hv es h.2.2 hk⟩
theorem sbstB_wf {v : Exp} (hv : v.wf 0) : ∀ (es : Brs) {k i : Nat}, es.wf (i + 1) → k ≤ i → (sbstB v k es).wf i
  | .nil, _, _, _, _ => by simp [sbstB, Brs.wf]
  | .cons d n e es, k, i, h, hk => by
    simp only [Brs.wf] at h; simp only [sbstB, Brs.wf]
    exact ⟨sbst_wf hv e h.1 (by omega), sbstB_wf hv es h.2 hk⟩
end

mutual
/-- Parallel substitution of the expressions `vs` for the variables from `k` on. -/
def msub (vs : List Exp) : Nat → Exp → Exp
  | k, .var i => if i < k then .var i else match vs[i - k]? with
    | some v => v
    | none => .var (i - vs.length)
  | k, .lam e => .lam (msub vs (k + 1) e)
  | k, .app e₁ e₂ => .app (msub vs k e₁) (msub vs k e₂)
  | k, .con d es => .con d (msubs vs k es)
  | k, .mtch e bs => .mtch (msub vs k e) (msubB vs k bs)
  | k, .letin e₁ e₂ => .letin (msub vs k e₁) (msub vs (k + 1) e₂)
  | k, .fix fs j => .fix (msubF vs (fs.len + k) fs) j
  | _, .prf => .prf
  | _, .pval p => .pval p
  | _, .prim p => .prim p
/-- Parallel substitution in an argument list. -/
def msubs (vs : List Exp) : Nat → Exps → Exps
  | _, .nil => .nil
  | k, .cons e es => .cons (msub vs k e) (msubs vs k es)
/-- Parallel substitution in recursive functions. -/
def msubF (vs : List Exp) : Nat → Fns → Fns
  | _, .nil => .nil
  | k, .cons e fs => .cons (msub vs k e) (msubF vs k fs)
/-- Parallel substitution in branches. -/
def msubB (vs : List Exp) : Nat → Brs → Brs
  | _, .nil => .nil
  | k, .cons d n e bs => .cons d n (msub vs (n + k) e) (msubB vs k bs)
end

@[simp] theorem msubF_len (v k fs) : (msubF v k fs).len = fs.len := by
  induction fs using Fns.ind with
  | h0 => rfl
  | h1 e es ih => simp [msubF, Fns.len, ih]

@[simp] theorem msubs_len (v k es) : (msubs v k es).len = es.len := by
  induction es using Exps.ind with
  | h0 => rfl
  | h1 e es ih => simp [msubs, Exps.len, ih]

/-- All the expressions of a list are closed. -/
def Closed (vs : List Exp) : Prop := ∀ v ∈ vs, v.wf 0

mutual
theorem sbst_msub {v : Exp} {vs : List Exp} (hc : Closed vs) : ∀ (e : Exp) (k : Nat),
    sbst v k (msub vs (k + 1) e) = msub (v :: vs) k e
  | .var i, k => by
    simp only [msub]
    by_cases h1 : i < k
    · simp [sbst, h1, Nat.lt_succ_of_lt h1]
    · by_cases h2 : i = k
      · subst h2; simp [sbst]
      · obtain ⟨j, rfl⟩ : ∃ j, i = k + 1 + j := ⟨i - k - 1, by omega⟩
        rw [if_neg (by omega), if_neg (by omega)]
        have e1 : k + 1 + j - (k + 1) = j := by omega
        have e2 : k + 1 + j - k = j + 1 := by omega
        rw [e1, e2, List.getElem?_cons_succ]
        cases hv : vs[j]? with
        | some w => exact sbst_closed v w (hc w (List.mem_of_getElem? hv)) (Nat.zero_le _)
        | none =>
          have : vs.length ≤ j := by simpa using hv
          simp only [sbst, List.length_cons]
          rw [if_neg (by omega), if_neg (by omega)]
          congr 1
  | .lam e, k => by simp only [msub, sbst, sbst_msub hc e]
  | .app e₁ e₂, k => by simp only [msub, sbst, sbst_msub hc e₁, sbst_msub hc e₂]
  | .con d es, k => by simp only [msub, sbst, sbsts_msub hc es]
  | .mtch e bs, k => by simp only [msub, sbst, sbst_msub hc e, sbstB_msub hc bs]
  | .letin e₁ e₂, k => by simp only [msub, sbst, sbst_msub hc e₁, sbst_msub hc e₂]
  | .fix fs j, k => by
    simp only [msub, sbst, msubF_len]
    rw [← Nat.add_assoc, sbstF_msub hc fs]
  | .prf, _ => rfl
  | .pval _, _ => rfl
  | .prim _, _ => rfl
theorem sbsts_msub {v : Exp} {vs : List Exp} (hc : Closed vs) : ∀ (e : Exps) (k : Nat),
    sbsts v k (msubs vs (k + 1) e) = msubs (v :: vs) k e
  | .nil, _ => rfl
  | .cons e es, k => by simp only [msubs, sbsts, sbst_msub hc e, sbsts_msub hc es]
theorem sbstF_msub {v : Exp} {vs : List Exp} (hc : Closed vs) : ∀ (e : Fns) (k : Nat),
    sbstF v k (msubF vs (k + 1) e) = msubF (v :: vs) k e
  | .nil, _ => rfl
  | .cons e es, k => by simp only [msubF, sbstF, sbst_msub hc e, sbstF_msub hc es]
theorem sbstB_msub {v : Exp} {vs : List Exp} (hc : Closed vs) : ∀ (e : Brs) (k : Nat),
    sbstB v k (msubB vs (k + 1) e) = msubB (v :: vs) k e
  | .nil, _ => rfl
  | .cons d n e es, k => by
    simp only [msubB, sbstB, sbstB_msub hc es]
    rw [← Nat.add_assoc, sbst_msub hc e]
end

mutual
theorem msub_nil : ∀ (e : Exp) (k : Nat), msub [] k e = e
  | .var i, k => by simp [msub]
  | .lam e, k => by simp only [msub, msub_nil e]
  | .app e₁ e₂, k => by simp only [msub, msub_nil e₁, msub_nil e₂]
  | .con d es, k => by simp only [msub, msubs_nil es]
  | .mtch e bs, k => by simp only [msub, msub_nil e, msubB_nil bs]
  | .letin e₁ e₂, k => by simp only [msub, msub_nil e₁, msub_nil e₂]
  | .fix fs j, k => by simp only [msub, msubF_nil fs]
  | .prf, _ => rfl
  | .pval _, _ => rfl
  | .prim _, _ => rfl
theorem msubs_nil : ∀ (e : Exps) (k : Nat), msubs [] k e = e
  | .nil, _ => rfl
  | .cons e es, k => by simp only [msubs, msub_nil e, msubs_nil es]
theorem msubF_nil : ∀ (e : Fns) (k : Nat), msubF [] k e = e
  | .nil, _ => rfl
  | .cons e es, k => by simp only [msubF, msub_nil e, msubF_nil es]
theorem msubB_nil : ∀ (e : Brs) (k : Nat), msubB [] k e = e
  | .nil, _ => rfl
  | .cons d n e es, k => by simp only [msubB, msub_nil e, msubB_nil es]
end

theorem msub_isLam {v k e} (h : ∃ b, e = Exp.lam b) : ∃ b, msub v k e = Exp.lam b := by
  obtain ⟨b, rfl⟩ := h; exact ⟨_, rfl⟩

mutual
theorem msub_wf {vs : List Exp} (hc : Closed vs) : ∀ (e : Exp) {k : Nat}, e.wf (k + vs.length) → (msub vs k e).wf k
  | .var i, k, h => by
    simp only [Exp.wf] at h; simp only [msub]
    split
    · simpa [Exp.wf]
    · split
      · rename_i v hv; exact v.wf_mono (hc v (List.mem_of_getElem? hv)) (Nat.zero_le _)
      · rename_i hv; have : vs.length ≤ i - k := by simpa using hv
        omega
  | .lam e, k, h => by
    simp only [Exp.wf] at h; simp only [msub, Exp.wf]
    rw [Nat.add_comm 1 k]
    exact msub_wf hc e (by rw [← Nat.add_assoc, Nat.add_comm 1 k] at h; exact h)
  | .app e₁ e₂, k, h => by
    simp only [Exp.wf] at h; simp only [msub, Exp.wf]; exact ⟨msub_wf hc e₁ h.1, msub_wf hc e₂ h.2⟩
  | .con d es, k, h => by simp only [Exp.wf] at h; simp only [msub, Exp.wf]; exact msubs_wf hc es h
  | .mtch e bs, k, h => by
    simp only [Exp.wf] at h; simp only [msub, Exp.wf]; exact ⟨msub_wf hc e h.1, msubB_wf hc bs h.2⟩
  | .letin e₁ e₂, k, h => by
    simp only [Exp.wf] at h; simp only [msub, Exp.wf]
    refine ⟨msub_wf hc e₁ h.1, ?_⟩
    rw [Nat.add_comm 1 k]
    exact msub_wf hc e₂ (by have := h.2; rw [← Nat.add_assoc, Nat.add_comm 1 k] at this; exact this)
  | .fix fs j, k, h => by
    simp only [Exp.wf] at h; simp only [msub, Exp.wf, msubF_len]
    exact ⟨h.1, msubF_wf hc fs (by have := h.2; rw [← Nat.add_assoc] at this; exact this)⟩
  | .prf, _, _ => by simp [msub, Exp.wf]
  | .pval _, _, _ => by simp [msub, Exp.wf]
  | .prim _, _, h => by simp [Exp.wf] at h
theorem msubs_wf {vs : List Exp} (hc : Closed vs) : ∀ (e : Exps) {k : Nat}, e.wf (k + vs.length) → (msubs vs k e).wf k
  | .nil, _, _ => by simp [msubs, Exps.wf]
  | .cons e es, k, h => by
    simp only [Exps.wf] at h; simp only [msubs, Exps.wf]; exact ⟨msub_wf hc e h.1, msubs_wf hc es h.2⟩
theorem msubF_wf {vs : List Exp} (hc : Closed vs) : ∀ (e : Fns) {k : Nat}, e.wf (k + vs.length) → (msubF vs k e).wf k
  | .nil, _, _ => by simp [msubF, Fns.wf]
  | .cons e es, k, h => by
    simp only [Fns.wf] at h; simp only [msubF, Fns.wf]
    exact ⟨msub_wf hc e h.1, msub_isLam h.2.1, msubF_wf hc es h.2.2⟩
theorem msubB_wf {vs : List Exp} (hc : Closed vs) : ∀ (e : Brs) {k : Nat}, e.wf (k + vs.length) → (msubB vs k e).wf k
  | .nil, _, _ => by simp [msubB, Brs.wf]
  | .cons d n e es, k, h => by
    simp only [Brs.wf] at h; simp only [msubB, Brs.wf]
    exact ⟨msub_wf hc e (by have := h.1; rw [← Nat.add_assoc] at this; exact this), msubB_wf hc es h.2⟩
end

theorem sbstList_wf {e : Exp} : ∀ (vs : Exps), vs.wf 0 → ∀ j, e.wf (vs.len + j) → (sbstList e vs).wf j := by
  intro vs
  induction vs using Exps.ind with
  | h0 => intro _ j h; simpa [sbstList, Exps.len] using h
  | h1 v vs ih =>
    intro hv j h
    simp only [Exps.wf] at hv
    simp only [sbstList]
    have := ih hv.2 (j + 1) (by
      simp only [Exps.len] at h; rw [show vs.len + (j + 1) = vs.len + 1 + j by omega]; exact h)
    exact sbst_wf hv.1 _ this (Nat.zero_le _)

theorem findBranch_wf {d m e} : ∀ {bs : Brs} {i : Nat}, bs.wf i → findBranch d m bs = some e → e.wf (m + i) := by
  intro bs
  induction bs using Brs.ind with
  | h0 => intro i _ h; simp [findBranch] at h
  | h1 d' n e' bs ih =>
    intro i hw h
    simp only [Brs.wf] at hw
    simp only [findBranch] at h
    split at h
    · split at h
      · rename_i hn; cases h; subst hn; exact hw.1
      · simp at h
    · exact ih hw.2 h

theorem Fns.nth_wf : ∀ {fs : Fns} {n : Nat} {e i}, fs.wf i → Fns.nth n fs = some e → e.wf i ∧ ∃ b, e = .lam b := by
  intro fs
  induction fs using Fns.ind with
  | h0 => intro n e i _ h; cases n <;> simp [Fns.nth] at h
  | h1 e fs ih =>
    intro n e' i hw h
    simp only [Fns.wf] at hw
    cases n with
    | zero => simp only [Fns.nth, Option.some.injEq] at h; subst h; exact ⟨hw.1, hw.2.1⟩
    | succ n => exact ih hw.2.2 h

theorem Fns.nth_lt : ∀ {fs : Fns} {n : Nat}, n < fs.len ↔ ∃ e, Fns.nth n fs = some e := by
  intro fs
  induction fs using Fns.ind with
  | h0 => intro n; cases n <;> simp [Fns.nth, Fns.len]
  | h1 e fs ih =>
    intro n
    cases n with
    | zero => simp [Fns.nth, Fns.len]
    | succ n => simp only [Fns.nth, Fns.len]; rw [← ih]; omega

theorem length_listToZero (n) : (listToZero n).length = n := by
  induction n with
  | zero => rfl
  | succ n ih => simp [listToZero, ih]

theorem mem_listToZero {n m : Nat} (h : m ∈ listToZero n) : m < n := by
  induction n with
  | zero => simp [listToZero] at h
  | succ n ih => simp only [listToZero, List.mem_cons] at h; rcases h with rfl | h <;> [omega; (have := ih h; omega)]

theorem foldl_sbst_wf (g : Nat → Exp) : ∀ (L : List Nat) (e : Exp) (j : Nat), (∀ k ∈ L, (g k).wf 0) →
    e.wf (L.length + j) → (L.foldl (fun e k => sbst (g k) 0 e) e).wf j
  | [], e, j, _, h => by simpa using h
  | k :: L, e, j, hg, h => by
    simp only [List.foldl]
    refine foldl_sbst_wf g L _ j (fun k hk => hg k (List.mem_cons_of_mem _ hk)) ?_
    refine sbst_wf (hg k (List.mem_cons_self ..)) e ?_ (Nat.zero_le _)
    simp only [List.length_cons] at h
    rw [show L.length + j + 1 = L.length + 1 + j by omega]; exact h

theorem sbstFix_wf {fs : Fns} {e : Exp} (hf : fs.wf fs.len) (he : e.wf fs.len) : (sbstFix fs e).wf 0 := by
  refine foldl_sbst_wf _ _ _ 0 (fun k hk => ?_) (by rw [length_listToZero]; exact he)
  simp only [Exp.wf, Nat.add_zero]
  exact ⟨mem_listToZero hk, hf⟩

/-- Evaluation preserves closedness. -/
theorem Eval.wf {e v} (h : Eval e v) : e.wf 0 → v.wf 0 := by
  refine Eval.rec (motive_1 := fun e v _ => e.wf 0 → v.wf 0) (motive_2 := fun es vs _ => es.wf 0 → vs.wf 0)
    ?_ ?_ ?_ ?_ ?_ ?_ ?_ ?_ ?_ ?_ ?_ ?_ h
  · intro e h; exact h
  · intro e₁ e₁' e₂ v₂ v _ _ _ h1 h2 h3 hw
    simp only [Exp.wf] at hw h1
    exact h3 (sbst_wf (h2 hw.2) _ (by have := h1 hw.1; rwa [Nat.add_comm] at this) (Nat.le_refl _))
  · intro d es vs _ h hw; simp only [Exp.wf] at hw ⊢; exact h hw
  · intro e₁ v₁ e₂ v₂ _ _ h1 h2 hw
    simp only [Exp.wf] at hw
    exact h2 (sbst_wf (h1 hw.1) _ (by have := hw.2; rwa [Nat.add_comm] at this) (Nat.le_refl _))
  · intro e bs d vs e' v _ hf _ h1 h2 hw
    simp only [Exp.wf] at hw h1
    exact h2 (sbstList_wf vs (h1 hw.1) 0 (findBranch_wf hw.2 hf))
  · intro fs k h; exact h
  · intro e fs n e₂ v₂ e' v _ _ hf _ h1 h2 h3 hw
    simp only [Exp.wf, Nat.add_zero] at hw h1 h3
    refine h3 ⟨sbstFix_wf (h1 hw.1).2 (Fns.nth_wf (h1 hw.1).2 hf).1, h2 hw.2⟩
  · intros; simp [Exp.wf]
  · intros; simp [Exp.wf]
  · intros; simp [Exp.wf]
  · intros; simp [Exps.wf]
  · intro e es v vs _ _ h1 h2 hw
    simp only [Exps.wf] at hw ⊢
    exact ⟨h1 hw.1, h2 hw.2⟩

mutual
theorem msub_closed (vs : List Exp) : ∀ (e : Exp) {i k : Nat}, e.wf i → i ≤ k → msub vs k e = e
  | .var j, i, k, h, hk => by simp only [Exp.wf] at h; simp only [msub]; rw [if_pos (by omega)]
  | .lam e, i, k, h, hk => by simp only [Exp.wf] at h; simp only [msub]; rw [msub_closed vs e h (by omega)]
  | .app e₁ e₂, i, k, h, hk => by
    simp only [Exp.wf] at h; simp only [msub]; rw [msub_closed vs e₁ h.1 hk, msub_closed vs e₂ h.2 hk]
  | .con d es, i, k, h, hk => by simp only [Exp.wf] at h; simp only [msub]; rw [msubs_closed vs es h hk]
  | .mtch e bs, i, k, h, hk => by
    simp only [Exp.wf] at h; simp only [msub]; rw [msub_closed vs e h.1 hk, msubB_closed vs bs h.2 hk]
  | .letin e₁ e₂, i, k, h, hk => by
    simp only [Exp.wf] at h; simp only [msub]; rw [msub_closed vs e₁ h.1 hk, msub_closed vs e₂ h.2 (by omega)]
  | .fix fs j, i, k, h, hk => by simp only [Exp.wf] at h; simp only [msub]; rw [msubF_closed vs fs h.2 (by omega)]
  | .prf, _, _, _, _ => rfl
  | .pval _, _, _, _, _ => rfl
  | .prim _, _, _, _, _ => rfl
theorem msubs_closed (vs : List Exp) : ∀ (es : Exps) {i k : Nat}, es.wf i → i ≤ k → msubs vs k es = es
  | .nil, _, _, _, _ => rfl
  | .cons e es, i, k, h, hk => by
    simp only [Exps.wf] at h; simp only [msubs]; rw [msub_closed vs e h.1 hk, msubs_closed vs es h.2 hk]
theorem msubF_closed (vs : List Exp) : ∀ (es : Fns) {i k : Nat}, es.wf i → i ≤ k → msubF vs k es = es
  | .nil, _, _, _, _ => rfl
  | .cons e es, i, k, h, hk => by
    simp only [Fns.wf] at h; simp only [msubF]; rw [msub_closed vs e h.1 hk, msubF_closed vs es h.2.2 hk]
theorem msubB_closed (vs : List Exp) : ∀ (es : Brs) {i k : Nat}, es.wf i → i ≤ k → msubB vs k es = es
  | .nil, _, _, _, _ => rfl
  | .cons d n e es, i, k, h, hk => by
    simp only [Brs.wf] at h; simp only [msubB]; rw [msub_closed vs e h.1 (by omega), msubB_closed vs es h.2 hk]
end

mutual
/-- Substituting the variable just above a parallel substitution, first. -/
theorem msub_sbst {vs : List Exp} {v : Exp} (hv : v.wf 0) : ∀ (e : Exp) (k : Nat),
    msub vs k (sbst v (vs.length + k) e) = msub (vs ++ [v]) k e
  | .var i, k => by
    simp only [sbst]
    by_cases h1 : i < vs.length + k
    · rw [if_pos h1]
      simp only [msub]
      by_cases h2 : i < k
      · simp [h2]
      · have : i - k < vs.length := by omega
        simp [h2, this, List.getElem?_append_left this]
    · rw [if_neg h1]
      by_cases h2 : i = vs.length + k
      · subst h2; simp only [if_true, msub]
        rw [if_neg (by omega), Nat.add_sub_cancel]
        simp [msub_closed vs v hv (Nat.zero_le _)]
      · rw [if_neg h2]
        simp only [msub]
        rw [if_neg (by omega), if_neg (by omega), List.getElem?_eq_none (by omega),
          List.getElem?_eq_none (by simp; omega)]
        simp only [List.length_append, List.length_singleton]; congr 1; omega
  | .lam e, k => by simp only [msub, sbst]; rw [Nat.add_assoc, msub_sbst hv e]
  | .app e₁ e₂, k => by simp only [msub, sbst, msub_sbst hv e₁, msub_sbst hv e₂]
  | .con d es, k => by simp only [msub, sbst, msubs_sbsts hv es]
  | .mtch e bs, k => by simp only [msub, sbst, msub_sbst hv e, msubB_sbstB hv bs]
  | .letin e₁ e₂, k => by simp only [msub, sbst, msub_sbst hv e₁]; rw [Nat.add_assoc, msub_sbst hv e₂]
  | .fix fs j, k => by
    simp only [msub, sbst, sbstF_len]
    rw [Nat.add_left_comm, msubF_sbstF hv fs]
  | .prf, _ => rfl
  | .pval _, _ => rfl
  | .prim _, _ => rfl
theorem msubs_sbsts {vs : List Exp} {v : Exp} (hv : v.wf 0) : ∀ (e : Exps) (k : Nat),
    msubs vs k (sbsts v (vs.length + k) e) = msubs (vs ++ [v]) k e
  | .nil, _ => rfl
  | .cons e es, k => by simp only [msubs, sbsts, msub_sbst hv e, msubs_sbsts hv es]
theorem msubF_sbstF {vs : List Exp} {v : Exp} (hv : v.wf 0) : ∀ (e : Fns) (k : Nat),
    msubF vs k (sbstF v (vs.length + k) e) = msubF (vs ++ [v]) k e
  | .nil, _ => rfl
  | .cons e es, k => by simp only [msubF, sbstF, msub_sbst hv e, msubF_sbstF hv es]
theorem msubB_sbstB {vs : List Exp} {v : Exp} (hv : v.wf 0) : ∀ (e : Brs) (k : Nat),
    msubB vs k (sbstB v (vs.length + k) e) = msubB (vs ++ [v]) k e
  | .nil, _ => rfl
  | .cons d n e es, k => by
    simp only [msubB, sbstB, msubB_sbstB hv es]
    rw [Nat.add_left_comm, msub_sbst hv e]
end

mutual
/-- Substituting one more variable after a parallel substitution, at the same place. -/
theorem sbst_msub_same {vs : List Exp} {v : Exp} (hc : Closed vs) : ∀ (e : Exp) (k : Nat),
    sbst v k (msub vs k e) = msub (vs ++ [v]) k e
  | .var i, k => by
    simp only [msub]
    by_cases h1 : i < k
    · simp [h1, sbst]
    · simp only [if_neg h1]
      cases hi : vs[i - k]? with
      | some w =>
        have hl := (List.getElem?_eq_some_iff.1 hi).1
        rw [List.getElem?_append_left hl, hi]
        exact sbst_closed v w (hc w (List.mem_of_getElem? hi)) (Nat.zero_le _)
      | none =>
        have hl : vs.length ≤ i - k := by simpa using hi
        rw [List.getElem?_append_right hl]
        simp only [sbst]
        rw [if_neg (by omega)]
        by_cases h2 : i - vs.length = k
        · have : i - k - vs.length = 0 := by omega
          simp [h2, this]
        · obtain ⟨j, hj⟩ : ∃ j, i - k - vs.length = j + 1 := ⟨i - k - vs.length - 1, by omega⟩
          rw [if_neg h2, hj]
          simp only [List.getElem?_cons_succ, List.getElem?_nil, List.length_append, List.length_singleton]
          congr 1
  | .lam e, k => by simp only [msub, sbst]; rw [sbst_msub_same hc e]
  | .app e₁ e₂, k => by simp only [msub, sbst, sbst_msub_same hc e₁, sbst_msub_same hc e₂]
  | .con d es, k => by simp only [msub, sbst, sbsts_msubs_same hc es]
  | .mtch e bs, k => by simp only [msub, sbst, sbst_msub_same hc e, sbstB_msubB_same hc bs]
  | .letin e₁ e₂, k => by simp only [msub, sbst, sbst_msub_same hc e₁, sbst_msub_same hc e₂]
  | .fix fs j, k => by simp only [msub, sbst, msubF_len, sbstF_msubF_same hc fs]
  | .prf, _ => rfl
  | .pval _, _ => rfl
  | .prim _, _ => rfl
theorem sbsts_msubs_same {vs : List Exp} {v : Exp} (hc : Closed vs) : ∀ (e : Exps) (k : Nat),
    sbsts v k (msubs vs k e) = msubs (vs ++ [v]) k e
  | .nil, _ => rfl
  | .cons e es, k => by simp only [msubs, sbsts, sbst_msub_same hc e, sbsts_msubs_same hc es]
theorem sbstF_msubF_same {vs : List Exp} {v : Exp} (hc : Closed vs) : ∀ (e : Fns) (k : Nat),
    sbstF v k (msubF vs k e) = msubF (vs ++ [v]) k e
  | .nil, _ => rfl
  | .cons e es, k => by simp only [msubF, sbstF, sbst_msub_same hc e, sbstF_msubF_same hc es]
theorem sbstB_msubB_same {vs : List Exp} {v : Exp} (hc : Closed vs) : ∀ (e : Brs) (k : Nat),
    sbstB v k (msubB vs k e) = msubB (vs ++ [v]) k e
  | .nil, _ => rfl
  | .cons d n e es, k => by simp only [msubB, sbstB, sbstB_msubB_same hc es, sbst_msub_same hc e]
end

theorem Exps.wf_closed {es : Exps} (h : es.wf 0) : Closed es.list := by
  induction es using Exps.ind with
  | h0 => intro v hv; simp [Exps.list] at hv
  | h1 e es ih =>
    simp only [Exps.wf] at h
    intro v hv
    simp only [Exps.list, List.mem_cons] at hv
    rcases hv with rfl | hv
    · exact h.1
    · exact ih h.2 v hv

@[simp] theorem Exps.length_list (es : Exps) : es.list.length = es.len := by
  induction es using Exps.ind with
  | h0 => rfl
  | h1 e es ih => simp [Exps.list, Exps.len, ih]

theorem sbstList_msub {e : Exp} : ∀ {vs : Exps}, vs.wf 0 → sbstList e vs = msub vs.list.reverse 0 e := by
  intro vs
  induction vs using Exps.ind with
  | h0 => intro _; simp [sbstList, Exps.list, msub_nil]
  | h1 v vs ih =>
    intro h
    simp only [Exps.wf] at h
    simp only [sbstList, Exps.list, List.reverse_cons]
    rw [ih h.2, sbst_msub_same]
    intro w hw; exact Exps.wf_closed h.2 w (by simpa using hw)

theorem foldl_sbst_msub (g : Nat → Exp) : ∀ (L : List Nat) (ws : List Exp) (e : Exp), Closed ws → (∀ k ∈ L, (g k).wf 0) →
    L.foldl (fun e k => sbst (g k) 0 e) (msub ws 0 e) = msub (ws ++ L.map g) 0 e
  | [], ws, e, _, _ => by simp
  | k :: L, ws, e, hc, hg => by
    simp only [List.foldl, List.map_cons]
    rw [sbst_msub_same hc, foldl_sbst_msub g L (ws ++ [g k])]
    · simp
    · intro w hw
      simp only [List.mem_append, List.mem_singleton] at hw
      rcases hw with hw | rfl
      · exact hc w hw
      · exact hg k (List.mem_cons_self ..)
    · exact fun j hj => hg j (List.mem_cons_of_mem _ hj)

theorem sbstFix_msub {fs : Fns} {e : Exp} (hf : fs.wf fs.len) :
    sbstFix fs e = msub ((listToZero fs.len).map (fun k => .fix fs k)) 0 e := by
  have := foldl_sbst_msub (fun k => .fix fs k) (listToZero fs.len) [] e (by intro v hv; simp at hv) (fun k hk => by
    simp only [Exp.wf, Nat.add_zero]; exact ⟨mem_listToZero hk, hf⟩)
  rw [msub_nil] at this
  simpa [sbstFix] using this

end Src
