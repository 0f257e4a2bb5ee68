import Verif.Conv.AnfSim
import Verif.Conv.CpsModel

/-!
# CPS conversion: simulation

The converted program hands the value to its continuation.  `Goes c` says that a program runs into another one after `c`
nested calls; all calls of a converted program are tail calls.
-/

namespace Conv.Cps

open Src (Dcon SVal SRes SRess Mode Data asPrims sprim spap nest seval sevals srun scall sapply sbranch recEnv findBranch)
open ANF (Var Tag Val FO Env Res evalE getList callee run callAt)

variable {P : Params} {S : ANF.Sig} {Q : Mode}

/-! ## Running into another program -/

theorem set_ne {ρ : Env} {x y : Var} {w : Val} (h : y ≠ x) : ρ.set x w y = ρ y := by simp [Env.set, h]
theorem set_eq {ρ : Env} {x : Var} {w : Val} : ρ.set x w x = some w := by simp [Env.set]

/-- After `c` nested calls, `e` in `ρ` is about to run `e₁` in `ρ₁`. -/
structure Goes (S : ANF.Sig) (c : Nat) (ρ : Env) (e : ANF.Exp) (ρ₁ : Env) (e₁ : ANF.Exp) : Prop where
  late : ∀ m, run S (m + c) ρ e = run S m ρ₁ e₁
  early : ∀ n, n < c → run S n ρ e = .oot

theorem Goes.trans {c₁ c₂ ρ e ρ₁ e₁ ρ₂ e₂} (h₁ : Goes S c₁ ρ e ρ₁ e₁) (h₂ : Goes S c₂ ρ₁ e₁ ρ₂ e₂) :
    Goes S (c₁ + c₂) ρ e ρ₂ e₂ := by
  constructor
  · intro m
    rw [show m + (c₁ + c₂) = (m + c₂) + c₁ by omega, h₁.late, h₂.late]
  · intro n hn
    by_cases h : n < c₁
    · exact h₁.early n h
    · obtain ⟨m, rfl⟩ : ∃ m, n = m + c₁ := ⟨n - c₁, by omega⟩
      rw [h₁.late]; exact h₂.early m (by omega)

theorem Goes.inline {ρ e ρ₁ e₁} (h : ∀ n, run S n ρ e = run S n ρ₁ e₁) : Goes S 0 ρ e ρ₁ e₁ :=
  ⟨h, fun _ h => absurd h (Nat.not_lt_zero _)⟩

theorem Goes.call {ρ f ft ys ρ' eb} (h : callee ρ f ft ys = some (ρ', eb)) : Goes S 1 ρ (.app f ft ys) ρ' eb := by
  constructor
  · intro m; exact ANF.run_app h
  · intro n hn
    obtain rfl : n = 0 := by omega
    simp only [run, evalE, h]

theorem run_anti {n m ρ e} (h : n ≤ m) (ho : run S m ρ e = .oot) : run S n ρ e = .oot := by
  cases hr : run S n ρ e with
  | oot => rfl
  | val v =>
    have := ANF.run_mono h (by rw [hr]; trivial : (run S n ρ e).Done)
    rw [ho, hr] at this; cases this
  | stuck =>
    have := ANF.run_mono h (by rw [hr]; trivial : (run S n ρ e).Done)
    rw [ho, hr] at this; cases this

theorem Goes.oot {c ρ e ρ₁ e₁ n} (h : Goes S c ρ e ρ₁ e₁) (ho : run S n ρ₁ e₁ = .oot) : run S n ρ e = .oot := by
  by_cases hn : n < c
  · exact h.early n hn
  · obtain ⟨m, rfl⟩ : ∃ m, n = m + c := ⟨n - c, by omega⟩
    rw [h.late]; exact run_anti (by omega) ho

theorem Goes.callOot {c ρ e ρ₁ e₁ n} (h : Goes S c ρ e ρ₁ e₁) (hc : 0 < c) (ho : callAt S n ρ₁ e₁ = .oot) :
    run S n ρ e = .oot := by
  by_cases hn : n < c
  · exact h.early n hn
  · obtain ⟨m, rfl⟩ : ∃ m, n = m + c := ⟨n - c, by omega⟩
    rw [h.late]
    obtain ⟨j, hj⟩ : ∃ j, m + c = j + 1 := ⟨m + c - 1, by omega⟩
    rw [hj] at ho
    exact run_anti (by omega) (show run S j ρ₁ e₁ = .oot from ho)

/-! ## Bounds on the variables -/

theorem cpsPrim_bound {p : Nat} : ∀ (m : Nat) (args : List Var) (k : Var) (n : Nat), n ≤ (cpsPrim P p m args k n).2
  | 0, args, k, n => Nat.le_succ n
  | m + 1, args, k, n => Nat.le_trans (by vomega : n ≤ n + 3) (cpsPrim_bound (p := p) m (n :: args) (n + 1) (n + 3))

mutual
theorem cps_bound : ∀ (e : Src.Exp) {vn k n e' n'}, e.wfp P.arity vn.length → cps P e vn k n = some (e', n') → n ≤ n'
  | .var i, vn, k, n, e', n', hw, h => by
    simp only [cps] at h
    split at h <;> simp at h
    vomega
  | .app e₁ e₂, vn, k, n, e', n', hw, h => by
    simp only [Src.Exp.wfp] at hw
    simp only [cps] at h
    split at h <;> try simp at h
    rename_i h₁
    split at h <;> simp at h
    rename_i h₂
    have a := cps_bound e₁ hw.1 h₁
    have b := cps_bound e₂ hw.2 h₂
    vomega
  | .lam e, vn, k, n, e', n', hw, h => by
    simp only [Src.Exp.wfp] at hw
    simp only [cps] at h
    split at h <;> simp at h
    rename_i h₁
    have a := cps_bound e (by simpa [Nat.add_comm] using hw) h₁
    vomega
  | .letin e₁ e₂, vn, k, n, e', n', hw, h => by
    simp only [Src.Exp.wfp] at hw
    simp only [cps] at h
    split at h <;> try simp at h
    rename_i h₁
    split at h <;> simp at h
    rename_i h₂
    have a := cps_bound e₂ (by simpa [Nat.add_comm] using hw.2) h₁
    have b := cps_bound e₁ hw.1 h₂
    vomega
  | .con d es, vn, k, n, e', n', hw, h => by
    simp only [Src.Exp.wfp] at hw
    simp only [cps, freshList_spec] at h
    have a := cpss_bound es hw h
    vomega
  | .fix fs i, vn, k, n, e', n', hw, h => by
    simp only [Src.Exp.wfp] at hw
    simp only [cps, freshList_spec] at h
    split at h <;> try simp at h
    rename_i h₁
    split at h <;> simp at h
    have a := cpsF_bound fs (by simpa using hw.2) h₁
    vomega
  | .mtch e bs, vn, k, n, e', n', hw, h => by
    simp only [Src.Exp.wfp] at hw
    simp only [cps] at h
    split at h <;> try simp at h
    rename_i h₁
    split at h <;> simp at h
    rename_i h₂
    have a := cps_bound e hw.1 h₁
    have b := cpsB_bound bs hw.2 h₂
    vomega
  | .prf, vn, k, n, e', n', hw, h => by simp only [cps, Option.some.injEq, Prod.mk.injEq] at h; vomega
  | .pval p, vn, k, n, e', n', hw, h => by simp only [cps, Option.some.injEq, Prod.mk.injEq] at h; vomega
  | .prim p, vn, k, n, e', n', hw, h => by
    simp only [cps] at h
    split at h <;> simp at h
    rename_i m _
    have := cpsPrim_bound (P := P) (p := p) m [] k n
    rw [h] at this; exact this
theorem cpss_bound : ∀ (es : Src.Exps) {vn a xs ks n e' n'}, es.wfp P.arity vn.length → cpss P es vn a xs ks n = some (e', n') →
    n ≤ n'
  | .nil, vn, a, xs, ks, n, e', n', hw, h => by simp only [cpss, Option.some.injEq, Prod.mk.injEq] at h; vomega
  | .cons e es, vn, a, [], ks, n, e', n', hw, h => by simp [cpss] at h
  | .cons e es, vn, a, _ :: _, [], n, e', n', hw, h => by simp [cpss] at h
  | .cons e es, vn, a, x :: xs, k :: ks, n, e', n', hw, h => by
    simp only [Src.Exps.wfp] at hw
    simp only [cpss] at h
    split at h <;> try simp at h
    rename_i h₁
    split at h <;> simp at h
    rename_i h₂
    have a := cps_bound e hw.1 h₁
    have b := cpss_bound es hw.2 h₂
    vomega
theorem cpsF_bound : ∀ (fs : Src.Fns) {vn names n B n'}, fs.wfp P.arity vn.length → cpsF P fs vn names n = some (B, n') → n ≤ n'
  | .nil, vn, names, n, B, n', hw, h => by simp only [cpsF, Option.some.injEq, Prod.mk.injEq] at h; vomega
  | .cons (.lam e) fs, vn, names, n, B, n', hw, h => by
    simp only [Src.Fns.wfp, Src.Exp.wfp] at hw
    simp only [cpsF] at h
    split at h <;> try simp at h
    rename_i h₁
    split at h <;> simp at h
    rename_i h₂
    have a := cps_bound e (by simpa [Nat.add_comm] using hw.1) h₁
    have b := cpsF_bound fs hw.2.2 h₂
    vomega
  | .cons (.var _) _, _, _, _, _, _, _, h => by simp [cpsF] at h
  | .cons (.app _ _) _, _, _, _, _, _, _, h => by simp [cpsF] at h
  | .cons (.con _ _) _, _, _, _, _, _, _, h => by simp [cpsF] at h
  | .cons (.mtch _ _) _, _, _, _, _, _, _, h => by simp [cpsF] at h
  | .cons (.letin _ _) _, _, _, _, _, _, _, h => by simp [cpsF] at h
  | .cons (.fix _ _) _, _, _, _, _, _, _, h => by simp [cpsF] at h
  | .cons (.prf) _, _, _, _, _, _, _, h => by simp [cpsF] at h
  | .cons (.pval _) _, _, _, _, _, _, _, h => by simp [cpsF] at h
  | .cons (.prim _) _, _, _, _, _, _, _, h => by simp [cpsF] at h
theorem cpsB_bound : ∀ (bs : Src.Brs) {vn k r n pats n'}, bs.wfp P.arity vn.length → cpsB P bs vn k r n = some (pats, n') → n ≤ n'
  | .nil, vn, k, r, n, pats, n', hw, h => by simp only [cpsB, Option.some.injEq, Prod.mk.injEq] at h; vomega
  | .cons d m e bs, vn, k, r, n, pats, n', hw, h => by
    simp only [Src.Brs.wfp] at hw
    simp only [cpsB, freshList_spec] at h
    split at h <;> try simp at h
    rename_i h₁
    split at h <;> simp at h
    rename_i h₂
    have a := cpsB_bound bs hw.2 h₁
    have b := cps_bound e (by simpa using hw.1) h₂
    vomega
end

/-! ## Values -/

variable {cenv : Ctor.PMap Ctor.Info}

mutual
/-- A LambdaANF value represents a source value; functions take a continuation first. -/
inductive VRel (P : Params) (cenv : Ctor.PMap Ctor.Info) : SVal → Val → Prop
  | con {d vs ws} : VRels P cenv vs ws → VRel P cenv (.con d vs) (.constr (P.tag d) ws)
  | prf : VRel P cenv .prf (.constr P.defaultTag [])
  | prim {p} : VRel P cenv (.prim p) (.prim p)
  | clos {ρ vn n e e' n' ρ'} : ERel P cenv ρ vn ρ' → Below vn n → cps P e (n :: vn) (n + 2) (n + 3) = some (e', n') →
      e.wfp P.arity (vn.length + 1) → okE P cenv e →
      VRel P cenv (.clos ρ e) (.fn ρ' (one (n + 1) P.funTag [n + 2, n] e') (n + 1))
  | fixc {ρ vn n fs B n' ρ' i} : ERel P cenv ρ vn ρ' → Below vn n →
      cpsF P fs ((List.range' n fs.len).reverse ++ vn) (List.range' n fs.len) (n + fs.len) = some (B, n') →
      fs.wfp P.arity (fs.len + vn.length) → okF P cenv fs → i < fs.len → VRel P cenv (.fixc ρ fs i) (.fn ρ' B (n + i))
  | pap {p m vs ws args n ρ'} : VRels P cenv vs ws → getList ρ' args.reverse = some ws → Below args n →
      VRel P cenv (.pap p m vs) (.fn ρ' (one (n + 2) P.funTag [n + 1, n] (cpsPrim P p m (n :: args) (n + 1) (n + 3)).1) (n + 2))
/-- The same for lists. -/
inductive VRels (P : Params) (cenv : Ctor.PMap Ctor.Info) : List SVal → List Val → Prop
  | nil : VRels P cenv [] []
  | cons {v w vs ws} : VRel P cenv v w → VRels P cenv vs ws → VRels P cenv (v :: vs) (w :: ws)
/-- The variables `vn` hold the values of a source environment. -/
inductive ERel (P : Params) (cenv : Ctor.PMap Ctor.Info) : List SVal → List Var → Env → Prop
  | nil {ρ'} : ERel P cenv [] [] ρ'
  | cons {v ρ y vn ρ' w} : ρ' y = some w → VRel P cenv v w → ERel P cenv ρ vn ρ' → ERel P cenv (v :: ρ) (y :: vn) ρ'
end

theorem ERel.get {ρ vn ρ'} : ERel P cenv ρ vn ρ' → ∀ {i : Nat} {v y}, ρ[i]? = some v → vn[i]? = some y →
    ∃ w, ρ' y = some w ∧ VRel P cenv v w := by
  induction ρ generalizing vn with
  | nil => intro h i v y hv; simp at hv
  | cons u ρ ih =>
    intro h i v y hv hy
    cases h with
    | cons h1 h2 h3 =>
      cases i with
      | zero => simp at hv hy; subst hv; subst hy; exact ⟨_, h1, h2⟩
      | succ i => exact ih h3 (by simpa using hv) (by simpa using hy)

theorem ERel.agree {ρ vn ρ' ρ''} : ERel P cenv ρ vn ρ' → (∀ y ∈ vn, ρ'' y = ρ' y) → ERel P cenv ρ vn ρ'' := by
  induction ρ generalizing vn with
  | nil => intro h _; cases h; exact .nil
  | cons u ρ ih =>
    intro h ha
    cases h with
    | cons h1 h2 h3 => exact .cons (by rw [ha _ (by simp)]; exact h1) h2 (ih h3 (fun y hy => ha y (by simp [hy])))

theorem ERel.append {ρ₁ vn₁ ρ₂ vn₂ ρ'} : ERel P cenv ρ₁ vn₁ ρ' → ERel P cenv ρ₂ vn₂ ρ' →
    ERel P cenv (ρ₁ ++ ρ₂) (vn₁ ++ vn₂) ρ' := by
  induction ρ₁ generalizing vn₁ with
  | nil => intro h h'; cases h; exact h'
  | cons u ρ ih => intro h h'; cases h with | cons h1 h2 h3 => exact .cons h1 h2 (ih h3 h')

theorem VRels.len {vs ws} : VRels P cenv vs ws → vs.length = ws.length := by
  induction vs generalizing ws with
  | nil => intro h; cases h; rfl
  | cons v vs ih => intro h; cases h with | cons _ h => simp [ih h]

theorem VRels.get {vs ws} : VRels P cenv vs ws → ∀ {i : Nat} {v}, vs[i]? = some v → ∃ w, ws[i]? = some w ∧ VRel P cenv v w := by
  induction vs generalizing ws with
  | nil => intro h i v hv; simp at hv
  | cons u vs ih =>
    intro h i v hv
    cases h with
    | cons h1 h2 =>
      cases i with
      | zero => simp at hv; subst hv; exact ⟨_, rfl, h1⟩
      | succ i => obtain ⟨w, h⟩ := ih h2 (i := i) (by simpa using hv); exact ⟨w, by simpa using h.1, h.2⟩

theorem ERel.recs {f : Nat → SVal} {g : Nat → Var} {ρ' : Env} : ∀ (l : List Nat), (∀ n ∈ l, ∃ w, ρ' (g n) = some w ∧
    VRel P cenv (f n) w) → ERel P cenv (l.map f) (l.map g) ρ'
  | [], _ => .nil
  | n :: l, h => by
    obtain ⟨w, h1, h2⟩ := h n (by simp)
    exact .cons h1 h2 (ERel.recs l (fun m hm => h m (by simp [hm])))

/-! ## Recursive functions -/

theorem cpsF_names : ∀ (fs : Src.Fns) {names vn n B n'}, cpsF P fs vn names n = some (B, n') → names.length = fs.len →
    B.names = names
  | .nil, names, vn, n, B, n', h, hl => by
    simp only [cpsF, Option.some.injEq, Prod.mk.injEq] at h
    obtain ⟨rfl, rfl⟩ := h
    have hn : names = [] := List.eq_nil_of_length_eq_zero (by simpa [Src.Fns.len] using hl)
    rw [hn]; rfl
  | .cons (.lam e) fs, [], vn, n, B, n', h, hl => by simp [Src.Fns.len] at hl
  | .cons (.lam e) fs, f :: names, vn, n, B, n', h, hl => by
    simp only [cpsF] at h
    split at h <;> try simp at h
    split at h <;> simp at h
    rename_i h₂
    obtain ⟨rfl, rfl⟩ := h
    have := cpsF_names fs h₂ (by simpa [Src.Fns.len] using hl)
    simp only [ANF.Defs.names, this]
  | .cons (.var _) _, _, _, _, _, _, h, _ => by simp [cpsF] at h
  | .cons (.app _ _) _, _, _, _, _, _, h, _ => by simp [cpsF] at h
  | .cons (.con _ _) _, _, _, _, _, _, h, _ => by simp [cpsF] at h
  | .cons (.mtch _ _) _, _, _, _, _, _, h, _ => by simp [cpsF] at h
  | .cons (.letin _ _) _, _, _, _, _, _, h, _ => by simp [cpsF] at h
  | .cons (.fix _ _) _, _, _, _, _, _, h, _ => by simp [cpsF] at h
  | .cons (.prf) _, _, _, _, _, _, h, _ => by simp [cpsF] at h
  | .cons (.pval _) _, _, _, _, _, _, h, _ => by simp [cpsF] at h
  | .cons (.prim _) _, _, _, _, _, _, h, _ => by simp [cpsF] at h

/-- The `i`-th definition converts the `i`-th function. -/
theorem cpsF_find : ∀ (fs : Src.Fns) {names vn n B n'}, cpsF P fs vn names n = some (B, n') → names.length = fs.len →
    names.Nodup → fs.wfp P.arity vn.length → okF P cenv fs → ∀ {i : Nat} {f e}, names[i]? = some f → fs.nth i = some (.lam e) →
    ∃ m e' m', n ≤ m ∧ cps P e (m :: vn) (m + 1) (m + 2) = some (e', m') ∧ e.wfp P.arity (vn.length + 1) ∧ okE P cenv e ∧
      ANF.findDef f B = some (P.funTag, [m + 1, m], e')
  | .nil, names, vn, n, B, n', h, hl => by intro _ _ _ i f e hn he; simp [Src.Fns.nth] at he
  | .cons (.lam e) fs, [], vn, n, B, n', h, hl => by simp [Src.Fns.len] at hl
  | .cons (.lam e) fs, f :: names, vn, n, B, n', h, hl => by
    simp only [cpsF] at h
    split at h <;> try simp at h
    rename_i e₁ n₁ h₁
    split at h <;> simp at h
    rename_i B' n₂ h₂
    obtain ⟨rfl, rfl⟩ := h
    intro hnd hw hok i f' e' hn he
    simp only [Src.Fns.wfp, Src.Exp.wfp] at hw
    simp only [okF, okE] at hok
    have hk := cps_bound e (by simpa [Nat.add_comm] using hw.1) h₁
    cases i with
    | zero =>
      simp only [Src.Fns.nth, Option.some.injEq, Src.Exp.lam.injEq] at he
      subst he
      simp at hn; subst hn
      exact ⟨n, e₁, n₁, Nat.le_refl _, h₁, by simpa [Nat.add_comm] using hw.1, hok.1, by simp [ANF.findDef]⟩
    | succ i =>
      simp only [Src.Fns.nth] at he
      obtain ⟨m, e₂, m', a, b, c, d, hf⟩ := cpsF_find fs h₂ (by simpa [Src.Fns.len] using hl) (List.nodup_cons.1 hnd).2
        hw.2.2 hok.2 (i := i) (by simpa using hn) he
      refine ⟨m, e₂, m', by vomega, b, c, d, ?_⟩
      have hm : f' ∈ names := List.mem_of_getElem? (by simpa using hn)
      have : f' ≠ f := by rintro rfl; exact (List.nodup_cons.1 hnd).1 hm
      simp only [ANF.findDef, if_neg this, hf]
  | .cons (.var _) _, _, _, _, _, _, h, _ => by simp [cpsF] at h
  | .cons (.app _ _) _, _, _, _, _, _, h, _ => by simp [cpsF] at h
  | .cons (.con _ _) _, _, _, _, _, _, h, _ => by simp [cpsF] at h
  | .cons (.mtch _ _) _, _, _, _, _, _, h, _ => by simp [cpsF] at h
  | .cons (.letin _ _) _, _, _, _, _, _, h, _ => by simp [cpsF] at h
  | .cons (.fix _ _) _, _, _, _, _, _, h, _ => by simp [cpsF] at h
  | .cons (.prf) _, _, _, _, _, _, h, _ => by simp [cpsF] at h
  | .cons (.pval _) _, _, _, _, _, _, h, _ => by simp [cpsF] at h
  | .cons (.prim _) _, _, _, _, _, _, h, _ => by simp [cpsF] at h

/-- The environment of the body of a recursive function. -/
theorem ERel.fixEnv {ρ vn n fs B n' ρ'} (hE : ERel P cenv ρ vn ρ') (hb : Below vn n)
    (hc : cpsF P fs ((List.range' n fs.len).reverse ++ vn) (List.range' n fs.len) (n + fs.len) = some (B, n'))
    (hw : fs.wfp P.arity (fs.len + vn.length)) (hok : okF P cenv fs) :
    ERel P cenv (recEnv fs ρ) ((List.range' n fs.len).reverse ++ vn) (ANF.defFuns B B ρ' ρ') := by
  have hn := cpsF_names fs hc (by simp)
  refine ERel.append ?_ ?_
  · rw [listToZero_eq, range'_eq_map, ← List.map_reverse]
    refine ERel.recs _ fun i hi => ?_
    have hi : i < fs.len := by simpa using hi
    refine ⟨_, defFuns_mem (by rw [hn]; simp [List.mem_range']; vomega), ?_⟩
    exact .fixc hE hb hc hw hok hi
  · refine hE.agree fun y hy => defFuns_not_mem ?_
    rw [hn]; intro hm
    have := hb y hy
    simp [List.mem_range'] at hm; vomega

/-! ## Branches -/

theorem cpsB_tags : ∀ (bs : Src.Brs) {vn k r n pats n'}, cpsB P bs vn k r n = some (pats, n') →
    pats.tags = (dcons bs).map P.tag
  | .nil, vn, k, r, n, pats, n', h => by
    simp only [cpsB, Option.some.injEq, Prod.mk.injEq] at h
    obtain ⟨rfl, rfl⟩ := h; rfl
  | .cons d m e bs, vn, k, r, n, pats, n', h => by
    simp only [cpsB] at h
    split at h <;> try simp at h
    rename_i ps k₁ h₁
    split at h <;> simp at h
    obtain ⟨rfl, rfl⟩ := h
    simp only [ANF.Brs.tags, dcons, List.map_cons, cpsB_tags bs h₁]

theorem cpsB_find : ∀ (bs : Src.Brs) {vn k r n pats n'}, cpsB P bs vn k r n = some (pats, n') →
    bs.wfp P.arity vn.length → okB P cenv bs → ∀ {d m e}, findBranch d m bs = some e →
    (∀ d' ∈ dcons bs, P.tag d = P.tag d' → d = d') →
    ∃ nb e' nb', n ≤ nb ∧ cps P e (List.range' nb m ++ vn) k (nb + m) = some (e', nb') ∧ e.wfp P.arity (m + vn.length) ∧
      okE P cenv e ∧ ANF.findTag (P.tag d) pats = some ((ctxBindProj (P.tag d) r (List.range' nb m) m).fill e')
  | .nil, vn, k, r, n, pats, n', h => by intro _ _ d m e he; simp [findBranch] at he
  | .cons d' m' e' bs, vn, k, r, n, pats, n', h => by
    simp only [cpsB, freshList_spec] at h
    split at h <;> try simp at h
    rename_i ps n₁ h₁
    split at h <;> simp at h
    rename_i e₁ n₂ h₂
    obtain ⟨rfl, rfl⟩ := h
    intro hw hok d m e he hinj
    simp only [Src.Brs.wfp] at hw
    simp only [okB] at hok
    simp only [findBranch] at he
    have hk := cpsB_bound bs hw.2 h₁
    split at he
    · rename_i hd
      subst hd
      split at he <;> simp at he
      rename_i hm
      subst hm; subst he
      exact ⟨n₁, e₁, n₂, hk, h₂, hw.1, hok.1, by simp [ANF.findTag]⟩
    · rename_i hd
      obtain ⟨nb, e'', nb', a, b, c, d1, hf⟩ := cpsB_find bs h₁ hw.2 hok.2 he
        (fun d'' hd'' => hinj d'' (by simp [dcons, hd'']))
      refine ⟨nb, e'', nb', a, b, c, d1, ?_⟩
      have : P.tag d' ≠ P.tag d := fun h => hd (hinj d' (by simp [dcons]) h.symm)
      simp only [ANF.findTag, if_neg this, hf]

/-- Running the projections of a branch. -/
theorem run_ctxBindProj {t : Tag} {r : Var} {vs : List SVal} {ws : List Val} (hv : VRels P cenv vs ws) :
    ∀ (m kb : Nat) (ρ : Env), ρ r = some (.constr t ws) → r < kb → m ≤ vs.length →
    ∃ ρ'', (∀ n e, run S n ρ ((ctxBindProj t r (List.range' kb m) m).fill e) = run S n ρ'' e) ∧
      (∀ y, y < kb → ρ'' y = ρ y) ∧ ERel P cenv (vs.take m).reverse (List.range' kb m) ρ''
  | 0, kb, ρ, hr, hk, hm => ⟨ρ, fun n e => rfl, fun _ _ => rfl, by simpa using ERel.nil⟩
  | m + 1, kb, ρ, hr, hk, hm => by
    have hlt : m < vs.length := by vomega
    have hvm : vs[m]? = some vs[m] := List.getElem?_eq_getElem hlt
    obtain ⟨w, hw, hvw⟩ := hv.get hvm
    have hrk : r ≠ kb := by vomega
    obtain ⟨ρ'', h1, h2, h3⟩ := run_ctxBindProj (t := t) (r := r) hv m (kb + 1) (ρ.set kb w)
      (by simp [Env.set, hrk, hr]) (by vomega) (by vomega)
    refine ⟨ρ'', ?_, ?_, ?_⟩
    · intro n e
      rw [List.range'_succ]
      simp only [ctxBindProj, Ctx.fill, Nat.add_sub_cancel]
      rw [ANF.run_proj hr hw]; exact h1 n e
    · intro y hy
      rw [h2 y (by vomega)]
      have : y ≠ kb := by vomega
      simp [Env.set, this]
    · rw [List.range'_succ, List.take_succ_eq_append_getElem hlt, List.reverse_append]
      refine .cons (w := w) ?_ hvw h3
      rw [h2 kb (by vomega)]; simp [Env.set]

/-! ## Continuations -/

/-- The environment after a continuation has been bound. -/
def kenv (P : Params) (ρ : Env) (k x : Var) (b : ANF.Exp) : Env := ρ.set k (.fn ρ (one k P.konTag [x] b) k)

theorem run_kont {n ρ k x b e} : run S n ρ (.fn (one k P.konTag [x] b) e) = run S n (kenv P ρ k x b) e := ANF.run_fn

/-- `kv` is a continuation; given `w` it runs `(κ w).2` in `(κ w).1`. -/
def IsKont (P : Params) (kv : Val) (κ : Val → Env × ANF.Exp) : Prop :=
  ∀ (ρ : Env) (k y : Var) (w : Val), ρ k = some kv → ρ y = some w → callee ρ k P.konTag [y] = some (κ w)

theorem isKont_one (ρ : Env) (k x : Var) (b : ANF.Exp) :
    IsKont P (.fn ρ (one k P.konTag [x] b) k) (fun w => ((kenv P ρ k x b).set x w, b)) := by
  intro ρ₁ k₁ y w h1 h2
  simp [callee, h1, h2, getList, ANF.findDef, ANF.setLists, kenv, ANF.defFuns]

theorem Goes.kont {ρ k y kv w κ} (hk : IsKont P kv κ) (h1 : ρ k = some kv) (h2 : ρ y = some w) :
    Goes S 1 ρ (.app k P.konTag [y]) (κ w).1 (κ w).2 := Goes.call (hk ρ k y w h1 h2)

/-! ## The simulation -/

/-- What running a converted program does, given the source result. -/
def Out (P : Params) (S : ANF.Sig) (n : Nat) (ρ' : Env) (e' : ANF.Exp) (κ : Val → Env × ANF.Exp) : SRes → Prop
  | .val v => ∃ w c, 0 < c ∧ VRel P S.cenv v w ∧ Goes S c ρ' e' (κ w).1 (κ w).2
  | .oot => run S n ρ' e' = .oot
  | .stuck => True

/-- The same one level down. -/
def OutC (P : Params) (S : ANF.Sig) (n : Nat) (ρ' : Env) (e' : ANF.Exp) (κ : Val → Env × ANF.Exp) : SRes → Prop
  | .val v => ∃ w c, 0 < c ∧ VRel P S.cenv v w ∧ Goes S c ρ' e' (κ w).1 (κ w).2
  | .oot => callAt S n ρ' e' = .oot
  | .stuck => True

/-- The same for argument lists. -/
def Outs (P : Params) (S : ANF.Sig) (n : Nat) (ρ' : Env) (e' a : ANF.Exp) (xs ks : List Var) : SRess → Prop
  | .vals vs => ∃ c ws ρ'', Goes S c ρ' e' ρ'' a ∧ (∀ y, y ∉ xs ++ ks → ρ'' y = ρ' y) ∧ getList ρ'' xs = some ws ∧
      VRels P S.cenv vs ws
  | .oot => run S n ρ' e' = .oot
  | .stuck => True

theorem Out.goes {n c ρ e ρ₁ e₁ κ r} (h : Goes S c ρ e ρ₁ e₁) (o : Out P S n ρ₁ e₁ κ r) : Out P S n ρ e κ r := by
  cases r with
  | val v => obtain ⟨w, c', h1, h2, h3⟩ := o; exact ⟨w, c + c', by omega, h2, h.trans h3⟩
  | oot => exact h.oot o
  | stuck => trivial

theorem OutC.goes {n c ρ e ρ₁ e₁ κ r} (h : Goes S c ρ e ρ₁ e₁) (hc : 0 < c) (o : OutC P S n ρ₁ e₁ κ r) :
    Out P S n ρ e κ r := by
  cases r with
  | val v => obtain ⟨w, c', h1, h2, h3⟩ := o; exact ⟨w, c + c', by omega, h2, h.trans h3⟩
  | oot => exact h.callOot hc o
  | stuck => trivial

/-! ## Primitive operations -/

mutual
theorem data_rel : ∀ d : Data, VRel P cenv d.toSVal (toFO P.tag P.defaultTag d).toVal
  | .con _ _ ds => .con (datas_rel ds)
  | .prim _ => .prim
  | .box => .prf
theorem datas_rel : ∀ ds : List Data, VRels P cenv (Data.toSVals ds) (FO.toVals (toFOs P.tag P.defaultTag ds))
  | [] => .nil
  | d :: ds => .cons (data_rel d) (datas_rel ds)
end

theorem VRels.prims : ∀ {vs : List SVal} {ws : List Val} {ps}, VRels P cenv vs ws → asPrims vs = some ps →
    ANF.asPrims ws = some ps
  | [], ws, ps, h, e => by cases h; exact e
  | v :: vs, ws, ps, h, e => by
    cases h with
    | cons h1 h2 =>
      cases h1 with
      | prim =>
        simp only [asPrims, Option.map_eq_some_iff] at e
        obtain ⟨qs, e1, rfl⟩ := e
        simp only [ANF.asPrims, h2.prims e1, Option.map_some]
      | _ => simp [asPrims] at e

theorem VRels.snoc {vs : List SVal} {ws : List Val} {v w} (h : VRels P cenv vs ws) (hv : VRel P cenv v w) :
    VRels P cenv (vs ++ [v]) (ws ++ [w]) := by
  induction vs generalizing ws with
  | nil => cases h; exact .cons hv .nil
  | cons u vs ih => cases h with | cons h1 h2 => exact .cons h1 (ih h2)

/-- Running the code of a primitive operation. -/
theorem prim_sim (hQ : OpsOk P S Q) {p : Nat} {vs : List SVal} {ws : List Val} {args : List Var} {ρ' : Env} {kv κ} {k : Var}
    (hv : VRels P S.cenv vs ws) (hg : getList ρ' args.reverse = some ws) (hkv : ρ' k = some kv) (hκ : IsKont P kv κ) (n : Nat) :
    ∀ (m : Nat) {nx : Nat}, Below args nx → k < nx → Out P S n ρ' (cpsPrim P p m args k nx).1 κ (spap Q p m vs)
  | 0, nx, hb, hk => by
    simp only [spap, sprim, cpsPrim]
    cases hps : asPrims vs with
    | none => trivial
    | some ps =>
      simp only
      cases ho : Q.op p ps with
      | none => trivial
      | some d =>
        have e : S.op p ws = some (toFO P.tag P.defaultTag d).toVal := by
          simp only [ANF.Sig.op, hv.prims hps, hQ.op p ps d ho, Option.map_some]
        refine ⟨_, 0 + 1, by omega, data_rel d, Goes.trans (Goes.inline fun n => ANF.run_prim hg e) (Goes.kont hκ ?_ set_eq)⟩
        rw [set_ne (by vomega), hkv]
  | m + 1, nx, hb, hk => by
    refine ⟨_, 0 + 1, by omega, .pap hv hg hb, Goes.trans (Goes.inline fun n => ANF.run_fn) (Goes.kont hκ ?_ ?_)⟩
    · rw [ANF.defFuns, ANF.defFuns, set_ne (by vomega), hkv]
    · rw [ANF.defFuns, set_eq]

/-- Calls correspond. -/
def CallOk (P : Params) (S : ANF.Sig) (Q : Mode) (n : Nat) : Prop :=
  ∀ {e vn k nx e' nx' ρ ρ' kv κ}, cps P e vn k nx = some (e', nx') → Below vn nx → k < nx → e.wfp P.arity vn.length →
    okE P S.cenv e → ERel P S.cenv ρ vn ρ' → ρ' k = some kv → IsKont P kv κ → OutC P S n ρ' e' κ (scall Q n ρ e)

/-- Applying a represented function. -/
theorem apply_sim {n} (hQ : OpsOk P S Q) (hc : CallOk P S Q n) {f v wf wv kv κ} {ρ : Env} {x y k : Var} (hf : VRel P S.cenv f wf)
    (hv : VRel P S.cenv v wv) (hx : ρ x = some wf) (hy : ρ y = some wv) (hk : ρ k = some kv) (hκ : IsKont P kv κ) :
    Out P S n ρ (.app x P.funTag [k, y]) κ (sapply Q (scall Q n) f v) := by
  cases hf with
  | con _ => trivial
  | prf => simp only [sapply, hQ.bx]; trivial
  | prim => trivial
  | @pap p m vs ws args nx ρ' hvs hg hb =>
    simp only [sapply]
    have hcal : callee ρ x P.funTag [k, y] = some (((ρ'.set (nx + 2) (.fn ρ' (one (nx + 2) P.funTag [nx + 1, nx]
        (cpsPrim P p m (nx :: args) (nx + 1) (nx + 3)).1) (nx + 2))).set nx wv).set (nx + 1) kv,
        (cpsPrim P p m (nx :: args) (nx + 1) (nx + 3)).1) := by
      simp [callee, hx, hy, hk, getList, ANF.findDef, ANF.setLists, ANF.defFuns]
    cases n with
    | zero => exact (Goes.call (S := S) hcal).early 0 (by omega)
    | succ n =>
      have e : nest (scall Q (n + 1)) (spap Q p m (vs ++ [v])) = spap Q p m (vs ++ [v]) := by
        have : scall Q (n + 1) [] .prf = .val .prf := by show srun Q n [] .prf = _; rw [Src.srun_scall]; rfl
        simp only [nest, this]
      rw [e]
      refine Out.goes (Goes.call hcal) (prim_sim hQ (hvs.snoc hv) ?_ set_eq hκ _ m ((hb.mono (by vomega)).cons (by vomega)) (by vomega))
      rw [List.reverse_cons]
      refine getList_snoc (by rw [set_ne (by vomega), set_eq]) ?_
      rw [← hg]
      refine getList_agree fun z hz => ?_
      have := hb z (by simpa using hz)
      rw [set_ne (by vomega), set_ne (by vomega), set_ne (by vomega)]
  | @clos ρs vn nx e e' nx' ρ' hE hb hcv hw hok =>
    simp only [sapply]
    have hcal : callee ρ x P.funTag [k, y] = some (((ρ'.set (nx + 1) (.fn ρ' (one (nx + 1) P.funTag [nx + 2, nx] e') (nx + 1))).set
        nx wv).set (nx + 2) kv, e') := by
      simp [callee, hx, hy, hk, getList, ANF.findDef, ANF.setLists, ANF.defFuns]
    refine OutC.goes (Goes.call hcal) (by omega) (hc hcv ((hb.mono (by vomega)).cons (by vomega)) (by vomega)
      (by simpa using hw) hok ?_ set_eq hκ)
    refine .cons (w := wv) (by rw [set_ne (by vomega), set_eq]) hv (hE.agree fun z hz => ?_)
    have := hb z hz
    rw [set_ne (by vomega), set_ne (by vomega), set_ne (by vomega)]
  | @fixc ρs vn n₀ fs B n' ρ' i hE hb hcv hw hok hi =>
    simp only [sapply]
    rcases hnth : fs.nth i with _ | b
    · trivial
    cases b with
    | lam e =>
      simp only
      have hname : (List.range' n₀ fs.len)[i]? = some (n₀ + i) := by
        rw [List.getElem?_range' hi]; simp
      obtain ⟨m, e', m', h1, h2, h3, h4, h5⟩ := cpsF_find fs hcv (by simp) List.nodup_range'
        (by simpa using hw) hok hname hnth
      have hcal : callee ρ x P.funTag [k, y] = some (((ANF.defFuns B B ρ' ρ').set m wv).set (m + 1) kv, e') := by
        simp [callee, hx, hy, hk, getList, h5, ANF.setLists]
      have hbf := below_fix hb fs.len
      refine OutC.goes (Goes.call hcal) (by omega) (hc h2 ((hbf.mono (by vomega)).cons (by vomega)) (by vomega)
        (by simpa using h3) h4 ?_ set_eq hκ)
      refine .cons (w := wv) (by rw [set_ne (by vomega), set_eq]) hv ((ERel.fixEnv hE hb hcv hw hok).agree fun z hz => ?_)
      have := hbf z hz
      rw [set_ne (by vomega), set_ne (by vomega)]
    | _ => trivial

mutual
theorem cps_sim {n} (hQ : OpsOk P S Q) (hc : CallOk P S Q n) : ∀ (e : Src.Exp) {vn k nx e' nx' ρ ρ' kv κ}, cps P e vn k nx = some (e', nx') →
    Below vn nx → k < nx → e.wfp P.arity vn.length → okE P S.cenv e → ERel P S.cenv ρ vn ρ' → ρ' k = some kv → IsKont P kv κ →
    Out P S n ρ' e' κ (seval Q (scall Q n) e ρ)
  | .var i, vn, k, nx, e', nx', ρ, ρ', kv, κ, h, hb, hk, hw, hok, hE, hkv, hκ => by
    simp only [cps] at h
    split at h <;> simp at h
    obtain ⟨rfl, rfl⟩ := h
    rename_i y hy
    simp only [seval]
    rcases hv : ρ[i]? with _ | v
    · trivial
    · obtain ⟨w, h1, h2⟩ := hE.get hv hy
      exact ⟨w, 1, by omega, h2, Goes.kont hκ hkv h1⟩
  | .lam e, vn, k, nx, e', nx', ρ, ρ', kv, κ, h, hb, hk, hw, hok, hE, hkv, hκ => by
    simp only [Src.Exp.wfp] at hw
    simp only [okE] at hok
    simp only [cps] at h
    split at h <;> simp at h
    rename_i e₁ n₁ h₁
    obtain ⟨rfl, rfl⟩ := h
    simp only [seval]
    refine ⟨_, 0 + 1, by omega, .clos hE hb h₁ (by simpa [Nat.add_comm] using hw) hok,
      Goes.trans (Goes.inline fun n => ANF.run_fn) (Goes.kont hκ ?_ ?_)⟩
    · rw [ANF.defFuns, ANF.defFuns, set_ne (by vomega), hkv]
    · rw [ANF.defFuns, set_eq]
  | .app e₁ e₂, vn, k, nx, e', nx', ρ, ρ', kv, κ, h, hb, hk, hw, hok, hE, hkv, hκ => by
    simp only [Src.Exp.wfp] at hw
    simp only [okE] at hok
    simp only [cps] at h
    split at h <;> try simp at h
    rename_i e₁' n₁ h₁
    split at h <;> simp at h
    rename_i e₂' n₂ h₂
    obtain ⟨rfl, rfl⟩ := h
    have b₁ := cps_bound e₁ hw.1 h₁
    generalize hb2 : ANF.Exp.app nx P.funTag [k, nx + 2] = body
    generalize hb1 : ANF.Exp.fn (one (nx + 3) P.konTag [nx + 2] body) e₂' = body₁
    have o₁ := cps_sim hQ hc e₁ (ρ' := kenv P ρ' (nx + 1) nx body₁) h₁ (hb.mono (by vomega)) (by vomega) hw.1 hok.1
      (hE.agree fun z hz => by have := hb z hz; rw [kenv, set_ne (by vomega)]) (by rw [kenv, set_eq])
      (isKont_one ρ' (nx + 1) nx body₁)
    refine Out.goes (Goes.inline fun n => run_kont) ?_
    simp only [seval]
    revert o₁
    cases seval Q (scall Q n) e₁ ρ with
    | stuck => intro _; trivial
    | oot => intro o; exact o
    | val f =>
      rintro ⟨w₁, c₁, _, v₁, g₁⟩
      simp only at g₁
      generalize hρ₁ : (kenv P ρ' (nx + 1) nx body₁).set nx w₁ = ρ₁ at g₁
      have a₁ : ∀ z, z < nx → ρ₁ z = ρ' z := by
        intro z hz; rw [← hρ₁, set_ne (by vomega), kenv, set_ne (by vomega)]
      have x₁ : ρ₁ nx = some w₁ := by rw [← hρ₁, set_eq]
      have o₂ := cps_sim hQ hc e₂ (ρ' := kenv P ρ₁ (nx + 3) (nx + 2) body) h₂ (hb.mono (by vomega)) (by vomega) hw.2 hok.2
        (hE.agree fun z hz => by have := hb z hz; rw [kenv, set_ne (by vomega), a₁ z this]) (by rw [kenv, set_eq])
        (isKont_one ρ₁ (nx + 3) (nx + 2) body)
      have hgo : Goes S 0 ρ₁ body₁ (kenv P ρ₁ (nx + 3) (nx + 2) body) e₂' :=
        Goes.inline fun n => by rw [← hb1]; exact run_kont
      refine Out.goes (g₁.trans hgo) ?_
      simp only
      revert o₂
      cases seval Q (scall Q n) e₂ ρ with
      | stuck => intro _; trivial
      | oot => intro o; exact o
      | val v =>
        rintro ⟨w₂, c₂, _, v₂, g₂⟩
        simp only at g₂
        refine Out.goes g₂ ?_
        rw [← hb2]
        refine apply_sim hQ hc v₁ v₂ ?_ set_eq ?_ hκ
        · rw [set_ne (by vomega), kenv, set_ne (by vomega), x₁]
        · rw [set_ne (by vomega), kenv, set_ne (by vomega), a₁ k hk, hkv]
  | .letin e₁ e₂, vn, k, nx, e', nx', ρ, ρ', kv, κ, h, hb, hk, hw, hok, hE, hkv, hκ => by
    simp only [Src.Exp.wfp] at hw
    simp only [okE] at hok
    simp only [cps] at h
    split at h <;> try simp at h
    rename_i e₂' n₁ h₂
    split at h <;> simp at h
    rename_i e₁' n₂ h₁
    obtain ⟨rfl, rfl⟩ := h
    have b₂ := cps_bound e₂ (by simpa [Nat.add_comm] using hw.2) h₂
    have o₁ := cps_sim hQ hc e₁ (ρ' := kenv P ρ' (nx + 1) nx e₂') h₁ (hb.mono (by vomega)) (by vomega) hw.1 hok.1
      (hE.agree fun z hz => by have := hb z hz; rw [kenv, set_ne (by vomega)]) (by rw [kenv, set_eq])
      (isKont_one ρ' (nx + 1) nx e₂')
    refine Out.goes (Goes.inline fun n => run_kont) ?_
    simp only [seval]
    revert o₁
    cases seval Q (scall Q n) e₁ ρ with
    | stuck => intro _; trivial
    | oot => intro o; exact o
    | val v =>
      rintro ⟨w₁, c₁, _, v₁, g₁⟩
      simp only at g₁
      refine Out.goes g₁ ?_
      refine cps_sim hQ hc e₂ h₂ ((hb.mono (by vomega)).cons (by vomega)) (by vomega) (by simpa [Nat.add_comm] using hw.2) hok.2
        (.cons set_eq v₁ (hE.agree fun z hz => by
          have := hb z hz; rw [set_ne (by vomega), kenv, set_ne (by vomega)]))
        (by rw [set_ne (by vomega), kenv, set_ne (by vomega), hkv]) hκ
  | .con d es, vn, k, nx, e', nx', ρ, ρ', kv, κ, h, hb, hk, hw, hok, hE, hkv, hκ => by
    simp only [Src.Exp.wfp] at hw
    simp only [okE] at hok
    simp only [cps, freshList_spec] at h
    have hnd : (List.range' (nx + 1) es.len ++ List.range' (nx + 1 + es.len) es.len).Nodup := by
      have := List.nodup_range' (s := nx + 1) (n := es.len + es.len) (step := 1)
      rwa [← List.range'_append_1] at this
    have hmem : ∀ y ∈ List.range' (nx + 1) es.len ++ List.range' (nx + 1 + es.len) es.len,
        nx < y ∧ y < nx + 1 + es.len + es.len := by
      intro y hy; simp [List.mem_range'] at hy; vomega
    have o := cpss_sim hQ hc es (b := nx + 1) h (hb.mono (by vomega)) (fun y hy => by have := hmem y hy; vomega) hnd (by simp) hw hok hE
    simp only [seval]
    revert o
    cases sevals Q (scall Q n) es ρ with
    | stuck => intro _; trivial
    | oot => intro o; exact o
    | vals vs =>
      rintro ⟨c, ws, ρ₁, g, a, gl, v⟩
      refine ⟨_, c + (0 + 1), by omega, .con v, g.trans (Goes.trans (c₁ := 0) (Goes.inline fun n => ANF.run_constr gl) ?_)⟩
      refine Goes.kont hκ ?_ set_eq
      rw [set_ne (by vomega), a k (fun hm => by have := hmem k hm; vomega), hkv]
  | .fix fs i, vn, k, nx, e', nx', ρ, ρ', kv, κ, h, hb, hk, hw, hok, hE, hkv, hκ => by
    simp only [Src.Exp.wfp] at hw
    simp only [okE] at hok
    simp only [cps, freshList_spec] at h
    split at h <;> try simp at h
    rename_i B n₁ h₁
    split at h <;> simp at h
    rename_i f hf
    obtain ⟨rfl, rfl⟩ := h
    rw [List.getElem?_range' hw.1] at hf
    simp at hf; subst hf
    simp only [seval]
    have hn := cpsF_names fs h₁ (by simp)
    refine ⟨_, 0 + 1, by omega, .fixc hE hb h₁ hw.2 hok hw.1,
      Goes.trans (Goes.inline fun n => ANF.run_fn) (Goes.kont hκ ?_ (defFuns_mem ?_))⟩
    · rw [defFuns_not_mem, hkv]
      rw [hn]; intro hm; simp [List.mem_range'] at hm; vomega
    · rw [hn]; simp [List.mem_range']; exact hw.1
  | .mtch e bs, vn, k, nx, e', nx', ρ, ρ', kv, κ, h, hb, hk, hw, hok, hE, hkv, hκ => by
    simp only [Src.Exp.wfp] at hw
    simp only [okE] at hok
    simp only [cps] at h
    split at h <;> try simp at h
    rename_i e₁' n₁ h₁
    split at h <;> simp at h
    rename_i pats n₂ h₂
    obtain ⟨rfl, rfl⟩ := h
    have b₁ := cps_bound e hw.1 h₁
    generalize hbody : ANF.Exp.case nx pats = body
    have o := cps_sim hQ hc e (ρ' := kenv P ρ' (nx + 1) nx body) h₁ (hb.mono (by vomega)) (by vomega) hw.1 hok.1
      (hE.agree fun z hz => by have := hb z hz; rw [kenv, set_ne (by vomega)]) (by rw [kenv, set_eq])
      (isKont_one ρ' (nx + 1) nx body)
    refine Out.goes (Goes.inline fun n => run_kont) ?_
    simp only [seval]
    revert o
    cases seval Q (scall Q n) e ρ with
    | stuck => intro _; trivial
    | oot => intro o; exact o
    | val v =>
      rintro ⟨w₁, c₁, hc₁, v₁, g₁⟩
      simp only at g₁ ⊢
      cases v with
      | con d vs =>
        cases v₁ with
        | @con _ _ ws v₁ =>
        simp only [sbranch]
        rcases hfb : findBranch d vs.length bs with _ | eb
        · trivial
        · simp only
          generalize hρ₁ : (kenv P ρ' (nx + 1) nx body).set nx (.constr (P.tag d) ws) = ρ₁ at g₁
          have a₁ : ∀ z, z < nx → ρ₁ z = ρ' z := by
            intro z hz; rw [← hρ₁, set_ne (by vomega), kenv, set_ne (by vomega)]
          have x₁ : ρ₁ nx = some (.constr (P.tag d) ws) := by rw [← hρ₁, set_eq]
          have hd := findBranch_mem bs hfb
          obtain ⟨nb, e', nb', f1, f2, f3, f4, f5⟩ := cpsB_find bs h₂ hw.2 hok.2.2 hfb (fun d' hd' => hok.2.1.1 d hd d' hd')
          obtain ⟨ρ₂, p1, p2, p3⟩ := run_ctxBindProj (S := S) v₁ vs.length nb ρ₁ x₁ (by vomega) (Nat.le_refl _)
          rw [List.take_length] at p3
          have g₂ : Goes S c₁ (kenv P ρ' (nx + 1) nx body) e₁' ρ₂ e' := by
            refine g₁.trans (c₂ := 0) (Goes.inline fun m => ?_)
            rw [← hbody, ANF.run_case x₁ (by rw [cpsB_tags bs h₂]; exact hok.2.1.2 d hd) f5, p1]
          refine OutC.goes g₂ hc₁ (hc f2 ((below_range _ _).append (hb.mono (by vomega))) (by vomega) (by simpa using f3) f4
            (p3.append (hE.agree fun z hz => ?_)) ?_ hκ)
          · have := hb z hz
            rw [p2 z (by vomega), a₁ z this]
          · rw [p2 k (by vomega), a₁ k hk, hkv]
      | _ => trivial
  | .prf, vn, k, nx, e', nx', ρ, ρ', kv, κ, h, hb, hk, hw, hok, hE, hkv, hκ => by
    simp only [cps, Option.some.injEq, Prod.mk.injEq] at h
    obtain ⟨rfl, rfl⟩ := h
    simp only [seval]
    refine ⟨_, 0 + 1, by omega, .prf, Goes.trans (Goes.inline fun n => ANF.run_constr (vs := []) rfl) (Goes.kont hκ ?_ set_eq)⟩
    rw [set_ne (by vomega), hkv]
  | .pval p, vn, k, nx, e', nx', ρ, ρ', kv, κ, h, hb, hk, hw, hok, hE, hkv, hκ => by
    simp only [cps, Option.some.injEq, Prod.mk.injEq] at h
    obtain ⟨rfl, rfl⟩ := h
    simp only [seval]
    refine ⟨_, 0 + 1, by omega, .prim, Goes.trans (Goes.inline fun n => ANF.run_primVal) (Goes.kont hκ ?_ set_eq)⟩
    rw [set_ne (by vomega), hkv]
  | .prim p, vn, k, nx, e', nx', ρ, ρ', kv, κ, h, hb, hk, hw, hok, hE, hkv, hκ => by
    simp only [cps] at h
    split at h <;> simp at h
    rename_i m hm
    simp only [seval]
    cases hq : Q.arity p with
    | none => trivial
    | some j =>
      have := hQ.arity p j hq
      rw [hm] at this; cases this
      have := prim_sim hQ (p := p) (vs := []) (args := []) (ρ' := ρ') .nil rfl hkv hκ n m (nx := nx) (by simp [Below]) hk
      rw [h] at this; exact this
theorem cpss_sim {n} (hQ : OpsOk P S Q) (hc : CallOk P S Q n) : ∀ (es : Src.Exps) {vn a xs ks b nx e' nx' ρ ρ'},
    cpss P es vn a xs ks nx = some (e', nx') → Below vn b → (∀ y ∈ xs ++ ks, b ≤ y ∧ y < nx) → (xs ++ ks).Nodup →
    xs.length = es.len → es.wfp P.arity vn.length → okEs P S.cenv es → ERel P S.cenv ρ vn ρ' →
    Outs P S n ρ' e' a xs ks (sevals Q (scall Q n) es ρ)
  | .nil, vn, a, xs, ks, b, nx, e', nx', ρ, ρ', h, hb, hr, hnd, hl, hw, hok, hE => by
    simp only [cpss, Option.some.injEq, Prod.mk.injEq] at h
    obtain ⟨rfl, rfl⟩ := h
    simp only [sevals]
    have hx : xs = [] := List.eq_nil_of_length_eq_zero (by simpa [Src.Exps.len] using hl)
    subst hx
    exact ⟨0, [], ρ', Goes.inline fun _ => rfl, fun _ _ => rfl, rfl, .nil⟩
  | .cons e es, vn, a, [], ks, b, nx, e', nx', ρ, ρ', h, hb, hr, hnd, hl, hw, hok, hE => by simp [cpss] at h
  | .cons e es, vn, a, _ :: _, [], b, nx, e', nx', ρ, ρ', h, hb, hr, hnd, hl, hw, hok, hE => by simp [cpss] at h
  | .cons e es, vn, a, x :: xs, k :: ks, b, nx, e', nx', ρ, ρ', h, hb, hr, hnd, hl, hw, hok, hE => by
    simp only [Src.Exps.wfp] at hw
    simp only [okEs] at hok
    simp only [cpss] at h
    split at h <;> try simp at h
    rename_i e₁' n₁ h₁
    split at h <;> simp at h
    rename_i e₂' n₂ h₂
    obtain ⟨rfl, rfl⟩ := h
    have b₁ := cps_bound e hw.1 h₁
    have hx := hr x (by simp)
    have hk := hr k (by simp)
    have hxk : x ≠ k := by
      rintro rfl; simp at hnd
    have o₁ := cps_sim hQ hc e (ρ' := kenv P ρ' k x e₂') h₁ (hb.mono (by vomega)) (by vomega) hw.1 hok.1
      (hE.agree fun z hz => by have := hb z hz; rw [kenv, set_ne (by vomega)]) (by rw [kenv, set_eq])
      (isKont_one ρ' k x e₂')
    have hgo : Goes S 0 ρ' (.fn (one k P.konTag [x] e₂') e₁') (kenv P ρ' k x e₂') e₁' := Goes.inline fun n => run_kont
    simp only [sevals]
    revert o₁
    cases seval Q (scall Q n) e ρ with
    | stuck => intro _; trivial
    | oot => intro o; exact hgo.oot o
    | val v =>
      rintro ⟨w₁, c₁, _, v₁, g₁⟩
      have hnd' : (xs ++ ks).Nodup := by
        simp only [List.cons_append, List.nodup_cons] at hnd
        exact hnd.2.sublist ((List.sublist_cons_self k ks).append_left xs)
      have o₂ := cpss_sim hQ hc es (ρ' := (kenv P ρ' k x e₂').set x w₁) (b := b) h₂ hb
        (fun y hy => by
          have := hr y (by simp at hy ⊢; tauto); vomega) hnd' (by simpa [Src.Exps.len] using hl) hw.2 hok.2
        (hE.agree fun z hz => by have := hb z hz; rw [set_ne (by vomega), kenv, set_ne (by vomega)])
      simp only
      revert o₂
      cases sevals Q (scall Q n) es ρ with
      | stuck => intro _; trivial
      | oot => intro o; exact (hgo.trans g₁).oot o
      | vals vs =>
        rintro ⟨c₂, ws, ρ₂, g₂, a₂, l₂, v₂⟩
        refine ⟨_, w₁ :: ws, ρ₂, (hgo.trans g₁).trans g₂, ?_, ?_, .cons v₁ v₂⟩
        · intro y hy
          simp only [List.cons_append, List.mem_cons, List.mem_append, not_or] at hy
          rw [a₂ y (by simp; tauto), set_ne hy.1, kenv, set_ne hy.2.2.1]
        · have hxn : x ∉ xs ++ ks := by
            simp only [List.cons_append, List.nodup_cons, List.mem_append, List.mem_cons, not_or] at hnd
            simp; tauto
          simp only [getList, a₂ x hxn, set_eq, l₂]
end

theorem callOk (hQ : OpsOk P S Q) (n : Nat) : CallOk P S Q n := by
  induction n with
  | zero => intro e vn k nx e' nx' ρ ρ' kv κ h hb hk hw hok hE hkv hκ; rfl
  | succ n ih =>
    intro e vn k nx e' nx' ρ ρ' kv κ h hb hk hw hok hE hkv hκ
    have := cps_sim hQ ih e h hb hk hw hok hE hkv hκ
    show OutC P S (n + 1) ρ' e' κ (srun Q n ρ e)
    rw [Src.srun_scall]
    revert this
    cases seval Q (scall Q n) e ρ <;> exact id

/-- A whole program: a result of the source is returned, and a source program still running keeps the converted one
running. -/
theorem whole_sim (hQ : OpsOk P S Q) {e k e' k'} (h : cpsWhole P e k = some (e', k')) (hw : e.wfp P.arity 0) (hok : okE P S.cenv e) (n : Nat) :
    match srun Q n [] e with
    | .val v => ∃ w, VRel P S.cenv v w ∧ ANF.Returns S ANF.emp e' w
    | .oot => run S n ANF.emp e' = .oot
    | .stuck => True := by
  simp only [cpsWhole] at h
  split at h <;> simp at h
  rename_i e₁ n₁ h₁
  obtain ⟨rfl, rfl⟩ := h
  generalize hB : ANF.Defs.cons (k + 1) P.konTag [k] e₁ (one k P.konTag [k + 2] (.halt (k + 2))) = B
  have hne : k ≠ k + 1 := by vomega
  have hk : ANF.defFuns B B ANF.emp ANF.emp k = some (.fn ANF.emp B k) :=
    defFuns_mem (by rw [← hB]; simp [ANF.Defs.names])
  have hf : ANF.defFuns B B ANF.emp ANF.emp (k + 1) = some (.fn ANF.emp B (k + 1)) :=
    defFuns_mem (by rw [← hB]; simp [ANF.Defs.names])
  have hκ : IsKont P (.fn ANF.emp B k) (fun w => ((ANF.defFuns B B ANF.emp ANF.emp).set (k + 2) w, .halt (k + 2))) := by
    intro ρ₁ k₁ y w h1 h2
    have : ANF.findDef k B = some (P.konTag, [k + 2], .halt (k + 2)) := by
      rw [← hB]; simp [ANF.findDef]
    simp [callee, h1, h2, getList, this, ANF.setLists]
  have hcal : callee (ANF.defFuns B B ANF.emp ANF.emp) (k + 1) P.konTag [k] =
      some ((ANF.defFuns B B ANF.emp ANF.emp).set k (.fn ANF.emp B k), e₁) := by
    have : ANF.findDef (k + 1) B = some (P.konTag, [k], e₁) := by rw [← hB]; simp [ANF.findDef]
    simp [callee, hf, hk, getList, this, ANF.setLists]
  have o := OutC.goes (Goes.trans (c₁ := 0) (Goes.inline fun n => ANF.run_fn) (Goes.call hcal)) (by omega)
    (callOk hQ (n + 1) h₁ (by simp [Below]) (by vomega) hw hok .nil set_eq hκ)
  change Out P S (n + 1) ANF.emp _ _ (srun Q n [] e) at o
  revert o
  cases srun Q n [] e with
  | stuck => intro _; trivial
  | oot => intro o; exact run_anti (Nat.le_succ n) o
  | val v =>
    rintro ⟨w, c, _, h1, h2⟩
    refine ⟨w, h1, 0 + c, ?_⟩
    rw [h2.late]
    simp only [run, evalE, set_eq]

end Conv.Cps
