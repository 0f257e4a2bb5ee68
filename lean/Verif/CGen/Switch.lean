import Verif.CGen.Frag

/-! # The switch generated for a case expression -/

namespace CGen

open ANF

variable {cenv : Ctor.PMap Ctor.Info} {W : World} {call : Nat → Var → List CVal → Th → Out} {me : Nat}
  {C : Cfg} {fenv : FEnv} {fns : List Var} {loc : Finset Var}

mutual
/-- The number of slots only grows. -/
theorem trE_mono : ∀ (e : Exp) (sl : Nat) (s : CStmt) (n : Nat), trE C fenv fns loc e sl = some (s, n) → sl ≤ n
  | .constr x t vs e, sl, s, n, h => by
    simp only [trE] at h
    split at h
    · rename_i p s' n' _ h'
      simp only [Option.some.injEq, Prod.mk.injEq] at h
      rw [← h.2]; exact trE_mono e sl s' n' h'
    · cases h
  | .case x bs, sl, s, n, h => by
    simp only [trE] at h
    split at h
    · rename_i ls ls' n' h'
      simp only [Option.some.injEq, Prod.mk.injEq] at h
      rw [← h.2]; exact trBs_mono bs sl ls ls' n' h'
    · cases h
  | .proj x t k v e, sl, s, n, h => by
    simp only [trE] at h
    split at h
    · rename_i s' n' h'
      simp only [Option.some.injEq, Prod.mk.injEq] at h
      rw [← h.2]; exact trE_mono e sl s' n' h'
    · cases h
  | .letapp x f t vs e, sl, s, n, h => by
    simp only [trE] at h
    split at h
    · split at h
      · split at h
        · rename_i s' n' h'
          simp only [Option.some.injEq, Prod.mk.injEq] at h
          rw [← h.2]
          exact Nat.le_trans (Nat.le_max_left _ _) (trE_mono e _ s' n' h')
        · cases h
      · cases h
    · cases h
  | .fn B e, sl, s, n, h => by simp [trE] at h
  | .app f t vs, sl, s, n, h => by
    simp only [trE] at h
    split at h
    · split at h
      · simp only [Option.some.injEq, Prod.mk.injEq] at h
        rw [← h.2]
      · cases h
    · cases h
  | .primVal x p e, sl, s, n, h => by
    simp only [trE] at h
    split at h
    · rename_i s' n' h'
      simp only [Option.some.injEq, Prod.mk.injEq] at h
      rw [← h.2]; exact trE_mono e sl s' n' h'
    · cases h
  | .prim x p vs e, sl, s, n, h => by
    simp only [trE] at h
    split at h
    · split at h
      · rename_i s' n' h'
        simp only [Option.some.injEq, Prod.mk.injEq] at h
        rw [← h.2]; exact trE_mono e sl s' n' h'
      · cases h
    · split at h
      · rename_i s' n' h'
        simp only [Option.some.injEq, Prod.mk.injEq] at h
        rw [← h.2]
        exact Nat.le_trans (Nat.le_max_left _ _) (trE_mono e _ s' n' h')
      · cases h
    · cases h
  | .halt x, sl, s, n, h => by
    simp only [trE, Option.some.injEq, Prod.mk.injEq] at h
    rw [← h.2]
theorem trBs_mono : ∀ (bs : Brs) (sl : Nat) (ls ls' : LStmt) (n : Nat), trBs C fenv fns loc bs sl = some (ls, ls', n) → sl ≤ n
  | .nil, sl, ls, ls', n, h => by
    simp only [trBs, Option.some.injEq, Prod.mk.injEq] at h
    rw [← h.2.2]
  | .cons t e bs, sl, ls, ls', n, h => by
    simp only [trBs] at h
    split at h
    · rename_i s n1 l1 l2 n2 h1 h2
      have := trE_mono e sl s n1 h1
      have hm : n = max n1 n2 := by
        split at h
        · split at h <;> (simp only [Option.some.injEq, Prod.mk.injEq] at h; exact h.2.2.symm)
        · split at h <;> (simp only [Option.some.injEq, Prod.mk.injEq] at h; exact h.2.2.symm)
        · cases h
      omega
    · cases h
end

/-- A switch: first the matching label, then the default. -/
def execSw (W : World) (call : Nat → Var → List CVal → Th → Out) (me : Nat) (z : Int) (ls : LStmt) (l : Loc) (h : Th) : Out :=
  match execCase W call me z ls l h with
  | some o => unbreak o
  | none => match execDefault W call me ls l h with
    | some o => unbreak o
    | none => .norm l h

/-- The outcome neither falls through nor breaks. -/
def Final : Out → Prop
  | .norm _ _ => False
  | .brk _ _ => False
  | _ => True

theorem exec_final {s l h} (hf : Final (exec W call me s l h)) :
    unbreak (exec W call me (.seq s .brk) l h) = exec W call me s l h := by
  simp only [exec]
  generalize exec W call me s l h = o at hf
  cases o <;> first | rfl | exact absurd hf (by simp [Final])

/-- The first entry when it is the default and the only one. -/
theorem execSw_default {z s l h} (hf : Final (exec W call me s l h)) :
    execSw W call me z (.cons none (.seq s .brk) .nil) l h = exec W call me s l h := by
  unfold execSw
  simp only [execCase, execDefault, reduceCtorEq, if_false, if_true]
  rw [← exec_final hf]
  generalize exec W call me (.seq s .brk) l h = o
  cases o <;> simp [execL, unbreak]

theorem execSw_hit {z s ls l h} (hf : Final (exec W call me s l h)) :
    execSw W call me z (.cons (some z) (.seq s .brk) ls) l h = exec W call me s l h := by
  unfold execSw
  simp only [execCase, if_true]
  have h2 := exec_final hf
  have hb : ∀ l' h', exec W call me (.seq s .brk) l h ≠ .norm l' h' := by
    intro l' h' he
    rw [he] at h2
    simp only [unbreak] at h2
    rw [← h2] at hf
    exact hf
  rw [← h2]
  generalize exec W call me (.seq s .brk) l h = o at hb
  cases o with
  | norm l' h' => exact absurd rfl (hb l' h')
  | _ => rfl

theorem execSw_miss {z z' s ls l h} (hz : z' ≠ z) :
    execSw W call me z (.cons (some z') s ls) l h = execSw W call me z ls l h := by
  unfold execSw
  simp only [execCase, execDefault, Option.some.injEq, hz, if_false, reduceCtorEq]

theorem consistent_all {t : Tag} : ∀ {ts : List Tag}, consistent cenv t ts = true → ∀ t' ∈ ts,
    ∃ i i', cenv t = some i ∧ cenv t' = some i' ∧ i.indTag = i'.indTag := by
  intro ts
  induction ts with
  | nil => intro _ t' h; cases h
  | cons u ts ih =>
    intro h t' ht'
    simp only [consistent, Bool.and_eq_true] at h
    rcases List.mem_cons.1 ht' with rfl | ht'
    · obtain ⟨_, h2⟩ := h
      split at h2
      · rename_i i i' e1 e2; exact ⟨i, i', e1, e2, by simpa using h2⟩
      · cases h2
    · exact ih h.1 t' ht'

/-- The switch selected by the representation of a constructor runs the branch of that constructor. -/
theorem trBs_switch (hc : CtorsOk C.cenv) {t : Tag} {i : Ctor.Info} (hi : C.cenv t = some i) :
    ∀ {bs : Brs} {sl ls ls' n e}, trBs C fenv fns loc bs sl = some (ls, ls', n) →
    (∀ t' ∈ bs.tags, ∃ i', C.cenv t' = some i' ∧ i.indTag = i'.indTag) → findTag t bs = some e →
    ∃ s m, trE C fenv fns loc e sl = some (s, m) ∧ m ≤ n ∧
      (i.arity ≠ 0 → ls ≠ .nil ∧ ∀ l h, Final (exec W call me s l h) →
        execSw W call me (((i.arity * 1024 + i.ordinal : Int)) % 256) ls l h = exec W call me s l h) ∧
      (i.arity = 0 → ls' ≠ .nil ∧ ∀ l h, Final (exec W call me s l h) →
        execSw W call me (((2 * i.ordinal + 1 : Int)) / 2) ls' l h = exec W call me s l h) := by
  intro bs
  induction bs using Brs.ind with
  | nil => intro sl ls ls' n e _ _ h; simp [findTag] at h
  | cons t' e' bs ih =>
    intro sl ls ls' n e htr htags hf
    simp only [trBs] at htr
    split at htr
    case h_2 => cases htr
    rename_i s n1 l1 l2 n2 h1 h2
    obtain ⟨i', hi', hind⟩ := htags t' (by simp [Brs.tags])
    have hrep : ctorRep C.cenv t' = some (if i'.arity = 0 then .enum i'.ordinal else .boxed i'.ordinal i'.arity) := by
      simp only [ctorRep, hi']
    rw [hrep] at htr
    simp only [findTag] at hf
    by_cases htt : t' = t
    · rw [if_pos htt] at hf
      cases hf
      subst htt
      rw [hi] at hi'
      cases hi'
      by_cases ha : i.arity = 0
      · rw [if_pos ha] at htr
        simp only [] at htr
        split at htr
        · simp only [Option.some.injEq, Prod.mk.injEq] at htr
          obtain ⟨rfl, rfl, rfl⟩ := htr
          refine ⟨s, n1, h1, Nat.le_max_left _ _, fun h => absurd ha h, fun _ => ⟨by simp, fun l h hfin => execSw_default hfin⟩⟩
        · simp only [Option.some.injEq, Prod.mk.injEq] at htr
          obtain ⟨rfl, rfl, rfl⟩ := htr
          exact ⟨s, n1, h1, Nat.le_max_left _ _, fun h => absurd ha h, fun _ => ⟨by simp, fun l h hfin => execSw_hit hfin⟩⟩
      · rw [if_neg ha] at htr
        simp only [] at htr
        split at htr
        · simp only [Option.some.injEq, Prod.mk.injEq] at htr
          obtain ⟨rfl, rfl, rfl⟩ := htr
          exact ⟨s, n1, h1, Nat.le_max_left _ _, fun _ => ⟨by simp, fun l h hfin => execSw_default hfin⟩, fun h => absurd h ha⟩
        · simp only [Option.some.injEq, Prod.mk.injEq] at htr
          obtain ⟨rfl, rfl, rfl⟩ := htr
          exact ⟨s, n1, h1, Nat.le_max_left _ _, fun _ => ⟨by simp, fun l h hfin => execSw_hit hfin⟩, fun h => absurd h ha⟩
    · rw [if_neg htt] at hf
      obtain ⟨s', m, hs', hm, hbox, hen⟩ := ih h2 (fun u hu => htags u (by simp [Brs.tags, hu])) hf
      have hord : (i.arity = 0 ↔ i'.arity = 0) → i'.ordinal ≠ i.ordinal := fun hab hoo =>
        htt (hc.distinct t' t i' i hi' hi hind.symm hab.symm hoo)
      by_cases ha' : i'.arity = 0
      · rw [if_pos ha'] at htr
        simp only [] at htr
        split at htr
        · -- default: no unboxed branch among the others
          simp only [Option.some.injEq, Prod.mk.injEq] at htr
          obtain ⟨rfl, rfl, rfl⟩ := htr
          exact ⟨s', m, hs', by omega, hbox, fun h => absurd rfl (hen h).1⟩
        · simp only [Option.some.injEq, Prod.mk.injEq] at htr
          obtain ⟨rfl, rfl, rfl⟩ := htr
          refine ⟨s', m, hs', by omega, hbox, fun h => ⟨by simp, fun l hh hfin => ?_⟩⟩
          rw [execSw_miss ?_]
          · exact (hen h).2 l hh hfin
          · have := hord (by simp [h, ha'])
            simp only [Rep.tag]
            omega
      · rw [if_neg ha'] at htr
        simp only [] at htr
        split at htr
        · simp only [Option.some.injEq, Prod.mk.injEq] at htr
          obtain ⟨rfl, rfl, rfl⟩ := htr
          exact ⟨s', m, hs', by omega, fun h => absurd rfl (hbox h).1, hen⟩
        · simp only [Option.some.injEq, Prod.mk.injEq] at htr
          obtain ⟨rfl, rfl, rfl⟩ := htr
          refine ⟨s', m, hs', by omega, fun h => ⟨by simp, fun l hh hfin => ?_⟩, hen⟩
          rw [execSw_miss ?_]
          · exact (hbox h).2 l hh hfin
          · have := hord (by simp [h, ha'])
            have h1 := hc.small t i hi h
            have h2 := hc.small t' i' hi' ha'
            simp only [Rep.tag]
            omega

end CGen
