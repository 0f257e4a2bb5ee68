import Verif.CGen.Static

/-! # A runtime and a program that meet the hypotheses of the theorems about the C backend -/

namespace CGen

open ANF

theorem trBs_boxed {C : Cfg} {fenv : FEnv} {fns : List Var} {loc : Finset Var} {t : Tag} {i : Ctor.Info}
    (ht : C.cenv t = some i) (ha : i.arity ≠ 0) : ∀ {bs : Brs} {sl ls ls' n b}, trBs C fenv fns loc bs sl = some (ls, ls', n) →
    findTag t bs = some b → ls ≠ .nil := by
  intro bs
  induction bs using Brs.ind with
  | nil => intro sl ls ls' n b _ h; simp [findTag] at h
  | cons t' e bs ih =>
    intro sl ls ls' n b htr hf
    simp only [trBs] at htr
    split at htr
    case h_2 => cases htr
    rename_i s n1 l1 l2 n2 he hbs
    simp only [findTag] at hf
    by_cases htt : t' = t
    · subst htt
      rw [ctorRep, ht] at htr
      simp only [if_neg ha] at htr
      split at htr
      all_goals
        simp only [Option.some.injEq, Prod.mk.injEq] at htr
        obtain ⟨rfl, _, _⟩ := htr
        simp
    · rw [if_neg htt] at hf
      have h1 := ih hbs hf
      split at htr
      · split at htr
        all_goals
          simp only [Option.some.injEq, Prod.mk.injEq] at htr
          obtain ⟨rfl, _, _⟩ := htr
          simp
      · split at htr
        all_goals
          simp only [Option.some.injEq, Prod.mk.injEq] at htr
          obtain ⟨rfl, _, _⟩ := htr
          exact h1
      · cases htr

/-- A runtime whose collector gives up if there is not enough room, and without primitives. -/
def world0 : World where
  gc h := if h.alloc + h.nalloc ≤ h.limit then .ok h else .abort
  prim _ _ _ := none
  primT _ _ _ := .abort

theorem world0_ok {G : HeapI} {cenv : Ctor.PMap Ctor.Info} (hc : CtorsOk cenv) (B : Defs) : GcOk G cenv B world0 := by
  intro h ok
  simp only [world0]
  by_cases hroom : h.alloc + h.nalloc ≤ h.limit
  case neg => rw [if_neg hroom]; exact .inl rfl
  rw [if_pos hroom]
  right
  refine ⟨h, rfl, hroom, rfl, fun k => ⟨rfl, rfl, rfl⟩, ok.heap, fun c c' => c' = c ∧ ∃ v, h.Rep G cenv B v c, ⟨?_, ?_, ?_⟩, ?_⟩
  · exact fun z c' hr => hr.1
  · exact fun f c' hr => hr.1
  · rintro p c' hd ⟨rfl, v, hv⟩ hhd h0
    refine ⟨p, rfl, hhd, ?_⟩
    cases hv with
    | boxed g1 g2 g3 g4 g5 g6 g7 g8 g9 =>
      rename_i t i vs cs
      rw [g5] at hhd
      simp only [Option.some.injEq, CVal.int.injEq] at hhd
      have hs := hc.small t i g1 (by omega)
      have hdiv : (hd / 1024).toNat = vs.length := by omega
      rw [hdiv]
      refine ⟨g4, g9, ?_⟩
      intro k c hk hm
      refine ⟨c, hm, ?_⟩
      rw [if_pos (by omega)]
      have hck := List.getElem?_eq_getElem (l := cs) (i := k) (by omega)
      have := g7 k _ hck
      rw [hm] at this
      simp only [Option.some.injEq] at this
      refine ⟨rfl, vs[k], ?_⟩
      exact g8 k _ _ (List.getElem?_eq_getElem hk) (by rw [this]; exact hck)
    | float g1 g2 g3 g4 =>
      rw [g2] at hhd
      simp only [Option.some.injEq, CVal.int.injEq] at hhd
      subst hhd
      refine ⟨g1, g4, ?_⟩
      intro k c _ hm
      exact ⟨c, hm, by simp⟩
    | str g1 g2 g3 g4 =>
      rename_i s
      rw [g2] at hhd
      simp only [Option.some.injEq, CVal.int.injEq] at hhd
      have hdiv : (hd / 1024).toNat = s.length / 8 + 1 := by omega
      rw [hdiv]
      refine ⟨g1, g4, ?_⟩
      intro k c _ hm
      exact ⟨c, hm, by rw [if_neg (by omega)]⟩
  · intro k hk i hi c hc'
    obtain ⟨c1, v, h1, h2⟩ := ok.roots k hk i hi
    rw [hc'] at h1
    cases h1
    exact ⟨c, hc', rfl, v, h2⟩

/-- Natural numbers: tag 100 is zero, tag 101 is successor. -/
def cenvNat : Ctor.PMap Ctor.Info := fun t =>
  if t = 100 then some ⟨none, none, 100, 0, 0⟩ else if t = 101 then some ⟨none, none, 100, 1, 0⟩ else none

theorem cenvNat_ok : CtorsOk cenvNat := by
  have key : ∀ t i, cenvNat t = some i → t = 100 ∧ i = ⟨none, none, 100, 0, 0⟩ ∨ t = 101 ∧ i = ⟨none, none, 100, 1, 0⟩ := by
    intro t i h
    unfold cenvNat at h
    split at h
    · rename_i e; cases h; exact .inl ⟨e, rfl⟩
    split at h
    · rename_i e; cases h; exact .inr ⟨e, rfl⟩
    · cases h
  constructor
  · intro t i h ha
    rcases key t i h with ⟨_, rfl⟩ | ⟨_, rfl⟩ <;> simp
  · intro t t' i i' h h' _ ha _
    rcases key t i h with ⟨rfl, rfl⟩ | ⟨rfl, rfl⟩ <;> rcases key t' i' h' with ⟨rfl, rfl⟩ | ⟨rfl, rfl⟩ <;> simp at ha ⊢

/-- No primitives. -/
def sigNat : Sig := ⟨cenvNat, fun _ _ => none⟩

/-- One argument in a C parameter; no primitives. -/
def cfgNat : Cfg := ⟨1, 5, fun _ => none, cenvNat⟩

/-- `f x y = case x of O => S y | S z => let w = f z y in S w`. -/
def defsNat : Defs := .cons 300 3 [301, 302] (.case 301
  (.cons 100 (.constr 303 101 [302] (.halt 303))
  (.cons 101 (.proj 304 101 0 301 (.letapp 305 300 3 [304, 302] (.constr 306 101 [305] (.halt 306)))) .nil))) .nil

/-- `f 1 0`. -/
def mainNat : Exp := .constr 310 100 [] (.constr 311 101 [310] (.letapp 312 300 3 [311, 310] (.halt 312)))

/-- The number as a value. -/
def natVal : Nat → Val
  | 0 => .constr 100 []
  | n + 1 => .constr 101 [natVal n]

theorem prims_none {G : HeapI} (prims : Tag → Option Bool) (cenv B W) : PrimsOk G ⟨cenv, fun _ _ => none⟩ prims B W := by
  have hop : ∀ p vs v, Sig.op ⟨cenv, fun _ _ => none⟩ p vs = some v → False := by
    intro p vs v h
    unfold Sig.op at h
    split at h <;> simp at h
  constructor
  · intro p vs v _ _ _ _ _ h; exact absurd h (fun h => hop p vs v h)
  · intro p vs v _ _ _ _ h; exact absurd h (fun h => hop p vs v h)

theorem seen_nat : SeenE cenvNat (.fn defsNat mainNat) := by
  simp [SeenE, SeenB, SeenBs, defsNat, mainNat, cenvNat]

theorem ok_nat : OkE cenvNat (fun _ => 2) (.fn defsNat mainNat) := by
  simp [OkE, OkB, OkBs, defsNat, mainNat, cenvNat]

theorem compiles_nat : ∃ M, compileC cfgNat 1 (.fn defsNat mainNat) = some M :=
  compileC_total (ar := fun _ => 2) ok_nat (by simp [FlatB, FlatE, FlatBs, defsNat]) (by simp [FlatE, mainNat])

theorem returns_nat : Returns sigNat emp (.fn defsNat mainNat) (natVal 2) := ⟨3, by rfl⟩

/-- A thread with `n` free words and no frames. -/
def th0 (n : Nat) : Th := ⟨fun _ => none, 100, 100 + n, 0, fun _ => none, none, fun _ => ⟨0, 0, none, fun _ => none⟩⟩

theorem th0_chain {n k : Nat} : ¬ OnChain (th0 n) k := by
  intro hk
  induction hk with
  | top h => simp [th0] at h
  | step _ _ ih => exact ih

theorem th0_ok (cenv : Ctor.PMap Ctor.Info) (B : Defs) (n : Nat) : (th0 n).Ok .top cenv B :=
  ⟨trivial, fun _ h => absurd h th0_chain, fun _ h => absurd h th0_chain, fun _ h => absurd h th0_chain⟩

/-- `f x₁ … xₙ = x₁`. -/
def wideDefs (n : Nat) : Defs := .cons 300 3 (List.range' 400 n) (.halt 400) .nil

/-- `f O … O`. -/
def wideMain (n : Nat) : Exp := .constr 310 100 [] (.app 300 3 (List.replicate n 310))

/-- Storing arguments past the end of the argument array. -/
theorem asgn_wide {W : World} {call : Nat → Var → List CVal → Th → Out} {me : Nat} {fns : List Var} :
    ∀ {vs : List Var} {ind : List Nat} {s : CStmt} (l : Loc) (h : Th), asgnAppVars' fns vs ind = some s → ind ≠ [] → (∀ i, ind.getLast? = some i → maxArgs ≤ i) →
      exec W call me s l h = .ub := by
  intro vs
  induction vs with
  | nil => intro ind s l h hs hne _; cases ind with
    | nil => exact absurd rfl hne
    | cons => simp [asgnAppVars'] at hs
  | cons v vs ih =>
    intro ind s l h hs _ hlast
    cases ind with
    | nil => simp [asgnAppVars'] at hs
    | cons i ind =>
      simp only [asgnAppVars', Option.map_eq_some_iff] at hs
      obtain ⟨s', hs', rfl⟩ := hs
      cases ind with
      | nil =>
        have hi := hlast i rfl
        cases vs with
        | nil =>
          simp only [asgnAppVars', Option.some.injEq] at hs'
          subst hs'
          simp only [exec]
          split
          · rw [if_neg (by omega)]
          · rfl
        | cons => simp [asgnAppVars'] at hs'
      | cons j ind =>
        simp only [exec]
        rw [ih l h hs' (by simp) (by simpa using hlast)]

theorem wide_bv (n : Nat) : (Exp.fn (wideDefs n) (wideMain n)).bv.Nodup := by
  have h1 : (300 : Nat) ∉ List.range' 400 n := by rw [List.mem_range'_1]; omega
  have h2 : (310 : Nat) ∉ List.range' 400 n := by rw [List.mem_range'_1]; omega
  have h3 : (List.range' 400 n).Nodup := List.nodup_range'
  have h4 : (Exp.fn (wideDefs n) (wideMain n)).bv = 300 :: (List.range' 400 n ++ [310]) := by
    simp [Exp.bv, Defs.bv, wideDefs, wideMain]
  rw [h4, List.nodup_cons, List.nodup_append]
  refine ⟨?_, h3, by simp, ?_⟩
  · rw [List.mem_append]
    rintro (h | h)
    · exact h1 h
    · simp at h
  · intro a ha b hb hab
    rw [List.mem_singleton] at hb
    subst hab hb
    exact h2 ha

theorem wide_closed {n : Nat} (hn : 0 < n) : (Exp.fn (wideDefs n) (wideMain n)).fv = ∅ := by
  have h4 : (400 : Nat) ∈ List.range' 400 n := by rw [List.mem_range'_1]; omega
  have h5 : ({400} : Finset Var) \ (List.range' 400 n).toFinset = ∅ := by
    rw [Finset.sdiff_eq_empty_iff_subset]
    intro x hx
    rw [Finset.mem_singleton] at hx
    subst hx
    exact List.mem_toFinset.2 h4
  apply Finset.eq_empty_of_forall_notMem
  intro x
  simp only [Exp.fv, Defs.fvRaw, Defs.names, wideDefs, wideMain, h5]
  simp only [Finset.mem_sdiff, Finset.mem_union, Finset.mem_erase, Finset.mem_insert, List.mem_toFinset, List.mem_replicate, List.mem_singleton,
    Finset.notMem_empty, List.not_mem_nil, false_or]
  tauto

theorem wide_returns {n : Nat} (hn : 0 < n) : Returns sigNat emp (.fn (wideDefs n) (wideMain n)) (natVal 0) := by
  have hl : (List.range' 400 n).length = (List.replicate n (natVal 0)).length := by simp
  obtain ⟨ρ', hρ⟩ := setLists_exists (defFuns (wideDefs n) (wideDefs n) emp emp) hl
  have hi : (List.range' 400 n)[0]? = some 400 := by rw [List.getElem?_range' (by omega)]
  have h0 := setLists_nth hρ List.nodup_range' hi
  rw [List.getElem?_replicate, if_pos (by omega)] at h0
  refine ⟨1, ?_⟩
  have hg : ∀ (ρ : Env) v k, ρ 310 = some v → getList ρ (List.replicate k 310) = some (List.replicate k v) := by
    intro ρ v k h
    induction k with
    | zero => rfl
    | succ k ih => simp [List.replicate_succ, getList, ih, h]
  have hc : callee ((defFuns (wideDefs n) (wideDefs n) emp emp).set 310 (.constr 100 [])) 300 3 (List.replicate n 310) = some (ρ', .halt 400) := by
    simp only [callee]
    rw [hg _ (natVal 0) n (by simp [Env.set, natVal]),
      show ((defFuns (wideDefs n) (wideDefs n) emp emp).set 310 (.constr 100 [])) 300 = some (.fn emp (wideDefs n) 300) by
        simp [Env.set, wideDefs, defFuns]]
    simp only [show findDef 300 (wideDefs n) = some (3, List.range' 400 n, .halt 400) by simp [findDef, wideDefs], if_true, hρ, Option.map_some]
  simp only [run, evalE, wideMain, getList, hc, h0]

theorem wide_ok (n : Nat) : OkE cenvNat (fun _ => n) (.fn (wideDefs n) (wideMain n)) := by
  simp [OkE, OkB, wideDefs, wideMain, cenvNat]

theorem wide_asgn {n : Nat} (hn : 1024 < n) {a ind s} (hf : funEnv (.fn (wideDefs n) (wideMain n)) 3 = some (a, ind))
    (ha : asgnAppVars cfgNat.nParam (wideDefs n).names (List.replicate n 310) ind = some s) {W : World}
    {call : Nat → Var → List CVal → Th → Out} {me : Nat} (l : Loc) (h : Th) : exec W call me s l h = .ub := by
  have hind := (funEnv_ok (wide_ok n) _ _ _ hf).2
  subst hind
  simp only [asgnAppVars, Option.map_eq_some_iff] at ha
  obtain ⟨s1, ha, rfl⟩ := ha
  simp only [exec]
  refine asgn_wide _ _ ha (by simp [cfgNat]; omega) ?_
  intro i hi
  have : (List.range n).getLast? = some (n - 1) := by rw [List.getLast?_range, if_neg (by omega)]
  rw [List.getLast?_drop, List.length_range, if_neg (by simp [cfgNat]; omega), this] at hi
  cases hi
  simp only [maxArgs]; omega

end CGen
