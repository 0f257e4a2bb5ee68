import Verif.Wasm.GenFuel
import Verif.Wasm.GenSpec
import Verif.Wasm.PrimLemmas

/-! # Building blocks of the simulation: representations, variables, memory growth, allocation -/

namespace Wasm
open Instr

/-! ## Representations -/

section
variable {cenv : CEnv} {B : ANF.Defs}

theorem Rep.mono {m m' : Mem} {top top' : Nat} (hm : ∀ b, b < top → m' b = m b) (ht : top ≤ top') {v : ANF.Val} {w : Nat}
    (h : Rep cenv B m top v w) : Rep cenv B m' top' v w := by
  induction h with
  | unboxed h1 h2 h3 => exact .unboxed h1 h2 h3
  | @boxed t info vs a h1 h2 h3 h4 h5 h6 h7 _ ih =>
    have h0 : 0 < vs.length := List.length_pos_iff.mpr h3
    refine .boxed h1 h2 h3 h4 h5 (by omega) ?_ ?_
    · rw [← h7]
      exact loadN_congr _ _ fun b h8 h9 => hm b (by omega)
    · intro i v hv
      have hi : i < vs.length := (List.getElem?_eq_some_iff.mp hv).1
      rw [loadN_congr (m' := m) _ _ fun b h8 h9 => hm b (by omega)]
      exact ih i v hv
  | fn h1 => exact .fn h1
  | int h1 h2 h3 h4 =>
    refine .int h1 h2 (by omega) ?_
    rw [← h4]
    exact loadN_congr _ _ fun b h8 h9 => hm b (by omega)

theorem Rep.lt {m : Mem} {top : Nat} (ht : top ≤ 2 ^ 32) (hB : B.names.length < 2 ^ 31) {v : ANF.Val} {w : Nat}
    (h : Rep cenv B m top v w) : w < 2 ^ 32 := by
  cases h with
  | unboxed h1 h2 h3 => omega
  | boxed => omega
  | @fn f i h1 =>
    have := (List.getElem?_eq_some_iff.mp h1).1
    omega
  | int => omega

end

/-! ## Single instructions -/

section
variable {E : Env} {m : Mem} {pg : Nat} {g : Nat → Val} {l st : List Val} {is : List Instr} {a n : Nat}

theorem st_w32 (h : n < 2 ^ 32) : steps E (w32 n :: is) ⟨m, pg, g, l, st⟩ = steps E is ⟨m, pg, g, l, .i32 n :: st⟩ := by
  rw [w32, Nat.mod_eq_of_lt h]; exact st_c32

theorem st_const {v : Val} : steps E (const v :: is) ⟨m, pg, g, l, st⟩ = steps E is ⟨m, pg, g, l, v :: st⟩ := Eq.trans rfl rfl

theorem st_eqz32 : steps E (eqz .t32 :: is) ⟨m, pg, g, l, .i32 a :: st⟩ =
    steps E is ⟨m, pg, g, l, boolVal (decide (a = 0)) :: st⟩ := Eq.trans rfl rfl

theorem st_msize : steps E (memorySize :: is) ⟨m, pg, g, l, st⟩ = steps E is ⟨m, pg, g, l, .i32 pg :: st⟩ := Eq.trans rfl rfl

theorem st_mgrow (h : pg + n ≤ E.maxPages ∧ E.growOk (pg + n) = true) :
    steps E (memoryGrow :: is) ⟨m, pg, g, l, .i32 n :: st⟩ =
      steps E is ⟨fun b => if b < pg * pageSize then m b else 0, pg + n, g, l, .i32 pg :: st⟩ := by
  change (if pg + n ≤ E.maxPages ∧ E.growOk (pg + n) = true then
    some (⟨fun b => if b < pg * pageSize then m b else 0, pg + n, g, l, .i32 pg :: st⟩ : St)
    else some (⟨m, pg, g, l, .i32 (2 ^ 32 - 1) :: st⟩ : St)).bind _ = _
  rw [if_pos h]; rfl

theorem st_mgrow_fail (h : ¬ (pg + n ≤ E.maxPages ∧ E.growOk (pg + n) = true)) :
    steps E (memoryGrow :: is) ⟨m, pg, g, l, .i32 n :: st⟩ = steps E is ⟨m, pg, g, l, .i32 (2 ^ 32 - 1) :: st⟩ := by
  change (if pg + n ≤ E.maxPages ∧ E.growOk (pg + n) = true then
    some (⟨fun b => if b < pg * pageSize then m b else 0, pg + n, g, l, .i32 pg :: st⟩ : St)
    else some (⟨m, pg, g, l, .i32 (2 ^ 32 - 1) :: st⟩ : St)).bind _ = _
  rw [if_neg h]; rfl

theorem steps_append (is js : List Instr) (s : St) : steps E (is ++ js) s = (steps E is s).bind (steps E js) := by
  induction is generalizing s with
  | nil => rfl
  | cons i is ih =>
    rw [List.cons_append, steps, steps]
    cases step E i s with
    | none => rfl
    | some s' => exact ih s'

end

/-- `Ends` after straight-line code. -/
theorem Ends.steps {E : Env} {n : Nat} {Q : St → Prop} {F : Prop} {is js : List Instr} {s s1 : St}
    (hs : is.all Instr.simple = true) (h : Wasm.steps E is s = some s1) (h' : Ends E n js s1 Q F) :
    Ends E n (is ++ js) s Q F := Ends.append (Runs.straight hs h) h'

/-! ## Invariant -/

/-- The machine between two expressions: allocation pointer `p`, at least `mem` bytes left. -/
structure Inv (s : St) (p mem : Nat) : Prop where
  gmp : s.globals globMemPtr = .i32 p
  oom : s.globals globOutOfMem = .i32 0
  aligned : p % 4 = 0
  room : p + mem ≤ s.pages * pageSize
  pages : s.pages ≤ maxMemPages
  stack : s.stack = []

theorem Inv.small {s : St} {p mem : Nat} (h : Inv s p mem) : s.pages * pageSize ≤ 1966080000 := by
  have := h.pages
  simp only [maxMemPages, pageSize] at *
  omega

theorem Inv.weaken {s : St} {p mem mem' : Nat} (h : Inv s p mem) (hm : mem' ≤ mem) : Inv s p mem' :=
  ⟨h.gmp, h.oom, h.aligned, by have := h.room; omega, h.pages, h.stack⟩

/-- What execution keeps. -/
structure Keeps (s : St) (p : Nat) (s' : St) (p' : Nat) : Prop where
  mem : ∀ b, b < p → s'.mem b = s.mem b
  ptr : p ≤ p'

theorem Keeps.refl (s : St) (p : Nat) : Keeps s p s p := ⟨fun _ _ => rfl, Nat.le_refl _⟩
theorem Keeps.trans {s s1 s2 : St} {p p1 p2 : Nat} (h : Keeps s p s1 p1) (h' : Keeps s1 p1 s2 p2) : Keeps s p s2 p2 :=
  ⟨fun b hb => (h'.mem b (Nat.lt_of_lt_of_le hb h.ptr)).trans (h.mem b hb), h.ptr.trans h'.ptr⟩

/-! ## Growing the memory -/

theorem signed_small {n : Nat} (h : n < 2 ^ 31) : signed 32 n = n := by
  simp only [signed]; rw [if_pos (by omega)]

theorem evalBin_divS {a : Nat} (h : a < 2 ^ 31) : evalBin 32 .divS a (2 ^ 16) = some (a / 2 ^ 16) := by
  have h1 : signed 32 a = a := signed_small h
  have h2 : signed 32 (2 ^ 16) = ((2 ^ 16 : Nat) : Int) := signed_small (by omega)
  unfold evalBin
  simp only
  rw [if_neg (by omega), h1, h2, ← Int.ofNat_tdiv]
  have h3 : a / 2 ^ 16 < 2 ^ 31 := by omega
  rw [if_neg (by omega)]
  congr 1
  omega

theorem Ends.grow {E : Env} {n : Nat} {Q : St → Prop} {F : Prop} {is : List Instr} {s : St} {p mem : Nat}
    (hE : E.maxPages = maxMemPages) (h : Inv s p mem) (hQ : ∀ s', OutOfMem E s' → Q s')
    (hk : ∀ s1, Inv s1 p 65536 → Keeps s p s1 p → s1.locals = s.locals → Ends E n is s1 Q F) :
    Ends E n (growMem ++ is) s Q F := by
  obtain ⟨m, pg, g, l, st⟩ := s
  have hst := h.stack
  simp only at hst
  subst hst
  have hsm := h.small
  have hroom := h.room
  have hpg := h.pages
  have hg := h.gmp
  have ho := h.oom
  simp only [pageSize, maxMemPages] at hsm hroom hpg hE
  simp only at hg ho
  let c := decide (pg ≤ (p + pageSize) / 2 ^ 16)
  have e1 : Wasm.steps E [globalGet globMemPtr, w32 pageSize, binop .t32 .add, w32 (2 ^ 16), binop .t32 .divS, memorySize,
      relop .t32 .geS] ⟨m, pg, g, l, []⟩ = some ⟨m, pg, g, l, [boolVal c]⟩ := by
    have k1 : pageSize < 2 ^ 32 := by decide
    have k2 : p + pageSize < 2 ^ 31 := by simp only [pageSize]; omega
    rw [st_gget, st_w32 k1, hg, st_add32 (Nat.lt_trans k2 (by decide)), st_w32 (by decide), st_bin32 (evalBin_divS k2),
      st_msize, st_rel32, st_nil]
    simp only [evalRel]
    rw [signed_small (show pg < 2 ^ 31 by omega), signed_small (show (p + pageSize) / 2 ^ 16 < 2 ^ 31 by omega)]
    simp only [Nat.cast_le, c]
  have e2 : growMem ++ is = [globalGet globMemPtr, w32 pageSize, binop .t32 .add, w32 (2 ^ 16), binop .t32 .divS, memorySize,
      relop .t32 .geS] ++ ([ifte [] [w32 1, memoryGrow, const (.i32 (2 ^ 32 - 1)), relop .t32 .eq,
        ifte [] [w32 1, globalSet globOutOfMem, ret] []] []] ++ is) := rfl
  rw [e2]
  refine Ends.steps rfl e1 ?_
  have hps : pageSize = 65536 := rfl
  by_cases hc : pg ≤ (p + pageSize) / 2 ^ 16
  · have hc' : c = true := by simp only [c, hc, decide_true]
    simp only [hc', boolVal, if_true]
    by_cases hgr : pg + 1 ≤ E.maxPages ∧ E.growOk (pg + 1) = true
    · refine Ends.append (s1 := ⟨fun b => if b < pg * pageSize then m b else 0, pg + 1, g, l, []⟩) ?_ (hk _ ?_ ?_ rfl)
      · refine Runs.ite (c := 1) rfl (s' := ⟨fun b => if b < pg * pageSize then m b else 0, pg + 1, g, l, []⟩) ?_ (Runs.nil _ _)
        rw [if_neg (by omega)]
        have e3 : Wasm.steps E [w32 1, memoryGrow, const (.i32 (2 ^ 32 - 1)), relop .t32 .eq] ⟨m, pg, g, l, []⟩ =
            some ⟨fun b => if b < pg * pageSize then m b else 0, pg + 1, g, l, [.i32 0]⟩ := by
          rw [st_w32 (by omega), st_mgrow hgr, st_const, st_rel32, st_nil]
          have k : decide (pg = 2 ^ 32 - 1) = false := decide_eq_false (by omega)
          simp only [evalRel, boolVal, k]
          rfl
        refine Runs.steps (bs := [ifte [] [w32 1, globalSet globOutOfMem, ret] []]) rfl e3 ?_
        exact Runs.ite rfl (s' := ⟨fun b => if b < pg * pageSize then m b else 0, pg + 1, g, l, []⟩)
          (Runs.nil _ _) (Runs.nil _ _)
      · refine ⟨hg, ho, h.aligned, ?_, ?_, rfl⟩
        · simp only [pageSize]; omega
        · simp only [maxMemPages]; omega
      · refine ⟨fun b hb => ?_, Nat.le_refl _⟩
        have : b < pg * pageSize := by simp only [pageSize]; omega
        exact if_pos this
    · refine .inl ⟨⟨m, pg, setGlobal g globOutOfMem (.i32 1), l, []⟩, ?_, hQ _ ⟨rfl, hgr⟩⟩
      refine Runs.ite_ret (c := 1) rfl ?_
      rw [if_neg (by omega)]
      have e3 : Wasm.steps E [w32 1, memoryGrow, const (.i32 (2 ^ 32 - 1)), relop .t32 .eq] ⟨m, pg, g, l, []⟩ =
          some ⟨m, pg, g, l, [.i32 1]⟩ := by
        rw [st_w32 (by omega), st_mgrow_fail hgr, st_const, st_rel32, st_nil]
        simp only [evalRel, decide_true, boolVal, if_true]
      refine Runs.steps (bs := [ifte [] [w32 1, globalSet globOutOfMem, ret] []]) rfl e3 ?_
      refine Runs.ite_ret (c := 1) rfl ?_
      rw [if_neg (by omega)]
      refine Runs.steps (is := [w32 1, globalSet globOutOfMem]) (bs := [ret]) rfl ?_ (Runs.ret _ _ _)
      rw [st_w32 (by omega), st_gset, st_nil]
  · have hc' : c = false := by simp only [c, hc, decide_false]
    simp only [hc', boolVal]
    refine Ends.append (s1 := ⟨m, pg, g, l, []⟩) ?_ (hk _ ?_ (Keeps.refl _ _) rfl)
    · exact Runs.ite rfl (s' := ⟨m, pg, g, l, []⟩) (Runs.nil _ _) (Runs.nil _ _)
    · refine ⟨hg, ho, h.aligned, ?_, by simp only [maxMemPages]; omega, rfl⟩
      simp only [pageSize]; omega

theorem Ends.growIf {E : Env} {n : Nat} {Q : St → Prop} {F : Prop} {is : List Instr} {s : St} {p mem req : Nat}
    (hE : E.maxPages = maxMemPages) (h : Inv s p mem) (hr : req ≤ 65536) (hQ : ∀ s', OutOfMem E s' → Q s')
    (hk : ∀ s1, Inv s1 p (req + (growIf mem req).2) → Keeps s p s1 p → s1.locals = s.locals → Ends E n is s1 Q F) :
    Ends E n ((growIf mem req).1 ++ is) s Q F := by
  unfold Wasm.growIf at hk ⊢
  split at hk
  · rename_i hle
    simp only [hle, if_true, List.nil_append] at hk ⊢
    exact hk s (h.weaken (by omega)) (Keeps.refl _ _) rfl
  · rename_i hle
    simp only [hle, if_false] at hk ⊢
    exact Ends.grow hE h hQ fun s1 h1 h2 h3 => hk s1 (h1.weaken (by omega)) h2 h3

/-! ## Variables -/

/-- In a function with locals `l`, reading `y` gives `w`. -/
def Reads (lenv fenv : VMap) (l : List Val) (y : ANF.Var) (w : Nat) : Prop :=
  ∃ i, readVar lenv fenv y = some i ∧ i.simple = true ∧
    ∀ E m pg g st, step E i ⟨m, pg, g, l, st⟩ = some ⟨m, pg, g, l, .i32 w :: st⟩

theorem st_reads {E : Env} {m : Mem} {pg : Nat} {g : Nat → Val} {l st : List Val} {is : List Instr} {lenv fenv : VMap}
    {y : ANF.Var} {w : Nat} {i : Instr} (h : Reads lenv fenv l y w) (hi : readVar lenv fenv y = some i) :
    steps E (i :: is) ⟨m, pg, g, l, st⟩ = steps E is ⟨m, pg, g, l, .i32 w :: st⟩ := by
  obtain ⟨i', h1, _, h3⟩ := h
  rw [hi] at h1; cases h1
  rw [steps, h3]; rfl

theorem passArgs_ok {lenv fenv : VMap} {l : List Val} : ∀ {ys : List ANF.Var} {ws : List Nat} {is : List Instr},
    List.Forall₂ (Reads lenv fenv l) ys ws → passArgs lenv fenv ys = some is → is.all Instr.simple = true ∧
    ∀ E m pg g st, steps E is ⟨m, pg, g, l, st⟩ = some ⟨m, pg, g, l, (ws.map Val.i32).reverse ++ st⟩ := by
  intro ys ws is h
  induction h generalizing is with
  | nil => intro h; cases h; exact ⟨rfl, fun _ _ _ _ _ => rfl⟩
  | @cons y w ys ws h1 _ ih =>
    intro h
    rw [passArgs] at h
    obtain ⟨i, hi, h⟩ := Option.bind_eq_some_iff.mp h
    obtain ⟨js, hj, h⟩ := Option.bind_eq_some_iff.mp h
    cases h
    obtain ⟨h2, h3⟩ := ih hj
    refine ⟨?_, fun E m pg g st => ?_⟩
    · obtain ⟨i', h4, h5, _⟩ := h1
      rw [hi] at h4; cases h4
      simp only [List.all_cons, h5, h2, Bool.and_self]
    · rw [st_reads h1 hi, h3]
      simp

/-! ## Allocation of constructors -/

theorem storeArgs_ok {E : Env} {lenv fenv : VMap} {l : List Val} : ∀ {ys : List ANF.Var} {ws : List Nat} {is : List Instr} {k : Nat}
    {m : Mem} {pg : Nat} {g : Nat → Val} {a q : Nat},
    List.Forall₂ (Reads lenv fenv l) ys ws → (∀ w ∈ ws, w < 2 ^ 32) → storeArgs lenv fenv ys k = some is →
    g globCap = .i32 a → g globMemPtr = .i32 q → a + 4 * (1 + k + ys.length) ≤ pg * pageSize →
    pg * pageSize < 2 ^ 32 → q + 4 * ys.length < 2 ^ 32 →
    ∃ m' g', is.all Instr.simple = true ∧ steps E is ⟨m, pg, g, l, []⟩ = some ⟨m', pg, g', l, []⟩ ∧
      (∀ j, j ≠ globMemPtr → g' j = g j) ∧ g' globMemPtr = .i32 (q + 4 * ys.length) ∧
      (∀ b, b < a + 4 * (1 + k) → m' b = m b) ∧
      ∀ (i : Nat) w, ws[i]? = some w → loadN m' (a + 4 * (1 + k + i)) 4 = w := by
  intro ys ws is k m pg g a q h
  induction h generalizing is k m g q with
  | nil =>
    intro _ h hc hq _ _ _
    cases h
    exact ⟨m, g, rfl, rfl, fun _ _ => rfl, by simpa using hq, fun _ _ => rfl, by simp⟩
  | @cons y w ys ws h1 _ ih =>
    intro hw h hc hq h2 h3 h4
    rw [storeArgs] at h
    obtain ⟨i, hi, h⟩ := Option.bind_eq_some_iff.mp h
    obtain ⟨js, hj, h⟩ := Option.bind_eq_some_iff.mp h
    cases h
    rw [List.length_cons] at h2 h4
    obtain ⟨m', g', s1, s2, s3, s4, s5, s6⟩ := ih (k := 1 + k) (m := storeN m (a + 4 * (1 + k)) 4 w)
      (g := setGlobal g globMemPtr (.i32 (q + 4))) (q := q + 4) (fun w hw' => hw w (List.mem_cons_of_mem _ hw')) hj
      (by rw [setGlobal_other _ _ (by decide)]; exact hc) (setGlobal_same _ _ _) (by omega) h3 (by omega)
    refine ⟨m', g', ?_, ?_, ?_, ?_, ?_, ?_⟩
    · obtain ⟨i', h5, h6, _⟩ := h1
      rw [hi] at h5; cases h5
      simp only [List.all_append, s1, Bool.and_true, List.all_cons, h6, List.all_nil]
      rfl
    · rw [steps_append, st_gget, hc, st_w32 (by omega), st_add32 (by omega), st_reads h1 hi, st_store32 (by omega),
        st_gget, hq, st_w32 (by omega), st_add32 (by omega), st_gset, st_nil]
      exact s2
    · intro j hj'
      rw [s3 j hj', setGlobal_other _ _ hj']
    · rw [s4, List.length_cons]; congr 1; omega
    · intro b hb
      rw [s5 b (by omega), storeN, if_neg (by omega)]
    · intro i w' hi'
      cases i with
      | zero =>
        simp only [List.getElem?_cons_zero, Option.some.injEq] at hi'
        subst hi'
        rw [Nat.add_zero, loadN_congr (m' := storeN m (a + 4 * (1 + k)) 4 w) _ _ fun b h5 h6 => s5 b (by omega)]
        exact loadN4_store _ _ _ (hw w (List.mem_cons_self ..))
      | succ i =>
        rw [List.getElem?_cons_succ] at hi'
        have := s6 i w' hi'
        rw [show 1 + k + (i + 1) = 1 + (1 + k) + i by omega]
        exact this

theorem storeConstr_ok {E : Env} {cenv : CEnv} {lenv fenv : VMap} {t : ANF.Tag} {info : Ctor.Info} {ys : List ANF.Var}
    {ws : List Nat} {is : List Instr} {s : St} {p mem : Nat} (hi : cenv t = some info) (ho : info.ordinal < 2 ^ 31)
    (h : List.Forall₂ (Reads lenv fenv s.locals) ys ws) (hw : ∀ w ∈ ws, w < 2 ^ 32)
    (hs : storeConstr cenv lenv fenv t ys = some is) (hinv : Inv s p (4 * (ys.length + 1) + mem)) :
    ∃ s', Runs E is s (.ok s') ∧ Inv s' (p + 4 * (ys.length + 1)) mem ∧ Keeps s p s' (p + 4 * (ys.length + 1)) ∧
      s'.locals = s.locals ∧ s'.globals globCap = .i32 p ∧ loadN s'.mem p 4 = info.ordinal ∧
      ∀ (i : Nat) w, ws[i]? = some w → loadN s'.mem (p + 4 * (i + 1)) 4 = w := by
  obtain ⟨m, pg, g, l, st⟩ := s
  have hst := hinv.stack
  simp only at hst
  subst hst
  have hsm := hinv.small
  have hroom := hinv.room
  have hg := hinv.gmp
  simp only at hg hsm hroom h
  unfold storeConstr at hs
  obtain ⟨i', hi', hs⟩ := Option.bind_eq_some_iff.mp hs
  rw [hi] at hi'; cases hi'
  obtain ⟨js, hj, hs⟩ := Option.bind_eq_some_iff.mp hs
  cases hs
  obtain ⟨m', g', s1, s2, s3, s4, s5, s6⟩ := storeArgs_ok (E := E) (m := storeN m p 4 info.ordinal)
    (g := setGlobal (setGlobal g globCap (.i32 p)) globMemPtr (.i32 (p + 4))) (q := p + 4) (a := p) h hw hj
    (by rw [setGlobal_other _ _ (by decide), setGlobal_same]) (setGlobal_same _ _ _) (pg := pg) (by omega) (by omega)
    (by omega)
  refine ⟨⟨m', pg, g', l, []⟩, ?_, ?_, ?_, rfl, ?_, ?_, ?_⟩
  · refine Runs.straight ?_ ?_
    · simp only [List.all_append, s1, Bool.and_true]; rfl
    · rw [steps_append, st_gget, st_gset, st_gget, setGlobal_same, hg, st_w32 (by omega), st_store32 (by omega), st_gget,
        setGlobal_other _ _ (by decide), hg, st_w32 (by omega), st_add32 (by omega), st_gset, st_nil]
      exact s2
  · refine ⟨?_, ?_, ?_, ?_, hinv.pages, rfl⟩
    · show g' _ = _
      rw [s4]; congr 1; omega
    · show g' _ = _
      rw [s3 _ (by decide), setGlobal_other _ _ (by decide), setGlobal_other _ _ (by decide)]
      exact hinv.oom
    · have := hinv.aligned; omega
    · show _ ≤ pg * pageSize
      omega
  · refine ⟨fun b hb => ?_, by omega⟩
    show m' b = m b
    rw [s5 b (by omega), storeN, if_neg (by omega)]
  · show g' _ = _
    rw [s3 _ (by decide), setGlobal_other _ _ (by decide), setGlobal_same]
  · show loadN m' p 4 = _
    rw [loadN_congr (m' := storeN m p 4 info.ordinal) _ _ fun b h5 h6 => s5 b (by omega)]
    exact loadN4_store _ _ _ (by omega)
  · intro i w hi'
    have := s6 i w hi'
    show loadN m' _ 4 = w
    rw [show p + 4 * (i + 1) = p + 4 * (1 + 0 + i) by omega]
    exact this

end Wasm
