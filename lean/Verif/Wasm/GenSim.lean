import Verif.Wasm.GenPrim

/-! # The simulation of LambdaANF by the generated code -/

namespace Wasm
open Instr

/-- What is fixed during the execution of a module. -/
structure Ctx where
  S : ANF.Sig
  penv : ANF.Tag → Option Primop
  B : ANF.Defs
  E : Env

/-- The function index map. -/
def Ctx.fenv (C : Ctx) : VMap := varMap 1 C.B.names

/-- Facts about it. -/
structure Ctx.Ok (C : Ctx) : Prop where
  pages : C.E.maxPages = maxMemPages
  few : C.B.names.length ≤ maxNumFunctions
  names : C.B.names.Nodup
  ords : OrdOk C.S.cenv
  prims : PrimsOk C.S C.penv

/-- Representations in a state with allocation pointer `p`. -/
abbrev Ctx.Rep (C : Ctx) (m : Mem) (p : Nat) : ANF.Val → Nat → Prop := Wasm.Rep C.S.cenv C.B m p

/-- The end of a run that started in `s` with allocation pointer `p` and whose source result is `r`. -/
def Ctx.Done (C : Ctx) (s : St) (p : Nat) (r : ANF.Res) (s' : St) : Prop :=
  OutOfMem C.E s' ∨ ∃ v p' w, r = .val v ∧ Keeps s p s' p' ∧ Inv { s' with stack := [] } p' 0 ∧
    s'.globals globResult = .i32 w ∧ C.Rep s'.mem p' v w

theorem Ctx.Done.of {C : Ctx} {s s1 s' : St} {p p1 : Nat} {r : ANF.Res} (hk : Keeps s p s1 p1) (h : C.Done s1 p1 r s') :
    C.Done s p r s' := by
  rcases h with h | ⟨v, p', w, h1, h2, h3⟩
  · exact .inl h
  · exact .inr ⟨v, p', w, h1, hk.trans h2, h3⟩

/-- Environments: functions of the bundle are indices, everything else is in its local. -/
structure Ctx.EnvOk (C : Ctx) (lenv : VMap) (ρ : ANF.Env) (s : St) (p : Nat) : Prop where
  funs : ∀ x v i, ρ x = some v → C.fenv x = some i → C.Rep s.mem p v i
  vars : ∀ x v i, ρ x = some v → lenv x = some i → ∃ w, s.locals[i]? = some (.i32 w) ∧ C.Rep s.mem p v w

/-- Maps from variables to locals. -/
structure LenvOk (fenv lenv : VMap) (len : Nat) : Prop where
  apart : ∀ x i, lenv x = some i → fenv x = none
  single : ∀ x y i, lenv x = some i → lenv y = some i → x = y
  bound : ∀ x i, lenv x = some i → i < len

theorem varMap_some {k : Nat} {l : List ANF.Var} {x : ANF.Var} {i : Nat} (h : varMap k l x = some i) :
    ∃ j, i = k + j ∧ l[j]? = some x := by
  induction l generalizing k with
  | nil => cases h
  | cons v l ih =>
    rw [varMap] at h
    split at h
    · rename_i hv
      cases h
      exact ⟨0, rfl, by simp [hv]⟩
    · obtain ⟨j, h1, h2⟩ := ih h
      exact ⟨j + 1, by omega, by simpa using h2⟩

theorem varMap_mem {k : Nat} {l : List ANF.Var} {x : ANF.Var} (h : x ∈ l) : ∃ i, varMap k l x = some i := by
  induction l generalizing k with
  | nil => cases h
  | cons v l ih =>
    rw [varMap]
    split
    · exact ⟨_, rfl⟩
    · rename_i hv
      exact ih (by simpa [hv] using h)

theorem varMap_nth {k : Nat} {l : List ANF.Var} (hl : l.Nodup) {j : Nat} {x : ANF.Var} (h : l[j]? = some x) :
    varMap k l x = some (k + j) := by
  obtain ⟨i, hi⟩ := varMap_mem (k := k) (List.mem_of_getElem? h)
  obtain ⟨j', h1, h2⟩ := varMap_some hi
  obtain ⟨a1, a2⟩ := List.getElem?_eq_some_iff.mp h
  obtain ⟨b1, b2⟩ := List.getElem?_eq_some_iff.mp h2
  have : j = j' := (List.Nodup.getElem_inj_iff hl).mp (a2.trans b2.symm)
  rw [hi, h1, this]

section
variable {C : Ctx} {lenv : VMap} {ρ : ANF.Env} {s : St} {p : Nat}

theorem Ctx.EnvOk.keeps (h : C.EnvOk lenv ρ s p) {s1 : St} {p1 : Nat} (hk : Keeps s p s1 p1) (hl : s1.locals = s.locals) :
    C.EnvOk lenv ρ s1 p1 :=
  ⟨fun x v i h1 h2 => (h.funs x v i h1 h2).mono hk.mem hk.ptr, fun x v i h1 h2 => by
    obtain ⟨w, h3, h4⟩ := h.vars x v i h1 h2
    exact ⟨w, by rw [hl]; exact h3, h4.mono hk.mem hk.ptr⟩⟩

theorem Ctx.EnvOk.set (h : C.EnvOk lenv ρ s p) (hl : LenvOk C.fenv lenv s.locals.length) {x : ANF.Var} {i w : Nat}
    {v : ANF.Val} (hx : lenv x = some i) (hr : C.Rep s.mem p v w) :
    C.EnvOk lenv (ρ.set x v) { s with locals := s.locals.set i (.i32 w) } p := by
  constructor
  · intro y u j h1 h2
    have hy : y ≠ x := by rintro rfl; rw [hl.apart y i hx] at h2; cases h2
    rw [ANF.Env.set, if_neg hy] at h1
    exact h.funs y u j h1 h2
  · intro y u j h1 h2
    by_cases hy : y = x
    · subst hy
      rw [hx] at h2; cases h2
      rw [ANF.Env.set, if_pos rfl] at h1
      cases h1
      exact ⟨w, by simp [hl.bound y i hx], hr⟩
    · rw [ANF.Env.set, if_neg hy] at h1
      obtain ⟨w', h3, h4⟩ := h.vars y u j h1 h2
      have hij : i ≠ j := by rintro rfl; exact hy (hl.single y x i h2 hx)
      exact ⟨w', by simp [List.getElem?_set_ne hij, h3], h4⟩

/-- Reading a variable. -/
theorem Ctx.EnvOk.reads (hC : C.Ok) (h : C.EnvOk lenv ρ s p) (hl : LenvOk C.fenv lenv s.locals.length) {y : ANF.Var}
    {v : ANF.Val} {i : Instr} (hv : ρ y = some v) (hi : readVar lenv C.fenv y = some i) :
    ∃ w, Reads lenv C.fenv s.locals y w ∧ C.Rep s.mem p v w := by
  have hi' := hi
  rw [readVar] at hi
  rcases hf : C.fenv y with _ | j
  · rw [hf] at hi
    simp only at hi
    rcases hy : lenv y with _ | j
    · rw [hy] at hi; cases hi
    · rw [hy] at hi
      cases hi
      obtain ⟨w, h1, h2⟩ := h.vars y v j hv hy
      refine ⟨w, ⟨_, hi', rfl, fun E m pg g st => ?_⟩, h2⟩
      rw [step]; simp [h1]
  · rw [hf] at hi
    simp only at hi
    cases hi
    have h2 := h.funs y v j hv hf
    refine ⟨j, ⟨_, hi', rfl, fun E m pg g st => ?_⟩, h2⟩
    have hj : j < 2 ^ 32 := by
      obtain ⟨k, h3, h4⟩ := varMap_some hf
      have := (List.getElem?_eq_some_iff.mp h4).1
      have := hC.few
      simp only [maxNumFunctions] at this
      omega
    rw [w32, Nat.mod_eq_of_lt hj]
    rfl

theorem Ctx.EnvOk.readsAll (hC : C.Ok) (h : C.EnvOk lenv ρ s p) (hl : LenvOk C.fenv lenv s.locals.length) :
    ∀ {ys : List ANF.Var} {vs : List ANF.Val}, ANF.getList ρ ys = some vs →
    (∀ y ∈ ys, ∃ i, readVar lenv C.fenv y = some i) →
    ∃ ws, List.Forall₂ (Reads lenv C.fenv s.locals) ys ws ∧ List.Forall₂ (C.Rep s.mem p) vs ws := by
  intro ys
  induction ys with
  | nil => intro vs h1 _; cases h1; exact ⟨[], .nil, .nil⟩
  | cons y ys ih =>
    intro vs h1 h2
    rw [ANF.getList] at h1
    rcases hv : ρ y with _ | v
    · simp [hv] at h1
    rcases hvs : ANF.getList ρ ys with _ | vs'
    · simp [hv, hvs] at h1
    simp only [hv, hvs, Option.some.injEq] at h1
    subst h1
    obtain ⟨i, hi⟩ := h2 y (List.mem_cons_self ..)
    obtain ⟨w, h3, h4⟩ := h.reads hC hl hv hi
    obtain ⟨ws, h5, h6⟩ := ih hvs fun y hy => h2 y (List.mem_cons_of_mem _ hy)
    exact ⟨w :: ws, .cons h3 h5, .cons h4 h6⟩

end

theorem passArgs_reads {lenv fenv : VMap} : ∀ {ys : List ANF.Var} {is : List Instr}, passArgs lenv fenv ys = some is →
    ∀ y ∈ ys, ∃ i, readVar lenv fenv y = some i := by
  intro ys
  induction ys with
  | nil => intro _ _ y hy; cases hy
  | cons y ys ih =>
    intro is h z hz
    rw [passArgs] at h
    obtain ⟨i, hi, h⟩ := Option.bind_eq_some_iff.mp h
    obtain ⟨js, hj, h⟩ := Option.bind_eq_some_iff.mp h
    rcases List.mem_cons.mp hz with rfl | hz
    · exact ⟨i, hi⟩
    · exact ih hj z hz

theorem storeArgs_reads {lenv fenv : VMap} : ∀ {ys : List ANF.Var} {k : Nat} {is : List Instr},
    storeArgs lenv fenv ys k = some is → ∀ y ∈ ys, ∃ i, readVar lenv fenv y = some i := by
  intro ys
  induction ys with
  | nil => intro _ _ _ y hy; cases hy
  | cons y ys ih =>
    intro k is h z hz
    rw [storeArgs] at h
    obtain ⟨i, hi, h⟩ := Option.bind_eq_some_iff.mp h
    obtain ⟨js, hj, h⟩ := Option.bind_eq_some_iff.mp h
    rcases List.mem_cons.mp hz with rfl | hz
    · exact ⟨i, hi⟩
    · exact ih hj z hz

theorem Forall₂.nth {α β : Type} {R : α → β → Prop} {as : List α} {bs : List β} (h : List.Forall₂ R as bs) {i : Nat} {a : α}
    (ha : as[i]? = some a) : ∃ b, bs[i]? = some b ∧ R a b := by
  induction h generalizing i with
  | nil => simp at ha
  | cons h1 _ ih =>
    cases i with
    | zero => simp only [List.getElem?_cons_zero, Option.some.injEq] at ha; subst ha; exact ⟨_, rfl, h1⟩
    | succ i => exact ih (by simpa using ha)

theorem Forall₂.mem_right {α β : Type} {R : α → β → Prop} {as : List α} {bs : List β} (h : List.Forall₂ R as bs) {b : β}
    (hb : b ∈ bs) : ∃ a, R a b := by
  induction h with
  | nil => cases hb
  | cons h1 _ ih =>
    rcases List.mem_cons.mp hb with rfl | hb
    · exact ⟨_, h1⟩
    · exact ih hb

/-- The function `fn`, called with `args`, behaves like `r`. -/
def CalleeEnds (C : Ctx) (fn : Func) (args : List Val) (s : St) (p : Nat) (r : ANF.Res) : Nat → Prop
  | 0 => r = .oot
  | k + 1 => Ends C.E k fn.body { s with locals := args ++ List.replicate fn.locals (.i32 0), stack := [] }
      (C.Done s p r) (r = .oot)

/-- The calls made by an expression: `n` units of fuel for it, one unit less for the callee. -/
def CallOk (C : Ctx) (call : ANF.Env → ANF.Exp → ANF.Res) (n : Nat) : Prop :=
  ∀ (j : Nat) f ft xs eb vs ws ρ' s p, C.B.names[j]? = some f → ANF.findDef f C.B = some (ft, xs, eb) →
    ANF.setLists xs vs (ANF.defFuns C.B C.B ANF.emp ANF.emp) = some ρ' → List.Forall₂ (C.Rep s.mem p) vs ws → Inv s p 0 →
    ∃ fn, C.E.funcs[j + 1]? = some fn ∧ fn.params = xs.length ∧ (call ρ' eb ≠ .stuck →
      CalleeEnds C fn (ws.map Val.i32) s p (call ρ' eb) n)

theorem popArgs_ok (l st : List Val) : popArgs l.length (l.reverse ++ st) = some (l, st) := by
  rw [popArgs, if_pos (by simp)]
  congr 2
  · rw [List.take_left' (by simp), List.reverse_reverse]
  · rw [List.drop_left' (by simp)]

/-- What a call needs. -/
theorem Ctx.EnvOk.callee {C : Ctx} {lenv : VMap} {ρ : ANF.Env} {s : St} {p n : Nat} {call : ANF.Env → ANF.Exp → ANF.Res}
    (hC : C.Ok) (h : C.EnvOk lenv ρ s p) (hl : LenvOk C.fenv lenv s.locals.length) (hc : CallOk C call n)
    {f : ANF.Var} {ft : ANF.Tag} {ys : List ANF.Var} {ρ' : ANF.Env} {eb : ANF.Exp} {tail : Bool} {is : List Instr}
    (hcal : ANF.callee ρ f ft ys = some (ρ', eb)) (hi : Inv s p 0) (ht : translateCall lenv C.fenv f ys tail = some is) :
    ∃ pre args st fn j, is = pre ++ [if tail then returnCallIndirect ys.length else callIndirect ys.length] ∧
      Runs C.E pre s (.ok { s with stack := .i32 j :: st }) ∧ popArgs ys.length st = some (args, []) ∧
      C.E.funcs[j]? = some fn ∧ fn.params = ys.length ∧ (call ρ' eb ≠ .stuck →
      CalleeEnds C fn args s p (call ρ' eb) n) := by
  unfold ANF.callee at hcal
  rcases hf : ρ f with _ | u
  · simp [hf] at hcal
  rcases hvs : ANF.getList ρ ys with _ | vs
  · simp [hf, hvs] at hcal
  rcases u with ⟨t, us⟩ | ⟨ρ0, B, f'⟩ | q
  · simp [hf, hvs] at hcal
  swap
  · simp [hf, hvs] at hcal
  simp only [hf, hvs] at hcal
  rcases hd : ANF.findDef f' B with _ | ⟨ft', xs, e'⟩
  · simp [hd] at hcal
  simp only [hd] at hcal
  split at hcal
  swap
  · cases hcal
  rename_i hft
  subst hft
  rcases hs : ANF.setLists xs vs (ANF.defFuns B B ρ0 ρ0) with _ | ρ1
  · simp [hs] at hcal
  simp only [hs, Option.map_some, Option.some.injEq, Prod.mk.injEq] at hcal
  obtain ⟨rfl, rfl⟩ := hcal
  unfold translateCall at ht
  obtain ⟨pa, hpa, ht⟩ := Option.bind_eq_some_iff.mp ht
  obtain ⟨i, hri, ht⟩ := Option.bind_eq_some_iff.mp ht
  cases ht
  obtain ⟨ws, hw1, hw2⟩ := h.readsAll hC hl hvs (passArgs_reads hpa)
  obtain ⟨w, hr1, hr2⟩ := h.reads hC hl hf hri
  obtain ⟨p1, p2⟩ := passArgs_ok hw1 hpa
  have hlen : ws.length = ys.length := hw1.length_eq.symm
  cases hr2 with
  | @fn _ j hj =>
  obtain ⟨fn, f1, f2, f3⟩ := hc j f' ft' xs e' vs ws ρ1 s p hj hd hs hw2 hi
  refine ⟨pa ++ [i], ws.map Val.i32, (ws.map Val.i32).reverse, fn, j + 1, rfl, ?_, ?_, f1, ?_, f3⟩
  · refine Runs.straight ?_ ?_
    · obtain ⟨i', q1, q2, _⟩ := hr1
      rw [hri] at q1; cases q1
      simp only [List.all_append, p1, List.all_cons, q2, List.all_nil, Bool.and_self]
    · obtain ⟨m, pg, g, l, st⟩ := s
      have hst := hi.stack
      simp only at hst
      subst hst
      rw [steps_append, p2]
      simp only [Option.bind_some]
      rw [st_reads hr1 hri, st_nil]
      simp
  · have := popArgs_ok (ws.map Val.i32) []
    rw [List.append_nil, List.length_map, hlen] at this
    exact this
  · rw [f2, ANF.setLists_len hs, ANF.getList_length hvs]

/-- The rest of an expression after a local has been set. -/
theorem setLocal_ends {C : Ctx} {lenv : VMap} {ρ : ANF.Env} {s s1 : St} {p p1 mem n : Nat} {r : ANF.Res} {is : List Instr}
    {x : ANF.Var} {i w : Nat} {v : ANF.Val} (hE : C.EnvOk lenv ρ s1 p1) (hl : LenvOk C.fenv lenv s1.locals.length)
    (hI : Inv { s1 with stack := [] } p1 mem) (hk : Keeps s p s1 p1) (hst : s1.stack = [.i32 w]) (hx : lenv x = some i)
    (hr : C.Rep s1.mem p1 v w)
    (h : ∀ s2, C.EnvOk lenv (ρ.set x v) s2 p1 → LenvOk C.fenv lenv s2.locals.length → Inv s2 p1 mem →
      Ends C.E n is s2 (C.Done s2 p1 r) (r = .oot)) :
    Ends C.E n (localSet i :: is) s1 (C.Done s p r) (r = .oot) := by
  have h1 := h { s1 with locals := s1.locals.set i (.i32 w), stack := [] }
    (by have := hE.set hl hx hr; exact ⟨this.funs, this.vars⟩) (by simpa using hl) ⟨hI.1, hI.2, hI.3, hI.4, hI.5, rfl⟩
  refine Ends.steps (is := [localSet i]) (s1 := { s1 with locals := s1.locals.set i (.i32 w), stack := [] }) rfl ?_
    (h1.mono (fun s' hs' => Ctx.Done.of ?_ hs') id)
  · obtain ⟨m, pg, g, l, st⟩ := s1
    simp only at hst
    subst hst
    rw [st_lset (hl.bound x i hx), st_nil]
  · exact ⟨hk.mem, hk.ptr⟩

theorem mapM_args {C : Ctx} {lenv : VMap} {ρ : ANF.Env} {s : St} {p : Nat} (h : C.EnvOk lenv ρ s p) :
    ∀ {ys : List ANF.Var} {js : List Nat} {vs : List ANF.Val} {ps : List ANF.PVal} {ns : List Nat},
    ys.mapM lenv = some js → ANF.getList ρ ys = some vs → ANF.asPrims vs = some ps → ps = ns.map .int →
    List.Forall₂ (Arg s p) js ns := by
  intro ys
  induction ys with
  | nil =>
    intro js vs ps ns h1 h2 h3 h4
    cases h1; cases h2; cases h3
    rw [List.map_eq_nil_iff.mp h4.symm]
    exact .nil
  | cons y ys ih =>
    intro js vs ps ns h1 h2 h3 h4
    rw [List.mapM_cons] at h1
    obtain ⟨j, hj, h1⟩ := Option.bind_eq_some_iff.mp h1
    obtain ⟨js', hjs, h1⟩ := Option.bind_eq_some_iff.mp h1
    cases h1
    rw [ANF.getList] at h2
    rcases hv : ρ y with _ | v
    · simp [hv] at h2
    rcases hvs : ANF.getList ρ ys with _ | vs'
    · simp [hv, hvs] at h2
    simp only [hv, hvs, Option.some.injEq] at h2
    subst h2
    rcases v with ⟨t, us⟩ | ⟨ρ0, B, f'⟩ | q
    · simp [ANF.asPrims] at h3
    · simp [ANF.asPrims] at h3
    rw [ANF.asPrims] at h3
    rcases hps : ANF.asPrims vs' with _ | ps'
    · simp [hps] at h3
    simp only [hps, Option.map_some, Option.some.injEq] at h3
    subst h3
    cases ns with
    | nil => cases h4
    | cons n ns =>
      simp only [List.map_cons, List.cons.injEq] at h4
      obtain ⟨rfl, h4⟩ := h4
      obtain ⟨w, h5, h6⟩ := h.vars y _ j hv hj
      refine .cons ?_ (ih hjs hvs hps h4)
      cases h6 with
      | int q1 q2 q3 q4 => exact ⟨q1, w, h5, q3, q4⟩

/-- Loading the ordinal or comparing directly: the test of one branch. -/
theorem chain_step {E : Env} {n : Nat} {Q : St → Prop} {F : Prop} {boxed : Bool} {i ord w : Nat} {is : List Instr}
    {tl : List (Nat × List Instr)} {s : St} {ord' : Nat} (hst : s.stack = []) (hw : s.locals[i]? = some (.i32 w))
    (ho' : ord' < 2 ^ 31) (ho : ord < 2 ^ 31)
    (hb : if boxed then w + 4 ≤ s.pages * pageSize ∧ loadN s.mem w 4 = ord else w = 2 * ord + 1)
    (h : Ends E n (if ord = ord' then is else ifChain boxed i tl) s Q F) :
    Ends E n (ifChain boxed i ((ord', is) :: tl)) s Q F := by
  obtain ⟨m, pg, g, l, st⟩ := s
  simp only at hst
  subst hst
  have key : Ends E n [ifte [] is (ifChain boxed i tl)] ⟨m, pg, g, l, [boolVal (decide (ord = ord'))]⟩ Q F := by
    by_cases he : ord = ord'
    · rw [if_pos he] at h
      exact Ends.ite (c := 1) (st := []) (by simp [boolVal, he]) (by rw [if_neg (by decide)]; exact h)
    · rw [if_neg he] at h
      exact Ends.ite (c := 0) (st := []) (by simp [boolVal, he]) (by rw [if_pos rfl]; exact h)
  cases boxed with
  | true =>
    simp only [if_true] at hb
    rw [show ifChain true i ((ord', is) :: tl) =
      [localGet i, load .t32 0, w32 ord', relop .t32 .eq] ++ [ifte [] is (ifChain true i tl)] from rfl]
    refine Ends.steps rfl ?_ key
    rw [st_lget hw, st_load32 (by simpa using hb.1), st_w32 (by omega), st_rel32, st_nil]
    simp only [Nat.add_zero, hb.2, evalRel]
  | false =>
    simp only [Bool.false_eq_true, if_false] at hb
    rw [show ifChain false i ((ord', is) :: tl) =
      [localGet i, w32 (2 * ord' + 1), relop .t32 .eq] ++ [ifte [] is (ifChain false i tl)] from rfl]
    refine Ends.steps rfl ?_ key
    rw [st_lget hw, st_w32 (by omega), st_rel32, st_nil]
    simp only [evalRel, hb]
    rw [show decide (2 * ord + 1 = 2 * ord' + 1) = decide (ord = ord') by
      rw [decide_eq_decide]; omega]

theorem consistent_mem {cenv : CEnv} {t : ANF.Tag} : ∀ {ts : List ANF.Tag}, ANF.consistent cenv t ts = true → ∀ t' ∈ ts,
    ∃ i i', cenv t = some i ∧ cenv t' = some i' ∧ i.indTag = i'.indTag := by
  intro ts
  induction ts with
  | nil => intro _ t' h; cases h
  | cons a ts ih =>
    intro h t' ht'
    rw [ANF.consistent, Bool.and_eq_true] at h
    rcases List.mem_cons.mp ht' with rfl | ht'
    · have h2 := h.2
      split at h2
      · rename_i i i' h3 h4
        exact ⟨i, i', h3, h4, by simpa using h2⟩
      · cases h2
    · exact ih h.1 t' ht'

end Wasm
