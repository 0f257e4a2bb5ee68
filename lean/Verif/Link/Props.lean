import Verif.Link.Model
import Verif.CPrint.NameProps

/-!
# C76: files generated for several programs can be linked into one

A C program may define a name with external linkage only once (C11 6.9p5), so that files can be linked exactly if no two define the same name.
-/

namespace Link

open CPrint

/-! ## Specification -/

/-- No name is defined in both files. -/
def Links (a b : List Name) : Prop := ∀ n, n ∈ a → n ∉ b

/-- The name of an identifier in the source program, as far as C can show it; `none` if it has no name. -/
def label (m : NEnv) (x : Nat) : Option Name := match m x with
  | some (some s) => some (removePrimes s)
  | _ => none

/-- What is assumed of a program: the names are as in C63, and the identifiers of functions and tables are above those of the compiler and not those of primitives. -/
structure Prog.Ok (P : Prog) : Prop where
  names : NamesOk P.main P.prims P.env
  above : ∀ x ∈ P.ids, 100 < x
  prims : ∀ x ∈ P.ids, x ∉ P.prims.map (·.2)
  fresh : ∀ f ∈ P.fns, f < P.first

/-! ## Lemmas -/

theorem own_below : ∀ p ∈ ownNames, p.1 ≤ 100 := by decide +kernel

/-- The name of a function or table. -/
theorem symbol_of {body : Name} {prims : List (Name × Nat)} {m : NEnv} {x : Nat} (hx : 100 < x) (hp : x ∉ prims.map (·.2)) :
    externAtom (finalTable body prims m) x = match label m x with
      | some s => s ++ '_' :: Nat.toDigits 10 x
      | none => 'x' :: Nat.toDigits 10 x := by
  have key : addPrimNames prims (compileNames body m) x = (m x).map fun n => n.map (· ++ '_' :: Nat.toDigits 10 x) := by
    rw [addPrimNames, setAll_lookup]
    split
    · rename_i n hn
      have := mem_of_lookup hn
      simp only [List.mem_reverse, List.mem_map, Prod.mk.injEq] at this
      obtain ⟨p, hq, rfl, -⟩ := this
      exact absurd (List.mem_map_of_mem hq) hp
    · rw [compileNames, NEnv.set, if_neg (by omega), setAll_lookup]
      split
      · rename_i n hn
        rcases infVars_lookup hn with h | ⟨h, -⟩
        · have := own_below _ h
          simp only at this
          omega
        · omega
      · rfl
  simp only [externAtom, finalTable, atomTable, key, label]
  cases m x with
  | none => rfl
  | some o => cases o with
    | none => rfl
    | some s =>
      simp only [Option.map_some, Option.getD_some]
      exact removePrimes_numbered s x

theorem symbol_main {P : Prog} (h : P.Ok) : externAtom (finalTable P.main P.prims P.env) 90 = P.main := by
  have h1 := (userOk_ident h.names.main).1
  have key : addPrimNames P.prims (compileNames P.main P.env) 90 = some (some P.main) := by
    rw [addPrimNames, setAll_lookup]
    split
    · rename_i n hn
      have := mem_of_lookup hn
      simp only [List.mem_reverse, List.mem_map, Prod.mk.injEq] at this
      obtain ⟨p, hq, e, -⟩ := this
      exact absurd e (h.names.prim p hq).2.2.2
    · rfl
  simp only [externAtom, finalTable, atomTable, key, Option.getD_some]
  exact cIdent_removePrimes h1

/-- The form of the name of a function or table. -/
def form (o : Option Name) (x : Nat) : Name := match o with
  | some s => s ++ '_' :: Nat.toDigits 10 x
  | none => 'x' :: Nat.toDigits 10 x

theorem form_num (o : Option Name) (x : Nat) : Num (form o x) x := by
  cases o with
  | none => exact ⟨[], 'x', by decide, rfl⟩
  | some s => exact ⟨s, '_', by decide, rfl⟩

theorem form_numbered (o : Option Name) (x : Nat) : numbered (form o x) = true := by
  cases o with
  | none => exact numbered_take (a := ['x']) rfl (.inr (.inl rfl))
  | some s => exact numbered_take (a := s ++ ['_']) (x := x) (by simp [form]) (.inr (.inr ⟨s, rfl⟩))

theorem form_inj {o o' : Option Name} {x y : Nat} (h : form o x = form o' y) : x = y ∧ o = o' := by
  have hxy : x = y := num_eq (form_num o x) (h ▸ form_num o' y)
  subst hxy
  refine ⟨rfl, ?_⟩
  have cut : ∀ (s : Name) (c d : Char), s ++ c :: Nat.toDigits 10 x = d :: Nat.toDigits 10 x → c = d := by
    intro s c d e
    have := congrArg List.length e
    simp only [List.length_append, List.length_cons] at this
    have hs : s = [] := List.eq_nil_of_length_eq_zero (by omega)
    subst hs
    simpa using e
  cases o with
  | none => cases o' with
    | none => rfl
    | some s' => exact absurd (cut _ _ _ h.symm) (by decide)
  | some s => cases o' with
    | none => exact absurd (cut _ _ _ h) (by decide)
    | some s' => rw [List.append_cancel_right h]

theorem symbols_eq {P : Prog} (h : P.Ok) : P.symbols = P.main :: P.ids.map fun x => form (label P.env x) x := by
  simp only [Prog.symbols, List.map_cons, symbol_main h, List.cons.injEq, true_and]
  refine List.map_congr_left fun x hx => ?_
  exact symbol_of (h.above x hx) (h.prims x hx)

theorem addInfo_ne {m : NEnv} {f i x : Nat} (h : x ≠ i) : m.addInfo f i x = m x := by
  unfold NEnv.addInfo
  rcases m f with _ | _ | s <;> simp [NEnv.set, h]

theorem infoEnv_below {n : Nat} {m : NEnv} {x : Nat} (hx : x < n) : ∀ fs, infoEnv n m fs x = m x
  | [] => rfl
  | f :: fs => by rw [infoEnv, addInfo_ne (by omega), infoEnv_below hx fs]

theorem env_fn {P : Prog} (h : P.Ok) {f : Nat} (hf : f ∈ P.fns) : P.env f = P.names f := by
  have := h.fresh f hf
  rw [Prog.env, NEnv.set, if_neg (by omega), infoEnv_below this]

/-! ## Theorems -/

/-- Two programs can be linked exactly if their main functions have different names, and no function or table of one has both the number and the name of one of the other. -/
theorem C76_links_iff {P Q : Prog} (hP : P.Ok) (hQ : Q.Ok) :
    Links P.symbols Q.symbols ↔ P.main ≠ Q.main ∧ ∀ x, x ∈ P.ids → x ∈ Q.ids → label P.env x ≠ label Q.env x := by
  rw [symbols_eq hP, symbols_eq hQ]
  constructor
  · intro h
    refine ⟨fun e => h P.main (.head _) (e ▸ .head _), fun x hx hy e => ?_⟩
    exact h _ (.tail _ (List.mem_map_of_mem hx)) (.tail _ (List.mem_map.2 ⟨x, hy, by rw [e]⟩))
  · rintro ⟨h1, h2⟩ n hn hn'
    have nP := (userOk_ident hP.names.main).2
    have nQ := (userOk_ident hQ.names.main).2
    rcases List.mem_cons.1 hn with rfl | hn <;> rcases List.mem_cons.1 hn' with e | hn'
    · exact h1 e
    · obtain ⟨y, -, e⟩ := List.mem_map.1 hn'
      rw [← e, form_numbered] at nP
      cases nP
    · obtain ⟨x, -, e'⟩ := List.mem_map.1 hn
      rw [← e, ← e', form_numbered] at nQ
      cases nQ
    · obtain ⟨x, hx, ex⟩ := List.mem_map.1 hn
      obtain ⟨y, hy, ey⟩ := List.mem_map.1 hn'
      obtain ⟨e1, e2⟩ := form_inj (ex.trans ey.symm)
      subst e1
      exact h2 x hx hy e2

/-- No two programs compiled with the same `-toplevel_name` (in particular, without one) can be linked. -/
theorem C76_main_refuted {P Q : Prog} (hP : P.Ok) (hQ : Q.Ok) (h : P.main = Q.main) : ¬ Links P.symbols Q.symbols :=
  fun hl => ((C76_links_iff hP hQ).1 hl).1 h

/-- Nor two programs whose variables and functions end at the same number: both define the table `body_info_N`. -/
theorem C76_table_refuted {P Q : Prog} (hP : P.Ok) (hQ : Q.Ok) (h : P.first + P.fns.length = Q.first + Q.fns.length) : ¬ Links P.symbols Q.symbols := by
  intro hl
  refine ((C76_links_iff hP hQ).1 hl).2 (P.first + P.fns.length) (.head _) (h ▸ .head _) ?_
  simp only [label, Prog.env, NEnv.set, h, if_true]

/-- Nor two programs that share a function under the same number. -/
theorem C76_function_refuted {P Q : Prog} (hP : P.Ok) (hQ : Q.Ok) {f : Nat} (h1 : f ∈ P.fns) (h2 : f ∈ Q.fns) (h : P.names f = Q.names f) :
    ¬ Links P.symbols Q.symbols := by
  intro hl
  refine ((C76_links_iff hP hQ).1 hl).2 f (List.mem_append_right _ h1) (List.mem_append_right _ h2) ?_
  simp only [label, env_fn hP h1, env_fn hQ h2, h]

theorem infoIds_range {n x : Nat} : ∀ {fs : List Nat}, x ∈ (infoIds n fs).map (·.2) → n ≤ x ∧ x < n + fs.length
  | [], h => by cases h
  | f :: fs, h => by
    rw [infoIds, List.map_cons, List.mem_cons] at h
    rw [List.length_cons]
    rcases h with h | h
    · simp only at h; omega
    · have := infoIds_range h; omega

theorem infoIds_nodup {n : Nat} : ∀ fs : List Nat, ((infoIds n fs).map (·.2)).Nodup
  | [] => List.nodup_nil
  | f :: fs => by
    rw [infoIds, List.map_cons, List.nodup_cons]
    exact ⟨fun h => by have := infoIds_range h; simp only at this; omega, infoIds_nodup fs⟩

/-- The file of one program defines no name twice. -/
theorem C76_own {P : Prog} (h : P.Ok) (hn : P.fns.Nodup) : P.symbols.Nodup := by
  rw [symbols_eq h, List.nodup_cons]
  refine ⟨fun hm => ?_, List.Nodup.map (fun x y e => (form_inj e).1) ?_⟩
  · obtain ⟨y, -, e⟩ := List.mem_map.1 hm
    have := (userOk_ident h.names.main).2
    rw [← e, form_numbered] at this
    cases this
  · rw [Prog.ids, List.cons_append, List.nodup_cons, List.nodup_append]
    refine ⟨fun hm => ?_, infoIds_nodup _, hn, fun x hx y hy e => ?_⟩
    · rcases List.mem_append.1 hm with hm | hm
      · have := infoIds_range hm; omega
      · have := h.fresh _ hm; omega
    · have := infoIds_range hx
      have := h.fresh _ hy
      omega

theorem infoEnv_info {n : Nat} {m : NEnv} {f : Nat} {s : Name} (hs : m f = some (some s)) : ∀ {fs : List Nat}, (∀ g ∈ fs, g < n) → f ∈ fs →
    ∃ i, i ∈ (infoIds n fs).map (·.2) ∧ infoEnv n m fs i = some (some (s ++ "_info".toList))
  | [], _, h => by cases h
  | g :: fs, hl, h => by
    by_cases e : f = g
    · subst e
      refine ⟨n + fs.length, by simp [infoIds], ?_⟩
      have hf : infoEnv n m fs f = some (some s) := by rw [infoEnv_below (hl f (.head _)), hs]
      simp [infoEnv, NEnv.addInfo, hf, NEnv.set]
    · obtain ⟨i, h1, h2⟩ := infoEnv_info hs (fun g hg => hl g (.tail _ hg)) ((List.mem_cons.1 h).resolve_left e)
      refine ⟨i, by rw [infoIds, List.map_cons]; exact .tail _ h1, ?_⟩
      have := infoIds_range h1
      rw [infoEnv, addInfo_ne (by omega), h2]

/-- The table of every function of the source has its name. -/
theorem C76_tables {P : Prog} (h : P.Ok) {f : Nat} {s : Name} (hf : f ∈ P.fns) (hs : P.names f = some (some s)) :
    ∃ i, P.first ≤ i ∧ removePrimes (s ++ "_info".toList) ++ '_' :: Nat.toDigits 10 i ∈ P.symbols := by
  obtain ⟨i, h1, h2⟩ := infoEnv_info hs h.fresh hf
  have hr := infoIds_range h1
  refine ⟨i, hr.1, ?_⟩
  rw [symbols_eq h]
  refine .tail _ (List.mem_map.2 ⟨i, List.mem_append_left _ (.tail _ h1), ?_⟩)
  have he : P.env i = some (some (s ++ "_info".toList)) := by rw [Prog.env, NEnv.set, if_neg (by omega), h2]
  simp only [label, he, form]

/-- No two files of glue code can be linked. -/
theorem C76_glue_refuted (a b : List Name) : ¬ Links (glueSymbols a) (glueSymbols b) :=
  fun h => h "call".toList (by simp [glueSymbols, glueCommon]) (by simp [glueSymbols, glueCommon])

/-! ## Examples -/

/-- Names of one function. -/
def named (x : Nat) (s : Name) : NEnv := fun y => if y = x then some (some s) else none

/-- `add` with number 120 and `mul` with number 120; `fst` with 130. -/
def progA : Prog := ⟨"run_add".toList, [], named 120 "add".toList, [120], 150⟩
def progB : Prog := ⟨"run_mul".toList, [], named 120 "mul".toList, [120], 160⟩
def progC : Prog := ⟨"run_sub".toList, [], named 120 "add".toList, [120], 170⟩

theorem ok_of {b s : Name} {f n : Nat} (hb : userOk b = true) (hs : srcOk s = true) (hf : 100 < f) (hn : f < n) :
    (⟨b, [], named f s, [f], n⟩ : Prog).Ok where
  names := by
    refine ⟨fun x t h => ?_, hb, by simp, by simp, by simp⟩
    simp only [Prog.env, NEnv.set] at h
    split_ifs at h with h1
    · simp only [Option.some.injEq] at h
      subst h
      decide
    · refine C63_info (m := named f s) (inf := n + 0) (f := f) (by simp [named]) (fun y t e => ?_) x t h
      simp only [named] at e
      split_ifs at e
      simp only [Option.some.injEq] at e
      exact e ▸ hs
  above := by
    intro x hx
    simp [Prog.ids, infoIds] at hx
    omega
  prims := by simp
  fresh := by simpa using hn

/-- Different functions under the same number: they can be linked. -/
example : Links progA.symbols progB.symbols := by
  refine (C76_links_iff (ok_of (by decide +kernel) (by decide) (by decide) (by decide)) (ok_of (by decide +kernel) (by decide) (by decide) (by decide))).2
    ⟨by decide +kernel, ?_⟩
  intro x h1 h2
  simp only [Prog.ids, infoIds, progA, progB, List.length_cons, List.length_nil, List.map_cons, List.map_nil, List.cons_append, List.nil_append, List.mem_cons,
    List.not_mem_nil, or_false] at h1 h2
  obtain rfl : x = 120 := by omega
  decide +kernel

/-- The same function with the same number in two programs with different main functions. -/
example : progA.main ≠ progC.main ∧ ¬ Links progA.symbols progC.symbols :=
  ⟨by decide +kernel, C76_function_refuted (f := 120) (ok_of (by decide +kernel) (by decide) (by decide) (by decide))
    (ok_of (by decide +kernel) (by decide) (by decide) (by decide)) (by decide) (by decide) rfl⟩

/-- One file. -/
example : progA.symbols.Nodup ∧ ∃ i, progA.first ≤ i ∧ removePrimes ("add".toList ++ "_info".toList) ++ '_' :: Nat.toDigits 10 i ∈ progA.symbols :=
  ⟨C76_own (ok_of (by decide +kernel) (by decide) (by decide) (by decide)) (by decide),
    C76_tables (f := 120) (ok_of (by decide +kernel) (by decide) (by decide) (by decide)) (by decide) rfl⟩

/-- The names. -/
example : progA.symbols = ["run_add".toList, "body_info_151".toList, "add_info_150".toList, "add_120".toList] := by decide +kernel

end Link
