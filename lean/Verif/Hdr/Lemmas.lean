import Verif.Hdr.Spec

/-!
# Lemmas about headers
-/

namespace Hdr

variable {cps : Bool} {ps : List Str}

/-- The headers of the runtime. -/
def valuesFile : File := ⟨[], gValues, [.quote nConfig, .text .values]⟩
def configFile : File := ⟨[], gConfig, [.text .config]⟩
def rtFile : Bool → File
  | false => ⟨[], gStack, [.quote nValues, .text .gc]⟩
  | true => ⟨[.quote nValues], gGc, [.text .gc]⟩
def rtGuard : Bool → Str
  | false => gStack
  | true => gGc

theorem find_values : findQuote (files cps ps) .rt nValues = some (.rt, valuesFile) := rfl
theorem find_config : findQuote (files cps ps) .rt nConfig = some (.rt, configFile) := rfl

theorem rtHeader_name : rtHeader cps = hName (rtName cps) := by cases cps <;> rfl

theorem hName_inj {p q : Str} (h : hName p = hName q) : p = q := List.append_cancel_right h

theorem build_none {n : Str} (h : ∀ q ∈ ps, hName q ≠ n) : files cps ps .build n = none := by
  have : ps.find? (fun p => hName p = n) = none := by
    rw [List.find?_eq_none]
    intro q hq
    simpa using h q hq
  simp [files, this]

theorem build_some {p : Str} (h : p ∈ ps) : files cps ps .build (hName p) = some (headerFile cps p) := by
  have : ps.find? (fun q => hName q = hName p) = some p := by
    cases h' : ps.find? (fun q => hName q = hName p) with
    | none =>
      rw [List.find?_eq_none] at h'
      exact absurd (decide_eq_true rfl) (h' p h)
    | some q =>
      have := List.find?_some h'
      simp only [decide_eq_true_eq] at this
      rw [hName_inj this]
  simp only [files, this, Option.map_some]

theorem find_rt (h : rtName cps ∉ ps) : findAngle (files cps ps) (rtHeader cps) = some (.rt, rtFile cps) := by
  have : files cps ps .build (rtHeader cps) = none := by
    rw [rtHeader_name]
    exact build_none fun q hq he => h (hName_inj he ▸ hq)
  simp only [findAngle, this]
  cases cps <;> rfl

theorem find_self (h : rtName cps ∈ ps) : findAngle (files cps ps) (rtHeader cps) = some (.build, headerFile cps (rtName cps)) := by
  rw [rtHeader_name]
  simp only [findAngle, build_some h]

theorem find_prog {p : Str} (h : p ∈ ps) : findQuote (files cps ps) .build (hName p) = some (.build, headerFile cps p) := by
  simp only [findQuote, build_some h]

/-- What the runtime's header leaves, by the macros that are defined. -/
def rtText (cps : Bool) (m : List Str) : List Txt :=
  let c := if gConfig ∈ m then [] else [Txt.config]
  let v := if gValues ∈ m then [] else c ++ [Txt.values]
  match cps with
  | false => if rtGuard false ∈ m then [] else v ++ [Txt.gc]
  | true => v ++ if rtGuard true ∈ m then [] else [Txt.gc]

theorem pp_config (fs : FS) (n : Nat) (m : List Str) : ∃ m', ppFile fs (n + 1) m (.rt, configFile) =
    some (if gConfig ∈ m then [] else [Txt.config], m') ∧ ∀ x, x ∈ m' ↔ x = gConfig ∨ x ∈ m := by
  by_cases h : gConfig ∈ m
  · refine ⟨m, ?_, fun x => ⟨.inr, fun hx => hx.elim (fun e => e ▸ h) id⟩⟩
    simp only [ppFile, ppWith, configFile, ppLines, h, if_true]
    rfl
  · refine ⟨_ :: m, ?_, fun x => List.mem_cons⟩
    simp only [ppFile, ppWith, configFile, ppLines, h, if_false]
    rfl

theorem pp_values (n : Nat) (m : List Str) : ∃ m', ppFile (files cps ps) (n + 2) m (.rt, valuesFile) =
    some (if gValues ∈ m then [] else (if gConfig ∈ m then [] else [Txt.config]) ++ [Txt.values], m') ∧
    ∀ x, x ∈ m' ↔ x ∈ m ∨ gValues ∉ m ∧ x ∈ [gConfig, gValues] := by
  by_cases h : gValues ∈ m
  · refine ⟨m, ?_, fun x => ⟨.inl, fun hx => hx.elim id fun y => absurd h y.1⟩⟩
    rw [ppFile]
    simp only [ppWith, valuesFile, ppLines, h, if_true]
    rfl
  · obtain ⟨m', h1, h2⟩ := pp_config (files cps ps) n (gValues :: m)
    have hc : (gConfig ∈ gValues :: m) ↔ gConfig ∈ m := by
      simp only [List.mem_cons, or_iff_right_iff_imp]
      exact fun e => absurd e (by decide)
    refine ⟨m', ?_, fun x => ?_⟩
    · rw [ppFile]
      have : macroOk gValues = true := by decide
      simp only [hc] at h1
      simp only [ppWith, valuesFile, ppLines, h, if_false, this, Bool.true_eq_false, find_config, h1, Option.map_some, List.nil_append]
    · rw [h2]
      simp only [List.mem_cons, List.not_mem_nil, or_false, h, not_false_eq_true, true_and]
      tauto

theorem pp_rt (n : Nat) (m : List Str) : ∃ m', ppFile (files cps ps) (n + 3) m (.rt, rtFile cps) = some (rtText cps m, m') ∧
    (∀ x, x ∈ m' → x ∈ m ∨ x ∈ taken cps) ∧ (∀ x, x ∈ m → x ∈ m') ∧ ((∀ x ∈ taken cps, x ∉ m) → ∀ x ∈ taken cps, x ∈ m') := by
  cases cps with
  | false =>
    by_cases h : rtGuard false ∈ m
    · refine ⟨m, ?_, fun x => .inl, fun x => id, fun hn => absurd h (hn _ (by decide))⟩
      rw [ppFile]
      have h' : gStack ∈ m := h
      simp only [ppWith, rtFile, ppLines, h', if_true, rtText, h]
      rfl
    · obtain ⟨m', h1, h2⟩ := pp_values (cps := false) (ps := ps) n (rtGuard false :: m)
      have hv : (gValues ∈ rtGuard false :: m) ↔ gValues ∈ m := by
        simp only [List.mem_cons, or_iff_right_iff_imp]
        exact fun e => absurd e (by decide)
      have hc : (gConfig ∈ rtGuard false :: m) ↔ gConfig ∈ m := by
        simp only [List.mem_cons, or_iff_right_iff_imp]
        exact fun e => absurd e (by decide)
      simp only [hv, hc] at h1 h2
      refine ⟨m', ?_, fun x hx => ?_, fun x hx => (h2 x).2 (.inl (.tail _ hx)), fun hn x hx => (h2 x).2 ?_⟩
      · rw [ppFile]
        have h' : gStack ∉ m := h
        have h1' : ppFile (files false ps) (n + 2) (gStack :: m) (.rt, valuesFile) = _ := h1
        have : macroOk gStack = true := by decide
        simp only [ppWith, rtFile, ppLines, h', if_false, this, Bool.true_eq_false, find_values, h1', Option.map_some, List.nil_append, rtText, h]
      · rcases (h2 x).1 hx with h3 | ⟨-, h3⟩
        · rcases List.mem_cons.1 h3 with rfl | h3
          · exact .inr (by decide)
          · exact .inl h3
        · refine .inr ?_
          simp only [List.mem_cons, List.not_mem_nil, or_false] at h3
          rcases h3 with rfl | rfl <;> decide
      · have := hn gValues (by decide)
        simp only [taken, List.mem_cons, List.not_mem_nil, or_false] at hx
        rcases hx with rfl | rfl | rfl
        · exact .inr ⟨this, by decide⟩
        · exact .inr ⟨this, by decide⟩
        · exact .inl (.head _)
  | true =>
    obtain ⟨m', h1, h2⟩ := pp_values (cps := true) (ps := ps) n m
    have hg : gGc ∈ m' ↔ rtGuard true ∈ m := by
      rw [h2]
      refine ⟨fun h => h.elim id fun y => absurd y.2 (by decide), .inl⟩
    have hm : macroOk gGc = true := by decide
    have hsub : ∀ x ∈ m', x ∈ m ∨ x ∈ taken true := by
      intro x hx
      rcases (h2 x).1 hx with h3 | ⟨-, h3⟩
      · exact .inl h3
      · refine .inr ?_
        simp only [List.mem_cons, List.not_mem_nil, or_false] at h3
        rcases h3 with rfl | rfl <;> decide
    by_cases h : rtGuard true ∈ m
    · refine ⟨m', ?_, hsub, fun x hx => (h2 x).2 (.inl hx), fun hn => absurd h (hn _ (by decide))⟩
      rw [ppFile]
      simp only [ppWith, rtFile, ppLines, find_values, h1, Option.map_some, hg, h, if_true, hm, Bool.true_eq_false, if_false, rtText, List.append_nil]
    · refine ⟨gGc :: m', ?_, fun x hx => ?_, fun x hx => .tail _ ((h2 x).2 (.inl hx)), fun hn x hx => ?_⟩
      · rw [ppFile]
        simp only [ppWith, rtFile, ppLines, find_values, h1, Option.map_some, hg, h, hm, Bool.true_eq_false, if_false, rtText, List.append_nil]
      · rcases List.mem_cons.1 hx with rfl | hx
        · exact .inr (by decide)
        · exact hsub x hx
      · have := hn gValues (by decide)
        simp only [taken, List.mem_cons, List.not_mem_nil, or_false, if_true] at hx
        rcases hx with rfl | rfl | rfl
        · exact .tail _ ((h2 _).2 (.inr ⟨this, by decide⟩))
        · exact .tail _ ((h2 _).2 (.inr ⟨this, by decide⟩))
        · exact .head _

theorem rtText_none {m : List Str} (h : ∀ x ∈ taken cps, x ∉ m) : rtText cps m = [.config, .values, .gc] := by
  have h1 := h gConfig (by cases cps <;> decide)
  have h2 := h gValues (by cases cps <;> decide)
  have h3 := h (rtGuard cps) (by cases cps <;> decide)
  cases cps <;> simp [rtText, h1, h2, h3]

theorem rtText_all {m : List Str} (h : ∀ x ∈ taken cps, x ∈ m) : rtText cps m = [] := by
  have h2 := h gValues (by cases cps <;> decide)
  have h3 := h (rtGuard cps) (by cases cps <;> decide)
  cases cps <;> simp [rtText, h2, h3]

/-- The header of a program that is not yet included. -/
theorem pp_header (hr : rtName cps ∉ ps) {p : Str} (hm : macroOk (guardOf (hName p)) = true) {m : List Str} (hp : guardOf (hName p) ∉ m) (n : Nat) :
    ∃ m', ppFile (files cps ps) (n + 4) m (.build, headerFile cps p) = some (rtText cps (guardOf (hName p) :: m) ++ [.prog p], m') ∧
      (∀ x, x ∈ m' → x ∈ guardOf (hName p) :: m ∨ x ∈ taken cps) ∧ (∀ x, x ∈ guardOf (hName p) :: m → x ∈ m') ∧
      ((∀ x ∈ taken cps, x ∉ guardOf (hName p) :: m) → ∀ x ∈ taken cps, x ∈ m') := by
  obtain ⟨m', h1, h2⟩ := pp_rt (cps := cps) (ps := ps) n (guardOf (hName p) :: m)
  refine ⟨m', ?_, h2⟩
  rw [ppFile]
  simp only [ppWith, headerFile, ppLines, hm, Bool.true_eq_false, if_false, hp, find_rt hr, h1, Option.map_some, List.nil_append]

/-- One that is. -/
theorem pp_again {p : Str} (hm : macroOk (guardOf (hName p)) = true) {m : List Str} (hp : guardOf (hName p) ∈ m) (n : Nat) :
    ppFile (files cps ps) (n + 1) m (.build, headerFile cps p) = some ([], m) := by
  rw [ppFile]
  simp only [ppWith, headerFile, ppLines, hm, Bool.true_eq_false, if_false, hp, if_true]

/-- One whose guard is not a name. -/
theorem pp_digit {p : Str} (hm : macroOk (guardOf (hName p)) = false) (m : List Str) (n : Nat) :
    ppFile (files cps ps) n m (.build, headerFile cps p) = none := by
  cases n with
  | zero => rfl
  | succ n =>
    rw [ppFile]
    simp only [ppWith, headerFile, ppLines, hm, if_true]

/-- The rest of the headers once the runtime's is read; `dn`: the programs whose headers are read. -/
theorem pp_rest (ha : Apart cps ps) (l : List Str) : ∀ (dn m : List Str), (∀ p ∈ l, p ∈ ps) → (∀ p ∈ dn, p ∈ ps) →
    (∀ x, x ∈ m ↔ x ∈ taken cps ∨ ∃ p ∈ dn, x = guardOf (hName p)) →
    ∃ o m', ppLines (ppFile (files cps ps) 200) (files cps ps) .build (l.map fun p => .quote (hName p)) m = some (o, m') ∧ o.Nodup ∧
      ∀ t, t ∈ o ↔ ∃ p ∈ l, p ∉ dn ∧ t = .prog p := by
  induction l with
  | nil => intro dn m _ _ _; exact ⟨[], m, rfl, List.nodup_nil, by simp⟩
  | cons p l ih =>
    intro dn m hl hd hm
    have hp := hl p (.head _)
    have hl' : ∀ q ∈ l, q ∈ ps := fun q hq => hl q (.tail _ hq)
    by_cases hin : p ∈ dn
    · obtain ⟨o, m', h1, h2, h3⟩ := ih dn m hl' hd hm
      refine ⟨o, m', ?_, h2, fun t => ?_⟩
      · have := pp_again (cps := cps) (ps := ps) (ha.ident p hp) ((hm _).2 (.inr ⟨p, hin, rfl⟩)) 199
        simp only [List.map_cons, ppLines, find_prog hp, this, h1, Option.map_some, List.nil_append]
      · rw [h3]
        constructor
        · rintro ⟨q, hq, hx⟩
          exact ⟨q, .tail _ hq, hx⟩
        · rintro ⟨q, hq, hx, e⟩
          rcases List.mem_cons.1 hq with rfl | hq
          · exact absurd hin hx
          · exact ⟨q, hq, hx, e⟩
    · have hg : guardOf (hName p) ∉ m := fun h => by
        rcases (hm _).1 h with h | ⟨q, hq, e⟩
        · exact ha.free p hp h
        · exact hin (ha.apart p hp q (hd q hq) e ▸ hq)
      obtain ⟨m1, g1, g2, g3, -⟩ := pp_header (cps := cps) ha.rt (ha.ident p hp) hg 196
      have ht : rtText cps (guardOf (hName p) :: m) = [] := rtText_all fun x hx => .tail _ ((hm x).2 (.inl hx))
      rw [ht] at g1
      obtain ⟨o, m', h1, h2, h3⟩ := ih (p :: dn) m1 hl' (fun q hq => by
        rcases List.mem_cons.1 hq with rfl | hq
        · exact hp
        · exact hd q hq) (fun x => by
        constructor
        · intro hx
          rcases g2 x hx with h | h
          · rcases List.mem_cons.1 h with rfl | h
            · exact .inr ⟨p, .head _, rfl⟩
            · rcases (hm x).1 h with h | ⟨q, hq, e⟩
              · exact .inl h
              · exact .inr ⟨q, .tail _ hq, e⟩
          · exact .inl h
        · rintro (h | ⟨q, hq, e⟩)
          · exact g3 x (.tail _ ((hm x).2 (.inl h)))
          · rcases List.mem_cons.1 hq with h | hq
            · exact g3 x (by rw [e, h]; exact .head _)
            · exact g3 x (.tail _ ((hm x).2 (.inr ⟨q, hq, e⟩))))
      refine ⟨.prog p :: o, m', ?_, List.nodup_cons.2 ⟨fun h => ?_, h2⟩, fun t => ?_⟩
      · simp only [List.map_cons, ppLines, find_prog hp, g1, h1, Option.map_some, List.nil_append, List.cons_append]
      · obtain ⟨q, -, hq, e⟩ := (h3 _).1 h
        injection e with e
        exact hq (e ▸ .head _)
      · rw [List.mem_cons, h3]
        constructor
        · rintro (rfl | ⟨q, hq, hx, e⟩)
          · exact ⟨p, .head _, hin, rfl⟩
          · exact ⟨q, .tail _ hq, fun h => hx (.tail _ h), e⟩
        · rintro ⟨q, hq, hx, e⟩
          by_cases hpq : q = p
          · exact .inl (by rw [e, hpq])
          · rcases List.mem_cons.1 hq with h | hq
            · exact absurd h hpq
            · refine .inr ⟨q, hq, fun h => ?_, e⟩
              rcases List.mem_cons.1 h with h | h
              · exact hpq h
              · exact hx h

theorem compiles_of {o : List Txt} (h : o.Nodup) (hn : ∀ t ∈ o, ∃ p, t = .prog p ∨ t = .defs p) : Compiles ([.config, .values, .gc] ++ o) := by
  constructor
  · refine List.nodup_append.2 ⟨by decide, h, fun a ha b hb => ?_⟩
    obtain ⟨p, rfl | rfl⟩ := hn b hb <;>
      · rintro rfl
        simp at ha
  · intro a t b e n hnn
    match a, e with
    | [], e => simp only [List.cons_append, List.nil_append, List.cons.injEq] at e; obtain ⟨rfl, -⟩ := e; simp [needs] at hnn
    | [x], e => simp only [List.cons_append, List.nil_append, List.cons.injEq] at e; obtain ⟨rfl, rfl, -⟩ := e; simpa [needs] using hnn
    | [x, y], e =>
      simp only [List.cons_append, List.nil_append, List.cons.injEq] at e
      obtain ⟨rfl, rfl, rfl, -⟩ := e
      simpa [needs] using hnn
    | x :: y :: z :: a, e =>
      simp only [List.cons_append, List.nil_append, List.cons.injEq] at e
      obtain ⟨rfl, rfl, rfl, -⟩ := e
      cases t <;> simp [needs] at hnn <;> aesop

/-- If a program has the name of the runtime's header, this is never read. -/
theorem pp_hidden (h : rtName cps ∈ ps) : ∀ (n : Nat) (m : List Str) (p : Str) (o : List Txt) (m' : List Str),
    ppFile (files cps ps) n m (.build, headerFile cps p) = some (o, m') → ∀ t ∈ o, ∃ q, t = .prog q := by
  intro n
  induction n with
  | zero => intro m p o m' e; cases e
  | succ n ih =>
    intro m p o m' e
    rw [ppFile] at e
    simp only [ppWith, headerFile, ppLines, find_self h] at e
    split_ifs at e
    · simp only [Option.some.injEq, Prod.mk.injEq] at e
      obtain ⟨rfl, -⟩ := e
      simp
    · cases e' : ppFile (files cps ps) n (guardOf (hName p) :: m) (.build, headerFile cps (rtName cps)) with
      | none =>
        simp only [headerFile] at e'
        simp [e'] at e
      | some x =>
        have := ih _ _ _ _ e'
        simp only [headerFile] at e'
        simp only [e', Option.map_some, Option.some.injEq, Prod.mk.injEq, List.nil_append] at e
        obtain ⟨rfl, -⟩ := e
        intro t ht
        rcases List.mem_append.1 ht with ht | ht
        · exact this t ht
        · exact ⟨p, by simpa using ht⟩

theorem lastPart_append (p s : Str) (h : '/' ∉ s) : lastPart (p ++ s) = lastPart p ++ s := by
  induction p with
  | nil =>
    cases s with
    | nil => rfl
    | cons c s =>
      simp only [List.mem_cons, not_or] at h
      simp [lastPart, h.2, Ne.symm h.1]
  | cons c p ih =>
    simp only [List.cons_append, lastPart, List.mem_append, h, or_false, ih]
    split_ifs <;> rfl

theorem guard_h (p : Str) : guardOf (hName p) = guardOf p ++ ['_', 'H'] := by
  simp only [guardOf, hName, lastPart_append p ['.', 'h'] (by decide), guardify, List.map_append]
  rfl

theorem guard_c (p : Str) : guardOf (cName p) = guardOf p ++ ['_', 'C'] := by
  simp only [guardOf, cName, lastPart_append p ['.', 'c'] (by decide), guardify, List.map_append]
  rfl

theorem macro_same (p : Str) : macroOk (guardOf (cName p)) = macroOk (guardOf (hName p)) := by
  rw [guard_h, guard_c]
  cases guardOf p <;> rfl

theorem guard_c_last (p : Str) : (guardOf (cName p)).getLast? = some 'C' := by
  rw [guard_c, List.getLast?_append]
  rfl

theorem guard_c_free (p : Str) : ∀ x ∈ taken cps, x ∉ [guardOf (cName p)] := by
  intro x hx h
  rw [List.mem_singleton] at h
  have h1 := guard_c_last p
  rw [← h] at h1
  simp only [taken, List.mem_cons, List.not_mem_nil, or_false] at hx
  rcases hx with rfl | rfl | rfl
  · exact absurd h1 (by decide)
  · exact absurd h1 (by decide)
  · cases cps <;> exact absurd h1 (by decide)

theorem rtText_rt (m : List Str) : ∀ t ∈ rtText cps m, t = .config ∨ t = .values ∨ t = .gc := by
  intro t ht
  cases cps <;> simp only [rtText] at ht <;> split_ifs at ht <;> simp at ht <;> tauto

theorem rtText_missing {g : Str} (h : g ∈ taken cps) : ∃ t ∈ [Txt.config, .values, .gc], t ∉ rtText cps [g] := by
  simp only [taken, List.mem_cons, List.not_mem_nil, or_false] at h
  rcases h with rfl | rfl | rfl
  · exact ⟨.config, by decide, by cases cps <;> decide⟩
  · exact ⟨.values, by decide, by cases cps <;> decide⟩
  · exact ⟨.gc, by decide, by cases cps <;> decide⟩

end Hdr
