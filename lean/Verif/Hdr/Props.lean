import Verif.Hdr.Lemmas

/-!
# C75: headers and C files of compiled programs

The header of a compiled program can be included in any C file, in any order with those of other programs and any number of times, and its C file compiles.
This is so exactly if the names of the programs' files satisfy `Apart`; names that do not are refuted.
-/

namespace Hdr

variable {cps : Bool} {ps : List Str}

/-- Headers work exactly if the names of the programs get on with each other and with the runtime. -/
theorem C75_headers_iff : HeadersWork cps ps ↔ Apart cps ps := by
  constructor
  · intro h
    have one : ∀ p ∈ ps, ∃ o m, ppFile (files cps ps) 200 [] (.build, headerFile cps p) = some (o, m) ∧ Compiles o ∧ Txt.prog p ∈ o := by
      intro p hp
      obtain ⟨o, h1, h2, h3⟩ := h [p] (by simpa using hp)
      simp only [userText, List.map_cons, List.map_nil, ppLines, find_prog hp] at h1
      cases e : ppFile (files cps ps) 200 [] (.build, headerFile cps p) with
      | none => simp [e] at h1
      | some x =>
        simp only [e, Option.map_some, List.append_nil, Option.some.injEq] at h1
        exact ⟨x.1, x.2, rfl, h1 ▸ h2, h1 ▸ (h3 p).2 (.head _)⟩
    have hrt : rtName cps ∉ ps := by
      intro hr
      obtain ⟨o, m, h1, h2, h3⟩ := one _ hr
      obtain ⟨a, b, e⟩ := List.append_of_mem h3
      have h4 := h2.above a _ b e .config (by simp [needs])
      obtain ⟨q, h5⟩ := pp_hidden hr _ _ _ _ _ h1 .config (by rw [e]; exact List.mem_append_left _ h4)
      cases h5
    have hid : ∀ p ∈ ps, macroOk (guardOf (hName p)) = true := by
      intro p hp
      obtain ⟨o, m, h1, -⟩ := one p hp
      by_contra hc
      rw [pp_digit (by simpa using hc)] at h1
      cases h1
    refine ⟨hrt, hid, fun p hp hg => ?_, fun p hp q hq hg => ?_⟩
    · obtain ⟨o, m, h1, h2, -⟩ := one p hp
      obtain ⟨m', g1, -⟩ := pp_header (cps := cps) hrt (hid p hp) (List.not_mem_nil) 196
      rw [g1] at h1
      simp only [Option.some.injEq, Prod.mk.injEq] at h1
      obtain ⟨t, ht, hn⟩ := rtText_missing hg
      exact hn (h2.above _ _ [] h1.1.symm t (by simpa [needs] using ht))
    · obtain ⟨o, h1, -, h3⟩ := h [p, q] (by simp [hp, hq])
      obtain ⟨m', g1, -, g3, -⟩ := pp_header (cps := cps) hrt (hid p hp) (List.not_mem_nil) 196
      have g4 := pp_again (cps := cps) (ps := ps) (hid q hq) (hg ▸ g3 _ (.head _)) 199
      simp only [userText, List.map_cons, List.map_nil, ppLines, find_prog hp, find_prog hq, g1, g4, Option.map_some, List.append_nil,
        Option.some.injEq] at h1
      have h5 := (h3 q).2 (by simp)
      rw [← h1] at h5
      rcases List.mem_append.1 h5 with h5 | h5
      · rcases rtText_rt _ _ h5 with h | h | h <;> cases h
      · simpa using (List.mem_singleton.1 h5).symm
  · intro ha l hl
    cases l with
    | nil => exact ⟨[], rfl, ⟨List.nodup_nil, fun a t b e => by simp at e⟩, by simp⟩
    | cons p l =>
      have hp := hl p (.head _)
      have hn : ∀ x ∈ taken cps, x ∉ [guardOf (hName p)] := fun x hx h => ha.free p hp (List.mem_singleton.1 h ▸ hx)
      obtain ⟨m', g1, g2, g3, g4⟩ := pp_header (cps := cps) ha.rt (ha.ident p hp) (List.not_mem_nil) 196
      rw [rtText_none hn] at g1
      obtain ⟨o, m, h1, h2, h3⟩ := pp_rest ha l [p] m' (fun q hq => hl q (.tail _ hq)) (by simpa using hp) (fun x => by
        constructor
        · intro hx
          rcases g2 x hx with h | h
          · exact .inr ⟨p, .head _, List.mem_singleton.1 h⟩
          · exact .inl h
        · rintro (h | ⟨q, hq, e⟩)
          · exact g4 hn x h
          · rw [List.mem_singleton.1 hq] at e
            exact g3 x (e ▸ .head _))
      refine ⟨[.config, .values, .gc] ++ (.prog p :: o), ?_, compiles_of (List.nodup_cons.2 ⟨fun h => ?_, h2⟩) fun t ht => ?_, fun q => ?_⟩
      · simp only [userText, List.map_cons, ppLines, find_prog hp, g1, h1, Option.map_some]
        rfl
      · obtain ⟨q, -, hq, e⟩ := (h3 _).1 h
        injection e with e
        exact hq (by simp [e])
      · rcases List.mem_cons.1 ht with h | h
        · exact ⟨p, .inl h⟩
        · obtain ⟨q, -, -, e⟩ := (h3 _).1 h
          exact ⟨q, .inl e⟩
      · simp only [List.cons_append, List.nil_append, List.mem_cons, reduceCtorEq, false_or, Txt.prog.injEq, h3]
        constructor
        · rintro (h | ⟨r, hr, -, e⟩)
          · exact .inl h
          · exact .inr (e ▸ hr)
        · rintro (h | h)
          · exact .inl h
          · by_cases e : q = p
            · exact .inl e
            · exact .inr ⟨q, h, by simpa using e, rfl⟩

/-- C files compile exactly if no program has the name of the runtime's header and their own name does not begin with a digit. -/
theorem C75_cfile_iff {p : Str} (hp : p ∈ ps) : CFileWorks cps ps p ↔ rtName cps ∉ ps ∧ macroOk (guardOf (hName p)) = true := by
  constructor
  · rintro ⟨o, h1, h2, h3⟩
    have hm : macroOk (guardOf (hName p)) = true := by
      by_contra hc
      rw [← macro_same] at hc
      rw [cText, ppFile] at h1
      simp [ppWith, cFile, ppLines, hc] at h1
    refine ⟨fun hr => ?_, hm⟩
    rw [← macro_same] at hm
    rw [cText, ppFile] at h1
    simp only [ppWith, cFile, ppLines, hm, find_self hr, find_prog hp, Bool.true_eq_false, if_false, List.not_mem_nil] at h1
    cases e : ppFile (files cps ps) 200 [guardOf (cName p)] (.build, headerFile cps (rtName cps)) with
    | none => simp [e] at h1
    | some x =>
      simp only [e] at h1
      cases e' : ppFile (files cps ps) 200 x.2 (.build, headerFile cps p) with
      | none => simp [e'] at h1
      | some y =>
        simp only [e', Option.map_some, List.nil_append, Option.some.injEq] at h1
        obtain ⟨a, b, ee⟩ := List.append_of_mem h3
        have h4 := h2.above a _ b ee .config (by simp [needs])
        have h5 : Txt.config ∈ o := by rw [ee]; exact List.mem_append_left _ h4
        rw [← h1] at h5
        rcases List.mem_append.1 h5 with h5 | h5
        · obtain ⟨q, h6⟩ := pp_hidden hr _ _ _ _ _ e _ h5
          cases h6
        · rcases List.mem_append.1 h5 with h5 | h5
          · obtain ⟨q, h6⟩ := pp_hidden hr _ _ _ _ _ e' _ h5
            cases h6
          · simp at h5
  · rintro ⟨hr, hm⟩
    have hm' := hm
    rw [← macro_same] at hm'
    obtain ⟨m1, g1, g2, g3, g4⟩ := pp_rt (cps := cps) (ps := ps) 197 [guardOf (cName p)]
    rw [rtText_none (guard_c_free p)] at g1
    have g4 := g4 (guard_c_free p)
    have : ∃ o m2, ppFile (files cps ps) 200 m1 (.build, headerFile cps p) = some (o, m2) ∧ (o = [] ∨ o = [.prog p]) := by
      by_cases h : guardOf (hName p) ∈ m1
      · exact ⟨_, _, pp_again hm h 199, .inl rfl⟩
      · obtain ⟨m2, k1, -⟩ := pp_header (cps := cps) hr hm h 196
        rw [rtText_all fun x hx => .tail _ (g4 x hx)] at k1
        exact ⟨_, _, k1, .inr rfl⟩
    obtain ⟨o, m2, k1, k2⟩ := this
    refine ⟨[.config, .values, .gc] ++ (o ++ [.defs p]), ?_, compiles_of ?_ ?_, by simp⟩
    · rw [cText, ppFile]
      simp only [ppWith, cFile, ppLines, hm', find_rt hr, find_prog hp, Bool.true_eq_false, if_false, List.not_mem_nil, g1, k1, Option.map_some,
        List.nil_append]
    · rcases k2 with rfl | rfl <;> simp
    · rcases k2 with rfl | rfl <;> simp

theorem lastPart_dir {p : Str} (h : '/' ∉ p) : ∀ d : Str, lastPart (d ++ '/' :: p) = p
  | [] => by simp [lastPart, h]
  | c :: d => by
    rw [List.cons_append, lastPart, if_pos (by simp), lastPart_dir h d]

theorem lastPart_self {p : Str} (h : '/' ∉ p) : lastPart p = p := by
  cases p with
  | nil => rfl
  | cons c s =>
    simp only [List.mem_cons, not_or] at h
    simp [lastPart, h.2, Ne.symm h.1]

/-- Guards do not depend on the directory that files are written to. -/
theorem C75_directory {p : Str} (h : '/' ∉ p) (d : Str) : guardOf (d ++ '/' :: hName p) = guardOf (hName p) ∧ guardOf (d ++ '/' :: cName p) = guardOf (cName p) := by
  have h1 : '/' ∉ hName p := by simp [hName, h]
  have h2 : '/' ∉ cName p := by simp [cName, h]
  simp only [guardOf, lastPart_dir h1, lastPart_dir h2, lastPart_self h1, lastPart_self h2, and_self]

example : guardOf "build/out/M.add.h".toList = "M_ADD_H".toList := by decide

/-- The guard of a program's header is a C name exactly if the program's name does not begin with a digit. -/
theorem C75_guard_name {p : Str} (h : '/' ∉ p) : macroOk (guardOf (hName p)) = true ↔ ∀ c, p.head? = some c → ¬ ('0' ≤ c ∧ c ≤ '9') := by
  have hl : ∀ s : Str, '/' ∉ s → lastPart s = s := by
    intro s hs
    cases s with
    | nil => rfl
    | cons c s =>
      simp only [List.mem_cons, not_or] at hs
      simp [lastPart, hs.2, Ne.symm hs.1]
  rw [guard_h, guardOf, hl p h]
  cases p with
  | nil => simp [guardify, macroOk]
  | cons c p =>
    simp only [guardify, List.map_cons, List.cons_append, macroOk, List.head?_cons, Option.some.injEq, forall_eq']
    by_cases hd : '0' ≤ c ∧ c ≤ '9'
    · have h1 : alnum c = true := by simp [alnum, hd]
      have h2 : ¬ ('a' ≤ c ∧ c ≤ 'z') := by
        rintro ⟨h3, -⟩
        have h3' : 97 ≤ c.toNat := h3
        have h4 : c.toNat ≤ 57 := hd.2
        omega
      simp [h1, upper, h2, hd]
    · simp only [hd, not_false_eq_true, iff_true, Bool.not_eq_true', decide_eq_false_iff_not]
      intro hx
      apply hd
      by_cases ha : alnum c = true
      · rw [if_pos ha] at hx
        unfold upper at hx
        split_ifs at hx with hz
        · exfalso
          have h1 : 97 ≤ c.toNat := hz.1
          have h2 : c.toNat ≤ 122 := hz.2
          have h3 : (Char.ofNat (c.toNat - 32)).toNat = c.toNat - 32 := by
            have hv : (c.toNat - 32).isValidChar := by left; omega
            rw [Char.ofNat, dif_pos hv]
            rfl
          have h4 : (Char.ofNat (c.toNat - 32)).toNat ≤ 57 := hx.2
          omega
        · exact hx
      · rw [if_neg ha] at hx
        exact absurd hx (by decide)

/-- Programs whose headers work. -/
example : HeadersWork false [['M', '.', 'a', 'd', 'd'], ['M', '.', 'm', 'u', 'l', '\'']] ∧ CFileWorks false [['M', '.', 'a', 'd', 'd'], ['M', '.', 'm', 'u', 'l', '\'']] ['M', '.', 'a', 'd', 'd'] :=
  ⟨C75_headers_iff.2 ⟨by decide, by decide, by decide, by decide⟩, (C75_cfile_iff (by decide)).2 ⟨by decide, by decide⟩⟩

/-- `-file "values"` (or `Config`): the header has the guard of a header of the runtime. -/
theorem C75_values_refuted : ¬ HeadersWork cps [['v', 'a', 'l', 'u', 'e', 's']] ∧ ¬ HeadersWork cps [['C', 'o', 'n', 'f', 'i', 'g']] :=
  ⟨fun h => (C75_headers_iff.1 h).free _ (.head _) (by cases cps <;> decide),
    fun h => (C75_headers_iff.1 h).free _ (.head _) (by cases cps <;> decide)⟩

/-- Constants `M.f` and `M.F`, whose names differ in case, or `M.f'` and `M.f_`, without any option (the file is called like the constant, certirocq.ml:368-372): only
one of the headers is read. -/
theorem C75_guards_refuted : ¬ HeadersWork cps [['M', '.', 'f'], ['M', '.', 'F']] ∧ ¬ HeadersWork cps [['M', '.', 'f', '\''], ['M', '.', 'f', '_']] :=
  ⟨fun h => absurd ((C75_headers_iff.1 h).apart ['M', '.', 'f'] (by decide) ['M', '.', 'F'] (by decide) (by decide)) (by decide),
    fun h => absurd ((C75_headers_iff.1 h).apart ['M', '.', 'f', '\''] (by decide) ['M', '.', 'f', '_'] (by decide) (by decide)) (by decide)⟩

/-- `-file "gc_stack"` (`gc` in continuation-passing style): the C file includes its own header in place of the runtime's. -/
theorem C75_runtime_refuted : ¬ CFileWorks cps [rtName cps] (rtName cps) :=
  fun h => ((C75_cfile_iff (.head _)).1 h).1 (.head _)

/-- `-file "2048"`: the guard is not a C name. -/
theorem C75_digit_refuted : ¬ CFileWorks cps [['2', '0', '4', '8']] ['2', '0', '4', '8'] :=
  fun h => absurd ((C75_cfile_iff (.head _)).1 h).2 (by decide)

end Hdr
