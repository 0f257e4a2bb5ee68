import Verif.Files.Spec

/-!
# Lemmas about paths and command lines
-/

namespace Files

theorem compsAux_slash (w a b : Str) : compsAux w (a ++ '/' :: b) = compsAux w a ++ comps b := by
  induction a generalizing w with
  | nil => simp [compsAux, comps]
  | cons c cs ih =>
    simp only [List.cons_append, compsAux]
    split
    · rw [ih, List.append_assoc]
    · exact ih _

theorem comps_slash (a b : Str) : comps (a ++ '/' :: b) = comps a ++ comps b := compsAux_slash [] a b

theorem comps_concat (d s : Str) : comps (concat d s) = comps d ++ comps s := by
  unfold concat
  split
  · rename_i h
    rcases h with rfl | h
    · rfl
    · have hn : d ≠ [] := by rintro rfl; simp at h
      have e : d = d.dropLast ++ ['/'] := by
        have := List.dropLast_append_getLast hn
        rw [List.getLast?_eq_getLast_of_ne_nil hn] at h
        rw [← Option.some.inj h, this]
      rw [e, List.append_assoc]
      have e1 : comps (d.dropLast ++ '/' :: s) = comps d.dropLast ++ comps s := comps_slash _ _
      have e2 : comps (d.dropLast ++ '/' :: []) = comps d.dropLast ++ comps [] := comps_slash _ _
      have e3 : comps [] = [] := rfl
      rw [show ['/'] ++ s = '/' :: s from rfl, e1, e2, e3, List.append_nil]
  · exact comps_slash _ _

theorem head_concat {d s : Str} (h : d ≠ []) : (concat d s).head? = d.head? := by
  unfold concat
  cases d with
  | nil => exact absurd rfl h
  | cons c cs => split <;> rfl

theorem resolve_concat (cwd : List Str) {d : Str} (h : d ≠ []) (s : Str) : resolve cwd (concat d s) = placed cwd d s := by
  unfold placed resolve
  rw [head_concat h, comps_concat]
  split
  · rfl
  · rw [List.append_assoc]

theorem comps_dot (s : Str) : comps ('.' :: '/' :: s) = comps s := by
  have : comps (['.'] ++ '/' :: s) = comps ['.'] ++ comps s := comps_slash _ _
  have e : comps ['.'] = [] := by simp [comps, compsAux]
  rw [e] at this
  exact this

theorem compsAux_noslash (w s : Str) (h : '/' ∉ s) : compsAux w s = if w ++ s = [] ∨ w ++ s = ['.'] then [] else [w ++ s] := by
  induction s generalizing w with
  | nil => simp [compsAux]
  | cons c cs ih =>
    simp only [List.mem_cons, not_or] at h
    rw [compsAux, if_neg (fun e => h.1 e.symm), ih _ h.2]
    simp

theorem comps_noslash {s : Str} (h : '/' ∉ s) (h1 : s ≠ []) (h2 : s ≠ ['.']) : comps s = [s] := by
  rw [comps, compsAux_noslash [] s h]
  simp [h1, h2]

theorem foldl_buildDir_ne (l : List Arg) (o : Opts) (h : o.buildDir ≠ []) : (l.foldl setArg o).buildDir ≠ [] := by
  induction l generalizing o with
  | nil => exact h
  | cons a l ih =>
    apply ih
    cases a <;> simp only [setArg, checkBuildDir] <;> first | exact h | (split <;> simp_all)

theorem foldl_last {α : Type} (g : Opts → α) (f : Arg → Option α) (hf : ∀ o a, g (setArg o a) = (f a).getD (g o)) (l : List Arg) (o : Opts) :
    g (l.foldl setArg o) = lastOf f (g o) l := by
  induction l generalizing o with
  | nil => rfl
  | cons a l ih =>
    rw [List.foldl_cons, ih, hf]
    simp only [lastOf, List.reverse_cons, List.findSome?_append]
    cases h : List.findSome? f l.reverse with
    | some x => simp
    | none => cases hfa : f a <;> simp [hfa]

theorem plain_ne_blank {c : Char} (h : plain c = true) : c ≠ ' ' := by rintro rfl; revert h; decide

theorem plain_ne_quote {c : Char} (h : plain c = true) : c ≠ '\'' := by rintro rfl; revert h; decide

theorem shAux_word (w acc r : Str) (h : ∀ c ∈ w, plain c = true) : shAux (some acc) false (w ++ r) = shAux (some (acc ++ w)) false r := by
  induction w generalizing acc with
  | nil => simp
  | cons c cs ih =>
    have hc := h c (by simp)
    rw [List.cons_append, shAux, if_neg (plain_ne_blank hc), if_neg (plain_ne_quote hc), if_pos hc, Option.getD_some,
      ih _ (fun x hx => h x (by simp [hx]))]
    simp

theorem shAux_first {w : Str} (h : ∀ c ∈ w, plain c = true) (hn : w ≠ []) (r : Str) : shAux none false (w ++ r) = shAux (some w) false r := by
  cases w with
  | nil => exact absurd rfl hn
  | cons c cs =>
    have hc := h c (by simp)
    rw [List.cons_append, shAux, if_neg (plain_ne_blank hc), if_neg (plain_ne_quote hc), if_pos hc,
      show (none : Option Str).getD [] ++ [c] = [c] from rfl, shAux_word cs [c] r (fun x hx => h x (by simp [hx]))]
    rfl

theorem sh_unwords {ws : List Str} (h : ∀ w ∈ ws, (∀ c ∈ w, plain c = true) ∧ w ≠ []) : sh (unwords ws) = some ws := by
  induction ws with
  | nil => rfl
  | cons w ws ih =>
    obtain ⟨h1, h2⟩ := h w (by simp)
    have ih := ih fun x hx => h x (by simp [hx])
    cases ws with
    | nil =>
      have := shAux_first h1 h2 []
      rw [List.append_nil] at this
      rw [unwords, sh, this]
      rfl
    | cons v vs =>
      rw [unwords, sh, shAux_first h1 h2, shAux, if_pos rfl]
      · rw [sh] at ih
        rw [ih]
        rfl
      · simp

theorem ccInputs_words {ws : List Str} (h : ∀ w ∈ ws, w.head? ≠ some '-') : ccInputs ws = ws := by
  have hd : ∀ a : Str, a.head? ≠ some '-' → ¬(a = "-o".toList ∨ a = "-I".toList ∨ a = "-L".toList) := by
    rintro a ha (rfl | rfl | rfl) <;> exact ha (by decide)
  induction ws with
  | nil => rfl
  | cons a ws ih =>
    have ha := h a (by simp)
    cases ws with
    | nil => simp [ccInputs, ha]
    | cons b r => rw [ccInputs, if_neg (hd a ha), if_neg ha, ih fun x hx => h x (by simp [hx])]

end Files
