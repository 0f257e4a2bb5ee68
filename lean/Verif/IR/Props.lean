import Verif.IR.Lemmas
import Verif.IR.Sem

/-!
# C80: the text of an intermediate program tells which program it is
-/

namespace IR
open ANF

theorem append_const {a b s : Str} (h : a ++ s = b ++ s) : a = b := List.append_cancel_right h

/-- The end of the line of a binding of a primitive value. -/
theorem primLine {T T' : Tables} (hT : Ok T) (hT' : Ok T') (hl : Like T T') {p q : PVal} (hp : LitOk p) (hq : LitOk q) {r r' : Str}
    (h : (' ' :: showPrim T p) ++ ' ' :: (['i', 'n', ' '] ++ '\n' :: r) = (' ' :: showPrim T' q) ++ ' ' :: (['i', 'n', ' '] ++ '\n' :: r')) :
    p = q ∧ r = r' := by
  have h1 := line_split (a := showPrim T p ++ [' ', 'i', 'n', ' ']) (b := showPrim T' q ++ [' ', 'i', 'n', ' ']) (r := r) (r' := r')
    (by simp [showPrim_line hT p]) (by simp [showPrim_line hT' q]) (by simpa using h)
  exact ⟨showPrim_inj hT hl hp hq (append_const h1.1), h1.2⟩

theorem tab_add (i : Nat) : tab (2 + i) = tab i ++ [' ', ' '] := by
  have : ∀ i, tab i ++ [' '] = ' ' :: tab i := by
    intro i
    induction i with
    | zero => rfl
    | succ i ih => simp [tab, ih]
  rw [Nat.add_comm]
  show ' ' :: ' ' :: tab i = _
  rw [show ([' ', ' '] : Str) = [' '] ++ [' '] from rfl, ← List.append_assoc, this, List.cons_append, this]

mutual
theorem showE_inj {T T' : Tables} (hT : Ok T) (hT' : Ok T') (hl : Like T T') : ∀ (e e' : Exp) (i : Nat) (r r' : Str), Lits e → Lits e' →
    showE T i e ++ r = showE T' i e' ++ r' → untag e = untag e' ∧ r = r'
  | .constr x t ys e, e', i, r, r', hi, hi', h => by
    have hh := head_eq hT hT' h
    cases e' <;> simp [head] at hh
    case constr =>
      obtain ⟨h1, h2, _, h3⟩ := parts_split hT hT' rfl rfl h
      obtain ⟨h4, h5⟩ := rest_inj hT hT' _ _ h3
      simp only [List.cons.injEq, true_and, List.append_cancel_left_eq] at h5
      obtain ⟨h6, h7⟩ := showE_inj hT hT' hl e _ i r r' (by simpa [Lits] using hi) (by simpa [Lits] using hi') h5
      simp only at h1 h2
      exact ⟨by simp [untag, h1, showCon_inj hT hl h2, h4, h6], h7⟩
    case proj => obtain ⟨_, _, h2, _⟩ := parts_split hT hT' rfl rfl h; exact absurd h2 (by simp)
    case letapp => obtain ⟨_, _, h2, _⟩ := parts_split hT hT' rfl rfl h; exact absurd h2 (by simp)
    case primVal => obtain ⟨_, _, h2, _⟩ := parts_split hT hT' rfl rfl h; exact absurd h2 (by simp)
    case prim => obtain ⟨_, h2, _, _⟩ := parts_split hT hT' rfl rfl h; exact absurd h2 (showCon_ne_prim hT)
  | .proj x t n y e, e', i, r, r', hi, hi', h => by
    have hh := head_eq hT hT' h
    cases e' <;> simp [head] at hh
    case constr => obtain ⟨_, _, h2, _⟩ := parts_split hT hT' rfl rfl h; exact absurd h2 (by simp)
    case proj =>
      obtain ⟨h1, h2, _, h3⟩ := parts_split hT hT' rfl rfl h
      simp only [List.append_assoc, List.cons_append] at h3
      obtain ⟨h4, _, h5⟩ := word_split (showNat_word _) (showNat_word _) rfl rfl h3
      obtain ⟨h8, _, h9⟩ := word_split (showVar_word hT _) (showVar_word hT' _) rfl rfl h5
      simp only [List.cons.injEq, true_and, List.append_cancel_left_eq] at h9
      obtain ⟨h6, h7⟩ := showE_inj hT hT' hl e _ i r r' (by simpa [Lits] using hi) (by simpa [Lits] using hi') (by simpa using h9)
      simp only at h1 h2
      exact ⟨by simp [untag, h1, showNat_inj (List.append_cancel_left h2), showNat_inj h4, showVar_inj h8, h6], h7⟩
    case letapp => obtain ⟨_, h2, _, _⟩ := parts_split hT hT' rfl rfl h; exact absurd h2 (by simp)
    case primVal => obtain ⟨_, _, h2, _⟩ := parts_split hT hT' rfl rfl h; exact absurd h2 (by simp)
    case prim => obtain ⟨_, _, h2, _⟩ := parts_split hT hT' rfl rfl h; exact absurd h2 (by simp)
  | .primVal x p e, e', i, r, r', hi, hi', h => by
    have hh := head_eq hT hT' h
    cases e' <;> simp [head] at hh
    case constr => obtain ⟨_, _, h2, _⟩ := parts_split hT hT' rfl rfl h; exact absurd h2 (by simp)
    case proj => obtain ⟨_, _, h2, _⟩ := parts_split hT hT' rfl rfl h; exact absurd h2 (by simp)
    case letapp => obtain ⟨_, _, h2, _⟩ := parts_split hT hT' rfl rfl h; exact absurd h2 (by simp)
    case primVal =>
      obtain ⟨h1, _, _, h3⟩ := parts_split hT hT' rfl rfl h
      obtain ⟨h4, h5⟩ := primLine hT hT' hl (by simp [Lits] at hi; exact hi.1) (by simp [Lits] at hi'; exact hi'.1) h3
      obtain ⟨h6, h7⟩ := showE_inj hT hT' hl e _ i r r' (by simp [Lits] at hi; exact hi.2) (by simp [Lits] at hi'; exact hi'.2) h5
      simp only at h1
      exact ⟨by simp [untag, h1, h4, h6], h7⟩
    case prim => obtain ⟨_, _, h2, _⟩ := parts_split hT hT' rfl rfl h; exact absurd h2 (by simp)
  | .prim x p ys e, e', i, r, r', hi, hi', h => by
    have hh := head_eq hT hT' h
    cases e' <;> simp [head] at hh
    case constr => obtain ⟨_, h2, _, _⟩ := parts_split hT hT' rfl rfl h; exact absurd h2.symm (showCon_ne_prim hT')
    case proj => obtain ⟨_, _, h2, _⟩ := parts_split hT hT' rfl rfl h; exact absurd h2 (by simp)
    case letapp => obtain ⟨_, _, h2, _⟩ := parts_split hT hT' rfl rfl h; exact absurd h2 (by simp)
    case primVal => obtain ⟨_, _, h2, _⟩ := parts_split hT hT' rfl rfl h; exact absurd h2 (by simp)
    case prim =>
      obtain ⟨h1, h2, _, h3⟩ := parts_split hT hT' rfl rfl h
      obtain ⟨h4, h5⟩ := rest_inj hT hT' _ _ h3
      simp only [List.cons.injEq, true_and, List.append_cancel_left_eq] at h5
      obtain ⟨h6, h7⟩ := showE_inj hT hT' hl e _ i r r' (by simpa [Lits] using hi) (by simpa [Lits] using hi') h5
      simp only at h1 h2
      exact ⟨by simp [untag, h1, showNat_inj (List.append_cancel_left h2), h4, h6], h7⟩
  | .letapp x f ft ys e, e', i, r, r', hi, hi', h => by
    have hh := head_eq hT hT' h
    cases e' <;> simp [head] at hh
    case constr => obtain ⟨_, _, h2, _⟩ := parts_split hT hT' rfl rfl h; exact absurd h2 (by simp)
    case proj => obtain ⟨_, h2, _, _⟩ := parts_split hT hT' rfl rfl h; exact absurd h2 (by simp)
    case letapp =>
      obtain ⟨h1, _, _, h3⟩ := parts_split hT hT' rfl rfl h
      simp only [List.append_assoc, List.cons_append] at h3
      obtain ⟨h8, _, h9⟩ := word_split (showVar_word hT _) (showVar_word hT' _) rfl rfl h3
      obtain ⟨h4, h5⟩ := rest_inj hT hT' _ _ h9
      obtain ⟨h6, h7⟩ := showE_inj hT hT' hl e _ i r r' (by simpa [Lits] using hi) (by simpa [Lits] using hi') (by simpa using h5)
      simp only at h1
      exact ⟨by simp [untag, h1, showVar_inj h8, h4, h6], h7⟩
    case primVal => obtain ⟨_, _, h2, _⟩ := parts_split hT hT' rfl rfl h; exact absurd h2 (by simp)
    case prim => obtain ⟨_, _, h2, _⟩ := parts_split hT hT' rfl rfl h; exact absurd h2 (by simp)
  | .case x bs, e', i, r, r', hi, hi', h => by
    have hh := head_eq hT hT' h
    cases e' <;> simp [head] at hh
    case case x' bs' =>
      simp only [showE, List.append_assoc, List.cons_append, List.nil_append, List.append_cancel_left_eq, List.cons.injEq, true_and] at h
      obtain ⟨h1, _, h2⟩ := word_split (showVar_word hT _) (showVar_word hT' _) rfl rfl h
      simp only [List.cons.injEq, true_and] at h2
      obtain ⟨h3, h4⟩ := showB_inj hT hT' hl bs bs' i r r' (by simpa [Lits] using hi) (by simpa [Lits] using hi') h2
      exact ⟨by simp [untag, showVar_inj h1, h3], h4⟩
  | .fn B e, e', i, r, r', hi, hi', h => by
    have hh := head_eq hT hT' h
    cases e' <;> simp [head] at hh
    case fn B' e' =>
      simp only [showE, List.append_assoc, List.cons_append, List.nil_append, List.append_cancel_left_eq, List.cons.injEq, true_and] at h
      obtain ⟨h3, h4⟩ := showD_inj hT hT' hl B B' i _ _ (by simp [Lits] at hi; exact hi.1) (by simp [Lits] at hi'; exact hi'.1) h
      obtain ⟨h6, h7⟩ := showE_inj hT hT' hl e e' i r r' (by simp [Lits] at hi; exact hi.2) (by simp [Lits] at hi'; exact hi'.2) h4
      exact ⟨by simp [untag, h3, h6], h7⟩
  | .app f ft ys, e', i, r, r', hi, hi', h => by
    have hh := head_eq hT hT' h
    cases e' <;> simp [head] at hh
    case app f' ft' ys' =>
      simp only [showE, showVars_rest, List.append_assoc, List.cons_append, List.nil_append, List.append_cancel_left_eq] at h
      obtain ⟨h1, _, h2⟩ := word_split (showVar_word hT _) (showVar_word hT' _) rfl rfl h
      obtain ⟨h3, h4⟩ := rest_inj hT hT' _ _ h2
      exact ⟨by simp [untag, showVar_inj h1, h3], (List.cons.inj h4).2⟩
  | .halt x, e', i, r, r', hi, hi', h => by
    have hh := head_eq hT hT' h
    cases e' <;> simp [head] at hh
    case halt x' =>
      simp only [showE, List.append_assoc, List.cons_append, List.nil_append, List.append_cancel_left_eq, List.cons.injEq, true_and] at h
      obtain ⟨h1, _, h2⟩ := word_split (showVar_word hT _) (showVar_word hT' _) rfl rfl h
      exact ⟨by simp [untag, showVar_inj h1], h2⟩
theorem showB_inj {T T' : Tables} (hT : Ok T) (hT' : Ok T') (hl : Like T T') : ∀ (bs bs' : Brs) (i : Nat) (r r' : Str), LitsB bs → LitsB bs' →
    showB T i bs ++ (tab i ++ '}' :: '\n' :: r) = showB T' i bs' ++ (tab i ++ '}' :: '\n' :: r') → untagB bs = untagB bs' ∧ r = r'
  | .nil, .nil, i, r, r', hi, hi', h => by
    simp only [showB, List.nil_append, List.append_cancel_left_eq, List.cons.injEq, true_and] at h
    exact ⟨rfl, h⟩
  | .nil, .cons t e bs, i, r, r', hi, hi', h => by
    simp only [showB, List.append_assoc, List.cons_append, List.nil_append, List.append_cancel_left_eq, List.cons.injEq] at h
    exact absurd h.1 (by decide)
  | .cons t e bs, .nil, i, r, r', hi, hi', h => by
    simp only [showB, List.append_assoc, List.cons_append, List.nil_append, List.append_cancel_left_eq, List.cons.injEq] at h
    exact absurd h.1 (by decide)
  | .cons t e bs, .cons t' e' bs', i, r, r', hi, hi', h => by
    simp only [showB, List.append_assoc, List.cons_append, List.nil_append, List.append_cancel_left_eq, List.cons.injEq, true_and] at h
    obtain ⟨h1, _, h2⟩ := word_split (showCon_word hT _) (showCon_word hT' _) rfl rfl h
    simp only [List.cons.injEq, true_and] at h2
    obtain ⟨h3, h4⟩ := showE_inj hT hT' hl e e' _ _ _ (by simp [LitsB] at hi; exact hi.1) (by simp [LitsB] at hi'; exact hi'.1) h2
    obtain ⟨h5, h6⟩ := showB_inj hT hT' hl bs bs' i r r' (by simp [LitsB] at hi; exact hi.2) (by simp [LitsB] at hi'; exact hi'.2) h4
    exact ⟨by simp [untagB, showCon_inj hT hl h1, h3, h5], h6⟩
theorem showD_inj {T T' : Tables} (hT : Ok T) (hT' : Ok T') (hl : Like T T') : ∀ (B B' : Defs) (i : Nat) (r r' : Str), LitsD B → LitsD B' →
    showD T i B ++ (tab i ++ ']' :: ' ' :: 'i' :: 'n' :: '\n' :: r) = showD T' i B' ++ (tab i ++ ']' :: ' ' :: 'i' :: 'n' :: '\n' :: r') →
    untagD B = untagD B' ∧ r = r'
  | .nil, .nil, i, r, r', hi, hi', h => by
    simp only [showD, List.nil_append, List.append_cancel_left_eq, List.cons.injEq, true_and] at h
    exact ⟨rfl, h⟩
  | .nil, .cons .., i, r, r', hi, hi', h => by
    simp only [showD, tab_add, List.append_assoc, List.cons_append, List.nil_append, List.append_cancel_left_eq, List.cons.injEq] at h
    exact absurd h.1 (by decide)
  | .cons .., .nil, i, r, r', hi, hi', h => by
    simp only [showD, tab_add, List.append_assoc, List.cons_append, List.nil_append, List.append_cancel_left_eq, List.cons.injEq] at h
    exact absurd h.1 (by decide)
  | .cons f ft xs e B, .cons f' ft' xs' e' B', i, r, r', hi, hi', h => by
    simp only [showD, showVars_rest, List.append_assoc, List.cons_append, List.nil_append, List.append_cancel_left_eq, List.cons.injEq, true_and] at h
    obtain ⟨h1, _, h2⟩ := word_split (showVar_word hT _) (showVar_word hT' _) rfl rfl h
    obtain ⟨h3, h4⟩ := rest_inj hT hT' _ _ h2
    simp only [List.cons.injEq, true_and] at h4
    obtain ⟨h5, h6⟩ := showE_inj hT hT' hl e e' _ _ _ (by simp [LitsD] at hi; exact hi.1) (by simp [LitsD] at hi'; exact hi'.1) h4
    obtain ⟨h7, h8⟩ := showD_inj hT hT' hl B B' i r r' (by simp [LitsD] at hi; exact hi.2) (by simp [LitsD] at hi'; exact hi'.2) h6
    exact ⟨by simp [untagD, showVar_inj h1, h3, h5, h7], h8⟩
end

/-- Different variables are shown differently, whatever their names are: also in two texts made with different tables of names. -/
theorem C80_variables {T T' : Tables} {x y : Var} (h : showVar T x = showVar T' y) : x = y := showVar_inj h

/-- Different floats are shown differently. -/
theorem C80_floats {a b : Nat} (ha : LitOk (.float a)) (hb : LitOk (.float b)) (h : showFloat a = showFloat b) : a = b := showFloat_inj ha hb h

/-- Two programs with the same text are the same but for the tags of functions, also if their variables have different names. Missing are the
constructors and literals that `Ok` excludes, and tags of functions. -/
theorem C80_program_partial {T T' : Tables} (hT : Ok T) (hT' : Ok T') (hc : T.ctors = T'.ctors) (hs : T.str = T'.str)
    {e e' : Exp} (he : Lits e) (he' : Lits e') (h : showExp T e = showExp T' e') : untag e = untag e' :=
  (showE_inj hT hT' ⟨hc, hs⟩ e e' 0 [] [] he he' (by simpa [showExp] using h)).1

/-- Two programs with the same text, neither of which goes wrong, return the same data; if one runs forever, so does the other. -/
theorem C80_result_partial {T T' : Tables} (hT : Ok T) (hT' : Ok T') (hc : T.ctors = T'.ctors) (hs : T.str = T'.str)
    {e e' : Exp} (he : Lits e) (he' : Lits e') (h : showExp T e = showExp T' e') (S : Sig) (hw : ¬ GoesWrong S emp e') :
    (∀ a : FO, Returns S emp e a.toVal → Returns S emp e' a.toVal) ∧ (Diverges S emp e → Diverges S emp e') := by
  have hu := C80_program_partial hT hT' hc hs he he' h
  constructor
  · rintro a ⟨n, hn⟩
    have h1 := run_rel S n emp emp e emp_rel
    rw [hn, hu] at h1
    have h0 : run S n emp (untag e') = .val a.toVal := by
      cases hr : run S n emp (untag e') <;> rw [hr] at h1
      · rw [toVal_left a _ h1]
      · exact h1.elim
      · exact h1.elim
    have h2 := run_rel S n emp emp e' emp_rel
    rw [h0] at h2
    refine ⟨n, ?_⟩
    cases hr : run S n emp e' with
    | stuck => exact absurd ⟨n, hr⟩ hw
    | oot => rw [hr] at h2; exact h2.elim
    | val w => rw [hr] at h2; rw [toVal_right a w h2]
  · intro hd n
    have h1 := run_rel S n emp emp e emp_rel
    have h2 := run_rel S n emp emp e' emp_rel
    rw [hd n, hu] at h1
    cases hr : run S n emp e' with
    | stuck => exact absurd ⟨n, hr⟩ hw
    | oot => rfl
    | val w =>
      rw [hr] at h2
      cases h3 : run S n emp (untag e') <;> rw [h3] at h1 h2
      · exact h1.elim
      · exact h2.elim
      · exact h1.elim

/-! ## Witnesses -/

/-- Two constructors of one name, as of two types; a constructor called as a primitive operation; one called as a constructor without a name. -/
def clash : Tables where
  names := fun _ => none
  ctors := fun t => if t = 1 ∨ t = 2 then some ['C'] else if t = 3 then some ['p', 'r', 'i', 'm', '_', '5'] else if t = 4 then some ['c', 'o', 'n', '_', '7'] else none
  str := fun _ => []

/-- Programs that build values of different constructors have the same text. -/
theorem C80_constructors_refuted : ∃ e e', showExp clash e = showExp clash e' ∧ ∀ S : Sig, ∃ t t', t ≠ t' ∧
    Returns S emp e (.constr t []) ∧ Returns S emp e' (.constr t' []) :=
  ⟨.constr 1 1 [] (.halt 1), .constr 1 2 [] (.halt 1), rfl, fun _ => ⟨1, 2, by decide, ⟨1, rfl⟩, ⟨1, rfl⟩⟩⟩

/-- A constructor and a primitive operation have the same text. -/
theorem C80_primitive_refuted : showExp clash (.constr 1 3 [] (.halt 1)) = showExp clash (.prim 1 5 [] (.halt 1)) := rfl

/-- A constructor that has a name and one that has none have the same text. -/
theorem C80_anonymous_refuted : showExp clash (.constr 1 4 [] (.halt 1)) = showExp clash (.constr 1 7 [] (.halt 1)) := rfl

/-- A program that returns and one that goes wrong, because a function is called with the tag of another one, have the same text. -/
theorem C80_tags_refuted (T : Tables) (S : Sig) : ∃ e e', showExp T e = showExp T e' ∧ Returns S emp e (.constr 9 []) ∧ GoesWrong S emp e' :=
  ⟨.fn (.cons 1 1 [2] (.halt 2) .nil) (.constr 3 9 [] (.app 1 1 [3])), .fn (.cons 1 1 [2] (.halt 2) .nil) (.constr 3 9 [] (.app 1 2 [3])),
    by simp [showExp, showE, showD], ⟨2, rfl⟩, ⟨2, rfl⟩⟩

/-- The texts of 1, the least positive float, minus zero and a value that is not a number. -/
example : LitOk (.float 0x3FF0000000000000) ∧ LitOk (.float 1) ∧ LitOk (.float 0x8000000000000000) ∧ LitOk (.float 0x7FF8000000000000) ∧
    showFloat 0x3FF0000000000000 = "4503599627370496p-52".toList ∧ showFloat 1 = "1p-1074".toList ∧ showFloat 0x8000000000000000 = "-0".toList ∧
    showFloat 0x7FF8000000000000 = "NAN".toList := by
  refine ⟨?_, ?_, ?_, ?_, ?_, ?_, ?_, ?_⟩ <;> first | decide +kernel | simp [LitOk, fexpo, fmant]

/-- Tables that meet the hypotheses. -/
def fine (names : Var → Option Str) : Tables where
  names := names
  ctors := fun t => if t = 1 then some ['O'] else if t = 2 then some ['S'] else none
  str := fun s => s.flatMap fun b => showNat b ++ [';']

theorem semi_inj : ∀ a b : List Nat, (a.flatMap fun b => showNat b ++ [';']) = (b.flatMap fun b => showNat b ++ [';']) → a = b
  | [], [], _ => rfl
  | [], y :: ys, h => by simp at h
  | x :: xs, [], h => by simp at h
  | x :: xs, y :: ys, h => by
    simp only [List.flatMap_cons, List.append_assoc, List.cons_append, List.nil_append] at h
    have key : ∀ (a b : Str) (r r' : Str), ';' ∉ a → ';' ∉ b → a ++ ';' :: r = b ++ ';' :: r' → a = b ∧ r = r' := by
      intro a
      induction a with
      | nil => intro b r r' _ hb h; cases b with
        | nil => simpa using h
        | cons c b => simp at h; exact absurd (h.1 ▸ List.mem_cons_self) hb
      | cons c a ih => intro b r r' ha hb h; cases b with
        | nil => simp at h; exact absurd (h.1 ▸ List.mem_cons_self) ha
        | cons d b =>
          simp only [List.cons_append, List.cons.injEq] at h
          have := ih b r r' (fun hm => ha (by simp [hm])) (fun hm => hb (by simp [hm])) h.2
          exact ⟨by rw [h.1, this.1], this.2⟩
    have hn : ∀ n, ';' ∉ showNat n := fun n h => by have := showNat_digit h; revert this; decide
    have := key _ _ _ _ (hn x) (hn y) h
    rw [showNat_inj this.1, semi_inj xs ys this.2]

theorem fine_ok {names : Var → Option Str} (h : ∀ x s, names x = some s → Word s) : Ok (fine names) where
  names := h
  ctors := fun t s hs => by
    simp only [fine] at hs
    split at hs
    · cases hs; exact word_of rfl
    · split at hs
      · cases hs; exact word_of rfl
      · cases hs
  apart := fun t t' s h h' => by
    simp only [fine] at h h'
    split at h <;> split at h' <;> (try split at h) <;> (try split at h') <;> simp_all <;> subst h <;> simp at h'
  notCon := fun t k => by simp only [fine]; split <;> [skip; split] <;> simp
  notPrim := fun t k => by simp only [fine]; split <;> [skip; split] <;> simp
  strs := fun s => by
    simp only [fine, List.mem_flatMap, not_exists, not_and]
    intro n _ h
    rcases List.mem_append.1 h with h | h
    · exact (showNat_word n).line h
    · simp at h
  strInj := fun a b _ _ h => semi_inj a b h

/-- The text of a program with functions, branches and names meets the hypotheses. -/
example : Ok (fine fun x => if x = 5 then some ['n'] else none) ∧
    showExp (fine fun x => if x = 5 then some ['n'] else none)
      (.fn (.cons 4 1 [5] (.case 5 (.cons 1 (.halt 5) (.cons 2 (.proj 6 2 0 5 (.app 4 1 [6])) .nil))) .nil) (.constr 7 1 [] (.app 4 1 [7]))) =
    ("\nletrec [\n  fun x4(n_5) := \n    case n_5 of {\n    | O => \n      halt n_5\n    | S => \n      let x6 := proj_0 2 n_5 in \n      x4(x6)\n    }\n" ++
      "] in\nlet x7 := O() in \nx4(x7)\n").toList :=
  ⟨fine_ok (fun x s h => by
    by_cases hx : x = 5
    · rw [if_pos hx] at h; cases h; exact word_of rfl
    · rw [if_neg hx] at h; cases h), by decide +kernel⟩

/-- Two programs with the same text and different tags, of which none goes wrong. -/
example : ∃ e e', e ≠ e' ∧ showExp clash e = showExp clash e' ∧ ∀ S : Sig, Returns S emp e (FO.con 9 []).toVal ∧ ¬ GoesWrong S emp e' := by
  refine ⟨.fn (.cons 1 1 [2] (.halt 2) .nil) (.constr 3 9 [] (.app 1 1 [3])), .fn (.cons 1 5 [2] (.halt 2) .nil) (.constr 3 9 [] (.app 1 5 [3])),
    by simp, rfl, fun S => ⟨⟨2, by simp [FO.toVal, FO.toVals]; rfl⟩, ?_⟩⟩
  rintro ⟨n, hn⟩
  cases n with
  | zero => cases hn
  | succ n => cases n <;> cases hn

end IR
