import Verif.CPrint.LexLemmas

/-!
# What is printed is separated: lemmas
-/

namespace CPrint

/-- What may follow a declarator. -/
def KD (k : Option Char) : Prop := ∀ c, k = some c → identChar c = false ∧ c ≠ '='

/-- What may follow an expression. -/
def KE (k : Option Char) : Prop := ∀ c, k = some c → numChar c = false

theorem KD.of {c : Char} (h : (identChar c || c == '=') = false := by decide) : KD (some c) := by
  intro d hd
  cases hd
  simpa using h

theorem KE.of {c : Char} (h : numChar c = false := by decide) : KE (some c) := by
  intro d hd
  cases hd
  exact h

theorem KE.ident {k} (h : KE k) : ∀ c, k = some c → identChar c = false := by
  intro c hc
  have := h c hc
  simp [numChar] at this
  exact this.1

/-- Punctuators that nothing runs into. -/
def quiet : Pn → Bool
  | .lpar => true | .rpar => true | .lbrk => true | .rbrk => true | .lbrace => true | .rbrace => true | .semi => true
  | .comma => true | .dots => true | .tilde => true
  | _ => false

theorem sep_quiet {q l k} (h : quiet q = true) : Sep (pn q :: l) k ↔ Sep l k := by
  cases q <;> simp_all [Sep, quiet, Tok.wf, clash, clashP]

theorem sep_tok {x l k} (hx : x.wf = true) (hc : ∀ c, fstC l k = some c → clash x c = false) : Sep (.t x :: l) k ↔ Sep l k := by
  simp only [Sep, hx, true_and]
  exact ⟨fun h => h.2, fun h => ⟨hc, h⟩⟩

theorem fstC_p (q l k) : fstC (pn q :: l) k = q.chars.head? := by
  obtain ⟨c, s, h⟩ := chars_pos (.p q) rfl
  rw [fstC_chars h]
  simp only [Tok.chars] at h
  simp [h]

theorem sep_word {x l k c} (hx : x.wf = true) (h : fstC l k = some c) (hc : clash x c = false) :
    Sep (.t x :: l) k ↔ Sep l k := by
  refine sep_tok hx fun d hd => ?_
  rw [h] at hd
  cases hd
  exact hc

/-! ## Types -/

/-- A declarator: separated, and not beginning with `=`. -/
def DS (D : List Piece) : Prop := ∀ k, KD k → Sep D k ∧ ∀ c, fstC D k = some c → c ≠ '='

theorem ds_nil : DS [] := fun k hk => ⟨trivial, fun c hc => (hk c hc).2⟩

theorem word_first {x : Name} (h : nameOk x = true) : ∃ c s, x = c :: s ∧ identStart c = true := by
  cases x with
  | nil => simp [nameOk] at h
  | cons c s =>
    simp only [nameOk, Bool.and_eq_true] at h
    exact ⟨c, s, rfl, h.1.1⟩

theorem ds_name {x : Name} (h : nameOk x = true) : DS [nm x] := by
  intro k hk
  refine ⟨⟨h, fun c hc => (hk c hc).1, trivial⟩, fun c hc => ?_⟩
  obtain ⟨d, s, rfl, hd⟩ := word_first h
  rw [fstC_chars (x := .id (d :: s)) rfl] at hc
  cases hc
  rintro rfl
  exact absurd hd (by decide)

theorem DS.star {D} (h : DS D) : DS (pn .star :: D) := by
  intro k hk
  have := h k hk
  refine ⟨(sep_tok rfl fun c hc => ?_).mpr this.1, fun c hc => ?_⟩
  · have := this.2 c hc
    simp [clash, clashP, Ne.symm this]
  · rw [fstC_p] at hc
    simp [Pn.chars] at hc
    simp [← hc]

theorem DS.paren {D} (h : DS D) : DS ([pn .lpar] ++ D ++ [pn .rpar]) := by
  intro k hk
  have := h (some ')') KD.of
  constructor
  · simp only [List.cons_append, List.nil_append, sep_quiet (q := .lpar) rfl]
    rw [sep_append]
    simp only [fstC_p, Pn.chars, List.head?_cons]
    exact ⟨this.1, (sep_quiet rfl).mpr trivial⟩
  · intro c hc
    simp only [List.cons_append, List.nil_append, fstC_p, Pn.chars, List.head?_cons] at hc
    cases hc
    decide

/-- Something quiet behind a declarator. -/
theorem DS.suffix {D : List Piece} {q : Pn} {S : List Piece} (h : DS D) (hq : q = .lpar ∨ q = .lbrk) (hS : ∀ k, Sep (pn q :: S) k) :
    DS (D ++ pn q :: S) := by
  intro k hk
  have hk' : KD q.chars.head? := by rcases hq with rfl | rfl <;> exact KD.of
  have := h _ hk'
  constructor
  · rw [sep_append, fstC_p]
    exact ⟨this.1, hS k⟩
  · intro c hc
    rw [fstC_append, fstC_p] at hc
    exact this.2 c hc

theorem base_sep (b : Base) (hb : b.ok = true) (k) (hk : KD k) : Sep b.pieces k := by
  have hi : ∀ c, k = some c → identChar c = false := fun c hc => (hk c hc).1
  have hs : identChar ' ' = false := by decide
  cases b <;> simp_all [Base.pieces, Sep, Tok.wf, clash, Base.ok]

theorem base_append (b : Base) (hb : b.ok = true) {D k} (h : DS D) (hk : KD k) :
    Sep (b.pieces ++ (if D = [] then [] else .sp :: D)) k := by
  rw [sep_append]
  by_cases hD : D = []
  · simp only [hD, if_true, fstC_nil]
    exact ⟨base_sep b hb k hk, trivial⟩
  · simp only [hD, if_false, fstC_sp]
    exact ⟨base_sep b hb _ KD.of, (h k hk).1⟩

theorem fstC_args (ts : CTys) (va : Bool) : fstC (cdeclArgs ts va false) (some ')') = some ')' ∨
    fstC (cdeclArgs ts va false) (some ')') = some ',' := by
  cases ts with
  | nil => cases va <;> simp [cdeclArgs, fstC_p, Pn.chars]
  | cons t ts => right; simp [cdeclArgs, fstC_p, Pn.chars]

mutual
theorem cdecl_sep : ∀ (t : CTy), t.ok = true → ∀ D, DS D → ∀ k, KD k → Sep (cdecl t D) k
  | .base b, h, D, hD, k, hk => by
    rw [cdecl]
    exact base_append b (by simpa [CTy.ok] using h) hD hk
  | .ptr t, h, D, hD, k, hk => by
    rw [cdecl]
    refine cdecl_sep t (by simpa [CTy.ok] using h) _ ?_ k hk
    split
    · simpa using hD.star.paren
    · exact hD.star
  | .arr t n, h, D, hD, k, hk => by
    rw [cdecl]
    refine cdecl_sep t (by simpa [CTy.ok] using h) _ (hD.suffix (Or.inr rfl) fun k => ?_) k hk
    rw [sep_quiet rfl, sep_word rfl (c := ']') (by simp [fstC_p, Pn.chars]) (by simp [clash]; decide), sep_quiet rfl]
    trivial
  | .fn args va res, h, D, hD, k, hk => by
    rw [cdecl]
    simp only [CTy.ok, Bool.and_eq_true] at h
    have hD' : DS (if D = [] then [pn .lpar, pn .star, pn .rpar] else D) := by
      split
      · simpa using ds_nil.star.paren
      · exact hD
    have := hD'.suffix (q := .lpar) (S := cdeclArgs args va true ++ [pn .rpar]) (Or.inl rfl) fun k => by
      rw [sep_quiet rfl, sep_append]
      simp only [fstC_p, Pn.chars, List.head?_cons]
      exact ⟨cdeclArgs_sep args h.1.1 va true, (sep_quiet rfl).mpr trivial⟩
    exact cdecl_sep res h.2 _ (by simpa using this) k hk
theorem cdeclArgs_sep : ∀ (ts : CTys), ts.ok = true → ∀ va first, Sep (cdeclArgs ts va first) (some ')')
  | .nil, _, va, first => by
    cases va <;> cases first <;> simp [cdeclArgs, sep_quiet, quiet, Sep, Tok.wf, clash] <;> decide
  | .cons t ts, h, va, first => by
    simp only [CTys.ok, Bool.and_eq_true] at h
    have h1 : Sep (cdecl t [] ++ cdeclArgs ts va false) (some ')') := by
      rw [sep_append]
      refine ⟨cdecl_sep t h.1.2 [] ds_nil _ ?_, cdeclArgs_sep ts h.2 va false⟩
      rcases fstC_args ts va with e | e <;> rw [e] <;> exact KD.of
    cases first with
    | true => simpa [cdeclArgs] using h1
    | false => simpa [cdeclArgs, Sep, Tok.wf, clash, clashP] using h1
end

theorem nameType_sep {t : CTy} (h : t.absOk = true) (k) (hk : KD k) : Sep (nameType t) k :=
  cdecl_sep t (CTy.absOk_ok h).1 [] ds_nil k hk

/-! ## Expressions -/

theorem exprHead_first {t : Tok} (h : exprHead t = true) (hw : t.wf = true) (l k) : ∀ c, fstC (.t t :: l) k = some c →
    c ≠ '=' ∧ c ≠ '>' ∧ (c = '-' → t = .p .minus) ∧ (c = '&' → t = .p .amp) := by
  intro c hc
  cases t with
  | id s =>
    obtain ⟨d, s, rfl, hd⟩ := word_first (by simpa [Tok.wf] using hw)
    rw [fstC_chars (x := .id (d :: s)) rfl] at hc
    cases hc
    refine ⟨?_, ?_, ?_, ?_⟩ <;> rintro rfl <;> exact absurd hd (by decide)
  | num n s =>
    cases he : Nat.toDigits 10 n with
    | nil => exact absurd he Nat.toDigits_ne_nil
    | cons d ds =>
      have hd : d.isDigit = true := Nat.isDigit_of_mem_toDigits (b := 10) (n := n) (by omega) (by omega) (by simp [he])
      rw [fstC_chars (c := d) (s := ds ++ s.chars) (by simp [Tok.chars, he])] at hc
      cases hc
      refine ⟨?_, ?_, ?_, ?_⟩ <;> rintro rfl <;> exact absurd hd (by decide)
  | kw w =>
    obtain ⟨d, s, he, hd, _⟩ := kw_word w
    rw [fstC_chars (x := .kw w) (c := d) (s := s) he] at hc
    cases hc
    refine ⟨?_, ?_, ?_, ?_⟩ <;> rintro rfl <;> exact absurd hd (by decide)
  | p q =>
    rw [fstC_p] at hc
    cases q <;> simp_all [exprHead, Pn.chars] <;> subst hc <;> decide

/-- How a printed expression begins. -/
def First (l : List Piece) (p : Nat) (e : CE) : Prop :=
  ∃ t r, l = .t t :: r ∧ exprHead t = true ∧ t.wf = true ∧ (p = 15 → e.minus = false → t ≠ .p .minus) ∧
    (p = 15 → e.amp = false → t ≠ .p .amp)

theorem first_paren {pe p : Nat} {B : List Piece} {e : CE} (h : pe < p) : First (paren (decide (pe < p)) B) p e := by
  simp only [paren, h, decide_true, if_true]
  exact ⟨_, _, rfl, rfl, rfl, by simp, by simp⟩

theorem first_bare {pe p : Nat} {t : Tok} {B : List Piece} {e : CE} (ht : exprHead t = true) (hw : t.wf = true)
    (h : ¬ pe < p → (p = 15 → e.minus = false → t ≠ .p .minus) ∧ (p = 15 → e.amp = false → t ≠ .p .amp)) :
    First (paren (decide (pe < p)) (.t t :: B)) p e := by
  by_cases hp : pe < p
  · exact first_paren hp
  · simp only [paren, hp, decide_false, Bool.false_eq_true, if_false]
    exact ⟨_, _, rfl, ht, hw, (h hp).1, (h hp).2⟩

theorem expr_first : ∀ (e : CE), e.ok = true → ∀ p, p ≤ 16 → (p = 16 → e.isConst = false) → First (expr p e) p e
  | .var x, h, p, _, _ => by
    simp [CE.ok, varOk] at h
    exact first_bare rfl h.1 (by simp)
  | .temp x, h, p, _, _ => first_bare rfl h (by simp)
  | .deref e, h, p, _, _ => first_bare rfl rfl (by simp)
  | .unop o e, h, p, _, _ => by
    cases o <;> exact first_bare rfl rfl (by simp [UnOp.pn, CE.minus])
  | .addrof e, h, p, _, _ => first_bare rfl rfl (by simp [CE.amp])
  | .sizeof t, h, p, _, _ => first_bare rfl rfl (by simp)
  | .alignof t, h, p, _, _ => first_bare rfl rfl (by simp)
  | .cast e t, h, p, _, _ => first_bare (t := .p .lpar) rfl rfl (by simp)
  | .field e f, h, p, hp, _ => by
    simp [CE.ok] at h
    obtain ⟨t, r, he, ht, hw, _⟩ := expr_first e h.1.1 16 (by omega) (fun _ => h.1.2)
    have h16 := (printed e h.1.1 16 (by omega) (fun _ => h.1.2)).2.2.1 rfl
    rw [he] at h16
    rw [expr, he]
    refine first_bare ht hw fun _ => ?_
    cases t with
    | p q => cases q <;> simp_all [Hd16]
    | _ => simp
  | .cint n true, h, p, _, _ => first_bare rfl rfl (by simp)
  | .clong n true, h, p, _, _ => first_bare rfl rfl (by simp)
  | .cint n false, h, p, _, _ => by
    by_cases hn : n < 2 ^ 31
    · simp only [expr, signedNum, hn, Bool.false_eq_true, if_false, if_true]
      exact first_bare rfl rfl (by simp)
    · simp only [expr, signedNum, hn, Bool.false_eq_true, if_false]
      refine first_bare rfl rfl fun _ => ⟨fun _ h => ?_, by simp⟩
      simp [CE.minus] at h
      omega
  | .clong n false, h, p, _, _ => by
    by_cases hn : n < 2 ^ 63
    · simp only [expr, signedNum, hn, Bool.false_eq_true, if_false, if_true]
      exact first_bare rfl rfl (by simp)
    · simp only [expr, signedNum, hn, Bool.false_eq_true, if_false]
      refine first_bare rfl rfl fun _ => ⟨fun _ h => ?_, by simp⟩
      simp [CE.minus] at h
      omega
  | .binop o a b, h, p, hp, _ => by
    simp [CE.ok] at h
    have h13 := level_le o
    rw [level_prec] at h13
    obtain ⟨t, r, he, ht, hw, _⟩ := expr_first a h.1 o.prec (by omega) (by omega)
    rw [expr, he]
    refine first_bare (B := r ++ [.sp, pn o.pn, .sp] ++ expr (o.prec + 1) b) ht hw fun hn => ⟨by omega, by omega⟩

theorem sep_paren {pe p : Nat} {B : List Piece} {k} (h : Sep B (some ')')) (h' : ¬ pe < p → Sep B k) :
    Sep (paren (decide (pe < p)) B) k := by
  by_cases hp : pe < p
  · simp only [paren, hp, decide_true, if_true, List.cons_append, List.nil_append, sep_quiet (q := .lpar) rfl]
    rw [sep_append]
    simp only [fstC_p, Pn.chars, List.head?_cons]
    exact ⟨h, (sep_quiet rfl).mpr trivial⟩
  · simp only [paren, hp, decide_false, Bool.false_eq_true, if_false]
    exact h' hp

/-- What may follow an expression printed for a precedence. -/
def KP (p : Nat) (k : Option Char) : Prop := if p = 16 then (∀ c, k = some c → identChar c = false) else KE k

theorem KE.kp {k} (h : KE k) (p) : KP p k := by
  unfold KP
  split
  · exact h.ident
  · exact h

theorem KP.ident {p k} (h : KP p k) : ∀ c, k = some c → identChar c = false := by
  unfold KP at h
  split at h
  · exact h
  · exact KE.ident h

theorem kp_paren {p} : KP p (some ')') := (KE.of).kp p

/-- A unary operator before an expression. -/
theorem sep_unary {q : Pn} {e : CE} {k} (hf : First (expr 15 e) 15 e)
    (hq : q = .star ∨ q = .bang ∨ q = .tilde ∨ (q = .minus ∧ e.minus = false) ∨ (q = .amp ∧ e.amp = false))
    (h : Sep (expr 15 e) k) : Sep (pn q :: expr 15 e) k := by
  obtain ⟨t, r, he, ht, hw, hm, ha⟩ := hf
  rw [he] at h ⊢
  refine (sep_tok rfl fun c hc => ?_).mpr h
  have hc := exprHead_first ht hw r k c hc
  rcases hq with rfl | rfl | rfl | ⟨rfl, h⟩ | ⟨rfl, h⟩
  · simp [clash, clashP, Ne.symm hc.1]
  · simp [clash, clashP, Ne.symm hc.1]
  · simp [clash, clashP]
  · have : c ≠ '-' := fun e => hm rfl h (hc.2.2.1 e)
    simp [clash, clashP, Ne.symm hc.1, Ne.symm hc.2.1, Ne.symm this]
  · have : c ≠ '&' := fun e => ha rfl h (hc.2.2.2 e)
    simp [clash, clashP, Ne.symm hc.1, Ne.symm this]

theorem signedNum_sep (w n s) {k} (h : KE k) : Sep (signedNum w n s) k := by
  unfold signedNum
  split
  · exact ⟨rfl, h, trivial⟩
  · obtain ⟨c, r, he⟩ := chars_pos (.num (2 ^ w - n) s) rfl
    refine (sep_tok rfl fun d hd => ?_).mpr ⟨rfl, h, trivial⟩
    have := exprHead_first (t := .num (2 ^ w - n) s) rfl rfl [] k d hd
    have h1 : d ≠ '-' := fun e => by simpa using this.2.2.1 e
    simp [clash, clashP, Ne.symm this.1, Ne.symm this.2.1, Ne.symm h1]

theorem expr_sep : ∀ (e : CE), e.ok = true → ∀ p, p ≤ 16 → (p = 16 → e.isConst = false) → ∀ k, KP p k → Sep (expr p e) k
  | .var x, h, p, hp, _, k, hk => by
    simp [CE.ok, varOk] at h
    exact sep_paren (B := [nm x]) ⟨h.1, kp_paren.ident (p := p), trivial⟩ fun _ => ⟨h.1, hk.ident, trivial⟩
  | .temp x, h, p, hp, _, k, hk =>
    sep_paren (B := [nm (tempName x)]) ⟨h, kp_paren.ident (p := p), trivial⟩ fun _ => ⟨h, hk.ident, trivial⟩
  | .deref e, h, p, hp, _, k, hk => by
    have h' : e.ok = true := by simpa [CE.ok] using h
    have hf := expr_first e h' 15 (by omega) (by omega)
    refine sep_paren (sep_unary hf (by simp) (expr_sep e h' 15 (by omega) (by omega) _ kp_paren)) fun hn => ?_
    refine sep_unary hf (by simp) (expr_sep e h' 15 (by omega) (by omega) k ?_)
    have : p ≠ 16 := by omega
    simpa [KP, this] using hk
  | .unop o e, h, p, hp, _, k, hk => by
    simp only [CE.ok, Bool.and_eq_true] at h
    have hf := expr_first e h.1 15 (by omega) (by omega)
    have hq : o.pn = .star ∨ o.pn = .bang ∨ o.pn = .tilde ∨ (o.pn = .minus ∧ e.minus = false) ∨ (o.pn = .amp ∧ e.amp = false) := by
      cases o <;> simp_all [UnOp.pn]
    refine sep_paren (sep_unary hf hq (expr_sep e h.1 15 (by omega) (by omega) _ kp_paren)) fun hn => ?_
    refine sep_unary hf hq (expr_sep e h.1 15 (by omega) (by omega) k ?_)
    have : p ≠ 16 := by omega
    simpa [KP, this] using hk
  | .addrof e, h, p, hp, _, k, hk => by
    simp [CE.ok] at h
    have hf := expr_first e h.1 15 (by omega) (by omega)
    refine sep_paren (sep_unary hf (by simp [h.2]) (expr_sep e h.1 15 (by omega) (by omega) _ kp_paren)) fun hn => ?_
    refine sep_unary hf (by simp [h.2]) (expr_sep e h.1 15 (by omega) (by omega) k ?_)
    have : p ≠ 16 := by omega
    simpa [KP, this] using hk
  | .field e f, h, p, hp, _, k, hk => by
    simp [CE.ok] at h
    have key : ∀ k, (∀ c, k = some c → identChar c = false) → Sep (expr 16 e ++ [pn .dot, nm f]) k := by
      intro k hk
      obtain ⟨d, s, hf, hd⟩ := word_first h.2
      rw [sep_append]
      refine ⟨expr_sep e h.1.1 16 (by omega) (fun _ => h.1.2) _ ?_, (sep_word rfl (c := d) (fstC_chars (by rw [Tok.chars, hf]) _ _) ?_).mpr ⟨h.2, hk, trivial⟩⟩
      · simp [KP, fstC_p, Pn.chars]; decide
      · have h1 : d ≠ '.' := by rintro rfl; exact absurd hd (by decide)
        have h2 : d.isDigit = false := by
          cases hdd : d.isDigit with
          | false => rfl
          | true => exact absurd hd (by simp [(digit_plain hdd).2.2.2])
        simp [clash, clashP, Ne.symm h1, h2]
    exact sep_paren (key _ (kp_paren.ident (p := p))) fun _ => key k hk.ident
  | .cint n true, h, p, hp, hc, k, hk => by
    have : p ≠ 16 := fun e => by simp [CE.isConst] at hc; exact hc e
    have hk' : KE k := by simpa [KP, this] using hk
    exact sep_paren (B := [.t (.num n .u)]) ⟨rfl, KE.of, trivial⟩ fun _ => ⟨rfl, hk', trivial⟩
  | .clong n true, h, p, hp, hc, k, hk => by
    have : p ≠ 16 := fun e => by simp [CE.isConst] at hc; exact hc e
    have hk' : KE k := by simpa [KP, this] using hk
    exact sep_paren (B := [.t (.num n .llu)]) ⟨rfl, KE.of, trivial⟩ fun _ => ⟨rfl, hk', trivial⟩
  | .cint n false, h, p, hp, hc, k, hk => by
    have : p ≠ 16 := fun e => by simp [CE.isConst] at hc; exact hc e
    have hk' : KE k := by simpa [KP, this] using hk
    exact sep_paren (signedNum_sep 32 n .none KE.of) fun _ => signedNum_sep 32 n .none hk'
  | .clong n false, h, p, hp, hc, k, hk => by
    have : p ≠ 16 := fun e => by simp [CE.isConst] at hc; exact hc e
    have hk' : KE k := by simpa [KP, this] using hk
    exact sep_paren (signedNum_sep 64 n .ll KE.of) fun _ => signedNum_sep 64 n .ll hk'
  | .binop o a b, h, p, hp, _, k, hk => by
    simp [CE.ok] at h
    have h13 := level_le o
    rw [level_prec] at h13
    have key : ∀ k, KE k → Sep (expr o.prec a ++ [.sp, pn o.pn, .sp] ++ expr (o.prec + 1) b) k := by
      intro k hk
      rw [List.append_assoc, sep_append]
      refine ⟨expr_sep a h.1 o.prec (by omega) (by omega) _ ?_, ?_⟩
      · simp only [List.cons_append, fstC_sp]
        exact (KE.of).kp _
      · have hb := expr_sep b h.2 (o.prec + 1) (by omega) (by omega) k (hk.kp _)
        show Sep (.sp :: pn o.pn :: .sp :: expr (o.prec + 1) b) k
        simp only [Sep, fstC_sp]
        refine ⟨rfl, ?_, hb⟩
        intro c hc
        cases hc
        cases o <;> decide
    refine sep_paren (key _ KE.of) fun hn => key k ?_
    have : p ≠ 16 := by omega
    simpa [KP, this] using hk
  | .cast e t, h, p, hp, _, k, hk => by
    simp [CE.ok] at h
    have key : ∀ k, KE k → Sep ([pn .lpar] ++ nameType t ++ [pn .rpar, .sp] ++ expr 14 e) k := by
      intro k hk
      simp only [List.cons_append, List.nil_append, List.append_assoc, sep_quiet (q := .lpar) rfl]
      rw [sep_append]
      refine ⟨by rw [← nameType_decay]; exact nameType_sep h.2 _ (by rw [fstC_p]; exact KD.of), ?_⟩
      rw [sep_quiet rfl]
      exact expr_sep e h.1 14 (by omega) (by omega) k (hk.kp _)
    refine sep_paren (key _ KE.of) fun hn => key k ?_
    have : p ≠ 16 := by omega
    simpa [KP, this] using hk
  | .sizeof t, h, p, hp, _, k, hk => by
    simp [CE.ok] at h
    have key : ∀ k, Sep ([kw .sizeof, pn .lpar] ++ nameType t ++ [pn .rpar]) k := by
      intro k
      simp only [List.cons_append, List.nil_append, List.append_assoc]
      rw [sep_word rfl (c := '(') (by simp [fstC_p, Pn.chars]) (by decide), sep_quiet rfl, sep_append, sep_quiet rfl]
      exact ⟨nameType_sep h _ (by rw [fstC_p]; exact KD.of), trivial⟩
    exact sep_paren (key _) fun _ => key _
  | .alignof t, h, p, hp, _, k, hk => by
    simp [CE.ok] at h
    have key : ∀ k, Sep ([kw .alignof, pn .lpar] ++ nameType t ++ [pn .rpar]) k := by
      intro k
      simp only [List.cons_append, List.nil_append, List.append_assoc]
      rw [sep_word rfl (c := '(') (by simp [fstC_p, Pn.chars]) (by decide), sep_quiet rfl, sep_append, sep_quiet rfl]
      exact ⟨nameType_sep h _ (by rw [fstC_p]; exact KD.of), trivial⟩
    exact sep_paren (key _) fun _ => key _

/-! ## Statements -/

theorem expr_sep0 {e : CE} (h : e.ok = true) {p : Nat} (hp : p ≤ 15) {c : Char} (hc : numChar c = false := by decide) :
    Sep (expr p e) (some c) := expr_sep e h p (by omega) (by omega) _ ((KE.of hc).kp p)

theorem sep_nil (k) : Sep [] k ↔ True := Iff.rfl
theorem sep_sp (l k) : Sep (.sp :: l) k ↔ Sep l k := Iff.rfl
theorem sep_cmt (l k) : Sep (.cmt :: l) k ↔ Sep l k := Iff.rfl
theorem sep_kwsp (w l k) : Sep (kw w :: .sp :: l) k ↔ Sep l k := by
  rw [sep_word rfl (fstC_sp l k) (by simp [clash]; decide)]; rfl
theorem sep_kwp (w q l k) (h : quiet q = true ∨ q = .colon) : Sep (kw w :: pn q :: l) k ↔ Sep (pn q :: l) k := by
  refine sep_tok rfl fun c hc => ?_
  rw [fstC_p] at hc
  cases q <;> simp_all [quiet, Pn.chars] <;> subst hc <;> simp only [clash] <;> decide
theorem sep_numColon (n s l k) : Sep (.t (.num n s) :: pn .colon :: l) k ↔ Sep (pn .colon :: l) k :=
  sep_word rfl (c := ':') (by simp [fstC_p, Pn.chars]) (by simp [clash]; decide)
theorem sep_nmsp {x} (h : nameOk x = true) (l k) : Sep (nm x :: .sp :: l) k ↔ Sep l k := by
  rw [sep_word (by simpa [Tok.wf] using h) (fstC_sp l k) (by simp [clash]; decide)]; rfl
theorem sep_psp (q l k) : Sep (pn q :: .sp :: l) k ↔ Sep l k := by
  rw [sep_word rfl (fstC_sp l k) (by cases q <;> decide)]; rfl

theorem exprList_sep : ∀ (es : List CE) (first : Bool), es.all CE.ok = true → Sep (exprList first es) (some ')')
  | [], _, _ => trivial
  | e :: es, first, h => by
    simp only [List.all_cons, Bool.and_eq_true] at h
    have h1 : Sep (expr 2 e ++ exprList false es) (some ')') := by
      rw [sep_append]
      refine ⟨?_, exprList_sep es false h.2⟩
      cases es with
      | nil => exact expr_sep0 h.1 (by omega)
      | cons e' es =>
        simp only [exprList, Bool.false_eq_true, if_false, List.cons_append, List.append_assoc, fstC_p, Pn.chars, List.head?_cons]
        exact expr_sep0 h.1 (by omega)
    cases first with
    | true => simpa [exprList] using h1
    | false => simpa [exprList, sep_psp] using h1

theorem callPieces_sep {f : CE} {args : List CE} (h : f.ok = true) (ha : args.all CE.ok = true) (k) :
    Sep (callPieces f args) k := by
  simp only [callPieces, List.append_assoc, List.cons_append, List.nil_append, sep_append, fstC_p, Pn.chars, List.head?_cons,
    sep_quiet (q := .lpar) rfl, sep_quiet (q := .rpar) rfl, sep_quiet (q := .semi) rfl, sep_nil, and_true]
  exact ⟨expr_sep0 h (by omega), exprList_sep args true ha⟩

theorem label_sep (l : Option Int) (r k) : Sep (labelPieces l ++ ([pn .colon, .sp] ++ r)) k ↔ Sep r k := by
  cases l with
  | none => simp only [labelPieces, List.cons_append, List.nil_append, sep_kwp _ .colon _ _ (Or.inr rfl), sep_psp]
  | some z =>
    by_cases hz : 0 ≤ z
    · simp only [labelPieces, hz, if_true, List.cons_append, List.nil_append, sep_kwsp, sep_numColon, sep_psp]
    · simp only [labelPieces, hz, if_false, List.cons_append, List.nil_append, sep_kwsp]
      rw [sep_tok rfl, sep_numColon, sep_psp]
      intro d hd
      have := exprHead_first (t := .num (-z).toNat .none) rfl rfl _ k d hd
      have h1 : d ≠ '-' := fun e => by simpa using this.2.2.1 e
      simp [clash, clashP, Ne.symm this.1, Ne.symm this.2.1, Ne.symm h1]

mutual
theorem stmt_sep : ∀ s : CS, s.ok = true → ∀ k, Sep (stmt s) k
  | .skip, _, k => by simp only [stmt, sep_cmt, sep_quiet (q := .semi) rfl, sep_nil]
  | .brk, _, k => by simp only [stmt, sep_kwp _ .semi _ _ (Or.inl rfl), sep_quiet (q := .semi) rfl, sep_nil]
  | .ret none, _, k => by simp only [stmt, sep_kwp _ .semi _ _ (Or.inl rfl), sep_quiet (q := .semi) rfl, sep_nil]
  | .ret (some e), h, k => by
    simp only [CS.ok] at h
    simp only [stmt, List.cons_append, List.nil_append, sep_kwsp, sep_append, fstC_p, Pn.chars, List.head?_cons,
      sep_quiet (q := .semi) rfl, sep_nil, and_true]
    exact expr_sep0 h (by omega)
  | .assign a b, h, k => by
    simp only [CS.ok, Bool.and_eq_true] at h
    simp only [stmt, List.append_assoc, List.cons_append, List.nil_append, sep_append, fstC_sp, sep_sp, sep_psp, fstC_p, Pn.chars,
      List.head?_cons, sep_quiet (q := .semi) rfl, sep_nil, and_true]
    exact ⟨expr_sep0 h.1.1 (by omega), expr_sep0 h.2 (by omega)⟩
  | .set x e, h, k => by
    simp only [CS.ok, Bool.and_eq_true] at h
    simp only [stmt, List.append_assoc, List.cons_append, List.nil_append, sep_nmsp h.1, sep_append, sep_psp, fstC_p, Pn.chars,
      List.head?_cons, sep_quiet (q := .semi) rfl, sep_nil, and_true]
    exact expr_sep0 h.2 (by omega)
  | .call none f args, h, k => by
    simp only [CS.ok, Bool.and_eq_true] at h
    exact callPieces_sep h.1.1 h.2 k
  | .call (some x) f args, h, k => by
    simp only [CS.ok, Bool.and_eq_true] at h
    simp only [stmt, List.cons_append, List.nil_append, sep_nmsp h.1.1.1, sep_psp]
    exact callPieces_sep h.1.1.2 h.2 k
  | .seq a b, h, k => by
    simp only [CS.ok, Bool.and_eq_true] at h
    rw [stmt]
    split
    · exact stmt_sep b h.2 k
    · split
      · exact stmt_sep a h.1 k
      · rw [List.append_assoc, sep_append]
        exact ⟨stmt_sep a h.1 _, stmt_sep b h.2 k⟩
  | .ite e a b, h, k => by
    simp only [CS.ok, Bool.and_eq_true] at h
    rw [stmt]
    split
    · simp only [List.append_assoc, List.cons_append, List.nil_append, sep_append, sep_kwsp, sep_psp, fstC_p, Pn.chars,
        List.head?_cons, sep_quiet (q := .lpar) rfl, sep_quiet (q := .rbrace) rfl, sep_nil, and_true]
      exact ⟨expr_sep0 h.1.1 (by omega), stmt_sep a h.1.2 _⟩
    · split
      · simp only [List.append_assoc, List.cons_append, List.nil_append, sep_append, sep_kwsp, sep_psp, fstC_p, Pn.chars,
          List.head?_cons, sep_quiet (q := .lpar) rfl, sep_quiet (q := .rbrace) rfl, sep_nil, and_true]
        exact ⟨expr_sep0 h.1.1 (by omega), stmt_sep b h.2 _⟩
      · simp only [List.append_assoc, List.cons_append, List.nil_append, sep_append, sep_sp, sep_kwsp, sep_psp, fstC_p, Pn.chars,
          List.head?_cons, sep_quiet (q := .lpar) rfl, sep_quiet (q := .rbrace) rfl, sep_nil, and_true]
        exact ⟨expr_sep0 h.1.1 (by omega), stmt_sep a h.1.2 _, stmt_sep b h.2 _⟩
  | .switch e ls, h, k => by
    simp only [CS.ok, Bool.and_eq_true] at h
    simp only [stmt, List.append_assoc, List.cons_append, List.nil_append, sep_append, sep_kwsp, sep_psp, fstC_p, Pn.chars,
        List.head?_cons, sep_quiet (q := .lpar) rfl, sep_quiet (q := .rbrace) rfl, sep_nil, and_true]
    exact ⟨expr_sep0 h.1 (by omega), cases_sep ls h.2 _⟩
theorem cases_sep : ∀ ls : LS, ls.ok = true → ∀ k, Sep (cases ls) k
  | .nil, _, k => trivial
  | .cons l s ls, h, k => by
    have hs : s.ok = true := by cases ls <;> simp_all [LS.ok]
    have hls : ls.ok = true := by cases ls <;> simp_all [LS.ok]
    rw [cases]
    split
    · rw [List.append_assoc, label_sep]
      exact cases_sep ls hls k
    · simp only [List.append_assoc, label_sep]
      rw [sep_append]
      exact ⟨stmt_sep s hs _, cases_sep ls hls k⟩
end

/-! ## Functions -/

theorem params_sep : ∀ (ps : List (Name × CTy)) (first va : Bool),
    ps.all (fun p => nameOk (tempName p.1) && p.2.ok) = true → Sep (paramPieces first ps va) (some ')')
  | [], _, va, _ => by
    cases va with
    | false => simp [paramPieces, sep_nil]
    | true =>
      simp only [paramPieces, if_true]
      exact (sep_quiet rfl).mpr ((sep_quiet rfl).mpr trivial)
  | (x, t) :: ps, first, va, h => by
    simp only [List.all_cons, Bool.and_eq_true] at h
    have h1 : Sep (cdecl t [nm (tempName x)] ++ paramPieces false ps va) (some ')') := by
      rw [sep_append]
      refine ⟨cdecl_sep t h.1.2 _ (ds_name h.1.1) _ ?_, params_sep ps false va h.2⟩
      cases ps with
      | nil => cases va <;> simp [paramPieces, fstC_p, Pn.chars] <;> exact KD.of
      | cons p ps => obtain ⟨y, u⟩ := p; simp only [paramPieces, Bool.false_eq_true, if_false, List.cons_append, List.append_assoc, fstC_p, Pn.chars, List.head?_cons]; exact KD.of
    cases first with
    | true => simpa [paramPieces] using h1
    | false => simpa [paramPieces, sep_psp] using h1

theorem fnHead_ds (f : CFn) (hn : nameOk f.name = true)
    (h : f.params.all (fun p => nameOk (tempName p.1) && p.2.ok) = true) : DS (fnHead f) := by
  have h1 : ∀ k, Sep ((if f.params = [] then (if f.va then [pn .dots] else [kw .void]) else paramPieces true f.params f.va) ++
      [pn .rpar]) k := by
    intro k
    simp only [sep_append, fstC_p, Pn.chars, List.head?_cons, sep_quiet (q := .rpar) rfl, sep_nil, and_true]
    split
    · split
      · exact (sep_quiet rfl).mpr trivial
      · refine ⟨rfl, fun c hc => ?_, trivial⟩
        cases hc
        decide
    · exact params_sep f.params true f.va h
  have := (ds_name hn).suffix (q := .lpar) (Or.inl rfl) fun k => (sep_quiet rfl).mpr (h1 k)
  simpa [fnHead] using this

theorem temps_sep : ∀ (l : List (Name × CTy)), l.all (fun p => nameOk (tempName p.1) && p.2.ok) = true → ∀ k, Sep (tempPieces l) k
  | [], _, _ => trivial
  | (x, t) :: l, h, k => by
    simp only [List.all_cons, Bool.and_eq_true] at h
    have ih := temps_sep l h.2 k
    have : tempPieces ((x, t) :: l) = kw .register :: .sp :: (cdecl t [nm (tempName x)] ++ (pn .semi :: .sp :: tempPieces l)) := by
      simp [tempPieces]
    rw [this, sep_kwsp, sep_append, fstC_p, sep_psp]
    exact ⟨cdecl_sep t h.1.2 _ (ds_name h.1.1) _ KD.of, ih⟩

theorem vars_sep : ∀ (l : List (Name × CTy)), l.all (fun p => nameOk p.1 && p.2.ok) = true → ∀ k, Sep (varPieces l) k
  | [], _, _ => trivial
  | (x, t) :: l, h, k => by
    simp only [List.all_cons, Bool.and_eq_true] at h
    have ih := vars_sep l h.2 k
    have : varPieces ((x, t) :: l) = cdecl t [nm x] ++ (pn .semi :: .sp :: varPieces l) := by
      simp [varPieces]
    rw [this, sep_append, fstC_p, sep_psp]
    exact ⟨cdecl_sep t h.1.2 _ (ds_name h.1.1) _ KD.of, ih⟩

theorem function_sep (f : CFn) (h : f.ok = true) (k) : Sep (function f) k := by
  simp only [CFn.ok, Bool.and_eq_true, Bool.or_eq_true, Bool.not_eq_true'] at h
  obtain ⟨⟨⟨⟨⟨⟨hn, hret⟩, hps⟩, hva⟩, hvs⟩, htps⟩, hb⟩ := h
  have : function f = cdecl f.ret (fnHead f) ++ (.sp :: pn .lbrace :: .sp :: (varPieces f.vars ++ (tempPieces f.temps ++
      (stmt f.body ++ [pn .rbrace])))) := by
    simp [function, varPieces, tempPieces]
  rw [this]
  simp only [sep_append, fstC_sp, sep_sp, sep_psp, sep_quiet (q := .rbrace) rfl, sep_nil, and_true]
  exact ⟨cdecl_sep f.ret hret _ (fnHead_ds f hn hps) _ KD.of, vars_sep _ hvs _, temps_sep _ htps _, stmt_sep _ hb _⟩

end CPrint
