import Verif.CPrint.StmtLemmas

/-!
# The printed characters are read as the printed tokens: lemmas
-/

namespace CPrint

/-- Whether a character directly behind a punctuator changes how it is read. -/
def clashP : Pn → Char → Bool
  | .dot, c => '.' == c || c.isDigit
  | .assign, c => '=' == c
  | .star, c => '=' == c
  | .slash, c => '=' == c || '*' == c || '/' == c
  | .percent, c => '=' == c || '>' == c || ':' == c
  | .plus, c => '+' == c || '=' == c
  | .minus, c => '-' == c || '=' == c || '>' == c
  | .shl, c => '=' == c
  | .shr, c => '=' == c
  | .lt, c => '<' == c || '=' == c || ':' == c || '%' == c
  | .gt, c => '>' == c || '=' == c
  | .amp, c => '&' == c || '=' == c
  | .caret, c => '=' == c
  | .bar, c => '|' == c || '=' == c
  | .bang, c => '=' == c
  | .colon, c => '>' == c
  | _, _ => false

/-- Whether a character directly behind a token changes how it is read. -/
def clash : Tok → Char → Bool
  | .id _, c => identChar c
  | .kw _, c => identChar c
  | .num _ _, c => numChar c
  | .p q, c => clashP q c

/-- Names are identifiers. -/
def Tok.wf : Tok → Bool
  | .id s => nameOk s
  | _ => true

/-- The first character of what is printed, or of what follows. -/
def fstC (l : List Piece) (k : Option Char) : Option Char :=
  match text l with
  | [] => k
  | c :: _ => some c

/-- No token runs into the next one; `k` is the character that follows. -/
def Sep : List Piece → Option Char → Prop
  | [], _ => True
  | .t x :: l, k => x.wf = true ∧ (∀ c, fstC l k = some c → clash x c = false) ∧ Sep l k
  | .sp :: l, k => Sep l k
  | .cmt :: l, k => Sep l k

theorem chars_t (x : Tok) : (Piece.t x).chars = x.chars := rfl
theorem chars_sp : Piece.sp.chars = [' '] := rfl
theorem chars_cmt : Piece.cmt.chars = ['/', '*', 's', 'k', 'i', 'p', '*', '/'] := rfl

theorem text_cons (p l) : text (p :: l) = p.chars ++ text l := by simp [text]
theorem text_append (a b) : text (a ++ b) = text a ++ text b := by simp [text]

theorem fstC_append (a b k) : fstC (a ++ b) k = fstC a (fstC b k) := by
  simp only [fstC, text_append]
  cases text a <;> simp

@[simp] theorem fstC_nil (k) : fstC [] k = k := rfl
@[simp] theorem fstC_sp (l k) : fstC (.sp :: l) k = some ' ' := by simp only [fstC, text_cons, chars_sp]; rfl

theorem fstC_chars {x : Tok} {c s} (h : x.chars = c :: s) (l k) : fstC (.t x :: l) k = some c := by
  simp only [fstC, text_cons, chars_t, h]; rfl

theorem sep_append : ∀ (a b : List Piece) (k), Sep (a ++ b) k ↔ Sep a (fstC b k) ∧ Sep b k
  | [], b, k => by simp [Sep]
  | .t x :: a, b, k => by
    simp only [List.cons_append, Sep, sep_append a b k, fstC_append]
    constructor
    · rintro ⟨h1, h2, h3, h4⟩; exact ⟨⟨h1, h2, h3⟩, h4⟩
    · rintro ⟨⟨h1, h2, h3⟩, h4⟩; exact ⟨h1, h2, h3, h4⟩
  | .sp :: a, b, k => by simp only [List.cons_append, Sep, sep_append a b k]
  | .cmt :: a, b, k => by simp only [List.cons_append, Sep, sep_append a b k]

/-! ## One token -/

theorem takeWhile_all {p : Char → Bool} {s rest : List Char} (hs : s.all p = true) (hr : ∀ c, rest.head? = some c → p c = false) :
    (s ++ rest).takeWhile p = s ∧ (s ++ rest).dropWhile p = rest := by
  induction s with
  | nil =>
    cases rest with
    | nil => simp
    | cons c r => simp [hr c rfl]
  | cons c s ih =>
    simp only [List.all_cons, Bool.and_eq_true] at hs
    simp [hs.1, ih hs.2]

theorem identStart_plain {c : Char} (h : identStart c = true) : c ≠ ' ' ∧ c ≠ '\n' ∧ c ≠ '/' := by
  refine ⟨?_, ?_, ?_⟩ <;> rintro rfl <;> exact absurd h (by decide)

theorem lex_word {c s} (hc : identStart c = true) (hs : s.all identChar = true) {rest : List Char}
    (hr : ∀ c, rest.head? = some c → identChar c = false) (n) :
    lex (n + 1) (c :: (s ++ rest)) = (lex n rest).map (lexWord (c :: s) :: ·) := by
  have h := takeWhile_all hs hr
  have hp := identStart_plain hc
  simp [lex, hp.1, hp.2.1, hp.2.2, hc, h.1, h.2]

theorem lexWord_kw (k : Kw) : lexWord k.chars = .kw k := by cases k <;> decide

theorem kw_word (k : Kw) : ∃ c s, k.chars = c :: s ∧ identStart c = true ∧ s.all identChar = true := by
  cases k <;> exact ⟨_, _, rfl, by decide, by decide⟩

theorem toDigits_head : ∀ n, 0 < n → (Nat.toDigits 10 n).head? ≠ some '0' := by
  intro n
  induction n using Nat.strongRecOn with
  | _ n ih =>
    intro hn
    by_cases h : n < 10
    · rw [Nat.toDigits_of_lt_base h]
      simp; omega
    · rw [Nat.toDigits_of_base_le (by omega) (by omega)]
      have := ih (n / 10) (by omega) (by omega)
      cases hd : Nat.toDigits 10 (n / 10) with
      | nil => exact absurd hd Nat.toDigits_ne_nil
      | cons c s => rw [hd] at this; simpa using this

theorem digit_plain {c : Char} (h : c.isDigit = true) : c ≠ ' ' ∧ c ≠ '\n' ∧ c ≠ '/' ∧ identStart c = false := by
  refine ⟨?_, ?_, ?_, ?_⟩
  · rintro rfl; exact absurd h (by decide)
  · rintro rfl; exact absurd h (by decide)
  · rintro rfl; exact absurd h (by decide)
  · have h1 : c ≠ '_' := by rintro rfl; exact absurd h (by decide)
    have h2 : c ≠ '$' := by rintro rfl; exact absurd h (by decide)
    have h3 : c.isAlpha = false := by
      simp only [Char.isAlpha, Char.isUpper, Char.isLower, Char.isDigit, Bool.or_eq_false_iff, decide_eq_true_eq,
        Bool.and_eq_true, decide_eq_false_iff_not, Bool.and_eq_false_iff] at h ⊢
      have a := h.1; have b := h.2
      simp only [ge_iff_le, UInt32.le_iff_toNat_le] at *
      simp at a b ⊢
      constructor <;> omega
    simp [identStart, h1, h2, h3]

theorem lexNum_ok (n : Nat) (s : Suf) : lexNum (Nat.toDigits 10 n ++ s.chars) = some (.num n s) := by
  have hd : (Nat.toDigits 10 n).all Char.isDigit = true := by
    rw [List.all_eq_true]
    exact fun c hc => Nat.isDigit_of_mem_toDigits (by omega) (by omega) hc
  have h := takeWhile_all (rest := s.chars) hd (by cases s <;> simp [Suf.chars])
  unfold lexNum
  simp only [h.1, h.2]
  have h0 : ¬ ((Nat.toDigits 10 n).head? = some '0' ∧ (Nat.toDigits 10 n).length ≠ 1) := by
    rintro ⟨a, b⟩
    by_cases hn : n = 0
    · subst hn; simp at b
    · exact toDigits_head n (by omega) a
  rw [if_neg h0, Nat.ofDigitChars_ten_toDigits]
  cases s <;> rfl

theorem lex_num (n : Nat) (s : Suf) {rest : List Char} (hr : ∀ c, rest.head? = some c → numChar c = false) (m) :
    lex (m + 1) (Nat.toDigits 10 n ++ s.chars ++ rest) = (lex m rest).map (.num n s :: ·) := by
  have hl := lexNum_ok n s
  have hd : ∀ c ∈ Nat.toDigits 10 n, c.isDigit = true := fun c hc => Nat.isDigit_of_mem_toDigits (by omega) (by omega) hc
  cases he : Nat.toDigits 10 n with
  | nil => exact absurd he Nat.toDigits_ne_nil
  | cons c ds =>
    rw [he] at hl hd
    have hc := hd c (by simp)
    have hp := digit_plain hc
    have hs : (ds ++ s.chars).all numChar = true := by
      rw [List.all_append, Bool.and_eq_true]
      constructor
      · rw [List.all_eq_true]
        intro x hx
        have := hd x (by simp [hx])
        simp [numChar, identChar, this]
      · cases s <;> decide
    have h := takeWhile_all hs hr
    simp only [List.append_assoc] at h
    simp only [List.cons_append] at hl ⊢
    simp [lex, hp.1, hp.2.1, hp.2.2.1, hp.2.2.2, hc, h.1, h.2, hl]

theorem lex_pn (q : Pn) {rest : List Char} (hr : ∀ c, rest.head? = some c → clashP q c = false) (m) :
    lex (m + 1) (q.chars ++ rest) = (lex m rest).map (.p q :: ·) := by
  cases rest with
  | nil => cases q <;> simp [lex, Pn.chars, lexPn, pnTable, identStart, Char.isAlpha, Char.isUpper, Char.isLower, Char.isDigit]
  | cons c r =>
    have := hr c rfl
    cases q <;> simp [clashP, Char.isDigit] at this <;>
      simp [lex, Pn.chars, lexPn, pnTable, identStart, Char.isAlpha, Char.isUpper, Char.isLower, Char.isDigit, this]
    · intro h1 h2
      exact absurd (this.2 h1) (by simpa using h2)
    · rintro rfl
      exact absurd rfl this.1.2

theorem lex_tok (x : Tok) (hx : x.wf = true) {rest : List Char} (hr : ∀ c, rest.head? = some c → clash x c = false) (m) :
    lex (m + 1) (x.chars ++ rest) = (lex m rest).map (x :: ·) := by
  cases x with
  | id s =>
    cases s with
    | nil => simp [Tok.wf, nameOk] at hx
    | cons c s =>
      simp only [Tok.wf, nameOk, Bool.and_eq_true, Option.isNone_iff_eq_none] at hx
      have := lex_word hx.1.1 hx.1.2 hr m
      simpa [Tok.chars, lexWord, hx.2] using this
  | kw k =>
    obtain ⟨c, s, he, hc, hs⟩ := kw_word k
    have := lex_word hc hs hr m
    rw [← he, lexWord_kw] at this
    rw [← this]
    simp [Tok.chars, he]
  | num n s => exact lex_num n s hr m
  | p q => exact lex_pn q hr m

theorem chars_pos (x : Tok) (hx : x.wf = true) : ∃ c s, x.chars = c :: s := by
  cases x with
  | id s => cases s <;> simp_all [Tok.wf, nameOk, Tok.chars]
  | kw k => obtain ⟨c, s, he, _⟩ := kw_word k; exact ⟨c, s, he⟩
  | num n s =>
    cases he : Nat.toDigits 10 n with
    | nil => exact absurd he Nat.toDigits_ne_nil
    | cons c ds => exact ⟨c, ds ++ s.chars, by simp [Tok.chars, he]⟩
  | p q => cases q <;> exact ⟨_, _, rfl⟩

/-- The text of separated pieces has their tokens. -/
theorem lex_text : ∀ (l : List Piece), Sep l none → ∀ n, (text l).length ≤ n → lex n (text l) = some (toks l)
  | [], _, n, _ => by cases n <;> rfl
  | .t x :: l, h, n, hn => by
    obtain ⟨hx, hc, hs⟩ := h
    obtain ⟨c, s, he⟩ := chars_pos x hx
    rw [text_cons, chars_t] at hn ⊢
    obtain ⟨m, rfl⟩ : ∃ m, n = m + 1 := ⟨n - 1, by rw [he] at hn; simp at hn; omega⟩
    have hr : ∀ c, (text l).head? = some c → clash x c = false := by
      intro c h
      refine hc c ?_
      unfold fstC
      cases ht : text l <;> simp_all
    rw [lex_tok x hx hr, lex_text l hs m (by rw [he] at hn; simp at hn; omega)]
    rfl
  | .sp :: l, h, n, hn => by
    rw [text_cons, chars_sp] at hn ⊢
    obtain ⟨m, rfl⟩ : ∃ m, n = m + 1 := ⟨n - 1, by simp at hn; omega⟩
    have := lex_text l h m (by simp at hn; omega)
    simpa [lex] using this
  | .cmt :: l, h, n, hn => by
    rw [text_cons, chars_cmt] at hn ⊢
    obtain ⟨m, rfl⟩ : ∃ m, n = m + 1 := ⟨n - 1, by simp at hn; omega⟩
    have := lex_text l h m (by simp at hn; omega)
    simpa [lex, skipComment] using this

end CPrint
