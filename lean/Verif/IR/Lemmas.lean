import Verif.IR.Model
import Mathlib.Data.List.Basic

/-!
# Lemmas for C80
-/

namespace IR
open ANF

theorem word_of {s : Str} (h : s.all wordChar = true) : Word s := by simpa [Word] using h

/-- Splitting behind the first word. -/
theorem word_split {a b : Str} {c d : Char} {r r' : Str} (ha : Word a) (hb : Word b) (hc : wordChar c = false) (hd : wordChar d = false)
    (h : a ++ c :: r = b ++ d :: r') : a = b ∧ c = d ∧ r = r' := by
  induction a generalizing b with
  | nil =>
    cases b with
    | nil => simpa using h
    | cons x b =>
      simp only [List.nil_append, List.cons_append, List.cons.injEq] at h
      have := hb x (by simp)
      rw [← h.1, hc] at this
      cases this
  | cons x a ih =>
    cases b with
    | nil =>
      simp only [List.nil_append, List.cons_append, List.cons.injEq] at h
      have := ha x (by simp)
      rw [h.1, hd] at this
      cases this
    | cons y b =>
      simp only [List.cons_append, List.cons.injEq] at h
      have := ih (fun c hc => ha c (by simp [hc])) (b := b) (fun c hc => hb c (by simp [hc])) h.2
      exact ⟨by rw [h.1, this.1], this.2⟩

/-- Splitting at the first newline. -/
theorem line_split {a b : Str} {r r' : Str} (ha : '\n' ∉ a) (hb : '\n' ∉ b) (h : a ++ '\n' :: r = b ++ '\n' :: r') : a = b ∧ r = r' := by
  induction a generalizing b with
  | nil =>
    cases b with
    | nil => simpa using h
    | cons x b => simp at h; exact absurd (h.1 ▸ List.mem_cons_self) hb
  | cons x a ih =>
    cases b with
    | nil => simp at h; exact absurd (h.1 ▸ List.mem_cons_self) ha
    | cons y b =>
      simp only [List.cons_append, List.cons.injEq] at h
      have := ih (fun hm => ha (by simp [hm])) (b := b) (fun hm => hb (by simp [hm])) h.2
      exact ⟨by rw [h.1, this.1], this.2⟩

theorem showNat_inj {m n : Nat} (h : showNat m = showNat n) : m = n := by
  unfold showNat at h
  rw [← Nat.ofDigitChars_ten_toDigits (n := m), h, Nat.ofDigitChars_ten_toDigits]

theorem digit_word {c : Char} (h : c.isDigit = true) : wordChar c = true := by
  have : ∀ d : Char, d.isDigit = false → c ≠ d := by
    intro d hd he
    rw [he, hd] at h
    cases h
  simp [wordChar, this ' ' (by decide), this '(' (by decide), this ')' (by decide), this ',' (by decide), this ':' (by decide),
    this '\n' (by decide)]

theorem showNat_digit {n : Nat} {c : Char} (h : c ∈ showNat n) : c.isDigit = true :=
  Nat.isDigit_of_mem_toDigits (by omega) (by omega) h

theorem showNat_word (n : Nat) : Word (showNat n) := fun _ h => digit_word (showNat_digit h)

theorem Word.app {a b : Str} (ha : Word a) (hb : Word b) : Word (a ++ b) := by
  intro c hc
  rcases List.mem_append.1 hc with h | h
  · exact ha c h
  · exact hb c h

theorem Word.line {a : Str} (ha : Word a) : '\n' ∉ a := fun h => by have := ha _ h; revert this; decide

theorem num_take {a : Str} {c : Char} {n : Nat} (hc : c.isDigit = false) :
    (a ++ c :: showNat n).reverse.takeWhile Char.isDigit = (showNat n).reverse := by
  rw [List.reverse_append, List.reverse_cons, List.append_assoc, List.takeWhile_append_of_pos]
  · simp [List.takeWhile, hc]
  · intro d hd
    exact showNat_digit (List.mem_reverse.1 hd)

theorem num_end {a b : Str} {c d : Char} {m n : Nat} (hc : c.isDigit = false) (hd : d.isDigit = false)
    (h : a ++ c :: showNat m = b ++ d :: showNat n) : m = n := by
  have h1 := num_take (a := a) (n := m) hc
  rw [h, num_take hd] at h1
  exact (showNat_inj (List.reverse_inj.1 h1)).symm

theorem showVar_form (T : Tables) (x : Var) : ∃ a c, c.isDigit = false ∧ showVar T x = a ++ c :: showNat x := by
  unfold showVar
  split
  · exact ⟨_, '_', by decide, rfl⟩
  · exact ⟨[], 'x', by decide, rfl⟩

theorem showVar_inj {T T' : Tables} {x y : Var} (h : showVar T x = showVar T' y) : x = y := by
  obtain ⟨a, c, hc, h1⟩ := showVar_form T x
  obtain ⟨b, d, hd, h2⟩ := showVar_form T' y
  rw [h1, h2] at h
  exact num_end hc hd h

theorem showVar_ne (T : Tables) (x : Var) : showVar T x ≠ [] := by
  obtain ⟨a, c, _, h⟩ := showVar_form T x
  simp [h]

theorem showVar_word {T : Tables} (hT : Ok T) (x : Var) : Word (showVar T x) := by
  unfold showVar
  split
  · next s hs => exact (hT.names x s hs).app (fun c hc => by
      rcases List.mem_cons.1 hc with rfl | h
      · decide
      · exact showNat_word x c h)
  · intro c hc
    rcases List.mem_cons.1 hc with rfl | h
    · decide
    · exact showNat_word x c h

theorem showCon_word {T : Tables} (hT : Ok T) (t : Tag) : Word (showCon T t) := by
  unfold showCon
  split
  · next s hs => exact hT.ctors t s hs
  · exact Word.app (by unfold Word; decide) (showNat_word t)

/-- The tables of two texts: only the names of variables may differ. -/
structure Like (T T' : Tables) : Prop where
  ctors : T.ctors = T'.ctors
  str : T.str = T'.str

theorem showCon_inj {T T' : Tables} (hT : Ok T) (hl : Like T T') {t t' : Tag} (h : showCon T t = showCon T' t') : t = t' := by
  unfold showCon at h
  rw [← hl.ctors] at h
  cases h1 : T.ctors t with
  | none =>
    cases h2 : T.ctors t' with
    | none => simp only [h1, h2] at h; exact showNat_inj (List.append_cancel_left h)
    | some s => simp only [h1, h2] at h; exact absurd (h ▸ h2) (hT.notCon t' t)
  | some s =>
    cases h2 : T.ctors t' with
    | none => simp only [h1, h2] at h; exact absurd (h ▸ h1) (hT.notCon t t')
    | some s' => simp only [h1, h2] at h; exact hT.apart t t' s h1 (h ▸ h2)

theorem showCon_ne_prim {T : Tables} (hT : Ok T) {t : Tag} {p : Nat} : showCon T t ≠ ['p', 'r', 'i', 'm', '_'] ++ showNat p := by
  unfold showCon
  split
  · next s hs =>
    intro h
    exact hT.notPrim t p (h ▸ hs)
  · simp

/-- The list of variables behind the opening parenthesis. -/
def rest (T : Tables) : List Var → Str
  | [] => [')']
  | [x] => showVar T x ++ [')']
  | x :: xs => showVar T x ++ ',' :: rest T xs

theorem showVars_rest (T : Tables) (xs : List Var) : showVars T xs = '(' :: rest T xs := by
  unfold showVars
  congr 1
  induction xs with
  | nil => rfl
  | cons x xs ih =>
    cases xs with
    | nil => simp [sep, rest]
    | cons y ys =>
      simp only [List.map_cons] at ih ⊢
      simp only [sep, List.foldr_cons, rest]
      rw [← ih]
      simp

theorem rest_inj {T T' : Tables} (hT : Ok T) (hT' : Ok T') : ∀ (xs ys : List Var) {r r' : Str}, rest T xs ++ r = rest T' ys ++ r' → xs = ys ∧ r = r'
  | [], [], r, r', h => by simpa [rest] using h
  | [], [y], r, r', h => by
    have := word_split (a := []) (by simp [Word]) (showVar_word hT' y) (by decide) (by decide) (show [] ++ ')' :: r = showVar T' y ++ ')' :: r' by simpa [rest] using h)
    exact absurd this.1.symm (showVar_ne _ _)
  | [], y :: z :: ys, r, r', h => by
    have := word_split (a := []) (by simp [Word]) (showVar_word hT' y) (by decide) (by decide) (show [] ++ ')' :: r = showVar T' y ++ ',' :: (rest T' (z :: ys) ++ r') by simpa [rest] using h)
    exact absurd this.1.symm (showVar_ne _ _)
  | [x], [], r, r', h => by
    have := word_split (b := []) (showVar_word hT x) (by simp [Word]) (by decide) (by decide) (show showVar T x ++ ')' :: r = [] ++ ')' :: r' by simpa [rest] using h)
    exact absurd this.1 (showVar_ne _ _)
  | x :: z :: xs, [], r, r', h => by
    have := word_split (b := []) (showVar_word hT x) (by simp [Word]) (by decide) (by decide) (show showVar T x ++ ',' :: (rest T (z :: xs) ++ r) = [] ++ ')' :: r' by simpa [rest] using h)
    exact absurd this.1 (showVar_ne _ _)
  | [x], [y], r, r', h => by
    have := word_split (showVar_word hT x) (showVar_word hT' y) (by decide) (by decide) (show showVar T x ++ ')' :: r = showVar T' y ++ ')' :: r' by simpa [rest] using h)
    exact ⟨by rw [showVar_inj this.1], this.2.2⟩
  | [x], y :: z :: ys, r, r', h => by
    have := word_split (showVar_word hT x) (showVar_word hT' y) (by decide) (by decide) (show showVar T x ++ ')' :: r = showVar T' y ++ ',' :: (rest T' (z :: ys) ++ r') by simpa [rest] using h)
    exact absurd this.2.1 (by decide)
  | x :: z :: xs, [y], r, r', h => by
    have := word_split (showVar_word hT x) (showVar_word hT' y) (by decide) (by decide) (show showVar T x ++ ',' :: (rest T (z :: xs) ++ r) = showVar T' y ++ ')' :: r' by simpa [rest] using h)
    exact absurd this.2.1 (by decide)
  | x :: x2 :: xs, y :: y2 :: ys, r, r', h => by
    have := word_split (showVar_word hT x) (showVar_word hT' y) (by decide) (by decide) (show showVar T x ++ ',' :: (rest T (x2 :: xs) ++ r) = showVar T' y ++ ',' :: (rest T' (y2 :: ys) ++ r') by simpa [rest] using h)
    have h2 := rest_inj hT hT' (x2 :: xs) (y2 :: ys) this.2.2
    exact ⟨by rw [showVar_inj this.1, h2.1], h2.2⟩

/-- A binding: the variable, the first word on the right, the character behind it, the rest of the line, the next expression. -/
structure Parts where
  var : Var
  word : Str
  delim : Char
  rhs : Str
  next : Exp

def parts (T : Tables) : Exp → Option Parts
  | .constr x t ys e => some ⟨x, showCon T t, '(', rest T ys, e⟩
  | .proj x t n y e => some ⟨x, ['p', 'r', 'o', 'j', '_'] ++ showNat n, ' ', showNat t ++ ' ' :: showVar T y, e⟩
  | .primVal x p e => some ⟨x, ['p', 'r', 'i', 'm'], ':', ' ' :: showPrim T p, e⟩
  | .prim x p ys e => some ⟨x, ['p', 'r', 'i', 'm', '_'] ++ showNat p, '(', rest T ys, e⟩
  | .letapp x f _ ys e => some ⟨x, ['a', 'p', 'p'], ' ', showVar T f ++ '(' :: rest T ys, e⟩
  | _ => none

theorem parts_word {T : Tables} (hT : Ok T) {e : Exp} {p : Parts} (h : parts T e = some p) : Word p.word ∧ wordChar p.delim = false := by
  cases e <;> simp only [parts, Option.some.injEq, reduceCtorEq] at h <;> subst h
  · exact ⟨showCon_word hT _, rfl⟩
  · exact ⟨Word.app (word_of rfl) (showNat_word _), rfl⟩
  · exact ⟨word_of rfl, rfl⟩
  · exact ⟨word_of rfl, rfl⟩
  · exact ⟨Word.app (word_of rfl) (showNat_word _), rfl⟩

theorem parts_show {T : Tables} {i : Nat} {e : Exp} {p : Parts} (h : parts T e = some p) (r : Str) :
    showE T i e ++ r = tab i ++ (['l', 'e', 't'] ++ ' ' :: (showVar T p.var ++ ' ' :: ([':', '=', ' '] ++
      (p.word ++ p.delim :: (p.rhs ++ ' ' :: (['i', 'n', ' '] ++ '\n' :: (showE T i p.next ++ r))))))) := by
  cases e <;> simp only [parts, Option.some.injEq, reduceCtorEq] at h <;> subst h <;> simp [showE, lets, showVars_rest]

theorem parts_split {T T' : Tables} (hT : Ok T) (hT' : Ok T') {i : Nat} {e e' : Exp} {p p' : Parts} {r r' : Str} (hp : parts T e = some p)
    (hp' : parts T' e' = some p') (h : showE T i e ++ r = showE T' i e' ++ r') : p.var = p'.var ∧ p.word = p'.word ∧ p.delim = p'.delim ∧
      p.rhs ++ ' ' :: (['i', 'n', ' '] ++ '\n' :: (showE T i p.next ++ r)) = p'.rhs ++ ' ' :: (['i', 'n', ' '] ++ '\n' :: (showE T' i p'.next ++ r')) := by
  rw [parts_show hp, parts_show hp'] at h
  have h := List.append_cancel_left h
  have h := List.append_cancel_left h
  have h := word_split (showVar_word hT _) (showVar_word hT' _) (by decide) (by decide) (List.cons.inj h).2
  have h1 := List.append_cancel_left h.2.2
  have h2 := word_split (parts_word hT hp).1 (parts_word hT' hp').1 (parts_word hT hp).2 (parts_word hT' hp').2 h1
  exact ⟨showVar_inj h.1, h2⟩

/-- The first word of an expression, and the character behind it. -/
def head (T : Tables) : Exp → Str × Char
  | .case _ _ => (['c', 'a', 's', 'e'], ' ')
  | .fn _ _ => (['l', 'e', 't', 'r', 'e', 'c'], ' ')
  | .app f _ _ => (showVar T f, '(')
  | .halt _ => (['h', 'a', 'l', 't'], ' ')
  | _ => (['l', 'e', 't'], ' ')

theorem head_word {T : Tables} (hT : Ok T) (e : Exp) : Word (head T e).1 ∧ wordChar (head T e).2 = false := by
  cases e <;> first
    | exact ⟨word_of rfl, rfl⟩
    | exact ⟨showVar_word hT _, rfl⟩

theorem head_show (T : Tables) (i : Nat) (e : Exp) : ∃ b, showE T i e = tab i ++ ((head T e).1 ++ (head T e).2 :: b) := by
  cases e <;> simp [showE, head, lets, showVars_rest]

theorem head_eq {T T' : Tables} (hT : Ok T) (hT' : Ok T') {i : Nat} {e e' : Exp} {r r' : Str} (h : showE T i e ++ r = showE T' i e' ++ r') :
    head T e = head T' e' := by
  obtain ⟨b, hb⟩ := head_show T i e
  obtain ⟨b', hb'⟩ := head_show T' i e'
  simp only [hb, hb', List.append_assoc, List.append_cancel_left_eq] at h
  have h := word_split (head_word hT e).1 (head_word hT' e').1 (head_word hT e).2 (head_word hT' e').2
    (r := b ++ r) (r' := b' ++ r') (by simpa using h)
  exact Prod.ext h.1 h.2.1

theorem showNat_notin {n : Nat} {c : Char} (hc : c.isDigit = false) : c ∉ showNat n := fun h => by
  rw [showNat_digit h] at hc
  cases hc

theorem showNat_ne (n : Nat) : showNat n ≠ [] := Nat.toDigits_ne_nil

theorem showNat_head {n : Nat} {c : Char} {r s : Str} (hc : c.isDigit = false) : showNat n ++ r ≠ c :: s := by
  intro h
  cases hn : showNat n with
  | nil => exact showNat_ne n hn
  | cons d ds =>
    rw [hn] at h
    simp only [List.cons_append, List.cons.injEq] at h
    exact showNat_notin (n := n) hc (by rw [hn, h.1]; simp)

theorem showInt_inj {a b : Int} (h : showInt a = showInt b) : a = b := by
  cases a with
  | ofNat m =>
    cases b with
    | ofNat n => rw [showNat_inj (show showNat m = showNat n from h)]
    | negSucc n => exact absurd ((List.append_nil _).trans (show showNat m = '-' :: showNat (n + 1) from h)) (showNat_head rfl)
  | negSucc m =>
    cases b with
    | ofNat n => exact absurd ((List.append_nil _).trans (show showNat n = '-' :: showNat (m + 1) from h.symm)) (showNat_head rfl)
    | negSucc n =>
      have := showNat_inj (List.cons.inj (show '-' :: showNat (m + 1) = '-' :: showNat (n + 1) from h)).2
      congr 1
      omega

/-- Splitting behind the digits. -/
theorem digits_split {m n : Nat} {c : Char} {r r' : Str} (hc : c.isDigit = false) (h : showNat m ++ c :: r = showNat n ++ c :: r') : m = n ∧ r = r' := by
  have key : ∀ a b : Str, c ∉ a → c ∉ b → a ++ c :: r = b ++ c :: r' → a = b ∧ r = r' := by
    intro a
    induction a with
    | nil => intro b _ hb h; cases b with
      | nil => simpa using h
      | cons d b => simp at h; exact absurd (h.1 ▸ List.mem_cons_self) hb
    | cons d a ih => intro b ha hb h; cases b with
      | nil => simp at h; exact absurd (h.1 ▸ List.mem_cons_self) ha
      | cons d' b =>
        simp only [List.cons_append, List.cons.injEq] at h
        have := ih b (fun hm => ha (by simp [hm])) (fun hm => hb (by simp [hm])) h.2
        exact ⟨by rw [h.1, this.1], this.2⟩
  have := key _ _ (showNat_notin hc) (showNat_notin hc) h
  exact ⟨showNat_inj this.1, this.2⟩

/-- What the text of a float without its sign stands for. -/
inductive FKind
  | zero | inf | fin (m : Nat) (z : Int)

def FKind.text : FKind → Str
  | .zero => ['0']
  | .inf => ['I', 'N', 'F', 'I', 'N', 'I', 'T', 'Y']
  | .fin m z => showNat m ++ 'p' :: showInt z

theorem FKind.text_inj {a b : FKind} (h : a.text = b.text) : a = b := by
  have zero_fin : ∀ m z, ['0'] ≠ showNat m ++ 'p' :: showInt z := by
    intro m z h
    have : 'p' ∈ ['0'] := by rw [h]; simp
    simp at this
  cases a <;> cases b <;> simp only [FKind.text] at h
  · rfl
  · simp at h
  · exact absurd h (zero_fin _ _)
  · simp at h
  · rfl
  · exact absurd h.symm (showNat_head rfl)
  · exact absurd h.symm (zero_fin _ _)
  · exact absurd h (showNat_head rfl)
  · have := digits_split (by decide) h
    rw [this.1, showInt_inj this.2]

theorem FKind.text_minus {a b : FKind} : a.text ≠ '-' :: b.text := by
  cases a with
  | zero => simp [FKind.text]
  | inf => simp [FKind.text]
  | fin m z => exact showNat_head rfl

theorem FKind.text_nan {a : FKind} {s : Str} : a.text ≠ 'N' :: s := by
  cases a with
  | zero => simp [FKind.text]
  | inf => simp [FKind.text]
  | fin m z => exact showNat_head rfl

/-- The kind of a float that is a number. -/
def fkind (b : Nat) : FKind :=
  if fexpo b = 0 then if fmant b = 0 then .zero else .fin (fmant b) (-1074)
  else if fexpo b = 2047 then .inf else .fin (fmant b + 2^52) (fexpo b - 1075)

theorem showFloat_kind (b : Nat) : showFloat b = if fexpo b = 2047 ∧ fmant b ≠ 0 then ['N', 'A', 'N']
    else if fneg b then '-' :: (fkind b).text else (fkind b).text := by
  unfold showFloat fkind
  have : ∀ (P Q R : Prop) [Decidable P] [Decidable Q] [Decidable R] (x y z w : FKind), (if P then if Q then x else y else if R then z else w).text =
      if P then if Q then x.text else y.text else if R then z.text else w.text := by
    intros; split <;> split <;> rfl
  rw [this]
  rfl

theorem fmant_lt (b : Nat) : fmant b < 2^52 := Nat.mod_lt _ (by decide)

theorem fkind_inj {a b : Nat} (ha : ¬ (fexpo a = 2047 ∧ fmant a ≠ 0)) (hb : ¬ (fexpo b = 2047 ∧ fmant b ≠ 0)) (h : fkind a = fkind b) :
    fexpo a = fexpo b ∧ fmant a = fmant b := by
  have h1 := fmant_lt a
  have h2 := fmant_lt b
  unfold fkind at h
  split at h <;> split at h <;> (try split at h) <;> (try split at h) <;> simp only [FKind.fin.injEq, reduceCtorEq] at h <;> omega

theorem bits_eq {b : Nat} (h : b < 2^64) : b = (if fneg b then 2^63 else 0) + fexpo b * 2^52 + fmant b := by
  unfold fneg fexpo fmant
  by_cases h1 : b / 2^63 = 1
  · simp only [h1, beq_self_eq_true, if_true]; omega
  · have : (b / 2^63 == 1) = false := by simpa using h1
    simp only [this, Bool.false_eq_true, if_false]; omega

theorem showFloat_inj {a b : Nat} (ha : LitOk (.float a)) (hb : LitOk (.float b)) (h : showFloat a = showFloat b) : a = b := by
  rw [showFloat_kind, showFloat_kind] at h
  by_cases h1 : fexpo a = 2047 ∧ fmant a ≠ 0 <;> by_cases h2 : fexpo b = 2047 ∧ fmant b ≠ 0
  · rw [ha.2 h1.1 h1.2, hb.2 h2.1 h2.2]
  · rw [if_pos h1, if_neg h2] at h
    split at h
    · simp at h
    · exact absurd h.symm FKind.text_nan
  · rw [if_neg h1, if_pos h2] at h
    split at h
    · simp at h
    · exact absurd h FKind.text_nan
  · rw [if_neg h1, if_neg h2] at h
    have hk : fneg a = fneg b ∧ fkind a = fkind b := by
      cases hna : fneg a <;> cases hnb : fneg b <;> simp only [hna, hnb, if_true, Bool.false_eq_true, if_false] at h
      · exact ⟨rfl, FKind.text_inj h⟩
      · exact absurd h FKind.text_minus
      · exact absurd h.symm FKind.text_minus
      · exact ⟨rfl, FKind.text_inj (List.cons.inj h).2⟩
    obtain ⟨h3, h4⟩ := fkind_inj h1 h2 hk.2
    rw [bits_eq ha.1, bits_eq hb.1, hk.1, h3, h4]

theorem showInt_word (z : Int) : Word (showInt z) := by
  cases z with
  | ofNat n => exact showNat_word n
  | negSucc n =>
    intro c hc
    rcases List.mem_cons.1 hc with rfl | h
    · rfl
    · exact showNat_word _ c h

theorem FKind.text_word (a : FKind) : Word a.text := by
  cases a with
  | zero => exact word_of rfl
  | inf => exact word_of rfl
  | fin m z => exact (showNat_word m).app (fun c hc => by
      rcases List.mem_cons.1 hc with rfl | h
      · rfl
      · exact showInt_word z c h)

theorem showFloat_word (b : Nat) : Word (showFloat b) := by
  rw [showFloat_kind]
  split
  · exact word_of rfl
  · split
    · intro c hc
      rcases List.mem_cons.1 hc with rfl | h
      · rfl
      · exact FKind.text_word _ c h
    · exact FKind.text_word _

theorem showPrim_line {T : Tables} (hT : Ok T) (p : PVal) : '\n' ∉ showPrim T p := by
  cases p with
  | int n => simp [showPrim, (showNat_word n).line]
  | float b => simp [showPrim, (showFloat_word b).line]
  | str s => simp [showPrim, hT.strs s]

theorem showPrim_inj {T T' : Tables} (hT : Ok T) (hl : Like T T') {p q : PVal} (hp : LitOk p) (hq : LitOk q) (h : showPrim T p = showPrim T' q) :
    p = q := by
  cases p <;> cases q <;> simp [showPrim] at h
  · rw [showNat_inj h]
  · exact congrArg _ (showFloat_inj hp hq h)
  · exact congrArg _ (hT.strInj _ _ hp hq (h.trans (congrFun hl.str _).symm))

end IR
