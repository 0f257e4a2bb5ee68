import Verif.CPrint.NameModel
import Verif.CPrint.Spec
import Mathlib.Data.List.Nodup

/-!
# C63: different identifiers have different names in the C file, and the names are C identifiers
-/

namespace CPrint

/-! ## Specification -/

/-- The names given by the compiler itself, but for that of the main function. -/
def ownNames : List (Nat × Name) :=
  [(82, "is_ptr".toList), (26, "args".toList), (28, "alloc".toList), (92, "nalloc".toList), (29, "limit".toList),
    (80, "garbage_collect".toList), (81, "main".toList), (31, "thread_info".toList), (91, "tinfo".toList),
    (95, "heap".toList), (83, "arg".toList), (97, "num_args".toList), (78, "stack_frame".toList), (79, "frame".toList),
    (86, "fp".toList), (87, "next".toList), (84, "root".toList), (89, "prev".toList),
    (93, "result".toList), (20, "make_tinfo".toList)]

/-- A name of the source program: letters, digits, `_`, `'` and `.`, not beginning with a digit, `'` or `.`. -/
def srcOk : Name → Bool
  | [] => false
  | c :: s => (c.isAlpha || c == '_') && s.all fun c => c.isAlpha || c == '_' || c.isDigit || c == '\'' || c == '.'

/-- A name ending in a number behind `_` or `x` (or a number). -/
def numbered (s : Name) : Bool :=
  let r := s.reverse
  !(r.takeWhile Char.isDigit).isEmpty &&
    ((r.dropWhile Char.isDigit).head? == none || (r.dropWhile Char.isDigit).head? == some '_' || r.dropWhile Char.isDigit == ['x'])

/-- The keywords of C, and the names of the header `values.h` and of gcc that the printer uses. -/
def cKeywords : List Name :=
  ["auto", "break", "case", "char", "const", "continue", "default", "do", "double", "else", "enum", "extern", "float", "for",
    "goto", "if", "inline", "int", "long", "register", "restrict", "return", "short", "signed", "sizeof", "static", "struct",
    "switch", "typedef", "union", "unsigned", "void", "volatile", "while", "_Alignas", "_Alignof", "_Atomic", "_Bool",
    "_Complex", "_Generic", "_Imaginary", "_Noreturn", "_Static_assert", "_Thread_local", "asm", "value",
    "__alignof__"].map String.toList

/-- A C identifier that is not a reserved word (and has no `$`). -/
def cIdent (s : Name) : Bool := varOk s && s.all (· != '$') && !cKeywords.contains s

/-- A name chosen by the user for the main function or a C function: an identifier, not a reserved word, not one of the compiler's
names, not ending in a number. -/
def userOk (s : Name) : Bool := cIdent s && !numbered s && !(ownNames.map (·.2)).contains s

/-- What is assumed of the names. -/
structure NamesOk (body : Name) (prims : List (Name × Nat)) (m : NEnv) : Prop where
  src : ∀ x s, m x = some (some s) → srcOk s = true
  main : userOk body = true
  prim : ∀ p ∈ prims, userOk p.1 = true ∧ p.1 ≠ body ∧ p.2 ∉ ownNames.map (·.1) ∧ p.2 ≠ 90
  names : (prims.map (·.1)).Nodup
  ids : (prims.map (·.2)).Nodup

/-! ## Proofs -/

theorem setAll_lookup : ∀ (l : List (Nat × Name)) (m : NEnv) (x : Nat),
    m.setAll l x = match l.reverse.lookup x with
      | some n => some (some n)
      | none => m x
  | [], m, x => rfl
  | p :: l, m, x => by
    have : m.setAll (p :: l) x = (m.set p.1 p.2).setAll l x := rfl
    rw [this, setAll_lookup l, List.reverse_cons, List.lookup_append]
    cases l.reverse.lookup x with
    | some n => rfl
    | none =>
      by_cases h : x = p.1
      · simp [NEnv.set, List.lookup, h]
      · have : (x == p.1) = false := by simpa using h
        simp [NEnv.set, List.lookup, h, this]

theorem mem_of_lookup : ∀ {l : List (Nat × Name)} {x n}, l.lookup x = some n → (x, n) ∈ l
  | (y, k) :: l, x, n, h => by
    rw [List.lookup] at h
    split at h
    · rename_i e
      have : x = y := by simpa using e
      cases h
      simp [this]
    · exact List.mem_cons_of_mem _ (mem_of_lookup h)

theorem lookup_none : ∀ {l : List (Nat × Name)} {x}, l.lookup x = none → ∀ n, (x, n) ∉ l
  | [], _, _, _ => by simp
  | (y, k) :: l, x, h, n => by
    rw [List.lookup] at h
    split at h
    · cases h
    · rename_i e
      have : x ≠ y := by simpa using e
      simp [this, lookup_none h n]

/-- Where a name comes from. -/
inductive From (body : Name) (prims : List (Name × Nat)) (m : NEnv) (x : Nat) : Option Name → Prop
  | own {s} : (x, s) ∈ ownNames → From body prims m x (some (removePrimes s))
  | body : x = 90 → From body prims m x (some (removePrimes body))
  | prim {s} : (s, x) ∈ prims → From body prims m x (some (removePrimes s))
  | source {s} : m x = some (some s) → From body prims m x (some (removePrimes (s ++ '_' :: Nat.toDigits 10 x)))
  | none : From body prims m x none

theorem infVars_lookup {body : Name} {x : Nat} {n : Name} (h : (infVars body).reverse.lookup x = some n) :
    (x, n) ∈ ownNames ∨ (x = 90 ∧ n = body) := by
  simp only [infVars, List.reverse_cons, List.reverse_nil, List.nil_append, List.cons_append, List.lookup] at h
  repeat' (split at h)
  all_goals first
    | (cases h; done)
    | (rename_i e; have e' := eq_of_beq e; subst e'; cases h; first | exact Or.inr ⟨rfl, rfl⟩ | (left; decide))
    | (exfalso; simp_all; done)

theorem table_from (body : Name) (prims : List (Name × Nat)) (m : NEnv) (x : Nat) :
    From body prims m x (finalTable body prims m x) := by
  have key : ∀ o, addPrimNames prims (compileNames body m) x = o → From body prims m x (match o with
      | some (some s) => some (removePrimes s)
      | _ => none) := by
    intro o ho
    rw [addPrimNames, setAll_lookup] at ho
    split at ho
    · rename_i n hn
      subst ho
      have := mem_of_lookup hn
      simp only [List.mem_reverse, List.mem_map, Prod.mk.injEq] at this
      obtain ⟨p, hp, rfl, rfl⟩ := this
      exact .prim hp
    · rw [compileNames, NEnv.set] at ho
      split at ho
      · rename_i hx
        subst ho
        exact .own (by rw [hx]; decide)
      · rw [setAll_lookup] at ho
        split at ho
        · rename_i n hn
          subst ho
          rcases infVars_lookup hn with h | ⟨h, rfl⟩
          · exact .own h
          · exact .body h
        · subst ho
          cases hm : m x with
          | none => simp [ensureUnique, hm]; exact .none
          | some n =>
            cases n with
            | none => simp [ensureUnique, hm]; exact .none
            | some s => simp [ensureUnique, hm]; exact .source hm
  exact key _ rfl

theorem digits_isDigit {x : Nat} {c : Char} (h : c ∈ Nat.toDigits 10 x) : c.isDigit = true :=
  Nat.isDigit_of_mem_toDigits (by omega) (by omega) h

theorem toDigits_ne (x : Nat) : Nat.toDigits 10 x ≠ [] := Nat.toDigits_ne_nil

/-- Behind a character that is no digit stands the number. -/
def Num (n : Name) (x : Nat) : Prop := ∃ a c, Char.isDigit c = false ∧ n = a ++ c :: Nat.toDigits 10 x

theorem num_take {n x} (h : Num n x) : n.reverse.takeWhile Char.isDigit = (Nat.toDigits 10 x).reverse := by
  obtain ⟨a, c, hc, rfl⟩ := h
  rw [List.reverse_append, List.reverse_cons, List.append_assoc, List.takeWhile_append_of_pos]
  · simp [List.takeWhile, hc]
  · intro d hd
    exact digits_isDigit (List.mem_reverse.1 hd)

theorem num_eq {n x y} (h : Num n x) (h' : Num n y) : x = y := by
  have := (num_take h).symm.trans (num_take h')
  have := List.reverse_inj.1 this
  rw [← Nat.ofDigitChars_ten_toDigits (n := x), this, Nat.ofDigitChars_ten_toDigits]

theorem numbered_take {s : Name} {a : Name} {x : Nat} (h : s = a ++ Nat.toDigits 10 x)
    (ha : a = [] ∨ a = ['x'] ∨ ∃ b, a = b ++ ['_']) : numbered s = true := by
  subst h
  have h1 : ∀ d ∈ (Nat.toDigits 10 x).reverse, Char.isDigit d = true := fun d hd => digits_isDigit (List.mem_reverse.1 hd)
  have h2 : (Nat.toDigits 10 x).reverse ≠ [] := by simp [toDigits_ne]
  unfold numbered
  dsimp only
  rw [List.reverse_append, List.takeWhile_append_of_pos h1, List.dropWhile_append_of_pos h1]
  have h3 : (((Nat.toDigits 10 x).reverse ++ List.takeWhile Char.isDigit a.reverse).isEmpty) = false := by
    cases h : (Nat.toDigits 10 x).reverse with
    | nil => exact absurd h h2
    | cons => rfl
  simp only [h3]
  rcases ha with rfl | rfl | ⟨b, rfl⟩
  · simp
  · simp [List.dropWhile]
  · simp [List.dropWhile]

theorem removePrimes_append (a b : Name) : removePrimes (a ++ b) = removePrimes a ++ removePrimes b := by simp [removePrimes]

theorem removePrimes_id : ∀ {s : Name}, (∀ c ∈ s, c ≠ '\'' ∧ c ≠ '.') → removePrimes s = s
  | [], _ => rfl
  | c :: s, h => by
    have h0 := h c (by simp)
    have ih := removePrimes_id (s := s) fun d hd => h d (by simp [hd])
    simp only [removePrimes, List.map_cons, List.map_map] at ih ⊢
    rw [ih]
    simp [h0.1, h0.2]

theorem removePrimes_numbered (s : Name) (x : Nat) :
    removePrimes (s ++ '_' :: Nat.toDigits 10 x) = removePrimes s ++ '_' :: Nat.toDigits 10 x := by
  rw [removePrimes_append, removePrimes_id (s := '_' :: _)]
  intro c hc
  rcases List.mem_cons.1 hc with rfl | hc
  · decide
  · have := digits_isDigit hc
    constructor <;> (rintro rfl; revert this; decide)

theorem cIdent_chars {s : Name} (h : cIdent s = true) : ∀ c ∈ s, identChar c = true := by
  simp only [cIdent, varOk, Bool.and_eq_true] at h
  obtain ⟨⟨⟨h, _⟩, _⟩, _⟩ := h
  cases s with
  | nil => simp
  | cons d s =>
    simp only [nameOk, Bool.and_eq_true] at h
    intro c hc
    rcases List.mem_cons.1 hc with rfl | hc
    · exact by simp [identChar, h.1.1]
    · exact List.all_eq_true.1 h.1.2 c hc

theorem cIdent_removePrimes {s : Name} (h : cIdent s = true) : removePrimes s = s := by
  apply removePrimes_id
  intro c hc
  have := cIdent_chars h c hc
  constructor <;> (rintro rfl; revert this; decide)

theorem ownNames_ok : ∀ p ∈ ownNames, cIdent p.2 = true ∧ numbered p.2 = false := by decide +kernel

theorem ownNames_nodup : ∀ p ∈ ownNames, ∀ q ∈ ownNames, p.2 = q.2 → p.1 = q.1 := by decide +kernel

/-- The names that are not made by numbering. -/
inductive Special (body : Name) (prims : List (Name × Nat)) (x : Nat) : Name → Prop
  | own {s} : (x, s) ∈ ownNames → Special body prims x s
  | body : x = 90 → Special body prims x body
  | prim {s} : (s, x) ∈ prims → Special body prims x s

theorem userOk_ident {s : Name} (h : userOk s = true) : cIdent s = true ∧ numbered s = false := by
  simp only [userOk, Bool.and_eq_true, Bool.not_eq_true'] at h
  exact h.1

theorem special_ok {body prims m x s} (ok : NamesOk body prims m) (h : Special body prims x s) :
    cIdent s = true ∧ numbered s = false := by
  cases h with
  | own h => exact ownNames_ok _ h
  | body h => exact userOk_ident ok.main
  | prim h => exact userOk_ident (ok.prim _ h).1

theorem special_inj {body prims m x y s} (ok : NamesOk body prims m) (h : Special body prims x s) (h' : Special body prims y s) :
    x = y := by
  have nt : ∀ {s}, userOk s = true → ∀ z, (z, s) ∉ ownNames := by
    intro s hs z hz
    simp only [userOk, Bool.and_eq_true, Bool.not_eq_true', List.contains_eq_mem, decide_eq_false_iff_not] at hs
    exact hs.2 (List.mem_map.2 ⟨_, hz, rfl⟩)
  cases h with
  | own h =>
    cases h' with
    | own h' => exact ownNames_nodup _ h _ h' rfl
    | body => exact absurd h (nt ok.main _)
    | prim h' => exact absurd h (nt (ok.prim _ h').1 _)
  | body h =>
    cases h' with
    | own h' => exact absurd h' (nt ok.main _)
    | body h' => rw [h, h']
    | prim h' => exact absurd rfl (ok.prim _ h').2.1
  | prim h =>
    cases h' with
    | own h' => exact absurd h' (nt (ok.prim _ h).1 _)
    | body h' => exact absurd rfl (ok.prim _ h).2.1
    | prim h' =>
      have := (List.inj_on_of_nodup_map ok.names) h h' rfl
      exact congrArg Prod.snd this

theorem table_cases {body prims m} (ok : NamesOk body prims m) (x : Nat) :
    (∃ s, finalTable body prims m x = some s ∧ Special body prims x s) ∨
    (∃ s, m x = some (some s) ∧ finalTable body prims m x = some (removePrimes s ++ '_' :: Nat.toDigits 10 x)) ∨
    finalTable body prims m x = none := by
  have h := table_from body prims m x
  generalize finalTable body prims m x = o at h
  cases h with
  | own h => exact .inl ⟨_, by rw [cIdent_removePrimes (ownNames_ok _ h).1], .own h⟩
  | body h => exact .inl ⟨_, by rw [cIdent_removePrimes (userOk_ident ok.main).1], .body h⟩
  | prim h => exact .inl ⟨_, by rw [cIdent_removePrimes (userOk_ident (ok.prim _ h).1).1], .prim h⟩
  | source h => exact .inr (.inl ⟨_, h, by rw [removePrimes_numbered]⟩)
  | none => exact .inr (.inr rfl)

theorem extern_cases {body prims m} (ok : NamesOk body prims m) (x : Nat) :
    Special body prims x (externAtom (finalTable body prims m) x) ∨
    (Num (externAtom (finalTable body prims m) x) x ∧ numbered (externAtom (finalTable body prims m) x) = true) := by
  unfold externAtom
  rcases table_cases ok x with ⟨s, h, hs⟩ | ⟨s, _, h⟩ | h
  · rw [h]
    exact .inl hs
  · rw [h]
    exact .inr ⟨⟨_, '_', by decide, rfl⟩, numbered_take (a := removePrimes s ++ ['_']) (x := x) (by simp) (.inr (.inr ⟨_, rfl⟩))⟩
  · rw [h]
    exact .inr ⟨⟨[], 'x', by decide, rfl⟩, numbered_take (a := ['x']) rfl (.inr (.inl rfl))⟩

theorem temp_cases {body prims m} (ok : NamesOk body prims m) (x : Nat) :
    ∃ s, tempAtom (finalTable body prims m) x = '$' :: s ∧
      (Special body prims x s ∨ (Num ('$' :: s) x ∧ numbered s = true)) := by
  unfold tempAtom
  rcases table_cases ok x with ⟨s, h, hs⟩ | ⟨s, _, h⟩ | h
  · rw [h]
    exact ⟨_, rfl, .inl hs⟩
  · rw [h]
    exact ⟨_, rfl, .inr ⟨⟨'$' :: removePrimes s, '_', by decide, rfl⟩,
      numbered_take (a := removePrimes s ++ ['_']) (x := x) (by simp) (.inr (.inr ⟨_, rfl⟩))⟩⟩
  · rw [h]
    exact ⟨_, rfl, .inr ⟨⟨[], '$', by decide, rfl⟩, numbered_take (a := []) rfl (.inl rfl)⟩⟩

/-- **C63, functions and variables.** Two identifiers with the same name in the C file are the same identifier: the program's
functions, the main function, the compiler's own names and the C functions are all told apart. -/
theorem C63_extern_distinct {body prims m} (ok : NamesOk body prims m) {x y : Nat}
    (h : externAtom (finalTable body prims m) x = externAtom (finalTable body prims m) y) : x = y := by
  rcases extern_cases ok x with hx | ⟨hx, nx⟩ <;> rcases extern_cases ok y with hy | ⟨hy, ny⟩
  · rw [h] at hx
    exact special_inj ok hx hy
  · rw [← h, (special_ok ok hx).2] at ny
    cases ny
  · rw [h, (special_ok ok hy).2] at nx
    cases nx
  · rw [h] at hx
    exact num_eq hx hy

/-- **C63, temporaries.** Two temporaries with the same name are the same. -/
theorem C63_temporary_distinct {body prims m} (ok : NamesOk body prims m) {x y : Nat}
    (h : tempAtom (finalTable body prims m) x = tempAtom (finalTable body prims m) y) : x = y := by
  obtain ⟨s, ex, hx⟩ := temp_cases ok x
  obtain ⟨s', ey, hy⟩ := temp_cases ok y
  rw [ex, ey] at h
  obtain rfl : s = s' := by simpa using h
  rcases hx with hx | ⟨hx, nx⟩ <;> rcases hy with hy | ⟨hy, ny⟩
  · exact special_inj ok hx hy
  · rw [(special_ok ok hx).2] at ny
    cases ny
  · rw [(special_ok ok hy).2] at nx
    cases nx
  · exact num_eq hx hy

theorem digits_ident {x : Nat} {c : Char} (h : c ∈ Nat.toDigits 10 x) : identChar c = true ∧ c ≠ '$' := by
  have := digits_isDigit h
  exact ⟨by simp [identChar, this], by rintro rfl; revert this; decide⟩

/-- A word that ends in a digit is not reserved. -/
theorem not_reserved {s : Name} {x : Nat} (h : Num s x) : (kwTable.lookup s).isNone = true ∧ cKeywords.contains s = false := by
  have hd : (s.reverse.takeWhile Char.isDigit).isEmpty = false := by
    rw [num_take h]
    cases e : (Nat.toDigits 10 x).reverse with
    | nil => exact absurd e (by simp [toDigits_ne])
    | cons => rfl
  constructor
  · cases e : kwTable.lookup s with
    | none => rfl
    | some k =>
      have : ∀ p ∈ kwTable, (p.1.reverse.takeWhile Char.isDigit).isEmpty = true := by decide +kernel
      have hm : ∃ p ∈ kwTable, p.1 = s := by
        clear hd h this
        generalize kwTable = l at e
        induction l with
        | nil => cases e
        | cons p l ih =>
          rw [List.lookup] at e
          split at e
          · rename_i h
            exact ⟨p, by simp, (eq_of_beq h).symm⟩
          · obtain ⟨q, hq, rfl⟩ := ih e
            exact ⟨q, by simp [hq], rfl⟩
      obtain ⟨p, hp, rfl⟩ := hm
      rw [this p hp] at hd
      cases hd
  · have : ∀ p ∈ cKeywords, (p.reverse.takeWhile Char.isDigit).isEmpty = true := by decide +kernel
    cases hc : cKeywords.contains s with
    | false => rfl
    | true =>
      rw [this s (by simpa using hc)] at hd
      cases hd

theorem removePrimes_char {s : Name} (h : ∀ c ∈ s, Char.isAlpha c = true ∨ c = '_' ∨ c.isDigit = true ∨ c = '\'' ∨ c = '.') :
    ∀ c ∈ removePrimes s, identChar c = true ∧ c ≠ '$' := by
  intro c hc
  simp only [removePrimes, List.map_map, List.mem_map, Function.comp] at hc
  obtain ⟨d, hd, rfl⟩ := hc
  by_cases h1 : d = '\''
  · subst h1; decide
  · by_cases h2 : d = '.'
    · subst h2; decide
    · simp only [h1, h2, if_false]
      rcases h d hd with h | h | h | h | h
      · exact ⟨by simp [identChar, identStart, h], by rintro rfl; revert h; decide⟩
      · subst h; decide
      · exact ⟨by simp [identChar, h], by rintro rfl; revert h; decide⟩
      · exact absurd h h1
      · exact absurd h h2

theorem numbered_ident {s : Name} {x : Nat} (h : srcOk s = true) : cIdent (removePrimes s ++ '_' :: Nat.toDigits 10 x) = true := by
  have hn : Num (removePrimes s ++ '_' :: Nat.toDigits 10 x) x := ⟨_, '_', by decide, rfl⟩
  obtain ⟨k1, k2⟩ := not_reserved hn
  cases s with
  | nil => cases h
  | cons c s =>
    simp only [srcOk, Bool.and_eq_true, Bool.or_eq_true, beq_iff_eq, List.all_eq_true] at h
    have hs := removePrimes_char (s := s) (by
      intro d hd
      rcases h.2 d hd with (((h | h) | h) | h) | h <;> simp [h])
    have hc : removePrimes (c :: s) = c :: removePrimes s := by
      have : removePrimes [c] = [c] := removePrimes_id (by
        intro d hd
        obtain rfl : d = c := by simpa using hd
        rcases h.1 with h | h
        · constructor <;> (rintro rfl; revert h; decide)
        · subst h; decide)
      rw [show c :: s = [c] ++ s from rfl, removePrimes_append, this]
      rfl
    have hall : ∀ d ∈ removePrimes s ++ '_' :: Nat.toDigits 10 x, identChar d = true ∧ d ≠ '$' := by
      intro d hd
      rcases List.mem_append.1 hd with hd | hd
      · exact hs d hd
      · rcases List.mem_cons.1 hd with rfl | hd
        · decide
        · exact digits_ident hd
    rw [hc] at k1 k2 ⊢
    rw [List.cons_append] at k1 k2 ⊢
    have h0 : identStart c = true ∧ c ≠ '$' := by
      rcases h.1 with h | h
      · exact ⟨by simp [identStart, h], by rintro rfl; revert h; decide⟩
      · subst h; decide
    simp only [cIdent, varOk, nameOk, Bool.and_eq_true, k1, k2, h0.1, Bool.not_false, and_true, true_and, List.all_eq_true,
      List.head?_cons, bne_iff_ne, ne_eq, Option.some.injEq, List.mem_cons, forall_eq_or_imp]
    exact ⟨⟨fun d hd => (hall d hd).1, h0.2⟩, h0.2, fun d hd => (hall d hd).2⟩

theorem anon_ident (x : Nat) : cIdent ('x' :: Nat.toDigits 10 x) = true := by
  have hn : Num ('x' :: Nat.toDigits 10 x) x := ⟨[], 'x', by decide, rfl⟩
  obtain ⟨k1, k2⟩ := not_reserved hn
  have h0 : identStart 'x' = true ∧ 'x' ≠ '$' := by decide
  simp only [cIdent, varOk, nameOk, Bool.and_eq_true, k1, k2, h0.1, Bool.not_false, and_true, true_and, List.all_eq_true,
    List.head?_cons, bne_iff_ne, ne_eq, Option.some.injEq, List.mem_cons, forall_eq_or_imp]
  exact ⟨⟨fun d hd => (digits_ident hd).1, h0.2⟩, h0.2, fun d hd => (digits_ident hd).2⟩

/-- **C63, identifiers.** Every name of a function or variable is a C identifier, not a reserved word. -/
theorem C63_extern_identifier {body prims m} (ok : NamesOk body prims m) (x : Nat) :
    cIdent (externAtom (finalTable body prims m) x) = true := by
  unfold externAtom
  rcases table_cases ok x with ⟨s, h, hs⟩ | ⟨s, hm, h⟩ | h
  · rw [h]
    exact (special_ok ok hs).1
  · rw [h]
    exact numbered_ident (ok.src _ _ hm)
  · rw [h]
    exact anon_ident x

/-- **C63, temporaries are identifiers** (of the dialect with `$`), and no function or variable has such a name. -/
theorem C63_temporary_identifier {body prims m} (ok : NamesOk body prims m) (x y : Nat) :
    nameOk (tempAtom (finalTable body prims m) x) = true ∧
    tempAtom (finalTable body prims m) x ≠ externAtom (finalTable body prims m) y := by
  have kw : ∀ s : Name, (kwTable.lookup ('$' :: s)).isNone = true := by
    intro s
    simp [kwTable, List.lookup, List.cons_beq_cons, show ("void".toList) = ['v','o','i','d'] from rfl]
  constructor
  · have hs : ∀ c ∈ (finalTable body prims m x).getD (Nat.toDigits 10 x), identChar c = true := by
      rcases table_cases ok x with ⟨s, h, hs⟩ | ⟨s, hm, h⟩ | h
      · rw [h]
        exact cIdent_chars (special_ok ok hs).1
      · rw [h]
        exact cIdent_chars (numbered_ident (ok.src _ _ hm))
      · rw [h]
        exact fun c hc => (digits_ident hc).1
    simp only [tempAtom, nameOk, kw, Bool.and_eq_true, List.all_eq_true, and_true]
    exact ⟨by decide, hs⟩
  · intro h
    have := C63_extern_identifier ok y
    rw [← h] at this
    simp [cIdent, tempAtom] at this

/-- **C63, tables of functions.** The names given to the tables of the functions keep to the rule for names of the source program,
if the functions have an entry (with or without a name). -/
theorem C63_info {m : NEnv} {f inf : Nat} (hf : m f ≠ none) (hm : ∀ x s, m x = some (some s) → srcOk s = true) :
    ∀ x s, m.addInfo f inf x = some (some s) → srcOk s = true := by
  have dig : ∀ c ∈ Nat.toDigits 10 f, c.isAlpha = true ∨ c = '_' ∨ c.isDigit = true ∨ c = '\'' ∨ c = '.' :=
    fun c hc => .inr (.inr (.inl (digits_isDigit hc)))
  have suf : "_info".toList.all (fun c => c.isAlpha || c == '_' || c.isDigit || c == '\'' || c == '.') = true := by decide
  intro x s h
  unfold NEnv.addInfo at h
  cases e : m f with
  | none => exact absurd e hf
  | some o =>
    rw [e] at h
    cases o with
    | none =>
      simp only [NEnv.set] at h
      split at h
      · simp only [Option.some.injEq] at h
        subst h
        rw [List.cons_append, srcOk, List.all_append, suf]
        simp only [Bool.and_true, Bool.and_eq_true, List.all_eq_true, Bool.or_eq_true, beq_iff_eq]
        refine ⟨by decide, fun c hc => ?_⟩
        simp [digits_isDigit hc]
      · exact hm _ _ h
    | some t =>
      simp only [NEnv.set] at h
      split at h
      · simp only [Option.some.injEq] at h
        subst h
        have := hm _ _ e
        cases t with
        | nil => cases this
        | cons c t =>
          rw [List.cons_append, srcOk, List.all_append, suf, Bool.and_true]
          exact this
      · exact hm _ _ h

/-- The names of a small program: `Nat.add'` (101), a function without a name (102), their tables (103, 104) and a primitive. -/
def someNames0 : NEnv := fun x => if x = 101 then some (some "Nat.add'".toList) else if x = 102 then some none else none

@[inherit_doc someNames0]
def someNames : NEnv := (someNames0.addInfo 101 103).addInfo 102 104

/-- The name of one function. -/
def oneName (s : String) : NEnv := fun x => if x = 101 then some (some s.toList) else none

/-- No names. -/
def noNames : NEnv := fun _ => none

theorem someNames_ok : NamesOk "body".toList [("prim_int63_add".toList, 200), ("prim_int63_sub".toList, 201)] someNames where
  src := by
    refine C63_info (m := someNames0.addInfo 101 103) (by simp [NEnv.addInfo, NEnv.set, someNames0])
      (C63_info (m := someNames0) (by simp [someNames0]) ?_)
    intro x s h
    simp only [someNames0] at h
    split at h
    · simp only [Option.some.injEq] at h
      subst h
      decide
    · split at h <;> simp at h
  main := by decide +kernel
  prim := by decide +kernel
  names := by decide +kernel
  ids := by decide +kernel

/-- The hypotheses are met, and the names are these. -/
example :
    let t := finalTable "body".toList [("prim_int63_add".toList, 200), ("prim_int63_sub".toList, 201)] someNames
    externAtom t 101 = "Natdaddp_101".toList ∧ tempAtom t 101 = "$Natdaddp_101".toList ∧ externAtom t 102 = "x102".toList ∧
      externAtom t 103 = "Natdaddp_info_103".toList ∧
      externAtom t 104 = "x102_info_104".toList ∧ externAtom t 200 = "prim_int63_add".toList ∧
      externAtom t 90 = "body".toList ∧ externAtom t 84 = "root".toList ∧ tempAtom t 777 = "$777".toList := by
  decide +kernel

/-- **C63 fails** for a main function (`-toplevel_name`) or C function whose name ends in a number: it can be the name of a function of
the program. -/
theorem C63_number_refuted :
    (let t := finalTable "add_101".toList [] (oneName "add"); externAtom t 90 = externAtom t 101) ∧
    (let t := finalTable "body".toList [("add_101".toList, 200)] (oneName "add"); externAtom t 200 = externAtom t 101) ∧
    (let t := finalTable "body".toList [("x102".toList, 200)] noNames; externAtom t 200 = externAtom t 102) := by
  decide +kernel

/-- **C63 fails** for a C function with a name of the compiler. -/
theorem C63_ownName_refuted :
    let t := finalTable "body".toList [("garbage_collect".toList, 200)] noNames
    externAtom t 200 = externAtom t 80 := by
  decide +kernel

/-- **C63 fails** for the table of a function that has no entry: its name begins with a digit. -/
theorem C63_infoDigit_refuted :
    let t := finalTable "body".toList [] (noNames.addInfo 101 102)
    externAtom t 102 = "101_info_102".toList ∧ nameOk (externAtom t 102) = false := by
  decide +kernel

/-- **C63 fails** for source names with other letters, which Rocq accepts. -/
theorem C63_unicode_refuted :
    let t := finalTable "body".toList [] (oneName "α")
    nameOk (externAtom t 101) = false := by
  decide +kernel

/-- **C63, later programs of a session.** Whatever was compiled before, the identifiers with a name have the names they would have had
in a new process. -/
theorem C63_session_partial {t : Nat → Option Name} {body : Name} {prims : List (Name × Nat)} {m : NEnv} {x : Nat} {s : Name}
    (h : finalTable body prims m x = some s) : sessionTable t body prims m x = some s := by
  unfold finalTable atomTable at h
  unfold sessionTable atomTableAfter
  split at h
  · exact h
  · cases h

example : finalTable "body".toList [] someNames 101 = some "Natdaddp_101".toList := by decide +kernel

/-- **C63 fails in a session**: identifiers without a name in this program are printed with names of earlier programs. After two
programs that use the same C function, two temporaries of the third have the same name; after one program, a function without a name
has the name of the C function. -/
theorem C63_session_refuted :
    let t1 := finalTable "body".toList [("int63_add".toList, 200)] noNames
    let t2 := sessionTable t1 "body".toList [("int63_add".toList, 201)] noNames
    let t3 := sessionTable t2 "body".toList [] noNames
    tempAtom t3 200 = tempAtom t3 201 ∧ externAtom t2 200 = externAtom t2 201 := by
  decide +kernel

end CPrint
