import Verif.CPrint.ExprLemmas

/-!
# Printed statements and functions are read back: lemmas on tokens
-/

namespace CPrint

theorem parseE_ty : ∀ n l ts, tyStart ts = true → parseE n l ts = none
  | 0, _, _, _ => rfl
  | n + 1, l, ts, h => by
    unfold parseE
    by_cases h1 : l < 14
    · simp [h1, parseE_ty n (l + 1) ts h]
    · by_cases h2 : l = 14
      · subst h2
        simp only [Nat.lt_irrefl, if_false, if_true]
        split
        · simp [tyStart] at h
        · exact parseE_ty n 15 _ h
      · by_cases h3 : l = 15
        · subst h3
          simp only [Nat.reduceLT, Nat.reduceEqDiff, if_false, if_true]
          split <;> first | exact parseE_ty n 16 _ h | simp [tyStart] at h
        · simp only [h1, h2, h3, if_false]
          split <;> first | rfl | simp [tyStart] at h

theorem expr_16 {e : CE} {p : Nat} (h : e.prec < p ↔ e.prec < 16) : expr p e = expr 16 e := by
  cases e <;> simp only [expr, CE.prec] at * <;> simp only [h]

/-- What may follow without making a call. -/
def NoCall (rest : List Tok) : Prop := NotCont 16 rest = true ∧ ∀ r, rest ≠ .p .lpar :: r

theorem notCall_16 {T e rest} (h : Good 16 T e) (hr : NoCall rest) :
    Ev fun n => ∀ f r, parseE n 16 (T ++ rest) ≠ some (f, .p .lpar :: r) := by
  refine (h.follow hr.1).imp fun n hn f r => ?_
  rw [hn]
  intro he
  simp only [Option.some.injEq, Prod.mk.injEq] at he
  exact hr.2 r he.2

theorem notCall_none {ts : List Tok} (h : ∀ n, parseE (n + 1) 16 ts = none) :
    Ev fun n => ∀ f r, parseE n 16 ts ≠ some (f, .p .lpar :: r) :=
  Ev.zero fun n f r => by rw [h]; simp

theorem noCall_op (o : BinOp) (r : List Tok) : NoCall (.p o.pn :: r) := by
  constructor
  · cases o <;> simp [NotCont, BinOp.pn, binOf, level]
  · cases o <;> simp [BinOp.pn]

/-- An expression is not read as a call. -/
theorem notCall : ∀ (e : CE) (p : Nat), e.ok = true → p ≤ 16 → (p = 16 → e.isConst = false) → ∀ rest, NoCall rest →
    Ev fun n => ∀ f r, parseE n 16 (toks (expr p e) ++ rest) ≠ some (f, .p .lpar :: r) := by
  intro e
  induction e with
  | var x =>
    intro p h hp _ rest hr
    rw [expr_16 (by simp [CE.prec]; omega)]
    exact notCall_16 (printed _ h 16 (by omega) (fun _ => rfl)).2.1 hr
  | temp x =>
    intro p h hp _ rest hr
    rw [expr_16 (by simp [CE.prec]; omega)]
    exact notCall_16 (printed _ h 16 (by omega) (fun _ => rfl)).2.1 hr
  | field e f _ =>
    intro p h hp _ rest hr
    rw [expr_16 (by simp [CE.prec]; omega)]
    exact notCall_16 (printed _ h 16 (by omega) (fun _ => rfl)).2.1 hr
  | deref e _ =>
    intro p h hp _ rest hr
    by_cases hq : 15 < p
    · rw [expr_16 (by simp [CE.prec]; omega)]
      exact notCall_16 (printed _ h 16 (by omega) (fun _ => rfl)).2.1 hr
    · exact notCall_none fun n => by simp [expr, paren, hq, parseE]
  | unop o e _ =>
    intro p h hp _ rest hr
    by_cases hq : 15 < p
    · rw [expr_16 (by simp [CE.prec]; omega)]
      exact notCall_16 (printed _ h 16 (by omega) (fun _ => rfl)).2.1 hr
    · exact notCall_none fun n => by cases o <;> simp [expr, paren, hq, parseE, UnOp.pn]
  | addrof e _ =>
    intro p h hp _ rest hr
    by_cases hq : 15 < p
    · rw [expr_16 (by simp [CE.prec]; omega)]
      exact notCall_16 (printed _ h 16 (by omega) (fun _ => rfl)).2.1 hr
    · exact notCall_none fun n => by simp [expr, paren, hq, parseE]
  | sizeof t =>
    intro p h hp _ rest hr
    by_cases hq : 15 < p
    · rw [expr_16 (by simp [CE.prec]; omega)]
      exact notCall_16 (printed _ h 16 (by omega) (fun _ => rfl)).2.1 hr
    · exact notCall_none fun n => by simp [expr, paren, hq, parseE]
  | alignof t =>
    intro p h hp _ rest hr
    by_cases hq : 15 < p
    · rw [expr_16 (by simp [CE.prec]; omega)]
      exact notCall_16 (printed _ h 16 (by omega) (fun _ => rfl)).2.1 hr
    · exact notCall_none fun n => by simp [expr, paren, hq, parseE]
  | cast e t _ =>
    intro p h hp _ rest hr
    by_cases hq : 14 < p
    · rw [expr_16 (by simp [CE.prec]; omega)]
      exact notCall_16 (printed _ h 16 (by omega) (fun _ => rfl)).2.1 hr
    · refine notCall_none fun n => ?_
      have := parseE_ty n 6 _ (cdecl_tyStart t [] (.p .rpar :: (toks (expr 14 e) ++ rest)))
      simp [expr, paren, hq, parseE, nameType, this]
  | binop o a b iha _ =>
    intro p h hp _ rest hr
    have h13 := level_le o
    rw [level_prec] at h13
    by_cases hq : o.prec < p
    · rw [expr_16 (by simp [CE.prec]; omega)]
      exact notCall_16 (printed _ h 16 (by omega) (fun _ => rfl)).2.1 hr
    · simp [CE.ok] at h
      have := iha o.prec h.1 (by omega) (by omega) (.p o.pn :: (toks (expr (o.prec + 1) b) ++ rest)) (noCall_op o _)
      simpa [expr, paren, hq] using this
  | cint n u =>
    intro p h hp hc rest hr
    have hp' : ¬ 16 < p := by omega
    cases u with
    | true =>
      have hg := good_num (k := n) (s := .u) (e := .cint n true) (by simp [CE.ok] at h; simp [litOf, h])
      simpa [expr, paren, hp'] using notCall_16 hg hr
    | false =>
      by_cases hn : n < 2 ^ 31
      · have hg := good_num (k := n) (s := .none) (e := .cint n false) (by simp at hn; simp [litOf, hn])
        simp only [expr, paren, hp', signedNum, hn, decide_false, Bool.false_eq_true, if_false, if_true]
        exact notCall_16 hg hr
      · refine notCall_none fun m => ?_
        simp only [expr, paren, hp', signedNum, hn, decide_false, Bool.false_eq_true, if_false]
        simp [parseE]
  | clong n u =>
    intro p h hp hc rest hr
    have hp' : ¬ 16 < p := by omega
    cases u with
    | true =>
      have hg := good_num (k := n) (s := .llu) (e := .clong n true) (by simp [CE.ok] at h; simp [litOf, h])
      simpa [expr, paren, hp'] using notCall_16 hg hr
    | false =>
      by_cases hn : n < 2 ^ 63
      · have hg := good_num (k := n) (s := .ll) (e := .clong n false) (by simp at hn; simp [litOf, hn])
        simp only [expr, paren, hp', signedNum, hn, decide_false, Bool.false_eq_true, if_false, if_true]
        exact notCall_16 hg hr
      · refine notCall_none fun m => ?_
        simp only [expr, paren, hp', signedNum, hn, decide_false, Bool.false_eq_true, if_false]
        simp [parseE]

theorem printed0 {e : CE} (h : e.ok = true) {p} (hp : p ≤ 6) {rest} (hr : NotCont 6 rest = true) :
    Ev fun n => parseE n 6 (toks (expr p e) ++ rest) = some (canon e, rest) := by
  have := (printed e h p (by omega) (by omega)).2.1
  rw [Nat.max_eq_right hp] at this
  exact this.follow hr

/-- Arguments are read back. -/
theorem exprList_ok1 : ∀ (es : List CE) (e : CE), e.ok = true → es.all CE.ok = true → ∀ rest,
    Ev fun n => parseArgs1 n (toks (expr 2 e) ++ (toks (exprList false es) ++ .p .rpar :: rest)) =
      some ((e :: es).map canon, rest)
  | [], e, he, _, rest => by
    refine (printed0 he (p := 2) (by omega) (rest := .p .rpar :: rest) rfl).one fun n hn => ?_
    simp [exprList, parseArgs1, hn]
  | x :: es, e, he, h, rest => by
    simp only [List.all_cons, Bool.and_eq_true] at h
    refine (printed0 he (p := 2) (by omega) (rest := .p .comma :: (toks (expr 2 x) ++ (toks (exprList false es) ++ .p .rpar ::
      rest))) rfl).two (exprList_ok1 es x h.1 h.2 rest) fun n a b => ?_
    simp [exprList, parseArgs1, a, b]

theorem parseArgs_eh {ts : List Tok} (h : EH ts) (n) : parseArgs n ts = parseArgs1 n ts := by
  obtain ⟨t, r, rfl, ht⟩ := h
  unfold parseArgs
  split
  · rename_i heq
    simp only [List.cons.injEq] at heq
    simp [heq.1, exprHead] at ht
  · rfl

theorem exprList_ok (es : List CE) (h : es.all CE.ok = true) (rest : List Tok) :
    Ev fun n => parseArgs n (toks (exprList true es) ++ .p .rpar :: rest) = some (es.map canon, rest) := by
  cases es with
  | nil => exact Ev.zero fun n => by simp [exprList, parseArgs]
  | cons e es =>
    simp only [List.all_cons, Bool.and_eq_true] at h
    refine (exprList_ok1 es e h.1 h.2 rest).imp fun n hn => ?_
    have he := (printed e h.1 2 (by omega) (by omega)).1.append (toks (exprList false es) ++ .p .rpar :: rest)
    simp only [exprList, if_true, List.nil_append, toks_append, List.append_assoc]
    rw [parseArgs_eh he, hn]

theorem callee_ok {f : CE} (h : f.ok = true) (hc : f.calleeOk = true) (r : List Tok) :
    Ev fun n => parseE n 16 (toks (expr 15 f) ++ .p .lpar :: r) = some (canon f, .p .lpar :: r) := by
  have h1 : expr 15 f = expr 16 f := by
    refine expr_16 ?_
    cases f with
    | binop o a b =>
      have h13 := level_le o
      rw [level_prec] at h13
      simp [CE.prec]; omega
    | _ => simp_all [CE.calleeOk, CE.prec]
  have h2 : f.isConst = false := by cases f <;> simp_all [CE.calleeOk, CE.isConst]
  rw [h1]
  exact (printed f h 16 (by omega) (fun _ => h2)).2.1.follow (by simp [NotCont, binOf])

theorem callPieces_ok {f : CE} {args : List CE} (h : f.ok = true) (hc : f.calleeOk = true) (ha : args.all CE.ok = true)
    (rest : List Tok) : ∃ r, toks (callPieces f args) ++ rest = toks (expr 15 f) ++ .p .lpar :: r ∧
      Ev fun n => parseE n 16 (toks (callPieces f args) ++ rest) = some (canon f, .p .lpar :: r) ∧
        parseArgs n r = some (args.map canon, .p .semi :: rest) := by
  refine ⟨toks (exprList true args) ++ .p .rpar :: .p .semi :: rest, by simp [callPieces], ?_⟩
  have h1 := callee_ok h hc (toks (exprList true args) ++ .p .rpar :: .p .semi :: rest)
  have h2 := exprList_ok args ha (.p .semi :: rest)
  exact (h1.and h2).imp fun n hn => ⟨by simpa [callPieces] using hn.1, hn.2⟩

theorem parseS_simple {ts : List Tok} (h : EH ts) (n) : parseS (n + 1) ts = parseSimple n ts := by
  obtain ⟨t, r, rfl, ht⟩ := h
  cases t with
  | kw k => cases k <;> simp_all [parseS, exprHead]
  | p q => cases q <;> simp_all [parseS, exprHead]
  | _ => simp [parseS]

/-- Reading an assignment. -/
theorem assign_ok {T : List Tok} {a b : CE} (hT : EH T) (h16 : Ev fun n => ∀ f r', parseE n 16 (T ++ .p .assign ::
      (toks (expr 0 b) ++ .p .semi :: rest)) ≠ some (f, .p .lpar :: r'))
    (h15 : Ev fun n => parseE n 15 (T ++ .p .assign :: (toks (expr 0 b) ++ .p .semi :: rest)) =
      some (a, .p .assign :: (toks (expr 0 b) ++ .p .semi :: rest))) (hb : b.ok = true) :
    Ev fun n => parseS n (T ++ .p .assign :: (toks (expr 0 b) ++ .p .semi :: rest)) = some (mkAssign a (canon b), rest) := by
  have hc := notCall b 0 hb (by omega) (by omega) (.p .semi :: rest) ⟨rfl, by simp⟩
  have hp := printed0 hb (p := 0) (by omega) (rest := .p .semi :: rest) rfl
  refine ((h16.and h15).and (hc.and hp)).one fun n ⟨⟨x, y⟩, z, w⟩ => ?_
  rw [parseS_simple (hT.append _)]
  unfold parseSimple
  split
  · rename_i heq
    exact absurd heq (x _ _)
  · simp only [y, w]

/-- The tokens of a statement. -/
def sHead : Tok → Bool
  | .p .semi => true
  | .kw .brk => true
  | .kw .ret => true
  | .kw .if_ => true
  | .kw .switch => true
  | t => exprHead t

/-- Begins like a statement. -/
def SH (T : List Tok) : Prop := ∃ t r, T = t :: r ∧ sHead t = true

theorem SH.append {T} (h : SH T) (r) : SH (T ++ r) := by
  obtain ⟨t, r', rfl, ht⟩ := h
  exact ⟨t, _, rfl, ht⟩

theorem EH.sh {T} (h : EH T) : SH T := by
  obtain ⟨t, r', rfl, ht⟩ := h
  refine ⟨t, _, rfl, ?_⟩
  unfold sHead
  split <;> first | rfl | exact ht

theorem SH.noLabel {T} (h : SH T) : labelStart T = false ∧ (∀ r, T ≠ .p .rbrace :: r) ∧ (∀ r, T ≠ .kw .else_ :: r) ∧
    tyStart T = false ∧ (∀ r, T ≠ .kw .register :: r) := by
  obtain ⟨t, r, rfl, ht⟩ := h
  cases t with
  | kw k => cases k <;> simp_all [sHead, exprHead, labelStart, tyStart]
  | p q => cases q <;> simp_all [sHead, exprHead, labelStart, tyStart]
  | _ => simp [labelStart, tyStart]

/-- Statements read one after the other. -/
inductive Steps : List Tok → List CS → List Tok → Prop
  | nil (ts) : Steps ts [] ts
  | cons {ts s r ss r'} : SH ts → (Ev fun n => parseS n ts = some (s, r)) → Steps r ss r' → Steps ts (s :: ss) r'

theorem Steps.append {a ss b ss' c} (h : Steps a ss b) (h' : Steps b ss' c) : Steps a (ss ++ ss') c := by
  induction h with
  | nil => exact h'
  | cons h1 h2 _ ih => exact .cons h1 h2 (ih h')

theorem Steps.block {ts ss r b r'} (h : Steps ts ss r) (hb : Ev fun n => parseBlock n r = some (b, r')) :
    Ev fun n => parseBlock n ts = some (ss.foldr .seq b, r') := by
  induction h with
  | nil => exact hb
  | cons h1 h2 _ ih =>
    refine h2.two (ih hb) fun n x y => ?_
    unfold parseBlock
    split
    · exact absurd rfl (h1.noLabel.2.1 _)
    · simp [x, y]

/-- Statements as one. -/
def sq : List CS → CS
  | [] => .skip
  | [s] => s
  | s :: ss => .seq s (sq ss)

theorem Steps.items {ts ss r} (h : Steps ts ss r) (hs : ss ≠ []) (hr : labelStart r = true ∨ ∃ r', r = .p .rbrace :: r') :
    Ev fun n => parseItems n ts = some (sq ss, r) := by
  induction h with
  | nil => exact absurd rfl hs
  | @cons ts s r1 ss r' h1 h2 h3 ih =>
    cases h3 with
    | nil =>
      refine h2.one fun n x => ?_
      unfold parseItems
      simp only [x]
      rcases hr with hr | ⟨r', rfl⟩
      · split <;> simp_all [sq]
      · simp [sq]
    | @cons _ s' _ ss' _ g1 g2 g3 =>
      refine h2.two (ih (by simp) hr) fun n x y => ?_
      unfold parseItems
      simp only [x]
      have hn := g1.noLabel
      split
      · rename_i heq
        simp only [Option.some.injEq, Prod.mk.injEq] at heq
        exact absurd heq.2 (hn.2.1 _)
      · rename_i heq
        simp only [Option.some.injEq, Prod.mk.injEq] at heq
        obtain ⟨rfl, rfl⟩ := heq
        simp [hn.1, y, sq]
      · simp_all

theorem sq_same : ∀ ss : List CS, Same (ss.foldr .seq .skip) (sq ss)
  | [] => .refl _
  | [s] => .skipR s
  | s :: s' :: ss => .seq (.refl s) (sq_same (s' :: ss))

/-- What a printed statement is read as. -/
def StmtOK (s : CS) : Prop :=
  SH (toks (stmt s)) ∧ ∃ ss, ss ≠ [] ∧ (∀ b, Same (.seq s b) (ss.foldr .seq b)) ∧
    ∀ rest, (∀ r, rest ≠ .kw .else_ :: r) → Steps (toks (stmt s) ++ rest) ss rest

theorem StmtOK.one {s s' : CS} (h : SH (toks (stmt s))) (hs : Same s s')
    (hp : ∀ rest, (∀ r, rest ≠ .kw .else_ :: r) → Ev fun n => parseS n (toks (stmt s) ++ rest) = some (s', rest)) : StmtOK s :=
  ⟨h, [s'], by simp, fun b => .seq hs (.refl b), fun rest hr => .cons (h.append rest) (hp rest hr) (.nil rest)⟩

theorem StmtOK.block {s : CS} (h : StmtOK s) : ∃ s', Same s s' ∧ ∀ rest,
    Ev fun n => parseBlock n (toks (stmt s) ++ .p .rbrace :: rest) = some (s', rest) := by
  obtain ⟨_, ss, _, hs, hp⟩ := h
  refine ⟨ss.foldr .seq .skip, (Same.symm (.skipR s)).trans (hs .skip), fun rest => ?_⟩
  exact (hp (.p .rbrace :: rest) (by simp)).block (Ev.zero fun n => by simp [parseBlock])

theorem parseLabel_ok (l : Option Int) (r : List Tok) :
    parseLabel (toks (labelPieces l) ++ .p .colon :: r) = some (l, r) ∧ labelStart (toks (labelPieces l) ++ .p .colon :: r) = true ∧
      ∀ r', toks (labelPieces l) ++ .p .colon :: r ≠ .p .rbrace :: r' := by
  cases l with
  | none => simp [labelPieces, parseLabel, labelStart]
  | some z =>
    by_cases hz : 0 ≤ z
    · simp [labelPieces, parseLabel, labelStart, hz]; omega
    · simp [labelPieces, parseLabel, labelStart, hz]; omega

theorem cases_head (l s ls r) : labelStart (toks (cases (.cons l s ls)) ++ r) = true := by
  by_cases hs : s.isSkip <;> simp [cases, hs, parseLabel_ok]

theorem mkAssign_same {a a' b b' : CE} (ha : SameE a a') (hb : SameE b b') (hl : a.lval = true) (hc : a' = canon a) :
    Same (.assign a b) (mkAssign a' b') := by
  subst hc
  cases a <;> simp_all [CE.lval, canon, mkAssign]
  · exact .assign ha hb
  · exact (Same.temp _ _).trans (.set _ hb)
  · exact .assign ha hb
  · exact .assign ha hb

theorem sameEs_map : ∀ es : List CE, es.all CE.ok = true → SameEs es (es.map canon)
  | [], _ => .nil
  | e :: es, h => by
    simp only [List.all_cons, Bool.and_eq_true] at h
    exact .cons (canon_same e h.1) (sameEs_map es h.2)

theorem parseS_call {f : CE} {args : List CE} (h : f.ok = true) (hc : f.calleeOk = true) (ha : args.all CE.ok = true)
    (rest : List Tok) :
    Ev fun n => parseS n (toks (callPieces f args) ++ rest) = some (.call none (canon f) (args.map canon), rest) := by
  obtain ⟨r, h1, h2⟩ := callPieces_ok h hc ha rest
  have he : EH (toks (callPieces f args) ++ rest) := by
    rw [h1]; exact (printed f h 15 (by omega) (by omega)).1.append _
  refine h2.one fun n ⟨x, y⟩ => ?_
  rw [parseS_simple he]
  simp [parseSimple, x, y]

theorem parseS_callSome {x : Name} {f : CE} {args : List CE} (h : f.ok = true) (hc : f.calleeOk = true)
    (ha : args.all CE.ok = true) (rest : List Tok) :
    Ev fun n => parseS n (.id (tempName x) :: .p .assign :: (toks (callPieces f args) ++ rest)) =
      some (.call (some x) (canon f) (args.map canon), rest) := by
  obtain ⟨r, _, h2⟩ := callPieces_ok h hc ha rest
  have hg := good_id (tempName x)
  have h15 := (hg.down15 trivial).follow (rest := .p .assign :: (toks (callPieces f args) ++ rest)) (by simp [NotCont, binOf])
  have h16 := hg.follow (rest := .p .assign :: (toks (callPieces f args) ++ rest)) (by simp [NotCont, binOf])
  refine ((h15.and h16).and h2).one fun n ⟨⟨a, b⟩, c, d⟩ => ?_
  rw [parseS_simple ⟨_, _, rfl, rfl⟩]
  simp only [List.cons_append, List.nil_append] at a b
  have hi : identOf (tempName x) = .temp x := rfl
  rw [hi] at a b
  simp [parseSimple, a, b, c, d]

/-- No `else` follows. -/
theorem noElse_match {a : CS} {rest : List Tok} (h : ∀ r, rest ≠ .kw .else_ :: r) (n : Nat) (e : CE) :
    (match some (a, rest) with
    | some (a, .kw .else_ :: .p .lbrace :: r2) => match parseBlock n r2 with
      | some (b, r3) => some (CS.ite e a b, r3)
      | none => none
    | some (a, r2) => some (.ite e a .skip, r2)
    | none => none) = some (CS.ite e a .skip, rest) := by
  split
  · rename_i heq
    simp only [Option.some.injEq, Prod.mk.injEq] at heq
    exact absurd heq.2 (h _)
  · rename_i heq
    simp only [Option.some.injEq, Prod.mk.injEq] at heq
    obtain ⟨rfl, rfl⟩ := heq
    rfl
  · simp_all

theorem lval_prec {a : CE} (h : a.lval = true) : a.prec = 15 ∨ a.prec = 16 := by
  cases a <;> simp_all [CE.lval, CE.prec]

theorem lval_expr {a : CE} (h : a.lval = true) : expr 0 a = expr 15 a := by
  cases a <;> simp_all [CE.lval, expr, paren]

theorem SH.noElse {T} (h : SH T) (rest) : ∀ r, T ++ rest ≠ .kw .else_ :: r := (h.append rest).noLabel.2.2.1

mutual
/-- A printed statement is read back. -/
theorem stmt_ok : ∀ s : CS, s.ok = true → StmtOK s
  | .skip, _ => StmtOK.one ⟨_, _, rfl, rfl⟩ (.refl _) fun rest _ => Ev.zero fun n => by simp [stmt, parseS]
  | .brk, _ => StmtOK.one ⟨_, _, rfl, rfl⟩ (.refl _) fun rest _ => Ev.zero fun n => by simp [stmt, parseS]
  | .ret none, _ => StmtOK.one ⟨_, _, rfl, rfl⟩ (.refl _) fun rest _ => Ev.zero fun n => by simp [stmt, parseS]
  | .ret (some e), h => by
    simp only [CS.ok] at h
    refine StmtOK.one (s' := .ret (some (canon e))) ⟨_, _, rfl, rfl⟩ (.ret (canon_same e h)) fun rest _ => ?_
    refine (printed0 h (p := 0) (by omega) (rest := .p .semi :: rest) rfl).one fun n hn => ?_
    obtain ⟨t, r, ht, hh⟩ := (printed e h 0 (by omega) (by omega)).1
    simp only [stmt, toks_append, toks_t, toks_sp, toks_nil, List.append_assoc, List.cons_append, List.nil_append]
    simp only [ht, List.cons_append] at hn ⊢
    cases t with
    | p q => cases q <;> simp_all [parseS, exprHead]
    | _ => simp [parseS, hn]
  | .assign a b, h => by
    simp only [CS.ok, Bool.and_eq_true] at h
    obtain ⟨⟨ha, hl⟩, hb⟩ := h
    have pa := printed a ha 15 (by omega) (by omega)
    refine StmtOK.one (s' := mkAssign (canon a) (canon b)) ?_ (mkAssign_same (canon_same a ha) (canon_same b hb) hl rfl)
      fun rest _ => ?_
    · rw [stmt, lval_expr hl]
      simpa using pa.1.sh.append (.p .assign :: (toks (expr 0 b) ++ [.p .semi]))
    · have hf : NotCont 15 (.p .assign :: (toks (expr 0 b) ++ .p .semi :: rest)) = true := by simp [NotCont, binOf]
      have := assign_ok (rest := rest) pa.1
        (notCall a 15 ha (by omega) (by omega) (.p .assign :: (toks (expr 0 b) ++ .p .semi :: rest))
          ⟨by simp [NotCont, binOf], by simp⟩) (pa.2.1.follow hf) hb
      rw [stmt, lval_expr hl]
      simpa using this
  | .set x e, h => by
    simp only [CS.ok, Bool.and_eq_true] at h
    refine StmtOK.one (s' := .set x (canon e)) ⟨_, _, rfl, rfl⟩ (.set x (canon_same e h.2)) fun rest _ => ?_
    have hg := good_id (tempName x)
    have hf : ∀ l, NotCont l (.p .assign :: (toks (expr 0 e) ++ .p .semi :: rest)) = true := by simp [NotCont, binOf]
    have := assign_ok (rest := rest) (T := [.id (tempName x)]) ⟨_, _, rfl, rfl⟩
      (notCall_16 hg ⟨hf _, by simp⟩) ((hg.down15 trivial).follow (hf _)) h.2
    simpa [stmt, identOf, tempName, mkAssign] using this
  | .call none f args, h => by
    simp only [CS.ok, Bool.and_eq_true] at h
    refine StmtOK.one ?_ (.call none (canon_same f h.1.1) (sameEs_map args h.2)) fun rest _ => ?_
    · have := (printed f h.1.1 15 (by omega) (by omega)).1.sh.append
        (.p .lpar :: (toks (exprList true args) ++ [.p .rpar, .p .semi]))
      simpa [stmt, callPieces] using this
    · simpa [stmt] using parseS_call h.1.1 h.1.2 h.2 rest
  | .call (some x) f args, h => by
    simp only [CS.ok, Bool.and_eq_true] at h
    refine StmtOK.one ⟨_, _, rfl, rfl⟩ (.call (some x) (canon_same f h.1.1.2) (sameEs_map args h.2)) fun rest _ => ?_
    simpa [stmt] using parseS_callSome (x := x) h.1.1.2 h.1.2 h.2 rest
  | .seq a b, h => by
    simp only [CS.ok, Bool.and_eq_true] at h
    have ha := stmt_ok a h.1
    have hb := stmt_ok b h.2
    by_cases h1 : a.isSkip = true
    · have ea : a = .skip := by cases a <;> simp_all [CS.isSkip]
      subst ea
      obtain ⟨hh, ss, hn, hs, hp⟩ := hb
      refine ⟨by simpa [stmt, h1] using hh, ss, hn, fun c => ?_, fun rest hr => by simpa [stmt, h1] using hp rest hr⟩
      exact (Same.seq (.skipL b) (.refl c)).trans (hs c)
    · by_cases h2 : b.isSkip = true
      · have eb : b = .skip := by cases b <;> simp_all [CS.isSkip]
        subst eb
        obtain ⟨hh, ss, hn, hs, hp⟩ := ha
        refine ⟨by simpa [stmt, h1, h2] using hh, ss, hn, fun c => ?_, fun rest hr => by simpa [stmt, h1, h2] using hp rest hr⟩
        exact (Same.seq (.skipR a) (.refl c)).trans (hs c)
      · obtain ⟨hha, ssa, hna, hsa, hpa⟩ := ha
        obtain ⟨hhb, ssb, hnb, hsb, hpb⟩ := hb
        refine ⟨by simpa [stmt, h1, h2] using hha.append _, ssa ++ ssb, by simp [hna], fun c => ?_, fun rest hr => ?_⟩
        · rw [List.foldr_append]
          exact (Same.assoc a b c).trans ((Same.seq (.refl a) (hsb c)).trans (hsa _))
        · simpa [stmt, h1, h2] using (hpa _ (hhb.noElse rest)).append (hpb rest hr)
  | .ite e a b, h => by
    simp only [CS.ok, Bool.and_eq_true] at h
    obtain ⟨⟨he, ha⟩, hb⟩ := h
    obtain ⟨a', sa, pa⟩ := (stmt_ok a ha).block
    obtain ⟨b', sb, pb⟩ := (stmt_ok b hb).block
    by_cases h2 : b.isSkip = true
    · have eb : b = .skip := by cases b <;> simp_all [CS.isSkip]
      subst eb
      refine StmtOK.one (s' := .ite (canon e) a' .skip) (by simp [stmt, CS.isSkip]; exact ⟨_, _, rfl, rfl⟩)
        (.ite (canon_same e he) sa (.refl _)) fun rest hr => ?_
      have p1 := printed0 he (p := 0) (by omega) (rest := .p .rpar :: .p .lbrace :: (toks (stmt a) ++ .p .rbrace :: rest)) rfl
      refine p1.two (pa rest) fun n x y => ?_
      simp [stmt, CS.isSkip, parseS, x, y]
      exact noElse_match hr n _
    · by_cases h1 : a.isSkip = true
      · have ea : a = .skip := by cases a <;> simp_all [CS.isSkip]
        subst ea
        have he' : (CE.unop .notbool e).ok = true := by simp [CE.ok, he]
        refine StmtOK.one (s' := .ite (.unop .notbool (canon e)) b' .skip)
          (by simp [stmt, h1, h2]; exact ⟨_, _, rfl, rfl⟩)
          ((Same.not e b).trans (.ite (.unop _ (canon_same e he)) sb (.refl _))) fun rest hr => ?_
        have p1 := printed0 he' (p := 0) (by omega) (rest := .p .rpar :: .p .lbrace :: (toks (stmt b) ++ .p .rbrace :: rest)) rfl
        refine p1.two (pb rest) fun n x y => ?_
        simp only [expr, paren, canon, UnOp.pn, Nat.not_lt_zero, decide_false, Bool.false_eq_true, if_false, toks_t,
          List.cons_append] at x
        simp [stmt, h1, h2, parseS, x, y]
        exact noElse_match hr n _
      · refine StmtOK.one (s' := .ite (canon e) a' b') (by simp [stmt, h1, h2]; exact ⟨_, _, rfl, rfl⟩)
          (.ite (canon_same e he) sa sb) fun rest hr => ?_
        have p1 := printed0 he (p := 0) (by omega) (rest := .p .rpar :: .p .lbrace :: (toks (stmt a) ++ .p .rbrace ::
          .kw .else_ :: .p .lbrace :: (toks (stmt b) ++ .p .rbrace :: rest))) rfl
        refine (p1.and (pa (.kw .else_ :: .p .lbrace :: (toks (stmt b) ++ .p .rbrace :: rest)))).two (pb rest) fun n x y => ?_
        simp [stmt, h1, h2, parseS, x.1, x.2, y]
  | .switch e ls, h => by
    simp only [CS.ok, Bool.and_eq_true] at h
    obtain ⟨ls', sl, pl⟩ := cases_ok ls h.2
    refine StmtOK.one (s' := .switch (canon e) ls') ⟨_, _, rfl, rfl⟩ (.switch (canon_same e h.1) sl) fun rest hr => ?_
    have p1 := printed0 h.1 (p := 0) (by omega) (rest := .p .rpar :: .p .lbrace :: (toks (cases ls) ++ .p .rbrace :: rest)) rfl
    refine p1.two (pl rest) fun n x y => ?_
    simp [stmt, parseS, x, y]
/-- Printed cases are read back. -/
theorem cases_ok : ∀ ls : LS, ls.ok = true → ∃ ls', SameL ls ls' ∧ ∀ rest,
    Ev fun n => parseCases n (toks (cases ls) ++ .p .rbrace :: rest) = some (ls', rest)
  | .nil, _ => ⟨.nil, .nil, fun rest => Ev.zero fun n => by simp [cases, parseCases]⟩
  | .cons l s ls, h => by
    have hs : s.ok = true := by cases ls <;> simp_all [LS.ok]
    have hls : ls.ok = true := by cases ls <;> simp_all [LS.ok]
    obtain ⟨ls', sl, pl⟩ := cases_ok ls hls
    by_cases h1 : s.isSkip = true
    · have es : s = .skip := by cases s <;> simp_all [CS.isSkip]
      subst es
      cases ls with
      | nil => simp [LS.ok, CS.isSkip] at h
      | cons l2 s2 ls2 =>
        refine ⟨.cons l .skip ls', .cons l (.refl _) sl, fun rest => (pl rest).one fun n x => ?_⟩
        have hl := parseLabel_ok l (toks (cases (.cons l2 s2 ls2)) ++ .p .rbrace :: rest)
        have hh := cases_head l2 s2 ls2 (.p .rbrace :: rest)
        rw [cases]
        simp only [CS.isSkip, if_true, toks_append, toks_t, toks_sp, toks_nil, List.append_assoc, List.cons_append,
          List.nil_append]
        unfold parseCases
        split
        · rename_i heq
          exact absurd heq (hl.2.2 _)
        · simp [hl.1, hh, x]
    · obtain ⟨hh, ss, hn, hss, hp⟩ := stmt_ok s hs
      have hend : ∀ rest : List Tok, labelStart (toks (cases ls) ++ .p .rbrace :: rest) = true ∨
          ∃ r', toks (cases ls) ++ .p .rbrace :: rest = .p .rbrace :: r' := by
        intro rest
        cases ls with
        | nil => right; exact ⟨rest, by simp [cases]⟩
        | cons l2 s2 ls2 => left; exact cases_head _ _ _ _
      refine ⟨.cons l (sq ss) ls', .cons l (((Same.skipR s).symm.trans (hss .skip)).trans (sq_same ss)) sl, fun rest => ?_⟩
      have hne : ∀ r, toks (cases ls) ++ .p .rbrace :: rest ≠ .kw .else_ :: r := by
        intro r heq
        have := hend rest
        rw [heq] at this
        simp [labelStart] at this
      have hi := (hp _ hne).items hn (hend rest)
      refine hi.two (pl rest) fun n x y => ?_
      have hl := parseLabel_ok l (toks (stmt s) ++ (toks (cases ls) ++ .p .rbrace :: rest))
      have hlab := (hh.append (toks (cases ls) ++ .p .rbrace :: rest)).noLabel.1
      rw [cases]
      simp only [h1, toks_append, toks_t, toks_sp, toks_nil, List.append_assoc, List.cons_append,
        List.nil_append, Bool.false_eq_true, if_false]
      unfold parseCases
      split
      · rename_i heq
        exact absurd heq (hl.2.2 _)
      · simp [hl.1, hlab, x, y]
end

/-! ## Functions -/

theorem paramPieces_ok : ∀ (ps : List (Name × CTy)) (x : Name) (t : CTy) (va : Bool),
    ((x, t) :: ps).all (fun p => nameOk (tempName p.1) && p.2.ok) = true → ∀ rest,
    Ev fun n => parsePList n (toks (cdecl t [nm (tempName x)]) ++ (toks (paramPieces false ps va) ++ .p .rpar :: rest)) =
      some (((x, t) :: ps).map fun p => (some (tempName p.1), p.2), va, rest)
  | [], x, t, va, h, rest => by
    simp at h
    have hd := cdecl_ok t h.2 [nm (tempName x)] (some (tempName x)) [] (Or.inl (dirOK_id _))
    cases va with
    | false =>
      refine (hd (.p .rpar :: rest) rfl).one fun n hn => ?_
      simp [paramPieces, parsePList, hn, wrap]
    | true =>
      refine (hd (.p .comma :: .p .dots :: .p .rpar :: rest) rfl).one fun n hn => ?_
      simp [paramPieces, parsePList, hn, wrap]
  | (y, u) :: ps, x, t, va, h, rest => by
    rw [List.all_cons, Bool.and_eq_true] at h
    have hx := h.1
    simp at hx
    have hd := cdecl_ok t hx.2 [nm (tempName x)] (some (tempName x)) [] (Or.inl (dirOK_id _))
    have ih := paramPieces_ok ps y u va h.2 rest
    refine (hd (.p .comma :: (toks (cdecl u [nm (tempName y)]) ++ (toks (paramPieces false ps va) ++ .p .rpar :: rest)))
      rfl).two ih fun n a b => ?_
    obtain ⟨k, r', hk⟩ := cdecl_first u [nm (tempName y)] (toks (paramPieces false ps va) ++ .p .rpar :: rest)
    rw [hk] at a b
    simp only [List.map_cons] at b
    simp [paramPieces, parsePList, hk, a, b, wrap]

theorem paramNames_ok : ∀ ps : List (Name × CTy),
    paramNames (ps.map fun p => (some (tempName p.1), p.2)) = some ps
  | [] => rfl
  | (x, t) :: ps => by
    have := paramNames_ok ps
    simp only [List.map_cons, paramNames, tempName] at this ⊢
    simp [this]

theorem fnHead_ok (f : CFn) (h : f.params.all (fun p => nameOk (tempName p.1) && p.2.ok) = true)
    (hv : f.va = false ∨ f.params ≠ []) :
    DirOK (toks (fnHead f)) (some f.name) [.fn (f.params.map fun p => (some (tempName p.1), p.2)) f.va] := by
  obtain ⟨name, ret, params, va, vars, temps, body⟩ := f
  cases params with
  | nil =>
    have hv : va = false := by simpa using hv
    subst hv
    have := (dirOK_id name).fn (A := [.kw .void]) (ps := []) (va := false) (fun rest => Ev.zero fun n => by simp [parseParams])
    simpa [fnHead] using this
  | cons p ps =>
    obtain ⟨x, t⟩ := p
    have := (dirOK_id name).fn (A := toks (cdecl t [nm (tempName x)]) ++ toks (paramPieces false ps va))
      (ps := ((x, t) :: ps).map fun p => (some (tempName p.1), p.2)) (va := va) (fun rest => by
        have h1 := paramPieces_ok ps x t va h rest
        have h2 := parseParams_list (fun r' => cdecl_star_void t [nm (tempName x)] _ r' (.id (tempName x)) [] rfl (by simp)) h1
        simpa using h2)
    simpa [fnHead, paramPieces] using this

theorem parseVars_end {ts : List Tok} (h : SH ts) : Ev fun n => parseVars n ts = some ([], [], ts) := by
  have := h.noLabel
  refine Ev.zero fun n => ?_
  unfold parseVars
  simp only [this.2.2.2.1, Bool.false_eq_true, if_false]
  split
  · exact absurd rfl (this.2.2.2.2 _)
  · rfl

/-- Declarations of temporaries. -/
def tempPieces (l : List (Name × CTy)) : List Piece :=
  (l.map fun v => [kw .register, .sp] ++ cdecl v.2 [nm (tempName v.1)] ++ [pn .semi, .sp]).flatten

/-- Declarations of variables. -/
def varPieces (l : List (Name × CTy)) : List Piece := (l.map fun v => cdecl v.2 [nm v.1] ++ [pn .semi, .sp]).flatten

theorem toks_tempPieces (x t l) : toks (tempPieces ((x, t) :: l)) =
    .kw .register :: (toks (cdecl t [nm (tempName x)]) ++ .p .semi :: toks (tempPieces l)) := by
  simp [tempPieces]

theorem toks_varPieces (x t l) : toks (varPieces ((x, t) :: l)) = toks (cdecl t [nm x]) ++ .p .semi :: toks (varPieces l) := by
  simp [varPieces]

theorem parseTemps_ok : ∀ (tps : List (Name × CTy)), tps.all (fun p => nameOk (tempName p.1) && p.2.ok) = true → ∀ ts, SH ts →
    Ev fun n => parseVars n (toks (tempPieces tps) ++ ts) = some ([], tps, ts)
  | [], _, ts, h => by simpa [tempPieces] using parseVars_end h
  | (x, t) :: tps, h, ts, hs => by
    simp only [List.all_cons, Bool.and_eq_true] at h
    have ih := parseTemps_ok tps h.2 ts hs
    have hd := cdecl_ok t h.1.2 [nm (tempName x)] (some (tempName x)) [] (Or.inl (dirOK_id _))
      (.p .semi :: (toks (tempPieces tps) ++ ts)) rfl
    refine hd.two ih fun n a b => ?_
    rw [toks_tempPieces]
    simp only [List.append_assoc, List.cons_append]
    unfold parseVars
    simp only [tyStart, Bool.false_eq_true, if_false, a]
    simp only [tempName, b, wrap, List.foldr]

theorem parseVars_ok : ∀ (vs tps : List (Name × CTy)), vs.all (fun p => nameOk p.1 && p.2.ok) = true →
    tps.all (fun p => nameOk (tempName p.1) && p.2.ok) = true → ∀ ts, SH ts →
    Ev fun n => parseVars n (toks (varPieces vs) ++ (toks (tempPieces tps) ++ ts)) = some (vs, tps, ts)
  | [], tps, _, h, ts, hs => by simpa [varPieces] using parseTemps_ok tps h ts hs
  | (x, t) :: vs, tps, h, h', ts, hs => by
    simp only [List.all_cons, Bool.and_eq_true] at h
    have ih := parseVars_ok vs tps h.2 h' ts hs
    have hd := cdecl_ok t h.1.2 [nm x] (some x) [] (Or.inl (dirOK_id _))
      (.p .semi :: (toks (varPieces vs) ++ (toks (tempPieces tps) ++ ts))) rfl
    refine hd.two ih fun n a b => ?_
    have hty := cdecl_tyStart t [nm x] (.p .semi :: (toks (varPieces vs) ++ (toks (tempPieces tps) ++ ts)))
    rw [toks_varPieces]
    simp only [List.append_assoc, List.cons_append]
    unfold parseVars
    simp [hty, a, b, wrap]

/-- A printed function is read back. -/
theorem function_ok (f : CFn) (h : f.ok = true) : ∃ s, Same f.body s ∧
    Ev fun n => parseFn n (toks (function f)) = some ({f with body := s}, []) := by
  simp only [CFn.ok, Bool.and_eq_true, Bool.or_eq_true, Bool.not_eq_true'] at h
  obtain ⟨⟨⟨⟨⟨⟨_, hret⟩, hps⟩, hva⟩, hvs⟩, htps⟩, hb⟩ := h
  have hs := stmt_ok f.body hb
  obtain ⟨s, same, pb⟩ := hs.block
  refine ⟨s, same, ?_⟩
  have hd := fnHead_ok f hps (hva.imp id fun h => by rintro e; simp [e] at h)
  let tail : List Tok := toks (varPieces f.vars) ++ (toks (tempPieces f.temps) ++ (toks (stmt f.body) ++ [.p .rbrace]))
  obtain ⟨b, r, hb', ds', hdecl, hw⟩ := cdecl_split f.ret hret (fnHead f) _ _ (Or.inl hd) (.p .lbrace :: tail) rfl
  have hv := parseVars_ok f.vars f.temps hvs htps (toks (stmt f.body) ++ [.p .rbrace]) (hs.1.append _)
  have ht : toks (function f) = toks (cdecl f.ret (fnHead f)) ++ .p .lbrace :: tail := by
    simp [function, tail, varPieces, tempPieces]
  rw [ht]
  refine ((hdecl.and hv).and (pb [])).imp fun n ⟨⟨x, y⟩, z⟩ => ?_
  simp only [List.cons_append, List.nil_append] at x
  simp only [parseFn, hb', x, paramNames_ok, tail, y, z, hw]

end CPrint
