import Verif.CPrint.TyLemmas

/-!
# Printed expressions are read back: lemmas on tokens
-/

namespace CPrint

/-- What an expression is read as: negative constants are negated constants. -/
def canon : CE → CE
  | .var x => .var x
  | .temp x => .temp x
  | .deref e => .deref (canon e)
  | .field e f => .field (canon e) f
  | .cint n false => if n < 2 ^ 31 then .cint n false else .unop .neg (.cint (2 ^ 32 - n) false)
  | .cint n true => .cint n true
  | .clong n false => if n < 2 ^ 63 then .clong n false else .unop .neg (.clong (2 ^ 64 - n) false)
  | .clong n true => .clong n true
  | .unop o e => .unop o (canon e)
  | .addrof e => .addrof (canon e)
  | .binop o a b => .binop o (canon a) (canon b)
  | .cast e t => .cast (canon e) t.decay
  | .sizeof t => .sizeof t
  | .alignof t => .alignof t

theorem canon_same : ∀ e : CE, e.ok = true → SameE e (canon e)
  | .var _, _ => .refl _
  | .temp _, _ => .refl _
  | .deref e, h => .deref (canon_same e (by simpa [CE.ok] using h))
  | .field e f, h => .field f (canon_same e (by simp [CE.ok] at h; exact h.1.1))
  | .cint n true, _ => .refl _
  | .cint n false, h => by
    simp [CE.ok] at h
    by_cases hn : n < 2 ^ 31
    · rw [canon, if_pos hn]; exact .refl _
    · rw [canon, if_neg hn]; exact .int (by omega) (by omega)
  | .clong n true, _ => .refl _
  | .clong n false, h => by
    simp [CE.ok] at h
    by_cases hn : n < 2 ^ 63
    · rw [canon, if_pos hn]; exact .refl _
    · rw [canon, if_neg hn]; exact .long (by omega) (by omega)
  | .unop o e, h => .unop o (canon_same e (by simp [CE.ok] at h; exact h.1))
  | .addrof e, h => .addrof (canon_same e (by simp [CE.ok] at h; exact h.1))
  | .binop o a b, h => by
    simp [CE.ok] at h
    exact .binop o (canon_same a h.1) (canon_same b h.2)
  | .cast e t, h => by
    have h1 : SameE (.cast e t) (.cast (canon e) t) := .cast t (canon_same e (by simp [CE.ok] at h; exact h.1))
    refine h1.trans ?_
    cases t <;> first | exact .refl _ | exact .fnCast _ _ _ _
  | .sizeof _, _ => .refl _
  | .alignof _, _ => .refl _

/-- What may follow an expression of a level. -/
def NotCont (l : Nat) : List Tok → Bool
  | .p .dot :: _ => false
  | .p q :: _ => match binOf q with
    | some b => decide (level b < l)
    | none => true
  | _ => true

/-- The tokens are read as `e` at a level. -/
def Good (l : Nat) (T : List Tok) (e : CE) : Prop :=
  if l = 16 then ∀ rest, Ev fun n => parseE n 16 (T ++ rest) = some (loopF e rest)
  else if 14 ≤ l then ∀ rest, NotCont l rest = true → Ev fun n => parseE n l (T ++ rest) = some (e, rest)
  else ∀ rest res, NotCont (l + 1) rest = true → (Ev fun n => loopE n l e rest = some res) →
    Ev fun n => parseE n l (T ++ rest) = some res

theorem level_le (b : BinOp) : level b ≤ 13 := by cases b <;> simp [level]
theorem level_ge (b : BinOp) : 6 ≤ level b := by cases b <;> simp [level]

theorem notCont_mono {l l' : Nat} {rest : List Tok} (hl : l ≤ l') (h : NotCont l rest = true) : NotCont l' rest = true := by
  unfold NotCont at *
  split <;> simp_all
  split <;> simp_all
  omega

theorem notCont_14 {l : Nat} {rest : List Tok} (hl : 14 ≤ l) (h : NotCont l rest = true) : NotCont 14 rest = true := by
  unfold NotCont at *
  split <;> simp_all
  split <;> simp_all
  rename_i b _
  have := level_le b
  omega

theorem loopF_stop {e : CE} {rest : List Tok} {l} (h : NotCont l rest = true) : loopF e rest = (e, rest) := by
  unfold loopF
  split
  · simp [NotCont] at h
  · rfl

theorem loopE_stop {e : CE} {rest : List Tok} {l} (h : NotCont l rest = true) : Ev fun n => loopE n l e rest = some (e, rest) := by
  refine Ev.zero fun n => ?_
  unfold loopE
  split
  · rename_i q r
    cases hb : binOf q with
    | none => rfl
    | some b =>
      have : ¬ level b = l := by
        unfold NotCont at h
        split at h <;> simp_all
        omega
      simp [this]
  · rfl

theorem Good.follow {l T e} (h : Good l T e) {rest : List Tok} (hr : NotCont l rest = true) :
    Ev fun n => parseE n l (T ++ rest) = some (e, rest) := by
  unfold Good at h
  split at h
  · rename_i hl
    subst hl
    have := h rest
    rwa [loopF_stop hr] at this
  · split at h
    · exact h rest hr
    · exact h rest _ (notCont_mono (by omega) hr) (loopE_stop hr)

/-- The first token of an expression. -/
def exprHead : Tok → Bool
  | .id _ => true
  | .num _ _ => true
  | .p .lpar => true
  | .p .star => true
  | .p .amp => true
  | .p .minus => true
  | .p .bang => true
  | .p .tilde => true
  | .kw .sizeof => true
  | .kw .alignof => true
  | _ => false

/-- Begins like an expression. -/
def EH (T : List Tok) : Prop := ∃ t r, T = t :: r ∧ exprHead t = true

theorem EH.noTy {T} (h : EH T) (rest) : tyStart (T ++ rest) = false := by
  obtain ⟨t, r, rfl, ht⟩ := h
  cases t with
  | kw k => cases k <;> simp_all [exprHead, tyStart]
  | _ => rfl

theorem EH.append {T} (h : EH T) (r) : EH (T ++ r) := by
  obtain ⟨t, r', rfl, ht⟩ := h
  exact ⟨t, _, rfl, ht⟩

/-- Begins like a primary expression. -/
def Hd16 : List Tok → Prop
  | .id _ :: _ => True
  | .num _ _ :: _ => True
  | .p .lpar :: r => EH r
  | _ => False

/-- Does not begin with a cast. -/
def Hd15 : List Tok → Prop
  | .p .lpar :: r => EH r
  | T => EH T

theorem Hd16.hd15 {T} (h : Hd16 T) : Hd15 T := by
  unfold Hd16 at h
  split at h
  · exact ⟨_, _, rfl, rfl⟩
  · exact ⟨_, _, rfl, rfl⟩
  · exact h
  · exact h.elim

theorem Hd15.eh {T} (h : Hd15 T) : EH T := by
  unfold Hd15 at h
  split at h
  · exact ⟨_, _, rfl, rfl⟩
  · exact h

theorem Hd16.append {T} (h : Hd16 T) (r) : Hd16 (T ++ r) := by
  unfold Hd16 at h
  split at h
  · trivial
  · trivial
  · exact EH.append h r
  · exact h.elim

theorem Good.down15 {T e} (h : Good 16 T e) (hd : Hd16 T) : Good 15 T e := by
  simp only [Good, if_true, Nat.reduceEqDiff, if_false, Nat.reduceLeDiff] at h ⊢
  intro rest hr
  refine (h rest).one fun n hn => ?_
  rw [loopF_stop hr] at hn
  rw [← hn]
  match T, hd with
  | .id _ :: _, _ => simp [parseE]
  | .num _ _ :: _, _ => simp [parseE]
  | .p .lpar :: r, _ => simp [parseE]

theorem parseE_14 {ts : List Tok} (h : ∀ r, ts = .p .lpar :: r → tyStart r = false) (n) :
    parseE (n + 1) 14 ts = parseE n 15 ts := by
  conv => lhs; unfold parseE
  simp only [Nat.lt_irrefl, if_false, if_true]
  split
  · simp [h _ rfl]
  · rfl

theorem Good.down14 {T e} (h : Good 15 T e) (hd : Hd15 T) : Good 14 T e := by
  simp only [Good, Nat.reduceEqDiff, if_false, Nat.reduceLeDiff, if_true, Nat.le_refl] at h ⊢
  intro rest hr
  refine (h rest (notCont_mono (by omega) hr)).one fun n hn => ?_
  rw [← hn]
  refine parseE_14 (fun r hr' => ?_) n
  unfold Hd15 at hd
  split at hd
  · have := EH.noTy hd rest
    simp only [List.cons_append, List.cons.injEq, true_and] at hr'
    rw [← hr']; exact this
  · rename_i h1
    obtain ⟨t, r', rfl, ht⟩ := hd
    simp only [List.cons_append, List.cons.injEq] at hr'
    exact absurd (by rw [hr'.1]) (h1 r')

theorem Good.downB {l T e} (hl : l + 1 ≤ 14) (h : Good (l + 1) T e) : Good l T e := by
  have h1 : ¬ l = 16 := by omega
  have h2 : ¬ 14 ≤ l := by omega
  simp only [Good, h1, h2, if_false]
  intro rest res hr he
  refine (h.follow hr).two he fun n a b => ?_
  simp [parseE, show l < 14 by omega, a, b]

/-- An expression of a level is one of every lower level. -/
theorem Good.down : ∀ {l T e}, Good l T e → l ≤ 16 → (l = 16 → Hd16 T) → (15 ≤ l → Hd15 T) → ∀ q, q ≤ l → Good q T e := by
  have base : ∀ {l T e}, Good l T e → l ≤ 14 → ∀ q, q ≤ l → Good q T e := by
    intro l T e h hl q hq
    obtain ⟨k, rfl⟩ := Nat.exists_eq_add_of_le hq
    induction k with
    | zero => exact h
    | succ k ih => exact ih (Good.downB (by omega) h) (by omega) (by omega)
  intro l T e h hl h16 h15 q hq
  by_cases h1 : l ≤ 14
  · exact base h h1 q hq
  · by_cases h2 : l = 15
    · subst h2
      by_cases h3 : q = 15
      · subst h3; exact h
      · exact base (h.down14 (h15 (by omega))) (by omega) q (by omega)
    · have h3 : l = 16 := by omega
      subst h3
      by_cases h4 : q = 16
      · subst h4; exact h
      · have h5 := h.down15 (h16 rfl)
        by_cases h6 : q = 15
        · subst h6; exact h5
        · exact base (h5.down14 (h16 rfl).hd15) (by omega) q (by omega)

theorem good_paren {B e} (h : Good 6 B e) : Good 16 (.p .lpar :: (B ++ [.p .rpar])) e := by
  simp only [Good, if_true]
  intro rest
  refine (h.follow (rest := .p .rpar :: rest) (by simp [NotCont, binOf])).one fun n hn => ?_
  simp [parseE, hn]

theorem good_un {q : Pn} {T e} (f : CE → CE) (h : Good 14 T e)
    (hf : ∀ n r, parseE (n + 1) 15 (.p q :: r) = (parseE n 14 r).map fun x => (f x.1, x.2)) : Good 15 (.p q :: T) (f e) := by
  simp only [Good, Nat.reduceEqDiff, if_false, Nat.reduceLeDiff, if_true]
  intro rest hr
  refine (h.follow (notCont_14 (by omega) hr)).one fun n hn => ?_
  simp only [List.cons_append]
  rw [hf, hn]
  rfl

theorem binOf_pn (o : BinOp) : binOf o.pn = some o := by cases o <;> rfl
theorem level_prec (o : BinOp) : level o = o.prec := by cases o <;> rfl
theorem pn_dot (o : BinOp) : o.pn ≠ .dot := by cases o <;> simp [BinOp.pn]

theorem good_bin {o : BinOp} {A B a b} (ha : Good o.prec A a) (hb : Good (o.prec + 1) B b) :
    Good o.prec (A ++ (.p o.pn :: B)) (.binop o a b) := by
  have hp := level_le o
  rw [level_prec] at hp
  have h1 : ¬ o.prec = 16 := by omega
  have h2 : ¬ 14 ≤ o.prec := by omega
  simp only [Good, h1, h2, if_false] at ha ⊢
  intro rest res hr he
  have hl : Ev fun n => loopE n o.prec a (.p o.pn :: (B ++ rest)) = some res := by
    refine (hb.follow hr).two he fun n x y => ?_
    simp [loopE, binOf_pn, level_prec, x, y]
  have := ha (.p o.pn :: (B ++ rest)) res (by cases o <;> simp [NotCont, BinOp.pn, binOf, BinOp.prec, level]) hl
  simpa using this

theorem good_num {k s e} (h : litOf k s = some e) : Good 16 [.num k s] e := by
  simp only [Good, if_true]
  intro rest
  refine Ev.zero fun n => ?_
  simp [parseE, h]

theorem good_id (x : Name) : Good 16 [.id x] (identOf x) := by
  simp only [Good, if_true]
  intro rest
  refine Ev.zero fun n => ?_
  simp [parseE]

theorem good_neg {T k} (h : Good 16 T k) (hd : Hd16 T) : Good 15 (.p .minus :: T) (.unop .neg k) :=
  good_un _ ((h.down15 hd).down14 hd.hd15) (fun n r => by simp [parseE])

theorem good_cast {T e} {t : CTy} (ht : t.absOk = true) (h : Good 14 T e) :
    Good 14 (.p .lpar :: (toks (nameType t) ++ .p .rpar :: T)) (.cast e t) := by
  simp only [Good, Nat.reduceEqDiff, if_false, if_true, Nat.le_refl]
  intro rest hr
  have ok := CTy.absOk_ok ht
  refine (cdecl_ok t ok.1 [] none [] (Or.inr ⟨ok.2, declOK_nil⟩) (.p .rpar :: (T ++ rest)) rfl).two (h.follow hr)
    fun n a b => ?_
  have hs := cdecl_tyStart t [] (.p .rpar :: (T ++ rest))
  simp [parseE, nameType, hs, a, b, wrap]

theorem good_sizeof {t : CTy} (ht : t.absOk = true) :
    Good 15 (.kw .sizeof :: .p .lpar :: (toks (nameType t) ++ [.p .rpar])) (.sizeof t) := by
  simp only [Good, Nat.reduceEqDiff, if_false, if_true, Nat.reduceLeDiff]
  intro rest hr
  have ok := CTy.absOk_ok ht
  refine (cdecl_ok t ok.1 [] none [] (Or.inr ⟨ok.2, declOK_nil⟩) (.p .rpar :: rest) rfl).one fun n a => ?_
  simp [parseE, nameType, a, wrap]

theorem good_alignof {t : CTy} (ht : t.absOk = true) :
    Good 15 (.kw .alignof :: .p .lpar :: (toks (nameType t) ++ [.p .rpar])) (.alignof t) := by
  simp only [Good, Nat.reduceEqDiff, if_false, if_true, Nat.reduceLeDiff]
  intro rest hr
  have ok := CTy.absOk_ok ht
  refine (cdecl_ok t ok.1 [] none [] (Or.inr ⟨ok.2, declOK_nil⟩) (.p .rpar :: rest) rfl).one fun n a => ?_
  simp [parseE, nameType, a, wrap]

/-- Printed for precedence `p`. -/
def Printed (p : Nat) (e : CE) : Prop :=
  EH (toks (expr p e)) ∧ Good (max p 6) (toks (expr p e)) (canon e) ∧ (p = 16 → Hd16 (toks (expr p e))) ∧
    (15 ≤ p → Hd15 (toks (expr p e)))

/-- From the tokens without the outer parentheses, of level `l`. -/
theorem printed_of {l pe : Nat} {B : List Piece} {e' : CE} (hl : l ≤ 16) (hl6 : 6 ≤ l)
    (h : Good l (toks B) e') (h16 : l = 16 → Hd16 (toks B)) (h15 : 15 ≤ l → Hd15 (toks B)) (he : EH (toks B)) (p : Nat)
    (hp : p ≤ 16) (hle : p ≤ pe → p ≤ l) :
    EH (toks (paren (decide (pe < p)) B)) ∧ Good (max p 6) (toks (paren (decide (pe < p)) B)) e' ∧
      (p = 16 → Hd16 (toks (paren (decide (pe < p)) B))) ∧ (15 ≤ p → Hd15 (toks (paren (decide (pe < p)) B))) := by
  by_cases hq : pe < p
  · have g := good_paren (h.down hl h16 h15 6 hl6)
    have hd : Hd16 (.p .lpar :: (toks B ++ [.p .rpar])) := he.append _
    simp only [paren, hq, decide_true, if_true, toks_append, toks_t, toks_nil, List.cons_append, List.nil_append]
    exact ⟨⟨_, _, rfl, rfl⟩, g.down (by omega) (fun _ => hd) (fun _ => hd.hd15) _ (by omega), fun _ => hd,
      fun _ => hd.hd15⟩
  · simp only [paren, hq, decide_false, Bool.false_eq_true, if_false]
    refine ⟨he, h.down hl h16 h15 _ (by omega), fun h => h16 (by omega), fun h => h15 (by omega)⟩

theorem nameType_decay (t : CTy) : nameType t.decay = nameType t := by
  cases t <;> simp [CTy.decay, nameType, cdecl, CTy.isFnArr]

theorem printed : ∀ e : CE, e.ok = true → ∀ p, p ≤ 16 → (p = 16 → e.isConst = false) → Printed p e
  | .var x, h, p, hp, _ => by
    have hg := good_id x
    have : identOf x = .var x := by
      cases x with
      | nil => rfl
      | cons c x =>
        unfold identOf
        split
        · rename_i heq
          simp only [List.cons.injEq] at heq
          obtain ⟨rfl, rfl⟩ := heq
          simp [CE.ok, varOk] at h
        · rfl
    rw [this] at hg
    exact printed_of (l := 16) (pe := 16) (B := [nm x]) (by omega) (by omega) hg (fun _ => trivial)
      (fun _ => ⟨_, _, rfl, rfl⟩) ⟨_, _, rfl, rfl⟩ p hp (by omega)
  | .temp x, _, p, hp, _ =>
    printed_of (l := 16) (pe := 16) (B := [nm (tempName x)]) (by omega) (by omega) (good_id (tempName x)) (fun _ => trivial)
      (fun _ => ⟨_, _, rfl, rfl⟩) ⟨_, _, rfl, rfl⟩ p hp (by omega)
  | .deref e, h, p, hp, _ => by
    have ih := printed e (by simpa [CE.ok] using h) 15 (by omega) (by omega)
    refine printed_of (l := 15) (pe := 15) (B := pn .star :: expr 15 e) (by omega) (by omega) ?_ (by omega)
      (fun _ => ⟨_, _, rfl, rfl⟩) ⟨_, _, rfl, rfl⟩ p hp (by omega)
    exact good_un .deref (ih.2.1.down14 (ih.2.2.2 (by omega))) (fun n r => by simp [parseE])
  | .unop o e, h, p, hp, _ => by
    have ih := printed e (by simp [CE.ok] at h; exact h.1) 15 (by omega) (by omega)
    refine printed_of (l := 15) (pe := 15) (B := pn o.pn :: expr 15 e) (by omega) (by omega) ?_ (by omega)
      (fun _ => ?_) ⟨_, _, rfl, by cases o <;> rfl⟩ p hp (by omega)
    · refine good_un (.unop o) (ih.2.1.down14 (ih.2.2.2 (by omega))) (fun n r => ?_)
      cases o <;> simp [parseE, UnOp.pn]
    · cases o <;> exact ⟨_, _, rfl, rfl⟩
  | .addrof e, h, p, hp, _ => by
    have ih := printed e (by simp [CE.ok] at h; exact h.1) 15 (by omega) (by omega)
    refine printed_of (l := 15) (pe := 15) (B := pn .amp :: expr 15 e) (by omega) (by omega) ?_ (by omega)
      (fun _ => ⟨_, _, rfl, rfl⟩) ⟨_, _, rfl, rfl⟩ p hp (by omega)
    exact good_un .addrof (ih.2.1.down14 (ih.2.2.2 (by omega))) (fun n r => by simp [parseE])
  | .field e f, h, p, hp, _ => by
    simp [CE.ok] at h
    have ih := printed e h.1.1 16 (by omega) (fun _ => h.1.2)
    have hd := (ih.2.2.1 rfl).append [.p .dot, .id f]
    refine printed_of (l := 16) (pe := 16) (B := expr 16 e ++ [pn .dot, nm f]) (e' := canon (.field e f)) (by omega) (by omega)
      ?_ (fun _ => by simpa using hd) (fun _ => by simpa using hd.hd15) (by simpa using hd.hd15.eh) p hp (by omega)
    have g := ih.2.1
    simp only [Good, Nat.max_def, Nat.reduceLeDiff, if_false, if_true] at g ⊢
    intro rest
    have := g (.p .dot :: .id f :: rest)
    simpa [loopF, canon] using this
  | .cint n true, h, p, hp, hc => by
    simp [CE.ok] at h
    refine printed_of (l := 16) (pe := 16) (B := [.t (.num n .u)]) (by omega) (by omega) (good_num ?_) (fun _ => trivial)
      (fun _ => ⟨_, _, rfl, rfl⟩) ⟨_, _, rfl, rfl⟩ p hp (by omega)
    simp [litOf, h, canon]
  | .clong n true, h, p, hp, hc => by
    simp [CE.ok] at h
    refine printed_of (l := 16) (pe := 16) (B := [.t (.num n .llu)]) (by omega) (by omega) (good_num ?_) (fun _ => trivial)
      (fun _ => ⟨_, _, rfl, rfl⟩) ⟨_, _, rfl, rfl⟩ p hp (by omega)
    simp [litOf, h, canon]
  | .cint n false, h, p, hp, hc => by
    simp [CE.ok] at h
    have hp' : p ≤ 15 := by
      have : p ≠ 16 := fun e => by simp [CE.isConst] at hc; exact hc e
      omega
    by_cases hn : n < 2147483648
    · have := printed_of (l := 16) (pe := 16) (B := [.t (.num n .none)]) (e' := .cint n false) (by omega) (by omega)
        (good_num (by simp [litOf, hn])) (fun _ => trivial) (fun _ => ⟨_, _, rfl, rfl⟩) ⟨_, _, rfl, rfl⟩ p hp (by omega)
      simpa [Printed, expr, signedNum, hn, canon] using this
    · have := printed_of (l := 15) (pe := 16) (B := [pn .minus, .t (.num (2 ^ 32 - n) .none)])
        (e' := .unop .neg (.cint (2 ^ 32 - n) false)) (by omega) (by omega)
        (good_neg (good_num (by simp [litOf]; omega)) trivial) (by omega) (fun _ => ⟨_, _, rfl, rfl⟩) ⟨_, _, rfl, rfl⟩ p hp
        (by omega)
      simpa [Printed, expr, signedNum, hn, canon] using this
  | .clong n false, h, p, hp, hc => by
    simp [CE.ok] at h
    have hp' : p ≤ 15 := by
      have : p ≠ 16 := fun e => by simp [CE.isConst] at hc; exact hc e
      omega
    by_cases hn : n < 9223372036854775808
    · have := printed_of (l := 16) (pe := 16) (B := [.t (.num n .ll)]) (e' := .clong n false) (by omega) (by omega)
        (good_num (by simp [litOf, hn])) (fun _ => trivial) (fun _ => ⟨_, _, rfl, rfl⟩) ⟨_, _, rfl, rfl⟩ p hp (by omega)
      simpa [Printed, expr, signedNum, hn, canon] using this
    · have := printed_of (l := 15) (pe := 16) (B := [pn .minus, .t (.num (2 ^ 64 - n) .ll)])
        (e' := .unop .neg (.clong (2 ^ 64 - n) false)) (by omega) (by omega)
        (good_neg (good_num (by simp [litOf]; omega)) trivial) (by omega) (fun _ => ⟨_, _, rfl, rfl⟩) ⟨_, _, rfl, rfl⟩ p hp
        (by omega)
      simpa [Printed, expr, signedNum, hn, canon] using this
  | .binop o a b, h, p, hp, _ => by
    simp [CE.ok] at h
    have h6 := level_ge o
    have h13 := level_le o
    rw [level_prec] at h6 h13
    have ia := printed a h.1 o.prec (by omega) (by omega)
    have ib := printed b h.2 (o.prec + 1) (by omega) (by omega)
    have g := good_bin (o := o) (by simpa [Nat.max_eq_left h6] using ia.2.1)
      (by simpa [Nat.max_eq_left (Nat.le_succ_of_le h6)] using ib.2.1)
    have := printed_of (l := o.prec) (pe := o.prec) (B := expr o.prec a ++ [.sp, pn o.pn, .sp] ++ expr (o.prec + 1) b)
      (e' := canon (.binop o a b)) (by omega) h6 (by simpa [canon] using g) (by omega) (by omega)
      (by simpa using ia.1.append (.p o.pn :: toks (expr (o.prec + 1) b))) p hp (by omega)
    exact this
  | .cast e t, h, p, hp, _ => by
    simp [CE.ok] at h
    have ih := printed e h.1 14 (by omega) (by omega)
    exact printed_of (l := 14) (pe := 14) (B := [pn .lpar] ++ nameType t ++ [pn .rpar, .sp] ++ expr 14 e)
      (e' := canon (.cast e t)) (by omega) (by omega) (by simpa [canon, nameType_decay] using good_cast h.2 ih.2.1) (by omega) (by omega)
      ⟨.p .lpar, _, rfl, rfl⟩ p hp (by omega)
  | .sizeof t, h, p, hp, _ => by
    simp [CE.ok] at h
    exact printed_of (l := 15) (pe := 15) (B := [kw .sizeof, pn .lpar] ++ nameType t ++ [pn .rpar])
      (e' := canon (.sizeof t)) (by omega) (by omega) (by simpa [canon] using good_sizeof h) (by omega)
      (fun _ => ⟨_, _, rfl, rfl⟩) ⟨_, _, rfl, rfl⟩ p hp (by omega)
  | .alignof t, h, p, hp, _ => by
    simp [CE.ok] at h
    exact printed_of (l := 15) (pe := 15) (B := [kw .alignof, pn .lpar] ++ nameType t ++ [pn .rpar])
      (e' := canon (.alignof t)) (by omega) (by omega) (by simpa [canon] using good_alignof h) (by omega)
      (fun _ => ⟨_, _, rfl, rfl⟩) ⟨_, _, rfl, rfl⟩ p hp (by omega)

end CPrint
