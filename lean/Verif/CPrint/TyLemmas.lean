import Verif.CPrint.Spec

/-!
# Printed types are read back: lemmas on tokens
-/

namespace CPrint

/-- Holds for every large enough bound. -/
def Ev (P : Nat → Prop) : Prop := ∃ N, ∀ n, N ≤ n → P n

theorem Ev.one {P Q : Nat → Prop} (h : Ev P) (f : ∀ n, P n → Q (n + 1)) : Ev Q := by
  obtain ⟨N, hN⟩ := h
  refine ⟨N + 1, fun n hn => ?_⟩
  obtain ⟨m, rfl⟩ : ∃ m, n = m + 1 := ⟨n - 1, by omega⟩
  exact f m (hN m (by omega))

theorem Ev.two {P Q R : Nat → Prop} (h : Ev P) (g : Ev Q) (f : ∀ n, P n → Q n → R (n + 1)) : Ev R := by
  obtain ⟨N, hN⟩ := h
  obtain ⟨M, hM⟩ := g
  refine ⟨N + M + 1, fun n hn => ?_⟩
  obtain ⟨m, rfl⟩ : ∃ m, n = m + 1 := ⟨n - 1, by omega⟩
  exact f m (hN m (by omega)) (hM m (by omega))

theorem Ev.zero {Q : Nat → Prop} (f : ∀ n, Q (n + 1)) : Ev Q := by
  refine ⟨1, fun n hn => ?_⟩
  obtain ⟨m, rfl⟩ : ∃ m, n = m + 1 := ⟨n - 1, by omega⟩
  exact f m

theorem Ev.imp {P Q : Nat → Prop} (h : Ev P) (f : ∀ n, P n → Q n) : Ev Q := by
  obtain ⟨N, hN⟩ := h
  exact ⟨N, fun n hn => f n (hN n hn)⟩

theorem Ev.and {P Q : Nat → Prop} (h : Ev P) (g : Ev Q) : Ev fun n => P n ∧ Q n := by
  obtain ⟨N, hN⟩ := h
  obtain ⟨M, hM⟩ := g
  exact ⟨N + M, fun n hn => ⟨hN n (by omega), hM n (by omega)⟩⟩

theorem Ev.get {P : Nat → Prop} (h : Ev P) : ∃ n, P n := by
  obtain ⟨N, hN⟩ := h
  exact ⟨N, hN N (Nat.le_refl _)⟩

/-- The tokens of what is printed. -/
def toks : List Piece → List Tok
  | [] => []
  | .t x :: l => x :: toks l
  | _ :: l => toks l

@[simp] theorem toks_nil : toks [] = [] := rfl
@[simp] theorem toks_t (x l) : toks (.t x :: l) = x :: toks l := rfl
@[simp] theorem toks_sp (l) : toks (.sp :: l) = toks l := rfl
@[simp] theorem toks_cmt (l) : toks (.cmt :: l) = toks l := rfl
@[simp] theorem toks_append (a b : List Piece) : toks (a ++ b) = toks a ++ toks b := by
  induction a with
  | nil => rfl
  | cons x a ih => cases x <;> simp [toks, ih]

/-- What may follow a declarator. -/
def FollowD : List Tok → Bool
  | .p .star :: _ => false
  | .p .lpar :: _ => false
  | .p .lbrk :: _ => false
  | .id _ :: _ => false
  | _ => true

/-- These tokens are a declarator of `x` with derivations `ds`. -/
def DeclOK (d : List Tok) (x : Option Name) (ds : List Deriv) : Prop :=
  ∀ rest, FollowD rest = true → Ev fun n => parseDecl n (d ++ rest) = some (x, ds, rest)

/-- These tokens are a direct declarator. -/
def DirOK (d : List Tok) (x : Option Name) (ds : List Deriv) : Prop :=
  (∃ t r, d = t :: r ∧ t ≠ .p .star) ∧
  ∀ S sd rest, Ev (fun n => parseSuf n (S ++ rest) = some (sd, rest)) →
    Ev fun n => parseDirect n (d ++ (S ++ rest)) = some (x, ds ++ sd, rest)

theorem parseSuf_follow {rest : List Tok} (h : FollowD rest = true) : Ev fun n => parseSuf n rest = some ([], rest) := by
  refine Ev.zero fun n => ?_
  match rest, h with
  | [], _ => simp [parseSuf]
  | .id _ :: _, h => simp [FollowD] at h
  | .kw _ :: _, _ => simp [parseSuf]
  | .num _ _ :: _, _ => simp [parseSuf]
  | .p q :: r, h => cases q <;> simp_all [parseSuf, FollowD]

theorem DirOK.decl {d x ds} (h : DirOK d x ds) : DeclOK d x ds := by
  intro rest hr
  have h2 := h.2 [] [] rest (by simpa using parseSuf_follow hr)
  obtain ⟨t, r, rfl, ht⟩ := h.1
  refine h2.one fun n hn => ?_
  simp only [List.nil_append, List.append_nil, List.cons_append] at hn ⊢
  have : parseDecl (n + 1) (t :: (r ++ rest)) = parseDirect n (t :: (r ++ rest)) := by
    cases t with
    | p q => cases q <;> simp_all [parseDecl]
    | _ => simp [parseDecl]
  rw [this, hn]

theorem declOK_nil : DeclOK [] none [] := by
  intro rest hr
  have h := parseSuf_follow hr
  have h1 : Ev fun n => parseDirect n rest = some (none, [], rest) := by
    refine h.one fun n hn => ?_
    match rest, hr, hn with
    | [], _, hn => simp [parseDirect, hn]
    | .id _ :: _, hr, _ => simp [FollowD] at hr
    | .kw _ :: _, _, hn => simp [parseDirect, hn]
    | .num _ _ :: _, _, hn => simp [parseDirect, hn]
    | .p q :: r, hr, hn => cases q <;> simp_all [parseDirect, FollowD]
  refine h1.one fun n hn => ?_
  match rest, hr, hn with
  | [], _, hn => simpa [parseDecl] using hn
  | .id _ :: _, hr, _ => simp [FollowD] at hr
  | .kw _ :: _, _, hn => simpa [parseDecl] using hn
  | .num _ _ :: _, _, hn => simpa [parseDecl] using hn
  | .p q :: r, hr, hn => cases q <;> simp_all [parseDecl, FollowD]

theorem dirOK_id (x : Name) : DirOK [.id x] (some x) [] := by
  refine ⟨⟨_, _, rfl, by simp⟩, fun S sd rest h => h.one fun n hn => ?_⟩
  simp [parseDirect, hn]

theorem DeclOK.star {d x ds} (h : DeclOK d x ds) : DeclOK (.p .star :: d) x (ds ++ [.ptr]) := by
  intro rest hr
  refine (h rest hr).one fun n hn => ?_
  simp [parseDecl, hn]

theorem DeclOK.paren {d x ds} (h : DeclOK (.p .star :: d) x ds) : DirOK (.p .lpar :: .p .star :: (d ++ [.p .rpar])) x ds := by
  refine ⟨⟨_, _, rfl, by simp⟩, fun S sd rest hs => ?_⟩
  have h1 := h (.p .rpar :: (S ++ rest)) rfl
  refine h1.two hs fun n a b => ?_
  simp only [List.cons_append] at a
  simp [parseDirect, tyStart, a, b]

theorem DirOK.arr {d x ds} (h : DirOK d x ds) (k : Nat) :
    DirOK (d ++ [.p .lbrk, .num k .none, .p .rbrk]) x (ds ++ [.arr k]) := by
  obtain ⟨⟨t, r, rfl, ht⟩, h2⟩ := h
  refine ⟨⟨t, _, rfl, ht⟩, fun S sd rest hs => ?_⟩
  have h3 := h2 (.p .lbrk :: .num k .none :: .p .rbrk :: S) (.arr k :: sd) rest
    (hs.one fun n a => by simp [parseSuf, a])
  simpa using h3

theorem DirOK.fn {d x ds} (h : DirOK d x ds) {A : List Tok} {ps va}
    (hA : ∀ rest, Ev fun n => parseParams n (A ++ .p .rpar :: rest) = some (ps, va, rest)) :
    DirOK (d ++ (.p .lpar :: (A ++ [.p .rpar]))) x (ds ++ [.fn ps va]) := by
  obtain ⟨⟨t, r, rfl, ht⟩, h2⟩ := h
  refine ⟨⟨t, _, rfl, ht⟩, fun S sd rest hs => ?_⟩
  have h3 := h2 (.p .lpar :: (A ++ .p .rpar :: S)) (.fn ps va :: sd) rest
    ((hA (S ++ rest)).two hs fun n a b => by simp [parseSuf, a, b])
  simpa using h3

/-- A base type is read back. -/
theorem parseBase_pieces (b : Base) (rest : List Tok) : parseBase (toks b.pieces ++ rest) = some (b, rest) := by
  cases b <;> simp [Base.pieces, parseBase]

theorem tyStart_pieces (b : Base) (rest : List Tok) : tyStart (toks b.pieces ++ rest) = true := by
  cases b <;> simp [Base.pieces, tyStart]

/-- The list of types. -/
def CTys.list : CTys → List CTy
  | .nil => []
  | .cons t ts => t :: ts.list

theorem CTys.ofList_list : ∀ ts : CTys, CTys.ofList ts.list = ts
  | .nil => rfl
  | .cons t ts => by simp [CTys.list, CTys.ofList, CTys.ofList_list ts]

theorem wrap_snoc (ds : List Deriv) (d : Deriv) (t : CTy) : wrap (ds ++ [d]) t = wrap ds (d.app t) := by
  simp [wrap]

theorem CTy.absOk_ok {t : CTy} (h : t.absOk = true) : t.ok = true ∧ t.isFnArr = false := by
  cases t <;> simp_all [CTy.absOk, CTy.isFnArr]

theorem CTy.argOk_isFnArr {t : CTy} (h : t.argOk = true) : t.isFnArr = false := by
  cases t <;> simp_all [CTy.argOk, CTy.isFnArr]

/-- A list of parameters that is not `void`. -/
theorem parseParams_list {ts : List Tok} (h : ∀ r', ts ≠ .kw .void :: .p .rpar :: r') {x}
    (hp : Ev fun n => parsePList n ts = some x) : Ev fun n => parseParams n ts = some x := by
  refine hp.one fun n hn => ?_
  unfold parseParams
  split
  · simp_all
  · exact absurd rfl (h _)
  · simp_all

theorem base_first (b : Base) (r : List Tok) : ∃ k r', toks b.pieces ++ r = .kw k :: r' := by
  cases b <;> simp [Base.pieces]

theorem cdecl_first : ∀ (t : CTy) (D : List Piece) (r : List Tok), ∃ k r', toks (cdecl t D) ++ r = .kw k :: r'
  | .base b, D, r => by
    simp only [cdecl, toks_append, List.append_assoc]
    exact base_first b _
  | .ptr t, D, r => by simpa [cdecl] using cdecl_first t _ r
  | .arr t n, D, r => by simpa [cdecl] using cdecl_first t _ r
  | .fn _ _ t, D, r => by simpa [cdecl] using cdecl_first t _ r

theorem cdecl_tyStart : ∀ (t : CTy) (D : List Piece) (r : List Tok), tyStart (toks (cdecl t D) ++ r) = true
  | .base b, D, r => by
    simp only [cdecl, toks_append, List.append_assoc]
    exact tyStart_pieces b _
  | .ptr t, D, r => by simpa [cdecl] using cdecl_tyStart t _ r
  | .arr t n, D, r => by simpa [cdecl] using cdecl_tyStart t _ r
  | .fn _ _ t, D, r => by simpa [cdecl] using cdecl_tyStart t _ r

theorem cdecl_star_void : ∀ (t : CTy) (D : List Piece) (r r' : List Tok) (x : Tok) (d : List Tok), toks D = x :: d →
    x ≠ .p .rpar → toks (cdecl t D) ++ r ≠ .kw .void :: .p .rpar :: r'
  | .base b, D, r, r', x, d, h, hx => by
    have : toks (if D = [] then [] else Piece.sp :: D) = x :: d := by
      by_cases hD : D = [] <;> simp_all
    cases b <;> simp_all [cdecl, Base.pieces]
  | .ptr t, D, r, r', x, d, h, hx => by
    cases hf : t.isFnArr with
    | true => simpa [cdecl, hf] using cdecl_star_void t _ r r' (.p .lpar) (.p .star :: (toks D ++ [.p .rpar])) (by simp) (by simp)
    | false => simpa [cdecl, hf] using cdecl_star_void t (pn .star :: D) r r' (.p .star) (toks D) (by simp) (by simp)
  | .arr t n, D, r, r', x, d, h, hx => by
    simpa [cdecl] using cdecl_star_void t (D ++ [pn .lbrk, .t (.num n .none), pn .rbrk]) r r' x _ (by simp [h]; rfl) hx
  | .fn args va t, D, r, r', x, d, h, hx => by
    have hD : D ≠ [] := by rintro rfl; simp at h
    simpa [cdecl, hD] using cdecl_star_void t (D ++ ([pn .lpar] ++ cdeclArgs args va true ++ [pn .rpar])) r r' x _ (by simp [h]; rfl) hx

theorem cdecl_void (t : CTy) (h : t.argOk = true) (r r' : List Tok) : toks (cdecl t []) ++ r ≠ .kw .void :: .p .rpar :: r' := by
  match t, h with
  | .base b, h => cases b <;> simp_all [cdecl, Base.pieces, CTy.argOk]
  | .ptr t, _ =>
    cases hf : t.isFnArr with
    | true => simpa [cdecl, hf] using cdecl_star_void t [pn .lpar, pn .star, pn .rpar] r r' (.p .lpar) _ rfl (by simp)
    | false => simpa [cdecl, hf] using cdecl_star_void t [pn .star] r r' (.p .star) _ rfl (by simp)

/-- The tokens are a base type and a declarator, together the type `t` for the derivations behind `ds`. -/
def SplitOK (ts : List Tok) (x : Option Name) (ds : List Deriv) (t : CTy) (rest : List Tok) : Prop :=
  ∃ b r, parseBase ts = some (b, r) ∧
    ∃ ds', Ev (fun n => parseDecl n r = some (x, ds ++ ds', rest)) ∧ wrap ds' (.base b) = t

theorem SplitOK.ty {ts x ds t rest} (h : SplitOK ts x ds t rest) : Ev fun n => parseTy n ts = some (x, wrap ds t, rest) := by
  obtain ⟨b, r, hb, ds', hd, rfl⟩ := h
  refine hd.one fun n hn => ?_
  simp [parseTy, hb, hn, wrap]

theorem SplitOK.snoc {ts x ds d t rest} (h : SplitOK ts x (ds ++ [d]) t rest) : SplitOK ts x ds (d.app t) rest := by
  obtain ⟨b, r, hb, ds', hd, rfl⟩ := h
  exact ⟨b, r, hb, d :: ds', by simpa using hd, rfl⟩

mutual
/-- A printed type with its declarator is read back. -/
theorem cdecl_split : ∀ t : CTy, t.ok = true → ∀ D x ds,
    (DirOK (toks D) x ds ∨ (t.isFnArr = false ∧ DeclOK (toks D) x ds)) → ∀ rest, FollowD rest = true →
    SplitOK (toks (cdecl t D) ++ rest) x ds t rest
  | .base b, _, D, x, ds, h, rest, hr => by
    have hd : DeclOK (toks D) x ds := h.elim DirOK.decl (·.2)
    have : toks (cdecl (.base b) D) ++ rest = toks b.pieces ++ (toks D ++ rest) := by
      by_cases hD : D = [] <;> simp [cdecl, hD]
    exact ⟨b, toks D ++ rest, by rw [this, parseBase_pieces], [], by simpa using hd rest hr, rfl⟩
  | .ptr t, ht, D, x, ds, h, rest, hr => by
    have hd : DeclOK (toks D) x ds := h.elim DirOK.decl (·.2)
    have ht' : t.ok = true := by simpa [CTy.ok] using ht
    have ih := cdecl_split t ht' (if t.isFnArr then [pn .lpar, pn .star] ++ D ++ [pn .rpar] else pn .star :: D) x (ds ++ [.ptr])
      (by
        cases hf : t.isFnArr with
        | true => left; simpa using hd.star.paren
        | false => right; exact ⟨rfl, by simpa using hd.star⟩) rest hr
    simpa [cdecl, Deriv.app] using ih.snoc
  | .arr t k, ht, D, x, ds, h, rest, hr => by
    have hd : DirOK (toks D) x ds := h.elim id (by simp [CTy.isFnArr])
    have ih := cdecl_split t (by simpa [CTy.ok] using ht) (D ++ [pn .lbrk, .t (.num k .none), pn .rbrk]) x (ds ++ [.arr k])
      (Or.inl (by simpa using hd.arr k)) rest hr
    simpa [cdecl, Deriv.app] using ih.snoc
  | .fn args va res, ht, D, x, ds, h, rest, hr => by
    have hd : DirOK (toks D) x ds := h.elim id (by simp [CTy.isFnArr])
    have hD : D ≠ [] := by
      rintro rfl
      obtain ⟨⟨t, r, h, _⟩, _⟩ := hd
      simp at h
    simp only [CTy.ok, Bool.and_eq_true, Bool.or_eq_true, Bool.not_eq_true'] at ht
    have hA := cdeclArgs_ok args ht.1.1 va ht.1.2
    have ih := cdecl_split res ht.2 (D ++ ([pn .lpar] ++ cdeclArgs args va true ++ [pn .rpar])) x
      (ds ++ [.fn (args.list.map (none, ·)) va])
      (Or.inl (by simpa using hd.fn hA)) rest hr
    simpa [cdecl, hD, Deriv.app, Function.comp_def, CTys.ofList_list] using ih.snoc
/-- Printed argument types are read back. -/
theorem cdeclArgs_ok : ∀ ts : CTys, ts.ok = true → ∀ va, (va = false ∨ ts.nonempty = true) → ∀ rest,
    Ev fun n => parseParams n (toks (cdeclArgs ts va true) ++ .p .rpar :: rest) = some (ts.list.map (none, ·), va, rest)
  | .nil, _, va, hv, rest => by
    have : va = false := by simpa [CTys.nonempty] using hv
    subst this
    exact Ev.zero fun n => by simp [cdeclArgs, parseParams, CTys.list]
  | .cons t ts, h, va, _, rest => by
    simp only [CTys.ok, Bool.and_eq_true] at h
    have hl := cdeclList_ok ts h.2 va (toks (cdecl t [])) t
      (fun rest hr => (cdecl_split t h.1.2 [] none [] (Or.inr ⟨t.argOk_isFnArr h.1.1, declOK_nil⟩) rest hr).ty) rest
    refine parseParams_list ?_ (by simpa [cdeclArgs, CTys.list] using hl)
    intro r' he
    exact cdecl_void t h.1.1 _ r' (by simpa [cdeclArgs] using he)
/-- Behind an argument. -/
theorem cdeclList_ok : ∀ ts : CTys, ts.ok = true → ∀ (va : Bool) (T : List Tok) (t : CTy),
    (∀ rest, FollowD rest = true → Ev fun n => parseTy n (T ++ rest) = some (none, t, rest)) → ∀ rest,
    Ev fun n => parsePList n (T ++ (toks (cdeclArgs ts va false) ++ .p .rpar :: rest)) =
      some ((none, t) :: ts.list.map (none, ·), va, rest)
  | .nil, h, va, T, t, hT, rest => by
    cases va with
    | false =>
      refine (hT (.p .rpar :: rest) rfl).one fun n hn => ?_
      simp [cdeclArgs, parsePList, hn, CTys.list]
    | true =>
      refine (hT (.p .comma :: .p .dots :: .p .rpar :: rest) rfl).one fun n hn => ?_
      simp [cdeclArgs, parsePList, hn, CTys.list]
  | .cons u us, h, va, T, t, hT, rest => by
    simp only [CTys.ok, Bool.and_eq_true] at h
    have ih := cdeclList_ok us h.2 va (toks (cdecl u [])) u
      (fun rest hr => (cdecl_split u h.1.2 [] none [] (Or.inr ⟨u.argOk_isFnArr h.1.1, declOK_nil⟩) rest hr).ty) rest
    refine (hT (.p .comma :: (toks (cdecl u []) ++ (toks (cdeclArgs us va false) ++ .p .rpar :: rest))) rfl).two ih
      fun n a b => ?_
    obtain ⟨k, r', hk⟩ := cdecl_first u [] (toks (cdeclArgs us va false) ++ .p .rpar :: rest)
    rw [hk] at a b
    simp [cdeclArgs, CTys.list, parsePList, hk, a, b]
end

/-- A printed type with its declarator is read back. -/
theorem cdecl_ok (t : CTy) (ht : t.ok = true) (D x ds)
    (h : DirOK (toks D) x ds ∨ (t.isFnArr = false ∧ DeclOK (toks D) x ds)) (rest) (hr : FollowD rest = true) :
    Ev fun n => parseTy n (toks (cdecl t D) ++ rest) = some (x, wrap ds t, rest) :=
  (cdecl_split t ht D x ds h rest hr).ty

end CPrint
