import Verif.CGen.FfiSpec

/-!
# Lemmas about the functions generated for a foreign function
-/

namespace CGen.Ffi

open ANF (Var)

theorem Off.mono {h h' : Th} {a : Nat} (ho : Off h a) (h1 : h.alloc ≤ h'.alloc) (h2 : h'.limit = h.limit) : Off h' a := by
  unfold Off at *; omega

theorem EnvIs.mono {h h' : Th} (hm : ∀ a, Off h a → h'.mem a = h.mem a) (h1 : h.alloc ≤ h'.alloc)
    (h2 : h'.limit = h.limit) : ∀ {as : List CVal} {c : CVal}, EnvIs h c as → EnvIs h' c as
  | [], _, _ => True.intro
  | _ :: _, _, ⟨p, c', e, m1, m2, o1, o2, r⟩ =>
    ⟨p, c', e, by rw [hm _ o1, m1], by rw [hm _ o2, m2], o1.mono h1 h2, o2.mono h1 h2, r.mono hm h1 h2⟩

theorem FClo.mono {h h' : Th} {f as c} (hm : ∀ a, Off h a → h'.mem a = h.mem a) (h1 : h.alloc ≤ h'.alloc)
    (h2 : h'.limit = h.limit) (hc : FClo h f as c) : FClo h' f as c := by
  obtain ⟨p, e, e1, m1, m2, o1, o2, r⟩ := hc
  exact ⟨p, e, e1, by rw [hm _ o1, m1], by rw [hm _ o2, m2], o1.mono h1 h2, o2.mono h1 h2, r.mono hm h1 h2⟩

theorem KIs.mono {h h' : Th} {k kf ke} (hm : ∀ a, Off h a → h'.mem a = h.mem a) (h1 : h.alloc ≤ h'.alloc)
    (h2 : h'.limit = h.limit) (hc : KIs h k kf ke) : KIs h' k kf ke := by
  obtain ⟨p, e1, m1, m2, o1, o2⟩ := hc
  exact ⟨p, e1, by rw [hm _ o1, m1], by rw [hm _ o2, m2], o1.mono h1 h2, o2.mono h1 h2⟩

theorem EnvIs.args {h : Th} {c as} (f : Nat → Option CVal) (he : EnvIs h c as) : EnvIs { h with args := f } c as :=
  EnvIs.mono (h := h) (h' := { h with args := f }) (fun _ _ => rfl) (Nat.le_refl _) rfl he

theorem FClo.args {h : Th} {f as c} (g : Nat → Option CVal) (hc : FClo h f as c) : FClo { h with args := g } f as c :=
  FClo.mono (h := h) (h' := { h with args := g }) (fun _ _ => rfl) (Nat.le_refl _) rfl hc

theorem KIs.args {h : Th} {k kf ke} (g : Nat → Option CVal) (hc : KIs h k kf ke) : KIs { h with args := g } k kf ke :=
  KIs.mono (h := h) (h' := { h with args := g }) (fun _ _ => rfl) (Nat.le_refl _) rfl hc

theorem Loc.put_eq (l : Loc) (x : FVar) (c : CVal) : l.put x c x = some c := by simp [Loc.put]

theorem Loc.put_ne (l : Loc) {x y : FVar} (c : CVal) (h : y ≠ x) : l.put x c y = l y := by simp [Loc.put, h]

/-- The variables after the input is read. -/
structure Entry (o : FOpts) (l : Loc) (e k a : CVal) : Prop where
  env : l .env = some e
  arg : l .arg = some a
  k : o.direct = false → l .k = some k

theorem entry (ext n) (o : FOpts) (e k a : CVal) (h : Th)
    (ha : ∀ i, o.np ≤ i → i < (if o.direct then [e, a] else [e, k, a]).length →
      h.args i = (if o.direct then [e, a] else [e, k, a])[i]?) :
    ∃ l, Entry o l e k a ∧ ∀ ss, execF ext n (handleInput o ++ ss)
      (bindF ((if o.direct then [FVar.env, .arg] else [.env, .k, .arg]).take o.np)
        ((if o.direct then [e, a] else [e, k, a]).take o.np)) h = execF ext n ss l h := by
  obtain ⟨d, np⟩ := o
  have m0 : 0 < maxArgs := by decide
  have m1 : 1 < maxArgs := by decide
  have m2 : 2 < maxArgs := by decide
  cases d
  · simp only [Bool.false_eq_true, if_false] at ha ⊢
    match np with
    | 0 =>
      have a0 := ha 0 (by simp) (by simp)
      have a1 := ha 1 (by simp) (by simp)
      have a2 := ha 2 (by simp) (by simp)
      simp at a0 a1 a2
      refine ⟨((Loc.empty.put .env e).put .k k).put .arg a,
        ⟨by simp [Loc.put], by simp [Loc.put], fun _ => by simp [Loc.put]⟩, fun ss => ?_⟩
      simp [handleInput, execF, evalF, m0, m1, m2, a0, a1, a2, bindF]
    | 1 =>
      have a1 := ha 1 (by simp) (by simp)
      have a2 := ha 2 (by simp) (by simp)
      simp at a1 a2
      refine ⟨((Loc.empty.put .env e).put .k k).put .arg a,
        ⟨by simp [Loc.put], by simp [Loc.put], fun _ => by simp [Loc.put]⟩, fun ss => ?_⟩
      simp [handleInput, execF, evalF, m1, m2, a1, a2, bindF]
    | 2 =>
      have a2 := ha 2 (by simp) (by simp)
      simp at a2
      refine ⟨((Loc.empty.put .k k).put .env e).put .arg a,
        ⟨by simp [Loc.put], by simp [Loc.put], fun _ => by simp [Loc.put]⟩, fun ss => ?_⟩
      simp [handleInput, execF, evalF, m2, a2, bindF]
    | j + 3 =>
      refine ⟨((Loc.empty.put .arg a).put .k k).put .env e,
        ⟨by simp [Loc.put], by simp [Loc.put], fun _ => by simp [Loc.put]⟩, fun ss => ?_⟩
      simp [handleInput, bindF]
  · simp only [if_true] at ha ⊢
    match np with
    | 0 =>
      have a0 := ha 0 (by simp) (by simp)
      have a1 := ha 1 (by simp) (by simp)
      simp at a0 a1
      refine ⟨(Loc.empty.put .env e).put .arg a,
        ⟨by simp [Loc.put], by simp [Loc.put], by simp⟩, fun ss => ?_⟩
      simp [handleInput, execF, evalF, m0, m1, a0, a1, bindF]
    | 1 =>
      have a1 := ha 1 (by simp) (by simp)
      simp at a1
      refine ⟨(Loc.empty.put .env e).put .arg a,
        ⟨by simp [Loc.put], by simp [Loc.put], by simp⟩, fun ss => ?_⟩
      simp [handleInput, execF, evalF, m1, a1, bindF]
    | j + 2 =>
      refine ⟨(Loc.empty.put .arg a).put .env e,
        ⟨by simp [Loc.put], by simp [Loc.put], by simp⟩, fun ss => ?_⟩
      simp [handleInput, bindF]

/-- The state after a block is written. -/
def blk (h : Th) (a b : CVal) : Th :=
  { h with mem := setMem (setMem (setMem h.mem h.alloc (.int 2048)) (h.alloc + 1) a) (h.alloc + 2) b, alloc := h.alloc + 3 }

theorem evalF_int (l : Loc) (h : Th) (z : Int) : evalF l h (.int z) = some (.int z) := rfl

theorem block_ok (ext n) (x : FVar) (ea eb : FExpr) (a b : CVal) (l : Loc) (h : Th) (ss : List FStmt)
    (ha : ∀ c h', evalF (l.put x c) h' ea = some a) (hb : ∀ c h', evalF (l.put x c) h' eb = some b)
    (hr : h.alloc + 3 ≤ h.limit) :
    execF ext n (block x ea eb ++ ss) l h =
      execF ext n ss ((l.put x (.ptr h.alloc)).put x (.ptr (h.alloc + 1))) (blk h a b) := by
  have r0 : h.alloc < h.limit := by omega
  have r1 : h.alloc + 1 < h.limit := by omega
  have r2 : h.alloc + 2 < h.limit := by omega
  simp [block, execF, Loc.put_eq, ha, hb, r0, r1, r2, blk, evalF_int]

theorem block_ub (ext n) (x : FVar) (ea eb : FExpr) (l : Loc) (h : Th) (ss : List FStmt)
    (hr : h.limit < h.alloc + 3) : execF ext n (block x ea eb ++ ss) l h = .ub := by
  simp only [block, List.cons_append, List.nil_append, execF, Loc.put_eq, evalF_int, Nat.add_zero]
  split
  · generalize evalF _ _ ea = va
    cases va with
    | none => rfl
    | some va =>
      simp only
      split
      · generalize evalF _ _ eb = vb
        cases vb with
        | none => rfl
        | some vb =>
          simp only
          rw [if_neg (by omega)]
      · rfl
  · rfl

theorem blk_mem (h : Th) (a b : CVal) (x : Nat) (ho : Off h x) (hr : h.alloc + 3 ≤ h.limit) : (blk h a b).mem x = h.mem x := by
  unfold Off at ho
  simp only [blk, setMem]
  rw [if_neg (by omega), if_neg (by omega), if_neg (by omega)]

theorem blk_0 (h : Th) (a b : CVal) : (blk h a b).mem h.alloc = some (.int 2048) := by
  simp [blk, setMem]

theorem blk_1 (h : Th) (a b : CVal) : (blk h a b).mem (h.alloc + 1) = some a := by
  simp [blk, setMem]

theorem blk_2 (h : Th) (a b : CVal) : (blk h a b).mem (h.alloc + 2) = some b := by
  simp [blk, setMem]

theorem grew_blk (h : Th) (a b : CVal) (hr : h.alloc + 3 ≤ h.limit) : Grew 3 h (blk h a b) :=
  ⟨fun x hx => blk_mem h a b x hx hr, rfl, rfl, rfl, rfl, rfl⟩

theorem Grew.trans {m n h1 h2 h3} (a : Grew m h1 h2) (b : Grew n h2 h3) : Grew (m + n) h1 h3 := by
  obtain ⟨a1, a2, a3, a4, a5, a6⟩ := a
  obtain ⟨b1, b2, b3, b4, b5, b6⟩ := b
  refine ⟨fun x hx => ?_, by omega, by rw [b3, a3], by rw [b4, a4], by rw [b5, a5], by rw [b6, a6]⟩
  rw [b1 x (hx.mono (by omega) a3), a1 x hx]

theorem Grew.args {n h h'} (a : Grew n h h') (f : Nat → Option CVal) : Grew n h { h' with args := f } := a

theorem Grew.args' {n h h'} (f : Nat → Option CVal) (a : Grew n { h with args := f } h') : Grew n h h' := a

theorem final_cps (ext n) (o : FOpts) (hd : o.direct = false) (r : FVar) (l : Loc) (h : Th) (k kf ke v : CVal)
    (hk : l .k = some k) (hK : KIs h k kf ke) (hr : l r = some v) :
    execF ext n (final o r) l h = contWith o.np kf ke v h := by
  obtain ⟨p, rfl, m1, m2, -, -⟩ := hK
  obtain ⟨d, np⟩ := o
  subst hd
  have n0 : 0 < maxArgs := by decide
  have n1 : 1 < maxArgs := by decide
  match np with
  | 0 =>
    simp only [final, Bool.false_eq_true, if_false, List.drop_zero, List.take_zero, List.cons_append, List.nil_append,
      execF, evalF, hk, rd, m1, m2, n0, n1, if_true, hr, evalFs, Nat.add_zero, contWith]
    congr 2
    funext i
    simp only [setArr, passArgs, List.length_cons, List.length_nil]
    match i with
    | 0 => simp
    | 1 => simp
    | i + 2 => simp
  | 1 =>
    simp only [final, Bool.false_eq_true, if_false, List.drop_succ_cons, List.drop_zero, List.take_succ_cons,
      List.take_zero, List.cons_append, List.nil_append,
      execF, evalF, hk, rd, m1, m2, n1, if_true, hr, evalFs, Nat.add_zero, contWith]
    congr 2
    funext i
    simp only [setArr, passArgs, List.length_cons, List.length_nil]
    match i with
    | 0 => simp
    | 1 => simp
    | i + 2 => simp
  | j + 2 =>
    simp only [final, Bool.false_eq_true, if_false, List.drop_succ_cons, List.drop_nil, List.take_succ_cons,
      List.take_nil, List.cons_append, List.nil_append,
      execF, evalF, hk, rd, m1, m2, hr, evalFs, Nat.add_zero, contWith]
    have : passArgs (j + 2) [ke, v] h.args = h.args := by
      funext i
      simp only [passArgs, List.length_cons, List.length_nil]
      rw [if_neg (by omega)]
    rw [this]

theorem final_direct (ext n) (o : FOpts) (hd : o.direct = true) (r : FVar) (l : Loc) (h : Th) (v : CVal)
    (hr : l r = some v) : execF ext n (final o r) l h = .done { h with args := setArr h.args 1 v } := by
  have n1 : 1 < maxArgs := by decide
  simp [final, hd, execF, evalF, hr, n1]

theorem envProj_ok (h : Th) : ∀ {as : List CVal} {c : CVal} {i : Nat} (hi : i < as.length), EnvIs h c as →
    envProj h i (some c) = as[i]?
  | a :: as, _, 0, _, ⟨p, c', e, m1, m2, o1, o2, r⟩ => by subst e; simp [envProj, rd, m1]
  | a :: as, _, i + 1, hi, ⟨p, c', e, m1, m2, o1, o2, r⟩ => by
    subst e
    simp only [envProj, rd, m2, List.getElem?_cons_succ]
    exact envProj_ok h (by simpa using hi) r

theorem extract_ok (ext n) (h : Th) {as : List CVal} {c : CVal} (he : EnvIs h c as) :
    ∀ (m : Nat) (hm : m ≤ as.length) (l : Loc), l .env = some c → ∃ l', (∀ ss, execF ext n
      ((listToZero m).map (fun n => FStmt.set (.argN n) (.proj n .env)) ++ ss) l h = execF ext n ss l' h) ∧
      (∀ i, i < m → l' (.argN i) = as[i]?) ∧ (∀ i, m ≤ i → l' (.argN i) = l (.argN i)) ∧
      (∀ x, (∀ i, x ≠ .argN i) → l' x = l x)
  | 0, _, l, _ => ⟨l, fun _ => rfl, fun i hi => absurd hi (Nat.not_lt_zero i), fun _ _ => rfl, fun _ _ => rfl⟩
  | m + 1, hm, l, hl => by
    have hp := envProj_ok h (show m < as.length from hm) he
    obtain ⟨v, hv⟩ : ∃ v, as[m]? = some v := ⟨as[m], by rw [List.getElem?_eq_getElem]⟩
    obtain ⟨l', e1, e2, e3, e4⟩ := extract_ok ext n h he m (by omega) (l.put (.argN m) v)
      (by rw [Loc.put_ne _ _ (by simp), hl])
    refine ⟨l', fun ss => ?_, fun i hi => ?_, fun i hi => ?_, fun x hx => ?_⟩
    · simp only [listToZero, List.map_cons, List.cons_append, execF, evalF, hl, hp, hv]
      exact e1 ss
    · rcases Nat.lt_succ_iff_lt_or_eq.1 hi with h1 | h1
      · exact e2 i h1
      · subst h1; rw [e3 i (Nat.le_refl _), Loc.put_eq, hv]
    · rw [e3 i (by omega), Loc.put_ne _ _ (by simp; omega)]
    · rw [e4 x hx, Loc.put_ne _ _ (hx m)]

theorem evalFs_args (l : Loc) (h : Th) (as : List CVal) : ∀ (m : Nat), m ≤ as.length → (∀ i, i < m → l (.argN i) = as[i]?) →
    ∀ es cs, evalFs l h es = some cs →
    evalFs l h ((listToZero m).map (fun i => FExpr.var (.argN i)) ++ es) = some ((as.take m).reverse ++ cs)
  | 0, _, _, es, cs, hc => by simpa [listToZero] using hc
  | m + 1, hm, hl, es, cs, hc => by
    have ih := evalFs_args l h as m (by omega) (fun i hi => hl i (by omega)) es cs hc
    have hv := hl m (by omega)
    rw [List.getElem?_eq_getElem (show m < as.length from hm)] at hv
    simp only [listToZero, List.map_cons, List.cons_append, evalFs, evalF, hv, ih]
    rw [List.take_succ_eq_append_getElem (show m < as.length from hm), List.reverse_append]
    rfl

/-- The call of the C function: the values before, the variables after. -/
theorem callExtern_ok (ext) (arity : Nat) (io : Bool) (h : Th) (e a : CVal) (l : Loc) (as : List CVal)
    (he : EnvIs h e as.reverse) (hlen : as.length + (if io then 0 else 1) = arity) (hl : l .env = some e)
    (ha : l .arg = some a) : ∃ l', l' .k = l .k ∧ l' .arg = some a ∧ ∀ ss,
      execF ext arity ((callExtern arity io).2 ++ ss) l h =
        match ext (as ++ if io then [] else [a]) h with
        | none => .ub
        | some (r, h') => execF ext arity ((if io then block .pair (.var .res) (.var .arg) else []) ++ ss)
            (Loc.put l' .res r) h' := by
  cases io
  · simp only [Bool.false_eq_true, if_false] at hlen ⊢
    obtain ⟨l', e1, e2, e3, e4⟩ := extract_ok ext arity h he (arity - 1) (by simp; omega) l hl
    have a' : l' .arg = some a := by rw [e4 _ (by simp), ha]
    refine ⟨l', e4 _ (by simp), a', fun ss => ?_⟩
    have hv := evalFs_args l' h as.reverse (arity - 1) (by simp; omega) e2 [.var .arg] [a] (by simp [evalFs, evalF, a'])
    rw [List.take_of_length_le (by simp; omega), List.reverse_reverse] at hv
    simp only [callExtern, Bool.false_eq_true, if_false, List.append_assoc, e1, List.map_append, List.map_map]
    simp only [List.cons_append, List.nil_append, execF, List.map_cons, List.map_nil, Function.comp_def]
    rw [hv]
    simp only [List.length_append, List.length_cons, List.length_nil]
    rw [if_pos (by omega)]
    split <;> simp_all
  · simp only [if_true] at hlen ⊢
    obtain ⟨l', e1, e2, e3, e4⟩ := extract_ok ext arity h he arity (by simp; omega) l hl
    have a' : l' .arg = some a := by rw [e4 _ (by simp), ha]
    refine ⟨l', e4 _ (by simp), a', fun ss => ?_⟩
    have hv := evalFs_args l' h as.reverse arity (by simp; omega) e2 [] [] (by simp [evalFs])
    rw [List.take_of_length_le (by simp; omega), List.reverse_reverse] at hv
    simp only [callExtern, if_true, List.append_assoc, e1, List.map_append, List.map_map]
    simp only [List.cons_append, List.nil_append, execF, List.map_nil, Function.comp_def]
    rw [hv]
    simp only [List.append_nil]
    rw [if_pos (by omega)]
    split <;> simp_all

/-- Which functions exist. -/
def Has (arity : Nat) (io : Bool) (num : Nat) : Prop := num ≤ arity ∧ (io = false → num = 0 → arity = 0)

theorem curriedFns_find (o : FOpts) (arity : Nat) (io : Bool) (nm : Nat → Var)
    (hi : ∀ i j, i ≤ arity → j ≤ arity → nm i = nm j → i = j) (num : Nat) :
    ∀ m, num ≤ m → m ≤ arity → (io = false → num = 0 → m = 0) →
    ∃ nx, (curriedFns o arity io nm m).find? (·.1 = nm num) = some (nm num, curriedFn o num arity io nx) ∧
      (isLast num io = false → nx = nm (num - 1))
  | 0, h1, _, _ => by
    obtain rfl : num = 0 := by omega
    exact ⟨0, by simp [curriedFns], by simp [isLast]⟩
  | m + 1, h1, h2, h3 => by
    unfold curriedFns
    by_cases hl : isLast (m + 1) io
    · rw [if_pos hl]
      have hm : m = 0 ∧ io = false := by simpa [isLast] using hl
      obtain ⟨rfl, rfl⟩ := hm
      have : num = 1 := by
        rcases Nat.eq_zero_or_pos num with hz | hz
        · exact absurd (h3 rfl hz) (by simp)
        · omega
      subst this
      exact ⟨0, by simp, by simp [isLast]⟩
    · rw [if_neg hl]
      by_cases hn : num = m + 1
      · subst hn
        exact ⟨nm m, by simp, by simp⟩
      · have hne : ¬ nm (m + 1) = nm num := fun h => hn (hi _ _ (by omega) (by omega) h).symm
        obtain ⟨nx, e1, e2⟩ := curriedFns_find o arity io nm hi num m (by omega) (by omega) (fun hio hz => by
          have := h3 hio hz; omega)
        exact ⟨nx, by rw [List.find?_cons_of_neg (by simpa using hne)]; exact e1, e2⟩

theorem callF_ok (ext n) (o : FOpts) (arity : Nat) (io : Bool) (nm : Nat → Var)
    (hi : ∀ i j, i ≤ arity → j ≤ arity → nm i = nm j → i = j) (num : Nat) (hh : Has arity io num) (e k a : CVal) (h : Th) :
    ∃ nx l, Entry o l e k a ∧ (isLast num io = false → nx = nm (num - 1)) ∧
      let r := if isLast num io then callExtern arity io else makeClo nx
      let vs := if o.direct then [e, a] else [e, k, a]
      callF ext n (curriedFns o arity io nm arity) (nm num) (vs.take o.np) { h with args := passArgs o.np vs h.args } =
        execF ext n (r.2 ++ final o r.1) l { h with args := passArgs o.np vs h.args } := by
  obtain ⟨nx, f1, f2⟩ := curriedFns_find o arity io nm hi num arity hh.1 (Nat.le_refl _) hh.2
  obtain ⟨l, en, ex⟩ := entry ext n o e k a { h with args := passArgs o.np (if o.direct then [e, a] else [e, k, a]) h.args }
    (fun i h1 h2 => by simp only [passArgs]; rw [if_pos ⟨h1, h2⟩])
  refine ⟨nx, l, en, f2, ?_⟩
  simp only [callF, f1, curriedFn]
  rw [if_pos (by cases o.direct <;> simp), List.append_assoc]
  exact ex _

/-- What a function that makes a closure does before it passes it on. -/
theorem makeClo_ok (ext n) (nx : Var) (l : Loc) (h : Th) (e a : CVal) (as : List CVal) (hl : l .env = some e)
    (ha : l .arg = some a) (he : EnvIs h e as.reverse) (hr : h.alloc + 6 ≤ h.limit) :
    ∃ l' h' c, (∀ ss, execF ext n ((makeClo nx).2 ++ ss) l h = execF ext n ss l' h') ∧ l' .k = l .k ∧
      l' (makeClo nx).1 = some c ∧ h'.args = h.args ∧ Grew 6 h h' ∧ FClo h' nx (as ++ [a]) c := by
  have g1 := grew_blk h a e (by omega)
  have hr2 : (blk h a e).alloc + 3 ≤ (blk h a e).limit := by simp only [blk]; omega
  have g2 := grew_blk (blk h a e) (.fn nx) (.ptr (h.alloc + 1)) hr2
  have g := g1.trans g2
  have b2a : (blk (blk h a e) (.fn nx) (.ptr (h.alloc + 1))).alloc = h.alloc + 6 := by simp [blk]
  have o1 : Off (blk h a e) (h.alloc + 1) := Or.inl (by simp [blk])
  have o2 : Off (blk h a e) (h.alloc + 2) := Or.inl (by simp [blk])
  have al : (blk h a e).alloc = h.alloc + 3 := rfl
  refine ⟨(((l.put .newEnv (.ptr h.alloc)).put .newEnv (.ptr (h.alloc + 1))).put .newClo (.ptr (blk h a e).alloc)).put .newClo
    (.ptr ((blk h a e).alloc + 1)), blk (blk h a e) (.fn nx) (.ptr (h.alloc + 1)), .ptr (h.alloc + 4), fun ss => ?_, ?_, ?_, rfl, g, ?_⟩
  · rw [makeClo, List.append_assoc]
    rw [block_ok ext n .newEnv (.var .arg) (.var .env) a e l h _ (fun c h' => by simp [evalF, Loc.put, ha])
      (fun c h' => by simp [evalF, Loc.put, hl]) (by omega)]
    rw [block_ok ext n .newClo (.fn nx) (.var .newEnv) (.fn nx) (.ptr (h.alloc + 1)) _ _ _ (fun c h' => by simp [evalF])
      (fun c h' => by simp [evalF, Loc.put]) hr2]
  · simp [Loc.put]
  · simp [makeClo, Loc.put, blk]
  · refine ⟨h.alloc + 4, .ptr (h.alloc + 1), rfl, ?_, ?_, Or.inl (by omega), Or.inl (by omega), ?_⟩
    · exact blk_1 (blk h a e) _ _
    · exact blk_2 (blk h a e) _ _
    · rw [List.reverse_append]
      refine ⟨h.alloc + 1, e, rfl, ?_, ?_, Or.inl (by omega), Or.inl (by omega), he.mono g.1 (by omega) rfl⟩
      · rw [g2.1 _ o1, blk_1]
      · rw [g2.1 _ o2, blk_2]

theorem received_contWith (np : Nat) (kf ke v : CVal) (h : Th) :
    received np (contWith np kf ke v h) = some (v, { h with args := passArgs np [ke, v] h.args }) := by
  match np with
  | 0 => simp [received, contWith, passArgs]
  | 1 => simp [received, contWith, passArgs]
  | j + 2 => simp [received, contWith]

/-- A statement that does not return a value. -/
def FStmt.void : FStmt → Bool
  | .ret (some _) => false
  | _ => true

theorem execF_void (ext n) : ∀ (ss : List FStmt) (l : Loc) (h : Th), ss.all FStmt.void → ∀ c h', execF ext n ss l h ≠ .ret c h'
  | [], _, _, _, _, _ => by simp [execF]
  | s :: ss, l, h, hv, c, h' => by
    obtain ⟨hs, hv⟩ : s.void ∧ ss.all FStmt.void := by simpa using hv
    have ih := fun l h => execF_void ext n ss l h hv c h'
    cases s
    case ret e => cases e with
      | none => simp [execF]
      | some e => simp [FStmt.void] at hs
    all_goals simp only [execF]
    all_goals (repeat' split)
    all_goals first | exact ih _ _ | simp

theorem curriedFn_void (o num arity io nx) : (curriedFn o num arity io nx).body.all FStmt.void := by
  have hi : (handleInput o).all FStmt.void := by
    rw [List.all_eq_true]
    intro s hs
    have := List.mem_of_mem_drop hs
    split at this <;> simp at this <;> rcases this with h | h <;> (try rcases h with h | h) <;> subst_vars <;> rfl
  have hf : ∀ r, (final o r).all FStmt.void := by
    intro r
    unfold final
    split
    · rfl
    · simp only [List.all_append, List.all_cons, List.all_nil, FStmt.void, Bool.and_true, List.all_eq_true]
      intro s hs
      have := List.mem_of_mem_drop hs
      simp at this
      rcases this with h | h <;> subst h <;> rfl
  have hb : ∀ x a b, (block x a b).all FStmt.void := fun _ _ _ => rfl
  simp only [curriedFn, List.all_append, hi, hf, Bool.and_true, Bool.true_and]
  split
  · unfold callExtern
    cases io
    · simp [FStmt.void]
    · simp [FStmt.void, hb]
  · simp [makeClo, hb]

theorem callF_void (ext n o arity io nm m f cs h) (c : CVal) (h' : Th) :
    callF ext n (curriedFns o arity io nm m) f cs h ≠ .ret c h' := by
  have key : ∀ m, ∀ p ∈ curriedFns o arity io nm m, p.2.body.all FStmt.void := by
    intro m
    induction m with
    | zero => intro p hp; simp only [curriedFns, List.mem_singleton] at hp; subst hp; exact curriedFn_void ..
    | succ m ih =>
      intro p hp
      unfold curriedFns at hp
      split at hp
      · simp only [List.mem_singleton] at hp; subst hp; exact curriedFn_void ..
      · rcases List.mem_cons.1 hp with hp | hp
        · subst hp; exact curriedFn_void ..
        · exact ih p hp
  unfold callF
  split
  · next g F hF =>
    split
    · exact execF_void ext n _ _ _ (key m _ (List.mem_of_find?_eq_some hF)) c h'
    · simp
  · simp

end CGen.Ffi
