import Verif.ANF.UncModel
import Verif.ANF.Flex

/-!
# Uncurrying: simulation of one round

`PE k` relates a term to one in which some curried functions have been split with names not below `k`; a pass is a chain
of such rounds (Verif.ANF.UncChain).
-/

namespace ANF
namespace Unc

mutual
/-- Terms: congruence. -/
inductive PE (k : Nat) : Exp → Exp → Prop
  | constr {x t ys e e'} : PE k e e' → PE k (.constr x t ys e) (.constr x t ys e')
  | case {x bs bs'} : PB k bs bs' → PE k (.case x bs) (.case x bs')
  | proj {x t n y e e'} : PE k e e' → PE k (.proj x t n y e) (.proj x t n y e')
  | letapp {x f ft ys e e'} : PE k e e' → PE k (.letapp x f ft ys e) (.letapp x f ft ys e')
  | fn {B B' e e'} : PD k B B' → PE k e e' → PE k (.fn B e) (.fn B' e')
  | app {f ft ys} : PE k (.app f ft ys) (.app f ft ys)
  | primVal {x p e e'} : PE k e e' → PE k (.primVal x p e) (.primVal x p e')
  | prim {x p ys e e'} : PE k e e' → PE k (.prim x p ys e) (.prim x p ys e')
  | halt {x} : PE k (.halt x) (.halt x)
/-- Branches: congruence. -/
inductive PB (k : Nat) : Brs → Brs → Prop
  | nil : PB k .nil .nil
  | cons {t e e' bs bs'} : PE k e e' → PB k bs bs' → PB k (.cons t e bs) (.cons t e' bs')
/-- Bundles: congruence, or a curried function is split in two. -/
inductive PD (k : Nat) : Defs → Defs → Prop
  | nil : PD k .nil .nil
  | cons {f ft xs e e' B B'} : PE k e e' → PD k B B' → PD k (.cons f ft xs e B) (.cons f ft xs e' B')
  | unc {f ft pre fv fv1 g gt gv gv1 ge ge' tail f1 ft1 B B'} : PE k ge ge' → PD k B B' → k ≤ f1 → f1 ∉ B'.names →
      (∀ x ∈ gv1 ++ fv1, k ≤ x) → f1 ∉ gv1 ++ fv1 → (gv1 ++ fv1).Nodup → gv1.length = gv.length →
      fv1.length = fv.length → g ∉ ge.fv →
      (pre = [] ∧ tail = .halt g ∨ ∃ q qt, pre = [q] ∧ tail = .app q qt [g] ∧ q ∉ ge.fv) →
      PD k (.cons f ft (pre ++ fv) (.fn (.cons g gt gv ge .nil) tail) B)
        (.cons f ft (pre ++ fv1) (.fn (.cons g gt gv1 (.app f1 ft1 (gv1 ++ fv1)) .nil) tail)
          (.cons f1 ft1 (gv ++ fv) ge' B'))
end

mutual
theorem PE.refl (k : Nat) : ∀ e, PE k e e
  | .constr _ _ _ e => .constr (PE.refl k e)
  | .case _ bs => .case (PB.refl k bs)
  | .proj _ _ _ _ e => .proj (PE.refl k e)
  | .letapp _ _ _ _ e => .letapp (PE.refl k e)
  | .fn B e => .fn (PD.refl k B) (PE.refl k e)
  | .app _ _ _ => .app
  | .primVal _ _ e => .primVal (PE.refl k e)
  | .prim _ _ _ e => .prim (PE.refl k e)
  | .halt _ => .halt
theorem PB.refl (k : Nat) : ∀ bs, PB k bs bs
  | .nil => .nil
  | .cons _ e bs => .cons (PE.refl k e) (PB.refl k bs)
theorem PD.refl (k : Nat) : ∀ B, PD k B B
  | .nil => .nil
  | .cons _ _ _ e B => .cons (PE.refl k e) (PD.refl k B)
end

/-- All variables of a term are below a bound. -/
def Below (k : Nat) (e : Exp) : Prop := (∀ x ∈ e.fv, x < k) ∧ ∀ x ∈ e.bv, x < k
/-- The same for branches. -/
def BelowB (k : Nat) (bs : Brs) : Prop := (∀ x ∈ bs.fv, x < k) ∧ ∀ x ∈ bs.bv, x < k
/-- The same for bundles. -/
def BelowD (k : Nat) (B : Defs) : Prop := (∀ x ∈ B.fvRaw, x < k) ∧ ∀ x ∈ B.bv, x < k

theorem Below.constr {k x t ys e} : Below k (.constr x t ys e) ↔ x < k ∧ (∀ y ∈ ys, y < k) ∧ Below k e := by
  simp only [Below, Exp.fv, Exp.bv, Finset.mem_union, List.mem_toFinset, Finset.mem_erase, List.mem_cons]
  constructor
  · rintro ⟨h1, h2⟩
    refine ⟨h2 x (.inl rfl), fun y hy => h1 y (.inl hy), fun y hy => ?_, fun y hy => h2 y (.inr hy)⟩
    by_cases hyx : y = x
    · subst hyx; exact h2 y (.inl rfl)
    · exact h1 y (.inr ⟨hyx, hy⟩)
  · rintro ⟨h1, h2, h3, h4⟩
    exact ⟨fun y hy => hy.elim (h2 y) (fun h => h3 y h.2), fun y hy => hy.elim (fun h => h ▸ h1) (h4 y)⟩

theorem Below.proj {k x t n y e} : Below k (.proj x t n y e) ↔ x < k ∧ y < k ∧ Below k e := by
  simp only [Below, Exp.fv, Exp.bv, Finset.mem_insert, Finset.mem_erase, List.mem_cons]
  constructor
  · rintro ⟨h1, h2⟩
    refine ⟨h2 x (.inl rfl), h1 y (.inl rfl), fun z hz => ?_, fun z hz => h2 z (.inr hz)⟩
    by_cases hzx : z = x
    · subst hzx; exact h2 z (.inl rfl)
    · exact h1 z (.inr ⟨hzx, hz⟩)
  · rintro ⟨h1, h2, h3, h4⟩
    exact ⟨fun z hz => hz.elim (fun h => h ▸ h2) (fun h => h3 z h.2), fun z hz => hz.elim (fun h => h ▸ h1) (h4 z)⟩

theorem Below.letapp {k x f ft ys e} : Below k (.letapp x f ft ys e) ↔
    x < k ∧ f < k ∧ (∀ y ∈ ys, y < k) ∧ Below k e := by
  simp only [Below, Exp.fv, Exp.bv, Finset.mem_insert, Finset.mem_union, List.mem_toFinset, Finset.mem_erase, List.mem_cons]
  constructor
  · rintro ⟨h1, h2⟩
    refine ⟨h2 x (.inl rfl), h1 f (.inl rfl), fun y hy => h1 y (.inr (.inl hy)), fun z hz => ?_, fun z hz => h2 z (.inr hz)⟩
    by_cases hzx : z = x
    · subst hzx; exact h2 z (.inl rfl)
    · exact h1 z (.inr (.inr ⟨hzx, hz⟩))
  · rintro ⟨h1, h2, h3, h4, h5⟩
    refine ⟨fun z hz => ?_, fun z hz => hz.elim (fun h => h ▸ h1) (h5 z)⟩
    rcases hz with rfl | hz | hz
    · exact h2
    · exact h3 z hz
    · exact h4 z hz.2

theorem Below.primVal {k x p e} : Below k (.primVal x p e) ↔ x < k ∧ Below k e := by
  simp only [Below, Exp.fv, Exp.bv, Finset.mem_erase, List.mem_cons]
  constructor
  · rintro ⟨h1, h2⟩
    refine ⟨h2 x (.inl rfl), fun z hz => ?_, fun z hz => h2 z (.inr hz)⟩
    by_cases hzx : z = x
    · subst hzx; exact h2 z (.inl rfl)
    · exact h1 z ⟨hzx, hz⟩
  · rintro ⟨h1, h3, h4⟩
    exact ⟨fun z hz => h3 z hz.2, fun z hz => hz.elim (fun h => h ▸ h1) (h4 z)⟩

theorem Below.prim {k x p ys e} : Below k (.prim x p ys e) ↔ x < k ∧ (∀ y ∈ ys, y < k) ∧ Below k e := by
  have : Below k (.prim x p ys e) ↔ Below k (.constr x p ys e) := by simp only [Below, Exp.fv, Exp.bv]
  rw [this, Below.constr]

theorem Below.case {k x bs} : Below k (.case x bs) ↔ x < k ∧ BelowB k bs := by
  simp only [Below, BelowB, Exp.fv, Exp.bv, Finset.mem_insert]
  constructor
  · rintro ⟨h1, h2⟩
    exact ⟨h1 x (.inl rfl), fun y hy => h1 y (.inr hy), h2⟩
  · rintro ⟨h1, h2, h3⟩
    exact ⟨fun y hy => hy.elim (fun h => h ▸ h1) (h2 y), h3⟩

theorem Below.app {k f ft ys} : Below k (.app f ft ys) ↔ f < k ∧ ∀ y ∈ ys, y < k := by
  simp only [Below, Exp.fv, Exp.bv, Finset.mem_insert, List.mem_toFinset]
  constructor
  · rintro ⟨h1, _⟩
    exact ⟨h1 f (.inl rfl), fun y hy => h1 y (.inr hy)⟩
  · rintro ⟨h1, h2⟩
    exact ⟨fun y hy => hy.elim (fun h => h ▸ h1) (h2 y), by simp⟩

theorem Below.halt {k x} : Below k (.halt x) ↔ x < k := by
  simp [Below, Exp.fv, Exp.bv]

theorem names_lt {k B} (h : BelowD k B) : ∀ x ∈ B.names, x < k := fun x hx => h.2 x ((names_bv B).subset hx)

theorem Below.fn {k B e} : Below k (.fn B e) ↔ BelowD k B ∧ Below k e := by
  simp only [Below, BelowD, Exp.fv, Exp.bv, Finset.mem_sdiff, Finset.mem_union, List.mem_toFinset, List.mem_append]
  constructor
  · rintro ⟨h1, h2⟩
    have hn : ∀ x ∈ B.names, x < k := fun x hx => h2 x (.inl ((names_bv B).subset hx))
    refine ⟨⟨fun x hx => ?_, fun x hx => h2 x (.inl hx)⟩, fun x hx => ?_, fun x hx => h2 x (.inr hx)⟩
    · by_cases h : x ∈ B.names
      · exact hn x h
      · exact h1 x ⟨.inl hx, h⟩
    · by_cases h : x ∈ B.names
      · exact hn x h
      · exact h1 x ⟨.inr hx, h⟩
  · rintro ⟨⟨h1, h2⟩, h3, h4⟩
    exact ⟨fun x hx => hx.1.elim (h1 x) (h3 x), fun x hx => hx.elim (h2 x) (h4 x)⟩

theorem BelowB.cons {k t e bs} : BelowB k (.cons t e bs) ↔ Below k e ∧ BelowB k bs := by
  simp only [Below, BelowB, Brs.fv, Brs.bv, Finset.mem_union, List.mem_append]
  constructor
  · rintro ⟨h1, h2⟩
    exact ⟨⟨fun x hx => h1 x (.inl hx), fun x hx => h2 x (.inl hx)⟩, fun x hx => h1 x (.inr hx), fun x hx => h2 x (.inr hx)⟩
  · rintro ⟨⟨h1, h2⟩, h3, h4⟩
    exact ⟨fun x hx => hx.elim (h1 x) (h3 x), fun x hx => hx.elim (h2 x) (h4 x)⟩

theorem BelowD.cons {k f ft xs e B} : BelowD k (.cons f ft xs e B) ↔
    f < k ∧ (∀ x ∈ xs, x < k) ∧ Below k e ∧ BelowD k B := by
  simp only [Below, BelowD, Defs.fvRaw, Defs.bv, Finset.mem_union, Finset.mem_sdiff, List.mem_toFinset, List.mem_cons,
    List.mem_append]
  constructor
  · rintro ⟨h1, h2⟩
    refine ⟨h2 f (.inl rfl), fun x hx => h2 x (.inr (.inl hx)), ⟨fun x hx => ?_, fun x hx => h2 x (.inr (.inr (.inl hx)))⟩,
      fun x hx => h1 x (.inr hx), fun x hx => h2 x (.inr (.inr (.inr hx)))⟩
    by_cases h : x ∈ xs
    · exact h2 x (.inr (.inl h))
    · exact h1 x (.inl ⟨hx, h⟩)
  · rintro ⟨h1, h2, ⟨h3, h4⟩, h5, h6⟩
    refine ⟨fun x hx => hx.elim (fun h => h3 x h.1) (h5 x), fun x hx => ?_⟩
    rcases hx with rfl | hx | hx | hx
    · exact h1
    · exact h2 x hx
    · exact h4 x hx
    · exact h6 x hx

theorem BelowB.nil {k} : BelowB k .nil := ⟨by simp [Brs.fv], by simp [Brs.bv]⟩
theorem BelowD.nil {k} : BelowD k .nil := ⟨by simp [Defs.fvRaw], by simp [Defs.bv]⟩

theorem BelowB.find {k} : ∀ {bs : Brs} {t e}, BelowB k bs → findTag t bs = some e → Below k e := by
  intro bs
  induction bs using Brs.ind with
  | nil => intro t e _ h; simp [findTag] at h
  | cons t' e' bs ih =>
    intro t e hb h
    rw [BelowB.cons] at hb
    simp only [findTag] at h
    split at h
    · cases h; exact hb.1
    · exact ih hb.2 h

theorem BelowD.find {k} : ∀ {B : Defs} {f ft xs e}, BelowD k B → findDef f B = some (ft, xs, e) →
    f < k ∧ (∀ x ∈ xs, x < k) ∧ Below k e := by
  intro B
  induction B using Defs.ind with
  | nil => intro f ft xs e _ h; simp [findDef] at h
  | cons g gt ys e' B ih =>
    intro f ft xs e hb h
    rw [BelowD.cons] at hb
    simp only [findDef] at h
    split at h
    · next hfg => cases h; subst hfg; exact ⟨hb.1, hb.2.1, hb.2.2.1⟩
    · exact ih hb.2.2.2 h

theorem PB.tags {k} : ∀ {bs bs' : Brs}, PB k bs bs' → bs'.tags = bs.tags := by
  intro bs
  induction bs using Brs.ind with
  | nil => intro bs' h; cases h; rfl
  | cons t e bs ih => intro bs' h; cases h with | cons _ h => simp only [Brs.tags, ih h]

theorem PB.find {k} : ∀ {bs bs' : Brs} {t e}, PB k bs bs' → findTag t bs = some e →
    ∃ e', findTag t bs' = some e' ∧ PE k e e' := by
  intro bs
  induction bs using Brs.ind with
  | nil => intro bs' t e _ h; simp [findTag] at h
  | cons t' e' bs ih =>
    intro bs' t e hb h
    cases hb with
    | cons he hbs =>
      simp only [findTag] at h ⊢
      split at h
      · next ht => cases h; rw [if_pos ht]; exact ⟨_, rfl, he⟩
      · next ht => rw [if_neg ht]; exact ih hbs h

theorem PD.names {k} : ∀ {B B' : Defs}, PD k B B' → ∀ x, x < k → (x ∈ B'.names ↔ x ∈ B.names) := by
  intro B
  induction B using Defs.ind with
  | nil => intro B' h x _; cases h; rfl
  | cons f ft xs e B ih =>
    intro B' h x hx
    cases h with
    | cons _ h => simp only [Defs.names, List.mem_cons, ih h x hx]
    | @unc _ _ _ _ _ _ _ _ _ _ _ _ f1 _ _ _ _ h hf =>
      simp only [Defs.names, List.mem_cons, ih h x hx]
      have : ¬ x = f1 := fun h : x = f1 => by subst h; vomega
      rw [or_iff_right (a := x = f1) this]

/-- A split function in the target bundle. -/
structure Split (k : Nat) (B' : Defs) (f : Var) (ft : Tag) (xs : List Var) (e : Exp) (pre fv fv1 : List Var) (g : Var)
    (gt : Tag) (gv gv1 : List Var) (ge ge' tail : Exp) (f1 : Var) (ft1 : Tag) : Prop where
  params : xs = pre ++ fv
  body : e = .fn (.cons g gt gv ge .nil) tail
  wrapper : findDef f B' = some (ft, pre ++ fv1, .fn (.cons g gt gv1 (.app f1 ft1 (gv1 ++ fv1)) .nil) tail)
  uncurried : findDef f1 B' = some (ft1, gv ++ fv, ge')
  rel : PE k ge ge'
  le : k ≤ f1
  fresh : ∀ x ∈ gv1 ++ fv1, k ≤ x
  notin : f1 ∉ gv1 ++ fv1
  nodup : (gv1 ++ fv1).Nodup
  lenG : gv1.length = gv.length
  lenF : fv1.length = fv.length
  nrec : g ∉ ge.fv
  shape : pre = [] ∧ tail = .halt g ∨ ∃ q qt, pre = [q] ∧ tail = .app q qt [g] ∧ q ∉ ge.fv

theorem PD.find {k} : ∀ {B B' : Defs} {f ft xs e}, PD k B B' → BelowD k B → findDef f B = some (ft, xs, e) →
    (∃ e', findDef f B' = some (ft, xs, e') ∧ PE k e e') ∨
    ∃ pre fv fv1 g gt gv gv1 ge ge' tail f1 ft1,
      Split k B' f ft xs e pre fv fv1 g gt gv gv1 ge ge' tail f1 ft1 := by
  intro B
  induction B using Defs.ind with
  | nil => intro B' f ft xs e _ _ h; simp [findDef] at h
  | cons f0 ft0 xs0 e0 B ih =>
    intro B' f ft xs e hp hb h
    have hb' := BelowD.cons.mp hb
    have hf := (hb.find h).1
    simp only [findDef] at h
    cases hp with
    | cons he hB =>
      split at h
      · next hff =>
        cases h
        exact .inl ⟨_, by simp only [findDef, if_pos hff], he⟩
      · next hff =>
        rcases ih hB hb'.2.2.2 h with ⟨e', h1, h2⟩ | ⟨pre, fv, fv1, g, gt, gv, gv1, ge, ge', tail, f1, ft1, hs⟩
        · exact .inl ⟨e', by simp only [findDef, if_neg hff, h1], h2⟩
        · refine .inr ⟨pre, fv, fv1, g, gt, gv, gv1, ge, ge', tail, f1, ft1, { hs with
            wrapper := by simp only [findDef, if_neg hff, hs.wrapper]
            uncurried := ?_ }⟩
          have : ¬ f1 = f0 := fun h : f1 = f0 => by
            have := hs.le; have := hb'.1; subst h; vomega
          simp only [findDef, if_neg this, hs.uncurried]
    | @unc _ _ pre fv fv1 g gt gv gv1 ge ge' tail f1 ft1 _ _ he hB hle hnn hfr hni hnd hlg hlf hnr hsh =>
      split at h
      · next hff =>
        cases h
        subst hff
        refine .inr ⟨pre, fv, fv1, g, gt, gv, gv1, ge, ge', tail, f1, ft1, ⟨rfl, rfl, ?_, ?_, he, hle, hfr, hni, hnd, hlg,
          hlf, hnr, hsh⟩⟩
        · simp only [findDef, if_true]
        · have : ¬ f1 = f := fun h : f1 = f => by have := hb'.1; subst h; vomega
          simp only [findDef, if_neg this, if_true]
      · next hff =>
        have hff1 : ¬ f = f1 := fun h : f = f1 => by subst h; vomega
        rcases ih hB hb'.2.2.2 h with ⟨e', h1, h2⟩ | ⟨pre', fv', fv1', g', gt', gv', gv1', ge'', ge''', tail', f1', ft1', hs⟩
        · exact .inl ⟨e', by simp only [findDef, if_neg hff, if_neg hff1, h1], h2⟩
        · refine .inr ⟨pre', fv', fv1', g', gt', gv', gv1', ge'', ge''', tail', f1', ft1', { hs with
            wrapper := by simp only [findDef, if_neg hff, if_neg hff1, hs.wrapper]
            uncurried := ?_ }⟩
          have h1 : ¬ f1' = f0 := fun h : f1' = f0 => by
            have := hs.le; have := hb'.1; subst h; vomega
          have h2 : ¬ f1' = f1 := fun h => hnn (h ▸ findDef_mem hs.uncurried)
          simp only [findDef, if_neg h1, if_neg h2, hs.uncurried]

/-- Source and target values: data, functions of related bundles, and the closure of an inner function, which in the
target calls the uncurried function. -/
inductive VR (k : Nat) : Val → Val → Prop
  | constr {t : Tag} {vs vs' : List Val} (len : vs.length = vs'.length)
      (args : ∀ (i : Nat) v v', vs[i]? = some v → vs'[i]? = some v' → VR k v v') : VR k (.constr t vs) (.constr t vs')
  | prim {p : PVal} : VR k (.prim p) (.prim p)
  | fn {ρ ρ' : Env} {B B' f} (pd : PD k B B') (bd : BelowD k B) (dom : ∀ x ∈ B.fv, ρ' x = none → ρ x = none)
      (rel : ∀ x ∈ B.fv, ∀ v v', ρ x = some v → ρ' x = some v' → VR k v v') : VR k (.fn ρ B f) (.fn ρ' B' f)
  | unc {ρg ρg' ρb ρ2 : Env} {g gt gv gv1 fv fv1 ge ge' f1 ft1 B' vs'} (pe : PE k ge ge') (bd : Below k ge)
      (nrec : g ∉ ge.fv) (uncf : ρg' f1 = some (.fn ρb B' f1)) (find : findDef f1 B' = some (ft1, gv ++ fv, ge'))
      (args : getList ρg' fv1 = some vs') (bind : setLists fv vs' (defFuns B' B' ρb ρb) = some ρ2)
      (len : gv1.length = gv.length) (notin : f1 ∉ gv1 ++ fv1) (nodup : (gv1 ++ fv1).Nodup) (neg : f1 ≠ g)
      (ginj : g ∉ fv1)
      (dom : ∀ x ∈ ge.fv, x ∉ gv → ρ2 x = none → ρg x = none)
      (rel : ∀ x ∈ ge.fv, x ∉ gv → ∀ v v', ρg x = some v → ρ2 x = some v' → VR k v v') :
      VR k (.fn ρg (.cons g gt gv ge .nil) g) (.fn ρg' (.cons g gt gv1 (.app f1 ft1 (gv1 ++ fv1)) .nil) g)

theorem VR.data (k : Nat) : DataRel (VR k) where
  con h := .constr h.1 h.2
  conInv h := by cases h with | constr len args => exact ⟨_, rfl, len, args⟩
  prm := .prim
  prmInv h := by cases h; rfl
  fnInv h := by cases h <;> exact ⟨_, _, _, rfl⟩

theorem look_of {R : Val → Val → Prop} {ρ ρ' : Env} {x y} (h1 : ρ' y = none → ρ x = none)
    (h2 : ∀ v v', ρ x = some v → ρ' y = some v' → R v v') : Look R ρ ρ' x y := by
  intro v hv
  rcases hy : ρ' y with _ | v'
  · rw [h1 hy] at hv; cases hv
  · exact ⟨v', rfl, h2 v v' hv hy⟩

theorem look_none {R : Val → Val → Prop} {ρ ρ' : Env} {x y} (h : Look R ρ ρ' x y) : ρ' y = none → ρ x = none := by
  intro hy
  rcases hx : ρ x with _ | v
  · rfl
  · obtain ⟨v', h', _⟩ := h v hx; rw [hy] at h'; cases h'

theorem look_some {R : Val → Val → Prop} {ρ ρ' : Env} {x y v v'} (h : Look R ρ ρ' x y) (h1 : ρ x = some v)
    (h2 : ρ' y = some v') : R v v' := by
  obtain ⟨w, hw, hr⟩ := h v h1
  rw [h2] at hw; cases hw; exact hr

/-- The environment of a bundle's functions. -/
theorem defFuns_rel {k B B' ρ ρ'} (pd : PD k B B') (bd : BelowD k B) (hρ : EnvR (VR k) B.fv ρ ρ') {X : Finset Var}
    (hX : ∀ x ∈ X, x < k ∧ (x ∉ B.names → Look (VR k) ρ ρ' x x)) :
    EnvR (VR k) X (defFuns B B ρ ρ) (defFuns B' B' ρ' ρ') := by
  intro x hx v hv
  by_cases hn : x ∈ B.names
  · rw [defFuns_mem hn] at hv; cases hv
    refine ⟨_, defFuns_mem (((pd.names x (hX x hx).1)).mpr hn), .fn pd bd ?_ ?_⟩
    · intro y hy; exact look_none (hρ y hy)
    · intro y hy v v' h1 h2; exact look_some (hρ y hy) h1 h2
  · rw [defFuns_not_mem hn] at hv
    rw [defFuns_not_mem (fun h => hn ((pd.names x (hX x hx).1).mp h))]
    exact (hX x hx).2 hn v hv

/-- How the call bounds of the two sides are related: the target may need two calls where the source needs one. -/
def Lev (b : Bool) (n m : Nat) : Prop := if b then m ≤ n else 2 * n ≤ m

/-- Related calls. -/
def CallOk (S : Sig) (b : Bool) (k n m : Nat) : Prop :=
  ∀ v v' ft vs vs', VR k v v' → All2 (VR k) vs vs' → ∀ ρ₁ e₁, applyV v ft vs = some (ρ₁, e₁) →
    ∃ ρ₁' e₁', applyV v' ft vs' = some (ρ₁', e₁') ∧ FRel b (VR k) (callAt S n ρ₁ e₁) (callAt S m ρ₁' e₁')

theorem CallOk.callee {S b k n m} (h : CallOk S b k n m) {ρ ρ' f f' ft ys ys'} (hf : Look (VR k) ρ ρ' f f')
    (hy : Looks (VR k) ρ ρ' ys ys') : ∀ ρ₁ e₁, callee ρ f ft ys = some (ρ₁, e₁) →
      ∃ ρ₁' e₁', callee ρ' f' ft ys' = some (ρ₁', e₁') ∧ FRel b (VR k) (callAt S n ρ₁ e₁) (callAt S m ρ₁' e₁') := by
  intro ρ₁ e₁ hc
  obtain ⟨v, vs, h1, h2, h3⟩ := callee_applyV.mp hc
  obtain ⟨v', h1', hr⟩ := hf v h1
  obtain ⟨vs', h2', hrs⟩ := hy vs h2
  obtain ⟨ρ₁', e₁', h3', hb⟩ := h v v' ft vs vs' hr hrs ρ₁ e₁ h3
  exact ⟨ρ₁', e₁', callee_applyV.mpr ⟨v', vs', h1', h2', h3'⟩, hb⟩

theorem sim_exp {S b k n m} (hcall : CallOk S b k n m) : ∀ {e e' : Exp}, PE k e e' → Below k e → ∀ {ρ ρ' : Env},
    EnvR (VR k) e.fv ρ ρ' → FRel b (VR k) (evalE S (callAt S n) e ρ) (evalE S (callAt S m) e' ρ')
  | .constr x t ys e, _, .constr he, bd, ρ, ρ', hρ => by
    have bd' := (Below.constr.mp bd).2.2
    refine flex_constr (VR.data k) (Looks.same fun y hy => hρ y (by simp [Exp.fv, hy])) ?_
    intro vs vs' _ _ hr
    exact sim_exp hcall he bd' (hρ.set hr (fun y hy hyx => by simp [Exp.fv, hy, hyx]))
  | .case x bs, _, .case hb, bd, ρ, ρ', hρ => by
    refine flex_case (VR.data k) (hρ x (by simp [Exp.fv])) hb.tags ?_
    intro t vs e _ hf
    obtain ⟨e', hf', he⟩ := hb.find hf
    have hsz : sizeOf e < sizeOf bs := findTag_sizeOf hf
    exact ⟨e', hf', sim_exp hcall he ((Below.case.mp bd).2.find hf)
      (hρ.mono fun y hy => by simp [Exp.fv, findTag_fv hf y hy])⟩
  | .proj x t i y e, _, .proj he, bd, ρ, ρ', hρ => by
    have bd' := (Below.proj.mp bd).2.2
    refine flex_proj (VR.data k) (hρ y (by simp [Exp.fv])) ?_
    intro v v' hr
    exact sim_exp hcall he bd' (hρ.set hr (fun y hy hyx => by simp [Exp.fv, hy, hyx]))
  | .letapp x f ft ys e, _, .letapp he, bd, ρ, ρ', hρ => by
    have bd' := (Below.letapp.mp bd).2.2.2
    refine flex_letapp (hcall.callee (hρ f (by simp [Exp.fv])) (Looks.same fun y hy => hρ y (by simp [Exp.fv, hy]))) ?_
    intro v v' hr
    exact sim_exp hcall he bd' (hρ.set hr (fun y hy hyx => by simp [Exp.fv, hy, hyx]))
  | .fn B e, _, .fn hB he, bd, ρ, ρ', hρ => by
    have bd' := Below.fn.mp bd
    simp only [evalE]
    refine sim_exp hcall he bd'.2 (defFuns_rel hB bd'.1 (hρ.mono ?_) ?_)
    · intro x hx
      simp only [Defs.fv, Finset.mem_sdiff, List.mem_toFinset] at hx
      simp [Exp.fv, hx.1, hx.2]
    · intro x hx
      exact ⟨bd'.2.1 x hx, fun hn => hρ x (by simp [Exp.fv, hx, hn])⟩
  | .app f ft ys, _, .app, bd, ρ, ρ', hρ =>
    flex_app (hcall.callee (hρ f (by simp [Exp.fv])) (Looks.same fun y hy => hρ y (by simp [Exp.fv, hy])))
  | .primVal x p e, _, .primVal he, bd, ρ, ρ', hρ => by
    refine flex_primVal (VR.data k) ?_
    intro hr
    exact sim_exp hcall he (Below.primVal.mp bd).2 (hρ.set hr (fun y hy hyx => by simp [Exp.fv, hy, hyx]))
  | .prim x p ys e, _, .prim he, bd, ρ, ρ', hρ => by
    refine flex_prim (VR.data k) (Looks.same fun y hy => hρ y (by simp [Exp.fv, hy])) ?_
    intro v hr
    exact sim_exp hcall he (Below.prim.mp bd).2.2 (hρ.set hr (fun y hy hyx => by simp [Exp.fv, hy, hyx]))
  | .halt x, _, .halt, bd, ρ, ρ', hρ => flex_halt (hρ x (by simp [Exp.fv]))
termination_by e => sizeOf e

theorem fv_uncurried {B : Defs} {f ft xs g gt gv ge tail} (h : findDef f B = some (ft, xs, .fn (.cons g gt gv ge .nil) tail)) :
    ∀ x ∈ ge.fv, x ∉ gv → x ≠ g → x ∈ xs ∨ x ∈ B.names ∨ x ∈ B.fv := by
  intro x hx hg hne
  exact fv_body h x (by simp [Exp.fv, Defs.fvRaw, Defs.names, hx, hg, hne])

theorem callOk (S : Sig) (b : Bool) (k : Nat) : ∀ n m, Lev b n m → CallOk S b k n m := by
  intro n
  induction n with
  | zero =>
    intro m hl v v' ft vs vs' hr hrs ρ₁ e₁ ha
    -- the source call runs out at once; so does the target's if it has no calls either
    have fin : ∀ ρ₁' e₁', FRel b (VR k) (callAt S 0 ρ₁ e₁) (callAt S m ρ₁' e₁') := by
      intro ρ₁' e₁'
      cases b with
      | false => exact FRel.free
      | true =>
        have : m = 0 := by simpa [Lev] using hl
        subst this
        exact FRel.oot
    cases hr with
    | constr => simp [applyV] at ha
    | prim => simp [applyV] at ha
    | @fn ρ ρ' B B' f pd bd dom rel =>
      obtain ⟨xs, ρ₂, e₂, h1, h2, h3⟩ := applyV_some ha
      have hlen := setLists_len h2
      rcases pd.find bd h1 with ⟨e', h4, _⟩ | ⟨pre, fv, fv1, g, gt, gv, gv1, ge, ge', tail, f1, ft1, hs⟩
      · obtain ⟨ρ₁', h5⟩ := setLists_exists (xs := xs) (vs := vs') (defFuns B' B' ρ' ρ') (by rw [hlen, hrs.1])
        exact ⟨_, _, applyV_eq h4 h5, fin _ _⟩
      · obtain ⟨ρ₁', h5⟩ := setLists_exists (xs := pre ++ fv1) (vs := vs') (defFuns B' B' ρ' ρ')
          (by rw [← hrs.1, ← hlen, hs.params]; simp [hs.lenF])
        exact ⟨_, _, applyV_eq hs.wrapper h5, fin _ _⟩
    | @unc ρg ρg' ρb ρ2 g gt gv gv1 fv fv1 ge ge' f1 ft1 B' ws pe bd nrec uncf find args bind len notin nodup neg ginj dom rel =>
      obtain ⟨xs, ρ₂, e₂, h1, h2, h3⟩ := applyV_some ha
      simp only [findDef, if_true, Option.some.injEq, Prod.mk.injEq] at h1
      obtain ⟨rfl, rfl, rfl⟩ := h1
      obtain ⟨ρ₁', h5⟩ := setLists_exists (xs := gv1) (vs := vs')
        (defFuns (.cons g gt gv1 (.app f1 ft1 (gv1 ++ fv1)) .nil) (.cons g gt gv1 (.app f1 ft1 (gv1 ++ fv1)) .nil) ρg' ρg')
        (by rw [← hrs.1, ← setLists_len h2, len])
      exact ⟨_, _, applyV_eq (e := .app f1 ft1 (gv1 ++ fv1)) (by simp [findDef]) h5, fin _ _⟩
  | succ n ih =>
    intro m hl v v' ft vs vs' hr hrs ρ₁ e₁ ha
    -- what is left for the bodies
    have step : ∀ {e e' : Exp} {ρ ρ' : Env}, PE k e e' → Below k e → EnvR (VR k) e.fv ρ ρ' →
        FRel b (VR k) (callAt S (n + 1) ρ e) (callAt S m ρ' e') := by
      intro e e' ρ ρ' he bd hρ
      cases m with
      | zero =>
        cases b with
        | false => simp only [Lev] at hl; simp at hl
        | true => exact FRel.oot
      | succ m =>
        simp only [callAt, run_callAt]
        exact sim_exp (ih m (by simp only [Lev] at hl ⊢; split at hl <;> simp_all <;> omega)) he bd hρ
    cases hr with
    | constr => simp [applyV] at ha
    | prim => simp [applyV] at ha
    | @fn ρ ρ' B B' f pd bd dom rel =>
      obtain ⟨xs, ρ₂, e₂, h1, h2, h3⟩ := applyV_some ha
      cases h3
      have hρ : EnvR (VR k) B.fv ρ ρ' := fun x hx => look_of (dom x hx) (rel x hx)
      have hbd := bd.find h1
      rcases pd.find bd h1 with ⟨e', h4, he⟩ | ⟨pre, fv, fv1, g, gt, gv, gv1, ge, ge', tail, f1, ft1, hs⟩
      · -- an ordinary function
        have hdf : EnvR (VR k) (e₁.fv \ xs.toFinset) (defFuns B B ρ ρ) (defFuns B' B' ρ' ρ') := by
          refine defFuns_rel pd bd hρ ?_
          intro x hx
          simp only [Finset.mem_sdiff, List.mem_toFinset] at hx
          refine ⟨hbd.2.2.1 x hx.1, fun hn => ?_⟩
          rcases fv_body h1 x hx.1 with h | h | h
          · exact absurd h hx.2
          · exact absurd h hn
          · exact hρ x h
        obtain ⟨ρ₁', h5, h6⟩ := hdf.setLists (Y := e₁.fv) hrs h2 (fun y hy hn => by simp [hy, hn])
        exact ⟨_, _, applyV_eq h4 h5, step he hbd.2.2 h6⟩
      · -- a split function: both sides build the closure of the inner function
        have hlen := setLists_len h2
        obtain ⟨ρ₁', h5⟩ := setLists_exists (xs := pre ++ fv1) (vs := vs') (defFuns B' B' ρ' ρ')
          (by rw [← hrs.1, ← hlen, hs.params]; simp [hs.lenF])
        refine ⟨_, _, applyV_eq hs.wrapper h5, ?_⟩
        obtain ⟨rfl, rfl⟩ : xs = pre ++ fv ∧ e₁ = .fn (.cons g gt gv ge .nil) tail := ⟨hs.params, hs.body⟩
        have hbfn := Below.fn.mp hbd.2.2
        have hbge := (BelowD.cons.mp hbfn.1)
        have hgk : g < k := hbge.1
        -- the arguments of the target
        have hnd : fv1.Nodup := (List.nodup_append.mp hs.nodup).2.1
        obtain ⟨us, ws, us', ws', rfl, rfl, hu, hw, hru, hrw⟩ : ∃ us ws us' ws', vs = us ++ ws ∧ vs' = us' ++ ws' ∧
            pre.length = us.length ∧ fv.length = ws.length ∧ All2 (VR k) us us' ∧ All2 (VR k) ws ws' := by
          have hl1 : pre.length ≤ vs.length := by rw [← hlen]; simp
          have hl1' : vs.length = pre.length + fv.length := by rw [← hlen]; simp
          refine ⟨vs.take pre.length, vs.drop pre.length, vs'.take pre.length, vs'.drop pre.length,
            (List.take_append_drop _ _).symm, (List.take_append_drop _ _).symm, ?_, ?_, ⟨?_, ?_⟩, ?_, ?_⟩
          · rw [List.length_take]; omega
          · rw [List.length_drop]; omega
          · simp [hrs.1]
          · intro i a c h1 h2
            rw [List.getElem?_take] at h1 h2
            split at h1
            · next hi => rw [if_pos hi] at h2; exact hrs.2 i a c h1 h2
            · cases h1
          · simp [hrs.1]
          · intro i a c h1 h2
            rw [List.getElem?_drop] at h1 h2
            exact hrs.2 _ a c h1 h2
        have hw' : fv1.length = ws'.length := by rw [hs.lenF, hw, hrw.1]
        -- lookups in the two environments
        have hfv1 : ∀ x ∈ fv1, x ∉ pre := by
          intro x hx hp
          have h1 := hs.fresh x (by simp [hx])
          have h2 := hbd.2.1 x (by simp [hp])
          vomega
        obtain ⟨ρa, ha1⟩ := setLists_exists (xs := fv1) (vs := ws') (defFuns B' B' ρ' ρ') hw'
        obtain ⟨ρa', ha2⟩ := setLists_exists (xs := pre) (vs := us') ρa (by rw [hu, hru.1])
        have ha3 : ρa' = ρ₁' := by
          have := setLists_append ha1 ha2
          rw [h5] at this; exact (Option.some.inj this).symm
        subst ha3
        obtain ⟨ρc, hc1⟩ := setLists_exists (xs := fv) (vs := ws) (defFuns B B ρ ρ) hw
        obtain ⟨ρc', hc2⟩ := setLists_exists (xs := pre) (vs := us) ρc hu
        have hc3 : ρc' = ρ₁ := by
          have := setLists_append hc1 hc2
          rw [h2] at this; exact (Option.some.inj this).symm
        subst hc3
        have hf1n : f1 ∉ pre ++ fv1 := by
          intro h
          rw [List.mem_append] at h
          rcases h with h | h
          · have := hbd.2.1 f1 (by simp [h]); have := hs.le; vomega
          · exact hs.notin (by simp [h])
        have hf1 : ρa' f1 = some (.fn ρ' B' f1) := by
          rw [setLists_not_mem h5 f1 hf1n]
          exact defFuns_mem (findDef_mem hs.uncurried)
        have hargs : getList ρa' fv1 = some ws' := by
          rw [getList_congr (ρ := ρa) (fun y hy => setLists_not_mem ha2 y (hfv1 y hy))]
          exact getList_setLists ha1 hnd
        -- the environment of the inner body
        have hdf : EnvR (VR k) ((ge.fv \ gv.toFinset) \ fv.toFinset) (defFuns B B ρ ρ) (defFuns B' B' ρ' ρ') := by
          refine defFuns_rel pd bd hρ ?_
          intro x hx
          simp only [Finset.mem_sdiff, List.mem_toFinset] at hx
          refine ⟨hbge.2.2.1.1 x hx.1.1, fun hn => ?_⟩
          have hne : x ≠ g := by rintro rfl; exact hs.nrec hx.1.1
          rcases fv_uncurried h1 x hx.1.1 hx.1.2 hne with h | h | h
          · rw [List.mem_append] at h
            rcases h with h | h
            · rcases hs.shape with ⟨rfl, _⟩ | ⟨q, qt, rfl, _, hq⟩
              · simp at h
              · simp only [List.mem_singleton] at h; subst h; exact absurd hx.1.1 hq
            · exact absurd h hx.2
          · exact absurd h hn
          · exact hρ x h
        obtain ⟨ρ2, hb1, hb2⟩ := hdf.setLists (Y := ge.fv \ gv.toFinset) hrw hc1
          (fun y hy hn => by simp only [Finset.mem_sdiff, List.mem_toFinset] at hy ⊢; exact ⟨hy, hn⟩)
        have hpre : ∀ x ∈ ge.fv, x ∉ pre := by
          intro x hx hp
          rcases hs.shape with ⟨rfl, _⟩ | ⟨q, qt, rfl, _, hq⟩
          · simp at hp
          · simp only [List.mem_singleton] at hp; subst hp; exact hq hx
        have hclo : VR k (.fn ρc' (.cons g gt gv ge .nil) g)
            (.fn ρa' (.cons g gt gv1 (.app f1 ft1 (gv1 ++ fv1)) .nil) g) := by
          refine .unc (ρ2 := ρ2) hs.rel hbge.2.2.1 hs.nrec hf1 hs.uncurried hargs hb1 hs.lenG hs.notin hs.nodup ?_ ?_ ?_ ?_
          · rintro rfl; have := hs.le; vomega
          · intro h; have := hs.fresh g (by simp [h]); vomega
          · intro x hx hxg
            rw [setLists_not_mem hc2 x (hpre x hx)]
            exact look_none (hb2 x (by simp [hx, hxg]))
          · intro x hx hxg v v' h1 h2
            rw [setLists_not_mem hc2 x (hpre x hx)] at h1
            exact look_some (hb2 x (by simp [hx, hxg])) h1 h2
        cases m with
        | zero =>
          cases b with
          | false => simp only [Lev] at hl; simp at hl
          | true => exact FRel.oot
        | succ m =>
          have ih' := ih m (by simp only [Lev] at hl ⊢; split at hl <;> simp_all <;> omega)
          simp only [callAt, run_callAt, evalE, defFuns]
          have hlg : Look (VR k) (ρc'.set g (.fn ρc' (.cons g gt gv ge .nil) g))
              (ρa'.set g (.fn ρa' (.cons g gt gv1 (.app f1 ft1 (gv1 ++ fv1)) .nil) g)) g g := by
            intro v hv
            rw [set_self] at hv; cases hv
            exact ⟨_, set_self, hclo⟩
          rcases hs.shape with ⟨rfl, rfl⟩ | ⟨q, qt, rfl, rfl, hq⟩
          · exact flex_halt hlg
          · refine flex_app (ih'.callee ?_ (Looks.same fun y hy => by simp only [List.mem_singleton] at hy; subst hy; exact hlg))
            by_cases hqg : q = g
            · subst hqg; exact hlg
            · intro v hv
              rw [set_other hqg] at hv ⊢
              have e1 := setLists_nth hc2 (by simp) (i := 0) (y := q) rfl
              have e2 := setLists_nth ha2 (by simp) (i := 0) (y := q) rfl
              rw [e1] at hv
              rw [e2]
              exact hru.get hv
    | @unc ρg ρg' ρb ρ2 g gt gv gv1 fv fv1 ge ge' f1 ft1 B' ws pe bd nrec uncf find args bind len notin nodup neg ginj dom rel =>
      obtain ⟨xs, ρ₂, e₂, h1, h2, h3⟩ := applyV_some ha
      cases h3
      simp only [findDef, if_true, Option.some.injEq, Prod.mk.injEq] at h1
      obtain ⟨rfl, rfl, rfl⟩ := h1
      obtain ⟨ρ₁', h5⟩ := setLists_exists (xs := gv1) (vs := vs')
        (defFuns (.cons g gt gv1 (.app f1 ft1 (gv1 ++ fv1)) .nil) (.cons g gt gv1 (.app f1 ft1 (gv1 ++ fv1)) .nil) ρg' ρg')
        (by rw [← hrs.1, ← setLists_len h2, len])
      refine ⟨_, _, applyV_eq (e := .app f1 ft1 (gv1 ++ fv1)) (by simp [findDef]) h5, ?_⟩
      -- the target calls the uncurried function
      have hnd := List.nodup_append.mp nodup
      have hg1 : getList ρ₁' gv1 = some vs' := getList_setLists h5 hnd.1
      have hg2 : getList ρ₁' fv1 = some ws := by
        rw [getList_congr (ρ := ρg')]
        · exact args
        · intro y hy
          have hyg : y ∉ gv1 := fun h => hnd.2.2 y h y hy rfl
          have hyn : y ≠ g := by rintro rfl; exact ginj hy
          rw [setLists_not_mem h5 y hyg]
          simp only [defFuns]
          rw [set_other hyn]
      have hf1 : ρ₁' f1 = some (.fn ρb B' f1) := by
        rw [setLists_not_mem h5 f1 (fun h => notin (by simp [h]))]
        simp only [defFuns]
        rw [set_other neg]; exact uncf
      have hbase : EnvR (VR k) (ge.fv \ gv.toFinset)
          (defFuns (.cons g gt gv ge .nil) (.cons g gt gv ge .nil) ρg ρg) ρ2 := by
        intro x hx
        simp only [Finset.mem_sdiff, List.mem_toFinset] at hx
        have hxg : x ≠ g := by rintro rfl; exact nrec hx.1
        have := look_of (R := VR k) (dom x hx.1 hx.2) (rel x hx.1 hx.2)
        intro v hv
        simp only [defFuns] at hv
        rw [set_other hxg] at hv
        exact this v hv
      obtain ⟨ρ3, h6, h7⟩ := hbase.setLists (Y := ge.fv) hrs h2 (fun y hy hn => by simp [hy, hn])
      have hc : callee ρ₁' f1 ft1 (gv1 ++ fv1) = some (ρ3, ge') :=
        callee_applyV.mpr ⟨_, _, hf1, getList_append hg1 hg2, applyV_eq find (setLists_append bind h6)⟩
      match m, hl with
      | 0, hl =>
        cases b with
        | false => simp only [Lev] at hl; simp at hl
        | true => exact FRel.oot
      | 1, hl =>
        cases b with
        | false => simp only [Lev] at hl; simp at hl; omega
        | true =>
          have : callAt S 1 ρ₁' (.app f1 ft1 (gv1 ++ fv1)) = .oot := by
            simp [callAt, run, evalE, hc]
          rw [this]; exact FRel.oot
      | m + 2, hl =>
        have : callAt S (m + 2) ρ₁' (.app f1 ft1 (gv1 ++ fv1)) = run S m ρ3 ge' := by
          simp [callAt, run, evalE, hc]
        rw [this]
        simp only [callAt, run_callAt]
        exact sim_exp (ih m (by simp only [Lev] at hl ⊢; split at hl <;> simp_all <;> omega)) pe bd h7

/-- One round preserves what a program does. -/
theorem round_preserves (S : Sig) {k e e'} (he : PE k e e') (bd : Below k e) : Preserves S e S e' := by
  have hemp : EnvR (VR k) e.fv emp emp := by intro x _ v hv; simp [emp] at hv
  refine preserves_of_flex (R := VR k) (VR.data k).obs (fun n => ⟨2 * n, ?_⟩) (fun m => ⟨m, ?_⟩)
  · rw [run_callAt, run_callAt]
    exact sim_exp (callOk S false k n (2 * n) (by simp [Lev])) he bd hemp
  · rw [run_callAt, run_callAt]
    exact sim_exp (callOk S true k m m (by simp [Lev])) he bd hemp

end Unc
end ANF
