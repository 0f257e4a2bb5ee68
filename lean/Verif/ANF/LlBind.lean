import Verif.ANF.LlGen
import Verif.ANF.UncBind

/-!
# Lambda lifting: binders, free variables, tags and parameters of the result
-/

namespace ANF
namespace Ll

/-- The number of times a name may be introduced: once if it is between the two counters. -/
def new (k k' x : Nat) : Nat := if k ≤ x ∧ x < k' then 1 else 0

theorem new_add {a b c x : Nat} (h1 : a ≤ b) (h2 : b ≤ c) : new a b x + new b c x = new a c x := by
  unfold new; split <;> split <;> split <;> omega

theorem new_one {a : Nat} (x : Nat) : (if a = x then 1 else 0) = new a (a + 1) x := by
  unfold new; split <;> split <;> omega

/-- The new names of the functions of a bundle. -/
def lnames (fm : FMap) : Defs → List Var
  | .nil => []
  | .cons f _ _ _ B => match fm f with
    | some (.lift f' _ _ _) => f' :: lnames fm B
    | _ => lnames fm B

theorem lnames_put {fm : FMap} {f a} : ∀ {B : Defs}, f ∉ B.names → lnames (put fm f a) B = lnames fm B := by
  intro B
  induction B using Defs.ind with
  | nil => intro _; rfl
  | cons g gt xs e B ih =>
    intro h
    simp only [Defs.names, List.mem_cons, not_or] at h
    simp only [lnames, put_other (Ne.symm h.1), ih h.2]

theorem addFuns_count {fvs args : List Var} {sfvs : Finset Var} : ∀ (B : Defs) (fm gf s), B.names.Nodup →
    s.next ≤ (addFuns fvs sfvs args B fm gf s).2.2.next ∧
    ∀ x, (lnames (addFuns fvs sfvs args B fm gf s).1 B).count x ≤ new s.next (addFuns fvs sfvs args B fm gf s).2.2.next x := by
  intro B
  induction B using Defs.ind with
  | nil => intro fm gf s _; exact ⟨le_rfl, fun x => by simp [lnames]⟩
  | cons f ft xs e B ih =>
    intro fm gf s hn
    simp only [Defs.names, List.nodup_cons] at hn
    obtain ⟨h1, h2⟩ := ih fm gf s hn.2
    simp only [addFuns]
    generalize addFuns fvs sfvs args B fm gf s = r at *
    split
    · refine ⟨h1.trans (Nat.le_succ _), fun x => ?_⟩
      simp only [lnames, put_self, lnames_put hn.1, List.count_cons, beq_iff_eq]
      have := h2 x
      rw [new_one, ← new_add (c := r.2.2.next + 1) h1 (Nat.le_succ r.2.2.next)]
      omega
    · refine ⟨h1, fun x => ?_⟩
      simp only [lnames, put_self, lnames_put hn.1]
      exact h2 x

theorem addFree_count (σ : Var → Var) : ∀ (as : List Var) (s : Comp), s.next ≤ (addFree as σ s).2.2.next ∧
    ∀ x, (addFree as σ s).1.count x ≤ new s.next (addFree as σ s).2.2.next x := by
  intro as
  induction as with
  | nil => intro s; exact ⟨le_rfl, fun x => by simp [addFree]⟩
  | cons a as ih =>
    intro s
    obtain ⟨h1, h2⟩ := ih s
    simp only [addFree, Comp.bump]
    generalize addFree as σ s = r at *
    refine ⟨h1.trans (Nat.le_succ _), fun x => ?_⟩
    have := h2 x
    rw [List.count_cons, beq_eq_decide]
    simp only [decide_eq_true_eq]
    rw [new_one, ← new_add (c := r.2.2.next + 1) h1 (Nat.le_succ r.2.2.next)]
    omega

theorem wrappers_count (σ : Var → Var) (fm : FMap) : ∀ (B : Defs) (s : Comp) {ob σ' s'},
    wrappers σ fm B s = some (ob, σ', s') → s.next ≤ s'.next ∧
    ∀ x, ((ob.getD .nil).bv).count x ≤ new s.next s'.next x := by
  intro B
  induction B using Defs.ind with
  | nil => intro s ob σ' s' h; simp only [wrappers] at h; cases h; exact ⟨le_rfl, fun x => by simp [Defs.bv]⟩
  | cons f ft xs e B ih =>
    intro s ob σ' s' h
    simp only [wrappers] at h
    rcases hf : fm f with _ | ⟨f', ft', sf, args⟩ | sf <;> simp only [hf] at h
    · cases h
    · rcases hw : wrappers σ fm B { s with next := s.next + 1 + xs.length } with _ | ⟨mb, σ₁, s₁⟩ <;> simp only [hw] at h
      · cases h
      cases h
      obtain ⟨h1, h2⟩ := ih _ hw
      have h1 : s.next + 1 + xs.length ≤ s'.next := h1
      have hle : s.next ≤ s.next + 1 + xs.length := Nat.le_trans (Nat.le_add_right _ 1) (Nat.le_add_right _ _)
      refine ⟨hle.trans h1, fun x => ?_⟩
      have h3 : (mb.getD .nil).bv.count x ≤ new (s.next + 1 + xs.length) s'.next x := h2 x
      simp only [Option.getD_some, Defs.bv, Exp.bv, List.nil_append, List.count_cons, List.count_append, beq_iff_eq,
        Unc.count_range']
      have e1 : (if s.next + 1 ≤ x ∧ x < s.next + 1 + xs.length then 1 else 0) = new (s.next + 1) (s.next + 1 + xs.length) x := rfl
      rw [e1, new_one, ← new_add (b := s.next + 1) (Nat.le_succ s.next) (Nat.le_trans (Nat.le_add_right _ _) h1),
        ← new_add (b := s.next + 1 + xs.length) (Nat.le_add_right _ _) h1]
      omega
    · cases h
      exact ⟨le_rfl, fun x => by simp [Defs.bv]⟩

variable {maxArgs maxPush : Nat} {dec : List Var → Finset Var → Bool}

/-- The binders of the second list: those of the first and new ones, each at most once. -/
def Grows (k k' : Nat) (l l' : List Var) : Prop := k ≤ k' ∧ ∀ x, l'.count x ≤ l.count x + new k k' x

theorem Grows.cons {k k' l l'} (x : Var) (h : Grows k k' l l') : Grows k k' (x :: l) (x :: l') :=
  ⟨h.1, fun y => by rw [List.count_cons, List.count_cons]; have := h.2 y; omega⟩

theorem Grows.append {a b c l l' m m'} (h : Grows a b l l') (h' : Grows b c m m') : Grows a c (l ++ m) (l' ++ m') :=
  ⟨h.1.trans h'.1, fun y => by
    rw [List.count_append, List.count_append, ← new_add h.1 h'.1]
    have := h.2 y; have := h'.2 y; omega⟩

theorem Grows.nodup {k k' l l'} (h : Grows k k' l l') (hn : l.Nodup) (hb : ∀ x ∈ l, x < k) : l'.Nodup := by
  rw [List.nodup_iff_count_le_one]
  intro x
  have h2 := h.2 x
  have h1 := List.nodup_iff_count_le_one.mp hn x
  by_cases hx : k ≤ x
  · have : List.count x l = 0 := List.count_eq_zero.mpr fun hm => absurd (hb x hm) (by vomega)
    unfold new at h2
    split at h2 <;> omega
  · unfold new at h2
    rw [if_neg (fun h => hx h.1)] at h2
    omega

theorem Grows.mem {k k' l l'} (h : Grows k k' l l') {x : Var} (hx : x ∈ l') : x ∈ l ∨ k ≤ x ∧ x < k' := by
  have h2 := h.2 x
  have h3 := List.count_pos_iff.mpr hx
  unfold new at h2
  split at h2
  · next hc => exact .inr hc
  · exact .inl (List.count_pos_iff.mp (by omega))

mutual
theorem bindE : ∀ (e : Exp) {Z σ fm gf} {s : Comp} {e' s'}, e.bv.Nodup →
    llE maxArgs maxPush dec e Z σ fm gf s = some (e', s') → Grows s.next s'.next e.bv e'.bv
  | .constr x t ys e, Z, σ, fm, gf, s, e', s', hn, h => by
    simp only [llE] at h
    rcases he : llE maxArgs maxPush dec e (insert x Z) σ fm gf s with _ | ⟨e₁, s₁⟩ <;> simp only [he] at h <;> cases h
    exact (bindE e (List.nodup_cons.mp hn).2 he).cons x
  | .case x bs, Z, σ, fm, gf, s, e', s', hn, h => by
    simp only [llE] at h
    rcases he : llB maxArgs maxPush dec bs Z σ fm gf s with _ | ⟨e₁, s₁⟩ <;> simp only [he] at h <;> cases h
    exact bindB bs hn he
  | .proj x t i y e, Z, σ, fm, gf, s, e', s', hn, h => by
    simp only [llE] at h
    rcases he : llE maxArgs maxPush dec e (insert x Z) σ fm gf s with _ | ⟨e₁, s₁⟩ <;> simp only [he] at h <;> cases h
    exact (bindE e (List.nodup_cons.mp hn).2 he).cons x
  | .letapp x f ft ys e, Z, σ, fm, gf, s, e', s', hn, h => by
    simp only [llE] at h
    rcases he : llE maxArgs maxPush dec e (insert x Z) σ fm gf s with _ | ⟨e₁, s₁⟩ <;> simp only [he] at h <;> cases h
    exact (bindE e (List.nodup_cons.mp hn).2 he).cons x
  | .fn B e, Z, σ, fm, gf, s, e', s', hn, h => by
    simp only [llE] at h
    simp only [Exp.bv] at hn
    obtain ⟨hn1, hn2, _⟩ := List.nodup_append.mp hn
    have hA := addFuns_count (fvs := elements (bundleFvs dec fm gf B)) (sfvs := bundleFvs dec fm gf B)
      (args := liftVars maxArgs maxPush B (elements (bundleFvs dec fm gf B))) B fm gf s (hn1.sublist (names_bv B))
    generalize addFuns (elements (bundleFvs dec fm gf B)) (bundleFvs dec fm gf B)
      (liftVars maxArgs maxPush B (elements (bundleFvs dec fm gf B))) B fm gf s = r at *
    rcases hB : llD maxArgs maxPush dec B B B.names.toFinset σ r.1 r.2.1 r.2.2 with _ | ⟨B', s₁⟩ <;> simp only [hB] at h
    · cases h
    rcases hw : wrappers σ r.1 B s₁ with _ | ⟨ob, σ', s₂⟩ <;> simp only [hw] at h
    · cases h
    rcases he : llE maxArgs maxPush dec e (B.names.toFinset ∪ Z) σ' r.1 r.2.1 s₂ with _ | ⟨e₁, s₃⟩ <;> simp only [he] at h
    · cases h
    have g1 := bindD B hn1 hB
    have g2 := wrappers_count σ r.1 B s₁ hw
    have g3 := bindE e hn2 he
    have hfin : Grows s.next s₃.next (B.bv ++ e.bv) (B'.bv ++ ((ob.getD .nil).bv ++ e₁.bv)) := by
      refine ⟨hA.1.trans (g1.1.trans (g2.1.trans g3.1)), fun x => ?_⟩
      simp only [List.count_append]
      rw [← new_add (hA.1.trans (g1.1.trans g2.1)) g3.1, ← new_add (hA.1.trans g1.1) g2.1, ← new_add hA.1 g1.1]
      have a := hA.2 x; have b := g1.2 x; have c := g2.2 x; have d := g3.2 x
      omega
    rcases ob with _ | Bw <;> simp only at h <;> cases h
    · simpa [Exp.bv, Defs.bv] using hfin
    · simpa [Exp.bv] using hfin
  | .app f ft ys, Z, σ, fm, gf, s, e', s', hn, h => by
    simp only [llE] at h; cases h; exact ⟨le_rfl, fun x => by simp [Exp.bv]⟩
  | .primVal x p e, Z, σ, fm, gf, s, e', s', hn, h => by
    simp only [llE] at h
    rcases he : llE maxArgs maxPush dec e (insert x Z) σ fm gf s with _ | ⟨e₁, s₁⟩ <;> simp only [he] at h <;> cases h
    exact (bindE e (List.nodup_cons.mp hn).2 he).cons x
  | .prim x p ys e, Z, σ, fm, gf, s, e', s', hn, h => by
    simp only [llE] at h
    rcases he : llE maxArgs maxPush dec e (insert x Z) σ fm gf s with _ | ⟨e₁, s₁⟩ <;> simp only [he] at h <;> cases h
    exact (bindE e (List.nodup_cons.mp hn).2 he).cons x
  | .halt x, Z, σ, fm, gf, s, e', s', hn, h => by
    simp only [llE] at h; cases h; exact ⟨le_rfl, fun x => by simp [Exp.bv]⟩
theorem bindB : ∀ (bs : Brs) {Z σ fm gf} {s : Comp} {bs' s'}, bs.bv.Nodup →
    llB maxArgs maxPush dec bs Z σ fm gf s = some (bs', s') → Grows s.next s'.next bs.bv bs'.bv
  | .nil, Z, σ, fm, gf, s, bs', s', hn, h => by
    simp only [llB] at h; cases h; exact ⟨le_rfl, fun x => by simp [Brs.bv]⟩
  | .cons t e bs, Z, σ, fm, gf, s, bs', s', hn, h => by
    simp only [llB] at h
    simp only [Brs.bv] at hn
    obtain ⟨hn1, hn2, _⟩ := List.nodup_append.mp hn
    rcases he : llE maxArgs maxPush dec e Z σ fm gf s with _ | ⟨e₁, s₁⟩ <;> simp only [he] at h
    · cases h
    rcases hb : llB maxArgs maxPush dec bs Z σ fm gf s₁ with _ | ⟨bs₁, s₂⟩ <;> simp only [hb] at h
    · cases h
    cases h
    exact (bindE e hn1 he).append (bindB bs hn2 hb)
theorem bindD : ∀ (B : Defs) {Bf N σ fm gf} {s : Comp} {B' s'}, B.bv.Nodup →
    llD maxArgs maxPush dec B Bf N σ fm gf s = some (B', s') →
    s.next ≤ s'.next ∧ ∀ x, B'.bv.count x ≤ B.bv.count x + (lnames fm B).count x + new s.next s'.next x
  | .nil, Bf, N, σ, fm, gf, s, B', s', hn, h => by
    simp only [llD] at h; cases h; exact ⟨le_rfl, fun x => by simp [Defs.bv]⟩
  | .cons f ft xs e B, Bf, N, σ, fm, gf, s, B', s', hn, h => by
    simp only [llD] at h
    simp only [Defs.bv] at hn
    obtain ⟨-, hn⟩ := List.nodup_cons.mp hn
    obtain ⟨-, hn, _⟩ := List.nodup_append.mp hn
    obtain ⟨hn1, hn2, _⟩ := List.nodup_append.mp hn
    rcases hf : fm f with _ | ⟨f', ft', sf, args⟩ | sf <;> simp only [hf] at h
    · cases h
    · have g1 := addFree_count σ args s
      generalize addFree args σ s = r at *
      rcases hw : wrappers r.2.1 fm Bf r.2.2 with _ | ⟨ob, σ', s₁⟩ <;> simp only [hw] at h
      · cases h
      rcases he : llE maxArgs maxPush dec e (N ∪ (sf ∪ xs.toFinset)) σ' fm gf s₁ with _ | ⟨e₁, s₂⟩ <;> simp only [he] at h
      · cases h
      rcases hB : llD maxArgs maxPush dec B Bf N σ fm gf s₂ with _ | ⟨B₁, s₃⟩ <;> simp only [hB] at h
      · cases h
      rcases ob with _ | Bw <;> simp only at h
      · cases h
      cases h
      have g2 := wrappers_count r.2.1 fm Bf r.2.2 hw
      have g3 := bindE e hn1 he
      have g4 := bindD B hn2 hB
      refine ⟨g1.1.trans (g2.1.trans (g3.1.trans g4.1)), fun x => ?_⟩
      rw [← new_add (g1.1.trans (g2.1.trans g3.1)) g4.1, ← new_add (g1.1.trans g2.1) g3.1, ← new_add g1.1 g2.1]
      simp only [Defs.bv, Exp.bv, lnames, hf, List.count_cons, List.count_append]
      have a := g1.2 x; have b := g2.2 x; have c := g3.2 x; have d := g4.2 x
      simp only [Option.getD_some] at b
      omega
    · rcases he : llE maxArgs maxPush dec e (N ∪ (sf ∪ xs.toFinset)) σ fm gf s with _ | ⟨e₁, s₂⟩ <;> simp only [he] at h
      · cases h
      rcases hB : llD maxArgs maxPush dec B Bf N σ fm gf s₂ with _ | ⟨B₁, s₃⟩ <;> simp only [hB] at h
      · cases h
      cases h
      have g3 := bindE e hn1 he
      have g4 := bindD B hn2 hB
      refine ⟨g3.1.trans g4.1, fun x => ?_⟩
      rw [← new_add g3.1 g4.1]
      simp only [Defs.bv, lnames, hf, List.count_cons, List.count_append]
      have c := g3.2 x; have d := g4.2 x
      omega
end

/-! ## Tags and free variables -/

mutual
theorem LE.caseTags {k n P ζ σ} : ∀ {e e' : Exp}, LE k n P ζ σ e e' → e'.caseTags = e.caseTags
  | .constr _ _ _ e, _, .constr _ _ _ h => by simp only [Exp.caseTags, LE.caseTags h]
  | .case _ bs, _, .case _ h => by simp only [Exp.caseTags, LB.caseTags h]
  | .proj _ _ _ _ e, _, .proj _ _ _ h => by simp only [Exp.caseTags, LE.caseTags h]
  | .letapp _ _ _ _ e, _, .letapp _ _ _ h => by simp only [Exp.caseTags, LE.caseTags h]
  | .fn B e, _, .keep _ _ hB h => by simp only [Exp.caseTags, LD.caseTags hB, LE.caseTags h]
  | .fn B e, _, .lift _ _ _ _ _ hB _ hw h => by simp only [Exp.caseTags, LL.caseTags hB, LE.caseTags h, hw.tags, List.nil_append]
  | .app _ _ _, _, .app _ => by simp only [Exp.caseTags]
  | .primVal _ _ e, _, .primVal _ _ h => by simp only [Exp.caseTags, LE.caseTags h]
  | .prim _ _ _ e, _, .prim _ _ _ h => by simp only [Exp.caseTags, LE.caseTags h]
  | .halt _, _, .halt _ => by simp only [Exp.caseTags]
theorem LB.caseTags {k n P ζ σ} : ∀ {bs bs' : Brs}, LB k n P ζ σ bs bs' → bs'.caseTags = bs.caseTags
  | .nil, _, .nil => rfl
  | .cons _ e bs, _, .cons _ h hb => by simp only [Brs.caseTags, LE.caseTags h, LB.caseTags hb]
theorem LD.caseTags {k n P ζ σ} : ∀ {B B' : Defs}, LD k n P ζ σ B B' → B'.caseTags = B.caseTags
  | .nil, _, .nil => rfl
  | .cons _ _ _ e B, _, .cons _ _ h hB => by simp only [Defs.caseTags, LE.caseTags h, LD.caseTags hB]
theorem LL.caseTags {k n P ζ σ args Bf} : ∀ {B B' : Defs}, LL k n P ζ σ args Bf B B' → B'.caseTags = B.caseTags
  | .nil, _, .nil => rfl
  | .cons _ _ _ e B, _, .cons _ _ _ _ _ _ _ _ _ hw h _ hB => by
    simp only [Defs.caseTags, Exp.caseTags, LE.caseTags h, LL.caseTags hB, hw.tags, List.nil_append]
end

/-- What may be free in the result: renamed variables in scope and known functions. -/
def Free (P : Finset Var) (ζ : Known) (σ : Var → Var) (z : Var) : Prop :=
  (∃ y ∈ P, z = σ y) ∨ ∃ f f' ft' args, ζ f = some (f', ft', args) ∧ z = f'

theorem Call.free {P ζ σ f ft ys g gt zs} (h : Call P ζ σ f ft ys g gt zs) {k n} (so : SOk k n P ζ σ) :
    Free P ζ σ g ∧ ∀ z ∈ zs, Free P ζ σ z := by
  obtain ⟨hf, hy, h⟩ := h
  rcases h with ⟨rfl, rfl, rfl⟩ | ⟨args, hz, rfl⟩
  · refine ⟨.inl ⟨f, hf, rfl⟩, fun z hz => ?_⟩
    obtain ⟨y, h1, rfl⟩ := List.mem_map.mp hz
    exact .inl ⟨y, hy y h1, rfl⟩
  · refine ⟨.inr ⟨f, g, gt, args, hz, rfl⟩, fun z hz' => ?_⟩
    obtain ⟨y, h1, rfl⟩ := List.mem_map.mp hz'
    rw [List.mem_append] at h1
    exact .inl ⟨y, h1.elim (hy y) ((so.known f g gt args hz).2.1 y), rfl⟩

theorem Free.bind {k n P ζ σ x z} (so : SOk k n P ζ σ) (hx : x ∉ P) (h : Free (insert x P) ζ σ z) (hz : z ≠ x) : Free P ζ σ z := by
  rcases h with ⟨y, hy, rfl⟩ | h
  · rw [Finset.mem_insert] at hy
    rcases hy with rfl | hy
    · exact absurd (so.out hx) hz
    · exact .inl ⟨y, hy, rfl⟩
  · exact .inr h

theorem Free.binds {k n P ζ σ z} {xs : List Var} (so : SOk k n P ζ σ) (hx : ∀ x ∈ xs, x ∉ P) (h : Free (P ∪ xs.toFinset) ζ σ z)
    (hz : z ∉ xs) : Free P ζ σ z := by
  rcases h with ⟨y, hy, rfl⟩ | h
  · simp only [Finset.mem_union, List.mem_toFinset] at hy
    rcases hy with hy | hy
    · exact .inl ⟨y, hy, rfl⟩
    · rw [so.out (hx y hy)] at hz; exact absurd hy hz
  · exact .inr h

theorem Wraps.free {k lo hi Q ζ σ σ' B Bw} (w : Wraps lo hi ζ σ B Bw σ') (so : SOk k lo Q ζ σ) {z : Var} {fv : Finset Var}
    (hfv : z ∈ fv → Free Q ζ σ' z)
    (h : z ∈ (Bw.fvRaw ∪ fv) \ Bw.names.toFinset) (hargs : ∀ f ∈ B.names, ∀ f' ft' as, ζ f = some (f', ft', as) →
      ∀ x ∈ as, x ∉ B.names) : (∃ y ∈ Q, y ∉ B.names ∧ z = σ y) ∨ ∃ f f' ft' args, ζ f = some (f', ft', args) ∧ z = f' := by
  simp only [Finset.mem_sdiff, Finset.mem_union, List.mem_toFinset] at h
  obtain ⟨h | h, hn⟩ := h
  · obtain ⟨f, hf, f', ft', args, hz, h | ⟨x, hx, h⟩⟩ := w.fvs z h
    · exact .inr ⟨f, f', ft', args, hz, h⟩
    · exact .inl ⟨x, (so.known f f' ft' args hz).2.1 x hx, hargs f hf f' ft' args hz x hx, h⟩
  · rcases hfv h with ⟨y, hy, rfl⟩ | h
    · by_cases hyn : y ∈ B.names
      · obtain ⟨⟨ft, xs, e⟩, hd⟩ := findDef_some hyn
        obtain ⟨_, _, _, _, _, _, h1, _⟩ := w.find y ft xs e hd
        exact absurd (findDef_mem h1) hn
      · exact .inl ⟨y, hy, hyn, w.out y hyn⟩
    · exact .inr h

mutual
theorem LE.free {k} : ∀ {e e' : Exp} {n P ζ σ}, LE k n P ζ σ e e' → SOk k n P ζ σ → ∀ z ∈ e'.fv, Free P ζ σ z
  | .constr x _ ys e, _, n, P, ζ, σ, .constr hx hk hy h, so => by
    intro z hz
    simp only [Exp.fv, Finset.mem_union, Finset.mem_erase, List.mem_toFinset, List.mem_map] at hz
    rcases hz with ⟨y, hy', rfl⟩ | hz
    · exact .inl ⟨y, hy y hy', rfl⟩
    · exact Free.bind so hx (LE.free h (so.insert hk) z hz.2) hz.1
  | .case x bs, _, n, P, ζ, σ, .case hx h, so => by
    intro z hz
    simp only [Exp.fv, Finset.mem_insert] at hz
    rcases hz with rfl | hz
    · exact .inl ⟨x, hx, rfl⟩
    · exact LB.free h so z hz
  | .proj x _ _ y e, _, n, P, ζ, σ, .proj hx hk hy h, so => by
    intro z hz
    simp only [Exp.fv, Finset.mem_insert, Finset.mem_erase] at hz
    rcases hz with rfl | hz
    · exact .inl ⟨y, hy, rfl⟩
    · exact Free.bind so hx (LE.free h (so.insert hk) z hz.2) hz.1
  | .letapp x f _ ys e, _, n, P, ζ, σ, .letapp hx hk hc h, so => by
    intro z hz
    simp only [Exp.fv, Finset.mem_insert, Finset.mem_union, Finset.mem_erase, List.mem_toFinset] at hz
    rcases hz with rfl | hz | hz
    · exact (hc.free so).1
    · exact (hc.free so).2 z hz
    · exact Free.bind so hx (LE.free h (so.insert hk) z hz.2) hz.1
  | .fn B e, _, n, P, ζ, σ, .keep hn hm hB h, so => by
    intro z hz
    simp only [Exp.fv, Finset.mem_sdiff, Finset.mem_union, List.mem_toFinset, hB.names] at hz
    have so' := so.union (xs := B.names) fun f hf => (hn f hf).2
    refine Free.binds so (fun f hf => (hn f hf).1) ?_ hz.2
    rcases hz.1 with h1 | h1
    · exact LD.free hB so' z h1
    · exact LE.free h (so'.mono hm) z h1
  | .fn B e, _, n, P, ζ, σ, @LE.lift _ _ n₁ n₂ n₃ _ _ ζ' _ σ' args _ B' Bw _ e' hn ha ho hin hle hB h12 hw h, so => by
    intro z hz
    have hL : Lifts k _ _ _ _ _ _ _ B _ := ⟨so, hle, hn, ha, ho, hin, hB⟩
    have so' := hL.so'.mono h12
    have hargs : ∀ f ∈ B.names, ∀ f' ft' as, ζ' f = some (f', ft', as) → ∀ x ∈ as, x ∉ B.names := by
      intro f hf f' ft' as hz x hx h
      obtain ⟨_, rfl, _⟩ := hL.entry hf hz
      exact (hn x h).1 (ha x hx)
    have key : (∃ y ∈ P ∪ B.names.toFinset, y ∉ B.names ∧ z = σ y) ∨ ∃ f f' ft' args, ζ' f = some (f', ft', args) ∧ z = f' := by
      simp only [Exp.fv] at hz
      rw [Finset.mem_sdiff, Finset.mem_union] at hz
      rcases hz.1 with h1 | h1
      · exact LL.free hB hL.so' hargs (fun f hf => by simp [hf]) (fun x hx => by simp [ha x hx]) z h1
      · exact hw.free so' (fun h2 => LE.free h (hw.so so' fun f hf => by simp [hf]) z h2) h1 hargs
    have hzn : z ∉ B'.names := by
      simp only [Exp.fv, Finset.mem_sdiff, List.mem_toFinset] at hz
      exact hz.2
    rcases key with ⟨y, hy, hyn, rfl⟩ | ⟨f, f', ft', as, hz', rfl⟩
    · exact .inl ⟨y, by simpa [hyn] using hy, rfl⟩
    · by_cases hf : f ∈ B.names
      · exact absurd (hL.entry hf hz').1 hzn
      · rw [ho f hf] at hz'
        exact .inr ⟨f, z, ft', as, hz', rfl⟩
  | .app f _ ys, _, n, P, ζ, σ, .app hc, so => by
    intro z hz
    simp only [Exp.fv, Finset.mem_insert, List.mem_toFinset] at hz
    rcases hz with rfl | hz
    · exact (hc.free so).1
    · exact (hc.free so).2 z hz
  | .primVal x _ e, _, n, P, ζ, σ, .primVal hx hk h, so => by
    intro z hz
    simp only [Exp.fv, Finset.mem_erase] at hz
    exact Free.bind so hx (LE.free h (so.insert hk) z hz.2) hz.1
  | .prim x _ ys e, _, n, P, ζ, σ, .prim hx hk hy h, so => by
    intro z hz
    simp only [Exp.fv, Finset.mem_union, Finset.mem_erase, List.mem_toFinset, List.mem_map] at hz
    rcases hz with ⟨y, hy', rfl⟩ | hz
    · exact .inl ⟨y, hy y hy', rfl⟩
    · exact Free.bind so hx (LE.free h (so.insert hk) z hz.2) hz.1
  | .halt x, _, n, P, ζ, σ, .halt hx, so => by
    intro z hz
    simp only [Exp.fv, Finset.mem_singleton] at hz
    exact .inl ⟨x, hx, hz⟩
theorem LB.free {k} : ∀ {bs bs' : Brs} {n P ζ σ}, LB k n P ζ σ bs bs' → SOk k n P ζ σ → ∀ z ∈ bs'.fv, Free P ζ σ z
  | .nil, _, n, P, ζ, σ, .nil, so => by simp [Brs.fv]
  | .cons _ e bs, _, n, P, ζ, σ, .cons hm h hb, so => by
    intro z hz
    simp only [Brs.fv, Finset.mem_union] at hz
    exact hz.elim (LE.free h so z) (LB.free hb (so.mono hm) z)
theorem LD.free {k} : ∀ {B B' : Defs} {n P ζ σ}, LD k n P ζ σ B B' → SOk k n P ζ σ → ∀ z ∈ B'.fvRaw, Free P ζ σ z
  | .nil, _, n, P, ζ, σ, .nil, so => by simp [Defs.fvRaw]
  | .cons _ _ xs e B, _, n, P, ζ, σ, .cons hm hx h hB, so => by
    intro z hz
    simp only [Defs.fvRaw, Finset.mem_union, Finset.mem_sdiff, List.mem_toFinset] at hz
    rcases hz with hz | hz
    · exact Free.binds so (fun x h => (hx x h).1) (LE.free h (so.union fun x h => (hx x h).2) z hz.1) hz.2
    · exact LD.free hB (so.mono hm) z hz
theorem LL.free {k} : ∀ {B B' : Defs} {n P ζ σ args Bf}, LL k n P ζ σ args Bf B B' → SOk k n P ζ σ →
    (∀ f ∈ Bf.names, ∀ f' ft' as, ζ f = some (f', ft', as) → ∀ x ∈ as, x ∉ Bf.names) → (∀ f ∈ Bf.names, f ∈ P) →
    (∀ x ∈ args, x ∈ P) → ∀ z ∈ B'.fvRaw,
    (∃ y ∈ P, y ∉ Bf.names ∧ z = σ y) ∨ ∃ f f' ft' args, ζ f = some (f', ft', args) ∧ z = f'
  | .nil, _, n, P, ζ, σ, args, Bf, .nil, so, ha, hb, hp => by simp [Defs.fvRaw]
  | .cons _ _ xs e B, _, n, P, ζ, σ, args, Bf,
      @LL.cons _ _ n₁ n₂ m _ _ _ σ₁ σ₂ _ _ _ _ _ _ _ f' ft' ys Bw e' B' hz0 _ hx hy hnd hl hle ho hs hw h hm hB, so, ha, hb, hp => by
    intro z hz
    simp only [Defs.fvRaw, Exp.fv] at hz
    rw [Finset.mem_union, Finset.mem_sdiff] at hz
    rcases hz with ⟨hz, hzn⟩ | hz
    · have so1 := (so.sub hp hle hy hl ho hs).union (xs := xs) fun x h => (hx x h).2
      have key := hw.free so1 (fun h2 => LE.free h (hw.so so1 fun f hf => by simp [hb f hf]) z h2) hz ha
      simp only [List.mem_toFinset, List.mem_append, not_or] at hzn
      rcases key with ⟨y, hyP, hyn, rfl⟩ | h
      · simp only [Finset.mem_union, List.mem_toFinset] at hyP
        by_cases hya : y ∈ args
        · obtain ⟨i, hi⟩ := List.getElem?_of_mem hya
          have hlt := (List.getElem?_eq_some_iff.1 hi).1
          rw [hl] at hlt
          have hz1 := List.getElem?_eq_getElem hlt
          rw [hs i y _ hi hz1] at hzn
          exact absurd (List.mem_of_getElem? hz1) hzn.2
        · rcases hyP with hyP | hyP
          · exact .inl ⟨y, hyP, hyn, ho y hya⟩
          · rw [ho y hya, so.out (hx y hyP).1] at hzn
            exact absurd hyP hzn.1
      · exact .inr h
    · exact LL.free hB (so.mono hm) ha hb hp z hz
end

/-! ## Numbers of parameters -/

end Ll

mutual
/-- The numbers of parameters of the functions in a term. -/
def Exp.arities : Exp → List Nat
  | .constr _ _ _ e => e.arities
  | .case _ bs => bs.arities
  | .proj _ _ _ _ e => e.arities
  | .letapp _ _ _ _ e => e.arities
  | .fn B e => B.arities ++ e.arities
  | .app _ _ _ => []
  | .primVal _ _ e => e.arities
  | .prim _ _ _ e => e.arities
  | .halt _ => []
/-- The same for branches. -/
def Brs.arities : Brs → List Nat
  | .nil => []
  | .cons _ e bs => e.arities ++ bs.arities
/-- The same for bundles. -/
def Defs.arities : Defs → List Nat
  | .nil => []
  | .cons _ _ xs e B => xs.length :: (e.arities ++ B.arities)
end

namespace Ll

theorem liftVars_length (maxArgs maxPush : Nat) (B : Defs) (fvs : List Var) : (liftVars maxArgs maxPush B fvs).length ≤ maxArgs := by
  unfold liftVars
  dsimp only
  generalize (if (fvs.any fun x => decide (maxPush < pushD x B.names.toFinset B)) = true then [] else fvs) = l
  split
  · simp
  · next h => omega

theorem addFuns_args {fvs args : List Var} {sfvs : Finset Var} {M : Nat} (ha : args.length ≤ M) : ∀ (B : Defs) (fm gf s),
    (∀ f f' ft' sf as, fm f = some (.lift f' ft' sf as) → as.length ≤ M) → ∀ f f' ft' sf as,
    (addFuns fvs sfvs args B fm gf s).1 f = some (.lift f' ft' sf as) → as.length ≤ M := by
  intro B
  induction B using Defs.ind with
  | nil => intro fm gf s h; exact h
  | cons g gt xs e B ih =>
    intro fm gf s h f f' ft' sf as
    have h1 := ih fm gf s h
    simp only [addFuns]
    generalize addFuns fvs sfvs args B fm gf s = r at *
    split
    · intro h2
      dsimp only at h2
      by_cases hf : f = g
      · subst hf; rw [put_self] at h2; cases h2; exact ha
      · rw [put_other hf] at h2; exact h1 f f' ft' sf as h2
    · intro h2
      dsimp only at h2
      by_cases hf : f = g
      · subst hf; rw [put_self] at h2; cases h2
      · rw [put_other hf] at h2; exact h1 f f' ft' sf as h2

theorem addFree_length (σ : Var → Var) : ∀ (as : List Var) (s : Comp), (addFree as σ s).1.length = as.length := by
  intro as
  induction as with
  | nil => intro s; rfl
  | cons a as ih => intro s; simp [addFree, ih]

theorem wrappers_arities (σ : Var → Var) (fm : FMap) : ∀ (B : Defs) (s : Comp) {ob σ' s'},
    wrappers σ fm B s = some (ob, σ', s') → ∀ n ∈ (ob.getD .nil).arities, n ∈ B.arities := by
  intro B
  induction B using Defs.ind with
  | nil => intro s ob σ' s' h; simp only [wrappers] at h; cases h; simp [Defs.arities]
  | cons f ft xs e B ih =>
    intro s ob σ' s' h
    simp only [wrappers] at h
    rcases hf : fm f with _ | ⟨f', ft', sf, args⟩ | sf <;> simp only [hf] at h
    · cases h
    · rcases hw : wrappers σ fm B { s with next := s.next + 1 + xs.length } with _ | ⟨mb, σ₁, s₁⟩ <;> simp only [hw] at h
      · cases h
      cases h
      intro n hn
      simp only [Option.getD_some, Defs.arities, Exp.arities, List.length_range', List.nil_append, List.mem_cons] at hn
      rcases hn with rfl | hn
      · simp [Defs.arities]
      · simp [Defs.arities, ih _ hw n hn]
    · cases h
      simp [Defs.arities]

mutual
theorem arE {K : Nat} : ∀ (e : Exp) {Z σ fm gf} {s : Comp} {e' s'}, (∀ n ∈ e.arities, n ≤ K) →
    (∀ f f' ft' sf as, fm f = some (.lift f' ft' sf as) → as.length ≤ maxArgs) →
    llE maxArgs maxPush dec e Z σ fm gf s = some (e', s') → ∀ n ∈ e'.arities, n ≤ K + maxArgs
  | .constr x t ys e, Z, σ, fm, gf, s, e', s', hn, hm, h => by
    simp only [llE] at h
    rcases he : llE maxArgs maxPush dec e (insert x Z) σ fm gf s with _ | ⟨e₁, s₁⟩ <;> simp only [he] at h <;> cases h
    have := arE e hn hm he
    simpa only [Exp.arities] using this
  | .case x bs, Z, σ, fm, gf, s, e', s', hn, hm, h => by
    simp only [llE] at h
    rcases he : llB maxArgs maxPush dec bs Z σ fm gf s with _ | ⟨e₁, s₁⟩ <;> simp only [he] at h <;> cases h
    exact arB bs hn hm he
  | .proj x t i y e, Z, σ, fm, gf, s, e', s', hn, hm, h => by
    simp only [llE] at h
    rcases he : llE maxArgs maxPush dec e (insert x Z) σ fm gf s with _ | ⟨e₁, s₁⟩ <;> simp only [he] at h <;> cases h
    have := arE e hn hm he
    simpa only [Exp.arities] using this
  | .letapp x f ft ys e, Z, σ, fm, gf, s, e', s', hn, hm, h => by
    simp only [llE] at h
    rcases he : llE maxArgs maxPush dec e (insert x Z) σ fm gf s with _ | ⟨e₁, s₁⟩ <;> simp only [he] at h <;> cases h
    have := arE e hn hm he
    simpa only [Exp.arities] using this
  | .fn B e, Z, σ, fm, gf, s, e', s', hn, hm, h => by
    simp only [llE] at h
    simp only [Exp.arities, List.mem_append] at hn
    have hA := addFuns_args (fvs := elements (bundleFvs dec fm gf B)) (sfvs := bundleFvs dec fm gf B)
      (liftVars_length maxArgs maxPush B (elements (bundleFvs dec fm gf B))) B fm gf s hm
    generalize addFuns (elements (bundleFvs dec fm gf B)) (bundleFvs dec fm gf B)
      (liftVars maxArgs maxPush B (elements (bundleFvs dec fm gf B))) B fm gf s = r at *
    rcases hB : llD maxArgs maxPush dec B B B.names.toFinset σ r.1 r.2.1 r.2.2 with _ | ⟨B', s₁⟩ <;> simp only [hB] at h
    · cases h
    rcases hw : wrappers σ r.1 B s₁ with _ | ⟨ob, σ', s₂⟩ <;> simp only [hw] at h
    · cases h
    rcases he : llE maxArgs maxPush dec e (B.names.toFinset ∪ Z) σ' r.1 r.2.1 s₂ with _ | ⟨e₁, s₃⟩ <;> simp only [he] at h
    · cases h
    have g1 := arD B (fun n h => hn n (.inl h)) (fun n h => hn n (.inl h)) hA hB
    have g2 := wrappers_arities σ r.1 B s₁ hw
    have g3 := arE e (fun n h => hn n (.inr h)) hA he
    rcases ob with _ | Bw <;> simp only at h <;> cases h
    · intro n h
      simp only [Exp.arities, List.mem_append] at h
      exact h.elim (g1 n) (g3 n)
    · intro n h
      simp only [Exp.arities, List.mem_append] at h
      rcases h with h | h | h
      · exact g1 n h
      · exact (hn n (.inl (g2 n h))).trans (Nat.le_add_right _ _)
      · exact g3 n h
  | .app f ft ys, Z, σ, fm, gf, s, e', s', hn, hm, h => by
    simp only [llE] at h; cases h; simp [Exp.arities]
  | .primVal x p e, Z, σ, fm, gf, s, e', s', hn, hm, h => by
    simp only [llE] at h
    rcases he : llE maxArgs maxPush dec e (insert x Z) σ fm gf s with _ | ⟨e₁, s₁⟩ <;> simp only [he] at h <;> cases h
    have := arE e hn hm he
    simpa only [Exp.arities] using this
  | .prim x p ys e, Z, σ, fm, gf, s, e', s', hn, hm, h => by
    simp only [llE] at h
    rcases he : llE maxArgs maxPush dec e (insert x Z) σ fm gf s with _ | ⟨e₁, s₁⟩ <;> simp only [he] at h <;> cases h
    have := arE e hn hm he
    simpa only [Exp.arities] using this
  | .halt x, Z, σ, fm, gf, s, e', s', hn, hm, h => by
    simp only [llE] at h; cases h; simp [Exp.arities]
theorem arB {K : Nat} : ∀ (bs : Brs) {Z σ fm gf} {s : Comp} {bs' s'}, (∀ n ∈ bs.arities, n ≤ K) →
    (∀ f f' ft' sf as, fm f = some (.lift f' ft' sf as) → as.length ≤ maxArgs) →
    llB maxArgs maxPush dec bs Z σ fm gf s = some (bs', s') → ∀ n ∈ bs'.arities, n ≤ K + maxArgs
  | .nil, Z, σ, fm, gf, s, bs', s', hn, hm, h => by
    simp only [llB] at h; cases h; simp [Brs.arities]
  | .cons t e bs, Z, σ, fm, gf, s, bs', s', hn, hm, h => by
    simp only [llB] at h
    simp only [Brs.arities, List.mem_append] at hn
    rcases he : llE maxArgs maxPush dec e Z σ fm gf s with _ | ⟨e₁, s₁⟩ <;> simp only [he] at h
    · cases h
    rcases hb : llB maxArgs maxPush dec bs Z σ fm gf s₁ with _ | ⟨bs₁, s₂⟩ <;> simp only [hb] at h
    · cases h
    cases h
    intro n h
    simp only [Brs.arities, List.mem_append] at h
    exact h.elim (arE e (fun n h => hn n (.inl h)) hm he n) (arB bs (fun n h => hn n (.inr h)) hm hb n)
theorem arD {K : Nat} : ∀ (B : Defs) {Bf N σ fm gf} {s : Comp} {B' s'}, (∀ n ∈ B.arities, n ≤ K) → (∀ n ∈ Bf.arities, n ≤ K) →
    (∀ f f' ft' sf as, fm f = some (.lift f' ft' sf as) → as.length ≤ maxArgs) →
    llD maxArgs maxPush dec B Bf N σ fm gf s = some (B', s') → ∀ n ∈ B'.arities, n ≤ K + maxArgs
  | .nil, Bf, N, σ, fm, gf, s, B', s', hn, hf, hm, h => by
    simp only [llD] at h; cases h; simp [Defs.arities]
  | .cons f ft xs e B, Bf, N, σ, fm, gf, s, B', s', hn, hbf, hm, h => by
    simp only [llD] at h
    simp only [Defs.arities, List.mem_append, List.mem_cons] at hn
    rcases hf : fm f with _ | ⟨f', ft', sf, args⟩ | sf <;> simp only [hf] at h
    · cases h
    · have g1 := addFree_length σ args s
      generalize addFree args σ s = r at *
      rcases hw : wrappers r.2.1 fm Bf r.2.2 with _ | ⟨ob, σ', s₁⟩ <;> simp only [hw] at h
      · cases h
      rcases he : llE maxArgs maxPush dec e (N ∪ (sf ∪ xs.toFinset)) σ' fm gf s₁ with _ | ⟨e₁, s₂⟩ <;> simp only [he] at h
      · cases h
      rcases hB : llD maxArgs maxPush dec B Bf N σ fm gf s₂ with _ | ⟨B₁, s₃⟩ <;> simp only [hB] at h
      · cases h
      rcases ob with _ | Bw <;> simp only at h
      · cases h
      cases h
      have g2 := wrappers_arities r.2.1 fm Bf r.2.2 hw
      have g3 := arE e (fun n h => hn n (.inr (.inl h))) hm he
      have g4 := arD B (fun n h => hn n (.inr (.inr h))) hbf hm hB
      intro n h
      simp only [Defs.arities, Exp.arities, List.mem_append, List.mem_cons, List.length_append] at h
      rcases h with rfl | (h | h) | h
      · have a := hn xs.length (.inl rfl)
        have b := hm f f' ft' sf args hf
        omega
      · exact (hbf n (g2 n h)).trans (Nat.le_add_right _ _)
      · exact g3 n h
      · exact g4 n h
    · rcases he : llE maxArgs maxPush dec e (N ∪ (sf ∪ xs.toFinset)) σ fm gf s with _ | ⟨e₁, s₂⟩ <;> simp only [he] at h
      · cases h
      rcases hB : llD maxArgs maxPush dec B Bf N σ fm gf s₂ with _ | ⟨B₁, s₃⟩ <;> simp only [hB] at h
      · cases h
      cases h
      have g3 := arE e (fun n h => hn n (.inr (.inl h))) hm he
      have g4 := arD B (fun n h => hn n (.inr (.inr h))) hbf hm hB
      intro n h
      simp only [Defs.arities, List.mem_append, List.mem_cons] at h
      rcases h with rfl | h | h
      · exact (hn _ (.inl rfl)).trans (Nat.le_add_right _ _)
      · exact g3 n h
      · exact g4 n h
end

end Ll
end ANF
