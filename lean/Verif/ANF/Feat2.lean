import Verif.ANF.Feat

/-!
# What the instructions look like after uncurrying, lambda lifting, closure conversion, hoisting and dead parameter elimination
-/

namespace ANF
open Ctor (PMap cloTag)

mutual
theorem Exp.all_true : ∀ e : Exp, e.All (fun _ => True)
  | .constr _ _ _ e => ⟨trivial, e.all_true⟩
  | .case _ bs => by simp only [Exp.All]; exact bs.all_true
  | .proj _ _ _ _ e => by simp only [Exp.All]; exact e.all_true
  | .letapp _ _ _ _ e => ⟨⟨trivial, trivial⟩, e.all_true⟩
  | .fn B e => ⟨trivial, B.all_true, e.all_true⟩
  | .app _ _ _ => trivial
  | .primVal _ _ e => ⟨trivial, e.all_true⟩
  | .prim _ _ _ e => ⟨trivial, e.all_true⟩
  | .halt _ => trivial
theorem Brs.all_true : ∀ bs : Brs, bs.All (fun _ => True)
  | .nil => trivial
  | .cons _ e bs => ⟨trivial, e.all_true, bs.all_true⟩
theorem Defs.all_true : ∀ B : Defs, B.All (fun _ => True)
  | .nil => trivial
  | .cons _ _ _ e B => ⟨trivial, e.all_true, B.all_true⟩
end

/-- The tags matched on are those of the branches. -/
def TagsIn (T : Tag → Prop) : Feat → Prop
  | .br t => T t
  | _ => True

mutual
theorem Exp.all_of_tags {T : Tag → Prop} : ∀ {e : Exp}, (∀ t ∈ e.caseTags, T t) → e.All (TagsIn T)
  | .constr _ _ _ e, h => ⟨trivial, Exp.all_of_tags (e := e) h⟩
  | .case _ bs, h => by simp only [Exp.All]; exact Brs.all_of_tags (bs := bs) h
  | .proj _ _ _ _ e, h => by simp only [Exp.All]; exact Exp.all_of_tags (e := e) h
  | .letapp _ _ _ _ e, h => ⟨⟨trivial, trivial⟩, Exp.all_of_tags (e := e) h⟩
  | .fn B e, h => ⟨trivial, Defs.all_of_tags fun t ht => h t (List.mem_append_left _ ht),
      Exp.all_of_tags fun t ht => h t (List.mem_append_right _ ht)⟩
  | .app _ _ _, _ => trivial
  | .primVal _ _ e, h => ⟨trivial, Exp.all_of_tags (e := e) h⟩
  | .prim _ _ _ e, h => ⟨trivial, Exp.all_of_tags (e := e) h⟩
  | .halt _, _ => trivial
theorem Brs.all_of_tags {T : Tag → Prop} : ∀ {bs : Brs}, (∀ t ∈ bs.caseTags, T t) → bs.All (TagsIn T)
  | .nil, _ => trivial
  | .cons u e bs, h => ⟨h u (List.mem_cons_self ..),
      Exp.all_of_tags fun t ht => h t (List.mem_cons_of_mem _ (List.mem_append_left _ ht)),
      Brs.all_of_tags fun t ht => h t (List.mem_cons_of_mem _ (List.mem_append_right _ ht))⟩
theorem Defs.all_of_tags {T : Tag → Prop} : ∀ {B : Defs}, (∀ t ∈ B.caseTags, T t) → B.All (TagsIn T)
  | .nil, _ => trivial
  | .cons _ _ _ e B, h => ⟨trivial, Exp.all_of_tags fun t ht => h t (List.mem_append_left _ ht),
      Defs.all_of_tags fun t ht => h t (List.mem_append_right _ ht)⟩
end

/-! ## Uncurrying -/

namespace Unc

theorem peel_tail {cps : Bool} {xs : List Var} {g : Var} {ge tail : Exp} {s : St} {pre fv} (h : peel cps xs g ge tail s = some (pre, fv))
    {P : Feat → Prop} (hP : ∀ t n, P (.call t n)) : tail.All P := by
  rcases (peel_some h).2.2 with ⟨_, rfl⟩ | ⟨_, _, _, rfl, _⟩
  · trivial
  · exact hP _ _

mutual
theorem uncE_all {P : Feat → Prop} (hP : ∀ t n, P (.call t n)) (cps : Bool) : ∀ (e : Exp) (s : St), e.All P → (uncE cps e s).1.All P
  | .constr x t ys e, s, h => ⟨h.1, uncE_all hP cps e s h.2⟩
  | .case x bs, s, h => by simp only [Exp.All, uncE] at h ⊢; exact uncBs_all hP cps bs s h
  | .proj x t n y e, s, h => by simp only [Exp.All, uncE] at h ⊢; exact uncE_all hP cps e s h
  | .letapp x f ft ys e, s, h => ⟨h.1, uncE_all hP cps e s h.2⟩
  | .fn B e, s, h => ⟨h.1, uncD_all hP cps B s h.1 h.2.1, uncE_all hP cps e _ h.2.2⟩
  | .app f ft ys, s, h => h
  | .primVal x p e, s, h => ⟨h.1, uncE_all hP cps e s h.2⟩
  | .prim x p ys e, s, h => ⟨h.1, uncE_all hP cps e s h.2⟩
  | .halt x, s, h => h
theorem uncBs_all {P : Feat → Prop} (hP : ∀ t n, P (.call t n)) (cps : Bool) : ∀ (bs : Brs) (s : St), bs.All P → (uncBs cps bs s).1.All P
  | .nil, s, h => h
  | .cons t e bs, s, h => ⟨h.1, uncE_all hP cps e s h.2.1, uncBs_all hP cps bs _ h.2.2⟩
theorem uncD_all {P : Feat → Prop} (hP : ∀ t n, P (.call t n)) (cps : Bool) : ∀ (B : Defs) (s : St), P .bundle → B.All P →
    (uncD cps B s).1.All P
  | .nil, s, hb, h => h
  | .cons f ft xs e B, s, hb, h => by
    simp only [uncD]
    exact Defs.all_append.mpr ⟨uncBody_all hP cps f ft xs e s hb h.2.1, uncD_all hP cps B _ hb h.2.2⟩
theorem uncBody_all {P : Feat → Prop} (hP : ∀ t n, P (.call t n)) (cps : Bool) (f : Var) (ft : Tag) (xs : List Var) : ∀ (e : Exp) (s : St),
    P .bundle → e.All P → (uncBody cps f ft xs e s).1.All P
  | .fn (.cons g gt gv ge .nil) tail, s, hb, h => by
    simp only [uncBody]
    split
    · next hp =>
      exact ⟨hP _ _, ⟨hb, ⟨hP _ _, hP _ _, trivial⟩, peel_tail hp hP⟩, uncBody_all hP cps _ _ _ ge _ hb h.2.1.2.1⟩
    · exact ⟨hP _ _, ⟨hb, uncD_all hP cps (.cons g gt gv ge .nil) s hb h.2.1, uncE_all hP cps tail _ h.2.2⟩, trivial⟩
  | .fn .nil e, s, hb, h => ⟨hP _ _, ⟨hb, uncD_all hP cps .nil s hb h.2.1, uncE_all hP cps e _ h.2.2⟩, trivial⟩
  | .fn (.cons g gt gv ge (.cons g' gt' gv' ge' B)) e, s, hb, h =>
    ⟨hP _ _, ⟨hb, uncD_all hP cps (.cons g gt gv ge (.cons g' gt' gv' ge' B)) s hb h.2.1, uncE_all hP cps e _ h.2.2⟩, trivial⟩
  | .constr x t ys e, s, hb, h => ⟨hP _ _, ⟨h.1, uncE_all hP cps e s h.2⟩, trivial⟩
  | .case x bs, s, hb, h => ⟨hP _ _, by simp only [Exp.All] at h ⊢; exact uncBs_all hP cps bs s h, trivial⟩
  | .proj x t n y e, s, hb, h => ⟨hP _ _, by simp only [Exp.All] at h ⊢; exact uncE_all hP cps e s h, trivial⟩
  | .letapp x g gt ys e, s, hb, h => ⟨hP _ _, ⟨h.1, uncE_all hP cps e s h.2⟩, trivial⟩
  | .app g gt ys, s, hb, h => ⟨hP _ _, h, trivial⟩
  | .primVal x p e, s, hb, h => ⟨hP _ _, ⟨h.1, uncE_all hP cps e s h.2⟩, trivial⟩
  | .prim x p ys e, s, hb, h => ⟨hP _ _, ⟨h.1, uncE_all hP cps e s h.2⟩, trivial⟩
  | .halt x, s, hb, h => ⟨hP _ _, h, trivial⟩
end

end Unc

/-! ## Lambda lifting -/

namespace Ll

/-- Lambda lifting makes no constructors. -/
def Same (s s' : Comp) : Prop := s'.cenv = s.cenv ∧ s'.ctag = s.ctag ∧ s'.itag = s.itag

theorem Same.trans {a b c : Comp} (h : Same a b) (h' : Same b c) : Same a c :=
  ⟨h'.1.trans h.1, h'.2.1.trans h.2.1, h'.2.2.trans h.2.2⟩

theorem addFuns_same (fvs sfvs args) : ∀ (B : Defs) (fm : FMap) gf (s : Comp), Same s (addFuns fvs sfvs args B fm gf s).2.2
  | .nil, fm, gf, s => ⟨rfl, rfl, rfl⟩
  | .cons f ft xs e B, fm, gf, s => by
    have := addFuns_same fvs sfvs args B fm gf s
    simp only [addFuns]
    split <;> exact this

theorem addFree_same : ∀ (as : List Var) (σ : Var → Var) (s : Comp), Same s (addFree as σ s).2.2
  | [], σ, s => ⟨rfl, rfl, rfl⟩
  | a :: as, σ, s => by have := addFree_same as σ s; exact this

theorem wrappers_all {P : Feat → Prop} (hP : ∀ t n, P (.call t n)) (σ : Var → Var) (fm : FMap) : ∀ (B : Defs) (s : Comp) {ob σ' s'},
    wrappers σ fm B s = some (ob, σ', s') → (ob.getD .nil).All P ∧ Same s s'
  | .nil, s, ob, σ', s', h => by simp only [wrappers] at h; cases h; exact ⟨trivial, rfl, rfl, rfl⟩
  | .cons f ft xs e B, s, ob, σ', s', h => by
    simp only [wrappers] at h
    rcases hf : fm f with _ | ⟨f', ft', sf, args⟩ | sf <;> simp only [hf] at h
    · cases h
    · rcases hw : wrappers σ fm B { s with next := s.next + 1 + xs.length } with _ | ⟨mb, σ₁, s₁⟩ <;> simp only [hw] at h
      · cases h
      have := wrappers_all hP σ fm B _ hw
      cases h
      exact ⟨⟨hP _ _, hP _ _, this.1⟩, this.2⟩
    · cases h
      exact ⟨trivial, rfl, rfl, rfl⟩

variable {maxArgs maxPush : Nat} {dec : List Var → Finset Var → Bool}

mutual
theorem llE_all {P : Feat → Prop} (hP : ∀ t n, P (.call t n)) : ∀ (e : Exp) {Z σ fm gf} {s : Comp} {e' s'}, e.All P →
    llE maxArgs maxPush dec e Z σ fm gf s = some (e', s') → e'.All P ∧ Same s s'
  | .constr x t ys e, Z, σ, fm, gf, s, e', s', hn, h => by
    simp only [llE] at h
    rcases he : llE maxArgs maxPush dec e (insert x Z) σ fm gf s with _ | ⟨e₁, s₁⟩ <;> simp only [he] at h <;> cases h
    have := llE_all hP e hn.2 he
    exact ⟨⟨by rw [List.length_map]; exact hn.1, this.1⟩, this.2⟩
  | .case x bs, Z, σ, fm, gf, s, e', s', hn, h => by
    simp only [llE] at h
    rcases he : llB maxArgs maxPush dec bs Z σ fm gf s with _ | ⟨e₁, s₁⟩ <;> simp only [he] at h <;> cases h
    simp only [Exp.All] at hn ⊢
    exact llB_all hP bs hn he
  | .proj x t i y e, Z, σ, fm, gf, s, e', s', hn, h => by
    simp only [llE] at h
    rcases he : llE maxArgs maxPush dec e (insert x Z) σ fm gf s with _ | ⟨e₁, s₁⟩ <;> simp only [he] at h <;> cases h
    simp only [Exp.All] at hn ⊢
    exact llE_all hP e hn he
  | .letapp x f ft ys e, Z, σ, fm, gf, s, e', s', hn, h => by
    simp only [llE] at h
    rcases he : llE maxArgs maxPush dec e (insert x Z) σ fm gf s with _ | ⟨e₁, s₁⟩ <;> simp only [he] at h <;> cases h
    have := llE_all hP e hn.2 he
    exact ⟨⟨⟨hP _ _, hn.1.2⟩, this.1⟩, this.2⟩
  | .fn B e, Z, σ, fm, gf, s, e', s', hn, h => by
    simp only [llE] at h
    have hA := addFuns_same (elements (bundleFvs dec fm gf B)) (bundleFvs dec fm gf B)
      (liftVars maxArgs maxPush B (elements (bundleFvs dec fm gf B))) B fm gf s
    generalize addFuns (elements (bundleFvs dec fm gf B)) (bundleFvs dec fm gf B)
      (liftVars maxArgs maxPush B (elements (bundleFvs dec fm gf B))) B fm gf s = r at *
    rcases hB : llD maxArgs maxPush dec B B B.names.toFinset σ r.1 r.2.1 r.2.2 with _ | ⟨B', s₁⟩ <;> simp only [hB] at h
    · cases h
    rcases hw : wrappers σ r.1 B s₁ with _ | ⟨ob, σ', s₂⟩ <;> simp only [hw] at h
    · cases h
    rcases he : llE maxArgs maxPush dec e (B.names.toFinset ∪ Z) σ' r.1 r.2.1 s₂ with _ | ⟨e₁, s₃⟩ <;> simp only [he] at h
    · cases h
    have g1 := llD_all hP B hn.1 hn.2.1 hB
    have g2 := wrappers_all hP σ r.1 B s₁ hw
    have g3 := llE_all hP e hn.2.2 he
    have hs := ((hA.trans g1.2).trans g2.2).trans g3.2
    rcases ob with _ | Bw <;> simp only at h <;> cases h
    · exact ⟨⟨hn.1, g1.1, g3.1⟩, hs⟩
    · exact ⟨⟨hn.1, g1.1, hn.1, g2.1, g3.1⟩, hs⟩
  | .app f ft ys, Z, σ, fm, gf, s, e', s', hn, h => by
    simp only [llE] at h; cases h; exact ⟨hP _ _, rfl, rfl, rfl⟩
  | .primVal x p e, Z, σ, fm, gf, s, e', s', hn, h => by
    simp only [llE] at h
    rcases he : llE maxArgs maxPush dec e (insert x Z) σ fm gf s with _ | ⟨e₁, s₁⟩ <;> simp only [he] at h <;> cases h
    have := llE_all hP e hn.2 he
    exact ⟨⟨hn.1, this.1⟩, this.2⟩
  | .prim x p ys e, Z, σ, fm, gf, s, e', s', hn, h => by
    simp only [llE] at h
    rcases he : llE maxArgs maxPush dec e (insert x Z) σ fm gf s with _ | ⟨e₁, s₁⟩ <;> simp only [he] at h <;> cases h
    have := llE_all hP e hn.2 he
    exact ⟨⟨by rw [List.length_map]; exact hn.1, this.1⟩, this.2⟩
  | .halt x, Z, σ, fm, gf, s, e', s', hn, h => by
    simp only [llE] at h; cases h; exact ⟨trivial, rfl, rfl, rfl⟩
theorem llB_all {P : Feat → Prop} (hP : ∀ t n, P (.call t n)) : ∀ (bs : Brs) {Z σ fm gf} {s : Comp} {bs' s'}, bs.All P →
    llB maxArgs maxPush dec bs Z σ fm gf s = some (bs', s') → bs'.All P ∧ Same s s'
  | .nil, Z, σ, fm, gf, s, bs', s', hn, h => by
    simp only [llB] at h; cases h; exact ⟨trivial, rfl, rfl, rfl⟩
  | .cons t e bs, Z, σ, fm, gf, s, bs', s', hn, h => by
    simp only [llB] at h
    rcases he : llE maxArgs maxPush dec e Z σ fm gf s with _ | ⟨e₁, s₁⟩ <;> simp only [he] at h
    · cases h
    rcases hb : llB maxArgs maxPush dec bs Z σ fm gf s₁ with _ | ⟨bs₁, s₂⟩ <;> simp only [hb] at h
    · cases h
    cases h
    have g1 := llE_all hP e hn.2.1 he
    have g2 := llB_all hP bs hn.2.2 hb
    exact ⟨⟨hn.1, g1.1, g2.1⟩, g1.2.trans g2.2⟩
theorem llD_all {P : Feat → Prop} (hP : ∀ t n, P (.call t n)) : ∀ (B : Defs) {Bf N σ fm gf} {s : Comp} {B' s'}, P .bundle → B.All P →
    llD maxArgs maxPush dec B Bf N σ fm gf s = some (B', s') → B'.All P ∧ Same s s'
  | .nil, Bf, N, σ, fm, gf, s, B', s', hp, hn, h => by
    simp only [llD] at h; cases h; exact ⟨trivial, rfl, rfl, rfl⟩
  | .cons f ft xs e B, Bf, N, σ, fm, gf, s, B', s', hp, hn, h => by
    simp only [llD] at h
    rcases hf : fm f with _ | ⟨f', ft', sf, args⟩ | sf <;> simp only [hf] at h
    · cases h
    · have g1 := addFree_same args σ s
      generalize addFree args σ s = r at *
      rcases hw : wrappers r.2.1 fm Bf r.2.2 with _ | ⟨ob, σ', s₁⟩ <;> simp only [hw] at h
      · cases h
      rcases he : llE maxArgs maxPush dec e (N ∪ (sf ∪ xs.toFinset)) σ' fm gf s₁ with _ | ⟨e₁, s₂⟩ <;> simp only [he] at h
      · cases h
      rcases hB : llD maxArgs maxPush dec B Bf N σ fm gf s₂ with _ | ⟨B₁, s₃⟩ <;> simp only [hB] at h
      · cases h
      rcases ob with _ | Bw <;> simp only at h
      · cases h
      cases h
      have g2 := wrappers_all hP r.2.1 fm Bf r.2.2 hw
      have g3 := llE_all hP e hn.2.1 he
      have g4 := llD_all hP B hp hn.2.2 hB
      exact ⟨⟨hP _ _, ⟨hp, g2.1, g3.1⟩, g4.1⟩, ((g1.trans g2.2).trans g3.2).trans g4.2⟩
    · rcases he : llE maxArgs maxPush dec e (N ∪ (sf ∪ xs.toFinset)) σ fm gf s with _ | ⟨e₁, s₂⟩ <;> simp only [he] at h
      · cases h
      rcases hB : llD maxArgs maxPush dec B Bf N σ fm gf s₂ with _ | ⟨B₁, s₃⟩ <;> simp only [hB] at h
      · cases h
      cases h
      have g3 := llE_all hP e hn.2.1 he
      have g4 := llD_all hP B hp hn.2.2 hB
      exact ⟨⟨hn.1, g3.1, g4.1⟩, g3.2.trans g4.2⟩
end

end Ll

/-! ## Closure conversion -/

namespace Cc

/-- Code in front of a term. -/
def CodeAll (P : Feat → Prop) (f : Exp → Exp) : Prop := ∀ e : Exp, e.All P → (f e).All P

/-- What the added instructions satisfy: closures, and environments made between two states. -/
structure Added (P : Feat → Prop) (s s' : Comp) : Prop where
  clo : P (.con cloTag 2)
  env : ∀ t i, s.ctag ≤ t → t < s'.ctag → s'.cenv t = some i → P (.con t i.arity)

theorem Added.left {P a b c} (h : Added P a c) (hbc : Le b c) : Added P a b :=
  ⟨h.clo, fun t i h1 h2 h3 => h.env t i h1 (lt_of_lt_of_le h2 hbc.ctag) (by rw [hbc.cenv t h2]; exact h3)⟩

theorem Added.right {P a b c} (h : Added P a c) (hab : Le a b) : Added P b c :=
  ⟨h.clo, fun t i h1 h2 h3 => h.env t i (le_trans hab.ctag h1) h2 h3⟩

theorem getVar_all {P : Feat → Prop} (x m g c Γ s) (h : Added P s (getVar x m g c Γ s).2) : CodeAll P (getVar x m g c Γ s).1.2 := by
  unfold getVar at h ⊢
  split at h
  · intro e he; simpa only [Exp.All] using he
  · intro e he; exact ⟨h.clo, he⟩
  · intro e he; exact he
  · split at h
    · next hg =>
      intro e he
      simp only [hg, if_true]
      refine ⟨?_, h.clo, he⟩
      refine h.env s.ctag ⟨none, none, s.itag, 0, 0⟩ le_rfl (Nat.lt_succ_self _) ?_
      simp [Comp.record, Comp.bump, PMap.set]
    · next hg => simp only [hg]; intro e he; exact he

theorem getVars_all {P : Feat → Prop} : ∀ xs m g c Γ s, Added P s (getVars xs m g c Γ s).2 → CodeAll P (getVars xs m g c Γ s).1.2
  | [], m, g, c, Γ, s, _ => fun e he => he
  | x :: xs, m, g, c, Γ, s, h => fun e he => by
    have h1 := getVar_all x m g c Γ s (h.left (getVars_le xs m g c Γ _))
    have h2 := getVars_all xs m g c Γ _ (h.right (getVar_le x m g c Γ s))
    exact h1 _ (h2 _ he)

theorem getVars_length : ∀ xs m g c Γ s, (getVars xs m g c Γ s).1.1.length = xs.length
  | [], m, g, c, Γ, s => rfl
  | x :: xs, m, g, c, Γ, s => by simp only [getVars, List.length_cons, getVars_length xs]

theorem addFvs_count : ∀ (xs : List Var) (n : Nat) (m : PMap VInfo), (addFvs xs n m).2 = n + xs.length
  | [], n, m => rfl
  | x :: xs, n, m => by rw [addFvs, addFvs_count xs]; simp; omega

theorem makeEnv_all {P : Feat → Prop} (fvs m c Γ' Γ g s) (h : Added P s (makeEnv fvs m c Γ' Γ g s).2) :
    CodeAll P (makeEnv fvs m c Γ' Γ g s).1.2.2 := by
  intro e he
  have h1 := getVars_all fvs m g c Γ s (h.left (Le.record _ _))
  refine h1 _ ⟨?_, he⟩
  have := h.env (getVars fvs m g c Γ s).2.ctag ⟨none, none, (getVars fvs m g c Γ s).2.itag, (addFvs fvs 0 PMap.empty).2, 0⟩
    (getVars_le fvs m g c Γ s).ctag (Nat.lt_succ_self _) (by simp [makeEnv, Comp.record, PMap.set])
  simp only [addFvs_count, Nat.zero_add] at this
  rw [getVars_length]; exact this

/-- How the properties of instructions carry over: one more argument for functions. -/
structure Over (P Q : Feat → Prop) : Prop where
  con : ∀ t n, P (.con t n) → Q (.con t n)
  br : ∀ t, P (.br t) → Q (.br t)
  call : ∀ t n, P (.call t n) → Q (.call t (n + 1))
  val : ∀ p, P (.val p) → Q (.val p)
  prim : ∀ p n, P (.prim p n) → Q (.prim p n)
  bundle : P .bundle → Q .bundle
  letcall : P .letcall → Q .letcall

mutual
theorem ccE_all {P Q : Feat → Prop} (hPQ : Over P Q) : ∀ e m g c Γ s, e.All P → Added Q s (ccE e m g c Γ s).2 →
    (ccE e m g c Γ s).1.1.All Q ∧ CodeAll Q (ccE e m g c Γ s).1.2
  | .constr x t ys e, m, g, c, Γ, s, he, h => by
    have h1 := ccE_all hPQ e (m.set x .bound) g c Γ _ he.2 (h.right (getVars_le ys m g c Γ s))
    exact ⟨⟨by rw [getVars_length]; exact hPQ.con _ _ he.1, h1.2 _ h1.1⟩, getVars_all ys m g c Γ s (h.left (ccE_le e _ g c Γ _))⟩
  | .case x bs, m, g, c, Γ, s, he, h => by
    simp only [Exp.All] at he
    have h1 := ccBs_all hPQ bs m g c Γ s he (h.left (getVar_le x m g c Γ _))
    exact ⟨by simp only [ccE, Exp.All]; exact h1, getVar_all x m g c Γ _ (h.right (ccBs_le bs m g c Γ s))⟩
  | .proj x t n y e, m, g, c, Γ, s, he, h => by
    simp only [Exp.All] at he
    have h1 := ccE_all hPQ e (m.set x .bound) g c Γ _ he (h.right (getVar_le y m g c Γ s))
    exact ⟨by simp only [ccE, Exp.All]; exact h1.2 _ h1.1, getVar_all y m g c Γ s (h.left (ccE_le e _ g c Γ _))⟩
  | .letapp x f ft xs e, m, g, c, Γ, s, he, h => by
    have l2 := getVars_le xs m g c Γ (getVar f m g c Γ s).2
    have l3 := (Le.bump (getVars xs m g c Γ (getVar f m g c Γ s).2).2).trans (Le.bump _)
    have l4 := ccE_le e (m.set x .bound) g c Γ (getVars xs m g c Γ (getVar f m g c Γ s).2).2.bump.bump
    have h1 := ccE_all hPQ e (m.set x .bound) g c Γ _ he.2 (h.right ((getVar_le f m g c Γ s).trans (l2.trans l3)))
    have h2 := getVar_all f m g c Γ s (h.left (l2.trans (l3.trans l4)))
    have h3 := getVars_all xs m g c Γ _ ((h.right (getVar_le f m g c Γ s)).left (l3.trans l4))
    refine ⟨?_, fun k hk => h2 _ (h3 _ hk)⟩
    simp only [ccE, Exp.All, List.length_cons, getVars_length]
    exact ⟨⟨hPQ.call _ _ he.1.1, hPQ.letcall he.1.2⟩, h1.2 _ h1.1⟩
  | .fn B e, m, g, c, Γ, s, he, h => by
    have l1 := Le.bump s
    have l2 := makeEnv_le ((elements B.fv).filter (fun x => !g x)) m c s.next Γ g s.bump
    have l3 := ccB_le B B (makeEnv ((elements B.fv).filter (fun x => !g x)) m c s.next Γ g s.bump).1.2.1
      (addGFuns B g ((elements B.fv).filter (fun x => !g x)).isEmpty)
      (makeEnv ((elements B.fv).filter (fun x => !g x)) m c s.next Γ g s.bump).1.1
      (makeEnv ((elements B.fv).filter (fun x => !g x)) m c s.next Γ g s.bump).2
    have l4 := ccE_le e (addClosures B m s.next) (addGFuns B g ((elements B.fv).filter (fun x => !g x)).isEmpty) c Γ
      (ccB B B (makeEnv ((elements B.fv).filter (fun x => !g x)) m c s.next Γ g s.bump).1.2.1
      (addGFuns B g ((elements B.fv).filter (fun x => !g x)).isEmpty)
      (makeEnv ((elements B.fv).filter (fun x => !g x)) m c s.next Γ g s.bump).1.1
      (makeEnv ((elements B.fv).filter (fun x => !g x)) m c s.next Γ g s.bump).2).2
    have h1 := makeEnv_all _ m c s.next Γ g s.bump ((h.right l1).left (l3.trans l4))
    have h2 := ccB_all hPQ B B _ _ _ _ he.2.1 ((h.right (l1.trans l2)).left l4)
    have h3 := ccE_all hPQ e _ _ c Γ _ he.2.2 (h.right (l1.trans (l2.trans l3)))
    exact ⟨⟨hPQ.bundle he.1, h2, h3.2 _ h3.1⟩, h1⟩
  | .app f ft xs, m, g, c, Γ, s, he, h => by
    simp only [Exp.All] at he
    have l2 := getVars_le xs m g c Γ (getVar f m g c Γ s).2
    have l3 := (Le.bump (getVars xs m g c Γ (getVar f m g c Γ s).2).2).trans (Le.bump _)
    have h2 := getVar_all f m g c Γ s (h.left (l2.trans l3))
    have h3 := getVars_all xs m g c Γ _ ((h.right (getVar_le f m g c Γ s)).left l3)
    refine ⟨?_, fun k hk => h2 _ (h3 _ hk)⟩
    simp only [ccE, Exp.All, List.length_cons, getVars_length]
    exact hPQ.call _ _ he
  | .primVal x p e, m, g, c, Γ, s, he, h => by
    have h1 := ccE_all hPQ e (m.set x .bound) g c Γ s he.2 h
    exact ⟨⟨hPQ.val _ he.1, h1.2 _ h1.1⟩, fun k hk => hk⟩
  | .prim x p ys e, m, g, c, Γ, s, he, h => by
    have h1 := ccE_all hPQ e (m.set x .bound) g c Γ _ he.2 (h.right (getVars_le ys m g c Γ s))
    exact ⟨⟨by rw [getVars_length]; exact hPQ.prim _ _ he.1, h1.2 _ h1.1⟩, getVars_all ys m g c Γ s (h.left (ccE_le e _ g c Γ _))⟩
  | .halt x, m, g, c, Γ, s, he, h => ⟨trivial, getVar_all x m g c Γ s h⟩
theorem ccBs_all {P Q : Feat → Prop} (hPQ : Over P Q) : ∀ bs m g c Γ s, bs.All P → Added Q s (ccBs bs m g c Γ s).2 →
    (ccBs bs m g c Γ s).1.All Q
  | .nil, m, g, c, Γ, s, _, _ => trivial
  | .cons t e bs, m, g, c, Γ, s, he, h => by
    have h1 := ccE_all hPQ e m g c Γ s he.2.1 (h.left (ccBs_le bs m g c Γ _))
    have h2 := ccBs_all hPQ bs m g c Γ _ he.2.2 (h.right (ccE_le e m g c Γ s))
    exact ⟨hPQ.br _ he.1, h1.2 _ h1.1, h2⟩
theorem ccB_all {P Q : Feat → Prop} (hPQ : Over P Q) (B0 : Defs) : ∀ B m g c s, B.All P → Added Q s (ccB B0 B m g c s).2 →
    (ccB B0 B m g c s).1.All Q
  | .nil, m, g, c, s, _, _ => trivial
  | .cons f ft ys e B, m, g, c, s, he, h => by
    have h1 := ccE_all hPQ e (addParams ys (addClosures B0 m s.next)) g c s.next s.bump he.2.1 ((h.right (Le.bump s)).left (ccB_le B0 B m g c _))
    have h2 := ccB_all hPQ B0 B m g c _ he.2.2 (h.right ((Le.bump s).trans (ccE_le e _ g c _ _)))
    exact ⟨hPQ.call _ _ he.1, h1.2 _ h1.1, h2⟩
end

theorem cc_all {P Q : Feat → Prop} (hPQ : Over P Q) {e : Exp} {s : Comp} (he : e.All P) (ht : cloTag < s.ctag) (hclo : Q (.con cloTag 2))
    (henv : ∀ t i, s.ctag ≤ t → (closureConversion e s).2.cenv t = some i → Q (.con t i.arity)) : (closureConversion e s).1.All Q := by
  unfold closureConversion at henv ⊢
  dsimp only at henv ⊢
  have h := ccE_all hPQ e (fun x => if x ∈ e.fv then some VInfo.bound else none) (fun _ => false) 1 s.next s.bump he ⟨hclo, fun t i h1 _ h3 => by
    have h1 : s.ctag ≤ t := h1
    exact henv t i h1 (by rw [addClosureTag, pset_other (ne_of_gt (lt_of_lt_of_le ht h1))]; exact h3)⟩
  exact h.2 _ h.1

/-! The states of closure conversion. -/

section
variable {I : Comp → Prop} (hbump : ∀ s, I s → I s.bump) (hrec : ∀ s n, I s → I (s.record n))
include hbump hrec

theorem getVar_state (x m g c Γ s) (h : I s) : I (getVar x m g c Γ s).2 := by
  unfold getVar
  split
  · exact hbump _ h
  · exact hbump _ h
  · exact h
  · split
    · exact hbump _ (hbump _ (hrec _ _ h))
    · exact h

theorem getVars_state : ∀ xs m g c Γ s, I s → I (getVars xs m g c Γ s).2
  | [], _, _, _, _, _, h => h
  | x :: xs, m, g, c, Γ, s, h => getVars_state xs m g c Γ _ (getVar_state hbump hrec x m g c Γ s h)

theorem makeEnv_state (fvs m c Γ' Γ g s) (h : I s) : I (makeEnv fvs m c Γ' Γ g s).2 :=
  hrec _ _ (getVars_state hbump hrec fvs m g c Γ s h)

mutual
theorem ccE_state : ∀ e m g c Γ s, I s → I (ccE e m g c Γ s).2
  | .constr x t ys e, m, g, c, Γ, s, h => ccE_state e _ g c Γ _ (getVars_state hbump hrec ys m g c Γ s h)
  | .case x bs, m, g, c, Γ, s, h => getVar_state hbump hrec x m g c Γ _ (ccBs_state bs m g c Γ s h)
  | .proj x t n y e, m, g, c, Γ, s, h => ccE_state e _ g c Γ _ (getVar_state hbump hrec y m g c Γ s h)
  | .letapp x f ft xs e, m, g, c, Γ, s, h =>
    ccE_state e _ g c Γ _ (hbump _ (hbump _ (getVars_state hbump hrec xs m g c Γ _ (getVar_state hbump hrec f m g c Γ s h))))
  | .fn B e, m, g, c, Γ, s, h => ccE_state e _ _ c Γ _ (ccB_state B B _ _ _ _ (makeEnv_state hbump hrec _ _ _ _ _ _ _ (hbump _ h)))
  | .app f ft xs, m, g, c, Γ, s, h => hbump _ (hbump _ (getVars_state hbump hrec xs m g c Γ _ (getVar_state hbump hrec f m g c Γ s h)))
  | .primVal x p e, m, g, c, Γ, s, h => ccE_state e _ g c Γ s h
  | .prim x p ys e, m, g, c, Γ, s, h => ccE_state e _ g c Γ _ (getVars_state hbump hrec ys m g c Γ s h)
  | .halt x, m, g, c, Γ, s, h => getVar_state hbump hrec x m g c Γ s h
theorem ccBs_state : ∀ bs m g c Γ s, I s → I (ccBs bs m g c Γ s).2
  | .nil, m, g, c, Γ, s, h => h
  | .cons t e bs, m, g, c, Γ, s, h => ccBs_state bs m g c Γ _ (ccE_state e m g c Γ s h)
theorem ccB_state : ∀ B0 B m g c s, I s → I (ccB B0 B m g c s).2
  | _, .nil, m, g, c, s, h => h
  | B0, .cons f ft ys e B, m, g, c, s, h => ccB_state B0 B m g c _ (ccE_state e _ g c _ _ (hbump _ h))
end
end

end Cc

/-! ## Hoisting -/

mutual
theorem erE_all {P : Feat → Prop} : ∀ {e : Exp}, e.All P → (erE e).All P
  | .constr x t ys e, h => ⟨h.1, erE_all h.2⟩
  | .case x bs, h => by simp only [Exp.All, erE] at h ⊢; exact erBs_all h
  | .proj x t n y e, h => by simp only [Exp.All, erE] at h ⊢; exact erE_all h
  | .letapp x f ft ys e, h => ⟨h.1, erE_all h.2⟩
  | .fn B e, h => erE_all (e := e) h.2.2
  | .app f ft ys, h => h
  | .primVal x p e, h => ⟨h.1, erE_all h.2⟩
  | .prim x p ys e, h => ⟨h.1, erE_all h.2⟩
  | .halt x, h => h
theorem erBs_all {P : Feat → Prop} : ∀ {bs : Brs}, bs.All P → (erBs bs).All P
  | .nil, h => h
  | .cons t e bs, h => ⟨h.1, erE_all h.2.1, erBs_all h.2.2⟩
end

mutual
theorem accE_all {P : Feat → Prop} : ∀ {e : Exp} {d : Defs}, e.All P → d.All P → (accE e d).All P
  | .constr x t ys e, d, h, hd => accE_all (e := e) h.2 hd
  | .case x bs, d, h, hd => by simp only [Exp.All, accE] at h ⊢; exact accBs_all h hd
  | .proj x t n y e, d, h, hd => by simp only [Exp.All, accE] at h ⊢; exact accE_all h hd
  | .letapp x f ft ys e, d, h, hd => accE_all (e := e) h.2 hd
  | .fn B e, d, h, hd => accB_all (B := B) h.2.1 (accE_all (e := e) h.2.2 hd)
  | .app f ft ys, d, h, hd => hd
  | .primVal x p e, d, h, hd => accE_all (e := e) h.2 hd
  | .prim x p ys e, d, h, hd => accE_all (e := e) h.2 hd
  | .halt x, d, h, hd => hd
theorem accBs_all {P : Feat → Prop} : ∀ {bs : Brs} {d : Defs}, bs.All P → d.All P → (accBs bs d).All P
  | .nil, d, h, hd => hd
  | .cons t e bs, d, h, hd => accE_all (e := e) h.2.1 (accBs_all (bs := bs) h.2.2 hd)
theorem accB_all {P : Feat → Prop} : ∀ {B d : Defs}, B.All P → d.All P → (accB B d).All P
  | .nil, d, h, hd => hd
  | .cons f ft xs e B, d, h, hd => ⟨h.1, erE_all h.2.1, accE_all (e := e) h.2.1 (accB_all (B := B) h.2.2 hd)⟩
end

theorem hoist_all {P : Feat → Prop} {e : Exp} (hb : P .bundle) (h : e.All P) : (hoist e).All P := by
  rw [hoist_eq]
  have h1 := accE_all (d := .nil) h trivial
  split
  · exact erE_all h
  · exact ⟨hb, h1, erE_all h⟩

/-! ## Dead parameter elimination -/

section
variable {fmap : Var → Option Tag} {L : LiveFun}

mutual
theorem elimE_all {P : Feat → Prop} (hP : ∀ t n, P (.call t n)) : ∀ {e : Exp}, e.All P → (elimE fmap L e).All P
  | .constr x t ys e, h => ⟨h.1, elimE_all hP h.2⟩
  | .case x bs, h => by simp only [Exp.All, elimE] at h ⊢; exact elimBs_all hP h
  | .proj x t n y e, h => by simp only [Exp.All, elimE] at h ⊢; exact elimE_all hP h
  | .letapp x f ft ys e, h => by
    simp only [elimE]
    split <;> exact ⟨⟨hP _ _, h.1.2⟩, elimE_all hP h.2⟩
  | .fn B e, h => h
  | .app f ft ys, h => by
    simp only [elimE]
    split <;> exact hP _ _
  | .primVal x p e, h => ⟨h.1, elimE_all hP h.2⟩
  | .prim x p ys e, h => ⟨h.1, elimE_all hP h.2⟩
  | .halt x, h => h
theorem elimBs_all {P : Feat → Prop} (hP : ∀ t n, P (.call t n)) : ∀ {bs : Brs}, bs.All P → (elimBs fmap L bs).All P
  | .nil, h => h
  | .cons t e bs, h => ⟨h.1, elimE_all hP h.2.1, elimBs_all hP h.2.2⟩
end

theorem elimB_all {P : Feat → Prop} (hP : ∀ t n, P (.call t n)) : ∀ {B : Defs}, B.All P → (elimB fmap L B).All P
  | .nil, h => h
  | .cons f ft xs e B, h => by
    simp only [elimB]
    split <;> exact ⟨hP _ _, elimE_all hP h.2.1, elimB_all hP h.2.2⟩

mutual
theorem elimE_bv : ∀ e : Exp, (elimE fmap L e).bv = e.bv
  | .constr x t ys e => by simp only [elimE, Exp.bv, elimE_bv e]
  | .case x bs => by simp only [elimE, Exp.bv, elimBs_bv bs]
  | .proj x t n y e => by simp only [elimE, Exp.bv, elimE_bv e]
  | .letapp x f ft ys e => by simp only [elimE]; split <;> simp only [Exp.bv, elimE_bv e]
  | .fn B e => rfl
  | .app f ft ys => by simp only [elimE]; split <;> rfl
  | .primVal x p e => by simp only [elimE, Exp.bv, elimE_bv e]
  | .prim x p ys e => by simp only [elimE, Exp.bv, elimE_bv e]
  | .halt x => rfl
theorem elimBs_bv : ∀ bs : Brs, (elimBs fmap L bs).bv = bs.bv
  | .nil => rfl
  | .cons t e bs => by simp only [elimBs, Brs.bv, elimE_bv e, elimBs_bv bs]
end

theorem elimB_bv : ∀ B : Defs, (elimB fmap L B).bv.Sublist B.bv
  | .nil => .slnil
  | .cons f ft xs e B => by
    simp only [elimB]
    split <;> simp only [Defs.bv, elimE_bv]
    · exact .cons_cons _ ((liveArgs_sublist _ _).append ((List.Sublist.refl _).append (elimB_bv B)))
    · exact .cons_cons _ ((List.Sublist.refl _).append ((List.Sublist.refl _).append (elimB_bv B)))

mutual
theorem elimE_fv : ∀ e : Exp, ∀ y ∈ (elimE fmap L e).fv, y ∈ e.fv
  | .constr x t ys e => by
    intro y; simp only [elimE, Exp.fv, Finset.mem_union, Finset.mem_erase]
    exact Or.imp id (And.imp id (elimE_fv e y))
  | .case x bs => by
    intro y; simp only [elimE, Exp.fv, Finset.mem_insert]
    exact Or.imp id (elimBs_fv bs y)
  | .proj x t n z e => by
    intro y; simp only [elimE, Exp.fv, Finset.mem_insert, Finset.mem_erase]
    exact Or.imp id (And.imp id (elimE_fv e y))
  | .letapp x f ft ys e => by
    intro y; simp only [elimE]
    split
    · simp only [Exp.fv, Finset.mem_insert, Finset.mem_union, List.mem_toFinset, Finset.mem_erase]
      exact Or.imp id (Or.imp (fun h => (liveArgs_sublist _ _).subset h) (And.imp id (elimE_fv e y)))
    · simp only [Exp.fv, Finset.mem_insert, Finset.mem_union, List.mem_toFinset, Finset.mem_erase]
      exact Or.imp id (Or.imp id (And.imp id (elimE_fv e y)))
  | .fn B e => fun y h => h
  | .app f ft ys => by
    intro y; simp only [elimE]
    split
    · simp only [Exp.fv, Finset.mem_insert, List.mem_toFinset]
      exact Or.imp id (fun h => (liveArgs_sublist _ _).subset h)
    · exact id
  | .primVal x p e => by
    intro y; simp only [elimE, Exp.fv, Finset.mem_erase]
    exact And.imp id (elimE_fv e y)
  | .prim x p ys e => by
    intro y; simp only [elimE, Exp.fv, Finset.mem_union, Finset.mem_erase]
    exact Or.imp id (And.imp id (elimE_fv e y))
  | .halt x => fun y h => h
theorem elimBs_fv : ∀ bs : Brs, ∀ y ∈ (elimBs fmap L bs).fv, y ∈ bs.fv
  | .nil => fun y h => h
  | .cons t e bs => by
    intro y; simp only [elimBs, Brs.fv, Finset.mem_union]
    exact Or.imp (elimE_fv e y) (elimBs_fv bs y)
end

end

end ANF
