import Verif.ANF.LlSim

/-!
# Lambda lifting: the pass produces related terms

For every lifting decision, every limit on arguments and on pushes, and every program with distinct binders below the
counter, the pass succeeds and its result is related to the program.
-/

namespace ANF
namespace Ll

/-- The lifted functions a map knows. -/
def kn (fm : FMap) : Known := fun f => match fm f with
  | some (.lift f' ft' _ args) => some (f', ft', args)
  | _ => none

theorem kn_lift {fm : FMap} {f f' ft' s args} (h : fm f = some (.lift f' ft' s args)) : kn fm f = some (f', ft', args) := by
  simp [kn, h]

theorem kn_some {fm : FMap} {f f' ft' args} (h : kn fm f = some (f', ft', args)) :
    ∃ s, fm f = some (.lift f' ft' s args) := by
  unfold kn at h
  split at h
  · next h1 => cases h; exact ⟨_, h1⟩
  · cases h

theorem put_self {α : Type} {m : Var → α} {x a} : put m x a x = a := by simp [put]
theorem put_other {α : Type} {m : Var → α} {x y a} (h : y ≠ x) : put m x a y = m y := by simp [put, h]

/-! ## The variables of a bundle -/

/-- What a set computed by `trueE` may contain besides free variables. -/
def FmVar (fm : FMap) (x : Var) : Prop := ∃ f f' ft' s args, fm f = some (.lift f' ft' s args) ∧ (x = f' ∨ x ∈ args)

theorem addList_sub {Z S : Finset Var} {ys x} (h : x ∈ addList Z S ys) : x ∈ S ∨ x ∈ ys ∧ x ∉ Z := by
  simpa [addList] using h

theorem addVar_sub {Z S : Finset Var} {y x} (h : x ∈ addVar Z S y) : x ∈ S ∨ x = y ∧ x ∉ Z := by
  unfold addVar at h
  split at h
  · exact .inl h
  · next hy =>
    rw [Finset.mem_insert] at h
    rcases h with rfl | h
    · exact .inr ⟨rfl, hy⟩
    · exact .inl h

theorem trueCall_sub {dec} {fm : FMap} {f Z S x} (h : x ∈ trueCall dec fm f Z S) : x ∈ S ∨ x = f ∧ x ∉ Z ∨ FmVar fm x := by
  unfold trueCall at h
  split at h
  · next f' ft' s args hf =>
    split at h
    · simp only [List.toFinset_cons, Finset.mem_union, Finset.mem_insert, List.mem_toFinset] at h
      rcases h with h | h | h
      · exact .inl h
      · exact .inr (.inr ⟨f, f', ft', s, args, hf, .inl h⟩)
      · exact .inr (.inr ⟨f, f', ft', s, args, hf, .inr h⟩)
    · exact (addVar_sub h).imp_right .inl
  · exact (addVar_sub h).imp_right .inl

mutual
theorem trueE_sub {dec} {fm : FMap} {x : Var} : ∀ {e : Exp} {Z S : Finset Var}, x ∈ trueE dec fm e Z S →
    x ∈ S ∨ x ∈ e.fv ∧ x ∉ Z ∨ FmVar fm x
  | .constr y _ ys e, Z, S, h => by
    simp only [trueE] at h
    rcases trueE_sub h with h | ⟨h1, h2⟩ | h
    · rcases addList_sub h with h | h
      · exact .inl h
      · exact .inr (.inl ⟨by simp [Exp.fv, h.1], h.2⟩)
    · simp only [Finset.mem_insert, not_or] at h2
      exact .inr (.inl ⟨by simp [Exp.fv, h1, h2.1], h2.2⟩)
    · exact .inr (.inr h)
  | .case y bs, Z, S, h => by
    simp only [trueE] at h
    rcases addVar_sub h with h | h
    · rcases trueB_sub h with h | ⟨h1, h2⟩ | h
      · exact .inl h
      · exact .inr (.inl ⟨by simp [Exp.fv, h1], h2⟩)
      · exact .inr (.inr h)
    · exact .inr (.inl ⟨by simp [Exp.fv, h.1], h.2⟩)
  | .proj y _ _ z e, Z, S, h => by
    simp only [trueE] at h
    rcases trueE_sub h with h | ⟨h1, h2⟩ | h
    · rcases addVar_sub h with h | h
      · exact .inl h
      · exact .inr (.inl ⟨by simp [Exp.fv, h.1], h.2⟩)
    · simp only [Finset.mem_insert, not_or] at h2
      exact .inr (.inl ⟨by simp [Exp.fv, h1, h2.1], h2.2⟩)
    · exact .inr (.inr h)
  | .letapp y f _ ys e, Z, S, h => by
    simp only [trueE] at h
    rcases trueE_sub h with h | ⟨h1, h2⟩ | h
    · rcases addList_sub h with h | h
      · rcases trueCall_sub h with h | h | h
        · exact .inl h
        · exact .inr (.inl ⟨by simp [Exp.fv, h.1], h.2⟩)
        · exact .inr (.inr h)
      · exact .inr (.inl ⟨by simp [Exp.fv, h.1], h.2⟩)
    · simp only [Finset.mem_insert, not_or] at h2
      exact .inr (.inl ⟨by simp [Exp.fv, h1, h2.1], h2.2⟩)
    · exact .inr (.inr h)
  | .fn B e, Z, S, h => by
    simp only [trueE] at h
    have hD := trueD_sub (dec := dec) (fm := fm) (x := x) (B := B) (Z := Z) (S := S)
    rcases trueE_sub h with h | ⟨h1, h2⟩ | h
    · rcases hD.2 h with h | ⟨h1, h2, h3⟩ | h
      · exact .inl h
      · exact .inr (.inl ⟨by simp [Exp.fv, h1, h3], h2⟩)
      · exact .inr (.inr h)
    · rw [hD.1, not_or] at h2
      exact .inr (.inl ⟨by simp [Exp.fv, h1, h2.2], h2.1⟩)
    · exact .inr (.inr h)
  | .app f _ ys, Z, S, h => by
    simp only [trueE] at h
    rcases addList_sub h with h | h
    · rcases trueCall_sub h with h | h | h
      · exact .inl h
      · exact .inr (.inl ⟨by simp [Exp.fv, h.1], h.2⟩)
      · exact .inr (.inr h)
    · exact .inr (.inl ⟨by simp [Exp.fv, h.1], h.2⟩)
  | .primVal y _ e, Z, S, h => by
    simp only [trueE] at h
    rcases trueE_sub h with h | ⟨h1, h2⟩ | h
    · exact .inl h
    · simp only [Finset.mem_insert, not_or] at h2
      exact .inr (.inl ⟨by simp [Exp.fv, h1, h2.1], h2.2⟩)
    · exact .inr (.inr h)
  | .prim y _ ys e, Z, S, h => by
    simp only [trueE] at h
    rcases trueE_sub h with h | ⟨h1, h2⟩ | h
    · rcases addList_sub h with h | h
      · exact .inl h
      · exact .inr (.inl ⟨by simp [Exp.fv, h.1], h.2⟩)
    · simp only [Finset.mem_insert, not_or] at h2
      exact .inr (.inl ⟨by simp [Exp.fv, h1, h2.1], h2.2⟩)
    · exact .inr (.inr h)
  | .halt y, Z, S, h => by
    simp only [trueE] at h
    rcases addVar_sub h with h | h
    · exact .inl h
    · exact .inr (.inl ⟨by simp [Exp.fv, h.1], h.2⟩)
theorem trueB_sub {dec} {fm : FMap} {x : Var} : ∀ {bs : Brs} {Z S : Finset Var}, x ∈ trueB dec fm bs Z S →
    x ∈ S ∨ x ∈ bs.fv ∧ x ∉ Z ∨ FmVar fm x
  | .nil, Z, S, h => .inl h
  | .cons _ e bs, Z, S, h => by
    simp only [trueB] at h
    rcases trueB_sub h with h | ⟨h1, h2⟩ | h
    · rcases trueE_sub h with h | ⟨h1, h2⟩ | h
      · exact .inl h
      · exact .inr (.inl ⟨by simp [Brs.fv, h1], h2⟩)
      · exact .inr (.inr h)
    · exact .inr (.inl ⟨by simp [Brs.fv, h1], h2⟩)
    · exact .inr (.inr h)
theorem trueD_sub {dec} {fm : FMap} {x : Var} : ∀ {B : Defs} {Z S : Finset Var},
    (x ∈ (trueD dec fm B Z S).1 ↔ x ∈ Z ∨ x ∈ B.names) ∧
    (x ∈ (trueD dec fm B Z S).2 → x ∈ S ∨ (x ∈ B.fvRaw ∧ x ∉ Z ∧ x ∉ B.names) ∨ FmVar fm x)
  | .nil, Z, S => ⟨by simp [trueD, Defs.names], fun h => .inl h⟩
  | .cons f _ ys e B, Z, S => by
    have hD := trueD_sub (dec := dec) (fm := fm) (x := x) (B := B) (Z := insert f Z) (S := S)
    have h1 : x ∈ (trueD dec fm (.cons f ‹_› ys e B) Z S).1 ↔ x ∈ Z ∨ x ∈ (Defs.cons f ‹_› ys e B).names := by
      simp only [trueD, hD.1, Finset.mem_insert, Defs.names, List.mem_cons]
      constructor
      · rintro ((h | h) | h) <;> simp [h]
      · rintro (h | h | h) <;> simp [h]
    refine ⟨h1, fun h => ?_⟩
    simp only [trueD] at h
    rcases trueE_sub h with h | ⟨h2, h3⟩ | h
    · rcases hD.2 h with h | ⟨h2, h3, h4⟩ | h
      · exact .inl h
      · simp only [Finset.mem_insert, not_or] at h3
        exact .inr (.inl ⟨by simp [Defs.fvRaw, h2], h3.2, by simp [Defs.names, h3.1, h4]⟩)
      · exact .inr (.inr h)
    · simp only [Finset.mem_union, hD.1, Finset.mem_insert, List.mem_toFinset, not_or] at h3
      exact .inr (.inl ⟨by simp [Defs.fvRaw, h2, h3.2], h3.1.1.2, by simp [Defs.names, h3.1.1.1, h3.1.2]⟩)
    · exact .inr (.inr h)
end

/-! ## The pieces -/

theorem liftVars_cases (maxArgs maxPush : Nat) (B : Defs) (fvs : List Var) :
    liftVars maxArgs maxPush B fvs = [] ∨ liftVars maxArgs maxPush B fvs = fvs := by
  unfold liftVars
  dsimp only
  split <;> split <;> simp

/-- `addFuns` when the bundle is lifted. -/
structure Added (fm fm' : FMap) (gf gf' : Finset Var) (sfvs : Finset Var) (args : List Var) (B : Defs) (n n' : Nat) : Prop where
  le : n ≤ n'
  out : ∀ f, f ∉ B.names → fm' f = fm f
  ins : ∀ f ∈ B.names, ∃ f' ft', fm' f = some (.lift f' ft' sfvs args) ∧ n ≤ f' ∧ f' < n' ∧ f' ∈ gf'
  inj : ∀ f ∈ B.names, ∀ g ∈ B.names, ∀ h ft as gt bs, kn fm' f = some (h, ft, as) → kn fm' g = some (h, gt, bs) → f = g
  sub : ∀ x ∈ gf, x ∈ gf'

theorem addFuns_lift {fvs args : List Var} (hl : fvs.length = args.length) (sfvs : Finset Var) : ∀ (B : Defs) (fm gf s),
    Added fm (addFuns fvs sfvs args B fm gf s).1 gf (addFuns fvs sfvs args B fm gf s).2.1 sfvs args B s.next
      (addFuns fvs sfvs args B fm gf s).2.2.next := by
  intro B
  induction B using Defs.ind with
  | nil => intro fm gf s; exact ⟨le_rfl, fun _ _ => rfl, by simp [Defs.names], by simp [Defs.names], fun _ h => h⟩
  | cons f ft xs e B ih =>
    intro fm gf s
    have h := ih fm gf s
    simp only [addFuns, if_pos hl]
    generalize addFuns fvs sfvs args B fm gf s = r at h ⊢
    refine ⟨h.le.trans (Nat.le_succ _), ?_, ?_, ?_, ?_⟩
    · intro g hg
      simp only [Defs.names, List.mem_cons, not_or] at hg
      rw [put_other hg.1]
      exact h.out g hg.2
    · intro g hg
      by_cases hgf : g = f
      · subst hgf
        exact ⟨_, _, put_self, h.le, Nat.lt_succ_self _, by simp⟩
      · rw [put_other hgf]
        obtain ⟨f', ft', h1, h2, h3, h4⟩ := h.ins g (by simpa [Defs.names, hgf] using hg)
        refine ⟨f', ft', h1, h2, h3.trans (Nat.lt_succ_self _), ?_⟩
        split <;> simp [h4]
    · have key : ∀ g ∈ B.names, g ≠ f → ∀ h' ft as, kn (put r.1 f (some (.lift r.2.2.next r.2.2.ftag sfvs args))) g = some (h', ft, as) →
          h' < r.2.2.next ∧ kn r.1 g = some (h', ft, as) := by
        intro g hg hgf h' ft as hk
        have hk' : kn r.1 g = some (h', ft, as) := by
          simpa only [kn, put_other hgf] using hk
        obtain ⟨f', ft', h1, h2, h3, h4⟩ := h.ins g hg
        rw [kn_lift h1] at hk'
        cases hk'
        exact ⟨h3, kn_lift h1⟩
      intro a ha b hb h' t as u bs ka kb
      by_cases haf : a = f <;> by_cases hbf : b = f
      · rw [haf, hbf]
      · have hb' : b ∈ B.names := by simpa [Defs.names, hbf] using hb
        have := (key b hb' hbf _ _ _ kb).1
        subst haf
        simp only [kn, put_self] at ka
        cases ka
        exact absurd this (lt_irrefl _)
      · have ha' : a ∈ B.names := by simpa [Defs.names, haf] using ha
        have := (key a ha' haf _ _ _ ka).1
        subst hbf
        simp only [kn, put_self] at kb
        cases kb
        exact absurd this (lt_irrefl _)
      · have ha' : a ∈ B.names := by simpa [Defs.names, haf] using ha
        have hb' : b ∈ B.names := by simpa [Defs.names, hbf] using hb
        exact h.inj a ha' b hb' h' t as u bs (key a ha' haf _ _ _ ka).2 (key b hb' hbf _ _ _ kb).2
    · intro x hx
      have := h.sub x hx
      split <;> simp [this]

theorem addFuns_keep {fvs args : List Var} (hl : fvs.length ≠ args.length) (sfvs : Finset Var) : ∀ (B : Defs) (fm gf s),
    (∀ f, f ∉ B.names → (addFuns fvs sfvs args B fm gf s).1 f = fm f) ∧
    (∀ f ∈ B.names, (addFuns fvs sfvs args B fm gf s).1 f = some (.keep sfvs)) ∧
    (∀ x ∈ gf, x ∈ (addFuns fvs sfvs args B fm gf s).2.1) ∧ (addFuns fvs sfvs args B fm gf s).2.2 = s := by
  intro B
  induction B using Defs.ind with
  | nil => intro fm gf s; exact ⟨fun _ _ => rfl, by simp [Defs.names], fun _ h => h, rfl⟩
  | cons f ft xs e B ih =>
    intro fm gf s
    obtain ⟨h1, h2, h3, h4⟩ := ih fm gf s
    simp only [addFuns, if_neg hl]
    generalize addFuns fvs sfvs args B fm gf s = r at *
    refine ⟨?_, ?_, ?_, h4⟩
    · intro g hg
      simp only [Defs.names, List.mem_cons, not_or] at hg
      rw [put_other hg.1]
      exact h1 g hg.2
    · intro g hg
      by_cases hgf : g = f
      · subst hgf; exact put_self
      · rw [put_other hgf]
        exact h2 g (by simpa [Defs.names, hgf] using hg)
    · intro x hx
      have := h3 x hx
      split <;> simp [this]

theorem addFree_spec (σ : Var → Var) : ∀ (as : List Var) (s : Comp), as.Nodup →
    (∀ y ∈ (addFree as σ s).1, s.next ≤ y ∧ y < (addFree as σ s).2.2.next) ∧ (addFree as σ s).1.Nodup ∧
    as.length = (addFree as σ s).1.length ∧ s.next ≤ (addFree as σ s).2.2.next ∧
    (∀ x, x ∉ as → (addFree as σ s).2.1 x = σ x) ∧
    ∀ (i : Nat) x y, as[i]? = some x → (addFree as σ s).1[i]? = some y → (addFree as σ s).2.1 x = y := by
  intro as
  induction as with
  | nil => intro s _; exact ⟨by simp [addFree], by simp [addFree], by simp [addFree], le_rfl, fun _ _ => rfl, by simp⟩
  | cons a as ih =>
    intro s hn
    obtain ⟨ha, hn⟩ := List.nodup_cons.mp hn
    obtain ⟨h1, h2, h3, h4, h5, h6⟩ := ih s hn
    simp only [addFree, Comp.bump]
    generalize addFree as σ s = r at *
    refine ⟨?_, ?_, ?_, h4.trans (Nat.le_succ _), ?_, ?_⟩
    · intro y hy
      rw [List.mem_cons] at hy
      rcases hy with rfl | hy
      · exact ⟨h4, Nat.lt_succ_self _⟩
      · exact ⟨(h1 y hy).1, (h1 y hy).2.trans (Nat.lt_succ_self _)⟩
    · refine List.nodup_cons.mpr ⟨fun h => ?_, h2⟩
      exact absurd (h1 _ h).2 (lt_irrefl _)
    · simp [h3]
    · intro x hx
      simp only [List.mem_cons, not_or] at hx
      rw [put_other hx.1]
      exact h5 x hx.2
    · intro i x y hx hy
      cases i with
      | zero =>
        simp only [List.getElem?_cons_zero, Option.some.injEq] at hx hy
        subst hx hy
        exact put_self
      | succ i =>
        simp only [List.getElem?_cons_succ] at hx hy
        rw [put_other (by rintro rfl; exact ha (List.mem_of_getElem? hx))]
        exact h6 i x y hx hy

theorem wrappers_spec (σ : Var → Var) (fm : FMap) : ∀ (B : Defs) (s : Comp), B.names.Nodup →
    (∀ f ∈ B.names, ∃ f' ft' sf args, fm f = some (.lift f' ft' sf args)) →
    ∃ Bw σ' s', wrappers σ fm B s = some (some Bw, σ', s') ∧ Wraps s.next s'.next (kn fm) σ B Bw σ' := by
  intro B
  induction B using Defs.ind with
  | nil =>
    intro s _ _
    exact ⟨.nil, σ, s, rfl, le_rfl, fun _ _ => rfl, by simp [Defs.names], by simp [findDef], by simp [Defs.fvRaw], rfl⟩
  | cons f ft xs e B ih =>
    intro s hn hl
    simp only [Defs.names, List.nodup_cons] at hn
    obtain ⟨f', ft', sf, args, hf⟩ := hl f (by simp [Defs.names])
    obtain ⟨Bw, σ', s', h1, h2⟩ := ih { s with next := s.next + 1 + xs.length } hn.2
      (fun g hg => hl g (by simp [Defs.names, hg]))
    have hle : s.next + 1 + xs.length ≤ s'.next := h2.le
    have hnm : ∀ g ∈ Bw.names, s.next + 1 + xs.length ≤ g := h2.names
    simp only [wrappers, hf, h1]
    refine ⟨_, _, _, rfl, ?_, ?_, ?_, ?_, ?_, by simp [Defs.caseTags, Exp.caseTags, h2.tags]⟩
    · exact Nat.le_trans (Nat.le_trans (Nat.le_add_right _ 1) (Nat.le_add_right _ _)) hle
    · intro y hy
      simp only [Defs.names, List.mem_cons, not_or] at hy
      rw [put_other hy.1]
      exact h2.out y hy.2
    · intro g hg
      simp only [Option.getD_some, Defs.names, List.mem_cons] at hg
      rcases hg with rfl | hg
      · exact le_rfl
      · have := hnm g hg; vomega
    · intro g gt ys e' hd
      simp only [findDef] at hd
      split at hd
      · next hgf =>
        cases hd; subst hgf
        refine ⟨f', ft', args, List.range' (s.next + 1) xs.length, kn_lift hf, ?_, ?_, ?_, ?_, ?_⟩
        · rw [put_self]; exact ⟨le_rfl, by vomega⟩
        · rw [put_self]; simp [findDef]
        · simp
        · exact List.nodup_range'
        · intro x hx
          rw [List.mem_range'_1] at hx
          have := hx.1; vomega
      · next hgf =>
        obtain ⟨g', gt', as, xs', k1, k2, k3, k4, k5, k6⟩ := h2.find g gt ys e' hd
        have k2' : s.next + 1 + xs.length ≤ σ' g := k2.1
        refine ⟨g', gt', as, xs', k1, ?_, ?_, k4, k5, ?_⟩
        · rw [put_other hgf]; exact ⟨by vomega, k2.2⟩
        · rw [put_other hgf]
          have : ¬ σ' g = s.next := by intro h; vomega
          simp only [Option.getD_some, findDef, if_neg this, k3]
        · intro x hx
          have : s.next + 1 + xs.length ≤ x := k6 x hx
          vomega
    · intro z hz
      simp only [Option.getD_some, Defs.fvRaw, Exp.fv, Finset.mem_union, Finset.mem_sdiff, Finset.mem_insert,
        List.mem_toFinset, List.mem_append, List.mem_map] at hz
      rcases hz with ⟨hz, hn'⟩ | hz
      · refine ⟨f, by simp [Defs.names], f', ft', args, kn_lift hf, ?_⟩
        rcases hz with hz | hz | ⟨x, hx, rfl⟩
        · exact .inl hz
        · exact absurd hz hn'
        · exact .inr ⟨x, hx, rfl⟩
      · obtain ⟨g, hg, r⟩ := h2.fvs z hz
        exact ⟨g, by simp [Defs.names, hg], r⟩

/-- Renaming the lifted variables keeps the static data well formed. -/
theorem SOk.sub {k n n₁ P ζ σ σ₁} (h : SOk k n P ζ σ) {args ys : List Var} (ha : ∀ x ∈ args, x ∈ P) (hn : n ≤ n₁)
    (hy : ∀ y ∈ ys, n ≤ y ∧ y < n₁) (hl : args.length = ys.length) (ho : ∀ x, x ∉ args → σ₁ x = σ x)
    (hs : ∀ (i : Nat) x y, args[i]? = some x → ys[i]? = some y → σ₁ x = y) : SOk k n₁ P ζ σ₁ := by
  have := h.kn
  constructor
  · omega
  · intro y
    by_cases hya : y ∈ args
    · obtain ⟨i, hi⟩ := List.getElem?_of_mem hya
      have hlt := (List.getElem?_eq_some_iff.1 hi).1
      rw [hl] at hlt
      have hz := List.getElem?_eq_getElem hlt
      rw [hs i y _ hi hz]
      have := hy _ (List.mem_of_getElem? hz)
      exact .inr ⟨ha y hya, by vomega, this.2⟩
    · rw [ho y hya]
      exact (h.sig y).imp_right fun h => ⟨h.1, h.2.1, by have := h.2.2; vomega⟩
  · exact h.bnd
  · intro f f' ft' as hz
    obtain ⟨a, b, c, d⟩ := h.known f f' ft' as hz
    exact ⟨a, b, c, by vomega⟩

/-! ## The pass -/

/-- A term in scope, with distinct binders below a bound that are not in scope. -/
def WS (k : Nat) (P : Finset Var) (fv : Finset Var) (bv : List Var) : Prop :=
  (∀ x ∈ fv, x ∈ P) ∧ bv.Nodup ∧ ∀ x ∈ bv, x ∉ P ∧ x < k

/-- A bundle whose names are in scope. -/
def WD (k : Nat) (P : Finset Var) (B : Defs) : Prop :=
  (∀ x ∈ B.fvRaw, x ∈ P) ∧ B.bv.Nodup ∧ (∀ x ∈ B.bv, x ∈ B.names ∨ x ∉ P) ∧ ∀ x ∈ B.bv, x < k

theorem WS.bind {k P x fv0 fv bv} (h : WS k P fv0 (x :: bv)) (hf : ∀ y ∈ fv, y ≠ x → y ∈ fv0) :
    x ∉ P ∧ x < k ∧ WS k (insert x P) fv bv := by
  obtain ⟨h1, h2, h3⟩ := h
  obtain ⟨h4, h5⟩ := List.nodup_cons.mp h2
  refine ⟨(h3 x (by simp)).1, (h3 x (by simp)).2, fun y hy => ?_, h5, fun y hy => ?_⟩
  · by_cases hyx : y = x
    · simp [hyx]
    · simp [h1 y (hf y hy hyx)]
  · obtain ⟨a, b⟩ := h3 y (by simp [hy])
    refine ⟨?_, b⟩
    rw [Finset.mem_insert, not_or]
    exact ⟨by rintro rfl; exact h4 hy, a⟩

theorem WS.fn {k P B e} (h : WS k P (Exp.fn B e).fv (Exp.fn B e).bv) :
    (∀ f ∈ B.names, f ∉ P ∧ f < k) ∧ B.names.Nodup ∧ WD k (P ∪ B.names.toFinset) B ∧
    WS k (P ∪ B.names.toFinset) e.fv e.bv := by
  obtain ⟨h1, h2, h3⟩ := h
  simp only [Exp.fv, Exp.bv] at h1 h2 h3
  obtain ⟨h4, h5, h6⟩ := List.nodup_append.mp h2
  have hsub := (names_bv B).subset
  refine ⟨fun f hf => h3 f (by simp [hsub hf]), h4.sublist (names_bv B), ⟨?_, h4, ?_, fun x hx => (h3 x (by simp [hx])).2⟩, ?_, h5, ?_⟩
  · intro x hx
    by_cases hn : x ∈ B.names
    · simp [hn]
    · simp [h1 x (by simp [hx, hn])]
  · intro x hx
    by_cases hn : x ∈ B.names
    · exact .inl hn
    · exact .inr (by simp [hn, (h3 x (by simp [hx])).1])
  · intro x hx
    by_cases hn : x ∈ B.names
    · simp [hn]
    · simp [h1 x (by simp [hx, hn])]
  · intro x hx
    obtain ⟨a, b⟩ := h3 x (by simp [hx])
    refine ⟨?_, b⟩
    simp only [Finset.mem_union, List.mem_toFinset, not_or]
    exact ⟨a, fun hn => h6 x (hsub hn) x hx rfl⟩

theorem WD.cons {k P f ft xs e B} (h : WD k P (.cons f ft xs e B)) : (∀ x ∈ xs, x ∉ P ∧ x < k) ∧ f ∉ B.names ∧
    WS k (P ∪ xs.toFinset) e.fv e.bv ∧ WD k P B := by
  obtain ⟨h1, h2, h3, h4⟩ := h
  simp only [Defs.fvRaw, Defs.bv, Defs.names] at h1 h2 h3 h4
  obtain ⟨h5, h6⟩ := List.nodup_cons.mp h2
  obtain ⟨h7, h8, h9⟩ := List.nodup_append.mp h6
  obtain ⟨h10, h11, h12⟩ := List.nodup_append.mp h8
  have hsub := (names_bv B).subset
  have hout : ∀ x, x ∈ xs ∨ x ∈ e.bv → x ∉ P := by
    intro x hx
    rcases h3 x (by rcases hx with h | h <;> simp [h]) with h | h
    · rw [List.mem_cons] at h
      rcases h with rfl | h
      · exact absurd (by rcases hx with h | h <;> simp [h]) h5
      · rcases hx with hx | hx
        · exact absurd rfl (h9 x hx x (by simp [hsub h]))
        · exact absurd rfl (h12 x hx x (hsub h))
    · exact h
  refine ⟨fun x hx => ⟨hout x (.inl hx), h4 x (by simp [hx])⟩, fun h => h5 (by simp [hsub h]), ⟨?_, h10, ?_⟩, ?_, h11, ?_, ?_⟩
  · intro x hx
    by_cases hxs : x ∈ xs
    · simp [hxs]
    · simp [h1 x (by simp [hx, hxs])]
  · intro x hx
    refine ⟨?_, h4 x (by simp [hx])⟩
    simp only [Finset.mem_union, List.mem_toFinset, not_or]
    exact ⟨hout x (.inr hx), fun h => h9 x h x (by simp [hx]) rfl⟩
  · intro x hx; exact h1 x (by simp [hx])
  · intro x hx
    rcases h3 x (by simp [hx]) with h | h
    · rw [List.mem_cons] at h
      rcases h with rfl | h
      · exact absurd (by simp [hx]) h5
      · exact .inl h
    · exact .inr h
  · intro x hx; exact h4 x (by simp [hx])

/-- Names of lifted functions are known to be global. -/
def GOk (fm : FMap) (gf : Finset Var) : Prop := ∀ f f' ft' args, kn fm f = some (f', ft', args) → f' ∈ gf

theorem call_ok {dec Z k n P fm σ f ft ys} (so : SOk k n P (kn fm) σ) (hf : f ∈ P) (hy : ∀ y ∈ ys, y ∈ P) :
    Call P (kn fm) σ f ft ys (call dec Z σ fm f ft ys).1 (call dec Z σ fm f ft ys).2.1 (call dec Z σ fm f ft ys).2.2 := by
  refine ⟨hf, hy, ?_⟩
  unfold call
  split
  · next f' ft' s args h =>
    split
    · have hk := kn_lift h
      have hb := so.known f f' ft' args hk
      have : σ f' = f' := so.out fun hp => by have := so.bnd _ hp; have := hb.2.2.1; vomega
      exact .inr ⟨args, by rw [hk, this], rfl⟩
    · exact .inl ⟨rfl, rfl, rfl⟩
  · exact .inl ⟨rfl, rfl, rfl⟩

/-- The lifted variables of a bundle are in scope. -/
theorem args_in {dec k n P fm gf σ B maxArgs maxPush} (so : SOk k n P (kn fm) σ) (go : GOk fm gf)
    (hB : ∀ x ∈ B.fvRaw, x ∈ P ∨ x ∈ B.names) :
    ∀ x ∈ liftVars maxArgs maxPush B (elements (bundleFvs dec fm gf B)), x ∈ P := by
  intro x hx
  have hx : x ∈ bundleFvs dec fm gf B := by
    rcases liftVars_cases maxArgs maxPush B (elements (bundleFvs dec fm gf B)) with h | h <;> rw [h] at hx
    · cases hx
    · exact mem_elements.mp hx
  simp only [bundleFvs, Finset.mem_sdiff] at hx
  rcases trueD_sub.2 hx.1 with h | ⟨h1, _, h3⟩ | ⟨f, f', ft', s, args, h1, h2⟩
  · simp at h
  · exact (hB x h1).resolve_right h3
  · rcases h2 with rfl | h2
    · exact absurd (go f x ft' args (kn_lift h1)) hx.2
    · exact (so.known f f' ft' args (kn_lift h1)).2.1 x h2

variable {maxArgs maxPush : Nat} {dec : List Var → Finset Var → Bool}

mutual
theorem genE {k : Nat} : ∀ (e : Exp) {P : Finset Var} {Z σ fm gf} {s : Comp}, WS k P e.fv e.bv →
    SOk k s.next P (kn fm) σ → GOk fm gf →
    ∃ e' s', llE maxArgs maxPush dec e Z σ fm gf s = some (e', s') ∧ LE k s.next P (kn fm) σ e e' ∧ s.next ≤ s'.next
  | .constr x t ys e, P, Z, σ, fm, gf, s, hw, so, go => by
    obtain ⟨h1, h2, h3⟩ := hw.bind (fv := e.fv) (fun y hy hne => by simp [Exp.fv, hy, hne])
    obtain ⟨e', s', h4, h5, h6⟩ := genE e (Z := insert x Z) h3 (so.insert h2) go
    exact ⟨_, s', by simp only [llE, h4], .constr h1 h2 (fun y hy => hw.1 y (by simp [Exp.fv, hy])) h5, h6⟩
  | .case x bs, P, Z, σ, fm, gf, s, hw, so, go => by
    obtain ⟨bs', s', h4, h5, h6⟩ := genB bs (Z := Z) ⟨fun y hy => hw.1 y (by simp [Exp.fv, hy]), hw.2⟩ so go
    exact ⟨_, s', by simp only [llE, h4], .case (hw.1 x (by simp [Exp.fv])) h5, h6⟩
  | .proj x t i y e, P, Z, σ, fm, gf, s, hw, so, go => by
    obtain ⟨h1, h2, h3⟩ := hw.bind (fv := e.fv) (fun y hy hne => by simp [Exp.fv, hy, hne])
    obtain ⟨e', s', h4, h5, h6⟩ := genE e (Z := insert x Z) h3 (so.insert h2) go
    exact ⟨_, s', by simp only [llE, h4], .proj h1 h2 (hw.1 y (by simp [Exp.fv])) h5, h6⟩
  | .letapp x f ft ys e, P, Z, σ, fm, gf, s, hw, so, go => by
    obtain ⟨h1, h2, h3⟩ := hw.bind (fv := e.fv) (fun y hy hne => by simp [Exp.fv, hy, hne])
    obtain ⟨e', s', h4, h5, h6⟩ := genE e (Z := insert x Z) h3 (so.insert h2) go
    exact ⟨_, s', by simp only [llE, h4], .letapp h1 h2
      (call_ok (dec := dec) (Z := Z) so (hw.1 f (by simp [Exp.fv])) (fun y hy => hw.1 y (by simp [Exp.fv, hy]))) h5, h6⟩
  | .fn B e, P, Z, σ, fm, gf, s, hw, so, go => by
    obtain ⟨hnm, hnd, hwd, hwe⟩ := WS.fn hw
    have hfv : ∀ x ∈ B.fvRaw, x ∈ P ∨ x ∈ B.names := fun x hx => by simpa using hwd.1 x hx
    have hargs := args_in (dec := dec) (maxArgs := maxArgs) (maxPush := maxPush) (B := B) so go hfv
    have hcases := liftVars_cases maxArgs maxPush B (elements (bundleFvs dec fm gf B))
    have hnda : (liftVars maxArgs maxPush B (elements (bundleFvs dec fm gf B))).Nodup := by
      rcases hcases with h | h <;> rw [h]
      · exact List.nodup_nil
      · exact elements_nodup _
    have hnil : B = .nil → elements (bundleFvs dec fm gf B) = [] := by
      rintro rfl
      refine List.eq_nil_iff_forall_not_mem.mpr fun x hx => ?_
      rw [mem_elements] at hx
      simp [bundleFvs, trueD] at hx
    simp only [llE]
    generalize liftVars maxArgs maxPush B (elements (bundleFvs dec fm gf B)) = args at *
    generalize bundleFvs dec fm gf B = sfvs at *
    by_cases hl : (elements sfvs).length = args.length
    · -- the bundle is lifted
      have hA := addFuns_lift hl sfvs B fm gf s
      generalize addFuns (elements sfvs) sfvs args B fm gf s = r at *
      have hout : ∀ f, f ∉ B.names → kn r.1 f = kn fm f := fun f hf => by simp only [kn, hA.out f hf]
      have hins : ∀ f ∈ B.names, ∃ f' ft', kn r.1 f = some (f', ft', args) ∧ s.next ≤ f' ∧ f' < r.2.2.next := by
        intro f hf
        obtain ⟨f', ft', h1, h2, h3, _⟩ := hA.ins f hf
        exact ⟨f', ft', kn_lift h1, h2, h3⟩
      have so1 : SOk k r.2.2.next (P ∪ B.names.toFinset) (kn r.1) σ := by
        constructor
        · exact so.kn.trans hA.le
        · intro y
          exact (so.sig y).imp_right fun h => ⟨by simp [h.1], h.2.1, h.2.2.trans_le hA.le⟩
        · intro y hy
          simp only [Finset.mem_union, List.mem_toFinset] at hy
          exact hy.elim (so.bnd y) fun hy => (hnm y hy).2
        · intro f f' ft' as hz
          by_cases hf : f ∈ B.names
          · obtain ⟨g', gt', h1, h2, h3⟩ := hins f hf
            rw [hz] at h1; cases h1
            exact ⟨by simp [hf], fun x hx => by simp [hargs x hx], so.kn.trans h2, h3⟩
          · rw [hout f hf] at hz
            obtain ⟨a, b, c, d⟩ := so.known f f' ft' as hz
            exact ⟨by simp [a], fun x hx => by simp [b x hx], c, d.trans_le hA.le⟩
      have go1 : GOk r.1 r.2.1 := by
        intro f f' ft' as hz
        by_cases hf : f ∈ B.names
        · obtain ⟨g', gt', h1, _, _, h4⟩ := hA.ins f hf
          rw [kn_lift h1] at hz; cases hz
          exact h4
        · rw [hout f hf] at hz
          exact hA.sub _ (go f f' ft' as hz)
      obtain ⟨B', s₁, h1, h2, h3⟩ := genL B B (N := B.names.toFinset) (args := args) (sfvs := sfvs) (gf := r.2.1) hwd so1 go1
        (fun f hf => let ⟨f', ft', h, _⟩ := hA.ins f hf; ⟨f', ft', h⟩) hnd (fun _ h => h) hA.inj hnda
        (fun x hx => by simp [hargs x hx]) (fun f hf => by simp [hf])
      obtain ⟨Bw, σ', s₂, h4, h5⟩ := wrappers_spec σ r.1 B s₁ hnd
        (fun f hf => let ⟨f', ft', h, _⟩ := hA.ins f hf; ⟨f', ft', _, _, h⟩)
      obtain ⟨e', s₃, h6, h7, h8⟩ := genE e (Z := B.names.toFinset ∪ Z) (gf := r.2.1) hwe
        (h5.so (so1.mono h3) fun f hf => by simp [hf]) go1
      refine ⟨.fn B' (.fn Bw e'), s₃, by simp only [h1, h4, h6], ?_, hA.le.trans (h3.trans (h5.le.trans h8))⟩
      exact .lift hnm hargs hout hins hA.le h2 h3 h5 h7
    · -- the bundle is kept
      obtain ⟨k1, k2, k3, k4⟩ := addFuns_keep hl sfvs B fm gf s
      generalize addFuns (elements sfvs) sfvs args B fm gf s = r at *
      have hkn : kn r.1 = kn fm := by
        funext f
        by_cases hf : f ∈ B.names
        · have h1 : kn r.1 f = none := by simp only [kn, k2 f hf]
          rw [h1]
          rcases hk : kn fm f with _ | ⟨f', ft', as⟩
          · rfl
          · exact absurd (so.known f f' ft' as hk).1 (hnm f hf).1
        · simp only [kn, k1 f hf]
      have so1 : SOk k s.next (P ∪ B.names.toFinset) (kn r.1) σ := by
        rw [hkn]; exact so.union fun f hf => (hnm f hf).2
      have go1 : GOk r.1 r.2.1 := by
        intro f f' ft' as hz
        rw [hkn] at hz
        exact k3 _ (go f f' ft' as hz)
      rw [k4]
      obtain ⟨B', s₁, h1, h2, h3⟩ := genK B B (N := B.names.toFinset) (sfvs := sfvs) (gf := r.2.1) hwd so1 go1 k2
      have hw' : wrappers σ r.1 B s₁ = some (none, σ, s₁) := by
        cases B with
        | nil =>
          exfalso
          apply hl
          rcases hcases with h | h
          · rw [h, hnil rfl]
          · rw [h]
        | cons f ft xs e0 B => simp only [wrappers, k2 f (by simp [Defs.names])]
      obtain ⟨e', s₃, h6, h7, h8⟩ := genE e (Z := B.names.toFinset ∪ Z) (gf := r.2.1) hwe (so1.mono h3) go1
      refine ⟨.fn B' e', s₃, by simp only [h1, hw', h6], ?_, h3.trans h8⟩
      rw [hkn] at h2 h7
      exact .keep hnm h3 h2 h7
  | .app f ft ys, P, Z, σ, fm, gf, s, hw, so, go =>
    ⟨_, s, rfl, .app (call_ok (dec := dec) (Z := Z) so (hw.1 f (by simp [Exp.fv])) (fun y hy => hw.1 y (by simp [Exp.fv, hy]))), le_rfl⟩
  | .primVal x p e, P, Z, σ, fm, gf, s, hw, so, go => by
    obtain ⟨h1, h2, h3⟩ := hw.bind (fv := e.fv) (fun y hy hne => by simp [Exp.fv, hy, hne])
    obtain ⟨e', s', h4, h5, h6⟩ := genE e (Z := insert x Z) h3 (so.insert h2) go
    exact ⟨_, s', by simp only [llE, h4], .primVal h1 h2 h5, h6⟩
  | .prim x p ys e, P, Z, σ, fm, gf, s, hw, so, go => by
    obtain ⟨h1, h2, h3⟩ := hw.bind (fv := e.fv) (fun y hy hne => by simp [Exp.fv, hy, hne])
    obtain ⟨e', s', h4, h5, h6⟩ := genE e (Z := insert x Z) h3 (so.insert h2) go
    exact ⟨_, s', by simp only [llE, h4], .prim h1 h2 (fun y hy => hw.1 y (by simp [Exp.fv, hy])) h5, h6⟩
  | .halt x, P, Z, σ, fm, gf, s, hw, so, go => ⟨_, s, rfl, .halt (hw.1 x (by simp [Exp.fv])), le_rfl⟩
theorem genB {k : Nat} : ∀ (bs : Brs) {P : Finset Var} {Z σ fm gf} {s : Comp}, WS k P bs.fv bs.bv →
    SOk k s.next P (kn fm) σ → GOk fm gf →
    ∃ bs' s', llB maxArgs maxPush dec bs Z σ fm gf s = some (bs', s') ∧ LB k s.next P (kn fm) σ bs bs' ∧ s.next ≤ s'.next
  | .nil, P, Z, σ, fm, gf, s, hw, so, go => ⟨_, s, rfl, .nil, le_rfl⟩
  | .cons t e bs, P, Z, σ, fm, gf, s, hw, so, go => by
    obtain ⟨h1, h2, h3⟩ := hw
    simp only [Brs.fv, Brs.bv] at h1 h2 h3
    obtain ⟨h4, h5, _⟩ := List.nodup_append.mp h2
    obtain ⟨e', s₁, k1, k2, k3⟩ := genE e (Z := Z) (gf := gf)
      ⟨fun x hx => h1 x (by simp [hx]), h4, fun x hx => h3 x (by simp [hx])⟩ so go
    obtain ⟨bs', s₂, k4, k5, k6⟩ := genB bs (Z := Z) (gf := gf) (s := s₁)
      ⟨fun x hx => h1 x (by simp [hx]), h5, fun x hx => h3 x (by simp [hx])⟩ (so.mono k3) go
    exact ⟨_, s₂, by simp only [llB, k1, k4], .cons k3 k2 k5, k3.trans k6⟩
theorem genK {k : Nat} : ∀ (B Bf : Defs) {P : Finset Var} {N σ fm gf sfvs} {s : Comp}, WD k P B →
    SOk k s.next P (kn fm) σ → GOk fm gf → (∀ f ∈ B.names, fm f = some (.keep sfvs)) →
    ∃ B' s', llD maxArgs maxPush dec B Bf N σ fm gf s = some (B', s') ∧ LD k s.next P (kn fm) σ B B' ∧ s.next ≤ s'.next
  | .nil, Bf, P, N, σ, fm, gf, sfvs, s, hw, so, go, hk => ⟨_, s, rfl, .nil, le_rfl⟩
  | .cons f ft xs e B, Bf, P, N, σ, fm, gf, sfvs, s, hw, so, go, hk => by
    obtain ⟨h1, h2, h3, h4⟩ := hw.cons
    obtain ⟨e', s₁, k1, k2, k3⟩ := genE e (Z := N ∪ (sfvs ∪ xs.toFinset)) (gf := gf) h3 (so.union fun x hx => (h1 x hx).2) go
    obtain ⟨B', s₂, k4, k5, k6⟩ := genK B Bf (N := N) (gf := gf) (s := s₁) h4 (so.mono k3) go
      (fun g hg => hk g (by simp [Defs.names, hg]))
    exact ⟨_, s₂, by simp only [llD, hk f (by simp [Defs.names]), k1, k4], .cons k3 h1 k2 k5, k3.trans k6⟩
theorem genL {k : Nat} : ∀ (B Bf : Defs) {P : Finset Var} {N σ fm gf sfvs args} {s : Comp}, WD k P B →
    SOk k s.next P (kn fm) σ → GOk fm gf → (∀ f ∈ Bf.names, ∃ f' ft', fm f = some (.lift f' ft' sfvs args)) →
    Bf.names.Nodup → (∀ f ∈ B.names, f ∈ Bf.names) →
    (∀ f ∈ Bf.names, ∀ g ∈ Bf.names, ∀ h ft as gt bs, kn fm f = some (h, ft, as) → kn fm g = some (h, gt, bs) → f = g) →
    args.Nodup → (∀ x ∈ args, x ∈ P) → (∀ f ∈ Bf.names, f ∈ P) →
    ∃ B' s', llD maxArgs maxPush dec B Bf N σ fm gf s = some (B', s') ∧ LL k s.next P (kn fm) σ args Bf B B' ∧ s.next ≤ s'.next
  | .nil, Bf, P, N, σ, fm, gf, sfvs, args, s, hw, so, go, hk, hn, hs, hi, ha, hp, hbp => ⟨_, s, rfl, .nil, le_rfl⟩
  | .cons f ft xs e B, Bf, P, N, σ, fm, gf, sfvs, args, s, hw, so, go, hk, hn, hs, hi, ha, hp, hbp => by
    obtain ⟨h1, h2, h3, h4⟩ := hw.cons
    have hfB := hs f (by simp [Defs.names])
    obtain ⟨f', ft', hf⟩ := hk f hfB
    obtain ⟨a1, a2, a3, a4, a5, a6⟩ := addFree_spec σ args s ha
    have so1 := so.sub hp a4 a1 a3 a5 a6
    obtain ⟨Bw, σ', s₁, b1, b2⟩ := wrappers_spec (addFree args σ s).2.1 fm Bf (addFree args σ s).2.2 hn
      (fun g hg => let ⟨g', gt', h⟩ := hk g hg; ⟨g', gt', _, _, h⟩)
    obtain ⟨e', s₂, k1, k2, k3⟩ := genE e (Z := N ∪ (sfvs ∪ xs.toFinset)) (gf := gf) (s := s₁) h3
      ((b2.so so1 hbp).union fun x hx => (h1 x hx).2) go
    have hle : s.next ≤ s₂.next := a4.trans (b2.le.trans k3)
    obtain ⟨B', s₃, k4, k5, k6⟩ := genL B Bf (N := N) (gf := gf) (s := s₂) h4 (so.mono hle) go hk hn
      (fun g hg => hs g (by simp [Defs.names, hg])) hi ha hp hbp
    refine ⟨.cons f' ft' (xs ++ (addFree args σ s).1) (.fn Bw e') B', s₃, by simp only [llD, hf, b1, k1, k4], ?_, hle.trans k6⟩
    refine .cons (kn_lift hf) ?_ h1 a1 a2 a3 a4 a5 a6 b2 k2 hle k5
    intro hmem
    obtain ⟨g, hg, gt', hz⟩ := k5.names f' hmem
    have := hi f hfB g (hs g (by simp [Defs.names, hg])) _ _ _ _ _ (kn_lift hf) hz
    exact h2 (this ▸ hg)
end

end Ll
end ANF
