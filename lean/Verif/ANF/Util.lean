import Verif.ANF.Obs
import Verif.ANF.State
import Mathlib.Data.List.Nodup

/-! # Environments related by a value relation: shared lemmas for the pass proofs -/

namespace ANF

/-- Induction over the spine of a bundle. -/
theorem Defs.ind {P : Defs → Prop} (nil : P .nil) (cons : ∀ f ft xs e B, P B → P (.cons f ft xs e B)) : ∀ B, P B
  | .nil => nil
  | .cons f ft xs e B => cons f ft xs e B (Defs.ind nil cons B)

/-- Induction over the spine of a branch list. -/
theorem Brs.ind {P : Brs → Prop} (nil : P .nil) (cons : ∀ t e bs, P bs → P (.cons t e bs)) : ∀ bs, P bs
  | .nil => nil
  | .cons t e bs => cons t e bs (Brs.ind nil cons bs)

theorem findTag_sizeOf {bs : Brs} {t : Tag} {e : Exp} : findTag t bs = some e → sizeOf e < sizeOf bs := by
  induction bs using Brs.ind with
  | nil => intro h; simp [findTag] at h
  | cons t' e' bs ih =>
    intro h
    simp only [findTag] at h
    split at h
    · cases h; simp; omega
    · have := ih h; simp; omega

/-- Pointwise relation of lists. -/
def All2 (R : Val → Val → Prop) (vs vs' : List Val) : Prop :=
  vs.length = vs'.length ∧ ∀ (i : Nat) v v', vs[i]? = some v → vs'[i]? = some v' → R v v'

theorem All2.nil {R} : All2 R [] [] := ⟨rfl, fun i _ _ h => by simp at h⟩

theorem All2.cons {R v v' vs vs'} (h : R v v') (hs : All2 R vs vs') : All2 R (v :: vs) (v' :: vs') := by
  refine ⟨by simp [hs.1], ?_⟩
  intro i a b ha hb
  cases i with
  | zero => simp at ha hb; subst ha; subst hb; exact h
  | succ i => exact hs.2 i a b (by simpa using ha) (by simpa using hb)

theorem All2.uncons {R v vs ws} (h : All2 R (v :: vs) ws) : ∃ v' vs', ws = v' :: vs' ∧ R v v' ∧ All2 R vs vs' := by
  cases ws with
  | nil => exact absurd h.1 (by simp)
  | cons v' vs' =>
    exact ⟨v', vs', rfl, h.2 0 v v' rfl rfl, by simpa using h.1, fun i a b ha hb => h.2 (i + 1) a b ha hb⟩

theorem All2.get {R vs vs'} (h : All2 R vs vs') {i : Nat} {v} (hv : vs[i]? = some v) : ∃ v', vs'[i]? = some v' ∧ R v v' := by
  have hi : i < vs.length := (List.getElem?_eq_some_iff.mp hv).1
  have hi' : i < vs'.length := by rw [← h.1]; exact hi
  exact ⟨_, List.getElem?_eq_getElem hi', h.2 i v _ hv (List.getElem?_eq_getElem hi')⟩

theorem All2.imp {R Q : Val → Val → Prop} (hRQ : ∀ v v', R v v' → Q v v') {vs vs'} (h : All2 R vs vs') :
    All2 Q vs vs' := ⟨h.1, fun i a b ha hb => hRQ _ _ (h.2 i a b ha hb)⟩

/-- Environments agree up to `R` on the variables in `P`, the target variable being `σ x`. -/
def ERel (R : Val → Val → Prop) (P : Var → Prop) (σ : Var → Var) (ρ ρ' : Env) : Prop :=
  ∀ x, P x → ∀ v, ρ x = some v → ∃ v', ρ' (σ x) = some v' ∧ R v v'

theorem ERel.mono {R P Q σ ρ ρ'} (h : ERel R P σ ρ ρ') (hq : ∀ x, Q x → P x) : ERel R Q σ ρ ρ' :=
  fun x hx v hv => h x (hq x hx) v hv

theorem ERel.getList {R P σ ρ ρ'} (h : ERel R P σ ρ ρ') : ∀ {ys vs}, (∀ y ∈ ys, P y) → getList ρ ys = some vs →
    ∃ vs', ANF.getList ρ' (ys.map σ) = some vs' ∧ All2 R vs vs' := by
  intro ys
  induction ys with
  | nil => intro vs _ hg; cases hg; exact ⟨[], rfl, .nil⟩
  | cons y ys ih =>
    intro vs hp hg
    simp only [ANF.getList] at hg
    rcases hy : ρ y with _ | v <;> simp only [hy] at hg
    · cases hg
    rcases hys : ANF.getList ρ ys with _ | ws <;> simp only [hys] at hg
    · cases hg
    cases hg
    obtain ⟨v', hv', hr⟩ := h y (hp y (by simp)) v hy
    obtain ⟨vs', hvs', hrs⟩ := ih (fun z hz => hp z (by simp [hz])) hys
    exact ⟨v' :: vs', by simp only [List.map, ANF.getList, hv', hvs'], hrs.cons hr⟩

theorem set_self {ρ : Env} {x v} : ρ.set x v x = some v := by simp [Env.set]
theorem set_other {ρ : Env} {x y v} (h : y ≠ x) : ρ.set x v y = ρ y := by simp [Env.set, h]

theorem ERel.set {R P σ ρ ρ'} (h : ERel R P σ ρ ρ') {x v v'} (hr : R v v') {Q : Var → Prop}
    (hq : ∀ y, Q y → y ≠ x → P y ∧ σ y ≠ σ x) : ERel R Q σ (ρ.set x v) (ρ'.set (σ x) v') := by
  intro y hy w hw
  by_cases hyx : y = x
  · subst hyx; rw [set_self] at hw; cases hw; exact ⟨v', set_self, hr⟩
  · rw [set_other hyx] at hw
    obtain ⟨w', hw', hrw⟩ := h y (hq y hy hyx).1 w hw
    exact ⟨w', by rw [set_other (hq y hy hyx).2]; exact hw', hrw⟩

theorem setLists_len : ∀ {xs vs ρ ρ'}, setLists xs vs ρ = some ρ' → xs.length = vs.length := by
  intro xs
  induction xs with
  | nil => intro vs ρ ρ' h; cases vs <;> simp_all [setLists]
  | cons x xs ih =>
    intro vs ρ ρ' h
    cases vs with
    | nil => simp [setLists] at h
    | cons v vs =>
      simp only [setLists] at h
      rcases hs : setLists xs vs ρ with _ | ρ1 <;> simp only [hs] at h
      · cases h
      · simp [ih hs]

theorem setLists_exists : ∀ {xs : List Var} {vs : List Val} (ρ : Env), xs.length = vs.length →
    ∃ ρ', setLists xs vs ρ = some ρ' := by
  intro xs
  induction xs with
  | nil => intro vs ρ h; cases vs with
    | nil => exact ⟨ρ, rfl⟩
    | cons => simp at h
  | cons x xs ih =>
    intro vs ρ h
    cases vs with
    | nil => simp at h
    | cons v vs =>
      obtain ⟨ρ', h'⟩ := ih ρ (vs := vs) (by simpa using h)
      exact ⟨ρ'.set x v, by simp only [setLists, h']⟩

theorem setLists_not_mem : ∀ {xs vs ρ ρ'}, setLists xs vs ρ = some ρ' → ∀ y, y ∉ xs → ρ' y = ρ y := by
  intro xs
  induction xs with
  | nil => intro vs ρ ρ' h y _; cases vs <;> simp [setLists] at h; rw [h]
  | cons x xs ih =>
    intro vs ρ ρ' h y hy
    cases vs with
    | nil => simp [setLists] at h
    | cons v vs =>
      simp only [setLists] at h
      rcases hs : setLists xs vs ρ with _ | ρ1 <;> simp only [hs] at h
      · cases h
      · cases h
        simp at hy
        rw [set_other hy.1]; exact ih hs y hy.2

/-- Every parameter is bound to one of the arguments. -/
theorem setLists_mem : ∀ {xs vs ρ ρ'}, setLists xs vs ρ = some ρ' → ∀ y, y ∈ xs →
    ∃ i : Nat, xs[i]? = some y ∧ ρ' y = vs[i]? := by
  intro xs
  induction xs with
  | nil => intro vs ρ ρ' _ y hy; cases hy
  | cons x xs ih =>
    intro vs ρ ρ' h y hy
    cases vs with
    | nil => simp [setLists] at h
    | cons v vs =>
      simp only [setLists] at h
      rcases hs : setLists xs vs ρ with _ | ρ1 <;> simp only [hs] at h
      · cases h
      · cases h
        by_cases hyx : y = x
        · exact ⟨0, by simp [hyx], by simp [hyx, set_self]⟩
        · obtain ⟨i, h1, h2⟩ := ih hs y (by simpa [hyx] using hy)
          exact ⟨i + 1, by simpa using h1, by rw [set_other hyx]; simpa using h2⟩

/-- With distinct parameters the i-th one is bound to the i-th argument. -/
theorem setLists_nth {xs vs ρ ρ'} (h : setLists xs vs ρ = some ρ') (hn : xs.Nodup) {i : Nat} {y} (hy : xs[i]? = some y) :
    ρ' y = vs[i]? := by
  obtain ⟨j, h1, h2⟩ := setLists_mem h y (List.mem_of_getElem? hy)
  have : i = j := by
    have hi := (List.getElem?_eq_some_iff.mp hy)
    have hj := (List.getElem?_eq_some_iff.mp h1)
    obtain ⟨hi, e1⟩ := hi
    obtain ⟨hj, e2⟩ := hj
    exact (List.Nodup.getElem_inj_iff hn).mp (e1.trans e2.symm)
  rw [this]; exact h2

/-- Binding related arguments to the same parameters. -/
theorem ERel.setLists {R P ρ ρ'} (h : ERel R P id ρ ρ') : ∀ {xs vs vs' ρ1}, All2 R vs vs' →
    setLists xs vs ρ = some ρ1 → ∃ ρ1', ANF.setLists xs vs' ρ' = some ρ1' ∧
      ERel R (fun x => x ∈ xs ∨ P x) id ρ1 ρ1' := by
  intro xs
  induction xs with
  | nil =>
    intro vs vs' ρ1 ha hs
    cases vs <;> simp [ANF.setLists] at hs
    cases vs' with
    | nil => subst hs; exact ⟨ρ', rfl, h.mono (by simp)⟩
    | cons => exact absurd ha.1 (by simp)
  | cons x xs ih =>
    intro vs vs' ρ1 ha hs
    cases vs with
    | nil => simp [ANF.setLists] at hs
    | cons v vs =>
      simp only [ANF.setLists] at hs
      rcases hs' : ANF.setLists xs vs ρ with _ | ρ2 <;> simp only [hs'] at hs
      · cases hs
      · cases hs
        obtain ⟨v', vs2, rfl, hr, hrs⟩ := ha.uncons
        obtain ⟨ρ2', e2, h2⟩ := ih hrs hs'
        refine ⟨ρ2'.set x v', by simp only [ANF.setLists, e2], ?_⟩
        have := h2.set (x := x) hr (Q := fun y => y ∈ x :: xs ∨ P y) (fun y hy hyx => ⟨by simpa [hyx] using hy, hyx⟩)
        exact this

theorem defFuns_mem {B0 : Defs} : ∀ {B : Defs} {ρ0 ρ : Env} {f}, f ∈ B.names →
    defFuns B0 B ρ0 ρ f = some (.fn ρ0 B0 f) := by
  intro B
  induction B using Defs.ind with
  | nil => intro ρ0 ρ f h; simp [Defs.names] at h
  | cons g ft xs e B ih =>
    intro ρ0 ρ f h
    simp only [defFuns]
    by_cases hf : f = g
    · subst hf; exact set_self
    · rw [set_other hf]; exact ih (by simpa [Defs.names, hf] using h)

theorem defFuns_not_mem {B0 : Defs} : ∀ {B : Defs} {ρ0 ρ : Env} {f}, f ∉ B.names → defFuns B0 B ρ0 ρ f = ρ f := by
  intro B
  induction B using Defs.ind with
  | nil => intro ρ0 ρ f _; rfl
  | cons g ft xs e B ih =>
    intro ρ0 ρ f h
    simp [Defs.names] at h
    simp only [defFuns]
    rw [set_other h.1]; exact ih h.2

theorem findDef_mem : ∀ {B : Defs} {f r}, findDef f B = some r → f ∈ B.names := by
  intro B
  induction B using Defs.ind with
  | nil => intro f r h; simp [findDef] at h
  | cons g ft xs e B ih =>
    intro f r h
    simp only [findDef] at h
    split at h
    · next hf => simp [Defs.names, hf]
    · simp [Defs.names, ih h]

theorem findDef_some : ∀ {B : Defs} {f}, f ∈ B.names → ∃ r, findDef f B = some r := by
  intro B
  induction B using Defs.ind with
  | nil => intro f h; simp [Defs.names] at h
  | cons g ft xs e B ih =>
    intro f h
    simp only [findDef]
    split
    · exact ⟨_, rfl⟩
    · next hf => exact ih (by simpa [Defs.names, hf] using h)

/-- Relation of interpreter results: a source that goes wrong promises nothing. -/
def RRel (R : Val → Val → Prop) : Res → Res → Prop
  | .val v, .val v' => R v v'
  | .oot, .oot => True
  | .stuck, _ => True
  | _, _ => False

/-- A lockstep simulation preserves what is observable. -/
theorem preserves_of_lockstep {S S' R e e'} (hobs : ∀ v v', R v v' → Obs v v')
    (h : ∀ n, RRel R (run S n emp e) (run S' n emp e')) : Preserves S e S' e' := by
  constructor
  · rintro v ⟨n, hn⟩
    have := h n
    rw [hn] at this
    rcases hr : run S' n emp e' with v' | _ | _ <;> rw [hr] at this
    · exact ⟨v', ⟨n, hr⟩, hobs _ _ this⟩
    · exact this.elim
    · exact this.elim
  · intro hd n
    have := h n
    rw [hd n] at this
    rcases hr : run S' n emp e' with v' | _ | _ <;> rw [hr] at this
    · exact this.elim
    · exact this.elim

/-- Primitive arguments are seen alike by both sides. -/
theorem asPrims_rel {R : Val → Val → Prop} (hp : ∀ p v, R (.prim p) v → v = .prim p) : ∀ {vs vs' ps}, All2 R vs vs' →
    asPrims vs = some ps → asPrims vs' = some ps := by
  intro vs
  induction vs with
  | nil =>
    intro vs' ps ha h
    cases vs' with
    | nil => exact h
    | cons => exact absurd ha.1 (by simp)
  | cons v vs ih =>
    intro vs' ps ha h
    obtain ⟨v', vs2, rfl, hr, hrs⟩ := ha.uncons
    cases v with
    | prim p =>
      rw [hp p v' hr]
      simp only [asPrims] at h ⊢
      rcases hq : asPrims vs with _ | qs <;> simp only [hq] at h
      · cases h
      · rw [ih hrs hq]; exact h
    | constr => simp [asPrims] at h
    | fn => simp [asPrims] at h

theorem op_rel {S : Sig} {R : Val → Val → Prop} (hp : ∀ p v, R (.prim p) v → v = .prim p) {p vs vs' v}
    (ha : All2 R vs vs') (h : S.op p vs = some v) : S.op p vs' = some v ∧ ∃ d : FO, v = d.toVal := by
  unfold Sig.op at h ⊢
  rcases hq : asPrims vs with _ | ps <;> simp only [hq] at h
  · cases h
  · rw [asPrims_rel hp ha hq]
    dsimp only
    rcases hd : S.prims p ps with _ | d <;> simp only [hd, Option.map] at h
    · cases h
    · cases h; exact ⟨rfl, d, rfl⟩

/-- First-order values are related to themselves by any relation closed under constructors and primitives. -/
theorem toVal_refl {R : Val → Val → Prop} (hp : ∀ p, R (.prim p) (.prim p))
    (hc : ∀ t vs vs', All2 R vs vs' → R (.constr t vs) (.constr t vs')) : ∀ d : FO, R d.toVal d.toVal
  | .con t ds => by simp only [FO.toVal]; exact hc t _ _ (toVals_refl hp hc ds)
  | .prim p => by simp only [FO.toVal]; exact hp p
where
  toVals_refl {R : Val → Val → Prop} (hp : ∀ p, R (.prim p) (.prim p))
      (hc : ∀ t vs vs', All2 R vs vs' → R (.constr t vs) (.constr t vs')) :
      ∀ ds : List FO, All2 R (FO.toVals ds) (FO.toVals ds)
    | [] => by simp only [FO.toVals]; exact .nil
    | d :: ds => by simp only [FO.toVals]; exact (toVals_refl hp hc ds).cons (toVal_refl hp hc d)

/-- A bundle as a list of definitions. -/
def Defs.toList : Defs → List (Var × Tag × List Var × Exp)
  | .nil => []
  | .cons f ft xs e B => (f, ft, xs, e) :: B.toList

theorem names_toList (B : Defs) : B.names = B.toList.map (·.1) := by
  induction B using Defs.ind with
  | nil => rfl
  | cons f ft xs e B ih => simp only [Defs.names, Defs.toList, List.map, ih]

theorem findDef_of_mem {B : Defs} (hn : B.names.Nodup) {f ft xs e} (h : (f, ft, xs, e) ∈ B.toList) :
    findDef f B = some (ft, xs, e) := by
  induction B using Defs.ind with
  | nil => simp [Defs.toList] at h
  | cons g gt ys e' B ih =>
    simp only [Defs.toList, List.mem_cons] at h
    simp only [Defs.names, List.nodup_cons] at hn
    simp only [findDef]
    rcases h with h | h
    · cases h; rw [if_pos rfl]
    · have : f ∈ B.names := by rw [names_toList]; exact List.mem_map_of_mem (f := (·.1)) h
      rw [if_neg (by rintro rfl; exact hn.1 this)]
      exact ih hn.2 h

theorem mem_of_findDef {B : Defs} {f ft xs e} (h : findDef f B = some (ft, xs, e)) : (f, ft, xs, e) ∈ B.toList := by
  induction B using Defs.ind with
  | nil => simp [findDef] at h
  | cons g gt ys e' B ih =>
    simp only [findDef] at h
    simp only [Defs.toList, List.mem_cons]
    split at h
    · next hf => cases h; subst hf; exact .inl rfl
    · exact .inr (ih h)

theorem names_bv : ∀ B : Defs, B.names.Sublist B.bv := by
  intro B
  induction B using Defs.ind with
  | nil => simp [Defs.names, Defs.bv]
  | cons f ft xs e B ih =>
    simp only [Defs.names, Defs.bv]
    exact List.Sublist.cons_cons f ((ih.trans (List.sublist_append_right _ _)).trans (List.sublist_append_right _ _))

theorem params_of_nodup : ∀ {B : Defs}, B.bv.Nodup → ∀ f ft xs e, (f, ft, xs, e) ∈ B.toList →
    xs.Nodup ∧ (∀ x ∈ xs, x ∉ B.names) ∧ ∀ x ∈ e.bv, x ∉ B.names := by
  intro B
  induction B using Defs.ind with
  | nil => intro _ f ft xs e h; simp [Defs.toList] at h
  | cons g gt ys e' B ih =>
    intro hn f ft xs e h
    simp only [Defs.bv, List.nodup_cons, List.nodup_append, List.mem_append, not_or] at hn
    simp only [Defs.toList, List.mem_cons] at h
    have hsub := (names_bv B).subset
    have hmemB : ∀ x, (∃ f ft xs e, (f, ft, xs, e) ∈ B.toList ∧ (x ∈ xs ∨ x ∈ e.bv)) → x ∈ B.bv := by
      intro x
      clear ih hn h hsub
      induction B using Defs.ind with
      | nil => rintro ⟨f, ft, xs, e, h, _⟩; simp [Defs.toList] at h
      | cons k kt zs ek B ih =>
        rintro ⟨f, ft, xs, e, h, hx⟩
        simp only [Defs.toList, List.mem_cons] at h
        simp only [Defs.bv, List.mem_cons, List.mem_append]
        rcases h with h | h
        · cases h; tauto
        · have := ih ⟨f, ft, xs, e, h, hx⟩; tauto
    obtain ⟨⟨hg1, hg2, hg3⟩, hys, ⟨⟨he', hB, hdis⟩, hdis2⟩⟩ := hn
    rcases h with h | h
    · cases h
      refine ⟨hys, ?_, ?_⟩
      · intro x hx hxn
        simp only [Defs.names, List.mem_cons] at hxn
        rcases hxn with rfl | hxn
        · exact hg1 hx
        · exact hdis2 x hx x (.inr (hsub hxn)) rfl
      · intro x hx hxn
        simp only [Defs.names, List.mem_cons] at hxn
        rcases hxn with rfl | hxn
        · exact hg2 hx
        · exact hdis x hx x (hsub hxn) rfl
    · obtain ⟨a, b, c⟩ := ih hB f ft xs e h
      refine ⟨a, ?_, ?_⟩
      · intro x hx hxn
        simp only [Defs.names, List.mem_cons] at hxn
        rcases hxn with rfl | hxn
        · exact hg3 (hmemB _ ⟨f, ft, xs, e, h, .inl hx⟩)
        · exact b x hx hxn
      · intro x hx hxn
        simp only [Defs.names, List.mem_cons] at hxn
        rcases hxn with rfl | hxn
        · exact hg3 (hmemB _ ⟨f, ft, xs, e, h, .inr hx⟩)
        · exact c x hx hxn

theorem mem_elements {s : Finset Var} {x : Var} : x ∈ elements s ↔ x ∈ s := by
  simp only [elements, List.mem_filter, List.mem_range, decide_eq_true_eq]
  exact ⟨fun h => h.2, fun h => ⟨Nat.lt_succ_of_le (Finset.le_sup (f := id) h), h⟩⟩

theorem elements_nodup (s : Finset Var) : (elements s).Nodup := List.nodup_range.filter _

/-- `omega` on goals about variables and tags. -/
macro "vomega" : tactic => `(tactic| ((try dsimp only [Var, Tag] at *) <;> omega))

theorem getList_length {ρ : Env} : ∀ {ys : List Var} {vs}, getList ρ ys = some vs → vs.length = ys.length := by
  intro ys
  induction ys with
  | nil => intro vs h; cases h; rfl
  | cons y ys ih =>
    intro vs h
    simp only [getList] at h
    rcases hy : ρ y with _ | v <;> simp only [hy] at h
    · cases h
    rcases hys : getList ρ ys with _ | ws <;> simp only [hys] at h
    · cases h
    cases h
    simp [ih hys]

theorem getList_nth {ρ : Env} : ∀ {ys : List Var} {vs}, getList ρ ys = some vs → ∀ {i : Nat} {y}, ys[i]? = some y →
    ρ y = vs[i]? := by
  intro ys
  induction ys with
  | nil => intro vs _ i y h; simp at h
  | cons y ys ih =>
    intro vs h i z hz
    simp only [getList] at h
    rcases hy : ρ y with _ | v <;> simp only [hy] at h
    · cases h
    rcases hys : getList ρ ys with _ | ws <;> simp only [hys] at h
    · cases h
    cases h
    cases i with
    | zero => simp at hz; subst hz; rw [hy]; rfl
    | succ i => exact ih hys (by simpa using hz)

theorem getList_congr {ρ ρ' : Env} : ∀ {ys : List Var}, (∀ y ∈ ys, ρ' y = ρ y) → getList ρ' ys = getList ρ ys := by
  intro ys
  induction ys with
  | nil => intro _; rfl
  | cons y ys ih =>
    intro h
    simp only [getList, h y (by simp), ih (fun z hz => h z (by simp [hz]))]

mutual
/-- The tags in the case expressions of a term. -/
def Exp.caseTags : Exp → List Tag
  | .constr _ _ _ e => e.caseTags
  | .case _ bs => bs.caseTags
  | .proj _ _ _ _ e => e.caseTags
  | .letapp _ _ _ _ e => e.caseTags
  | .fn B e => B.caseTags ++ e.caseTags
  | .app _ _ _ => []
  | .primVal _ _ e => e.caseTags
  | .prim _ _ _ e => e.caseTags
  | .halt _ => []
/-- The same for branches. -/
def Brs.caseTags : Brs → List Tag
  | .nil => []
  | .cons t e bs => t :: (e.caseTags ++ bs.caseTags)
/-- The same for a bundle. -/
def Defs.caseTags : Defs → List Tag
  | .nil => []
  | .cons _ _ _ e B => e.caseTags ++ B.caseTags
end

theorem consistent_congr {ce ce' : Ctor.PMap Ctor.Info} {t : Tag} (ht : ce' t = ce t) : ∀ {ts : List Tag},
    (∀ u ∈ ts, ce' u = ce u) → consistent ce' t ts = consistent ce t ts := by
  intro ts
  induction ts with
  | nil => intro _; rfl
  | cons u ts ih =>
    intro h
    simp only [consistent, ih (fun z hz => h z (by simp [hz])), ht, h u (by simp)]

theorem findTag_mem : ∀ {bs : Brs} {t e}, findTag t bs = some e → t ∈ bs.tags := by
  intro bs
  induction bs using Brs.ind with
  | nil => intro t e h; simp [findTag] at h
  | cons t' e' bs ih =>
    intro t e h
    simp only [findTag] at h
    simp only [Brs.tags, List.mem_cons]
    split at h
    · next ht => exact .inl ht.symm
    · exact .inr (ih h)

theorem tags_caseTags : ∀ {bs : Brs} {t}, t ∈ bs.tags → t ∈ bs.caseTags := by
  intro bs
  induction bs using Brs.ind with
  | nil => intro t h; simp [Brs.tags] at h
  | cons t' e' bs ih =>
    intro t h
    simp only [Brs.tags, List.mem_cons] at h
    simp only [Brs.caseTags, List.mem_cons, List.mem_append]
    rcases h with h | h
    · exact .inl h
    · exact .inr (.inr (ih h))

theorem findTag_caseTags : ∀ {bs : Brs} {t e}, findTag t bs = some e → ∀ u ∈ e.caseTags, u ∈ bs.caseTags := by
  intro bs
  induction bs using Brs.ind with
  | nil => intro t e h; simp [findTag] at h
  | cons t' e' bs ih =>
    intro t e h u hu
    simp only [findTag] at h
    simp only [Brs.caseTags, List.mem_cons, List.mem_append]
    split at h
    · cases h; exact .inr (.inl hu)
    · exact .inr (.inr (ih h u hu))

theorem findTag_fv : ∀ {bs : Brs} {t e}, findTag t bs = some e → ∀ x ∈ e.fv, x ∈ bs.fv := by
  intro bs
  induction bs using Brs.ind with
  | nil => intro t e h; simp [findTag] at h
  | cons t' e' bs ih =>
    intro t e h u hu
    simp only [findTag] at h
    simp only [Brs.fv, Finset.mem_union]
    split at h
    · cases h; exact .inl hu
    · exact .inr (ih h u hu)

theorem findTag_bv : ∀ {bs : Brs} {t e}, findTag t bs = some e → e.bv.Sublist bs.bv := by
  intro bs
  induction bs using Brs.ind with
  | nil => intro t e h; simp [findTag] at h
  | cons t' e' bs ih =>
    intro t e h
    simp only [findTag] at h
    simp only [Brs.bv]
    split at h
    · cases h; exact List.sublist_append_left _ _
    · exact (ih h).trans (List.sublist_append_right _ _)

theorem findDef_bv : ∀ {B : Defs} {f ft xs e}, findDef f B = some (ft, xs, e) → (xs ++ e.bv).Sublist B.bv := by
  intro B
  induction B using Defs.ind with
  | nil => intro f ft xs e h; simp [findDef] at h
  | cons g gt ys e' B ih =>
    intro f ft xs e h
    simp only [findDef] at h
    simp only [Defs.bv]
    split at h
    · cases h
      refine List.Sublist.cons _ ?_
      rw [← List.append_assoc]
      exact List.sublist_append_left _ _
    · refine List.Sublist.cons _ ?_
      exact ((ih h).trans (List.sublist_append_right _ _)).trans (List.sublist_append_right _ _)

theorem findDef_caseTags : ∀ {B : Defs} {f ft xs e}, findDef f B = some (ft, xs, e) → ∀ u ∈ e.caseTags, u ∈ B.caseTags := by
  intro B
  induction B using Defs.ind with
  | nil => intro f ft xs e h; simp [findDef] at h
  | cons g gt ys e' B ih =>
    intro f ft xs e h u hu
    simp only [findDef] at h
    simp only [Defs.caseTags, List.mem_append]
    split at h
    · cases h; exact .inl hu
    · exact .inr (ih h u hu)

theorem fv_body {B : Defs} : ∀ {f ft xs e}, findDef f B = some (ft, xs, e) →
    ∀ x ∈ e.fv, x ∈ xs ∨ x ∈ B.names ∨ x ∈ B.fv := by
  have key : ∀ (B' : Defs) {f ft xs e}, findDef f B' = some (ft, xs, e) → ∀ x ∈ e.fv, x ∈ xs ∨ x ∈ B'.fvRaw := by
    intro B'
    induction B' using Defs.ind with
    | nil => intro f ft xs e h; simp [findDef] at h
    | cons g gt ys e' B' ih =>
      intro f ft xs e h x hx
      simp only [findDef] at h
      simp only [Defs.fvRaw, Finset.mem_union, Finset.mem_sdiff, List.mem_toFinset]
      split at h
      · cases h
        by_cases hxs : x ∈ ys
        · exact .inl hxs
        · exact .inr (.inl ⟨hx, hxs⟩)
      · rcases ih h x hx with h | h
        · exact .inl h
        · exact .inr (.inr h)
  intro f ft xs e h x hx
  rcases key B h x hx with h | h
  · exact .inl h
  · right
    by_cases hn : x ∈ B.names
    · exact .inl hn
    · exact .inr (by simp [Defs.fv, h, hn])

end ANF
