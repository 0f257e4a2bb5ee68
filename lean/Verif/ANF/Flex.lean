import Verif.ANF.Util

/-!
# Simulations whose two sides need different numbers of calls

`FRel false` says that the target returns when the source returns; `FRel true` says that the target cannot be done
before the source.  Together, at suitable call bounds, they give `Preserves`.  The lemmas `flex_*` take one step of both
sides when the two terms have the same head.
-/

namespace ANF

/-- Results of the two sides.  `b = false`: a source value is matched by a related target value.  `b = true`: if the
target is done then so is the source, with a related value. -/
def FRel (b : Bool) (R : Val → Val → Prop) : Res → Res → Prop
  | .stuck, _ => True
  | .val v, .val v' => R v v'
  | .oot, .oot => True
  | .val _, .oot => b = true
  | .oot, _ => b = false
  | _, _ => False

theorem FRel.oot {R r} : FRel true R r .oot := by cases r <;> simp [FRel]

theorem FRel.free {R r} : FRel false R .oot r := by cases r <;> simp [FRel]

theorem preserves_of_flex {S S' R e e'} (hobs : ∀ v v', R v v' → Obs v v')
    (h1 : ∀ n, ∃ m, FRel false R (run S n emp e) (run S' m emp e'))
    (h2 : ∀ m, ∃ n, FRel true R (run S n emp e) (run S' m emp e')) : Preserves S e S' e' := by
  constructor
  · rintro v ⟨n, hn⟩
    obtain ⟨m, hm⟩ := h1 n
    rw [hn] at hm
    rcases hr : run S' m emp e' with v' | _ | _ <;> rw [hr] at hm
    · exact ⟨v', ⟨m, hr⟩, hobs _ _ hm⟩
    · simp [FRel] at hm
    · exact hm.elim
  · intro hd m
    obtain ⟨n, hn⟩ := h2 m
    rw [hd n] at hn
    rcases hr : run S' m emp e' with v' | _ | _ <;> rw [hr] at hn
    · simp [FRel] at hn
    · simp [FRel] at hn

/-- The data part of a value relation. -/
structure DataRel (R : Val → Val → Prop) : Prop where
  con : ∀ {t vs vs'}, All2 R vs vs' → R (.constr t vs) (.constr t vs')
  conInv : ∀ {t vs w}, R (.constr t vs) w → ∃ vs', w = .constr t vs' ∧ All2 R vs vs'
  prm : ∀ {p}, R (.prim p) (.prim p)
  prmInv : ∀ {p w}, R (.prim p) w → w = .prim p
  fnInv : ∀ {ρ B f w}, R (.fn ρ B f) w → ∃ ρ' B' f', w = .fn ρ' B' f'

theorem DataRel.obs {R} (hR : DataRel R) : ∀ (v v' : Val), R v v' → Obs v v'
  | .constr t vs, v', h => by
    obtain ⟨vs', rfl, ha⟩ := hR.conInv h
    refine .constr ha.1 ?_
    intro i w w' hw hw'
    have hmem : w ∈ vs := List.mem_of_getElem? hw
    have hs : sizeOf w < sizeOf vs := List.sizeOf_lt_of_mem hmem
    exact DataRel.obs hR w w' (ha.2 i w w' hw hw')
  | .prim p, v', h => by rw [hR.prmInv h]; exact .prim
  | .fn ρ B f, v', h => by
    obtain ⟨ρ', B', f', rfl⟩ := hR.fnInv h
    exact .fn .fn
termination_by v => sizeOf v

/-- A variable of the source and the one of the target that stands for it. -/
def Look (R : Val → Val → Prop) (ρ ρ' : Env) (y y' : Var) : Prop :=
  ∀ v, ρ y = some v → ∃ v', ρ' y' = some v' ∧ R v v'

/-- The same for lists. -/
def Looks (R : Val → Val → Prop) (ρ ρ' : Env) (ys ys' : List Var) : Prop :=
  ∀ vs, getList ρ ys = some vs → ∃ vs', getList ρ' ys' = some vs' ∧ All2 R vs vs'

theorem Looks.nil {R ρ ρ'} : Looks R ρ ρ' [] [] := by
  intro vs h; cases h; exact ⟨[], rfl, .nil⟩

theorem Looks.cons {R ρ ρ' y y' ys ys'} (h : Look R ρ ρ' y y') (hs : Looks R ρ ρ' ys ys') :
    Looks R ρ ρ' (y :: ys) (y' :: ys') := by
  intro vs hg
  simp only [getList] at hg
  rcases hy : ρ y with _ | v <;> simp only [hy] at hg
  · cases hg
  rcases hys : getList ρ ys with _ | ws <;> simp only [hys] at hg
  · cases hg
  cases hg
  obtain ⟨v', hv', hr⟩ := h v hy
  obtain ⟨vs', hvs', hrs⟩ := hs ws hys
  exact ⟨v' :: vs', by simp only [getList, hv', hvs'], hrs.cons hr⟩

theorem Looks.map {R ρ ρ'} {σ : Var → Var} : ∀ {ys : List Var}, (∀ y ∈ ys, Look R ρ ρ' y (σ y)) →
    Looks R ρ ρ' ys (ys.map σ)
  | [], _ => .nil
  | y :: _, h => .cons (h y (by simp)) (Looks.map fun z hz => h z (by simp [hz]))

theorem Looks.same {R ρ ρ'} {ys : List Var} (h : ∀ y ∈ ys, Look R ρ ρ' y y) : Looks R ρ ρ' ys ys := by
  have := Looks.map (σ := id) h
  simpa using this

theorem Looks.append {R ρ ρ'} : ∀ {ys ys' zs zs' : List Var}, Looks R ρ ρ' ys ys' → ys.length = ys'.length →
    Looks R ρ ρ' zs zs' → Looks R ρ ρ' (ys ++ zs) (ys' ++ zs') := by
  intro ys ys' zs zs' h hlen hz vs hg
  have key : ∀ {ρ : Env} {as bs : List Var} {vs}, getList ρ (as ++ bs) = some vs ↔
      ∃ us ws, getList ρ as = some us ∧ getList ρ bs = some ws ∧ vs = us ++ ws := by
    intro ρ as
    induction as with
    | nil =>
      intro bs vs
      simp only [List.nil_append, getList, Option.some.injEq]
      constructor
      · intro h; exact ⟨[], vs, rfl, h, rfl⟩
      · rintro ⟨us, ws, rfl, h, rfl⟩; exact h
    | cons a as ih =>
      intro bs vs
      simp only [List.cons_append, getList]
      constructor
      · intro h
        rcases ha : ρ a with _ | v <;> simp only [ha] at h
        · cases h
        rcases hr : getList ρ (as ++ bs) with _ | rs <;> simp only [hr] at h
        · cases h
        cases h
        obtain ⟨us, ws, h1, h2, rfl⟩ := ih.mp hr
        exact ⟨v :: us, ws, by simp only [h1], h2, rfl⟩
      · rintro ⟨us, ws, h1, h2, rfl⟩
        rcases ha : ρ a with _ | v <;> simp only [ha] at h1
        · cases h1
        rcases hr : getList ρ as with _ | rs <;> simp only [hr] at h1
        · cases h1
        cases h1
        rw [ih.mpr ⟨rs, ws, hr, h2, rfl⟩]
        rfl
  obtain ⟨us, ws, h1, h2, rfl⟩ := key.mp hg
  obtain ⟨us', hu', hru⟩ := h us h1
  obtain ⟨ws', hw', hrw⟩ := hz ws h2
  refine ⟨us' ++ ws', key.mpr ⟨us', ws', hu', hw', rfl⟩, ?_, ?_⟩
  · simp [hru.1, hrw.1]
  · intro i v v' hv hv'
    by_cases hi : i < us.length
    · rw [List.getElem?_append_left hi] at hv
      rw [List.getElem?_append_left (by rw [← hru.1]; exact hi)] at hv'
      exact hru.2 i v v' hv hv'
    · rw [List.getElem?_append_right (by omega)] at hv
      rw [List.getElem?_append_right (by rw [← hru.1]; omega), ← hru.1] at hv'
      exact hrw.2 _ v v' hv hv'

section
variable {S : Sig} {b : Bool} {R : Val → Val → Prop} {call call' : Env → Exp → Res} {ρ ρ' : Env}

theorem flex_constr (hR : DataRel R) {x x' t ys ys' e e'} (hy : Looks R ρ ρ' ys ys')
    (h : ∀ vs vs', getList ρ ys = some vs → getList ρ' ys' = some vs' → R (.constr t vs) (.constr t vs') →
      FRel b R (evalE S call e (ρ.set x (.constr t vs))) (evalE S call' e' (ρ'.set x' (.constr t vs')))) :
    FRel b R (evalE S call (.constr x t ys e) ρ) (evalE S call' (.constr x' t ys' e') ρ') := by
  simp only [evalE]
  rcases hg : getList ρ ys with _ | vs
  · trivial
  obtain ⟨vs', hvs', hrs⟩ := hy vs hg
  simp only [hvs']
  exact h vs vs' hg hvs' (hR.con hrs)

theorem flex_proj (hR : DataRel R) {x x' t n y y' e e'} (hy : Look R ρ ρ' y y')
    (h : ∀ v v', R v v' → FRel b R (evalE S call e (ρ.set x v)) (evalE S call' e' (ρ'.set x' v'))) :
    FRel b R (evalE S call (.proj x t n y e) ρ) (evalE S call' (.proj x' t n y' e') ρ') := by
  simp only [evalE]
  rcases hv : ρ y with _ | v
  · trivial
  obtain ⟨v', hv', hr⟩ := hy v hv
  rw [hv']
  cases v with
  | prim => trivial
  | fn => trivial
  | constr t' vs =>
    obtain ⟨vs', rfl, hrs⟩ := hR.conInv hr
    dsimp only
    split
    · rcases hn : vs[n]? with _ | w
      · trivial
      obtain ⟨w', hw', hrw⟩ := hrs.get hn
      rw [hw']
      exact h w w' hrw
    · trivial

theorem flex_case (hR : DataRel R) {y y' bs bs'} (hy : Look R ρ ρ' y y') (ht : bs'.tags = bs.tags)
    (h : ∀ t vs e, ρ y = some (.constr t vs) → findTag t bs = some e → ∃ e', findTag t bs' = some e' ∧
      FRel b R (evalE S call e ρ) (evalE S call' e' ρ')) :
    FRel b R (evalE S call (.case y bs) ρ) (evalE S call' (.case y' bs') ρ') := by
  simp only [evalE]
  rcases hv : ρ y with _ | v
  · trivial
  obtain ⟨v', hv', hr⟩ := hy v hv
  rw [hv']
  cases v with
  | prim => trivial
  | fn => trivial
  | constr t vs =>
    obtain ⟨vs', rfl, hrs⟩ := hR.conInv hr
    dsimp only
    rw [ht]
    split
    · simp only [evalB_findTag]
      rcases hf : findTag t bs with _ | e
      · trivial
      obtain ⟨e', hf', hb⟩ := h t vs e hv hf
      rw [hf']
      exact hb
    · trivial

theorem flex_app {f f' ft ft' ys ys'} (h : ∀ ρ₁ e₁, callee ρ f ft ys = some (ρ₁, e₁) →
      ∃ ρ₁' e₁', callee ρ' f' ft' ys' = some (ρ₁', e₁') ∧ FRel b R (call ρ₁ e₁) (call' ρ₁' e₁')) :
    FRel b R (evalE S call (.app f ft ys) ρ) (evalE S call' (.app f' ft' ys') ρ') := by
  simp only [evalE]
  rcases hc : callee ρ f ft ys with _ | ⟨ρ₁, e₁⟩
  · trivial
  obtain ⟨ρ₁', e₁', hc', hr⟩ := h ρ₁ e₁ hc
  rw [hc']
  exact hr

/-- What a `let` does with the result of its call. -/
def letK (r : Res) (k : Val → Res) : Res :=
  match r with
  | .val v => k v
  | .oot => .oot
  | .stuck => .stuck

theorem flex_letK {r r' : Res} {k k' : Val → Res} (h : FRel b R r r') (hk : ∀ v v', R v v' → FRel b R (k v) (k' v')) :
    FRel b R (letK r k) (letK r' k') := by
  rcases r with v | _ | _ <;> rcases r' with v' | _ | _ <;> simp only [FRel, letK] at h ⊢ <;> try trivial
  · exact hk v v' h
  · subst h; exact FRel.oot
  · subst h; exact FRel.free

theorem evalE_letapp {x f ft ys e} : evalE S call (.letapp x f ft ys e) ρ = match callee ρ f ft ys with
    | some (ρ₁, e₁) => letK (call ρ₁ e₁) (fun v => evalE S call e (ρ.set x v))
    | none => .stuck := by
  simp only [evalE]
  rcases callee ρ f ft ys with _ | ⟨ρ₁, e₁⟩
  · rfl
  · rfl

theorem flex_letapp {x x' f f' ft ft' ys ys' e e'} (h : ∀ ρ₁ e₁, callee ρ f ft ys = some (ρ₁, e₁) →
      ∃ ρ₁' e₁', callee ρ' f' ft' ys' = some (ρ₁', e₁') ∧ FRel b R (call ρ₁ e₁) (call' ρ₁' e₁'))
    (hk : ∀ v v', R v v' → FRel b R (evalE S call e (ρ.set x v)) (evalE S call' e' (ρ'.set x' v'))) :
    FRel b R (evalE S call (.letapp x f ft ys e) ρ) (evalE S call' (.letapp x' f' ft' ys' e') ρ') := by
  rw [evalE_letapp, evalE_letapp]
  rcases hc : callee ρ f ft ys with _ | ⟨ρ₁, e₁⟩
  · trivial
  obtain ⟨ρ₁', e₁', hc', hr⟩ := h ρ₁ e₁ hc
  rw [hc']
  exact flex_letK hr hk

theorem flex_primVal (hR : DataRel R) {x x' p e e'}
    (h : R (.prim p) (.prim p) → FRel b R (evalE S call e (ρ.set x (.prim p))) (evalE S call' e' (ρ'.set x' (.prim p)))) :
    FRel b R (evalE S call (.primVal x p e) ρ) (evalE S call' (.primVal x' p e') ρ') := by
  simp only [evalE]; exact h hR.prm

theorem flex_prim (hR : DataRel R) {x x' p ys ys' e e'} (hy : Looks R ρ ρ' ys ys')
    (h : ∀ v, R v v → FRel b R (evalE S call e (ρ.set x v)) (evalE S call' e' (ρ'.set x' v))) :
    FRel b R (evalE S call (.prim x p ys e) ρ) (evalE S call' (.prim x' p ys' e') ρ') := by
  simp only [evalE]
  rcases hg : getList ρ ys with _ | vs
  · trivial
  obtain ⟨vs', hvs', hrs⟩ := hy vs hg
  simp only [hvs']
  rcases ho : S.op p vs with _ | v
  · trivial
  obtain ⟨ho', d, rfl⟩ := op_rel (R := R) (fun p v h => hR.prmInv h) hrs ho
  rw [ho']
  exact h _ (toVal_refl (fun _ => hR.prm) (fun _ _ _ h => hR.con h) d)

theorem flex_halt {x x'} (h : Look R ρ ρ' x x') : FRel b R (evalE S call (.halt x) ρ) (evalE S call' (.halt x') ρ') := by
  simp only [evalE]
  rcases hv : ρ x with _ | v
  · trivial
  obtain ⟨v', hv', hr⟩ := h v hv
  rw [hv']
  exact hr

end

/-! ## Calls by value -/

/-- A call given the function value and the arguments (the second half of `callee`). -/
def applyV (v : Val) (ft : Tag) (vs : List Val) : Option (Env × Exp) :=
  match v with
  | .fn ρ' B f' => match findDef f' B with
    | some (ft', xs, e) => if ft' = ft then (setLists xs vs (defFuns B B ρ' ρ')).map (·, e) else none
    | none => none
  | _ => none

theorem callee_applyV {ρ f ft ys r} : callee ρ f ft ys = some r ↔
    ∃ v vs, ρ f = some v ∧ getList ρ ys = some vs ∧ applyV v ft vs = some r := by
  unfold callee
  constructor
  · intro h
    rcases hf : ρ f with _ | v <;> simp only [hf] at h
    · cases h
    rcases hy : getList ρ ys with _ | vs
    · rw [hy] at h; cases v <;> simp at h
    · rw [hy] at h
      cases v with
      | fn ρ' B f' => exact ⟨_, vs, rfl, rfl, h⟩
      | constr => simp at h
      | prim => simp at h
  · rintro ⟨v, vs, hf, hy, h⟩
    rw [hf, hy]
    cases v with
    | fn ρ' B f' => exact h
    | constr => simp [applyV] at h
    | prim => simp [applyV] at h

theorem applyV_some {ρ' B f' ft vs r} (h : applyV (.fn ρ' B f') ft vs = some r) : ∃ xs ρ₁ e,
    findDef f' B = some (ft, xs, e) ∧ setLists xs vs (defFuns B B ρ' ρ') = some ρ₁ ∧ r = (ρ₁, e) := by
  simp only [applyV] at h
  rcases hf : findDef f' B with _ | ⟨ft', xs, e⟩ <;> simp only [hf] at h
  · cases h
  split at h
  · next ht =>
    subst ht
    rcases hs : setLists xs vs (defFuns B B ρ' ρ') with _ | ρ₁ <;> simp [hs] at h
    exact ⟨xs, ρ₁, e, rfl, hs, h.symm⟩
  · cases h

theorem applyV_eq {ρ' B f' ft vs xs ρ₁ e} (h1 : findDef f' B = some (ft, xs, e))
    (h2 : setLists xs vs (defFuns B B ρ' ρ') = some ρ₁) : applyV (.fn ρ' B f') ft vs = some (ρ₁, e) := by
  simp [applyV, h1, h2]

theorem getList_append {ρ : Env} : ∀ {as bs : List Var} {us ws}, getList ρ as = some us → getList ρ bs = some ws →
    getList ρ (as ++ bs) = some (us ++ ws)
  | [], _, _, _, h1, h2 => by cases h1; exact h2
  | a :: as, bs, us, ws, h1, h2 => by
    simp only [getList] at h1
    rcases ha : ρ a with _ | v <;> simp only [ha] at h1
    · cases h1
    rcases hr : getList ρ as with _ | rs <;> simp only [hr] at h1
    · cases h1
    cases h1
    simp only [List.cons_append, getList, ha, getList_append hr h2]

theorem getList_ext {ρ : Env} : ∀ {xs : List Var} {vs : List Val}, xs.length = vs.length →
    (∀ (i : Nat) x, xs[i]? = some x → ρ x = vs[i]?) → getList ρ xs = some vs
  | [], [], _, _ => rfl
  | [], _ :: _, h, _ => by simp at h
  | _ :: _, [], h, _ => by simp at h
  | x :: xs, v :: vs, h, hx => by
    have h0 : ρ x = some v := by simpa using hx 0 x rfl
    have hr : getList ρ xs = some vs := getList_ext (by simpa using h) (fun i y hy => by simpa using hx (i + 1) y (by simpa using hy))
    simp only [getList, h0, hr]

theorem getList_setLists {xs vs} {ρ ρ' : Env} (h : setLists xs vs ρ = some ρ') (hn : xs.Nodup) :
    getList ρ' xs = some vs :=
  getList_ext (setLists_len h) (fun _ _ hx => setLists_nth h hn hx)

theorem setLists_append {ρ ρ₁ ρ₂ : Env} : ∀ {xs : List Var} {vs : List Val} {ys ws}, setLists ys ws ρ = some ρ₁ →
    setLists xs vs ρ₁ = some ρ₂ → setLists (xs ++ ys) (vs ++ ws) ρ = some ρ₂
  | [], [], _, _, h1, h2 => by simp only [setLists] at h2; cases h2; exact h1
  | [], _ :: _, _, _, _, h2 => by simp [setLists] at h2
  | _ :: _, [], _, _, _, h2 => by simp [setLists] at h2
  | x :: xs, v :: vs, ys, ws, h1, h2 => by
    simp only [setLists] at h2
    rcases hr : setLists xs vs ρ₁ with _ | ρ₃ <;> simp only [hr] at h2
    · cases h2
    cases h2
    simp only [List.cons_append, setLists, setLists_append h1 hr]

/-- Environments related on a set of variables. -/
def EnvR (R : Val → Val → Prop) (X : Finset Var) (ρ ρ' : Env) : Prop := ∀ x ∈ X, Look R ρ ρ' x x

theorem EnvR.mono {R X Y ρ ρ'} (h : EnvR R X ρ ρ') (hs : ∀ x ∈ Y, x ∈ X) : EnvR R Y ρ ρ' := fun x hx => h x (hs x hx)

theorem EnvR.set {R X Y ρ ρ' x v v'} (h : EnvR R X ρ ρ') (hr : R v v') (hs : ∀ y ∈ Y, y ≠ x → y ∈ X) :
    EnvR R Y (ρ.set x v) (ρ'.set x v') := by
  intro y hy w hw
  by_cases hyx : y = x
  · subst hyx; rw [set_self] at hw; cases hw; exact ⟨v', set_self, hr⟩
  · rw [set_other hyx] at hw ⊢
    exact h y (hs y hy hyx) w hw

theorem EnvR.setLists {R X Y ρ ρ'} (h : EnvR R X ρ ρ') {xs vs vs' ρ₁} (hv : All2 R vs vs')
    (hs : setLists xs vs ρ = some ρ₁) (hY : ∀ y ∈ Y, y ∉ xs → y ∈ X) :
    ∃ ρ₁', ANF.setLists xs vs' ρ' = some ρ₁' ∧ EnvR R Y ρ₁ ρ₁' := by
  have h0 : ERel R (· ∈ X) id ρ ρ' := fun x hx v hv => h x hx v hv
  obtain ⟨ρ₁', h1, h2⟩ := h0.setLists hv hs
  exact ⟨ρ₁', h1, fun y hy w hw => h2 y (by
    by_cases hyx : y ∈ xs
    · exact .inl hyx
    · exact .inr (hY y hy hyx)) w hw⟩

end ANF
