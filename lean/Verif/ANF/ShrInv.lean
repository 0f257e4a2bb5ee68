import Verif.ANF.ShrArith

/-!
# Shrink reduction: the census invariant

The census is an upper bound of the occurrences in the rest of the program, so what it calls dead is dead and what it
calls used once is used once; therefore a result of `contract` is related to its argument by `SE`.
-/

namespace ANF
namespace Shr
open Ll (put)
open Inl (Ctx inlineLet sets)

/-- How often a variable is a binder of what is still to be contracted: `bs` here, the known functions that may be
inlined, and `Z` elsewhere. -/
def un (bs : List Var) (im : Var → Bool) (s : Sub) (Z : List Var) (w : Var) : Nat :=
  cn id bs w + cn id (pb im s) w + cn id Z w

/-- The state before a part of the program is contracted: `us`, `bs` and `F` are its occurrences, binders and free
variables; `K` counts the occurrences in the rest of the program. -/
structure Pre (K : Var → Nat) (σ : Var → Var) (c : Count) (us bs : List Var) (F : Var → Prop) (s : Sub) (im : Var → Bool)
    (Z : List Var) : Prop where
  cnt : ∀ y, cn σ us y + cn σ (pu im s) y + K y ≤ c y
  gone : ∀ f, im f = true → c f = 0
  con : ∀ x t ys, (x, .con t ys) ∈ s → ∀ y ∈ ys, 0 < K (σ y) ∧ un bs im s Z (σ y) = 0
  uc : ∀ w, un bs im s Z w ≤ 1
  fre : ∀ y, F y → un bs im s Z y = 0
  frp : ∀ f t xs m, (f, .fn t xs m) ∈ s → im f = false → ∀ y ∈ m.fv, y ∉ xs → un bs im s Z y = 0
  kz : ∀ w, 0 < cn id bs w + cn id (pb im s) w → K w = 0
  ids : ∀ w, 0 < un bs im s Z w → σ w = w
  away : ∀ z, 0 < un bs im s Z (σ z) → σ z = z
  keys : ∀ f v, (f, v) ∈ s → un bs im s Z f = 0

/-- The state after it. -/
structure Post (K : Var → Nat) (σ : Var → Var) (c : Count) (s : Sub) (im : Var → Bool) (Z us' : List Var) (c' : Count)
    (im' : Var → Bool) : Prop where
  mono : Mono im im'
  dead : ∀ y, c y = 0 → c' y = 0
  gone : ∀ f, im' f = true → c' f = 0
  cnt : ∀ y, cn id us' y + cn σ (pu im' s) y + K y ≤ c' y
  avoid : ∀ w ∈ us', cn id (pb im' s) w = 0 ∧ cn id Z w = 0

section
variable {K : Var → Nat} {σ : Var → Var} {c : Count} {us bs : List Var} {F : Var → Prop} {s : Sub} {im : Var → Bool}
  {Z : List Var}

theorem Pre.move (h : Pre K σ c us bs F s im Z) {K' c' us' bs' F' im' Z'} (hm : Mono im im')
    (cnt : ∀ y, cn σ us' y + cn σ (pu im' s) y + K' y ≤ c' y) (gone : ∀ f, im' f = true → c' f = 0)
    (hK : ∀ y, K y ≤ K' y) (hU : ∀ w, un bs' im' s Z' w ≤ un bs im s Z w) (fre : ∀ y, F' y → un bs' im' s Z' y = 0)
    (kz : ∀ w, 0 < cn id bs' w + cn id (pb im' s) w → K' w = 0) : Pre K' σ c' us' bs' F' s im' Z' where
  cnt := cnt
  gone := gone
  con x t ys hx y hy := by
    obtain ⟨h1, h2⟩ := h.con x t ys hx y hy
    have := hK (σ y); have := hU (σ y); exact ⟨by omega, by omega⟩
  uc w := (hU w).trans (h.uc w)
  fre := fre
  frp f t xs m hf hi y hy hx := by have := h.frp f t xs m hf (hm.neg hi) y hy hx; have := hU y; omega
  kz := kz
  ids w hw := h.ids w (lt_of_lt_of_le hw (hU w))
  away z hz := h.away z (lt_of_lt_of_le hz (hU _))
  keys f v hf := by have := h.keys f v hf; have := hU f; omega

/-- A free variable is not renamed to a binder. -/
theorem Pre.use (h : Pre K σ c us bs F s im Z) {y} (hy : F y) : un bs im s Z (σ y) = 0 := by
  by_contra hn
  have := h.away y (by omega)
  rw [this] at hn
  exact hn (h.fre y hy)

/-- Occurrences in known functions are free or bound there. -/
theorem Pre.pend (h : Pre K σ c us bs F s im Z) {z} (hz : z ∈ pu im s) : un bs im s Z z = 0 ∨ 0 < cn id (pb im s) z := by
  obtain ⟨f, t, xs, m, h1, h2, h3⟩ := mem_pu hz
  have := pull_b (σ := id) (y := z) h2 h1
  by_cases hx : z ∈ xs
  · have := cn_mem.mpr hx; right; omega
  · rcases uses_scope m z h3 with h4 | h4
    · exact .inl (h.frp f t xs m h1 h2 z h4 hx)
    · have := cn_mem.mpr h4; right; omega

/-- A binder of this part does not occur in the known functions. -/
theorem Pre.pend0 (h : Pre K σ c us bs F s im Z) {w} (hw : 0 < cn id bs w) : cn σ (pu im s) w = 0 := by
  by_contra hn
  obtain ⟨z, hz, he⟩ := cn_pos.mp (Nat.pos_of_ne_zero hn)
  have hu : 0 < un bs im s Z w := by simp only [un]; omega
  have := h.away z (by rw [he]; exact hu)
  rw [this] at he; subst he
  have h1 := h.uc z
  rcases h.pend hz with h2 | h2
  · omega
  · simp only [un] at h1; omega

/-! ## Facts -/

/-- What the pass knows. -/
def facts (σ : Var → Var) (im : Var → Bool) (s : Sub) : Facts := fun y => match Sub.get y s with
  | some (.con t ys) => some (.con t (ys.map σ))
  | some (.fn t xs m) => if im y then none else some (.fn t xs m σ)
  | none => none

theorem Same_refl (a : Fact) : a.Same a := by cases a <;> simp [Fact.Same]

theorem Pre.fresh (h : Pre K σ c us bs F s im Z) {x} (hx : 0 < un bs im s Z x) : Fresh (facts σ im s) x := by
  intro y a hy
  simp only [facts] at hy
  split at hy
  · next t ys hg =>
    cases hy
    refine ⟨by rintro rfl; have := h.keys _ _ (get_mem hg); omega, ?_⟩
    simp only [Fact.Uses, List.mem_map, not_exists, not_and]
    rintro z hz rfl
    have := (h.con _ _ _ (get_mem hg) z hz).2; omega
  · next t xs m hg =>
    split at hy
    · cases hy
    · next hi =>
      cases hy
      refine ⟨by rintro rfl; have := h.keys _ _ (get_mem hg); omega, ?_⟩
      rintro ⟨z, hz, hzx, rfl⟩
      have h1 := h.frp _ _ _ _ (get_mem hg) (by simpa using hi) z hz hzx
      rw [h.away z hx] at hx; omega
  · cases hy

theorem Pre.new (h : Pre K σ c us bs F s im Z) {x} (hx : 0 < un bs im s Z x) (X) : New (facts σ im s) σ x X := by
  refine ⟨h.fresh hx, h.ids x hx, ?_⟩
  rintro z _ hne rfl
  exact hne (h.away z hx).symm

theorem facts_weak {σ' im'} (hm : Mono im im') (hc : ∀ x t ys, (x, .con t ys) ∈ s → ∀ y ∈ ys, σ' y = σ y)
    (hf : ∀ f t xs m, (f, .fn t xs m) ∈ s → im f = false → ∀ z ∈ m.fv, z ∉ xs → σ' z = σ z) :
    ∀ y a, facts σ' im' s y = some a → ∃ a', facts σ im s y = some a' ∧ a'.Same a := by
  intro y a hy
  simp only [facts] at hy ⊢
  split at hy
  · next t ys hg =>
    cases hy
    refine ⟨_, rfl, rfl, ?_⟩
    exact List.map_congr_left fun z hz => (hc _ _ _ (get_mem hg) z hz).symm
  · next t xs m hg =>
    split at hy
    · cases hy
    · next hi =>
      cases hy
      have : im y = false := hm.neg (by simpa using hi)
      refine ⟨.fn t xs m σ, by simp [this], rfl, rfl, rfl, fun z hz hzx => ?_⟩
      exact (hf _ _ _ _ (get_mem hg) this z hz hzx).symm
  · cases hy

theorem facts_mono {im'} (hm : Mono im im') : ∀ y a, facts σ im' s y = some a → ∃ a', facts σ im s y = some a' ∧ a'.Same a :=
  facts_weak hm (fun _ _ _ _ _ _ => rfl) (fun _ _ _ _ _ _ _ _ _ => rfl)

theorem facts_con {x t ys} : facts σ im ((x, .con t ys) :: s) = put (facts σ im s) x (some (.con t (ys.map σ))) := by
  funext y
  simp only [facts, Sub.get]
  by_cases h : x = y
  · subst h; simp [Inl.put_self]
  · rw [Inl.put_other (Ne.symm h)]; simp only [h, if_false]; rfl

/-! ## Binders -/

theorem Pre.step {x : Var} {l : List Var} {e : Exp} (h : Pre K σ c (l ++ uses e) (x :: e.bv) F s im Z) (hl : ∀ z ∈ l, F z)
    (he : ∀ z ∈ e.fv, z ≠ x → F z) : Pre (fun y => K y + cn σ l y) σ c (uses e) e.bv (· ∈ e.fv) s im Z := by
  refine h.move (.refl _) (fun y => ?_) h.gone (fun y => by omega) (fun w => ?_) (fun y hy => ?_) (fun w hw => ?_)
  · have := h.cnt y; rw [cn_append] at this; omega
  · simp only [un, cn_cons]; omega
  · by_cases hx : y = x
    · subst hx; have := h.uc y; simp only [un, cn_cons, id, if_true] at this ⊢; omega
    · have := h.fre y (he y hy hx); simp only [un, cn_cons] at this ⊢; omega
  · have h1 := h.kz w (by simp only [cn_cons]; omega)
    have : cn σ l w = 0 := by
      by_contra hn
      obtain ⟨z, hz, rfl⟩ := cn_pos.mp (Nat.pos_of_ne_zero hn)
      have := h.use (hl z hz)
      simp only [un, cn_cons] at this; omega
    omega

theorem Pre.drop {x : Var} {l : List Var} {e : Exp} (h : Pre K σ c (l ++ uses e) (x :: e.bv) F s im Z)
    (he : ∀ z ∈ e.fv, z ≠ x → F z) : Pre K σ (decL σ l c) (uses e) e.bv (· ∈ e.fv) s im Z := by
  refine h.move (.refl _) (fun y => ?_) (fun f hf => ?_) (fun y => le_rfl) (fun w => ?_) (fun y hy => ?_) (fun w hw => ?_)
  · have := h.cnt y; rw [cn_append] at this; rw [decL_eq]; omega
  · rw [decL_eq, h.gone f hf]; omega
  · simp only [un, cn_cons]; omega
  · by_cases hx : y = x
    · subst hx; have := h.uc y; simp only [un, cn_cons, id, if_true] at this ⊢; omega
    · have := h.fre y (he y hy hx); simp only [un, cn_cons] at this ⊢; omega
  · exact h.kz w (by simp only [cn_cons]; omega)

theorem Post.keep {x : Var} {l : List Var} {e : Exp} (h : Pre K σ c (l ++ uses e) (x :: e.bv) F s im Z) (hl : ∀ z ∈ l, F z)
    {us' c' im'} (hp : Post (fun y => K y + cn σ l y) σ c s im Z us' c' im') : Post K σ c s im Z (l.map σ ++ us') c' im' where
  mono := hp.mono
  dead := hp.dead
  gone := hp.gone
  cnt y := by have := hp.cnt y; rw [cn_append, cn_map]; change cn σ l y + _ + _ + _ ≤ _; omega
  avoid w hw := by
    rcases List.mem_append.mp hw with hw | hw
    · obtain ⟨z, hz, rfl⟩ := List.mem_map.mp hw
      have h1 := h.use (hl z hz)
      have h2 := hp.mono.pb (σ := id) (y := σ z) (s := s)
      simp only [un] at h1; omega
    · exact hp.avoid w hw

theorem Post.dropped {l : List Var} {us' c' im'} (hp : Post (fun y => K y + cn σ l y) σ c s im Z us' c' im') :
    Post K σ c s im Z us' (decL σ l c') im' where
  mono := hp.mono
  dead y hy := by rw [decL_eq, hp.dead y hy]; omega
  gone y hy := by rw [decL_eq, hp.gone y hy]; omega
  cnt y := by have := hp.cnt y; rw [decL_eq]; omega
  avoid := hp.avoid

theorem Post.pre {c₁ us' c' im'} (hp : Post K σ c₁ s im Z us' c' im') (hc : ∀ y, c y = 0 → c₁ y = 0) :
    Post K σ c s im Z us' c' im' := ⟨hp.mono, fun y hy => hp.dead y (hc y hy), hp.gone, hp.cnt, hp.avoid⟩

/-- A variable whose count is zero does not occur. -/
theorem Post.absent {e' : Exp} {c' im'} (hp : Post K σ c s im Z (uses e') c' im') {x} (hx : c' x = 0) : x ∉ e'.fv := by
  intro h
  have := cn_mem.mpr (uses_fv e' x h)
  have := hp.cnt x; omega

/-- Recording a constructor. -/
theorem Pre.cons {x : Var} {t : Tag} {ys : List Var} {e : Exp} (h : Pre K σ c (ys ++ uses e) (x :: e.bv) F s im Z)
    (hl : ∀ z ∈ ys, F z) (he : ∀ z ∈ e.fv, z ≠ x → F z) :
    Pre (fun y => K y + cn σ ys y) σ c (uses e) e.bv (· ∈ e.fv) ((x, .con t ys) :: s) im Z := by
  have h' := h.step hl he
  refine ⟨h'.cnt, h'.gone, ?_, h'.uc, h'.fre, ?_, h'.kz, h'.ids, h'.away, ?_⟩
  · intro x' t' ys' hm y hy
    simp only [List.mem_cons, Prod.mk.injEq] at hm
    rcases hm with ⟨rfl, hv⟩ | hm
    · cases hv
      have h1 : 0 < cn σ ys (σ y) := cn_pos.mpr ⟨y, hy, rfl⟩
      have h2 := h.use (hl y hy)
      refine ⟨by omega, ?_⟩
      simp only [un, cn_cons, pb] at h2 ⊢; omega
    · exact h'.con _ _ _ hm y hy
  · intro f t' xs m hm
    simp only [List.mem_cons, Prod.mk.injEq] at hm
    rcases hm with ⟨_, hv⟩ | hm
    · cases hv
    · exact h'.frp f t' xs m hm
  · intro f v hm
    simp only [List.mem_cons, Prod.mk.injEq] at hm
    rcases hm with ⟨rfl, _⟩ | hm
    · have := h.uc f; simp only [un, cn_cons, id, if_true, pb] at this ⊢; omega
    · exact h'.keys f v hm

/-! ## Renaming -/

/-- The renaming changes on variables that are binders no more. -/
theorem Pre.subst (h : Pre K σ c us bs F s im Z) {σ' c' us' bs' F' im'} {A : List Var} (hm : Mono im im')
    (hσ : ∀ z, z ∉ A → σ' z = σ z) (hA : ∀ z ∈ A, 0 < cn id bs z + cn id (pb im s) z ∧ un bs im s Z (σ' z) = 0)
    (hA' : ∀ z ∈ A, un bs' im' s Z z = 0) (cnt : ∀ y, cn σ' us' y + cn σ' (pu im' s) y + K y ≤ c' y)
    (gone : ∀ f, im' f = true → c' f = 0) (hU : ∀ w, un bs' im' s Z w ≤ un bs im s Z w)
    (hB : ∀ w, cn id bs' w + cn id (pb im' s) w ≤ cn id bs w + cn id (pb im s) w)
    (fre : ∀ y, F' y → un bs' im' s Z y = 0) : Pre K σ' c' us' bs' F' s im' Z := by
  have hc : ∀ x t ys, (x, .con t ys) ∈ s → ∀ y ∈ ys, y ∉ A := by
    intro x t ys hx y hy hyA
    have h1 := (hA y hyA).1
    have h2 := (h.con x t ys hx y hy).2
    rw [h.ids y (by simp only [un]; omega)] at h2
    simp only [un] at h2; omega
  refine ⟨cnt, gone, ?_, fun w => (hU w).trans (h.uc w), fre, ?_, ?_, ?_, ?_, ?_⟩
  · intro x t ys hx y hy
    rw [hσ y (hc x t ys hx y hy)]
    obtain ⟨h1, h2⟩ := h.con x t ys hx y hy
    have := hU (σ y); exact ⟨h1, by omega⟩
  · intro f t xs m hf hi y hy hx
    have := h.frp f t xs m hf (hm.neg hi) y hy hx; have := hU y; omega
  · intro w hw; exact h.kz w (lt_of_lt_of_le hw (hB w))
  · intro w hw
    rw [hσ w (fun hwA => by have := hA' w hwA; omega)]
    exact h.ids w (lt_of_lt_of_le hw (hU w))
  · intro z hz
    by_cases hzA : z ∈ A
    · have := (hA z hzA).2; have := hU (σ' z); omega
    · rw [hσ z hzA] at hz ⊢; exact h.away z (lt_of_lt_of_le hz (hU _))
  · intro f v hf; have := h.keys f v hf; have := hU f; omega

/-- Occurrences in the known functions are not renamed. -/
theorem Pre.pendA (h : Pre K σ c us bs F s im Z) {im'} {bs' A : List Var} (hm : Mono im im')
    (hA : ∀ z ∈ A, 0 < cn id bs z + cn id (pb im s) z) (hA' : ∀ z ∈ A, un bs' im' s Z z = 0) :
    ∀ z ∈ pu im' s, z ∉ A := by
  intro z hz hzA
  obtain ⟨f, t, xs, m, h1, h2, h3⟩ := mem_pu hz
  have hp := pull_b (σ := id) (y := z) h2 h1
  have h4 := hA z hzA
  have h5 := hA' z hzA
  simp only [un] at h5
  by_cases hx : z ∈ xs
  · have := cn_mem.mpr hx; omega
  · rcases uses_scope m z h3 with h6 | h6
    · have := h.frp f t xs m h1 (hm.neg h2) z h6 hx
      simp only [un] at this; omega
    · have := cn_mem.mpr h6; omega

theorem pu_sub {im'} (hm : Mono im im') {z} (hz : z ∈ pu im' s) : z ∈ pu im s := by
  have := cn_mem.mpr hz
  have := hm.pu (σ := id) (y := z) (s := s)
  exact cn_mem.mp (by omega)

theorem Post.subst {σ' c₁ im₁ us' c' im'} (hp : Post K σ' c₁ s im₁ Z us' c' im') (hm : Mono im im₁)
    (hσ : ∀ z ∈ pu im₁ s, σ' z = σ z) (hc : ∀ y, c y = 0 → c₁ y = 0) : Post K σ c s im Z us' c' im' where
  mono := hm.trans hp.mono
  dead y hy := hp.dead y (hc y hy)
  gone := hp.gone
  cnt y := by rw [← cn_congr (σ := σ') fun z hz => hσ z (pu_sub hp.mono hz)]; exact hp.cnt y
  avoid := hp.avoid

/-- The facts survive the renaming. -/
theorem Pre.factsA (h : Pre K σ c us bs F s im Z) {σ' im'} {A : List Var} (hm : Mono im im')
    (hσ : ∀ z, z ∉ A → σ' z = σ z) (hA : ∀ z ∈ A, 0 < cn id bs z + cn id (pb im s) z) :
    ∀ y a, facts σ' im' s y = some a → ∃ a', facts σ im s y = some a' ∧ a'.Same a := by
  refine facts_weak hm (fun x t ys hx y hy => hσ y fun hyA => ?_) (fun f t xs m hf hi z hz hzx => hσ z fun hzA => ?_)
  · have h1 := hA y hyA
    have h2 := (h.con x t ys hx y hy).2
    rw [h.ids y (by simp only [un]; omega)] at h2
    simp only [un] at h2; omega
  · have := hA z hzA
    have := h.frp f t xs m hf hi z hz hzx
    simp only [un] at this; omega

/-- The projection of a known constructor. -/
theorem Pre.fold {v y yn : Var} {e : Exp} (h : Pre K σ c (y :: uses e) (v :: e.bv) F s im Z) (he : ∀ z ∈ e.fv, z ≠ v → F z)
    (hK : 0 < K (σ yn)) (hu : un (v :: e.bv) im s Z (σ yn) = 0) :
    Pre K (put σ v (σ yn)) (put (put (put c (σ y) (c (σ y) - 1)) (σ yn) (c v + c (σ yn))) v 0) (uses e) e.bv (· ∈ e.fv) s im Z ∧
    ∀ w, c w = 0 → put (put (put c (σ y) (c (σ y) - 1)) (σ yn) (c v + c (σ yn))) v 0 w = 0 := by
  have hv : 0 < cn id (v :: e.bv) v := by simp
  have huv : 0 < un (v :: e.bv) im s Z v := by simp only [un]; omega
  have hσv := h.ids v huv
  have hne : σ yn ≠ v := by intro he; rw [he] at hu; omega
  have hcn : 0 < c (σ yn) := by have := h.cnt (σ yn); omega
  have hzero : ∀ w, c w = 0 → put (put (put c (σ y) (c (σ y) - 1)) (σ yn) (c v + c (σ yn))) v 0 w = 0 := by
    intro w hw
    by_cases h1 : w = v
    · subst h1; exact Inl.put_self
    · rw [Inl.put_other h1]
      have h2 : w ≠ σ yn := by rintro rfl; omega
      rw [Inl.put_other h2]
      by_cases h3 : w = σ y
      · subst h3; rw [Inl.put_self]; omega
      · rw [Inl.put_other h3]; exact hw
  have hA' : ∀ z ∈ [v], un e.bv im s Z z = 0 := by
    intro z hz; simp only [List.mem_singleton] at hz; subst hz
    have := h.uc z; simp only [un, cn_cons, id, if_true] at this ⊢; omega
  have hA : ∀ z ∈ [v], 0 < cn id (v :: e.bv) z + cn id (pb im s) z := by
    intro z hz; simp only [List.mem_singleton] at hz; subst hz; omega
  have hσ : ∀ z, z ∉ [v] → put σ v (σ yn) z = σ z := by
    intro z hz; simp only [List.mem_singleton] at hz; exact Inl.put_other hz
  refine ⟨h.subst (A := [v]) (.refl _) hσ (fun z hz => ⟨hA z hz, ?_⟩) hA' (fun w => ?_) (fun f hf => hzero f (h.gone f hf))
    (fun w => by simp only [un, cn_cons]; omega) (fun w => by simp only [cn_cons]; omega) (fun z hz => ?_), hzero⟩
  · simp only [List.mem_singleton] at hz; subst hz; rw [Inl.put_self]; exact hu
  · rw [cn_congr (l := pu im s) fun z hz => hσ z (h.pendA (.refl _) hA hA' z hz)]
    have hc := h.cnt w
    rw [cn_cons] at hc
    have hp := cn_put (σ := σ) (v := v) (w := σ yn) (y := w) (l := uses e)
    rw [hσv] at hp
    by_cases h1 : w = v
    · subst h1
      rw [Inl.put_self]
      have hk := h.kz w (by omega)
      have hp0 := h.pend0 hv
      have : cn (put σ w (σ yn)) (uses e) w = 0 := by
        by_contra hn
        obtain ⟨z, hz, hzw⟩ := cn_pos.mp (Nat.pos_of_ne_zero hn)
        by_cases hzv : z = w
        · subst hzv; rw [Inl.put_self] at hzw; exact hne hzw
        · rw [Inl.put_other hzv] at hzw
          have := h.away z (by rw [hzw]; exact huv)
          exact hzv (this.symm.trans hzw)
      omega
    · rw [Inl.put_other h1]
      rw [if_neg (Ne.symm h1)] at hp
      by_cases h2 : w = σ yn
      · subst h2
        rw [Inl.put_self]
        have h3 := cn_fix hσv (l := uses e)
        have h4 := h.cnt v
        rw [cn_cons] at h4
        simp only [if_true] at hp
        omega
      · rw [Inl.put_other h2]
        rw [if_neg (Ne.symm h2)] at hp
        by_cases h3 : w = σ y
        · subst h3; rw [Inl.put_self]; simp only [if_true] at hc; omega
        · rw [Inl.put_other h3]; omega
  · by_cases hx : z = v
    · subst hx; exact hA' z (by simp)
    · have := h.fre z (he z hz hx); simp only [un, cn_cons] at this ⊢; omega

end

end Shr
end ANF
