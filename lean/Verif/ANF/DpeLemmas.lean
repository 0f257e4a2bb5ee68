import Verif.ANF.DpeModel
import Verif.ANF.Util

/-! # Dead parameter elimination: lemmas -/

namespace ANF

/-! ## Masks -/

theorem mem_liveArgs {α : Type} {x : α} : ∀ {xs : List α} {bs : List Bool} {i : Nat}, bs.length = xs.length →
    xs[i]? = some x → bs[i]? = some true → x ∈ liveArgs xs bs := by
  intro xs
  induction xs with
  | nil => intro bs i _ h; simp at h
  | cons y xs ih =>
    intro bs i hl h hb
    cases bs with
    | nil => simp at hb
    | cons b bs =>
      simp only [liveArgs]
      cases i with
      | zero =>
        simp at h hb; subst h; subst hb; simp
      | succ i =>
        have := ih (bs := bs) (i := i) (by simpa using hl) (by simpa using h) (by simpa using hb)
        split
        · exact List.mem_cons_of_mem _ this
        · exact this

theorem liveArgs_sublist {α : Type} : ∀ (xs : List α) (bs : List Bool), (liveArgs xs bs).Sublist xs
  | [], [] => by simp [liveArgs]
  | [], _ :: _ => by simp [liveArgs]
  | y :: ys, [] => by simp [liveArgs]
  | y :: ys, b :: bs => by
    simp only [liveArgs]
    split
    · exact (liveArgs_sublist ys bs).cons_cons y
    · exact (liveArgs_sublist ys bs).cons y

theorem getList_cons {ρ : Env} {y ys vs} : getList ρ (y :: ys) = some vs ↔
    ∃ v ws, vs = v :: ws ∧ ρ y = some v ∧ getList ρ ys = some ws := by
  simp only [getList]
  cases ρ y <;> cases getList ρ ys <;> simp [eq_comm]

theorem getList_liveArgs {ρ : Env} : ∀ {ys vs} (bs : List Bool), getList ρ ys = some vs →
    getList ρ (liveArgs ys bs) = some (liveArgs vs bs) := by
  intro ys
  induction ys with
  | nil => intro vs bs h; cases h; cases bs <;> rfl
  | cons y ys ih =>
    intro vs bs h
    obtain ⟨v, ws, rfl, hy, hys⟩ := getList_cons.mp h
    cases bs with
    | nil => exact h
    | cons b bs =>
      simp only [liveArgs]
      split
      · exact getList_cons.mpr ⟨v, _, rfl, hy, ih bs hys⟩
      · exact ih bs hys

theorem setLists_liveArgs {ρ : Env} : ∀ {xs vs ρ1} (bs : List Bool), xs.Nodup → setLists xs vs ρ = some ρ1 →
    ∃ ρs, setLists (liveArgs xs bs) (liveArgs vs bs) ρ = some ρs ∧ ∀ x ∈ liveArgs xs bs, ρs x = ρ1 x := by
  intro xs
  induction xs with
  | nil =>
    intro vs ρ1 bs _ h
    cases vs <;> simp [setLists] at h
    subst h
    cases bs <;> exact ⟨ρ, rfl, fun x hx => by simp [liveArgs] at hx⟩
  | cons x xs ih =>
    intro vs ρ1 bs hn h
    cases vs with
    | nil => simp [setLists] at h
    | cons v vs =>
      cases bs with
      | nil => exact ⟨ρ1, h, fun _ _ => rfl⟩
      | cons b bs =>
        simp only [setLists] at h
        rcases hs : setLists xs vs ρ with _ | ρ2 <;> simp only [hs] at h
        · cases h
        cases h
        simp only [List.nodup_cons] at hn
        obtain ⟨ρs, h1, h2⟩ := ih bs hn.2 hs
        have hx : ∀ y ∈ liveArgs xs bs, y ≠ x := by
          rintro y hy rfl; exact hn.1 ((liveArgs_sublist xs bs).subset hy)
        simp only [liveArgs]
        split
        · refine ⟨ρs.set x v, by simp only [setLists, h1], ?_⟩
          intro y hy
          rcases List.mem_cons.mp hy with rfl | hy
          · rw [set_self, set_self]
          · rw [set_other (hx y hy), set_other (hx y hy)]; exact h2 y hy
        · refine ⟨ρs, h1, ?_⟩
          intro y hy
          rw [set_other (hx y hy)]; exact h2 y hy

/-! ## Escaping variables -/

mutual
/-- Variables in positions where a function would escape. -/
def escVE : Exp → Finset Var
  | .app _ _ ys => ys.toFinset
  | .constr _ _ ys e => ys.toFinset ∪ escVE e
  | .proj _ _ _ y e => insert y (escVE e)
  | .letapp _ _ _ ys e => ys.toFinset ∪ escVE e
  | .case _ bs => escVBs bs
  | .halt x => {x}
  | .fn B e => escVB B ∪ escVE e
  | .primVal _ _ e => escVE e
  | .prim _ _ ys e => ys.toFinset ∪ escVE e
def escVBs : Brs → Finset Var
  | .nil => ∅
  | .cons _ e bs => escVE e ∪ escVBs bs
def escVB : Defs → Finset Var
  | .nil => ∅
  | .cons _ _ _ e B => escVE e ∪ escVB B
end

/-- Removing a set of variables. -/
def cut (s : Finset Var) (L : LiveFun) : LiveFun := fun x => if x ∈ s then none else L x

theorem cut_cut (s t : Finset Var) (L : LiveFun) : cut s (cut t L) = cut (t ∪ s) L := by
  funext x
  simp only [cut, Finset.mem_union]
  by_cases h1 : x ∈ s <;> by_cases h2 : x ∈ t <;> simp [h1, h2]

theorem removeEsc_eq (L : LiveFun) (f : Var) : removeEsc L f = cut {f} L := by
  funext x; simp [removeEsc, cut]

theorem removeEscs_eq : ∀ (fs : List Var) (L : LiveFun), removeEscs L fs = cut fs.toFinset L
  | [], L => by funext x; simp [removeEscs, cut]
  | f :: fs, L => by
    have := removeEscs_eq fs (removeEsc L f)
    rw [removeEsc_eq, cut_cut] at this
    rw [show removeEscs L (f :: fs) = removeEscs (removeEsc L f) fs from rfl, removeEsc_eq, this, List.toFinset_cons]
    rfl

mutual
theorem escE_eq : ∀ e L, escE e L = cut (escVE e) L
  | .app f ft ys, L => by simp only [escE, escVE, removeEscs_eq]
  | .constr x t ys e, L => by simp only [escE, escVE, removeEscs_eq, escE_eq e, cut_cut]
  | .proj x t n y e, L => by simp only [escE, escVE, removeEsc_eq, escE_eq e, cut_cut, Finset.singleton_union]
  | .letapp x f ft ys e, L => by simp only [escE, escVE, removeEscs_eq, escE_eq e, cut_cut]
  | .case x bs, L => by simp only [escE, escVE, escBs_eq bs]
  | .halt x, L => by simp only [escE, escVE, removeEsc_eq]
  | .fn B e, L => by simp only [escE, escVE, escE_eq e, escB_eq B, cut_cut]
  | .primVal x p e, L => by simp only [escE, escVE, escE_eq e]
  | .prim x p ys e, L => by simp only [escE, escVE, removeEscs_eq, escE_eq e, cut_cut]
theorem escBs_eq : ∀ bs L, escBs bs L = cut (escVBs bs) L
  | .nil, L => by funext x; simp [escBs, escVBs, cut]
  | .cons t e bs, L => by simp only [escBs, escVBs, escE_eq e, escBs_eq bs, cut_cut]
theorem escB_eq : ∀ B L, escB B L = cut (escVB B) L
  | .nil, L => by funext x; simp [escB, escVB, cut]
  | .cons f ft xs e B, L => by simp only [escB, escVB, escE_eq e, escB_eq B, cut_cut]
end

/-! ## Liveness covers the free variables of the reduced term -/

theorem addFunVars_sub (L : LiveFun) (f : Var) (xs : List Var) (s : Finset Var) : s ⊆ addFunVars L f xs s := by
  unfold addFunVars; cases L f <;> exact Finset.subset_union_left

mutual
theorem liveE_sub (L : LiveFun) : ∀ e s, s ⊆ liveE L e s
  | .constr x t ys e, s => by
    simp only [liveE]; exact Finset.subset_union_left.trans (liveE_sub L e _)
  | .proj x t n y e, s => by simp only [liveE]; exact (Finset.subset_insert _ _).trans (liveE_sub L e _)
  | .letapp x f ft ys e, s => by
    simp only [liveE]
    exact (Finset.subset_insert _ _).trans ((addFunVars_sub L f ys _).trans (liveE_sub L e _))
  | .case x bs, s => by simp only [liveE]; exact (liveBs_sub L bs s).trans (Finset.subset_insert _ _)
  | .halt x, s => by simp only [liveE]; exact Finset.subset_insert _ _
  | .app f ft ys, s => by simp only [liveE]; exact (Finset.subset_insert _ _).trans (addFunVars_sub L f ys _)
  | .fn B e, s => by simp only [liveE]; exact Finset.Subset.refl _
  | .primVal x p e, s => by simp only [liveE]; exact liveE_sub L e _
  | .prim x p ys e, s => by simp only [liveE]; exact Finset.subset_union_left.trans (liveE_sub L e _)
theorem liveBs_sub (L : LiveFun) : ∀ bs s, s ⊆ liveBs L bs s
  | .nil, s => by simp only [liveBs]; exact Finset.Subset.refl _
  | .cons t e bs, s => by simp only [liveBs]; exact (liveE_sub L e s).trans (liveBs_sub L bs _)
end

mutual
theorem fv_liveE (fmap : Var → Option Tag) (L : LiveFun) : ∀ e s, isHoistedE e = true →
    (elimE fmap L e).fv ⊆ liveE L e s
  | .constr x t ys e, s, h => by
    simp only [liveE, elimE, Exp.fv]
    refine Finset.union_subset (Finset.subset_union_right.trans (liveE_sub L e _)) ?_
    exact (Finset.erase_subset _ _).trans (fv_liveE fmap L e _ h)
  | .proj x t n y e, s, h => by
    simp only [liveE, elimE, Exp.fv]
    refine Finset.insert_subset (liveE_sub L e _ (Finset.mem_insert_self _ _)) ?_
    exact (Finset.erase_subset _ _).trans (fv_liveE fmap L e _ h)
  | .letapp x f ft ys e, s, h => by
    simp only [liveE, elimE]
    have hf : f ∈ liveE L e (addFunVars L f ys (insert f s)) :=
      liveE_sub L e _ (addFunVars_sub L f ys _ (Finset.mem_insert_self _ _))
    have hy := liveE_sub L e (addFunVars L f ys (insert f s))
    have he := fv_liveE fmap L e (addFunVars L f ys (insert f s)) h
    cases hL : L f with
    | none =>
      simp only [Exp.fv]
      refine Finset.insert_subset hf (Finset.union_subset ?_ ((Finset.erase_subset _ _).trans he))
      simp only [addFunVars, hL] at hy
      simp only [addFunVars, hL]
      exact Finset.subset_union_right.trans hy
    | some bs =>
      simp only [Exp.fv]
      refine Finset.insert_subset hf (Finset.union_subset ?_ ((Finset.erase_subset _ _).trans he))
      simp only [addFunVars, hL] at hy
      simp only [addFunVars, hL]
      exact Finset.subset_union_right.trans hy
  | .case x bs, s, h => by
    simp only [liveE, elimE, Exp.fv]
    exact Finset.insert_subset_insert _ (fv_liveBs fmap L bs s h)
  | .halt x, s, h => by simp [liveE, elimE, Exp.fv]
  | .app f ft ys, s, h => by
    simp only [liveE, elimE, addFunVars]
    cases hL : L f with
    | none => simp only [Exp.fv]; intro z hz; simp at hz ⊢; tauto
    | some bs => simp only [Exp.fv]; intro z hz; simp at hz ⊢; tauto
  | .fn B e, s, h => by simp [isHoistedE] at h
  | .primVal x p e, s, h => by
    simp only [liveE, elimE, Exp.fv]
    exact (Finset.erase_subset _ _).trans (fv_liveE fmap L e _ h)
  | .prim x p ys e, s, h => by
    simp only [liveE, elimE, Exp.fv]
    refine Finset.union_subset (Finset.subset_union_right.trans (liveE_sub L e _)) ?_
    exact (Finset.erase_subset _ _).trans (fv_liveE fmap L e _ h)
theorem fv_liveBs (fmap : Var → Option Tag) (L : LiveFun) : ∀ bs s, isHoistedBs bs = true →
    (elimBs fmap L bs).fv ⊆ liveBs L bs s
  | .nil, s, h => by simp [liveBs, elimBs, Brs.fv]
  | .cons t e bs, s, h => by
    simp only [isHoistedBs, Bool.and_eq_true] at h
    simp only [liveBs, elimBs, Brs.fv]
    exact Finset.union_subset ((fv_liveE fmap L e s h.1).trans (liveBs_sub L bs _)) (fv_liveBs fmap L bs _ h.2)
end

/-! ## The analysis reaches a fixed point -/

/-- Number of parameters still considered dead. -/
def falses (o : Option (List Bool)) : Nat := (o.getD []).count false

theorem updateBs_spec (s : Finset Var) : ∀ (xs : List Var) (bs : List Bool),
    (updateBs s xs bs).1.length = bs.length ∧
    ((updateBs s xs bs).2 = false → (updateBs s xs bs).1 = bs ∧
      ∀ (i : Nat) x, xs[i]? = some x → bs[i]? = some false → x ∉ s) ∧
    ((updateBs s xs bs).2 = true → (updateBs s xs bs).1.count false < bs.count false)
  | [], bs => by cases bs <;> simp [updateBs]
  | x :: xs, [] => by simp [updateBs]
  | x :: xs, b :: bs => by
    obtain ⟨h1, h2, h3⟩ := updateBs_spec s xs bs
    simp only [updateBs]
    rcases hu : updateBs s xs bs with ⟨bs', d⟩
    rw [hu] at h1 h2 h3
    simp only at h1 h2 h3
    cases b with
    | true =>
      simp only [if_true]
      refine ⟨by simp [h1], ?_, ?_⟩
      · intro hd
        obtain ⟨e1, e2⟩ := h2 hd
        refine ⟨by rw [e1], ?_⟩
        intro i y hy hb
        cases i with
        | zero => simp at hb
        | succ i => exact e2 i y (by simpa using hy) (by simpa using hb)
      · intro hd
        simpa using h3 hd
    | false =>
      simp only [Bool.false_eq_true, if_false]
      by_cases hx : x ∈ s
      · simp only [hx, decide_true]
        refine ⟨by simp [h1], by simp, ?_⟩
        intro _
        have hle : bs'.count false ≤ bs.count false := by
          cases d with
          | false => rw [(h2 rfl).1]
          | true => exact Nat.le_of_lt (h3 rfl)
        simp
        omega
      · simp only [hx, decide_false]
        refine ⟨by simp [h1], ?_, ?_⟩
        · intro hd
          have hd' : d = false := by simpa using hd
          obtain ⟨e1, e2⟩ := h2 hd'
          refine ⟨by rw [e1], ?_⟩
          intro i y hy hb
          cases i with
          | zero => simp at hy; subst hy; exact hx
          | succ i => exact e2 i y (by simpa using hy) (by simpa using hb)
        · intro hd
          have hd' : d = true := by simpa using hd
          have := h3 hd'
          simp
          omega

/-- Total over a list of functions. -/
def total (fs : List Var) (L : LiveFun) : Nat := (fs.map fun f => falses (L f)).sum

theorem total_update {fs : List Var} {L : LiveFun} {f : Var} {bs : Option (List Bool)}
    (h : falses bs ≤ falses (L f)) : total fs (fun g => if g = f then bs else L g) ≤ total fs L := by
  induction fs with
  | nil => simp [total]
  | cons g fs ih =>
    simp only [total, List.map, List.sum_cons] at ih ⊢
    by_cases hg : g = f
    · subst hg; simp only [if_true]; omega
    · simp only [hg, if_false]; omega

theorem total_update_lt {fs : List Var} {L : LiveFun} {f : Var} {bs : Option (List Bool)}
    (h : falses bs < falses (L f)) (hf : f ∈ fs) : total fs (fun g => if g = f then bs else L g) < total fs L := by
  induction fs with
  | nil => cases hf
  | cons g fs ih =>
    have hle := total_update (fs := fs) (Nat.le_of_lt h)
    simp only [total, List.map, List.sum_cons] at ih hle ⊢
    by_cases hg : g = f
    · subst hg; simp only [if_true]; omega
    · have := ih (by simpa [Ne.symm hg] using hf)
      simp only [hg, if_false]; omega

/-- The masks in `L` fit the definitions of `B`. -/
def Fits (B : Defs) (L : LiveFun) : Prop :=
  ∀ f bs, L f = some bs → ∃ ft xs e, findDef f B = some (ft, xs, e) ∧ bs.length = xs.length

/-- `L` is a fixed point for the definitions of a bundle. -/
def StableAt (L : LiveFun) (B : Defs) : Prop :=
  ∀ f ft xs e, (f, ft, xs, e) ∈ B.toList → ∀ bs, L f = some bs →
    ∀ (i : Nat) x, xs[i]? = some x → bs[i]? = some false → x ∉ liveE L e ∅

/-- `L'` is `L` up to the values of masks of the same length. -/
def SameDom (L L' : LiveFun) : Prop :=
  ∀ f, (L f = none ↔ L' f = none) ∧ ∀ bs bs', L f = some bs → L' f = some bs' → bs.length = bs'.length

theorem SameDom.refl (L : LiveFun) : SameDom L L :=
  fun f => ⟨Iff.rfl, fun bs bs' h h' => by rw [h] at h'; cases h'; rfl⟩

theorem SameDom.trans {L1 L2 L3 : LiveFun} (h : SameDom L1 L2) (h' : SameDom L2 L3) : SameDom L1 L3 := by
  intro f
  refine ⟨(h f).1.trans (h' f).1, ?_⟩
  intro bs bs' a b
  rcases hm : L2 f with _ | c
  · rw [(h f).1.mpr hm] at a; cases a
  · rw [(h f).2 bs c a hm, (h' f).2 c bs' hm b]

theorem updateLive_spec (L : LiveFun) (f : Var) (xs : List Var) (s : Finset Var) (fs : List Var) (hf : f ∈ fs) :
    SameDom L (updateLive L f xs s).1 ∧
    ((updateLive L f xs s).2 = false → (updateLive L f xs s).1 = L ∧ ∀ bs, L f = some bs →
      ∀ (i : Nat) x, xs[i]? = some x → bs[i]? = some false → x ∉ s) ∧
    ((updateLive L f xs s).2 = true → total fs (updateLive L f xs s).1 < total fs L) := by
  unfold updateLive
  rcases hL : L f with _ | bs
  · refine ⟨SameDom.refl L, fun _ => ⟨rfl, fun bs h => by cases h⟩, fun h => by cases h⟩
  · obtain ⟨h1, h2, h3⟩ := updateBs_spec s xs bs
    rcases hu : updateBs s xs bs with ⟨bs', d⟩
    rw [hu] at h1 h2 h3
    simp only at h1 h2 h3
    simp only [hu]
    cases d with
    | false =>
      rw [if_neg Bool.false_ne_true]
      refine ⟨SameDom.refl L, fun _ => ⟨rfl, ?_⟩, fun h => by cases h⟩
      intro b hb i x hx hi
      cases hb
      exact (h2 rfl).2 i x hx hi
    | true =>
      rw [if_pos rfl]
      refine ⟨?_, fun h => (by cases h), fun _ => ?_⟩
      · intro g
        dsimp only
        by_cases hg : g = f
        · subst hg
          rw [if_pos rfl, hL]
          refine ⟨by simp, ?_⟩
          intro a b ha hb
          cases ha; cases hb; exact h1.symm
        · rw [if_neg hg]; exact SameDom.refl L g
      · refine total_update_lt ?_ hf
        rw [hL]
        simpa [falses] using h3 rfl

theorem live_spec (fs : List Var) : ∀ (B : Defs) (L : LiveFun) (d : Bool), (∀ f ∈ B.names, f ∈ fs) →
    SameDom L (live B L d).1 ∧
    ((live B L d).2 = false → d = false ∧ (live B L d).1 = L ∧ StableAt L B) ∧
    total fs (live B L d).1 ≤ total fs L ∧
    ((live B L d).2 = true → d = true ∨ total fs (live B L d).1 < total fs L) := by
  intro B
  induction B using Defs.ind with
  | nil =>
    intro L d _
    simp only [live]
    exact ⟨SameDom.refl L, fun h => ⟨h, by trivial, fun f ft xs e h => by simp [Defs.toList] at h⟩, Nat.le_refl _,
      fun h => .inl h⟩
  | cons f ft xs e B ih =>
    intro L d hfs
    obtain ⟨u1, u2, u3⟩ := updateLive_spec L f xs (liveE L e ∅) fs (hfs f (by simp [Defs.names]))
    simp only [live]
    rcases hu : updateLive L f xs (liveE L e ∅) with ⟨L', d'⟩
    rw [hu] at u1 u2 u3
    simp only at u1 u2 u3
    obtain ⟨i1, i2, i3, i4⟩ := ih L' (d' || d) (fun g hg => hfs g (by simp [Defs.names, hg]))
    have hle : total fs L' ≤ total fs L := by
      cases d' with
      | false => rw [(u2 rfl).1]
      | true => exact Nat.le_of_lt (u3 rfl)
    refine ⟨u1.trans i1, ?_, i3.trans hle, ?_⟩
    · intro h
      obtain ⟨hd, hL, hst⟩ := i2 h
      simp only [Bool.or_eq_false_iff] at hd
      obtain ⟨e1, e2⟩ := u2 hd.1
      refine ⟨hd.2, hL.trans e1, ?_⟩
      rw [e1] at hst
      intro g gt ys eg hmem
      simp only [Defs.toList, List.mem_cons] at hmem
      rcases hmem with hmem | hmem
      · cases hmem; exact e2
      · exact hst g gt ys eg hmem
    · intro h
      rcases i4 h with h | h
      · rcases Bool.or_eq_true_iff.mp h with h | h
        · exact .inr (Nat.lt_of_le_of_lt i3 (u3 h))
        · exact .inl h
      · exact .inr (Nat.lt_of_lt_of_le h hle)

theorem findLiveHelper_spec (B : Defs) : ∀ (n : Nat) (L : LiveFun), total B.names L < n →
    SameDom L (findLiveHelper B L n) ∧ StableAt (findLiveHelper B L n) B := by
  intro n
  induction n with
  | zero => intro L h; omega
  | succ n ih =>
    intro L h
    obtain ⟨l1, l2, l3, l4⟩ := live_spec B.names B L false (fun _ h => h)
    simp only [findLiveHelper]
    rcases hl : live B L false with ⟨L', d⟩
    rw [hl] at l1 l2 l3 l4
    simp only at l1 l2 l3 l4
    cases d with
    | false =>
      simp only [Bool.false_eq_true, if_false]
      obtain ⟨_, e, hs⟩ := l2 rfl
      subst e
      exact ⟨l1, hs⟩
    | true =>
      simp only [if_true]
      have hlt : total B.names L' < total B.names L := by
        rcases l4 rfl with h | h
        · cases h
        · exact h
      obtain ⟨a, b⟩ := ih L' (by omega)
      exact ⟨l1.trans a, b⟩

theorem numVars_eq : ∀ (B : Defs) n, numVars B n = n + (B.toList.map fun d => d.2.2.1.length).sum := by
  intro B
  induction B using Defs.ind with
  | nil => intro n; simp [numVars, Defs.toList]
  | cons f ft xs e B ih => intro n; simp only [numVars, Defs.toList, List.map, List.sum_cons, ih]; omega

theorem initLive_not_mem : ∀ (B : Defs) (m : LiveFun) f, f ∉ B.names → initLive m B f = m f := by
  intro B
  induction B using Defs.ind with
  | nil => intro m f _; rfl
  | cons g gt ys e B ih =>
    intro m f hf
    simp only [Defs.names, List.mem_cons, not_or] at hf
    simp only [initLive]
    rw [ih _ f hf.2]
    simp [hf.1]

theorem initLive_mem : ∀ (B : Defs) (m : LiveFun), B.names.Nodup → ∀ f ft xs e, (f, ft, xs, e) ∈ B.toList →
    initLive m B f = some (xs.map fun _ => false) := by
  intro B
  induction B using Defs.ind with
  | nil => intro m _ f ft xs e h; simp [Defs.toList] at h
  | cons g gt ys e' B ih =>
    intro m hn f ft xs e h
    simp only [Defs.names, List.nodup_cons] at hn
    simp only [Defs.toList, List.mem_cons] at h
    simp only [initLive]
    rcases h with h | h
    · cases h
      rw [initLive_not_mem B _ g hn.1]
      simp
    · exact ih _ hn.2 f ft xs e h

theorem total_le_numVars (B : Defs) (hn : B.names.Nodup) (s : Finset Var) :
    total B.names (cut s (initLive (fun _ => none) B)) ≤ numVars B 0 := by
  rw [numVars_eq, Nat.zero_add]
  have key : ∀ l : List (Var × Tag × List Var × Exp), (∀ d ∈ l, d ∈ B.toList) →
      ((l.map (·.1)).map fun f => falses (cut s (initLive (fun _ => none) B) f)).sum ≤
        (l.map fun d => d.2.2.1.length).sum := by
    intro l
    induction l with
    | nil => intro _; simp
    | cons d l ih =>
      intro h
      have h1 := ih (fun d' hd' => h d' (List.mem_cons_of_mem _ hd'))
      have h2 : falses (cut s (initLive (fun _ => none) B) d.1) ≤ d.2.2.1.length := by
        obtain ⟨f, ft, xs, e⟩ := d
        have := initLive_mem B (fun _ => none) hn f ft xs e (h _ (by simp))
        simp only [cut]
        split
        · simp [falses]
        · rw [this]
          simp only [falses, Option.getD_some]
          exact (List.count_le_length).trans (by simp)
      simp only [List.map, List.sum_cons] at h1 ⊢
      omega
  have := key B.toList (fun d h => h)
  rw [← names_toList] at this
  exact this

/-- The analysis result: masks fit the definitions, escaping functions have none, and it is a fixed point. -/
theorem findLive_spec (B : Defs) (e : Exp) (hn : B.names.Nodup) : Fits B (findLive B e) ∧
    (∀ y, y ∈ escVB B ∪ escVE e → findLive B e y = none) ∧ StableAt (findLive B e) B := by
  unfold findLive
  rw [escE_eq, escB_eq, cut_cut]
  generalize hL : cut (escVB B ∪ escVE e) (initLive (fun _ => none) B) = L
  have ht : total B.names L < numVars B 0 + 1 := by
    have := total_le_numVars B hn (escVB B ∪ escVE e)
    rw [hL] at this
    omega
  obtain ⟨h1, h2⟩ := findLiveHelper_spec B _ L ht
  have hinit : ∀ f bs, L f = some bs → ∃ ft xs e, findDef f B = some (ft, xs, e) ∧ bs.length = xs.length := by
    intro f bs hf
    rw [← hL] at hf
    simp only [cut] at hf
    split at hf
    · cases hf
    · by_cases hm : f ∈ B.names
      · obtain ⟨⟨ft, xs, e⟩, hr⟩ := findDef_some hm
        rw [initLive_mem B _ hn f ft xs e (mem_of_findDef hr)] at hf
        cases hf
        exact ⟨ft, xs, e, hr, by simp⟩
      · rw [initLive_not_mem B _ f hm] at hf; cases hf
  refine ⟨?_, ?_, h2⟩
  · intro f bs hf
    rcases hLf : L f with _ | bs0
    · rw [(h1 f).1.mp hLf] at hf; cases hf
    · obtain ⟨ft, xs, e, a, b⟩ := hinit f bs0 hLf
      exact ⟨ft, xs, e, a, by rw [← (h1 f).2 bs0 bs hLf hf]; exact b⟩
  · intro y hy
    refine (h1 y).1.mp ?_
    rw [← hL]
    simp [cut, hy]

end ANF
