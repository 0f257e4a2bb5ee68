import Verif.ANF.ShrWf
import Verif.ANF.InlProps

/-!
# C41, C43: shrink reduction
-/

namespace ANF
open Shr

mutual
theorem tsize_eq : ∀ e : Exp, tsize e = Inl.sizeE e
  | .constr _ _ _ e => by simp only [tsize, Inl.sizeE, tsize_eq e]
  | .case _ bs => by simp only [tsize, Inl.sizeE, tsizeB_eq bs]
  | .proj _ _ _ _ e => by simp only [tsize, Inl.sizeE, tsize_eq e]
  | .letapp _ _ _ _ e => by simp only [tsize, Inl.sizeE, tsize_eq e]
  | .app _ _ _ => rfl
  | .primVal _ _ e => by simp only [tsize, Inl.sizeE, tsize_eq e]
  | .prim _ _ _ e => by simp only [tsize, Inl.sizeE, tsize_eq e]
  | .fn B e => by simp only [tsize, Inl.sizeE, tsize_eq e, tsizeD_eq B]
  | .halt _ => rfl
theorem tsizeB_eq : ∀ bs : Brs, tsizeB bs = Inl.sizeB bs
  | .nil => rfl
  | .cons _ e bs => by simp only [tsizeB, Inl.sizeB, tsize_eq e, tsizeB_eq bs]
theorem tsizeD_eq : ∀ B : Defs, tsizeD B = Inl.sizeD B
  | .nil => rfl
  | .cons _ _ _ e B => by simp only [tsizeD, Inl.sizeD, tsize_eq e, tsizeD_eq B]
end

/-- C41: the shrink reducer returns a program (the measure bounds its recursion), and that program does what the argument
does. -/
theorem C41_shrink (S : Sig) {e : Exp} (hc : e.fv = ∅) (hb : e.bv.Nodup) :
    ∃ e' n, shrinkTop e = some (e', n) ∧ Preserves S e S e' := by
  obtain ⟨e', n, h, ⟨d, hs⟩, hn, _, _⟩ := shrink_spec hc hb
  refine ⟨e', n, h, preserves_of_SE hs hc (Finset.eq_empty_of_forall_notMem fun y hy => ?_)⟩
  rcases hs.free hn y hy with ⟨z, hz, _⟩ | ⟨_, _, h, _⟩
  · simp [hc] at hz
  · cases h

/-- C41: programs that return first-order data return the same data. -/
theorem C41_data (S : Sig) {e e' : Exp} {n : Nat} (hc : e.fv = ∅) (hb : e.bv.Nodup) (h : shrinkTop e = some (e', n)) {v : FO}
    (hr : Returns S emp e v.toVal) : Returns S emp e' v.toVal := by
  obtain ⟨e₁, n₁, h₁, hp⟩ := C41_shrink S hc hb
  rw [h] at h₁; cases h₁
  exact hp.data hr

/-- C41: the program does not grow, in constructs or in binders. -/
theorem C41_size {e e' : Exp} {n : Nat} (hc : e.fv = ∅) (hb : e.bv.Nodup) (h : shrinkTop e = some (e', n)) :
    Inl.sizeE e' ≤ Inl.sizeE e ∧ e'.bv.length ≤ e.bv.length := by
  obtain ⟨e₁, n₁, h₁, _, hn, hsub, hz⟩ := shrink_spec hc hb
  rw [h] at h₁; cases h₁
  rw [← tsize_eq, ← tsize_eq]
  exact ⟨hz, (List.subperm_of_subset hn hsub).length_le⟩

/-- C43: shrinking makes no names: binders are binders of the program and stay distinct, no variable becomes free and no tag
is matched on that was not. -/
theorem C43_shrink {e e' : Exp} {n : Nat} (hc : e.fv = ∅) (hb : e.bv.Nodup) (h : shrinkTop e = some (e', n)) :
    e'.bv.Nodup ∧ (∀ x ∈ e'.bv, x ∈ e.bv) ∧ e'.fv = ∅ ∧ ∀ t ∈ e'.caseTags, t ∈ e.caseTags := by
  obtain ⟨e₁, n₁, h₁, ⟨d, hs⟩, hn, hsub, _⟩ := shrink_spec hc hb
  rw [h] at h₁; cases h₁
  refine ⟨hn, hsub, Finset.eq_empty_of_forall_notMem fun y hy => ?_, hs.tagged hn (by intro _ _ _ _ _ h; cases h) fun _ h => h⟩
  rcases hs.free hn y hy with ⟨z, hz, _⟩ | ⟨_, _, h, _⟩
  · simp [hc] at hz
  · cases h

/-- The invariant of repeated shrinking: the census may count too much, not too little. -/
theorem times_spec (S : Sig) : ∀ (n : Nat) {e : Exp} {c : Count}, e.fv = ∅ → e.bv.Nodup → (∀ y, cn id (uses e) y ≤ c y) →
    ∃ e' c', shrinkTimes' n e c = some (e', c') ∧ Preserves S e S e' ∧ e'.fv = ∅ ∧ e'.bv.Nodup ∧ tsize e' ≤ tsize e
  | 0, e, c, hc, hb, _ => ⟨e, c, rfl, .refl S e, hc, hb, le_rfl⟩
  | n + 1, e, c, hc, hb, hu => by
    have hz : subSize (fun _ => false) [] = 0 := rfl
    obtain ⟨r, hr⟩ := contract_total (tsize e + 1) id c e [] (fun _ => false) (by rw [hz]; omega)
    have hm := contract_massive _ _ _ _ _ _ _ hr
    have hp : Pre (fun _ => 0) id c (uses e) e.bv (· ∈ e.fv) [] (fun _ => false) [] :=
      { start hc hb with
        cnt := fun y => by simpa [pu] using hu y
        gone := fun f hf => by cases hf }
    obtain ⟨o, d, hs⟩ := contract_good _ _ _ _ _ _ _ _ _ hr hp
    have hn : r.out.bv.Nodup := by
      rw [nodup_cn] at hb ⊢
      intro w; have := hb w; have := hm.bvs w; simp only [pb, cn_nil] at this; omega
    have hf : r.out.fv = ∅ := Finset.eq_empty_of_forall_notMem fun y hy => by
      rcases hs.free hn y hy with ⟨z, hz, _⟩ | ⟨_, _, h, _⟩
      · simp [hc] at hz
      · cases h
    obtain ⟨e', c', h1, h2, h3, h4, h5⟩ := times_spec S n hf hn (fun y => by have := o.cnt y; simp only [pu, cn_nil] at this; omega)
    have := hm.size
    simp only [subSize] at this
    refine ⟨e', c', ?_, (preserves_of_SE hs hc hf).trans h2, h3, h4, by omega⟩
    rw [shrinkTimes', hr]; exact h1

/-- C41: any number of passes in a row, with the census that the previous pass left. -/
theorem C41_times (S : Sig) (n : Nat) {e : Exp} (hc : e.fv = ∅) (hb : e.bv.Nodup) :
    ∃ e', shrinkTimes e n = some e' ∧ Preserves S e S e' ∧ e'.fv = ∅ ∧ e'.bv.Nodup ∧ Inl.sizeE e' ≤ Inl.sizeE e := by
  obtain ⟨e', c', h1, h2, h3, h4, h5⟩ := times_spec S n hc hb (c := initCensus e) fun y => by rw [initCensus_eq]
  rw [tsize_eq, tsize_eq] at h5
  exact ⟨e', by rw [shrinkTimes, h1]; rfl, h2, h3, h4, h5⟩

/-- C39, C41, C43: the loop that alternates inlining and shrinking returns a program that does the same, is closed, has
distinct binders below the next name and matches on no new tag. -/
theorem loop_spec {St : Type} (S : Sig) (H : Inl.Heur St) (maxVar : Var) (d : Nat) (s : St) : ∀ (n : Nat) {e : Exp} (c : Comp),
    e.fv = ∅ → e.bv.Nodup → (∀ x ∈ e.bv, x < c.next) →
    ∃ e' c', inlineLoop H maxVar d s n e c = some (e', c') ∧ Preserves S e S e' ∧ e'.fv = ∅ ∧ e'.bv.Nodup ∧
      (∀ x ∈ e'.bv, x < c'.next) ∧ (∀ t ∈ e'.caseTags, t ∈ e.caseTags) ∧ c' = { c with next := c'.next }
  | 0, e, c, hc, hb, hn => ⟨e, c, rfl, .refl S e, hc, hb, hn, fun _ h => h, rfl⟩
  | n + 1, e, c, hc, hb, hn => by
    obtain ⟨i1, i2, i3, i4⟩ := C43_inline H maxVar d s c hc hb
    have ip := C39_any_heuristic S H maxVar d s c hc hb
    obtain ⟨e₁, k, h1, p1⟩ := C41_shrink S i3 i1
    obtain ⟨s1, s2, s3, s4⟩ := C43_shrink i3 i1 h1
    have e1 : (Inl.inlineTop' H maxVar d s e c).1 = (Inl.inlineTop H maxVar d s e c).1 := rfl
    have e2 : (Inl.inlineTop' H maxVar d s e c).2.1 = (Inl.inlineTop H maxVar d s e c).2 := rfl
    have e3 : (Inl.inlineTop H maxVar d s e c).2 = { c with next := (Inl.inlineTop H maxVar d s e c).2.next } := rfl
    have lt : ∀ x ∈ e₁.bv, x < (Inl.inlineTop H maxVar d s e c).2.next := fun x hx => (i2 x (s2 x hx)).2
    rw [inlineLoop]
    simp only [e1, e2, h1]
    split
    · obtain ⟨e', c', r1, r2, r3, r4, r5, r6, r7⟩ := loop_spec S H maxVar d s n (Inl.inlineTop H maxVar d s e c).2 s3 s1 lt
      refine ⟨e', c', r1, (ip.trans p1).trans r2, r3, r4, r5, fun t ht => i4 t (s4 t (r6 t ht)), ?_⟩
      rw [r7, e3]
    · exact ⟨_, _, rfl, ip.trans p1, s3, s1, lt, fun t ht => i4 t (s4 t ht), e3⟩

/-- C41: the loop of inlining and shrinking preserves results, for any heuristic and any number of rounds. -/
theorem C41_loop {St : Type} (S : Sig) (H : Inl.Heur St) (maxVar : Var) (d : Nat) (s : St) (n : Nat) {e : Exp} (c : Comp)
    (hc : e.fv = ∅) (hb : e.bv.Nodup) (hn : ∀ x ∈ e.bv, x < c.next) :
    ∃ e' c', inlineLoop H maxVar d s n e c = some (e', c') ∧ Preserves S e S e' := by
  obtain ⟨e', c', h1, h2, _⟩ := loop_spec S H maxVar d s n c hc hb hn
  exact ⟨e', c', h1, h2⟩

/-- C43: names after the loop of inlining and shrinking. -/
theorem C43_loop {St : Type} (H : Inl.Heur St) (maxVar : Var) (d : Nat) (s : St) (n : Nat) {e e' : Exp} {c c' : Comp}
    (hc : e.fv = ∅) (hb : e.bv.Nodup) (hn : ∀ x ∈ e.bv, x < c.next) (h : inlineLoop H maxVar d s n e c = some (e', c')) :
    e'.fv = ∅ ∧ e'.bv.Nodup ∧ (∀ x ∈ e'.bv, x < c'.next) ∧ ∀ t ∈ e'.caseTags, t ∈ e.caseTags := by
  obtain ⟨e₁, c₁, h1, _, h3, h4, h5, h6, _⟩ := loop_spec demoSig H maxVar d s n c hc hb hn
  rw [h] at h1; cases h1
  exact ⟨h3, h4, h5, h6⟩

/-! ## The statements are about real programs -/

/-- A known constructor is matched on and projected, `10` is called once and inlined, `12` stays since it is used twice and
`16` is not used at all. -/
def shrDemo : Exp :=
  .constr 20 1 [] (.constr 21 2 [20] (.fn (.cons 10 3 [11] (.proj 14 2 0 11 (.constr 15 2 [11] (.app 12 3 [15])))
    (.cons 12 3 [13] (.constr 17 2 [13] (.halt 17)) (.cons 16 3 [18] (.app 12 3 [18]) .nil)))
    (.case 21 (.cons 1 (.halt 20) (.cons 2 (.proj 22 2 0 21 (.letapp 23 12 3 [22] (.app 10 3 [23]))) .nil)))))

example : shrDemo.fv = ∅ ∧ shrDemo.bv.Nodup := ⟨by decide, by decide⟩

/-- The program returns `2(2(2(1)))`: the projections and the match disappear, `10` is inlined and `16` removed. -/
example : Returns demoSig emp shrDemo (FO.con 2 [.con 2 [.con 2 [.con 1 []]]]).toVal := ⟨5, rfl⟩

example : ((shrinkTop shrDemo).map fun r => (r.1.bv, Inl.sizeE r.1)) = some ([20, 12, 13, 17, 23, 15], 9) := by decide +kernel

example : Inl.sizeE shrDemo = 18 := by decide +kernel

end ANF
