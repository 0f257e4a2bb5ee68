import Verif.ANF.ShrInv

/-!
# Shrink reduction: the census invariant at an inlined call
-/

namespace ANF
namespace Shr
open Ll (put)
open Inl (Ctx inlineLet sets)

section
variable {K : Var → Nat} {σ : Var → Var} {c : Count} {us bs : List Var} {F : Var → Prop} {s : Sub} {im : Var → Bool}
  {Z : List Var}

/-- The state after a call of a function that is used once. -/
structure Called (K : Var → Nat) (σ : Var → Var) (c : Count) (f : Var) (ys R bs : List Var) (s : Sub) (im : Var → Bool)
    (Z xs : List Var) (m : Exp) : Prop where
  nodup : xs.Nodup
  par : ∀ z ∈ xs, 0 < cn id (pb im s) z ∧ un bs im s Z (sets xs (ys.map σ) σ z) = 0
  out : ∀ z ∈ xs, cn id m.bv z + cn id (pb (put im (σ f) true) s) z + cn id bs z + cn id Z z = 0
  cnt : ∀ y, y ∉ xs → cn (sets xs (ys.map σ) σ) (uses m) y + cn σ R y + cn σ (pu (put im (σ f) true) s) y + K y ≤
    countInl (ys.map σ) xs (put c (σ f) 0) y
  zero : ∀ y ∈ xs, cn (sets xs (ys.map σ) σ) (uses m) y = 0 ∧ cn σ (pu (put im (σ f) true) s) y = 0 ∧ K y = 0
  dead : ∀ y, c y = 0 → countInl (ys.map σ) xs (put c (σ f) 0) y = 0
  gone : ∀ g, put im (σ f) true g = true → countInl (ys.map σ) xs (put c (σ f) 0) g = 0
  once : cn σ (uses m) (σ f) = 0 ∧ σ f ∉ ys.map σ

theorem Pre.called {f : Var} {ys R xs : List Var} {t : Tag} {m : Exp} (h : Pre K σ c (f :: (ys ++ R)) bs F s im Z)
    (hys : ∀ y ∈ ys, F y) (hg : (σ f, .fn t xs m) ∈ s) (hi : im (σ f) = false) (hc : c (σ f) = 1)
    (hl : ys.length = xs.length) : Called K σ c f ys R bs s im Z xs m := by
  have hpb := fun w => pull_b (σ := id) (y := w) hi hg
  have hpu := fun w => pull_u (σ := σ) (y := w) hi hg
  have hle : xs.length = (ys.map σ).length := by simp [hl]
  have hxp : ∀ z ∈ xs, 0 < cn id (pb im s) z := fun z hz => by have := cn_mem.mpr hz; have := hpb z; omega
  have hxu : ∀ z ∈ xs, 0 < un bs im s Z z := fun z hz => by have := hxp z hz; simp only [un]; omega
  have hyu : ∀ z ∈ ys.map σ, un bs im s Z z = 0 := by
    intro z hz
    obtain ⟨y, hy, rfl⟩ := List.mem_map.mp hz
    exact h.use (hys y hy)
  have hd : ∀ z ∈ xs, z ∉ ys.map σ := fun z hz hzy => by have := hxu z hz; have := hyu z hzy; omega
  have hn : xs.Nodup := nodup_cn.mpr fun w => by
    have := hpb w; have := h.uc w; simp only [un] at this; omega
  have hout : ∀ z ∈ xs, cn id m.bv z + cn id (pb (put im (σ f) true) s) z + cn id bs z + cn id Z z = 0 := by
    intro z hz
    have := cn_mem.mpr hz; have := hpb z; have := h.uc z; simp only [un] at this; omega
  have hpar : ∀ z ∈ xs, un bs im s Z (sets xs (ys.map σ) σ z) = 0 := fun z hz => hyu _ (Inl.sets_in hz hle)
  have hfu : un bs im s Z (σ f) = 0 := h.keys _ _ hg
  have hcf := h.cnt (σ f)
  have hpf := hpu (σ f)
  simp only [cn_cons, cn_append, if_true] at hcf
  have hf0 : cn σ (uses m) (σ f) = 0 := by omega
  have hfy : σ f ∉ ys.map σ := by
    intro hm
    obtain ⟨y, hy, he⟩ := List.mem_map.mp hm
    have := cn_pos.mpr ⟨y, hy, he⟩; omega
  have hdead : ∀ y, c y = 0 → countInl (ys.map σ) xs (put c (σ f) 0) y = 0 := by
    intro y hy
    have h1 : y ∉ ys.map σ := by
      intro hm
      obtain ⟨w, hw, rfl⟩ := List.mem_map.mp hm
      have := cn_pos.mpr (⟨w, hw, rfl⟩ : ∃ u ∈ ys, σ u = σ w)
      have := h.cnt (σ w); simp only [cn_cons, cn_append] at this; omega
    have h2 := countInl_le (xs := xs) (c := put c (σ f) 0) h1
    by_cases hyf : y = σ f
    · subst hyf; omega
    · rw [Inl.put_other hyf] at h2; omega
  refine ⟨hn, fun z hz => ⟨hxp z hz, hpar z hz⟩, hout, fun y hy => ?_, fun y hy => ?_, hdead, fun g hgi => ?_, hf0, hfy⟩
  · have := inl_count (σ := σ) (xs := xs) (ys := ys.map σ) (L := uses m) (c := put c (σ f) 0)
      (R := fun y => cn σ R y + cn σ (pu (put im (σ f) true) s) y + K y) hn hd (fun x hx => h.ids x (hxu x hx)) hy ?_ ?_
    · omega
    · rw [cn_map]
      change cn σ (uses m) y + cn σ ys y + _ ≤ _
      have h1 := h.cnt y
      have h2 := hpu y
      simp only [cn_cons, cn_append] at h1
      by_cases hyf : y = σ f
      · subst hyf; rw [Inl.put_self]; omega
      · rw [Inl.put_other hyf]; omega
    · intro x hx
      rw [Inl.put_other (by rintro rfl; have := hxu _ hx; omega)]
      have h1 := h.cnt x
      have h2 := hpu x
      omega
  · have hu := hxu y hy
    refine ⟨?_, ?_, h.kz y (by have := hxp y hy; omega)⟩
    · by_contra hne
      obtain ⟨z, hz, he⟩ := cn_pos.mp (Nat.pos_of_ne_zero hne)
      by_cases hzx : z ∈ xs
      · have := hpar z hzx; rw [he] at this; omega
      · rw [Inl.sets_not_mem hzx] at he
        have := h.away z (by rw [he]; exact hu)
        exact hzx (by rw [← this, he]; exact hy)
    · by_contra hne
      obtain ⟨z, hz, he⟩ := cn_pos.mp (Nat.pos_of_ne_zero hne)
      have := h.away z (by rw [he]; exact hu)
      rw [this] at he; subst he
      exact h.pendA (bs' := []) (A := xs) (Mono.put _ _) (fun z hz => by have := hxp z hz; omega)
        (fun z hz => by have := hout z hz; simp only [un, cn_nil]; omega) z hz hy
  · by_cases hgf : g = σ f
    · subst hgf
      have := countInl_le (xs := xs) (c := put c (σ f) 0) hfy
      rw [Inl.put_self] at this; omega
    · rw [Inl.put_other hgf] at hgi
      exact hdead g (h.gone g hgi)

/-- Inlining a tail call. -/
theorem Pre.app {f : Var} {ys xs : List Var} {t : Tag} {m : Exp} (h : Pre K σ c (f :: ys) [] F s im Z)
    (hys : ∀ y ∈ ys, F y) (hg : (σ f, .fn t xs m) ∈ s) (hi : im (σ f) = false) (hc : c (σ f) = 1)
    (hl : ys.length = xs.length) :
    Called K σ c f ys [] [] s im Z xs m ∧
    Pre K (sets xs (ys.map σ) σ) (countInl (ys.map σ) xs (put c (σ f) 0)) (uses m) m.bv (· ∈ m.fv) s (put im (σ f) true) Z := by
  have hk : Called K σ c f ys [] [] s im Z xs m := Pre.called (by rw [List.append_nil]; exact h) hys hg hi hc hl
  have hpb := fun w => pull_b (σ := id) (y := w) hi hg
  have hA' : ∀ z ∈ xs, un m.bv (put im (σ f) true) s Z z = 0 := fun z hz => by
    have := hk.out z hz; simp only [un]; omega
  have hU : ∀ w, un m.bv (put im (σ f) true) s Z w ≤ un [] im s Z w := fun w => by
    have := hpb w; simp only [un, cn_nil]; omega
  refine ⟨hk, h.subst (A := xs) (Mono.put _ _) (fun z hz => Inl.sets_not_mem hz)
    (fun z hz => ⟨by have := (hk.par z hz).1; omega, (hk.par z hz).2⟩) hA' (fun y => ?_) hk.gone hU
    (fun w => by have := hpb w; simp only [cn_nil]; omega) (fun y hy => ?_)⟩
  · rw [cn_congr (l := pu (put im (σ f) true) s) (τ := σ) fun z hz => Inl.sets_not_mem (h.pendA (Mono.put _ _)
      (fun z hz => by have := (hk.par z hz).1; omega) hA' z hz)]
    by_cases hy : y ∈ xs
    · obtain ⟨h1, h2, h3⟩ := hk.zero y hy; omega
    · have := hk.cnt y hy; simp only [cn_nil] at this; omega
  · by_cases hx : y ∈ xs
    · exact hA' y hx
    · have := h.frp _ _ _ _ hg hi y hy hx; have := hU y; omega

/-- What the body and the rest of the program share. -/
theorem Pre.letc {x f z : Var} {ys xs : List Var} {t : Tag} {m e : Exp} {C : Ctx}
    (h : Pre K σ c (f :: (ys ++ uses e)) (x :: e.bv) F s im Z) (he : ∀ z ∈ e.fv, z ≠ x → F z)
    (hg : (σ f, .fn t xs m) ∈ s) (hi : im (σ f) = false)
    (hk : Called K σ c f ys (uses e) (x :: e.bv) s im Z xs m) (hC : inlineLet m x = some (C, z)) :
    x ∉ e.bv ∧ z ∉ e.bv ∧ (∀ w ∈ e.fv, w ≠ x → w ∉ xs ∧ w ∉ m.bv) ∧ x ∉ xs ∧ x ∉ uses m ∧ ∀ w ∈ uses e, w ∉ xs := by
  have hpb := fun w => pull_b (σ := id) (y := w) hi hg
  have hx1 := h.uc x
  have hbx : 0 < cn id (x :: e.bv) x := by simp
  simp only [un, cn_cons, id, if_true] at hx1
  have hxe : x ∉ e.bv := cn_zero.mp (by omega)
  have hfree : ∀ w ∈ e.fv, w ≠ x → w ∉ xs ∧ w ∉ m.bv := by
    intro w hw hwx
    have h1 := h.fre w (he w hw hwx)
    have h2 := hpb w
    simp only [un] at h1
    exact ⟨cn_zero.mp (by omega), cn_zero.mp (by omega)⟩
  have hxx : x ∉ xs := by intro hm; have := hk.out x hm; omega
  have hxm : x ∉ uses m := by
    intro hm
    rcases uses_scope m x hm with h1 | h1
    · have := h.frp _ _ _ _ hg hi x h1 hxx; simp only [un] at this; omega
    · have := cn_mem.mpr h1; have := hpb x; omega
  refine ⟨hxe, ?_, hfree, hxx, hxm, ?_⟩
  · intro hze
    have h2 := cn_mem.mpr hze
    rcases plug_uses (k := e) hC with ⟨rfl, _⟩ | ⟨hz, _⟩
    · exact hxe hze
    · by_cases hzx : z ∈ xs
      · have := hk.out z hzx; simp only [cn_cons] at this; omega
      · rcases uses_scope m z hz with h1 | h1
        · have := h.frp _ _ _ _ hg hi z h1 hzx; simp only [un, cn_cons] at this; omega
        · have := cn_mem.mpr h1; have := hpb z; have := h.uc z; simp only [un, cn_cons] at this; omega
  · intro w hw hwx
    have h1 := hk.out w hwx
    simp only [cn_cons] at h1
    have hwx' : w ≠ x := by rintro rfl; exact hxx hwx
    rcases uses_scope e w hw with h2 | h2
    · exact (hfree w h2 hwx').1 hwx
    · have := cn_mem.mpr h2; omega

/-- Inlining a call whose result is bound. -/
theorem Pre.letinl {x f z : Var} {ys xs : List Var} {t : Tag} {m e : Exp} {C : Ctx}
    (h : Pre K σ c (f :: (ys ++ uses e)) (x :: e.bv) F s im Z) (he : ∀ z ∈ e.fv, z ≠ x → F z) (hys : ∀ y ∈ ys, F y)
    (hg : (σ f, .fn t xs m) ∈ s) (hi : im (σ f) = false) (hc : c (σ f) = 1) (hl : ys.length = xs.length)
    (hC : inlineLet m x = some (C, z)) :
    Pre K (sets xs (ys.map σ) σ) (countLet (sets xs (ys.map σ) σ z) x (countInl (ys.map σ) xs (put c (σ f) 0)))
      (uses (C.plug (ren (put id x z) e))) (C.plug (ren (put id x z) e)).bv (· ∈ (C.plug (ren (put id x z) e)).fv) s
      (put im (σ f) true) Z ∧
    ∀ y, c y = 0 → countLet (sets xs (ys.map σ) σ z) x (countInl (ys.map σ) xs (put c (σ f) 0)) y = 0 := by
  have hk := h.called hys hg hi hc hl
  obtain ⟨hxe, hze, hfree, hxx, hxm, hue⟩ := h.letc he hg hi hk hC
  have hpb := fun w => pull_b (σ := id) (y := w) hi hg
  have hpu := fun w => pull_u (σ := σ) (y := w) hi hg
  obtain ⟨l, hl1, hl2, _⟩ := Inl.inlineLet_bv (ren (put id x z) e) hC
  rw [ren_bv] at hl1
  have hbx : 0 < cn id (x :: e.bv) x := by simp
  have hux : 0 < un (x :: e.bv) im s Z x := by simp only [un]; omega
  have hσx := h.ids x hux
  have hbv : ∀ w, cn id (C.plug (ren (put id x z) e)).bv w ≤ cn id m.bv w + cn id (x :: e.bv) w := by
    intro w
    rw [hl1]
    rcases hl2 with rfl | rfl <;> simp only [cn_append, cn_cons, cn_nil] <;> omega
  have hA' : ∀ w ∈ xs, un (C.plug (ren (put id x z) e)).bv (put im (σ f) true) s Z w = 0 := fun w hw => by
    have := hk.out w hw; have := hbv w; simp only [un]; omega
  have hA : ∀ w ∈ xs, 0 < cn id (x :: e.bv) w + cn id (pb im s) w := fun w hw => by have := (hk.par w hw).1; omega
  have hU : ∀ w, un (C.plug (ren (put id x z) e)).bv (put im (σ f) true) s Z w ≤ un (x :: e.bv) im s Z w := fun w => by
    have := hpb w; have := hbv w; simp only [un]; omega
  have hxs0 : ∀ y ∈ xs, cn σ (uses e) y = 0 := by
    intro y hy
    by_contra hn
    obtain ⟨w, hw, rfl⟩ := cn_pos.mp (Nat.pos_of_ne_zero hn)
    have := hA _ hy
    rw [h.away w (by simp only [un]; omega)] at hy
    exact hue w hw hy
  have hσz : z ∈ uses m → sets xs (ys.map σ) σ z ∉ xs ∧ sets xs (ys.map σ) σ z ≠ x := by
    intro hz
    by_cases hzx : z ∈ xs
    · have h1 := (hk.par z hzx).2
      refine ⟨fun hm => ?_, fun hm => ?_⟩
      · have := hA _ hm; simp only [un] at h1; omega
      · rw [hm] at h1; omega
    · rw [Inl.sets_not_mem hzx]
      refine ⟨fun hm => ?_, fun hm => ?_⟩
      · have := hA _ hm
        rw [h.away z (by simp only [un]; omega)] at hm
        exact hzx hm
      · have := h.away z (by rw [hm]; exact hux)
        rw [hm] at this; subst this; exact hxm hz
  have hlive : z ∈ uses m → 0 < c (sets xs (ys.map σ) σ z) := by
    intro hz
    by_cases hzx : z ∈ xs
    · have := Inl.sets_in (σ := σ) (ys := ys.map σ) hzx (by simp [hl])
      obtain ⟨y, hy, he⟩ := List.mem_map.mp this
      rw [← he]
      have := cn_pos.mpr (⟨y, hy, rfl⟩ : ∃ u ∈ ys, σ u = σ y)
      have := h.cnt (σ y); simp only [cn_cons, cn_append] at this; omega
    · rw [Inl.sets_not_mem hzx]
      have := cn_pos.mpr (⟨z, hz, rfl⟩ : ∃ u ∈ uses m, σ u = σ z)
      have := hpu (σ z)
      have := h.cnt (σ z); omega
  have hnf : z ∈ uses m → sets xs (ys.map σ) σ z ≠ σ f := by
    intro hz he
    by_cases hzx : z ∈ xs
    · exact hk.once.2 (by rw [← he]; exact Inl.sets_in hzx (by simp [hl]))
    · rw [Inl.sets_not_mem hzx] at he
      have := cn_pos.mpr ⟨z, hz, he⟩
      have := hk.once.1; omega
  have hfre : ∀ y, y ∈ (C.plug (ren (put id x z) e)).fv → un (C.plug (ren (put id x z) e)).bv (put im (σ f) true) s Z y = 0 := by
    intro y hy
    rcases plug_fv hC hy with h1 | ⟨h1, h2⟩
    · by_cases hx : y ∈ xs
      · exact hA' y hx
      · have := h.frp _ _ _ _ hg hi y h1 hx; have := hU y; omega
    · rcases ren_fv e hxe y h1 with ⟨h3, h4⟩ | ⟨h3, _⟩
      · have := h.fre y (he y h3 h4); have := hU y; omega
      · exact absurd h3 h2
  have hpend : ∀ y, cn (sets xs (ys.map σ) σ) (pu (put im (σ f) true) s) y = cn σ (pu (put im (σ f) true) s) y := fun y =>
    cn_congr fun w hw => Inl.sets_not_mem (h.pendA (Mono.put _ _) hA hA' w hw)
  suffices hs : (∀ y, cn (sets xs (ys.map σ) σ) (uses (C.plug (ren (put id x z) e))) y +
        cn (sets xs (ys.map σ) σ) (pu (put im (σ f) true) s) y + K y ≤
        countLet (sets xs (ys.map σ) σ z) x (countInl (ys.map σ) xs (put c (σ f) 0)) y) ∧
      (∀ y, put im (σ f) true y = true →
        countLet (sets xs (ys.map σ) σ z) x (countInl (ys.map σ) xs (put c (σ f) 0)) y = 0) ∧
      (∀ y, c y = 0 → countLet (sets xs (ys.map σ) σ z) x (countInl (ys.map σ) xs (put c (σ f) 0)) y = 0) from
    ⟨h.subst (A := xs) (Mono.put _ _) (fun z hz => Inl.sets_not_mem hz) (fun w hw => ⟨hA w hw, (hk.par w hw).2⟩) hA' hs.1
      hs.2.1 hU (fun w => by have := hpb w; have := hbv w; omega) hfre, hs.2.2⟩
  rcases plug_uses (k := ren (put id x z) e) hC with ⟨rfl, h2⟩ | ⟨hz, hb, h2⟩
  · have hcl : sets xs (ys.map σ) σ z = z := by rw [Inl.sets_not_mem hxx, hσx]
    rw [hcl]
    simp only [countLet, if_true]
    refine ⟨fun y => ?_, hk.gone, hk.dead⟩
    have hid : put id z z = id := by
      funext w
      by_cases hw : w = z
      · subst hw; exact Inl.put_self
      · exact Inl.put_other hw
    rw [hpend, h2, hid, ren_id, cn_congr (l := uses e) (τ := σ) fun w hw => Inl.sets_not_mem (hue w hw)]
    by_cases hy : y ∈ xs
    · obtain ⟨q1, q2, q3⟩ := hk.zero y hy; have := hxs0 y hy; omega
    · have := hk.cnt y hy; omega
  · obtain ⟨hz1, hz2⟩ := hσz hz
    simp only [countLet, if_neg (Ne.symm hz2)]
    refine ⟨fun y => ?_, fun g hgi => ?_, fun y hy => ?_⟩
    · rw [hpend]
      have h3 := h2 (sets xs (ys.map σ) σ) y
      have h4 : cn (sets xs (ys.map σ) σ) (uses (ren (put id x z) e)) y = cn (put σ x (sets xs (ys.map σ) σ z)) (uses e) y := by
        rw [uses_ren, cn_map]
        refine cn_congr fun w hw => ?_
        by_cases hwx : w = x
        · subst hwx; rw [Inl.put_self, Inl.put_self]
        · rw [Inl.put_other hwx, Inl.put_other hwx]; exact Inl.sets_not_mem (hue w hw)
      have h5 := cn_put (σ := σ) (v := x) (w := sets xs (ys.map σ) σ z) (y := y) (l := uses e)
      rw [hσx] at h5
      rw [h4] at h3
      by_cases hyz : y = sets xs (ys.map σ) σ z
      · subst hyz
        rw [Inl.put_self]
        simp only [if_true] at h3 h5
        rw [if_neg (Ne.symm hz2)] at h5
        have h6 := hk.cnt _ hz1
        have h7 := hk.cnt x hxx
        have h8 := cn_fix hσx (l := uses e)
        omega
      · rw [Inl.put_other hyz]
        rw [if_neg (Ne.symm hyz)] at h3 h5
        by_cases hyx : y = x
        · subst hyx
          rw [Inl.put_self]
          have q1 : cn σ (pu (put im (σ f) true) s) y = 0 := by
            have := h.pend0 hbx; have := (Mono.put im (σ f)).pu (σ := σ) (y := y) (s := s); omega
          have q2 := h.kz y (by omega)
          have q3 : cn (sets xs (ys.map σ) σ) (uses m) y = 0 := by
            by_contra hn
            obtain ⟨w, hw, hwe⟩ := cn_pos.mp (Nat.pos_of_ne_zero hn)
            by_cases hwx : w ∈ xs
            · have := (hk.par w hwx).2; rw [hwe] at this; omega
            · rw [Inl.sets_not_mem hwx] at hwe
              have := h.away w (by rw [hwe]; exact hux)
              rw [hwe] at this; subst this; exact hxm hw
          have q4 : cn (put σ y (sets xs (ys.map σ) σ z)) (uses e) y = 0 := by
            by_contra hn
            obtain ⟨w, hw, hwe⟩ := cn_pos.mp (Nat.pos_of_ne_zero hn)
            by_cases hwx : w = y
            · subst hwx; rw [Inl.put_self] at hwe; exact hz2 hwe
            · rw [Inl.put_other hwx] at hwe
              have := h.away w (by rw [hwe]; exact hux)
              exact hwx (this.symm.trans hwe)
          omega
        · rw [Inl.put_other hyx]
          rw [if_neg (Ne.symm hyx)] at h5
          by_cases hy : y ∈ xs
          · obtain ⟨q1, q2, q3⟩ := hk.zero y hy; have := hxs0 y hy; omega
          · have := hk.cnt y hy; omega
    · by_cases hgz : g = sets xs (ys.map σ) σ z
      · exfalso
        by_cases hgf : g = σ f
        · exact hnf hz (hgz.symm.trans hgf)
        · rw [Inl.put_other hgf] at hgi
          have := h.gone g hgi; have := hlive hz; rw [← hgz] at this; omega
      · rw [Inl.put_other hgz]
        by_cases hgx : g = x
        · subst hgx; exact Inl.put_self
        · rw [Inl.put_other hgx]; exact hk.gone g hgi
    · by_cases hgz : y = sets xs (ys.map σ) σ z
      · exfalso; have := hlive hz; rw [← hgz] at this; omega
      · rw [Inl.put_other hgz]
        by_cases hgx : y = x
        · subst hgx; exact Inl.put_self
        · rw [Inl.put_other hgx]; exact hk.dead y hy

end

end Shr
end ANF
