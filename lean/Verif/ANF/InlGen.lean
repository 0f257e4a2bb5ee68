import Verif.ANF.InlSim

/-!
# Inlining: the pass produces related terms, with distinct binders
-/

namespace ANF
namespace Inl
open Ll (put)

/-! ## Free variables -/

theorem inlineLet_fv : ∀ {e : Exp} {x C r} {k : Exp} {w}, inlineLet e x = some (C, r) → w ∈ (C.plug k).fv →
    w ∈ e.fv ∨ w ∈ k.fv ∧ w ≠ r
  | .constr y t ys e, x, C, r, k, w, h, hw => by
    simp only [inlineLet, Option.map_eq_some_iff, Prod.mk.injEq] at h
    obtain ⟨⟨C', r'⟩, h, rfl, rfl⟩ := h
    simp only [Ctx.plug, Exp.fv, Finset.mem_union, Finset.mem_erase] at hw ⊢
    rcases hw with hw | ⟨hw1, hw2⟩
    · exact .inl (.inl hw)
    · exact (inlineLet_fv h hw2).imp (fun h => .inr ⟨hw1, h⟩) id
  | .case _ _, _, _, _, _, _, h, _ => by simp [inlineLet] at h
  | .proj y t i z e, x, C, r, k, w, h, hw => by
    simp only [inlineLet, Option.map_eq_some_iff, Prod.mk.injEq] at h
    obtain ⟨⟨C', r'⟩, h, rfl, rfl⟩ := h
    simp only [Ctx.plug, Exp.fv, Finset.mem_insert, Finset.mem_erase] at hw ⊢
    rcases hw with hw | ⟨hw1, hw2⟩
    · exact .inl (.inl hw)
    · exact (inlineLet_fv h hw2).imp (fun h => .inr ⟨hw1, h⟩) id
  | .letapp y f t ys e, x, C, r, k, w, h, hw => by
    simp only [inlineLet, Option.map_eq_some_iff, Prod.mk.injEq] at h
    obtain ⟨⟨C', r'⟩, h, rfl, rfl⟩ := h
    simp only [Ctx.plug, Exp.fv, Finset.mem_insert, Finset.mem_union, Finset.mem_erase] at hw ⊢
    rcases hw with hw | hw | ⟨hw1, hw2⟩
    · exact .inl (.inl hw)
    · exact .inl (.inr (.inl hw))
    · exact (inlineLet_fv h hw2).imp (fun h => .inr (.inr ⟨hw1, h⟩)) id
  | .fn B e, x, C, r, k, w, h, hw => by
    simp only [inlineLet, Option.map_eq_some_iff, Prod.mk.injEq] at h
    obtain ⟨⟨C', r'⟩, h, rfl, rfl⟩ := h
    simp only [Ctx.plug, Exp.fv, Finset.mem_sdiff, Finset.mem_union] at hw ⊢
    rcases hw with ⟨hw | hw, hn⟩
    · exact .inl ⟨.inl hw, hn⟩
    · exact (inlineLet_fv h hw).imp (fun h => ⟨.inr h, hn⟩) id
  | .app f t ys, x, C, r, k, w, h, hw => by
    simp only [inlineLet, Option.some.injEq, Prod.mk.injEq] at h
    obtain ⟨rfl, rfl⟩ := h
    simp only [Ctx.plug, Exp.fv, Finset.mem_insert, Finset.mem_union, Finset.mem_erase] at hw ⊢
    rcases hw with hw | hw | ⟨hw1, hw2⟩
    · exact .inl (.inl hw)
    · exact .inl (.inr hw)
    · exact .inr ⟨hw2, hw1⟩
  | .primVal y p e, x, C, r, k, w, h, hw => by
    simp only [inlineLet, Option.map_eq_some_iff, Prod.mk.injEq] at h
    obtain ⟨⟨C', r'⟩, h, rfl, rfl⟩ := h
    simp only [Ctx.plug, Exp.fv, Finset.mem_erase] at hw ⊢
    exact (inlineLet_fv h hw.2).imp (fun h => ⟨hw.1, h⟩) id
  | .prim y p ys e, x, C, r, k, w, h, hw => by
    simp only [inlineLet, Option.map_eq_some_iff, Prod.mk.injEq] at h
    obtain ⟨⟨C', r'⟩, h, rfl, rfl⟩ := h
    simp only [Ctx.plug, Exp.fv, Finset.mem_union, Finset.mem_erase] at hw ⊢
    rcases hw with hw | ⟨hw1, hw2⟩
    · exact .inl (.inl hw)
    · exact (inlineLet_fv h hw2).imp (fun h => .inr ⟨hw1, h⟩) id
  | .halt y, x, C, r, k, w, h, hw => by
    simp only [inlineLet, Option.some.injEq, Prod.mk.injEq] at h
    obtain ⟨rfl, rfl⟩ := h
    by_cases hy : w = y
    · exact .inl (by simp [Exp.fv, hy])
    · exact .inr ⟨hw, hy⟩

/-- A variable of the target comes from a live one of the source. -/
def From (fm : FM) (X : Finset Var) (σ : Var → Var) (z : Var) : Prop := ∃ y, Live fm X y ∧ z = σ y

theorem From.mono {fm X Y σ z} (h : From fm Y σ z) (hs : ∀ y ∈ Y, y ∈ X) : From fm X σ z := by
  obtain ⟨y, hy, rfl⟩ := h; exact ⟨y, hy.mono hs, rfl⟩

theorem From.put {fm X Y σ z x x'} (h : From fm Y (put σ x x') z) (hz : z ≠ x') (hs : ∀ y ∈ Y, y = x ∨ y ∈ X) :
    From fm X σ z := by
  obtain ⟨y, hy, rfl⟩ := h
  have hyx : y ≠ x := by rintro rfl; exact hz put_self
  exact ⟨y, hy.other hs hyx, put_other hyx⟩

theorem From.of {fm X σ y} (h : y ∈ X) : From fm X σ (σ y) := ⟨y, .inl h, rfl⟩

theorem From.inl {fm X σ f t xs b z} {ys : List Var} (h : From (Ll.put fm f none) b.fv (sets xs (ys.map σ) σ) z)
    (hf : fm f = some (t, xs, b)) (hl : xs.length = ys.length) (hy : ∀ y ∈ ys, y ∈ X) : From fm X σ z := by
  obtain ⟨y, hlv, rfl⟩ := h
  by_cases hyx : y ∈ xs
  · have := sets_in (σ := σ) (ys := ys.map σ) hyx (by simpa using hl)
    rw [List.mem_map] at this
    obtain ⟨w, hw, hw'⟩ := this
    rw [← hw']; exact .of (hy w hw)
  · rw [sets_not_mem hyx]
    refine ⟨y, ?_, rfl⟩
    rcases hlv with hlv | ⟨k, t', xs', b', hk, h'⟩
    · exact .inr ⟨f, t, xs, b, hf, .inr ⟨hlv, hyx⟩⟩
    · exact .inr ⟨k, t', xs', b', (rem_some hk).2, h'⟩

mutual
theorem RE.fv {d : Nat} {n : Var} {fm : FM} {σ : Var → Var} {e e' : Exp} : RE d n fm σ e e' → ∀ z ∈ e'.fv, From fm e.fv σ z
  | .constr (x := x) h he, z, hz => by
    simp only [Exp.fv, Finset.mem_union, List.mem_toFinset, List.mem_map, Finset.mem_erase] at hz
    rcases hz with ⟨y, hy, rfl⟩ | ⟨h1, h2⟩
    · exact .of (by simp [Exp.fv, hy])
    · exact (he.fv z h2).put h1 fun y hy => by by_cases h : y = x <;> simp [Exp.fv, hy, h]
  | .case hb, z, hz => by
    simp only [Exp.fv, Finset.mem_insert] at hz
    rcases hz with rfl | hz
    · exact .of (by simp [Exp.fv])
    · exact (hb.fv z hz).mono fun y hy => by simp [Exp.fv, hy]
  | .proj (x := x) h he, z, hz => by
    simp only [Exp.fv, Finset.mem_insert, Finset.mem_erase] at hz
    rcases hz with rfl | ⟨h1, h2⟩
    · exact .of (by simp [Exp.fv])
    · exact (he.fv z h2).put h1 fun y hy => by by_cases h : y = x <;> simp [Exp.fv, hy, h]
  | .letapp (x := x) h he, z, hz => by
    simp only [Exp.fv, Finset.mem_insert, Finset.mem_union, List.mem_toFinset, List.mem_map, Finset.mem_erase] at hz
    rcases hz with rfl | ⟨y, hy, rfl⟩ | ⟨h1, h2⟩
    · exact .of (by simp [Exp.fv])
    · exact .of (by simp [Exp.fv, hy])
    · exact (he.fv z h2).put h1 fun y hy => by by_cases h : y = x <;> simp [Exp.fv, hy, h]
  | .letinl (x := x) h1 h2 h3 h4 h5 h6 h7 h8, z, hz => by
    rcases inlineLet_fv h5 hz with hz | ⟨hz, hr⟩
    · exact (h4.fv z hz).inl h1 h2 fun y hy => by simp [Exp.fv, hy]
    · exact (h8.fv z hz).put hr fun y hy => by by_cases h : y = x <;> simp [Exp.fv, hy, h]
  | .fn (B := B) (e := e) (ns := ns) h1 h2 h3 h4 h5 h6, z, hz => by
    simp only [Exp.fv, Finset.mem_sdiff, Finset.mem_union, List.mem_toFinset] at hz
    have key : From (addDefs B fm) (B.fvRaw ∪ e.fv) (sets B.names ns σ) z := by
      rcases hz.1 with hz | hz
      · exact (h5.fv z hz).mono fun y hy => by simp [hy]
      · exact (h6.fv z hz).mono fun y hy => by simp [hy]
    obtain ⟨y, hlv, rfl⟩ := key
    have hyn : y ∉ B.names := fun hm => hz.2 (by rw [h5.names]; exact List.mem_map_of_mem hm)
    rw [sets_not_mem hyn]
    refine ⟨y, ?_, rfl⟩
    rcases hlv with hlv | ⟨k, t', xs', b', hk, h'⟩
    · exact .inl (by simp only [Finset.mem_union] at hlv; simp [Exp.fv, hyn, hlv])
    · rcases addDefs_some hk with hk | ⟨hkn, hk⟩
      · rcases h' with rfl | ⟨h6, h7⟩
        · exact absurd (findDef_mem hk) hyn
        · rcases fv_body hk y h6 with h8 | h8 | h8
          · exact absurd h8 h7
          · exact absurd h8 hyn
          · simp only [Defs.fv, Finset.mem_sdiff] at h8
            exact .inl (by simp [Exp.fv, h8, hyn])
      · exact .inr ⟨k, t', xs', b', hk, h'⟩
  | .app, z, hz => by
    simp only [Exp.fv, Finset.mem_insert, List.mem_toFinset, List.mem_map] at hz
    rcases hz with rfl | ⟨y, hy, rfl⟩
    · exact .of (by simp [Exp.fv])
    · exact .of (by simp [Exp.fv, hy])
  | .appinl h1 h2 h3, z, hz => (h3.fv z hz).inl h1 h2 fun y hy => by simp [Exp.fv, hy]
  | .primVal (x := x) h he, z, hz => by
    simp only [Exp.fv, Finset.mem_erase] at hz
    exact (he.fv z hz.2).put hz.1 fun y hy => by by_cases h : y = x <;> simp [Exp.fv, hy, h]
  | .prim (x := x) h he, z, hz => by
    simp only [Exp.fv, Finset.mem_union, List.mem_toFinset, List.mem_map, Finset.mem_erase] at hz
    rcases hz with ⟨y, hy, rfl⟩ | ⟨h1, h2⟩
    · exact .of (by simp [Exp.fv, hy])
    · exact (he.fv z h2).put h1 fun y hy => by by_cases h : y = x <;> simp [Exp.fv, hy, h]
  | .halt, z, hz => by
    simp only [Exp.fv, Finset.mem_singleton] at hz
    subst hz; exact .of (by simp [Exp.fv])
theorem RB.fv {d : Nat} {n : Var} {fm : FM} {σ : Var → Var} {bs bs' : Brs} : RB d n fm σ bs bs' → ∀ z ∈ bs'.fv, From fm bs.fv σ z
  | .nil, z, hz => by simp [Brs.fv] at hz
  | .cons h1 h2, z, hz => by
    simp only [Brs.fv, Finset.mem_union] at hz
    rcases hz with hz | hz
    · exact (h1.fv z hz).mono fun y hy => by simp [Brs.fv, hy]
    · exact (h2.fv z hz).mono fun y hy => by simp [Brs.fv, hy]
theorem RD.fv {d : Nat} {n : Var} {fm : FM} {σ : Var → Var} {B B' : Defs} : RD d n fm σ B B' → ∀ z ∈ B'.fvRaw, From fm B.fvRaw σ z
  | .nil, z, hz => by simp [Defs.fvRaw] at hz
  | .cons (xs := xs) h1 h2 h3 h4 h5 h6, z, hz => by
    simp only [Defs.fvRaw, Finset.mem_union, Finset.mem_sdiff, List.mem_toFinset] at hz
    rcases hz with ⟨hz, hn⟩ | hz
    · obtain ⟨y, hlv, rfl⟩ := h5.fv z hz
      have hyx : y ∉ xs := fun hm => hn (sets_in hm h1.symm)
      rw [sets_not_mem hyx]
      refine ⟨y, ?_, rfl⟩
      rcases hlv.rem with h | h
      · exact .inl (by simp [Defs.fvRaw, h, hyx])
      · exact .inr h
    · exact (h6.fv z hz).mono fun y hy => by simp [Defs.fvRaw, hy]
end

/-! ## The pass -/

/-- What the pass guarantees for a term. -/
structure GenR (d : Nat) (fm : FM) (σ : Var → Var) (e : Exp) (n : Var) (e' : Exp) (m : Var) : Prop where
  rel : RE d n fm σ e e'
  le : n ≤ m
  nodup : e'.bv.Nodup
  lt : ∀ y ∈ e'.bv, y < m

/-- The condition on the renaming. -/
def Below (fm : FM) (X : Finset Var) (σ : Var → Var) (n : Var) : Prop := ∀ y, Live fm X y → σ y < n

/-- An inliner of depth `d` is correct. -/
def GenOk {St : Type} (d : Nat) (F : Exp → (Var → Var) → FM → St → IS → Exp × IS) : Prop :=
  ∀ e σ fm s i, Good fm e → Below fm e.fv σ i.next → GenR d fm σ e i.next (F e σ fm s i).1 (F e σ fm s i).2.next

theorem Below.put {fm X Y σ n x} (h : Below fm X σ n) (hY : ∀ y ∈ Y, y = x ∨ y ∈ X) :
    Below fm Y (put σ x n) (n + 1) := by
  intro y hy
  by_cases hyx : y = x
  · subst hyx; rw [put_self]; exact Nat.lt_succ_self n
  · rw [put_other hyx]; exact (h y (hy.other hY hyx)).trans (Nat.lt_succ_self n)

theorem GenR.cons {d fm σ e n e' m} {x' : Var} (h : GenR d fm σ e (n + 1) e' m) (hx : x' = n) :
    n ≤ m ∧ (x' :: e'.bv).Nodup ∧ ∀ y ∈ x' :: e'.bv, y < m := by
  subst hx
  have := h.le
  refine ⟨by vomega, List.nodup_cons.mpr ⟨fun hm => ?_, h.nodup⟩, fun y hy => ?_⟩
  · have := h.rel.bv _ hm; vomega
  · rcases List.mem_cons.mp hy with rfl | hy
    · vomega
    · exact h.lt y hy

theorem nodup_of_split {l₁ l₂ : List Var} {m : Var} (h1 : l₁.Nodup) (h2 : l₂.Nodup) (a : ∀ y ∈ l₁, y < m)
    (b : ∀ y ∈ l₂, m ≤ y) : (l₁ ++ l₂).Nodup := by
  rw [List.nodup_append]
  refine ⟨h1, h2, fun x hx y hy hxy => ?_⟩
  subst hxy; have := a x hx; have := b x hy; vomega

theorem mem_range'_var {s n y : Var} : y ∈ List.range' s n ↔ s ≤ y ∧ y < s + n := by
  rw [List.mem_range'_1]

/-- What the pass guarantees for branches. -/
structure GenRB (d : Nat) (fm : FM) (σ : Var → Var) (bs : Brs) (n : Var) (bs' : Brs) (m : Var) : Prop where
  rel : RB d n fm σ bs bs'
  le : n ≤ m
  nodup : bs'.bv.Nodup
  lt : ∀ y ∈ bs'.bv, y < m

/-- What the pass guarantees for bundles. -/
structure GenRD (d : Nat) (fm : FM) (σ : Var → Var) (B : Defs) (n : Var) (B' : Defs) (m : Var) : Prop where
  rel : RD d n fm σ B B'
  le : n ≤ m
  nodup : B'.bv.Nodup
  lt : ∀ y ∈ B'.bv, y < m ∧ (y ∈ B.names.map σ ∨ n ≤ y)

section
variable {St : Type} {H : Heur St} {rec : Rec St} {j d : Nat}

theorem keep_ok {fm σ x f t} {ys : List Var} {ec : Exp} {i : IS} {r : Exp × IS}
    (h : GenR d fm (put σ x i.next) ec (i.next + 1) r.1 r.2.next) {n : Var} (hn : n ≤ i.next) :
    GenR d fm σ (.letapp x f t ys ec) n (.letapp i.next (σ f) t (ys.map σ) r.1) r.2.next := by
  obtain ⟨h1, h2, h3⟩ := h.cons rfl
  exact ⟨.letapp hn h.rel, hn.trans h1, h2, h3⟩

mutual
theorem genE (hrec : ∀ R, rec = some R → ∃ d', d = d' + 1 ∧ ∀ j, GenOk d' (R j)) : ∀ (e : Exp) (σ : Var → Var) (fm : FM) (s : St)
    (i : IS), Good fm e → Below fm e.fv σ i.next → GenR d fm σ e i.next (inlE H rec j e σ fm s i).1 (inlE H rec j e σ fm s i).2.next
  | .constr x t ys e, σ, fm, s, i, hg, hb => by
    have hfv : ∀ y ∈ e.fv, y = x ∨ y ∈ (Exp.constr x t ys e).fv := by
      intro y hy; by_cases h : y = x <;> simp [Exp.fv, hy, h]
    have ih := genE hrec e (put σ x i.next) fm s i.bump (hg.tail rfl hfv) (hb.put hfv)
    obtain ⟨h1, h2, h3⟩ := ih.cons rfl
    exact ⟨.constr le_rfl ih.rel, h1, h2, h3⟩
  | .case x bs, σ, fm, s, i, hg, hb => by
    have ih := genB hrec bs σ fm s i (fun t e h => hg.sub (by
        simp only [Exp.bv]; exact h.1) fun y hy => .inl (by simp [Exp.fv, h.2 y hy]))
      (by simpa [Exp.bv] using hg.nodup) (fun y hy => hb y (hy.mono fun z hz => by simp [Exp.fv, hz]))
    exact ⟨.case ih.rel, ih.le, ih.nodup, ih.lt⟩
  | .proj x t k y e, σ, fm, s, i, hg, hb => by
    have hfv : ∀ z ∈ e.fv, z = x ∨ z ∈ (Exp.proj x t k y e).fv := by
      intro y hy; by_cases h : y = x <;> simp [Exp.fv, hy, h]
    have ih := genE hrec e (put σ x i.next) fm s i.bump (hg.tail rfl hfv) (hb.put hfv)
    obtain ⟨h1, h2, h3⟩ := ih.cons rfl
    exact ⟨.proj le_rfl ih.rel, h1, h2, h3⟩
  | .letapp x f t ys ec, σ, fm, s, i, hg, hb => by
    have hfv : ∀ y ∈ ec.fv, y = x ∨ y ∈ (Exp.letapp x f t ys ec).fv := by
      intro y hy; by_cases h : y = x <;> simp [Exp.fv, hy, h]
    have hkeep : ∀ i' : IS, i.next ≤ i'.next → GenR d fm σ (.letapp x f t ys ec) i.next
        (.letapp i'.next (σ f) t (ys.map σ) (inlE H rec j ec (put σ x i'.next) fm (H.letApp f t (ys.map σ) s).1 i'.bump).1)
        (inlE H rec j ec (put σ x i'.next) fm (H.letApp f t (ys.map σ) s).1 i'.bump).2.next := by
      intro i' hi'
      have hb' : Below fm (Exp.letapp x f t ys ec).fv σ i'.next := fun y hy => (hb y hy).trans_le hi'
      exact keep_ok (genE hrec ec (put σ x i'.next) fm _ i'.bump (hg.tail rfl hfv) (hb'.put hfv)) hi'
    simp only [inlE]
    split
    · rename_i t' xs eb R j' _ hf
      split
      · next hlen =>
        obtain ⟨d', rfl, hR⟩ := hrec _ rfl
        have hbelow : Below (put fm f none) eb.fv (sets xs (ys.map σ) σ) (i.next + 1) := by
          intro y hy
          have := (From.inl (σ := σ) (X := (Exp.letapp x f t ys ec).fv) ⟨y, hy, rfl⟩ hf hlen fun y hy => by simp [Exp.fv, hy])
          obtain ⟨w, hw, hw'⟩ := this
          rw [hw']; exact (hb w hw).trans (Nat.lt_succ_self _)
        have ih1 := hR (fuel1 j') eb (sets xs (ys.map σ) σ) (put fm f none) (H.letApp f t (ys.map σ) s).1 i.bump (hg.known hf) hbelow
        split
        · next C z hC =>
          generalize hr : R (fuel1 j') eb (sets xs (ys.map σ) σ) (put fm f none) (H.letApp f t (ys.map σ) s).1 i.bump = r at *
          have hle : i.next + 1 ≤ r.2.next := ih1.le
          have hz : z < r.2.next := by
            obtain ⟨_, _, _, _, hz⟩ := inlineLet_bv (.halt 0) hC
            rcases hz with hz | hz | hz
            · rw [hz]; exact hle
            · exact ih1.lt z hz
            · obtain ⟨w, hw, hw'⟩ := ih1.rel.fv z hz
              rw [hw']; exact (hbelow w hw).trans_le hle
          have hb2 : Below fm ec.fv (put σ x z) r.2.next := by
            intro y hy
            by_cases hyx : y = x
            · subst hyx; rw [put_self]; exact hz
            · rw [put_other hyx]
              exact (hb y (hy.other hfv hyx)).trans ((Nat.lt_succ_self _).trans_le hle)
          have ih2 := hR (fuel2 j') ec (put σ x z) fm (H.letApp f t (ys.map σ) s).2.1 { r.2 with click := true } (hg.tail rfl hfv) hb2
          generalize hq : R (fuel2 j') ec (put σ x z) fm (H.letApp f t (ys.map σ) s).2.1 { r.2 with click := true } = q at *
          have hle2 : r.2.next ≤ q.2.next := ih2.le
          have hin : i.next ≤ r.2.next := (Nat.le_succ _).trans hle
          obtain ⟨l, hl1, hl2, _⟩ := inlineLet_bv q.1 hC
          have hge1 : ∀ y ∈ r.1.bv, i.next + 1 ≤ y := ih1.rel.bv
          have hge2 : ∀ y ∈ q.1.bv, r.2.next ≤ y := ih2.rel.bv
          have hlmem : ∀ y ∈ l, y = i.next := by
            intro y hy
            rcases hl2 with rfl | rfl
            · simp at hy
            · simpa using hy
          refine ⟨.letinl hf hlen le_rfl ih1.rel hC hz hin ih2.rel, hin.trans hle2, ?_, ?_⟩
          · dsimp only; rw [hl1, ← List.append_assoc]
            refine nodup_of_split (m := r.2.next) ?_ ih2.nodup ?_ hge2
            · rw [List.nodup_append]
              refine ⟨ih1.nodup, ?_, ?_⟩
              · rcases hl2 with rfl | rfl <;> simp
              · intro a ha b hb hab
                have := hge1 a ha; have := hlmem b hb; vomega
            · intro y hy
              rcases List.mem_append.mp hy with hy | hy
              · exact ih1.lt y hy
              · rw [hlmem y hy]; exact hle
          · intro y hy
            dsimp only at hy ⊢; rw [hl1] at hy
            rcases List.mem_append.mp hy with hy | hy
            · exact (ih1.lt y hy).trans_le hle2
            · rcases List.mem_append.mp hy with hy | hy
              · rw [hlmem y hy]; exact lt_of_lt_of_le hle hle2
              · exact ih2.lt y hy
        · exact hkeep _ ((Nat.le_succ _).trans ih1.le)
      · exact hkeep i le_rfl
    · exact hkeep i le_rfl
  | .fn B e, σ, fm, s, i, hg, hb => by
    have hns : (List.range' i.next B.names.length).length = B.names.length := by simp
    have hnd : (List.range' i.next B.names.length).Nodup := List.nodup_range'
    have hmem : ∀ y ∈ List.range' i.next B.names.length, i.next ≤ y ∧ y < i.next + B.names.length := fun y hy =>
      mem_range'_var.mp hy
    have hle0 : i.next ≤ i.next + B.names.length := Nat.le_add_right _ _
    have hbelow : ∀ Y : Finset Var, (∀ y ∈ Y, y ∈ B.names ∨ y ∈ (Exp.fn B e).fv) →
        Below (addDefs B fm) Y (sets B.names (List.range' i.next B.names.length) σ) (i.next + B.names.length) := by
      intro Y hY y hlv
      by_cases hyn : y ∈ B.names
      · exact (hmem _ (sets_in hyn hns.symm)).2
      · rw [sets_not_mem hyn]
        refine (hb y ?_).trans_le hle0
        rcases hlv with hlv | ⟨k, t', xs', b', hk, h'⟩
        · exact .inl ((hY y hlv).resolve_left hyn)
        · rcases addDefs_some hk with hk | ⟨hkn, hk⟩
          · rcases h' with rfl | ⟨h6, h7⟩
            · exact absurd (findDef_mem hk) hyn
            · rcases fv_body hk y h6 with h8 | h8 | h8
              · exact absurd h8 h7
              · exact absurd h8 hyn
              · simp only [Defs.fv, Finset.mem_sdiff] at h8
                exact .inl (by simp [Exp.fv, h8, hyn])
          · exact .inr ⟨k, t', xs', b', hk, h'⟩
    have gf := hg.fn
    have ih1 := genD hrec B σ (sets B.names (List.range' i.next B.names.length) σ) (addDefs B fm) (H.funDef B σ s).1
      (i.bumps B.names.length) (by rw [sets_map hg.names hns.symm]; exact hnd)
      (fun f hf => (hmem _ (sets_in hf hns.symm)).2)
      (fun f t xs b hm => by
        have hd := findDef_of_mem hg.names hm
        refine ⟨gf.known (addDefs_find hd), fun y hy hyx => ?_⟩
        refine hbelow (b.fv \ xs.toFinset) ?_ y ?_
        · intro z hz
          simp only [Finset.mem_sdiff, List.mem_toFinset] at hz
          rcases fv_body hd z hz.1 with h | h | h
          · exact absurd h hz.2
          · exact .inl h
          · simp only [Defs.fv, Finset.mem_sdiff, List.mem_toFinset] at h
            exact .inr (by simp [Exp.fv, h])
        · rcases hy.rem with hy | hy
          · exact .inl (by simp [hy, hyx])
          · exact .inr hy)
    have ih2 := genE hrec e (sets B.names (List.range' i.next B.names.length) σ) (addDefs B fm) (H.funDef B σ s).2
      (inlD H rec j B σ (sets B.names (List.range' i.next B.names.length) σ) (addDefs B fm) (H.funDef B σ s).1 (i.bumps B.names.length)).2
      gf (fun y hy => (hbelow e.fv (fun y hy => by by_cases h : y ∈ B.names <;> simp [Exp.fv, hy, h]) y hy).trans_le ih1.le)
    simp only [inlE]
    generalize inlD H rec j B σ (sets B.names (List.range' i.next B.names.length) σ) (addDefs B fm) (H.funDef B σ s).1 (i.bumps B.names.length) = r at *
    generalize inlE H rec j e (sets B.names (List.range' i.next B.names.length) σ) (addDefs B fm) (H.funDef B σ s).2 r.2 = q at *
    have hle1 : i.next + B.names.length ≤ r.2.next := ih1.le
    refine ⟨.fn hns hnd (fun y hy => hmem y hy) hle0 ih1.rel (ih2.rel.mono hle1), hle0.trans (hle1.trans ih2.le), ?_, ?_⟩
    · exact nodup_of_split ih1.nodup ih2.nodup (fun y hy => (ih1.lt y hy).1) ih2.rel.bv
    · intro y hy
      rcases List.mem_append.mp hy with hy | hy
      · exact (ih1.lt y hy).1.trans_le ih2.le
      · exact ih2.lt y hy
  | .app f t ys, σ, fm, s, i, hg, hb => by
    have hkeep : GenR d fm σ (.app f t ys) i.next (.app (σ f) t (ys.map σ)) i.next :=
      ⟨.app, le_rfl, by simp [Exp.bv], by simp [Exp.bv]⟩
    simp only [inlE]
    split
    · rename_i t' xs eb R j' _ hf
      split
      · next hlen =>
        obtain ⟨d', rfl, hR⟩ := hrec _ rfl
        have hbelow : Below (put fm f none) eb.fv (sets xs (ys.map σ) σ) i.next := by
          intro y hy
          obtain ⟨w, hw, hw'⟩ := (From.inl (σ := σ) (X := (Exp.app f t ys).fv) ⟨y, hy, rfl⟩ hf hlen fun y hy => by simp [Exp.fv, hy])
          rw [hw']; exact hb w hw
        have ih := hR j' eb (sets xs (ys.map σ) σ) (put fm f none) (H.app f t (ys.map σ) s).1 { i with click := true } (hg.known hf) hbelow
        exact ⟨.appinl hf hlen ih.rel, ih.le, ih.nodup, ih.lt⟩
      · exact hkeep
    · exact hkeep
  | .primVal x p e, σ, fm, s, i, hg, hb => by
    have hfv : ∀ y ∈ e.fv, y = x ∨ y ∈ (Exp.primVal x p e).fv := by
      intro y hy; by_cases h : y = x <;> simp [Exp.fv, hy, h]
    have ih := genE hrec e (put σ x i.next) fm s i.bump (hg.tail rfl hfv) (hb.put hfv)
    obtain ⟨h1, h2, h3⟩ := ih.cons rfl
    exact ⟨.primVal le_rfl ih.rel, h1, h2, h3⟩
  | .prim x p ys e, σ, fm, s, i, hg, hb => by
    have hfv : ∀ y ∈ e.fv, y = x ∨ y ∈ (Exp.prim x p ys e).fv := by
      intro y hy; by_cases h : y = x <;> simp [Exp.fv, hy, h]
    have ih := genE hrec e (put σ x i.next) fm s i.bump (hg.tail rfl hfv) (hb.put hfv)
    obtain ⟨h1, h2, h3⟩ := ih.cons rfl
    exact ⟨.prim le_rfl ih.rel, h1, h2, h3⟩
  | .halt x, σ, fm, s, i, hg, hb => ⟨.halt, le_rfl, by simp [inlE, Exp.bv], by simp [inlE, Exp.bv]⟩
theorem genB (hrec : ∀ R, rec = some R → ∃ d', d = d' + 1 ∧ ∀ j, GenOk d' (R j)) : ∀ (bs : Brs) (σ : Var → Var) (fm : FM) (s : St)
    (i : IS), (∀ (t : Tag) (e : Exp), (e.bv.Sublist bs.bv ∧ ∀ y ∈ e.fv, y ∈ bs.fv) → Good fm e) → bs.bv.Nodup →
    Below fm bs.fv σ i.next → GenRB d fm σ bs i.next (inlB H rec j bs σ fm s i).1 (inlB H rec j bs σ fm s i).2.next
  | .nil, σ, fm, s, i, _, _, _ => ⟨.nil, le_rfl, by simp [inlB, Brs.bv], by simp [inlB, Brs.bv]⟩
  | .cons t e bs, σ, fm, s, i, hg, hn, hb => by
    have ih1 := genE hrec e σ fm s i (hg t e ⟨by simp [Brs.bv], fun y hy => by simp [Brs.fv, hy]⟩)
      (fun y hy => hb y (hy.mono fun z hz => by simp [Brs.fv, hz]))
    have ih2 := genB hrec bs σ fm s (inlE H rec j e σ fm s i).2 (fun t e' h => hg t e'
        ⟨by simp only [Brs.bv]; exact h.1.trans (List.sublist_append_right _ _), fun y hy => by simp [Brs.fv, h.2 y hy]⟩)
      (by simp only [Brs.bv, List.nodup_append] at hn; exact hn.2.1)
      (fun y hy => (hb y (hy.mono fun z hz => by simp [Brs.fv, hz])).trans_le ih1.le)
    simp only [inlB]
    generalize inlE H rec j e σ fm s i = r at *
    generalize inlB H rec j bs σ fm s r.2 = q at *
    refine ⟨.cons ih1.rel (ih2.rel.mono ih1.le), ih1.le.trans ih2.le, ?_, ?_⟩
    · exact nodup_of_split ih1.nodup ih2.nodup ih1.lt ih2.rel.bv
    · intro y hy
      rcases List.mem_append.mp hy with hy | hy
      · exact (ih1.lt y hy).trans_le ih2.le
      · exact ih2.lt y hy
theorem genD (hrec : ∀ R, rec = some R → ∃ d', d = d' + 1 ∧ ∀ j, GenOk d' (R j)) : ∀ (B : Defs) (σ σ' : Var → Var) (fm : FM) (s : St)
    (i : IS), (B.names.map σ').Nodup → (∀ f ∈ B.names, σ' f < i.next) → (∀ f t xs b, (f, t, xs, b) ∈ B.toList → Good (put fm f none) b ∧
      ∀ y, Live (put fm f none) b.fv y → y ∉ xs → σ' y < i.next) →
    GenRD d fm σ' B i.next (inlD H rec j B σ σ' fm s i).1 (inlD H rec j B σ σ' fm s i).2.next
  | .nil, σ, σ', fm, s, i, _, _, _ => ⟨.nil, le_rfl, by simp [inlD, Defs.bv], by simp [inlD, Defs.bv]⟩
  | .cons f t xs e B, σ, σ', fm, s, i, hnd, hlt, hg => by
    have hns : (List.range' i.next xs.length).length = xs.length := by simp
    have hmem : ∀ y ∈ List.range' i.next xs.length, i.next ≤ y ∧ y < i.next + xs.length := fun y hy => mem_range'_var.mp hy
    have hle0 : i.next ≤ i.next + xs.length := Nat.le_add_right _ _
    obtain ⟨g1, g2⟩ := hg f t xs e (by simp [Defs.toList])
    have ih1 := genE hrec e (sets xs (List.range' i.next xs.length) σ') (put fm f none) (H.inFun f t xs e σ s) (i.bumps xs.length) g1
      (fun y hy => by
        by_cases hyx : y ∈ xs
        · exact (hmem _ (sets_in hyx hns.symm)).2
        · rw [sets_not_mem hyx]; exact (g2 y hy hyx).trans_le hle0)
    simp only [inlD]
    generalize inlE H rec j e (sets xs (List.range' i.next xs.length) σ') (put fm f none) (H.inFun f t xs e σ s) (i.bumps xs.length) = r at *
    have hle1 : i.next + xs.length ≤ r.2.next := ih1.le
    have hle : i.next ≤ r.2.next := hle0.trans hle1
    simp only [Defs.names, List.map_cons, List.nodup_cons] at hnd
    have ih2 := genD hrec B σ σ' fm s r.2 hnd.2 (fun g hm => (hlt g (by simp [Defs.names, hm])).trans_le hle)
      (fun g t' xs' b hm => by
        obtain ⟨a, b⟩ := hg g t' xs' b (by simp [Defs.toList, hm])
        exact ⟨a, fun y hy hyx => (b y hy hyx).trans_le hle⟩)
    generalize inlD H rec j B σ σ' fm s r.2 = q at *
    have hfl : σ' f < i.next := hlt f (by simp [Defs.names])
    have hge : ∀ y ∈ r.1.bv, i.next + xs.length ≤ y := ih1.rel.bv
    refine ⟨.cons hns List.nodup_range' hmem hle0 ih1.rel (ih2.rel.mono hle), hle.trans ih2.le, ?_, ?_⟩
    · simp only [Defs.bv, List.nodup_cons, List.mem_append, not_or]
      refine ⟨⟨fun hm => ?_, fun hm => ?_, fun hm => ?_⟩, ?_⟩
      · have := (hmem _ hm).1; vomega
      · have := hge _ hm; exact absurd (hle0.trans this) (Nat.not_le.mpr hfl)
      · rcases (ih2.lt _ hm).2 with h | h
        · exact hnd.1 h
        · exact absurd (hle.trans h) (Nat.not_le.mpr hfl)
      · rw [← List.append_assoc, List.nodup_append]
        refine ⟨nodup_of_split List.nodup_range' ih1.nodup (fun y hy => (hmem y hy).2) hge, ih2.nodup, ?_⟩
        intro a ha b hb hab
        subst hab
        have hlo : i.next ≤ a ∧ a < r.2.next := by
          rcases List.mem_append.mp ha with h | h
          · exact ⟨(hmem a h).1, lt_of_lt_of_le (hmem a h).2 hle1⟩
          · exact ⟨hle0.trans (hge a h), ih1.lt a h⟩
        rcases (ih2.lt a hb).2 with h | h
        · obtain ⟨g, hgm, rfl⟩ := List.mem_map.mp h
          exact absurd hlo.1 (Nat.not_le.mpr (hlt g (by simp [Defs.names, hgm])))
        · exact absurd h (Nat.not_le.mpr hlo.2)
    · intro y hy
      simp only [Defs.bv, List.mem_cons, List.mem_append] at hy
      rcases hy with rfl | hy | hy | hy
      · exact ⟨hfl.trans_le (hle.trans ih2.le), .inl (by simp [Defs.names])⟩
      · exact ⟨(lt_of_lt_of_le (hmem y hy).2 hle1).trans_le ih2.le, .inr (hmem y hy).1⟩
      · exact ⟨(ih1.lt y hy).trans_le ih2.le, .inr (hle0.trans (hge y hy))⟩
      · refine ⟨(ih2.lt y hy).1, ?_⟩
        rcases (ih2.lt y hy).2 with h | h
        · exact .inl (by simp only [Defs.names, List.map_cons, List.mem_cons]; exact .inr h)
        · exact .inr (hle.trans h)
end

end

theorem gen_ok {St : Type} (H : Heur St) : ∀ d j, GenOk d (inlExp H d j)
  | 0, j => fun e σ fm s i hg hb => genE (by intro R h; cases h) e σ fm s i hg hb
  | d + 1, j => fun e σ fm s i hg hb =>
    genE (by intro R h; cases h; exact ⟨d, rfl, gen_ok H d⟩) e σ fm s i hg hb

/-! ## Tags -/

theorem inlineLet_caseTags : ∀ {e : Exp} {x C r} {k : Exp} {T : Tag → Prop}, inlineLet e x = some (C, r) →
    (∀ t ∈ e.caseTags, T t) → (∀ t ∈ k.caseTags, T t) → ∀ t ∈ (C.plug k).caseTags, T t
  | .constr y t ys e, x, C, r, k, T, h, he, hk => by
    simp only [inlineLet, Option.map_eq_some_iff, Prod.mk.injEq] at h
    obtain ⟨⟨C', r'⟩, h, rfl, rfl⟩ := h
    have := inlineLet_caseTags (e := e) (k := k) h he hk; exact this
  | .case _ _, _, _, _, _, _, h, _, _ => by simp [inlineLet] at h
  | .proj y t i z e, x, C, r, k, T, h, he, hk => by
    simp only [inlineLet, Option.map_eq_some_iff, Prod.mk.injEq] at h
    obtain ⟨⟨C', r'⟩, h, rfl, rfl⟩ := h
    have := inlineLet_caseTags (e := e) (k := k) h he hk; exact this
  | .letapp y f t ys e, x, C, r, k, T, h, he, hk => by
    simp only [inlineLet, Option.map_eq_some_iff, Prod.mk.injEq] at h
    obtain ⟨⟨C', r'⟩, h, rfl, rfl⟩ := h
    have := inlineLet_caseTags (e := e) (k := k) h he hk; exact this
  | .fn B e, x, C, r, k, T, h, he, hk => by
    simp only [inlineLet, Option.map_eq_some_iff, Prod.mk.injEq] at h
    obtain ⟨⟨C', r'⟩, h, rfl, rfl⟩ := h
    intro t ht
    simp only [Ctx.plug, Exp.caseTags, List.mem_append] at ht
    rcases ht with ht | ht
    · exact he t (by simp [Exp.caseTags, ht])
    · exact inlineLet_caseTags (e := e) h (fun t ht => he t (by simp [Exp.caseTags, ht])) hk t ht
  | .app f t ys, x, C, r, k, T, h, he, hk => by
    simp only [inlineLet, Option.some.injEq, Prod.mk.injEq] at h
    obtain ⟨rfl, rfl⟩ := h
    exact hk
  | .primVal y p e, x, C, r, k, T, h, he, hk => by
    simp only [inlineLet, Option.map_eq_some_iff, Prod.mk.injEq] at h
    obtain ⟨⟨C', r'⟩, h, rfl, rfl⟩ := h
    have := inlineLet_caseTags (e := e) (k := k) h he hk; exact this
  | .prim y p ys e, x, C, r, k, T, h, he, hk => by
    simp only [inlineLet, Option.map_eq_some_iff, Prod.mk.injEq] at h
    obtain ⟨⟨C', r'⟩, h, rfl, rfl⟩ := h
    have := inlineLet_caseTags (e := e) (k := k) h he hk; exact this
  | .halt y, x, C, r, k, T, h, he, hk => by
    simp only [inlineLet, Option.some.injEq, Prod.mk.injEq] at h
    obtain ⟨rfl, rfl⟩ := h
    exact hk

/-- The bodies of the known functions match on tags in `T` only. -/
def FmTags (fm : FM) (T : Tag → Prop) : Prop := ∀ k t xs b, fm k = some (t, xs, b) → ∀ u ∈ b.caseTags, T u

theorem FmTags.rem {fm f T} (h : FmTags fm T) : FmTags (put fm f none) T :=
  fun k t xs b hk => h k t xs b (rem_some hk).2

mutual
theorem RE.caseTags {T : Tag → Prop} {d : Nat} {n : Var} {fm : FM} {σ : Var → Var} {e e' : Exp} : RE d n fm σ e e' → FmTags fm T →
    (∀ t ∈ e.caseTags, T t) → ∀ t ∈ e'.caseTags, T t
  | .constr _ he, hf, ht => he.caseTags hf ht
  | .case hb, hf, ht => hb.caseTags hf ht
  | .proj _ he, hf, ht => he.caseTags hf ht
  | .letapp _ he, hf, ht => he.caseTags hf ht
  | .letinl h1 _ _ h4 h5 _ _ h8, hf, ht => inlineLet_caseTags h5 (h4.caseTags hf.rem (hf _ _ _ _ h1)) (h8.caseTags hf ht)
  | .fn (B := B) _ _ _ _ h5 h6, hf, ht => by
    have hf' : FmTags (addDefs B fm) T := by
      intro k t xs b hk u hu
      rcases addDefs_some hk with hk | ⟨_, hk⟩
      · exact ht u (by simp [Exp.caseTags, findDef_caseTags hk u hu])
      · exact hf k t xs b hk u hu
    intro t h
    simp only [Exp.caseTags, List.mem_append] at h
    rcases h with h | h
    · exact h5.caseTags hf' (fun t h => ht t (by simp [Exp.caseTags, h])) t h
    · exact h6.caseTags hf' (fun t h => ht t (by simp [Exp.caseTags, h])) t h
  | .app, _, _ => by simp [Exp.caseTags]
  | .appinl h1 _ h3, hf, _ => h3.caseTags hf.rem (hf _ _ _ _ h1)
  | .primVal _ he, hf, ht => he.caseTags hf ht
  | .prim _ he, hf, ht => he.caseTags hf ht
  | .halt, _, _ => by simp [Exp.caseTags]
theorem RB.caseTags {T : Tag → Prop} {d : Nat} {n : Var} {fm : FM} {σ : Var → Var} {bs bs' : Brs} : RB d n fm σ bs bs' → FmTags fm T →
    (∀ t ∈ bs.caseTags, T t) → ∀ t ∈ bs'.caseTags, T t
  | .nil, _, _ => by simp [Brs.caseTags]
  | .cons h1 h2, hf, ht => by
    intro t h
    simp only [Brs.caseTags, List.mem_cons, List.mem_append] at h
    rcases h with rfl | h | h
    · exact ht _ (by simp [Brs.caseTags])
    · exact h1.caseTags hf (fun t h => ht t (by simp [Brs.caseTags, h])) t h
    · exact h2.caseTags hf (fun t h => ht t (by simp [Brs.caseTags, h])) t h
theorem RD.caseTags {T : Tag → Prop} {d : Nat} {n : Var} {fm : FM} {σ : Var → Var} {B B' : Defs} : RD d n fm σ B B' → FmTags fm T →
    (∀ t ∈ B.caseTags, T t) → ∀ t ∈ B'.caseTags, T t
  | .nil, _, _ => by simp [Defs.caseTags]
  | .cons _ _ _ _ h5 h6, hf, ht => by
    intro t h
    simp only [Defs.caseTags, List.mem_append] at h
    rcases h with h | h
    · exact h5.caseTags hf.rem (fun t h => ht t (by simp [Defs.caseTags, h])) t h
    · exact h6.caseTags hf (fun t h => ht t (by simp [Defs.caseTags, h])) t h
end

end Inl
end ANF
