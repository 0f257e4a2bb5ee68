import Verif.ANF.InlModel
import Verif.ANF.UncSim

/-!
# Inlining: the relation between a term and its inlined forms

`RE d n fm σ e e'`: `e'` is `e` renamed by `σ`, with names from `n` on, where calls of functions in `fm` may have been
replaced by their bodies, nested at most `d` deep.
-/

namespace ANF
namespace Inl
open Ll (put)

mutual
/-- Terms. -/
inductive RE : Nat → Var → FM → (Var → Var) → Exp → Exp → Prop
  | constr {d n fm σ x x' t ys e e'} : n ≤ x' → RE d (x' + 1) fm (put σ x x') e e' →
      RE d n fm σ (.constr x t ys e) (.constr x' t (ys.map σ) e')
  | case {d n fm σ x bs bs'} : RB d n fm σ bs bs' → RE d n fm σ (.case x bs) (.case (σ x) bs')
  | proj {d n fm σ x x' t i y e e'} : n ≤ x' → RE d (x' + 1) fm (put σ x x') e e' →
      RE d n fm σ (.proj x t i y e) (.proj x' t i (σ y) e')
  | letapp {d n fm σ x x' f t ys e e'} : n ≤ x' → RE d (x' + 1) fm (put σ x x') e e' →
      RE d n fm σ (.letapp x f t ys e) (.letapp x' (σ f) t (ys.map σ) e')
  | letinl {d n n₂ fm σ x x' f t ys ec ft xs eb eb' C z ec'} : fm f = some (ft, xs, eb) → xs.length = ys.length → n ≤ x' →
      RE d (x' + 1) (put fm f none) (sets xs (ys.map σ) σ) eb eb' → inlineLet eb' x' = some (C, z) → z < n₂ → n ≤ n₂ →
      RE d n₂ fm (put σ x z) ec ec' → RE (d + 1) n fm σ (.letapp x f t ys ec) (C.plug ec')
  | fn {d n n₁ fm σ B B' e e' ns} : ns.length = B.names.length → ns.Nodup → (∀ y ∈ ns, n ≤ y ∧ y < n₁) → n ≤ n₁ →
      RD d n₁ (addDefs B fm) (sets B.names ns σ) B B' → RE d n₁ (addDefs B fm) (sets B.names ns σ) e e' →
      RE d n fm σ (.fn B e) (.fn B' e')
  | app {d n fm σ f t ys} : RE d n fm σ (.app f t ys) (.app (σ f) t (ys.map σ))
  | appinl {d n fm σ f t ys ft xs eb e'} : fm f = some (ft, xs, eb) → xs.length = ys.length →
      RE d n (put fm f none) (sets xs (ys.map σ) σ) eb e' → RE (d + 1) n fm σ (.app f t ys) e'
  | primVal {d n fm σ x x' p e e'} : n ≤ x' → RE d (x' + 1) fm (put σ x x') e e' →
      RE d n fm σ (.primVal x p e) (.primVal x' p e')
  | prim {d n fm σ x x' p ys e e'} : n ≤ x' → RE d (x' + 1) fm (put σ x x') e e' →
      RE d n fm σ (.prim x p ys e) (.prim x' p (ys.map σ) e')
  | halt {d n fm σ x} : RE d n fm σ (.halt x) (.halt (σ x))
/-- Branches. -/
inductive RB : Nat → Var → FM → (Var → Var) → Brs → Brs → Prop
  | nil {d n fm σ} : RB d n fm σ .nil .nil
  | cons {d n fm σ t e e' bs bs'} : RE d n fm σ e e' → RB d n fm σ bs bs' → RB d n fm σ (.cons t e bs) (.cons t e' bs')
/-- Bundles. -/
inductive RD : Nat → Var → FM → (Var → Var) → Defs → Defs → Prop
  | nil {d n fm σ} : RD d n fm σ .nil .nil
  | cons {d n n₁ fm σ f t xs xs' e e' B B'} : xs'.length = xs.length → xs'.Nodup → (∀ y ∈ xs', n ≤ y ∧ y < n₁) → n ≤ n₁ →
      RE d n₁ (put fm f none) (sets xs xs' σ) e e' → RD d n fm σ B B' →
      RD d n fm σ (.cons f t xs e B) (.cons (σ f) t xs' e' B')
end

/-! ## Renamings and maps -/

theorem put_self {α : Type} {m : Var → α} {x a} : put m x a x = a := by simp [put]

theorem put_other {α : Type} {m : Var → α} {x y a} (h : y ≠ x) : put m x a y = m y := by simp [put, h]

theorem sets_not_mem {σ : Var → Var} : ∀ {xs ys : List Var} {z}, z ∉ xs → sets xs ys σ z = σ z
  | [], ys, z, _ => by simp [sets]
  | x :: xs, [], z, _ => by simp [sets]
  | x :: xs, y :: ys, z, h => by
    simp only [List.mem_cons, not_or] at h
    simp only [sets, put_other h.1]
    exact sets_not_mem h.2

theorem sets_mem {σ : Var → Var} : ∀ {xs ys : List Var} {z}, z ∈ xs → xs.length = ys.length →
    ∃ i : Nat, xs[i]? = some z ∧ ys[i]? = some (sets xs ys σ z)
  | [], ys, z, h, _ => by simp at h
  | x :: xs, [], z, _, hl => by simp at hl
  | x :: xs, y :: ys, z, h, hl => by
    by_cases hz : z = x
    · subst hz; exact ⟨0, rfl, by simp [sets, put_self]⟩
    · obtain ⟨i, h1, h2⟩ := sets_mem (σ := σ) (z := z) (by simpa [hz] using h) (by simpa using hl)
      exact ⟨i + 1, by simpa using h1, by simpa [sets, put_other hz] using h2⟩

theorem sets_map {σ : Var → Var} : ∀ {xs ys : List Var}, xs.Nodup → xs.length = ys.length → xs.map (sets xs ys σ) = ys
  | [], [], _, _ => rfl
  | [], _ :: _, _, hl => by simp at hl
  | x :: xs, [], _, hl => by simp at hl
  | x :: xs, y :: ys, hn, hl => by
    simp only [List.nodup_cons] at hn
    simp only [List.map_cons, sets, put_self]
    congr 1
    rw [← sets_map (σ := σ) hn.2 (by simpa using hl : xs.length = ys.length)]
    apply List.map_congr_left
    intro z hz
    rw [sets_map hn.2 (by simpa using hl)]
    exact put_other fun h => hn.1 (h ▸ hz)

theorem sets_in {σ : Var → Var} {xs ys : List Var} {z} (hz : z ∈ xs) (hl : xs.length = ys.length) : sets xs ys σ z ∈ ys := by
  obtain ⟨i, _, h⟩ := sets_mem (σ := σ) hz hl
  exact List.mem_of_getElem? h

theorem addDefs_eq : ∀ (B : Defs) (fm : FM) (k : Var), addDefs B fm k = match findDef k B with
    | some r => some r
    | none => fm k := by
  intro B
  induction B using Defs.ind with
  | nil => intro fm k; simp [addDefs, findDef]
  | cons f t xs e B ih =>
    intro fm k
    simp only [addDefs, findDef, put]
    split
    · rfl
    · exact ih fm k

theorem addDefs_find {B : Defs} {fm : FM} {k r} (h : findDef k B = some r) : addDefs B fm k = some r := by
  rw [addDefs_eq, h]

theorem addDefs_none {B : Defs} {fm : FM} {k} (h : k ∉ B.names) : addDefs B fm k = fm k := by
  rw [addDefs_eq]
  rcases hf : findDef k B with _ | r
  · rfl
  · exact absurd (findDef_mem hf) h

theorem addDefs_some {B : Defs} {fm : FM} {k r} (h : addDefs B fm k = some r) :
    findDef k B = some r ∨ k ∉ B.names ∧ fm k = some r := by
  rw [addDefs_eq] at h
  rcases hf : findDef k B with _ | r'
  · rw [hf] at h
    refine .inr ⟨fun hm => ?_, h⟩
    obtain ⟨r', h'⟩ := findDef_some hm
    rw [hf] at h'; cases h'
  · rw [hf] at h; exact .inl h

theorem rem_some {fm : FM} {f k r} (h : put fm f none k = some r) : k ≠ f ∧ fm k = some r := by
  by_cases hk : k = f
  · subst hk; rw [put_self] at h; cases h
  · rw [put_other hk] at h; exact ⟨hk, h⟩

/-! ## Well-bound terms and maps -/

/-- The term and the bodies in the map bind different names, not those free in one another. -/
structure Good (fm : FM) (e : Exp) : Prop where
  nodup : e.bv.Nodup
  disj : ∀ x ∈ e.bv, x ∉ e.fv
  body : ∀ {k t xs b}, fm k = some (t, xs, b) → (xs ++ b.bv).Nodup ∧ (∀ x ∈ xs ++ b.bv, x ≠ k ∧ x ∉ e.fv ∧ x ∉ e.bv) ∧
    (∀ x ∈ b.bv, x ∉ b.fv) ∧ ∀ x ∈ e.bv, x ≠ k ∧ x ∉ b.fv
  pair : ∀ {k h t xs b t' xs' b'}, k ≠ h → fm k = some (t, xs, b) → fm h = some (t', xs', b') → ∀ x ∈ xs ++ b.bv,
    x ≠ h ∧ x ∉ xs' ++ b'.bv ∧ x ∉ b'.fv

theorem Good.sub {fm e e₁} (h : Good fm e) (hb : e₁.bv.Sublist e.bv)
    (hf : ∀ y ∈ e₁.fv, y ∈ e.fv ∨ y ∈ e.bv ∧ y ∉ e₁.bv) : Good fm e₁ where
  nodup := h.nodup.sublist hb
  disj x hx hxf := by
    rcases hf x hxf with h1 | h1
    · exact h.disj x (hb.subset hx) h1
    · exact h1.2 hx
  body hk := by
    obtain ⟨h1, h2, h3, h4⟩ := h.body hk
    refine ⟨h1, fun x hx => ⟨(h2 x hx).1, fun hxf => ?_, fun hxb => (h2 x hx).2.2 (hb.subset hxb)⟩, h3,
      fun x hx => h4 x (hb.subset hx)⟩
    rcases hf x hxf with h5 | h5
    · exact (h2 x hx).2.1 h5
    · exact (h2 x hx).2.2 h5.1
  pair := h.pair

theorem Good.tail {fm} {e e₁ : Exp} {x : Var} (h : Good fm e) (hb : e.bv = x :: e₁.bv)
    (hf : ∀ y ∈ e₁.fv, y = x ∨ y ∈ e.fv) : Good fm e₁ := by
  have hn := h.nodup
  rw [hb, List.nodup_cons] at hn
  refine h.sub (by rw [hb]; exact List.sublist_cons_self _ _) ?_
  intro y hy
  rcases hf y hy with rfl | h1
  · exact .inr ⟨by rw [hb]; simp, hn.1⟩
  · exact .inl h1

theorem Good.known {fm e f t xs b} (h : Good fm e) (hf : fm f = some (t, xs, b)) : Good (put fm f none) b where
  nodup := ((h.body hf).1).sublist (List.sublist_append_right _ _)
  disj := (h.body hf).2.2.1
  body hk := by
    obtain ⟨hkf, hk⟩ := rem_some hk
    obtain ⟨h1, h2, h3, h4⟩ := h.body hk
    refine ⟨h1, fun x hx => ⟨(h2 x hx).1, (h.pair hkf hk hf x hx).2.2, fun hb => ?_⟩, h3, fun x hx => ?_⟩
    · exact (h.pair hkf hk hf x hx).2.1 (List.mem_append_right _ hb)
    · have := h.pair (Ne.symm hkf) hf hk x (List.mem_append_right _ hx)
      exact ⟨this.1, this.2.2⟩
  pair hkh hk hh := h.pair hkh (rem_some hk).2 (rem_some hh).2

theorem bodies_disjoint : ∀ {B : Defs}, B.bv.Nodup → ∀ {k h t xs b t' xs' b'}, k ≠ h → findDef k B = some (t, xs, b) →
    findDef h B = some (t', xs', b') → ∀ x ∈ xs ++ b.bv, x ∉ xs' ++ b'.bv := by
  intro B
  induction B using Defs.ind with
  | nil => intro _ k h t xs b t' xs' b' _ hk; simp [findDef] at hk
  | cons f ft ys e B ih =>
    intro hn k h t xs b t' xs' b' hkh hk hh x hx hx'
    simp only [Defs.bv, List.nodup_cons] at hn
    have hn2 : ((ys ++ e.bv) ++ B.bv).Nodup := by rw [List.append_assoc]; exact hn.2
    rw [List.nodup_append] at hn2
    simp only [findDef] at hk hh
    split at hk
    · cases hk
      split at hh
      · next h1 h2 => exact hkh (h1.trans h2.symm)
      · exact hn2.2.2 x hx x ((findDef_bv hh).subset hx') rfl
    · split at hh
      · cases hh
        exact hn2.2.2 x hx' x ((findDef_bv hk).subset hx) rfl
      · exact ih hn2.2.1 hkh hk hh x hx hx'

theorem Good.fn {fm B e} (h : Good fm (.fn B e)) : Good (addDefs B fm) e := by
  have hn : B.bv.Nodup ∧ e.bv.Nodup ∧ ∀ x ∈ B.bv, ∀ y ∈ e.bv, x ≠ y := by
    have := h.nodup; simp only [Exp.bv] at this; rwa [List.nodup_append] at this
  have hfv : ∀ y ∈ e.fv, y ∈ B.names ∨ y ∈ (Exp.fn B e).fv := by
    intro y hy
    by_cases hyn : y ∈ B.names
    · exact .inl hyn
    · exact .inr (by simp [Exp.fv, hy, hyn])
  have hBfv : ∀ y ∈ B.fv, y ∈ (Exp.fn B e).fv := by
    intro y hy
    simp only [Defs.fv, Finset.mem_sdiff, List.mem_toFinset] at hy
    simp [Exp.fv, hy]
  have hnb : ∀ y ∈ B.names, y ∈ B.bv := fun y hy => (names_bv B).subset hy
  have hbv : ∀ y ∈ B.bv, y ∈ (Exp.fn B e).bv := fun y hy => by simp [Exp.bv, hy]
  have hbe : ∀ y ∈ e.bv, y ∈ (Exp.fn B e).bv := fun y hy => by simp [Exp.bv, hy]
  have hpar : ∀ {k t xs b}, findDef k B = some (t, xs, b) → ∀ x ∈ xs ++ b.bv, x ∉ B.names := by
    intro k t xs b hk x hx hxn
    obtain ⟨_, p2, p3⟩ := params_of_nodup hn.1 k t xs b (mem_of_findDef hk)
    rcases List.mem_append.mp hx with hx | hx
    · exact p2 x hx hxn
    · exact p3 x hx hxn
  have hbodyfv : ∀ {k t xs b}, findDef k B = some (t, xs, b) → ∀ x, x ∈ (Exp.fn B e).bv → x ∉ xs → x ∉ B.names → x ∉ b.fv := by
    intro k t xs b hk x hx hxs hxn hxb
    rcases fv_body hk x hxb with h1 | h1 | h1
    · exact hxs h1
    · exact hxn h1
    · exact h.disj x hx (hBfv x h1)
  refine ⟨hn.2.1, ?_, ?_, ?_⟩
  · intro x hx hxf
    rcases hfv x hxf with h1 | h1
    · exact hn.2.2 x (hnb x h1) x hx rfl
    · exact h.disj x (hbe x hx) h1
  · intro k t xs b hk
    rcases addDefs_some hk with hk | ⟨hkn, hk⟩
    · have hs := findDef_bv hk
      refine ⟨hn.1.sublist hs, fun x hx => ⟨?_, fun hxf => ?_, fun hxb => ?_⟩, fun x hx => ?_, fun x hx => ⟨?_, ?_⟩⟩
      · rintro rfl; exact hpar hk _ hx (findDef_mem hk)
      · rcases hfv x hxf with h1 | h1
        · exact hpar hk _ hx h1
        · exact h.disj x (hbv x (hs.subset hx)) h1
      · exact hn.2.2 x (hs.subset hx) x hxb rfl
      · have hx' : x ∈ xs ++ b.bv := List.mem_append_right _ hx
        have hnd := hn.1.sublist hs
        rw [List.nodup_append] at hnd
        exact hbodyfv hk x (hbv x (hs.subset hx')) (fun hxs => hnd.2.2 x hxs x hx rfl) (hpar hk x hx')
      · rintro rfl; exact hn.2.2 x (hnb x (findDef_mem hk)) x hx rfl
      · exact hbodyfv hk x (hbe x hx) (fun hxs => hn.2.2 x (hs.subset (List.mem_append_left _ hxs)) x hx rfl)
          (fun hxn => hn.2.2 x (hnb x hxn) x hx rfl)
    · obtain ⟨h1, h2, h3, h4⟩ := h.body hk
      refine ⟨h1, fun x hx => ⟨(h2 x hx).1, fun hxf => ?_, fun hxb => (h2 x hx).2.2 (hbe x hxb)⟩, h3,
        fun x hx => h4 x (hbe x hx)⟩
      rcases hfv x hxf with h5 | h5
      · exact (h2 x hx).2.2 (hbv x (hnb x h5))
      · exact (h2 x hx).2.1 h5
  · intro k l t xs b t' xs' b' hkl hk hl x hx
    rcases addDefs_some hk with hk | ⟨hkn, hk⟩ <;> rcases addDefs_some hl with hl | ⟨hln, hl⟩
    · have hd := bodies_disjoint hn.1 hkl hk hl x hx
      refine ⟨?_, hd, ?_⟩
      · rintro rfl; exact hpar hk _ hx (findDef_mem hl)
      · exact hbodyfv hl x (hbv x ((findDef_bv hk).subset hx)) (fun h1 => hd (List.mem_append_left _ h1)) (hpar hk x hx)
    · have hxb := hbv x ((findDef_bv hk).subset hx)
      obtain ⟨_, h2, _, h4⟩ := h.body hl
      exact ⟨(h4 x hxb).1, fun h5 => (h2 x h5).2.2 hxb, (h4 x hxb).2⟩
    · obtain ⟨_, h2, _, h4⟩ := h.body hk
      have hs := findDef_bv hl
      have hxb := (h2 x hx).2.2
      refine ⟨?_, fun h5 => hxb (hbv x (hs.subset h5)), fun h5 => ?_⟩
      · rintro rfl; exact hxb (hbv x (hnb x (findDef_mem hl)))
      · rcases fv_body hl x h5 with h6 | h6 | h6
        · exact hxb (hbv x (hs.subset (List.mem_append_left _ h6)))
        · exact hxb (hbv x (hnb x h6))
        · exact (h2 x hx).2.1 (hBfv x h6)
    · exact h.pair hkl hk hl x hx

/-! ## Monotonicity and binders of the relation -/

mutual
theorem RE.mono {d : Nat} {n : Var} {fm : FM} {σ : Var → Var} {e e' : Exp} {m : Var} (hm : m ≤ n) :
    RE d n fm σ e e' → RE d m fm σ e e'
  | .constr h he => .constr (hm.trans h) he
  | .case hb => .case (hb.mono hm)
  | .proj h he => .proj (hm.trans h) he
  | .letapp h he => .letapp (hm.trans h) he
  | .letinl h1 h2 h3 h4 h5 h6 h7 h8 => .letinl h1 h2 (hm.trans h3) h4 h5 h6 (hm.trans h7) h8
  | .fn h1 h2 h3 h4 h5 h6 => .fn h1 h2 (fun y hy => ⟨hm.trans (h3 y hy).1, (h3 y hy).2⟩) (hm.trans h4) h5 h6
  | .app => .app
  | .appinl h1 h2 h3 => .appinl h1 h2 (h3.mono hm)
  | .primVal h he => .primVal (hm.trans h) he
  | .prim h he => .prim (hm.trans h) he
  | .halt => .halt
theorem RB.mono {d : Nat} {n : Var} {fm : FM} {σ : Var → Var} {bs bs' : Brs} {m : Var} (hm : m ≤ n) :
    RB d n fm σ bs bs' → RB d m fm σ bs bs'
  | .nil => .nil
  | .cons h1 h2 => .cons (h1.mono hm) (h2.mono hm)
end

theorem RD.mono {d : Nat} {n : Var} {fm : FM} {σ : Var → Var} {m : Var} (hm : m ≤ n) : ∀ {B B' : Defs},
    RD d n fm σ B B' → RD d m fm σ B B'
  | _, _, .nil => .nil
  | _, _, .cons h1 h2 h3 h4 h5 h6 =>
    .cons h1 h2 (fun y hy => ⟨hm.trans (h3 y hy).1, (h3 y hy).2⟩) (hm.trans h4) h5 (h6.mono hm)

/-- The binders of an inlined body in a context. -/
theorem inlineLet_bv : ∀ {e : Exp} {x C z} (k : Exp), inlineLet e x = some (C, z) →
    ∃ l, (C.plug k).bv = e.bv ++ (l ++ k.bv) ∧ (l = [] ∨ l = [x]) ∧ (z = x → l = [] → z ∈ e.bv ∨ z ∈ e.fv) ∧
      (z = x ∨ z ∈ e.bv ∨ z ∈ e.fv)
  | .constr y t ys e, x, C, z, k, h => by
    simp only [inlineLet, Option.map_eq_some_iff, Prod.mk.injEq] at h
    obtain ⟨⟨C', z'⟩, h, rfl, rfl⟩ := h
    obtain ⟨l, h1, h2, h3, h4⟩ := inlineLet_bv k h
    refine ⟨l, by simp [Ctx.plug, Exp.bv, h1], h2, fun a b => ?_, ?_⟩
    · rcases h3 a b with h | h
      · exact .inl (by simp [Exp.bv, h])
      · by_cases hz : z' = y
        · exact .inl (by simp [Exp.bv, hz])
        · exact .inr (by simp [Exp.fv, h, hz])
    · rcases h4 with h | h | h
      · exact .inl h
      · exact .inr (.inl (by simp [Exp.bv, h]))
      · by_cases hz : z' = y
        · exact .inr (.inl (by simp [Exp.bv, hz]))
        · exact .inr (.inr (by simp [Exp.fv, h, hz]))
  | .case _ _, _, _, _, _, h => by simp [inlineLet] at h
  | .proj y t i w e, x, C, z, k, h => by
    simp only [inlineLet, Option.map_eq_some_iff, Prod.mk.injEq] at h
    obtain ⟨⟨C', z'⟩, h, rfl, rfl⟩ := h
    obtain ⟨l, h1, h2, h3, h4⟩ := inlineLet_bv k h
    refine ⟨l, by simp [Ctx.plug, Exp.bv, h1], h2, fun a b => ?_, ?_⟩
    · rcases h3 a b with h | h
      · exact .inl (by simp [Exp.bv, h])
      · by_cases hz : z' = y
        · exact .inl (by simp [Exp.bv, hz])
        · exact .inr (by simp [Exp.fv, h, hz])
    · rcases h4 with h | h | h
      · exact .inl h
      · exact .inr (.inl (by simp [Exp.bv, h]))
      · by_cases hz : z' = y
        · exact .inr (.inl (by simp [Exp.bv, hz]))
        · exact .inr (.inr (by simp [Exp.fv, h, hz]))
  | .letapp y f t ys e, x, C, z, k, h => by
    simp only [inlineLet, Option.map_eq_some_iff, Prod.mk.injEq] at h
    obtain ⟨⟨C', z'⟩, h, rfl, rfl⟩ := h
    obtain ⟨l, h1, h2, h3, h4⟩ := inlineLet_bv k h
    refine ⟨l, by simp [Ctx.plug, Exp.bv, h1], h2, fun a b => ?_, ?_⟩
    · rcases h3 a b with h | h
      · exact .inl (by simp [Exp.bv, h])
      · by_cases hz : z' = y
        · exact .inl (by simp [Exp.bv, hz])
        · exact .inr (by simp [Exp.fv, h, hz])
    · rcases h4 with h | h | h
      · exact .inl h
      · exact .inr (.inl (by simp [Exp.bv, h]))
      · by_cases hz : z' = y
        · exact .inr (.inl (by simp [Exp.bv, hz]))
        · exact .inr (.inr (by simp [Exp.fv, h, hz]))
  | .fn B e, x, C, z, k, h => by
    simp only [inlineLet, Option.map_eq_some_iff, Prod.mk.injEq] at h
    obtain ⟨⟨C', z'⟩, h, rfl, rfl⟩ := h
    obtain ⟨l, h1, h2, h3, h4⟩ := inlineLet_bv k h
    have hn : z' ∈ B.names → z' ∈ B.bv := fun h => (names_bv B).subset h
    refine ⟨l, by simp [Ctx.plug, Exp.bv, h1], h2, fun a b => ?_, ?_⟩
    · rcases h3 a b with h | h
      · exact .inl (by simp [Exp.bv, h])
      · by_cases hz : z' ∈ B.names
        · exact .inl (by simp [Exp.bv, hn hz])
        · exact .inr (by simp [Exp.fv, h, hz])
    · rcases h4 with h | h | h
      · exact .inl h
      · exact .inr (.inl (by simp [Exp.bv, h]))
      · by_cases hz : z' ∈ B.names
        · exact .inr (.inl (by simp [Exp.bv, hn hz]))
        · exact .inr (.inr (by simp [Exp.fv, h, hz]))
  | .app f t ys, x, C, z, k, h => by
    simp only [inlineLet, Option.some.injEq, Prod.mk.injEq] at h
    obtain ⟨rfl, rfl⟩ := h
    exact ⟨[x], rfl, .inr rfl, fun _ h => by simp at h, .inl rfl⟩
  | .primVal y p e, x, C, z, k, h => by
    simp only [inlineLet, Option.map_eq_some_iff, Prod.mk.injEq] at h
    obtain ⟨⟨C', z'⟩, h, rfl, rfl⟩ := h
    obtain ⟨l, h1, h2, h3, h4⟩ := inlineLet_bv k h
    refine ⟨l, by simp [Ctx.plug, Exp.bv, h1], h2, fun a b => ?_, ?_⟩
    · rcases h3 a b with h | h
      · exact .inl (by simp [Exp.bv, h])
      · by_cases hz : z' = y
        · exact .inl (by simp [Exp.bv, hz])
        · exact .inr (by simp [Exp.fv, h, hz])
    · rcases h4 with h | h | h
      · exact .inl h
      · exact .inr (.inl (by simp [Exp.bv, h]))
      · by_cases hz : z' = y
        · exact .inr (.inl (by simp [Exp.bv, hz]))
        · exact .inr (.inr (by simp [Exp.fv, h, hz]))
  | .prim y p ys e, x, C, z, k, h => by
    simp only [inlineLet, Option.map_eq_some_iff, Prod.mk.injEq] at h
    obtain ⟨⟨C', z'⟩, h, rfl, rfl⟩ := h
    obtain ⟨l, h1, h2, h3, h4⟩ := inlineLet_bv k h
    refine ⟨l, by simp [Ctx.plug, Exp.bv, h1], h2, fun a b => ?_, ?_⟩
    · rcases h3 a b with h | h
      · exact .inl (by simp [Exp.bv, h])
      · by_cases hz : z' = y
        · exact .inl (by simp [Exp.bv, hz])
        · exact .inr (by simp [Exp.fv, h, hz])
    · rcases h4 with h | h | h
      · exact .inl h
      · exact .inr (.inl (by simp [Exp.bv, h]))
      · by_cases hz : z' = y
        · exact .inr (.inl (by simp [Exp.bv, hz]))
        · exact .inr (.inr (by simp [Exp.fv, h, hz]))
  | .halt y, x, C, z, k, h => by
    simp only [inlineLet, Option.some.injEq, Prod.mk.injEq] at h
    obtain ⟨rfl, rfl⟩ := h
    exact ⟨[], rfl, .inl rfl, fun _ _ => .inr (by simp [Exp.fv]), .inr (.inr (by simp [Exp.fv]))⟩

theorem RD.names {d n fm σ} : ∀ {B B' : Defs}, RD d n fm σ B B' → B'.names = B.names.map σ
  | _, _, .nil => rfl
  | _, _, .cons _ _ _ _ _ h => by simp [Defs.names, h.names]

mutual
theorem RE.bv {d : Nat} {n : Var} {fm : FM} {σ : Var → Var} {e e' : Exp} : RE d n fm σ e e' → ∀ y ∈ e'.bv, n ≤ y
  | .constr h he, y, hy => by
    rcases List.mem_cons.mp hy with rfl | hy
    · exact h
    · have := he.bv y hy; vomega
  | .case hb, y, hy => hb.bv y hy
  | .proj h he, y, hy => by
    rcases List.mem_cons.mp hy with rfl | hy
    · exact h
    · have := he.bv y hy; vomega
  | .letapp h he, y, hy => by
    rcases List.mem_cons.mp hy with rfl | hy
    · exact h
    · have := he.bv y hy; vomega
  | .letinl (ec' := ec') h1 h2 h3 h4 h5 h6 h7 h8, y, hy => by
    obtain ⟨l, hl, hl', _⟩ := inlineLet_bv ec' h5
    rw [hl, List.mem_append, List.mem_append] at hy
    rcases hy with hy | hy | hy
    · have := h4.bv y hy; vomega
    · rcases hl' with rfl | rfl
      · simp at hy
      · simp only [List.mem_singleton] at hy; subst hy; exact h3
    · have := h8.bv y hy; exact h7.trans this
  | .fn (B := B) (ns := ns) h1 h2 h3 h4 h5 h6, y, hy => by
    rcases List.mem_append.mp hy with hy | hy
    · exact h5.bv (fun f hf => (h3 _ (sets_in hf h1.symm)).1) h4 y hy
    · exact h4.trans (h6.bv y hy)
  | .app, y, hy => by simp [Exp.bv] at hy
  | .appinl h1 h2 h3, y, hy => h3.bv y hy
  | .primVal h he, y, hy => by
    rcases List.mem_cons.mp hy with rfl | hy
    · exact h
    · have := he.bv y hy; vomega
  | .prim h he, y, hy => by
    rcases List.mem_cons.mp hy with rfl | hy
    · exact h
    · have := he.bv y hy; vomega
  | .halt, y, hy => by simp [Exp.bv] at hy
theorem RB.bv {d : Nat} {n : Var} {fm : FM} {σ : Var → Var} {bs bs' : Brs} : RB d n fm σ bs bs' → ∀ y ∈ bs'.bv, n ≤ y
  | .nil, y, hy => by simp [Brs.bv] at hy
  | .cons h1 h2, y, hy => by
    rcases List.mem_append.mp hy with hy | hy
    · exact h1.bv y hy
    · exact h2.bv y hy
theorem RD.bv {d : Nat} {n : Var} {fm : FM} {σ : Var → Var} {B B' : Defs} {m : Var} : RD d n fm σ B B' →
    (∀ f ∈ B.names, m ≤ σ f) → m ≤ n → ∀ y ∈ B'.bv, m ≤ y
  | .nil, _, _, y, hy => by simp [Defs.bv] at hy
  | .cons h1 h2 h3 h4 h5 h6, hs, hm, y, hy => by
    simp only [Defs.bv, List.mem_cons, List.mem_append] at hy
    rcases hy with rfl | hy | hy | hy
    · exact hs _ (by simp [Defs.names])
    · exact hm.trans (h3 y hy).1
    · exact hm.trans (h4.trans (h5.bv y hy))
    · exact h6.bv (fun f hf => hs f (by simp [Defs.names, hf])) hm y hy
end

theorem RB.tags {d n fm σ} : ∀ {bs bs' : Brs}, RB d n fm σ bs bs' → bs'.tags = bs.tags
  | _, _, .nil => rfl
  | _, _, .cons _ h => by simp [Brs.tags, h.tags]

theorem RB.find {d n fm σ t} : ∀ {bs bs' : Brs} {e}, RB d n fm σ bs bs' → findTag t bs = some e →
    ∃ e', findTag t bs' = some e' ∧ RE d n fm σ e e'
  | _, _, _, .nil, h => by simp [findTag] at h
  | _, _, _, .cons (t := u) he hb, h => by
    simp only [findTag] at h ⊢
    split at h
    · next hu => cases h; exact ⟨_, by simp [hu], he⟩
    · next hu => simp only [hu, if_false]; exact hb.find h

theorem RD.find {d n fm σ k t xs b} : ∀ {B B' : Defs}, RD d n fm σ B B' → (∀ f ∈ B.names, ∀ g ∈ B.names, σ f = σ g → f = g) →
    findDef k B = some (t, xs, b) → ∃ xs' b' n₁, findDef (σ k) B' = some (t, xs', b') ∧ xs'.length = xs.length ∧ xs'.Nodup ∧
      (∀ y ∈ xs', n ≤ y ∧ y < n₁) ∧ n ≤ n₁ ∧ RE d n₁ (put fm k none) (sets xs xs' σ) b b'
  | _, _, .nil, _, h => by simp [findDef] at h
  | _, _, .cons (f := f) h1 h2 h3 h4 h5 h6, hi, h => by
    simp only [findDef] at h ⊢
    split at h
    · next hk =>
      subst hk; cases h
      exact ⟨_, _, _, by simp, h1, h2, h3, h4, h5⟩
    · next hk =>
      have hkm : k ∈ Defs.names _ := findDef_mem h
      have : σ k ≠ σ f := fun hs => hk (hi k (by simp [Defs.names, hkm]) f (by simp [Defs.names]) hs)
      simp only [this, if_false]
      exact h6.find (fun f hf g hg => hi f (by simp [Defs.names, hf]) g (by simp [Defs.names, hg])) h

end Inl
end ANF
