import Verif.ANF.Feat2
import Verif.ANF.DpeProps

/-!
# C43: names after dead parameter elimination
-/

namespace ANF
open Dpe

theorem raw_of_find : ∀ {B : Defs} {f ft xs b y}, findDef f B = some (ft, xs, b) → y ∈ b.fv → y ∉ xs → y ∈ B.fvRaw := by
  intro B
  induction B using Defs.ind with
  | nil => intro f ft xs b y h; simp [findDef] at h
  | cons g gt ys e B ih =>
    intro f ft xs b y h h1 h2
    simp only [findDef] at h
    simp only [Defs.fvRaw, Finset.mem_union, Finset.mem_sdiff, List.mem_toFinset]
    split at h
    · cases h; exact .inl ⟨h1, h2⟩
    · exact .inr (ih h h1 h2)

section
variable {fmap : Var → Option Tag} {L : LiveFun}

mutual
theorem elimE_caseTags : ∀ e : Exp, (elimE fmap L e).caseTags = e.caseTags
  | .constr x t ys e => by simp only [elimE, Exp.caseTags, elimE_caseTags e]
  | .case x bs => by simp only [elimE, Exp.caseTags, elimBs_caseTags bs]
  | .proj x t n y e => by simp only [elimE, Exp.caseTags, elimE_caseTags e]
  | .letapp x f ft ys e => by simp only [elimE]; split <;> simp only [Exp.caseTags, elimE_caseTags e]
  | .fn B e => rfl
  | .app f ft ys => by simp only [elimE]; split <;> rfl
  | .primVal x p e => by simp only [elimE, Exp.caseTags, elimE_caseTags e]
  | .prim x p ys e => by simp only [elimE, Exp.caseTags, elimE_caseTags e]
  | .halt x => rfl
theorem elimBs_caseTags : ∀ bs : Brs, (elimBs fmap L bs).caseTags = bs.caseTags
  | .nil => rfl
  | .cons t e bs => by simp only [elimBs, Brs.caseTags, elimE_caseTags e, elimBs_caseTags bs]
end

theorem elimB_caseTags : ∀ B : Defs, (elimB fmap L B).caseTags = B.caseTags
  | .nil => rfl
  | .cons f ft xs e B => by simp only [elimB]; split <;> simp only [Defs.caseTags, elimE_caseTags, elimB_caseTags B]
end

theorem dpe_cases (e : Exp) (c : Tag) : dpe e c = e ∨ ∃ fmap B k, isHoisted e = true ∧ e = .fn B k ∧
    dpe e c = .fn (elimB fmap (findLive B k) B) (elimE fmap (findLive B k) k) := by
  by_cases h : isHoisted e = true
  · rcases e with _ | _ | _ | _ | ⟨B, k⟩ | _ | _ | _ | _
    case fn => exact .inr ⟨_, B, k, h, rfl, by rw [dpe, if_pos h]⟩
    all_goals exact .inl (by unfold dpe; rw [if_pos h])
  · exact .inl (by unfold dpe; rw [if_neg h])

/-- C43: dead parameter elimination makes no names: binders are binders of the program, in the same order; no variable
becomes free; the same tags are matched on. -/
theorem C43_dpe {e : Exp} (c : Tag) (hn : e.bv.Nodup) :
    (dpe e c).bv.Sublist e.bv ∧ (dpe e c).fv ⊆ e.fv ∧ (dpe e c).caseTags = e.caseTags := by
  rcases dpe_cases e c with h | ⟨fmap, B, k, hh, rfl, h⟩
  · rw [h]; exact ⟨.refl _, fun _ h => h, rfl⟩
  have hBn := (names_bv B).nodup (List.nodup_append.mp hn).1
  have hB' : (elimB fmap (findLive B k) B).names.Nodup := by rw [elimB_names]; exact hBn
  refine ⟨?_, ?_, ?_⟩
  · rw [h]
    simp only [Exp.bv, elimE_bv]
    exact (elimB_bv B).append (.refl _)
  · intro y hy
    have hp := fun f ft xs b hf => C42_params B k c hn (f := f) (ft := ft) (xs := xs) (b := b) hf
    rw [h] at hy hp
    simp only [Exp.fv, Defs.fv, elimB_names, Finset.mem_union, Finset.mem_sdiff, List.mem_toFinset] at hy ⊢
    obtain ⟨hy | hy, hN⟩ := hy
    · refine ⟨.inl ?_, hN⟩
      obtain ⟨f, ft', xs', b', hf', hyb, hyx⟩ := Shr.fvRaw_find hB' hy
      obtain ⟨⟨ft, xs, b⟩, hf⟩ : ∃ r, findDef f B = some r := by
        have := mem_of_findDef hf'
        have hm : f ∈ (elimB fmap (findLive B k) B).names := by
          rw [names_toList]; exact List.mem_map_of_mem (f := fun d => d.1) this
        rw [elimB_names] at hm
        exact findDef_some hm
      have he := elimB_find (fmap := fmap) (L := findLive B k) hf
      rw [he] at hf'
      obtain ⟨B₁, k₁, ft₁, xs₁, b₁, h1, _, h3, h4, h5⟩ := hp f ft xs b hf
      injection h1 with h1 h1'
      subst h1
      rw [he] at h3
      rw [hf'] at h3
      cases h3
      have hyb' : y ∈ b.fv := by
        split at hf' <;> cases hf' <;> exact elimE_fv b y hyb
      exact raw_of_find hf hyb' fun hx => hyx (h5 y hx hyb)
    · exact ⟨.inr (elimE_fv k y hy), hN⟩
  · rw [h]
    simp only [Exp.caseTags, elimE_caseTags, elimB_caseTags]

theorem dpe_all {P : Feat → Prop} (hP : ∀ t n, P (.call t n)) {e : Exp} (c : Tag) (he : e.All P) : (dpe e c).All P := by
  rcases dpe_cases e c with h | ⟨fmap, B, k, hh, rfl, h⟩
  · rw [h]; exact he
  · rw [h]; exact ⟨he.1, elimB_all hP he.2.1, elimE_all hP he.2.2⟩

theorem dpe_hoisted {e : Exp} (c : Tag) (he : Hoisted e) : Hoisted (dpe e c) := by
  rcases dpe_cases e c with h | ⟨fmap, B, k, hh, rfl, h⟩
  · rw [h]; exact he
  · rw [h]
    have hc : ∀ t n, NotBundle (.call t n) := by intro t n; simp [NotBundle]
    exact ⟨Defs.noFn_iff.mpr (elimB_all hc (Defs.noFn_iff.mp he.1)), Exp.noFn_iff.mpr (elimE_all hc (Exp.noFn_iff.mp he.2))⟩

end ANF
