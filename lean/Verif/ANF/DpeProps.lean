import Verif.ANF.DpeSim
import Verif.ANF.SemProps

/-! # C42: dead parameter elimination preserves results -/

namespace ANF
open Dpe

/-- C42: for every program with distinct binders and every supply of function tags, the program without dead parameters
returns a value that looks the same, and diverges if the original does. -/
theorem C42_preserves (S : Sig) {e : Exp} (c : Tag) (hn : e.bv.Nodup) : Preserves S e S (dpe e c) := by
  unfold dpe
  split
  · next hh =>
    split
    · exact preserves_of_lockstep (fun _ _ h => DRel.obs h) (fun n => dpe_lockstep S _ hh hn n)
    · exact .refl S e
  · exact .refl S e

/-- C42: first-order results are equal. -/
theorem C42_data (S : Sig) {e : Exp} (c : Tag) (hn : e.bv.Nodup) {d : FO} (h : Returns S emp e d.toVal) :
    Returns S emp (dpe e c) d.toVal := (C42_preserves S c hn).data h

/-- The parameters of function `f` in a program. -/
def paramsOf (f : Var) : Exp → Option (List Var)
  | .fn B _ => (findDef f B).map (fun d => d.2.1)
  | _ => none

/-- C42: the pass only drops parameters: the functions of the output are those of the input, with some of their
parameters in the same order, and a parameter that is still used by the new body is kept. -/
theorem C42_params (B : Defs) (e : Exp) (c : Tag) (hn : (Exp.fn B e).bv.Nodup) {f ft xs b}
    (hf : findDef f B = some (ft, xs, b)) :
    ∃ B' e' ft' xs' b', dpe (.fn B e) c = .fn B' e' ∧ B'.names = B.names ∧ findDef f B' = some (ft', xs', b') ∧
      xs'.Sublist xs ∧ ∀ x ∈ xs, x ∈ b'.fv → x ∈ xs' := by
  unfold dpe
  split
  · next hh =>
    dsimp only
    generalize hfm : (createFunTag (findLive B e) (arityE (.fn B e) fun _ => none) B c fun _ => none).1 = fmap
    have hfd := elimB_find (fmap := fmap) (L := findLive B e) hf
    simp only [isHoisted, Bool.and_eq_true] at hh
    simp only [Exp.bv, List.nodup_append] at hn
    obtain ⟨h1, _, h3⟩ := findLive_spec B e ((names_bv B).nodup hn.1)
    rcases hL : findLive B e f with _ | bs
    · rw [hL] at hfd
      exact ⟨_, _, _, _, _, rfl, elimB_names B, hfd, List.Sublist.refl _, fun _ h _ => h⟩
    · rw [hL] at hfd
      refine ⟨_, _, _, _, _, rfl, elimB_names B, hfd, liveArgs_sublist xs bs, ?_⟩
      intro x hx hxf
      obtain ⟨i, hi⟩ := List.mem_iff_getElem?.mp hx
      obtain ⟨ftd, xsd, ed, hfd', hlen⟩ := h1 f bs hL
      rw [hf] at hfd'; cases hfd'
      have hil : i < bs.length := by rw [hlen]; exact (List.getElem?_eq_some_iff.mp hi).1
      have hbi := List.getElem?_eq_getElem hil
      have hmem := mem_of_findDef hf
      cases hb : bs[i] with
      | true => rw [hb] at hbi; exact mem_liveArgs hlen hi hbi
      | false =>
        rw [hb] at hbi
        exact absurd (fv_liveE fmap _ b ∅ (mem_isHoistedB hmem hh.1) hxf) (h3 f ft xs b hmem bs hL i x hi hbi)
  · exact ⟨B, e, ft, xs, b, rfl, rfl, hf, List.Sublist.refl _, fun _ h _ => h⟩

/-- A program whose function 10 passes its second parameter to itself only, and whose third is used: the second is
dead. -/
def dpeDemo : Exp :=
  .fn (.cons 10 3 [11, 12, 13] (.case 11 (.cons 1 (.halt 13) (.cons 2 (.proj 14 2 0 11 (.app 10 3 [14, 12, 13])) .nil))) .nil)
    (.constr 20 1 [] (.constr 21 2 [20] (.app 10 3 [21, 20, 21])))

example : dpeDemo.bv.Nodup ∧ (∃ n, run demoSig n emp dpeDemo = .val (.constr 2 [.constr 1 []])) := ⟨by decide, 2, rfl⟩

example : paramsOf 10 (dpe dpeDemo 50) = some [11, 13] := by decide

example : run demoSig 2 emp (dpe dpeDemo 50) = .val (.constr 2 [.constr 1 []]) := rfl

end ANF
