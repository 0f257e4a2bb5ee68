import Verif.CGen.Cps.Static
import Verif.CGen.Example

/-! # A collector that moves everything, and a program -/

namespace CGen.Cps

open ANF

/-- Moves an address. -/
def shiftC (d : Nat) : CVal → CVal
  | .ptr p => .ptr (p + d)
  | c => c

/-- Moves the whole memory up by `d` words and makes `[lo, hi)` the free part of the nursery. -/
def moveTh (lo hi d : Nat) (h : Th) : Th :=
  { h with mem := fun q => if q < d then none else (h.mem (q - d)).map (shiftC d), alloc := lo, limit := hi,
           args := fun r => (h.args r).map (shiftC d) }

theorem moveTh_forwards {cenv : Ctor.PMap Ctor.Info} (hc : CtorsOk cenv) (B : Defs) (lo hi d : Nat) (hd' : hi ≤ d) (h : Th) :
    ∃ R, Forwards .top h.mem (moveTh lo hi d h).mem lo hi R ∧
      ∀ r c, h.args r = some c → (∃ v, h.Rep .top cenv B v c) → ∃ c', (moveTh lo hi d h).args r = some c' ∧ R c c' := by
  refine ⟨fun c c' => c' = shiftC d c ∧ ∃ v, h.Rep .top cenv B v c, ⟨?_, ?_, ?_⟩, ?_⟩
  · exact fun z c' hr => hr.1
  · exact fun f c' hr => hr.1
  · rintro p c' hd ⟨rfl, v, hv⟩ hhd h0
    have hp1 : 1 ≤ p := by
      cases hv with
      | boxed g1 g2 g3 g4 => exact g4.1
      | float g1 => exact g1.1
      | str g1 => exact g1.1
    have hword : ∀ k c, h.mem k = some c → (moveTh lo hi d h).mem (k + d) = some (shiftC d c) := by
      intro k c hk
      simp only [moveTh]
      rw [if_neg (by omega), Nat.add_sub_cancel, hk]; rfl
    refine ⟨p + d, rfl, ?_, ⟨by omega, .inr (by omega)⟩, ?_⟩
    · have := hword (p - 1) _ hhd
      rw [show p - 1 + d = p + d - 1 by omega] at this
      exact this
    · refine ⟨trivial, ?_⟩
      intro k c hk hm
      refine ⟨shiftC d c, ?_, ?_⟩
      · have := hword (p + k) c hm
        rw [show p + k + d = p + d + k by omega] at this
        exact this
      cases hv with
      | boxed g1 g2 g3 g4 g5 g6 g7 g8 g9 =>
        rename_i t i vs cs
        rw [g5] at hhd
        simp only [Option.some.injEq, CVal.int.injEq] at hhd
        have hs := hc.small t i g1 (by omega)
        have hdiv : (hd / 1024).toNat = vs.length := by omega
        rw [hdiv] at hk
        rw [if_pos (by omega)]
        have hck := List.getElem?_eq_getElem (l := cs) (i := k) (by omega)
        have := g7 k _ hck
        rw [hm] at this
        simp only [Option.some.injEq] at this
        refine ⟨rfl, vs[k], ?_⟩
        exact g8 k _ _ (List.getElem?_eq_getElem hk) (by rw [this]; exact hck)
      | float g1 g2 g3 g4 =>
        rw [g2] at hhd
        simp only [Option.some.injEq, CVal.int.injEq] at hhd
        subst hhd
        have hk0 : k = 0 := by omega
        subst hk0
        rw [Nat.add_zero, g3] at hm
        cases hm
        rw [if_neg (by decide)]; rfl
      | str g1 g2 g3 g4 =>
        rename_i s
        rw [g2] at hhd
        simp only [Option.some.injEq, CVal.int.injEq] at hhd
        have hdiv : (hd / 1024).toNat = s.length / 8 + 1 := by omega
        rw [hdiv] at hk
        have hl : k < (encodeList s).length := by rw [encodeList_length]; exact hk
        have := g3 k _ (List.getElem?_eq_getElem hl)
        rw [hm] at this
        cases this
        rw [if_neg (by omega)]; rfl
  · rintro r c hc' ⟨v, hv⟩
    exact ⟨_, by simp only [moveTh, hc', Option.map_some], rfl, v, hv⟩

/-- A collector that moves everything behind the nursery, which is then empty from address 0 on. -/
def shiftWorld : VWorld where
  gc i h := if i.need ≤ h.limit then some (moveTh 0 h.limit (h.limit + 1) h) else none
  prim _ _ _ := none
  primT _ _ _ := .abort

theorem shiftWorld_ok {cenv : Ctor.PMap Ctor.Info} (hc : CtorsOk cenv) (B : Defs) : GcOkV cenv B shiftWorld := by
  intro i h h' hg
  simp only [shiftWorld] at hg
  split at hg
  case isFalse => cases hg
  cases hg
  obtain ⟨R, h1, h2⟩ := moveTh_forwards hc B 0 h.limit (h.limit + 1) (by omega) h
  exact ⟨by simp only [moveTh]; omega, R, h1, fun r _ => h2 r⟩

theorem shiftWorld_limit : LimitKept shiftWorld := by
  intro i h h' hg
  simp only [shiftWorld] at hg
  split at hg
  · cases hg; rfl
  · cases hg

/-- A collector that takes a new nursery, of the size asked for, behind the old one. -/
def freshWorld : VWorld where
  gc i h := some (moveTh (h.limit + 1) (h.limit + 1 + i.need) (h.limit + 1 + i.need) h)
  prim _ _ _ := none
  primT _ _ _ := .abort

theorem freshWorld_ok {cenv : Ctor.PMap Ctor.Info} (hc : CtorsOk cenv) (B : Defs) : GcOkV cenv B freshWorld := by
  intro i h h' hg
  simp only [freshWorld] at hg
  cases hg
  obtain ⟨R, h1, h2⟩ := moveTh_forwards hc B (h.limit + 1) (h.limit + 1 + i.need) _ (Nat.le_refl _) h
  exact ⟨by simp only [moveTh]; omega, R, h1, fun r _ => h2 r⟩

/-- `f x y = case x of O => S y | S z => f z (S y)`. -/
def defsTail : Defs := .cons 300 3 [301, 302] (.case 301
  (.cons 100 (.constr 303 101 [302] (.halt 303))
  (.cons 101 (.proj 304 101 0 301 (.constr 305 101 [302] (.app 300 3 [304, 305]))) .nil))) .nil

/-- `f 1 0`. -/
def mainTail : Exp := .constr 310 100 [] (.constr 311 101 [310] (.app 300 3 [311, 310]))

theorem seen_tail : SeenE cenvNat (.fn defsTail mainTail) := by
  simp [SeenE, SeenB, SeenBs, defsTail, mainTail, cenvNat]

theorem ok_tail : OkE cenvNat (fun _ => 2) (.fn defsTail mainTail) := by
  simp [OkE, OkB, OkBs, defsTail, mainTail, cenvNat]

theorem compiles_tail : ∃ M, compileV cfgNat 1 (.fn defsTail mainTail) = some M :=
  compileV_total (ar := fun _ => 2) ok_tail (by simp [FlatB, FlatE, FlatBs, defsTail]) (by simp [FlatE, mainTail])

theorem returns_tail : Returns sigNat emp (.fn defsTail mainTail) (natVal 2) := ⟨3, by rfl⟩

/-- A primitive without arguments that uses up the nursery and returns the first constructor. -/
def sigGreedy : Sig := ⟨cenvNat, fun _ _ => some (.con 100 [])⟩

/-- The primitive takes the thread information. -/
def cfgGreedy : Cfg := ⟨1, 5, fun _ => some true, cenvNat⟩

/-- The collector of `shiftWorld` with the primitive. -/
def greedyWorld : VWorld := { shiftWorld with primT := fun _ _ h => .ret (.int 1) { h with alloc := h.limit } }

end CGen.Cps
