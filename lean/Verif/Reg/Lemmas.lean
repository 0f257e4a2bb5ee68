import Verif.Reg.Spec
import Verif.Src.LinkBack
import Verif.Conv.Feat
import Mathlib.Tactic.Common

/-!
# Lemmas about realised constants
-/

namespace Reg

open Mut (Name Environ Entry Term Terms)
open Src (LEnv Exp Exps Fns findPrim transs transB transD cstOffset translateEnv translateEntry translateProgram mkLets)

/-! ## Choosing a realisation -/

theorem FirstIn.of_find {l : List Prim} {c : Name} {r : Prim} : l.find? (fun x => x.name = c) = some r ↔ FirstIn l c r := by
  rw [List.find?_eq_some_iff_append]
  simp only [decide_eq_true_eq, FirstIn, Bool.not_eq_true', decide_eq_false_iff_not]
  constructor
  · rintro ⟨h, a, b, e, h'⟩; exact ⟨a, b, e, h, h'⟩
  · rintro ⟨a, b, e, h, h'⟩; exact ⟨h, a, b, e, h'⟩

theorem Absent.of_find {l : List Prim} {c : Name} : l.find? (fun x => x.name = c) = none ↔ Absent l c := by
  simp [List.find?_eq_none, Absent]

theorem globals_snoc (s : List (List Prim)) (l : List Prim) : globals (s ++ [l]) = l ++ globals s := by
  simp [globals]

theorem latest_iff {c : Name} {r : Prim} {s : List (List Prim)} : Latest s c r ↔ (globals s).find? (fun x => x.name = c) = some r := by
  induction s using List.reverseRecOn with
  | nil => simp [Latest, globals]
  | append_singleton s l ih =>
    rw [globals_snoc, List.find?_append]
    cases h : l.find? (fun x => decide (x.name = c)) with
    | some r' =>
      rw [Option.some_or, Option.some.injEq]
      constructor
      · rintro ⟨b, l', a, e, h1, h2⟩
        rcases List.eq_nil_or_concat a with rfl | ⟨a, x, rfl⟩
        · obtain ⟨_, e⟩ := List.append_inj' e rfl
          cases e
          rw [← FirstIn.of_find, h] at h1; exact Option.some.inj h1
        · rw [List.concat_eq_append, ← List.cons_append, ← List.append_assoc] at e
          obtain ⟨_, e⟩ := List.append_inj' e rfl
          cases e
          have := Absent.of_find.2 (h2 l (by simp))
          rw [h] at this; cases this
      · rintro rfl
        exact ⟨s, l, [], rfl, FirstIn.of_find.1 h, by simp⟩
    | none =>
      rw [Option.none_or, ← ih]
      constructor
      · rintro ⟨b, l', a, e, h1, h2⟩
        rcases List.eq_nil_or_concat a with rfl | ⟨a, x, rfl⟩
        · obtain ⟨_, e⟩ := List.append_inj' e rfl
          cases e
          rw [← FirstIn.of_find, h] at h1; cases h1
        · rw [List.concat_eq_append, ← List.cons_append, ← List.append_assoc] at e
          obtain ⟨e, _⟩ := List.append_inj' e rfl
          exact ⟨b, l', a, e, h1, fun l'' h'' => h2 l'' (by simp [h''])⟩
      · rintro ⟨b, l', a, rfl, h1, h2⟩
        refine ⟨b, l', a ++ [l], by simp, h1, fun l'' h'' => ?_⟩
        rcases List.mem_append.1 h'' with h'' | h''
        · exact h2 _ h''
        · rw [List.mem_singleton.1 h'']; exact Absent.of_find.1 h

theorem globals_absent {c : Name} {s : List (List Prim)} : (globals s).find? (fun x => x.name = c) = none ↔ ∀ l ∈ s, Absent l c := by
  induction s using List.reverseRecOn with
  | nil => simp [globals]
  | append_singleton s l ih =>
    rw [globals_snoc, List.find?_append, Option.or_eq_none_iff, ih, Absent.of_find]
    constructor
    · rintro ⟨h1, h2⟩ l' hl'
      rcases List.mem_append.1 hl' with h | h
      · exact h2 _ h
      · rw [List.mem_singleton.1 h]; exact h1
    · exact fun h => ⟨h l (by simp), fun l' hl' => h l' (by simp [hl'])⟩

theorem realised_iff {session : List (List Prim)} {clause : List Prim} {c : Name} {r : Prim} :
    Realised session clause c r ↔ (allPrims session clause).find? (fun x => x.name = c) = some r := by
  rw [Realised, latest_iff, ← globals_absent, ← FirstIn.of_find, allPrims, List.find?_append]
  cases (globals session).find? (fun x => decide (x.name = c)) <;> simp

/-! ## Numbers -/

theorem pick_snd : ∀ (l : List Prim) (id : Nat), (pick id l).2 = id + l.length
  | [], _ => rfl
  | _ :: l, id => by simp only [pick, pick_snd l, List.length_cons]; omega

theorem pick_ids : ∀ (l : List Prim) (id : Nat), (pick id l).1.map (·.2) = List.range' id l.length
  | [], _ => rfl
  | _ :: l, id => by simp [pick, pick_ids l, List.range'_succ]

theorem pick_fst : ∀ (l : List Prim) (id : Nat), (pick id l).1.map (·.1) = l
  | [], _ => rfl
  | _ :: l, id => by simp [pick, pick_fst l]

theorem pick_mem : ∀ {l : List Prim} {id : Nat} {x : Prim × Nat}, x ∈ (pick id l).1 → id ≤ x.2 ∧ x.2 < id + l.length
  | _ :: l, id, x, h => by
    simp only [pick, List.mem_cons] at h
    rcases h with rfl | h
    · simp
    · have := pick_mem h
      simp only [List.length_cons]; omega

theorem setEnv {l : List Prim} : ∀ {id : Nat} {m : Nat → Option Prim} {q : Nat},
    ((pick id l).1.foldl (fun m x => fun p => if p = x.2 then some x.1 else m p) m) q = if q < id then m q else (l[q - id]?).or (m q) := by
  induction l with
  | nil => intro id m q; simp [pick]
  | cons r l ih =>
    intro id m q
    simp only [pick, List.foldl_cons]
    rw [ih]
    by_cases h : q < id
    · rw [if_pos (by omega), if_pos h, if_neg (by omega)]
    · rw [if_neg h]
      by_cases h' : q = id
      · subst h'; simp
      · rw [if_neg (by omega), if_neg h']
        obtain ⟨n, hn⟩ : ∃ n, q - id = n + 1 := ⟨q - id - 1, by omega⟩
        rw [hn, List.getElem?_cons_succ, show q - (id + 1) = n by omega]

theorem findPrim_pick {c : Name} : ∀ {l : List Prim} {id q : Nat}, findPrim (linkTable (pick id l).1) c = some q →
    ∃ r, l.find? (fun x => x.name = c) = some r ∧ id ≤ q ∧ l[q - id]? = some r
  | [], _, _, h => by simp [pick, linkTable, findPrim] at h
  | r :: l, id, q, h => by
    simp only [pick, linkTable, List.map_cons, findPrim] at h
    split at h
    · rename_i e
      cases h
      exact ⟨r, by simp [e], le_refl _, by simp⟩
    · rename_i e
      obtain ⟨r', h1, h2, h3⟩ := findPrim_pick (l := l) h
      refine ⟨r', by simp [List.find?_cons, show ¬ r.name = c from fun h => e h.symm, h1], by omega, ?_⟩
      rw [show q - id = (q - (id + 1)) + 1 by omega, List.getElem?_cons_succ]; exact h3

theorem findPrim_none {c : Name} : ∀ {l : List Prim} {id : Nat}, findPrim (linkTable (pick id l).1) c = none ↔ l.find? (fun x => x.name = c) = none
  | [], _ => by simp [pick, linkTable, findPrim]
  | r :: l, id => by
    simp only [pick, linkTable, List.map_cons, findPrim]
    split
    · rename_i e; simp [e]
    · rename_i e
      rw [show List.map (fun x : Prim × Nat => (x.1.name, x.2)) (pick (id + 1) l).1 = linkTable (pick (id + 1) l).1 from rfl, findPrim_none,
        List.find?_cons, show decide (r.name = c) = false by simpa using fun h => e h.symm]

theorem chosen {session : List (List Prim)} {clause : List Prim} {c : Name} {q : Nat}
    (h : findPrim (linkTable (registered session clause).1) c = some q) :
    ∃ r, Realised session clause c r ∧ firstId ≤ q ∧ q < (registered session clause).2 ∧ primEnv (registered session clause).1 q = some r ∧
      (r, q) ∈ (registered session clause).1 := by
  obtain ⟨r, h1, h2, h3⟩ := findPrim_pick h
  obtain ⟨hlt, _⟩ := List.getElem?_eq_some_iff.1 h3
  refine ⟨r, realised_iff.2 h1, h2, by rw [registered, pick_snd]; omega, ?_, ?_⟩
  · rw [primEnv, registered, setEnv, if_neg (by omega), h3]; rfl
  · have hl : (pick firstId (allPrims session clause)).1.length = (allPrims session clause).length := by
      rw [← List.length_map (f := (·.1)), pick_fst]
    have hlt' : q - firstId < (pick firstId (allPrims session clause)).1.length := by omega
    have e1 : ((pick firstId (allPrims session clause)).1.map (·.1))[q - firstId]? = some r := by rw [pick_fst]; exact h3
    have e2 : ((pick firstId (allPrims session clause)).1.map (·.2))[q - firstId]? = some q := by
      rw [pick_ids, List.getElem?_range' hlt]; congr 1; omega
    rw [List.getElem?_map, List.getElem?_eq_getElem hlt'] at e1 e2
    simp only [Option.map_some, Option.some.injEq] at e1 e2
    rw [registered, List.mem_iff_getElem]
    exact ⟨_, hlt', Prod.ext e1 e2⟩

/-! ## Axioms -/

theorem findAxioms_iff {l : List (Prim × Nat)} {k : Name} : ∀ {p : List (Name × Decl)} {acc : List Name},
    k ∈ findAxioms l acc p ↔ k ∈ acc ∨ (k, Decl.typ 0 []) ∈ p ∧ ∀ x ∈ l, x.1.name ≠ k
  | [], acc => by simp [findAxioms]
  | (kn, .trm t) :: p, acc => by simp [findAxioms, findAxioms_iff (p := p)]
  | (kn, .typ 0 []) :: p, acc => by
    simp only [findAxioms]
    split
    · rename_i h
      rw [findAxioms_iff]
      rw [List.find?_isSome] at h
      obtain ⟨x, hx, he⟩ := h
      have he : kn = x.1.name := by simpa using he
      simp only [List.mem_cons, Prod.mk.injEq, and_true]
      constructor
      · rintro (h | ⟨h1, h2⟩)
        · exact .inl h
        · exact .inr ⟨.inr h1, h2⟩
      · rintro (h | ⟨rfl | h1, h2⟩)
        · exact .inl h
        · exact absurd he.symm (h2 x hx)
        · exact .inr ⟨h1, h2⟩
    · rename_i h
      rw [findAxioms_iff]
      have h : ∀ x ∈ l, x.1.name ≠ kn := by
        intro x hx he
        apply h
        rw [List.find?_isSome]
        exact ⟨x, hx, by simp [he]⟩
      simp only [List.mem_cons, Prod.mk.injEq, and_true]
      constructor
      · rintro ((rfl | h1) | h1)
        · exact .inr ⟨.inl rfl, h⟩
        · exact .inl h1
        · exact .inr ⟨.inr h1.1, h1.2⟩
      · rintro (h1 | ⟨rfl | h1, h2⟩)
        · exact .inl (.inr h1)
        · exact .inl (.inl rfl)
        · exact .inr ⟨h1, h2⟩
  | (kn, .typ (n + 1) b) :: p, acc => by simp [findAxioms, findAxioms_iff (p := p)]
  | (kn, .typ 0 (b :: bs)) :: p, acc => by simp [findAxioms, findAxioms_iff (p := p)]

/-! ## Linking programs with axioms -/

mutual
theorem trans_wfp {E : LEnv} {P} {ar : Nat → Option Nat} {D : Name → Prop}
    (hD : ∀ c, D c → (∃ q n, findPrim P c = some q ∧ ar q = some n) ∨ findPrim P c = none ∧ cstOffset E c < E.length) :
    ∀ (t : Term) (k : Nat), t.crct D k → (Src.trans E P k t).wfp ar (E.length + k)
  | .rel m, k, h => by simp only [Term.crct] at h; simp only [Src.trans, Exp.wfp]; omega
  | .proof, _, _ => by simp [Src.trans, Exp.wfp]
  | .lam t, k, h => by
    simp only [Term.crct] at h; simp only [Src.trans, Exp.wfp]; rw [Nat.add_left_comm]; exact trans_wfp hD t _ h
  | .letin t u, k, h => by
    simp only [Term.crct] at h; simp only [Src.trans, Exp.wfp]
    rw [Nat.add_left_comm]
    exact ⟨trans_wfp hD t _ h.1, trans_wfp hD u _ h.2⟩
  | .app t u, k, h => by
    simp only [Term.crct] at h; simp only [Src.trans, Exp.wfp]
    exact ⟨trans_wfp hD t _ h.1, trans_wfp hD u _ h.2⟩
  | .const c, k, h => by
    simp only [Term.crct] at h
    rcases hD c h with ⟨q, n, h1, h2⟩ | ⟨h1, h2⟩
    · simp only [Src.trans, h1, Exp.wfp]; exact ⟨n, h2⟩
    · simp only [Src.trans, h1, Exp.wfp]; omega
  | .con i m ts, k, h => by simp only [Term.crct] at h; simp only [Src.trans, Exp.wfp]; exact transs_wfp hD ts _ h
  | .case i t bs, k, h => by
    simp only [Term.crct] at h; simp only [Src.trans, Exp.wfp]
    exact ⟨trans_wfp hD t _ h.1, transB_wfp hD i bs _ _ h.2⟩
  | .fix ds m, k, h => by
    simp only [Term.crct] at h; simp only [Src.trans, Exp.wfp, Src.transD_len]
    refine ⟨h.1, ?_⟩
    rw [Nat.add_left_comm]; exact transD_wfp hD ds _ h.2
  | .prim p, _, _ => by simp [Src.trans, Exp.wfp]
  | .wrong, _, h => by simp [Term.crct] at h
theorem transs_wfp {E : LEnv} {P} {ar : Nat → Option Nat} {D : Name → Prop}
    (hD : ∀ c, D c → (∃ q n, findPrim P c = some q ∧ ar q = some n) ∨ findPrim P c = none ∧ cstOffset E c < E.length) :
    ∀ (t : Terms) (k : Nat), t.crct D k → (transs E P k t).wfp ar (E.length + k)
  | .nil, _, _ => by simp [transs, Exps.wfp]
  | .cons t ts, k, h => by
    simp only [Terms.crct] at h; simp only [transs, Exps.wfp]
    exact ⟨trans_wfp hD t _ h.1, transs_wfp hD ts _ h.2⟩
theorem transB_wfp {E : LEnv} {P} {ar : Nat → Option Nat} {D : Name → Prop}
    (hD : ∀ c, D c → (∃ q n, findPrim P c = some q ∧ ar q = some n) ∨ findPrim P c = none ∧ cstOffset E c < E.length)
    (i : Nat) : ∀ (t : Mut.Brs) (k n : Nat), t.crct D k → (transB E P i k n t).wfp ar (E.length + k)
  | .nil, _, _, _ => by simp [transB, Src.Brs.wfp]
  | .cons m t ts, k, n, h => by
    simp only [Mut.Brs.crct] at h; simp only [transB, Src.Brs.wfp]
    refine ⟨?_, transB_wfp hD i ts _ _ h.2⟩
    rw [Nat.add_left_comm, Nat.add_comm k m]; exact trans_wfp hD t _ h.1
theorem transD_wfp {E : LEnv} {P} {ar : Nat → Option Nat} {D : Name → Prop}
    (hD : ∀ c, D c → (∃ q n, findPrim P c = some q ∧ ar q = some n) ∨ findPrim P c = none ∧ cstOffset E c < E.length) :
    ∀ (t : Mut.Defs) (k : Nat), t.crct D k → (transD E P k t).wfp ar (E.length + k)
  | .nil, _, _ => by simp [transD, Fns.wfp]
  | .cons t ts, k, h => by
    simp only [Mut.Defs.crct] at h; simp only [transD, Fns.wfp]
    refine ⟨trans_wfp hD t _ h.1, ?_, transD_wfp hD ts _ h.2.2⟩
    obtain ⟨b, hb⟩ := h.2.1
    subst hb; exact ⟨_, rfl⟩
end

/-- The primitives of a linked term are those of the constants in it. -/
abbrev Used (P : List (Name × Nat)) (D : Name → Prop) (e : Exp) : Prop :=
  Conv.SAll (fun _ _ => True) (fun _ => True) (fun _ => True) (fun q => ∃ c, D c ∧ findPrim P c = some q) e

mutual
theorem trans_used {E : LEnv} {P} {D : Name → Prop} : ∀ (t : Term) (k n : Nat), t.crct D n → Used P D (Src.trans E P k t)
  | .rel m, k, n, h => by simp [Src.trans, Conv.SAll]
  | .proof, _, _, _ => by simp [Src.trans, Conv.SAll]
  | .lam t, k, n, h => by simp only [Term.crct] at h; simp only [Src.trans, Conv.SAll]; exact trans_used t _ _ h
  | .letin t u, k, n, h => by
    simp only [Term.crct] at h; simp only [Src.trans, Conv.SAll]; exact ⟨trans_used t _ _ h.1, trans_used u _ _ h.2⟩
  | .app t u, k, n, h => by
    simp only [Term.crct] at h; simp only [Src.trans, Conv.SAll]; exact ⟨trans_used t _ _ h.1, trans_used u _ _ h.2⟩
  | .const c, k, n, h => by
    simp only [Term.crct] at h
    simp only [Src.trans]
    split
    · rename_i q hq; simp only [Conv.SAll]; exact ⟨c, h, hq⟩
    · simp [Conv.SAll]
  | .con i m ts, k, n, h => by simp only [Term.crct] at h; simp only [Src.trans, Conv.SAll]; exact ⟨trivial, transs_used ts _ _ h⟩
  | .case i t bs, k, n, h => by
    simp only [Term.crct] at h; simp only [Src.trans, Conv.SAll]
    exact ⟨trans_used t _ _ h.1, transB_used i bs _ _ _ h.2⟩
  | .fix ds m, k, n, h => by
    simp only [Term.crct] at h; simp only [Src.trans, Conv.SAll]; exact transD_used ds _ _ h.2
  | .prim p, _, _, _ => by simp [Src.trans, Conv.SAll]
  | .wrong, _, _, h => by simp [Term.crct] at h
theorem transs_used {E : LEnv} {P} {D : Name → Prop} : ∀ (t : Terms) (k n : Nat), t.crct D n →
    Conv.SAllEs (fun _ _ => True) (fun _ => True) (fun _ => True) (fun q => ∃ c, D c ∧ findPrim P c = some q) (transs E P k t)
  | .nil, _, _, _ => by simp [transs, Conv.SAllEs]
  | .cons t ts, k, n, h => by
    simp only [Terms.crct] at h; simp only [transs, Conv.SAllEs]
    exact ⟨trans_used t _ _ h.1, transs_used ts _ _ h.2⟩
theorem transB_used {E : LEnv} {P} {D : Name → Prop} (i : Nat) : ∀ (t : Mut.Brs) (k j n : Nat), t.crct D n →
    Conv.SAllB (fun _ _ => True) (fun _ => True) (fun _ => True) (fun q => ∃ c, D c ∧ findPrim P c = some q) (transB E P i k j t)
  | .nil, _, _, _, _ => by simp [transB, Conv.SAllB]
  | .cons m t ts, k, j, n, h => by
    simp only [Mut.Brs.crct] at h; simp only [transB, Conv.SAllB]
    exact ⟨trivial, trans_used t _ _ h.1, transB_used i ts _ _ _ h.2⟩
theorem transD_used {E : LEnv} {P} {D : Name → Prop} : ∀ (t : Mut.Defs) (k n : Nat), t.crct D n →
    Conv.SAllF (fun _ _ => True) (fun _ => True) (fun _ => True) (fun q => ∃ c, D c ∧ findPrim P c = some q) (transD E P k t)
  | .nil, _, _, _ => by simp [transD, Conv.SAllF]
  | .cons t ts, k, n, h => by
    simp only [Mut.Defs.crct] at h; simp only [transD, Conv.SAllF]
    exact ⟨trans_used t _ _ h.1, transD_used ts _ _ h.2.2⟩
end

/-- The bodies of constants refer to earlier ones. -/
def EnvWfp (ar : Nat → Option Nat) : LEnv → Prop
  | [] => True
  | (_, e) :: E => e.wfp ar E.length ∧ EnvWfp ar E

theorem mkLets_wfp {ar : Nat → Option Nat} : ∀ {E : LEnv} {t : Exp}, EnvWfp ar E → t.wfp ar E.length → (mkLets E t).wfp ar 0
  | [], _, _, h => h
  | (_, e) :: E, t, hE, h => by
    show (mkLets E (.letin e t)).wfp ar 0
    refine mkLets_wfp hE.2 ?_
    simp only [Exp.wfp]
    refine ⟨hE.1, ?_⟩
    rw [Nat.add_comm]; exact h

theorem mkLets_used {P D} : ∀ {E : LEnv} {t : Exp}, (∀ x ∈ E, Used P D x.2) → Used P D t → Used P D (mkLets E t)
  | [], _, _, h => h
  | (_, e) :: E, t, hE, h => by
    show Used P D (mkLets E (.letin e t))
    exact mkLets_used (fun x hx => hE x (List.mem_cons_of_mem _ hx)) ⟨hE _ List.mem_cons_self, h⟩

theorem mono_crct {D D' : Name → Prop} (hD : ∀ c, D c → D' c) :
    (∀ (t : Term) n, t.crct D n → t.crct D' n) := by
  intro t
  refine Term.rec (motive_1 := fun t => ∀ n, t.crct D n → t.crct D' n) (motive_2 := fun t => ∀ n, t.crct D n → t.crct D' n)
    (motive_3 := fun t => ∀ n, t.crct D n → t.crct D' n) (motive_4 := fun t => ∀ n, t.crct D n → t.crct D' n)
    ?_ ?_ ?_ ?_ ?_ ?_ ?_ ?_ ?_ ?_ ?_ ?_ ?_ ?_ ?_ ?_ ?_ t <;> intros <;>
    simp_all [Term.crct, Terms.crct, Mut.Brs.crct, Mut.Defs.crct]

theorem Declared.mono {p : List (Name × Decl)} {x : Name × Decl} {c : Name} (h : Declared p c) : Declared (x :: p) c := by
  obtain ⟨d, h1, h2⟩ := h
  exact ⟨d, List.mem_cons_of_mem _ h1, h2⟩

theorem environ_cons (x : Name × Decl) (p : List (Name × Decl)) : environ (x :: p) = (x.1, x.2.entry) :: environ p := rfl

theorem offset_trm {P} {c : Name} {t : Term} : ∀ {p : List (Name × Decl)}, (c, Decl.trm t) ∈ p →
    cstOffset (translateEnv P (environ p)) c < (translateEnv P (environ p)).length
  | (d, .trm u) :: p, h => by
    rw [environ_cons, Decl.entry, Src.translateEnv_trm]
    simp only [cstOffset, List.length_cons]
    split
    · omega
    · rename_i hne
      simp only [List.mem_cons, Prod.mk.injEq, hne, false_and, false_or] at h
      have := offset_trm (P := P) h
      omega
  | (d, .typ _ _) :: p, h => by
    rw [environ_cons, Decl.entry, Src.translateEnv_typ]
    simp only [List.mem_cons, Prod.mk.injEq, reduceCtorEq, and_false, false_or] at h
    exact offset_trm h

/-- Every declared constant has code: that of a primitive or that of its body. -/
theorem declared_code {P} {ar : Nat → Option Nat} {p : List (Name × Decl)} (har : ∀ c q, findPrim P c = some q → ∃ n, ar q = some n)
    (hax : ∀ c, (c, Decl.typ 0 []) ∈ p → findPrim P c ≠ none) {c : Name} (hc : Declared p c) :
    (∃ q n, findPrim P c = some q ∧ ar q = some n) ∨
      findPrim P c = none ∧ cstOffset (translateEnv P (environ p)) c < (translateEnv P (environ p)).length := by
  cases hq : findPrim P c with
  | some q => obtain ⟨n, hn⟩ := har c q hq; exact .inl ⟨q, n, rfl, hn⟩
  | none =>
    obtain ⟨d, h1, ⟨t, rfl⟩ | rfl⟩ := hc
    · exact .inr ⟨rfl, offset_trm h1⟩
    · exact absurd hq (hax c h1)

theorem translateEnv_wfp {P} {ar : Nat → Option Nat} (har : ∀ c q, findPrim P c = some q → ∃ n, ar q = some n) :
    ∀ {p : List (Name × Decl)}, Wf p → (∀ c, (c, Decl.typ 0 []) ∈ p → findPrim P c ≠ none) → EnvWfp ar (translateEnv P (environ p))
  | [], _, _ => trivial
  | (c, .trm t) :: p, hp, hax => by
    rw [environ_cons, Decl.entry, Src.translateEnv_trm]
    have hax' : ∀ c, (c, Decl.typ 0 []) ∈ p → findPrim P c ≠ none := fun c hc => hax c (List.mem_cons_of_mem _ hc)
    refine ⟨?_, translateEnv_wfp har hp.1 hax'⟩
    exact trans_wfp (fun c hc => declared_code har hax' hc) t 0 hp.2.2
  | (c, .typ _ _) :: p, hp, hax => by
    rw [environ_cons, Decl.entry, Src.translateEnv_typ]
    exact translateEnv_wfp har hp.1 fun c hc => hax c (List.mem_cons_of_mem _ hc)

theorem translateEnv_used {P} : ∀ {p : List (Name × Decl)} {D : Name → Prop}, Wf p → (∀ c, Declared p c → D c) →
    ∀ x ∈ translateEnv P (environ p), Used P D x.2
  | [], _, _, _, x, hx => by simp [environ, translateEnv] at hx
  | (c, .trm t) :: p, D, hp, hD, x, hx => by
    rw [environ_cons, Decl.entry, Src.translateEnv_trm] at hx
    rcases List.mem_cons.1 hx with rfl | hx
    · exact trans_used t _ _ (mono_crct (fun c hc => hD c hc.mono) t 0 hp.2.2)
    · exact translateEnv_used hp.1 (fun c hc => hD c hc.mono) x hx
  | (c, .typ _ _) :: p, D, hp, hD, x, hx => by
    rw [environ_cons, Decl.entry, Src.translateEnv_typ] at hx
    exact translateEnv_used hp.1 (fun c hc => hD c hc.mono) x hx

end Reg
