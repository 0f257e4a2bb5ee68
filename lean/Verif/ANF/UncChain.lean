import Verif.ANF.UncSim

/-!
# Uncurrying: the traversal is a chain of rounds
-/

namespace ANF
namespace Unc

/-- A chain of rounds, each with its own bound on the names in use. -/
inductive Chain {α : Type} (R : Nat → α → α → Prop) (bd : Nat → α → Prop) : Nat → α → Nat → α → Prop
  | refl {k k' a} : bd k a → k ≤ k' → Chain R bd k a k' a
  | step {k a k₁ b k' c} : bd k a → R k a b → k ≤ k₁ → Chain R bd k₁ b k' c → Chain R bd k a k' c

namespace Chain
variable {α β : Type} {R : Nat → α → α → Prop} {bd : Nat → α → Prop} {R' : Nat → β → β → Prop} {bd' : Nat → β → Prop}

theorem le {k a k' b} (h : Chain R bd k a k' b) : k ≤ k' := by
  induction h with
  | refl _ h => exact h
  | step _ _ h _ ih => exact h.trans ih

theorem start {k a k' b} (h : Chain R bd k a k' b) : bd k a := by
  cases h with
  | refl h _ => exact h
  | step h _ _ _ => exact h

theorem stop {k a k' b} (mono : ∀ {k k' a}, k ≤ k' → bd k a → bd k' a) (h : Chain R bd k a k' b) : bd k' b := by
  induction h with
  | refl h h' => exact mono h' h
  | step _ _ _ _ ih => exact ih

theorem weaken {k₀ k a k' b} (h₀ : k₀ ≤ k) (hb : bd k₀ a) (hR : ∀ b, R k a b → R k₀ a b)
    (h : Chain R bd k a k' b) : Chain R bd k₀ a k' b := by
  cases h with
  | refl h h' => exact .refl hb (h₀.trans h')
  | step h r h' t => exact .step hb (hR _ r) (h₀.trans h') t

theorem trans {k a k' b k'' c} (mono : ∀ {k k' a}, k ≤ k' → bd k a → bd k' a) (rfl' : ∀ k a, R k a a)
    (h : Chain R bd k a k' b) (h' : Chain R bd k' b k'' c) : Chain R bd k a k'' c := by
  induction h with
  | refl h₀ hk => exact .step h₀ (rfl' _ _) hk h'
  | step h₀ r hk _ ih => exact .step h₀ r hk (ih h')

theorem map {k₀ k a k' b} (f : α → β) (hb : ∀ {k a}, k₀ ≤ k → bd k a → bd' k (f a))
    (hR : ∀ {k a b}, k₀ ≤ k → R k a b → R' k (f a) (f b)) (hk : k₀ ≤ k) (h : Chain R bd k a k' b) :
    Chain R' bd' k (f a) k' (f b) := by
  induction h with
  | refl h h' => exact .refl (hb hk h) h'
  | step h r h' _ ih => exact .step (hb hk h) (hR hk r) h' (ih (hk.trans h'))

end Chain

theorem Below.mono {k k' e} (h : k ≤ k') (hb : Below k e) : Below k' e :=
  ⟨fun x hx => (hb.1 x hx).trans_le h, fun x hx => (hb.2 x hx).trans_le h⟩
theorem BelowB.mono {k k' e} (h : k ≤ k') (hb : BelowB k e) : BelowB k' e :=
  ⟨fun x hx => (hb.1 x hx).trans_le h, fun x hx => (hb.2 x hx).trans_le h⟩
theorem BelowD.mono {k k' e} (h : k ≤ k') (hb : BelowD k e) : BelowD k' e :=
  ⟨fun x hx => (hb.1 x hx).trans_le h, fun x hx => (hb.2 x hx).trans_le h⟩

theorem BelowD.append {k A B} : BelowD k (Defs.append A B) ↔ BelowD k A ∧ BelowD k B := by
  induction A using Defs.ind with
  | nil => simp [Defs.append, BelowD.nil]
  | cons f ft xs e A ih => simp only [Defs.append, BelowD.cons, ih, and_assoc]

theorem names_append (A B : Defs) : (A.append B).names = A.names ++ B.names := by
  induction A using Defs.ind with
  | nil => rfl
  | cons f ft xs e A ih => simp [Defs.append, Defs.names, ih]

theorem PD.append_left (k : Nat) (A : Defs) {B B'} (h : PD k B B') : PD k (A.append B) (A.append B') := by
  induction A using Defs.ind with
  | nil => exact h
  | cons f ft xs e A ih => exact .cons (PE.refl k e) ih

theorem PD.append_right {k : Nat} {B : Defs} (hB : ∀ x ∈ B.names, x < k) : ∀ {A A' : Defs}, PD k A A' →
    PD k (A.append B) (A'.append B)
  | _, _, .nil => PD.refl k B
  | _, _, .cons he hd => .cons he (PD.append_right hB hd)
  | _, _, .unc he hd h1 h2 h3 h4 h5 h6 h7 h8 h9 => by
    refine .unc he (PD.append_right hB hd) h1 ?_ h3 h4 h5 h6 h7 h8 h9
    rw [names_append, List.mem_append]
    rintro (h | h)
    · exact h2 h
    · exact absurd (hB _ h) (by vomega)

/-- Rounds on terms. -/
abbrev ChainE := Chain PE Below
/-- Rounds on branches. -/
abbrev ChainB := Chain PB BelowB
/-- Rounds on bundles. -/
abbrev ChainD := Chain PD BelowD

theorem ChainE.comp {k a k' b k'' c} (h : ChainE k a k' b) (h' : ChainE k' b k'' c) : ChainE k a k'' c :=
  h.trans Below.mono PE.refl h'
theorem ChainB.comp {k a k' b k'' c} (h : ChainB k a k' b) (h' : ChainB k' b k'' c) : ChainB k a k'' c :=
  h.trans BelowB.mono PB.refl h'
theorem ChainD.comp {k a k' b k'' c} (h : ChainD k a k' b) (h' : ChainD k' b k'' c) : ChainD k a k'' c :=
  h.trans BelowD.mono PD.refl h'

theorem ChainE.stop' {k a k' b} (h : ChainE k a k' b) : Below k' b := Chain.stop (bd := Below) Below.mono h
theorem ChainD.stop' {k a k' b} (h : ChainD k a k' b) : BelowD k' b := Chain.stop (bd := BelowD) BelowD.mono h

theorem fresh_next {gv fv g s} : (fresh gv fv g s).2.2.2.2.next = s.next + gv.length + fv.length + 1 := by
  simp only [fresh, getFunTag]

/-- What the traversal of an entry does: it splits the function, or visits its body. -/
theorem uncBody_spec (cps f ft xs) (e : Exp) (s : St) :
    (∃ g gt gv ge tail pre fv, e = .fn (.cons g gt gv ge .nil) tail ∧ peel cps xs g ge tail s = some (pre, fv) ∧
      uncBody cps f ft xs e s =
        (.cons f ft (pre ++ List.range' (s.next + gv.length) fv.length)
          (.fn (.cons g gt (List.range' s.next gv.length) (.app (s.next + gv.length + fv.length) (fresh gv fv g s).2.2.2.1
            (List.range' s.next gv.length ++ List.range' (s.next + gv.length) fv.length)) .nil) tail)
          (uncBody cps (s.next + gv.length + fv.length) (fresh gv fv g s).2.2.2.1 (gv ++ fv) ge
            (fresh gv fv g s).2.2.2.2).1,
         (uncBody cps (s.next + gv.length + fv.length) (fresh gv fv g s).2.2.2.1 (gv ++ fv) ge
            (fresh gv fv g s).2.2.2.2).2)) ∨
    uncBody cps f ft xs e s = (.cons f ft xs (uncE cps e s).1 .nil, (uncE cps e s).2) := by
  cases e with
  | fn B tail =>
    match B with
    | .nil => right; simp [uncBody, uncE]
    | .cons g gt gv ge (.cons _ _ _ _ _) => right; simp [uncBody, uncE]
    | .cons g gt gv ge .nil =>
      cases hp : peel cps xs g ge tail s with
      | none => right; simp [uncBody, uncE, hp]
      | some p =>
        left
        refine ⟨g, gt, gv, ge, tail, p.1, p.2, rfl, hp, ?_⟩
        simp only [uncBody, hp]
        rfl
  | _ => right; simp [uncBody, uncE]

theorem peel_some {cps xs g ge tail s pre fv} (h : peel cps xs g ge tail s = some (pre, fv)) :
    xs = pre ++ fv ∧ g ∉ ge.fv ∧
    (pre = [] ∧ tail = .halt g ∨ ∃ q qt, pre = [q] ∧ tail = .app q qt [g] ∧ q ∉ ge.fv) := by
  unfold peel at h
  split at h
  · split at h
    · next hc =>
      obtain ⟨rfl, rfl, _, h1, h2⟩ := hc
      cases h
      simp only [occurs, decide_eq_false_iff_not, not_or] at h1 h2
      exact ⟨rfl, h1.1, .inr ⟨_, _, rfl, rfl, h2.1⟩⟩
    · cases h
  · split at h
    · next hc =>
      obtain ⟨rfl, _, h1⟩ := hc
      cases h
      simp only [occurs, decide_eq_false_iff_not, not_or] at h1
      exact ⟨rfl, h1.1, .inl ⟨rfl, rfl⟩⟩
    · cases h
  · cases h

theorem range'_append_nodup (n a b : Nat) : (List.range' n a ++ List.range' (n + a) b).Nodup := by
  rw [List.range'_append_1]; exact List.nodup_range'

mutual
theorem uncE_chain (cps : Bool) : ∀ (e : Exp) (s : St), Below s.next e →
    ChainE s.next e (uncE cps e s).2.next (uncE cps e s).1
  | .constr x t ys e, s, h => by
    have h' := Below.constr.mp h
    simp only [uncE]
    exact (uncE_chain cps e s h'.2.2).map (Exp.constr x t ys)
      (fun hk hb => Below.constr.mpr ⟨h'.1.trans_le hk, fun y hy => (h'.2.1 y hy).trans_le hk, hb⟩) (fun _ h => PE.constr h) le_rfl
  | .case x bs, s, h => by
    have h' := Below.case.mp h
    simp only [uncE]
    exact (uncBs_chain cps bs s h'.2).map (Exp.case x)
      (fun hk hb => Below.case.mpr ⟨h'.1.trans_le hk, hb⟩) (fun _ h => PE.case h) le_rfl
  | .proj x t n y e, s, h => by
    have h' := Below.proj.mp h
    simp only [uncE]
    exact (uncE_chain cps e s h'.2.2).map (Exp.proj x t n y)
      (fun hk hb => Below.proj.mpr ⟨h'.1.trans_le hk, h'.2.1.trans_le hk, hb⟩) (fun _ h => PE.proj h) le_rfl
  | .letapp x f ft ys e, s, h => by
    have h' := Below.letapp.mp h
    simp only [uncE]
    exact (uncE_chain cps e s h'.2.2.2).map (Exp.letapp x f ft ys)
      (fun hk hb => Below.letapp.mpr ⟨h'.1.trans_le hk, h'.2.1.trans_le hk, fun y hy => (h'.2.2.1 y hy).trans_le hk, hb⟩)
      (fun _ h => PE.letapp h) le_rfl
  | .fn B e, s, h => by
    have h' := Below.fn.mp h
    simp only [uncE]
    have c1 := uncD_chain cps B s h'.1
    have c2 := uncE_chain cps e (uncD cps B s).2 (h'.2.mono c1.le)
    refine ChainE.comp (c1.map (fun B => Exp.fn B e) (fun hk hb => Below.fn.mpr ⟨hb, h'.2.mono hk⟩)
      (fun _ h => PE.fn h (PE.refl _ e)) le_rfl) ?_
    exact c2.map (Exp.fn _) (fun hk hb => Below.fn.mpr ⟨(ChainD.stop' c1).mono hk, hb⟩)
      (fun _ h => PE.fn (PD.refl _ _) h) le_rfl
  | .app f ft ys, s, h => .refl h le_rfl
  | .primVal x p e, s, h => by
    have h' := Below.primVal.mp h
    simp only [uncE]
    exact (uncE_chain cps e s h'.2).map (Exp.primVal x p)
      (fun hk hb => Below.primVal.mpr ⟨h'.1.trans_le hk, hb⟩) (fun _ h => PE.primVal h) le_rfl
  | .prim x p ys e, s, h => by
    have h' := Below.prim.mp h
    simp only [uncE]
    exact (uncE_chain cps e s h'.2.2).map (Exp.prim x p ys)
      (fun hk hb => Below.prim.mpr ⟨h'.1.trans_le hk, fun y hy => (h'.2.1 y hy).trans_le hk, hb⟩) (fun _ h => PE.prim h) le_rfl
  | .halt x, s, h => .refl h le_rfl
  termination_by e => (sizeOf e, 0)
theorem uncBs_chain (cps : Bool) : ∀ (bs : Brs) (s : St), BelowB s.next bs →
    ChainB s.next bs (uncBs cps bs s).2.next (uncBs cps bs s).1
  | .nil, s, h => .refl h le_rfl
  | .cons t e bs, s, h => by
    have h' := BelowB.cons.mp h
    simp only [uncBs]
    have c1 := uncE_chain cps e s h'.1
    have c2 := uncBs_chain cps bs (uncE cps e s).2 (h'.2.mono c1.le)
    refine ChainB.comp (c1.map (fun e => Brs.cons t e bs) (fun hk hb => BelowB.cons.mpr ⟨hb, h'.2.mono hk⟩)
      (fun _ h => PB.cons h (PB.refl _ bs)) le_rfl) ?_
    exact c2.map (Brs.cons t _) (fun hk hb => BelowB.cons.mpr ⟨(ChainE.stop' c1).mono hk, hb⟩)
      (fun _ h => PB.cons (PE.refl _ _) h) le_rfl
  termination_by bs => (sizeOf bs, 0)
theorem uncD_chain (cps : Bool) : ∀ (B : Defs) (s : St), BelowD s.next B →
    ChainD s.next B (uncD cps B s).2.next (uncD cps B s).1
  | .nil, s, h => .refl h le_rfl
  | .cons f ft xs e B, s, h => by
    have h' := BelowD.cons.mp h
    simp only [uncD]
    have c1 := uncBody_chain cps f ft xs e s (BelowD.cons.mpr ⟨h'.1, h'.2.1, h'.2.2.1, BelowD.nil⟩)
    have c2 := uncD_chain cps B (uncBody cps f ft xs e s).2 (h'.2.2.2.mono c1.le)
    refine ChainD.comp (c1.map (fun D => D.append B) (fun hk hb => BelowD.append.mpr ⟨hb, h'.2.2.2.mono hk⟩)
      (fun hk h => PD.append_right (fun x hx => (names_lt h'.2.2.2 x hx).trans_le hk) h) le_rfl) ?_
    exact c2.map (fun B => Defs.append _ B) (fun hk hb => BelowD.append.mpr ⟨(ChainD.stop' c1).mono hk, hb⟩)
      (fun _ h => PD.append_left _ _ h) le_rfl
  termination_by B => (sizeOf B, 0)
theorem uncBody_chain (cps : Bool) (f : Var) (ft : Tag) (xs : List Var) : ∀ (e : Exp) (s : St),
    BelowD s.next (.cons f ft xs e .nil) →
    ChainD s.next (.cons f ft xs e .nil) (uncBody cps f ft xs e s).2.next (uncBody cps f ft xs e s).1
  | e, s, h => by
    have h' := BelowD.cons.mp h
    rcases uncBody_spec cps f ft xs e s with ⟨g, gt, gv, ge, tail, pre, fv, rfl, hp, heq⟩ | heq
    · rw [heq]
      obtain ⟨rfl, hg, hs⟩ := peel_some hp
      have hb := Below.fn.mp h'.2.2.1
      have hbg := BelowD.cons.mp hb.1
      have hle : s.next ≤ (fresh gv fv g s).2.2.2.2.next := by rw [fresh_next]; exact Nat.le_add_right _ _ |>.trans (Nat.le_add_right _ _) |>.trans (Nat.le_add_right _ _)
      have hlt : ∀ {x}, x < s.next → x < (fresh gv fv g s).2.2.2.2.next := fun h => lt_of_lt_of_le h hle
      have hnew : BelowD (fresh gv fv g s).2.2.2.2.next
          (.cons (s.next + gv.length + fv.length) (fresh gv fv g s).2.2.2.1 (gv ++ fv) ge .nil) := by
        refine BelowD.cons.mpr ⟨by rw [fresh_next]; vomega, fun x hx => ?_, hbg.2.2.1.mono hle, BelowD.nil⟩
        rw [List.mem_append] at hx
        rcases hx with hx | hx
        · exact hlt (hbg.2.1 x hx)
        · exact hlt (h'.2.1 x (by simp [hx]))
      have c := uncBody_chain cps (s.next + gv.length + fv.length) (fresh gv fv g s).2.2.2.1 (gv ++ fv) ge
        (fresh gv fv g s).2.2.2.2 hnew
      refine .step h (PD.unc (B' := .nil) (f1 := s.next + gv.length + fv.length) (ft1 := (fresh gv fv g s).2.2.2.1)
        (fv1 := List.range' (s.next + gv.length) fv.length) (gv1 := List.range' s.next gv.length)
        (PE.refl _ ge) PD.nil (by vomega) (by simp [Defs.names]) ?_ ?_ (range'_append_nodup _ _ _) (by simp) (by simp) hg hs)
        hle ?_
      · intro x hx
        simp only [List.mem_append, List.mem_range'_1] at hx
        vomega
      · simp only [List.mem_append, List.mem_range'_1]
        vomega
      · refine c.map (fun D => Defs.cons f ft _ _ D) (fun hk hb' => BelowD.cons.mpr ⟨(hlt h'.1).trans_le hk, ?_, ?_, hb'⟩)
          (fun _ h => PD.cons (PE.refl _ _) h) le_rfl
        · intro x hx
          rw [fresh_next] at hk
          simp only [List.mem_append, List.mem_range'_1] at hx
          rcases hx with hx | hx
          · exact (hlt (h'.2.1 x (by simp [hx]))).trans_le (by rw [fresh_next]; exact hk)
          · vomega
        · refine Below.fn.mpr ⟨BelowD.cons.mpr ⟨(hlt hbg.1).trans_le hk, ?_, Below.app.mpr ⟨?_, ?_⟩, BelowD.nil⟩,
            hb.2.mono (hle.trans hk)⟩
          all_goals rw [fresh_next] at hk
          · intro x hx; rw [List.mem_range'_1] at hx; vomega
          · vomega
          · intro x hx; simp only [List.mem_append, List.mem_range'_1] at hx; vomega
    · rw [heq]
      exact (uncE_chain cps e s h'.2.2.1).map (fun e => Defs.cons f ft xs e .nil)
        (fun hk hb => BelowD.cons.mpr ⟨h'.1.trans_le hk, fun y hy => (h'.2.1 y hy).trans_le hk, hb, BelowD.nil⟩)
        (fun _ h => PD.cons h .nil) le_rfl
  termination_by e => (sizeOf e, 1)
  decreasing_by all_goals (try subst_vars); simp_wf; first | omega | skip
end

/-- A chain of rounds preserves what a program does. -/
theorem chain_preserves (S : Sig) {k e k' e'} (h : ChainE k e k' e') : Preserves S e S e' := by
  induction h with
  | refl => exact .refl S _
  | step hb r _ _ ih => exact (round_preserves S r hb).trans ih

theorem below_maxVar {e k} (h : maxVar e < k) : Below k e := by
  have hs : (e.fv ∪ e.bv.toFinset).sup id < k := lt_of_le_of_lt (le_max_left _ 1) h
  constructor
  · intro x hx
    have : id x ≤ (e.fv ∪ e.bv.toFinset).sup id := Finset.le_sup (by simp [hx])
    exact lt_of_le_of_lt this hs
  · intro x hx
    have : id x ≤ (e.fv ∪ e.bv.toFinset).sup id := Finset.le_sup (by simp [hx])
    exact lt_of_le_of_lt this hs

end Unc
end ANF
