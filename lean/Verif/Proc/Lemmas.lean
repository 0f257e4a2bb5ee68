import Verif.Proc.Spec

/-!
# The invariant of a running program
-/

namespace Proc

theorem lines_cut {b l r : List Char} (h : cut b = some (l, r)) (t : List Char) : lines (b ++ t) = l :: lines (r ++ t) := by
  induction b generalizing l r with
  | nil => simp [cut] at h
  | cons c cs ih =>
    by_cases hc : c = '\n'
    · simp [cut, hc] at h
      obtain ⟨rfl, rfl⟩ := h
      simp [lines, hc]
    · simp only [cut, hc, if_false, Option.map_eq_some_iff] at h
      obtain ⟨⟨l', r'⟩, h, e⟩ := h
      simp only [Prod.mk.injEq] at e
      obtain ⟨rfl, rfl⟩ := e
      simp [lines, hc, ih h]

theorem lines_nocut {b : List Char} (h : cut b = none) (hb : b ≠ []) : lines b = [b] := by
  induction b with
  | nil => exact absurd rfl hb
  | cons c cs ih =>
    by_cases hc : c = '\n'
    · simp [cut, hc] at h
    · simp only [cut, hc, if_false, Option.map_eq_none_iff] at h
      cases cs with
      | nil => simp [lines, hc]
      | cons d ds =>
        have := ih h (by simp)
        simp [lines, hc] at this ⊢
        simp [this]

theorem cut_shorter {b l r : List Char} (h : cut b = some (l, r)) : r.length < b.length := by
  induction b generalizing l r with
  | nil => simp [cut] at h
  | cons c cs ih =>
    by_cases hc : c = '\n'
    · simp [cut, hc] at h
      obtain ⟨rfl, rfl⟩ := h
      simp
    · simp only [cut, hc, if_false, Option.map_eq_some_iff] at h
      obtain ⟨⟨l', r'⟩, h, e⟩ := h
      simp only [Prod.mk.injEq] at e
      obtain ⟨rfl, rfl⟩ := e
      have := ih h
      simp; omega

theorem outs_out (c : Char) (as : List Act) : outs (.out c :: as) = c :: outs as := rfl
theorem outs_err (c : Char) (as : List Act) : outs (.err c :: as) = outs as := rfl
theorem errs_out (c : Char) (as : List Act) : errs (.out c :: as) = errs as := rfl
theorem errs_err (c : Char) (as : List Act) : errs (.err c :: as) = c :: errs as := rfl

/-- The invariant. -/
structure Inv (cap code : Nat) (p : List Act) (s : St) : Prop where
  suffix : ∃ pre, Act.read ∉ pre ∧ p = pre ++ s.acts
  bound : s.pe.length ≤ cap
  ended : s.exited.isSome → s.acts = [] ∧ s.exited = some code
  out : s.phase = .out → s.be = [] ∧ s.pe ++ errs s.acts = errs p ∧
    s.shown ++ (lines (s.bo ++ s.po ++ outs s.acts)).map .notice = (lines (outs p)).map .notice
  err : s.phase = .err → s.exited.isSome ∧ (errs p).length ≤ cap ∧
    s.shown ++ (lines (s.be ++ s.pe)).map .warning = expected p
  done : s.phase = .done → s.exited.isSome ∧ (errs p).length ≤ cap ∧ s.shown = expected p

theorem inv_start (cap code : Nat) (p : List Act) : Inv cap code p (start p) := by
  refine ⟨⟨[], by simp, rfl⟩, by simp [start], by simp [start], ?_, by simp [start], by simp [start]⟩
  intro _
  simp [start]

theorem inv_step {cap code : Nat} {p : List Act} {s t : St} (h : Inv cap code p s) (st : Step cap code s t) : Inv cap code p t := by
  obtain ⟨⟨pre, hr, hp⟩, hc, he, ho, hE, hd⟩ := h
  cases st with
  | out c as ha hl =>
    have hx : s.exited.isSome → False := fun x => by simp [(he x).1] at ha
    refine ⟨⟨pre ++ [.out c], by simp [hr], by simp [hp, ha]⟩, hc, fun x => (hx x).elim, ?_, fun x => (hx (hE x).1).elim, fun x => (hx (hd x).1).elim⟩
    intro x
    obtain ⟨a, b, d⟩ := ho x
    rw [ha, errs_out] at b
    rw [ha, outs_out] at d
    exact ⟨a, b, by simpa using d⟩
  | err c as ha hl =>
    have hx : s.exited.isSome → False := fun x => by simp [(he x).1] at ha
    refine ⟨⟨pre ++ [.err c], by simp [hr], by simp [hp, ha]⟩, by simp; omega, fun x => (hx x).elim, ?_, fun x => (hx (hE x).1).elim, fun x => (hx (hd x).1).elim⟩
    intro x
    obtain ⟨a, b, d⟩ := ho x
    rw [ha, errs_err] at b
    rw [ha, outs_err] at d
    exact ⟨a, by simpa using b, d⟩
  | exit ha hn =>
    have hx : s.exited.isSome → False := fun x => by simp [hn] at x
    exact ⟨⟨pre, hr, hp⟩, hc, fun _ => ⟨ha, rfl⟩, ho, fun x => (hx (hE x).1).elim, fun x => (hx (hd x).1).elim⟩
  | fillOut k hph hcut h0 hk =>
    refine ⟨⟨pre, hr, hp⟩, hc, he, ?_, fun x => by simp [hph] at x, fun x => by simp [hph] at x⟩
    intro x
    obtain ⟨a, b, d⟩ := ho x
    exact ⟨a, b, by simpa using d⟩
  | lineOut l r hph hcut =>
    refine ⟨⟨pre, hr, hp⟩, hc, he, ?_, fun x => by simp [hph] at x, fun x => by simp [hph] at x⟩
    intro x
    obtain ⟨a, b, d⟩ := ho x
    rw [List.append_assoc, lines_cut hcut] at d
    exact ⟨a, b, by simpa using d⟩
  | lastOut hph hcut hb hpo hx =>
    refine ⟨⟨pre, hr, hp⟩, hc, he, ?_, fun x => by simp [hph] at x, fun x => by simp [hph] at x⟩
    intro x
    obtain ⟨a, b, d⟩ := ho x
    have ha := (he hx).1
    simp only [ha, hpo, List.append_nil] at d
    rw [show outs [] = [] from rfl, List.append_nil, lines_nocut hcut hb] at d
    refine ⟨a, b, ?_⟩
    simp only [ha, hpo, List.append_nil]
    simpa [outs, lines] using d
  | eofOut hph hb hpo hx =>
    obtain ⟨a, b, d⟩ := ho hph
    have ha := (he hx).1
    simp only [ha, hpo, hb] at d b
    rw [show errs [] = [] from rfl, List.append_nil] at b
    refine ⟨⟨pre, hr, hp⟩, hc, he, fun x => by simp at x, fun _ => ⟨hx, by rw [← b]; exact hc, ?_⟩, fun x => by simp at x⟩
    simp only [outs, List.filterMap_nil, List.append_nil, lines, List.map_nil] at d
    simp only [a, List.nil_append, b, d, expected]
    rfl
  | fillErr k hph hcut h0 hk =>
    refine ⟨⟨pre, hr, hp⟩, by simp; omega, he, fun x => by simp [hph] at x, ?_, fun x => by simp [hph] at x⟩
    intro x
    obtain ⟨a, b, d⟩ := hE x
    exact ⟨a, b, by simpa using d⟩
  | lineErr l r hph hcut =>
    refine ⟨⟨pre, hr, hp⟩, hc, he, fun x => by simp [hph] at x, ?_, fun x => by simp [hph] at x⟩
    intro x
    obtain ⟨a, b, d⟩ := hE x
    rw [lines_cut hcut] at d
    exact ⟨a, b, by simpa using d⟩
  | lastErr hph hcut hb hpo hx =>
    refine ⟨⟨pre, hr, hp⟩, hc, he, fun x => by simp [hph] at x, ?_, fun x => by simp [hph] at x⟩
    intro x
    obtain ⟨a, b, d⟩ := hE x
    simp only [hpo, List.append_nil] at d
    rw [lines_nocut hcut hb] at d
    refine ⟨a, b, ?_⟩
    simpa [hpo, lines] using d
  | eofErr hph hb hpo hx =>
    obtain ⟨a, b, d⟩ := hE hph
    refine ⟨⟨pre, hr, hp⟩, hc, he, fun x => by simp at x, fun x => by simp at x, fun _ => ⟨a, b, ?_⟩⟩
    simpa [hb, hpo, lines] using d

theorem inv_steps {cap code n : Nat} {p : List Act} {s : St} (h : Steps cap code n (start p) s) : Inv cap code p s := by
  generalize hs : start p = s0 at h
  induction h with
  | refl => rw [← hs]; exact inv_start cap code p
  | tail n a b c _ st ih => exact inv_step (ih hs) st

/-- What is left to do. -/
def measure (s : St) : Nat :=
  3 * s.acts.length + 2 * (s.po.length + s.pe.length) + (s.bo.length + s.be.length) + (if s.exited.isSome then 0 else 1) +
    (match s.phase with | .out => 2 | .err => 1 | .done => 0)

theorem measure_step {cap code : Nat} {s t : St} (st : Step cap code s t) : measure t < measure s := by
  cases st with
  | out c as ha hl => simp [measure, ha]; omega
  | err c as ha hl => simp [measure, ha]; omega
  | exit ha hn => simp [measure, hn]
  | fillOut k hph hcut h0 hk => simp [measure]; omega
  | lineOut l r hph hcut => have := cut_shorter hcut; simp [measure]; omega
  | lastOut hph hcut hb hpo hx => have := List.length_pos_iff.2 hb; simp [measure]; omega
  | eofOut hph hb hpo hx => simp [measure, hph]
  | fillErr k hph hcut h0 hk => simp [measure]; omega
  | lineErr l r hph hcut => have := cut_shorter hcut; simp [measure]; omega
  | lastErr hph hcut hb hpo hx => have := List.length_pos_iff.2 hb; simp [measure]; omega
  | eofErr hph hb hpo hx => simp [measure, hph]

theorem measure_steps {cap code n : Nat} {s t : St} (h : Steps cap code n s t) : n + measure t ≤ measure s := by
  induction h with
  | refl => simp
  | tail n a b c _ st ih => have := measure_step st; omega

theorem progress {cap code : Nat} {p : List Act} {s : St} (hcap : 0 < cap) (hi : NoInput p) (he : (errs p).length ≤ cap) (h : Inv cap code p s)
    (hd : s.phase ≠ .done) : ∃ t, Step cap code s t := by
  cases hph : s.phase with
  | done => exact absurd hph hd
  | out =>
    obtain ⟨hb, hpe, -⟩ := h.out hph
    cases hcut : cut s.bo with
    | some x => exact ⟨_, .lineOut s x.1 x.2 hph hcut⟩
    | none =>
      by_cases hpo : s.po = []
      · by_cases hx : s.exited.isSome
        · by_cases hbo : s.bo = []
          · exact ⟨_, .eofOut s hph hbo hpo hx⟩
          · exact ⟨_, .lastOut s hph hcut hbo hpo hx⟩
        · cases ha : s.acts with
          | nil => exact ⟨_, .exit s ha (by simpa using hx)⟩
          | cons a as => cases a with
            | out c => exact ⟨_, .out s c as ha (by simpa [hpo] using hcap)⟩
            | err c =>
              refine ⟨_, .err s c as ha ?_⟩
              rw [ha, errs_err] at hpe
              have := congrArg List.length hpe
              simp at this; omega
            | read =>
              obtain ⟨pre, -, hp⟩ := h.suffix
              exact absurd (by rw [hp, ha]; simp) hi
      · exact ⟨_, .fillOut s s.po.length hph hcut (List.length_pos_iff.2 hpo) (Nat.le_refl _)⟩
  | err =>
    obtain ⟨hx, -, -⟩ := h.err hph
    cases hcut : cut s.be with
    | some x => exact ⟨_, .lineErr s x.1 x.2 hph hcut⟩
    | none =>
      by_cases hpe : s.pe = []
      · by_cases hbe : s.be = []
        · exact ⟨_, .eofErr s hph hbe hpe hx⟩
        · exact ⟨_, .lastErr s hph hcut hbe hpe hx⟩
      · exact ⟨_, .fillErr s s.pe.length hph hcut (List.length_pos_iff.2 hpe) (Nat.le_refl _)⟩

theorem completes {cap code : Nat} {p : List Act} (hcap : 0 < cap) (hi : NoInput p) (he : (errs p).length ≤ cap) {n : Nat} {s : St}
    (h : Steps cap code n (start p) s) : ∃ m t, Steps cap code m (start p) t ∧ t.phase = .done := by
  by_cases hd : s.phase = .done
  · exact ⟨n, s, h, hd⟩
  · obtain ⟨t, st⟩ := progress hcap hi he (inv_steps h) hd
    have := measure_step st
    exact completes hcap hi he (.tail n _ _ _ h st)
termination_by measure s

theorem notices_expected (a b : List (List Char)) : notices (a.map .notice ++ b.map .warning) = a := by
  induction a with
  | nil => induction b with
    | nil => rfl
    | cons x xs ih => simpa [notices] using ih
  | cons x xs ih => simpa [notices] using ih

theorem warnings_expected (a b : List (List Char)) : warnings (a.map .notice ++ b.map .warning) = b := by
  induction a with
  | nil => induction b with
    | nil => rfl
    | cons x xs ih => simpa [warnings] using ih
  | cons x xs ih => simpa [warnings] using ih

theorem pushLines_lines (t : List Char) : pushLines (lines t) = ended t := by
  induction t with
  | nil => rfl
  | cons c cs ih =>
    by_cases hc : c = '\n'
    · cases cs with
      | nil => simp [lines, hc, pushLines, ended]
      | cons d ds =>
        simp only [lines, hc, if_true, pushLines, List.nil_append] at ih ⊢
        rw [ih]
        simp only [ended, List.getLast?_cons_cons]
        split <;> simp_all
    · cases cs with
      | nil => simp [lines, hc, pushLines, ended]
      | cons d ds =>
        cases hl : lines (d :: ds) with
        | nil =>
          simp only [lines] at hl
          split at hl
          · simp at hl
          · split at hl <;> simp at hl
        | cons l ls =>
          have e : lines (c :: d :: ds) = (c :: l) :: ls := by rw [lines, if_neg hc, hl]
          rw [e]
          rw [hl] at ih
          simp only [pushLines, List.cons_append] at ih ⊢
          rw [ih]
          simp only [ended, List.getLast?_cons_cons]
          split <;> simp_all

end Proc
