import Verif.Reify.SessionModel
import Mathlib.Tactic.Basic
import Mathlib.Tactic.IntervalCases

/-!
# C68: evaluating a term runs the code compiled for that term
-/

namespace Reify

/-! ## Fresh names -/

/-- The number read from the end of a reversed name, so that it grows with its length. -/
def rank : Str → Nat
  | [] => 0
  | c :: rest => if c.isDigit then c.toNat - 47 + 10 * rank rest else 0

/-- `rank` of `n` 9s behind a name of rank `x`. -/
def nines : Nat → Nat → Nat
  | 0, x => x
  | n + 1, x => 10 + 10 * nines n x

/-- `rank` of `n` 0s behind a name of rank `x`. -/
def zeros : Nat → Nat → Nat
  | 0, x => x
  | n + 1, x => 1 + 10 * zeros n x

theorem nines_comm (n x : Nat) : nines n (10 + 10 * x) = nines (n + 1) x := by
  induction n with
  | zero => rfl
  | succ n ih => simp only [nines] at *; rw [ih]

theorem zeros_nines (n x : Nat) : zeros n (x + 1) = nines n x + 1 := by
  induction n with
  | zero => rfl
  | succ n ih => simp only [nines, zeros] at *; rw [ih]; omega

theorem zeros_mono {n x y : Nat} (h : x < y) : zeros n x < zeros n y := by
  induction n with
  | zero => exact h
  | succ n ih => simp only [zeros]; omega

theorem rank_zeros (n : Nat) (s : Str) : rank (List.replicate n '0' ++ s) = zeros n (rank s) := by
  induction n with
  | zero => rfl
  | succ n ih =>
    rw [List.replicate_succ, List.cons_append, rank, if_pos (by decide), ih]
    simp only [zeros]
    rw [show ('0' : Char).toNat - 47 = 1 by decide]

theorem digit_bounds {c : Char} (h : c.isDigit = true) : 48 ≤ c.toNat ∧ c.toNat ≤ 57 := by
  simp only [Char.isDigit, ge_iff_le, Bool.and_eq_true, decide_eq_true_eq] at h
  obtain ⟨h1, h2⟩ := h
  rw [UInt32.le_iff_toNat_le] at h1 h2
  exact ⟨h1, h2⟩

theorem digit_succ {c : Char} (h : c.isDigit = true) (h9 : c ≠ '9') :
    (Char.ofNat (c.toNat + 1)).isDigit = true ∧ (Char.ofNat (c.toNat + 1)).toNat = c.toNat + 1 := by
  obtain ⟨h1, h2⟩ := digit_bounds h
  have h3 : c.toNat ≠ 57 := fun h => h9 (Char.toNat_inj.1 (h.trans (by decide : (57 : Nat) = ('9' : Char).toNat)))
  have : ∀ n, 48 ≤ n → n < 57 → (Char.ofNat (n + 1)).isDigit = true ∧ (Char.ofNat (n + 1)).toNat = n + 1 := by
    intro n h1 h2
    obtain ⟨m, rfl⟩ : ∃ m, n = 48 + m := ⟨n - 48, by omega⟩
    have : m < 9 := by omega
    interval_cases m <;> decide
  exact this _ h1 (by omega)

theorem incAux_ok (s : Str) (n : Nat) (h : ∃ c ∈ s, c.isDigit = false) :
    ∃ s', incAux s n = some s' ∧ (∃ c ∈ s', c.isDigit = false) ∧ nines n (rank s) < rank s' := by
  induction s generalizing n with
  | nil => obtain ⟨c, hc, _⟩ := h; simp at hc
  | cons c rest ih =>
    unfold incAux
    by_cases hd : c.isDigit = true
    · have hr : ∃ c ∈ rest, c.isDigit = false := by
        obtain ⟨c', h1, h2⟩ := h
        rcases List.mem_cons.1 h1 with rfl | h1
        · simp [hd] at h2
        · exact ⟨c', h1, h2⟩
      rw [if_pos hd]
      by_cases h9 : c = '9'
      · rw [if_pos h9, if_neg (by rintro rfl; simp at hr)]
        obtain ⟨s', h1, h2, h3⟩ := ih (n + 1) hr
        refine ⟨s', h1, h2, ?_⟩
        rwa [rank, if_pos hd, h9, show ('9' : Char).toNat - 47 = 10 by decide, nines_comm]
      · rw [if_neg h9]
        refine ⟨_, rfl, ?_, ?_⟩
        · obtain ⟨c', h1, h2⟩ := hr
          exact ⟨c', by simp [h1], h2⟩
        · obtain ⟨h1, h2⟩ := digit_succ hd h9
          rw [rank_zeros, rank, rank, if_pos hd, if_pos h1, h2]
          have := digit_bounds hd
          rw [show c.toNat + 1 - 47 + 10 * rank rest = (c.toNat - 47 + 10 * rank rest) + 1 by omega, zeros_nines]
          omega
    · have hd' : c.isDigit = false := by simpa using hd
      rw [if_neg hd]
      refine ⟨_, rfl, ?_, ?_⟩
      · split <;> exact ⟨c, by simp, hd'⟩
      · rw [rank, if_neg hd]
        split
        · rename_i hn
          subst hn
          rw [rank, if_pos (by decide)]
          simp only [nines]
          rw [show ('0' : Char).toNat - 47 = 1 by decide]
          omega
        · rename_i hn
          obtain ⟨m, rfl⟩ : ∃ m, n = m + 1 := ⟨n - 1, by omega⟩
          rw [show m + 1 - 1 = m from rfl, ← List.cons_append, ← List.replicate_succ, rank_zeros, rank, if_pos (by decide), rank, if_neg hd]
          have := zeros_nines (m + 1) 0
          have h2 : zeros (m + 1) (0 + 1) < zeros (m + 1) (('1' : Char).toNat - 47 + 10 * 0) := zeros_mono (by decide)
          omega

theorem increment_ok {s : Str} (h : ∃ c ∈ s, c.isDigit = false) :
    ∃ s', incrementSubscript s = some s' ∧ (∃ c ∈ s', c.isDigit = false) ∧ rank s.reverse < rank s'.reverse := by
  obtain ⟨s', h1, ⟨c, h2, h2'⟩, h3⟩ := incAux_ok s.reverse 0 (by obtain ⟨c, h1, h2⟩ := h; exact ⟨c, by simpa using h1, h2⟩)
  exact ⟨s'.reverse, by simp [incrementSubscript, h1], ⟨c, by simpa using h2, h2'⟩, by rw [List.reverse_reverse]; exact h3⟩

theorem countP_lt {α : Type} {p q : α → Bool} {l : List α} {a : α} (hpq : ∀ x, p x = true → q x = true) (ha : a ∈ l) (h1 : q a = true) (h2 : p a = false) :
    l.countP p < l.countP q := by
  induction l with
  | nil => simp at ha
  | cons x l ih =>
    rw [List.countP_cons, List.countP_cons]
    rcases List.mem_cons.1 ha with rfl | ha
    · have : l.countP p ≤ l.countP q := List.countP_mono_left fun x _ => hpq x
      simp [h1, h2]
      omega
    · have := ih ha
      have h3 := hpq x
      cases hp : p x
      · cases q x <;> simp <;> omega
      · simp [h3 hp]; omega

theorem findFresh_ok (bad : List Str) (fuel : Nat) (s : Str) (h : ∃ c ∈ s, c.isDigit = false)
    (hf : bad.countP (fun b => decide (rank s.reverse ≤ rank b.reverse)) < fuel) : ∃ f, findFresh fuel s bad = some f ∧ f ∉ bad := by
  induction fuel generalizing s with
  | zero => omega
  | succ fuel ih =>
    unfold findFresh
    by_cases hs : s ∈ bad
    · obtain ⟨s', h1, h2, h3⟩ := increment_ok h
      rw [if_pos hs, h1]
      refine ih s' h2 ?_
      have : bad.countP (fun b => decide (rank s'.reverse ≤ rank b.reverse)) < bad.countP (fun b => decide (rank s.reverse ≤ rank b.reverse)) :=
        countP_lt (fun x hx => by simp at hx ⊢; omega) hs (by simp) (by simp; omega)
      omega
    · rw [if_neg hs]
      exact ⟨s, rfl, hs⟩

/-- **C68, names of files.** For each name that is not made of digits only, and each set of names that are taken, the search for a name ends, with one that is not taken. -/
theorem C68_fresh (bad : List Str) (s : Str) (h : ∃ c ∈ s, c.isDigit = false) : ∃ f, findFresh (bad.length + 1) s bad = some f ∧ f ∉ bad :=
  findFresh_ok bad _ s h (Nat.lt_succ_of_le List.countP_le_length)

/-- The names counted up: `f`, `f0`, `f1`, …, `f9`, `f10`. -/
example : incrementSubscript "M.f".toList = some "M.f0".toList ∧ incrementSubscript "M.f9".toList = some "M.f10".toList ∧
    incrementSubscript "M.f199".toList = some "M.f200".toList ∧ findFresh 5 "f".toList ["f".toList, "f0".toList, "f2".toList] = some "f1".toList := by
  decide +kernel

/-! ## Sessions -/

section
variable {Tm Mp : Type}

/-- The state after some commands. -/
def Session.after (S : Session Tm Mp) : List (Cmd Tm Mp) → Session Tm Mp
  | [] => S
  | c :: cs => (S.step c).1.after cs

/-- No file names are given, and the mapping is not changed once terms are compiled. -/
def Quiet (S : Session Tm Mp) : List (Cmd Tm Mp) → Prop
  | [] => True
  | c :: cs => (match c with
      | .tac file _ => file = none
      | .setMap m => S.now.table = [] ∨ m = S.now.map
      | _ => True) ∧ Quiet (S.step c).1 cs

/-- The entries of the table are for the constants they are found under, or for earlier goals. -/
structure Good (k : Nat) (s : Sum Tm Mp) : Prop where
  table : ∀ p ∈ s.table, p.2.map = s.map ∧ (s.env.lookup p.1 = some p.2.term ∨ ∃ n < k, p.1 = goalName n)
  env : ∀ p ∈ s.env, '.' ∈ p.1

/-- What holds in all states of sessions. -/
structure SInv (S : Session Tm Mp) : Prop where
  now : Good S.counter S.now
  past : ∀ s ∈ S.past, Good S.counter s
  loaded : ∀ p ∈ S.loaded, p.1 ∈ S.all

theorem Good.mono {k k' : Nat} {s : Sum Tm Mp} (h : Good k s) (hk : k ≤ k') : Good k' s :=
  ⟨fun p hp => ⟨(h.table p hp).1, (h.table p hp).2.imp_right fun ⟨n, h1, h2⟩ => ⟨n, by omega, h2⟩⟩, h.env⟩

theorem lookup_in {α : Type} {l : List (Str × α)} {n : Str} {a : α} (h : l.lookup n = some a) : (n, a) ∈ l := by
  induction l with
  | nil => simp at h
  | cons p l ih =>
    rw [List.lookup_cons] at h
    split at h
    · rename_i he
      cases h
      rw [beq_iff_eq] at he
      subst he
      exact List.mem_cons_self
    · exact List.mem_cons_of_mem _ (ih h)

theorem lookup_absent {α : Type} {l : List (Str × α)} {n : Str} (h : n ∉ l.map Prod.fst) : l.lookup n = none := by
  cases h' : l.lookup n with
  | none => rfl
  | some a => exact absurd (List.mem_map_of_mem (f := Prod.fst) (lookup_in h')) h

theorem goalName_dot (n : Nat) : '.' ∉ goalName n := by
  intro h
  simp only [goalName, List.mem_append] at h
  rcases h with h | h
  · revert h; decide
  · have := Nat.isDigit_of_mem_toDigits (by omega) (by omega) h
    revert this; decide

theorem goalName_eq {i j : Nat} (h : goalName i = goalName j) : i = j := by
  have h := List.append_cancel_left h
  rw [← Nat.ofDigitChars_ten_toDigits (n := i), h, Nat.ofDigitChars_ten_toDigits]

theorem goalName_letter (n : Nat) : ∃ c ∈ goalName n, c.isDigit = false := ⟨'g', by simp [goalName], by decide⟩

/-- A term evaluated under a name that is not in the table. -/
theorem evalTerm_new {S : Session Tm Mp} (hS : SInv S) {file : Str} (hl : ∃ c ∈ file, c.isDigit = false) (hn : S.now.table.lookup file = none) (t : Tm) :
    ∃ f, evalTerm S file t = ({ S with
      now := { S.now with table := (file, ⟨t, S.now.map⟩) :: S.now.table }
      all := file :: f :: S.all
      loaded := (f, ⟨t, S.now.map⟩) :: S.loaded }, .value t ⟨t, S.now.map⟩ S.now.map) := by
  obtain ⟨f, h1, h2⟩ := C68_fresh S.all file hl
  refine ⟨f, ?_⟩
  have : load S.loaded f ⟨t, S.now.map⟩ = ⟨t, S.now.map⟩ := by
    rw [load, lookup_absent]
    · rfl
    · intro h
      obtain ⟨p, hp, rfl⟩ := List.mem_map.1 h
      exact h2 (hS.loaded p hp)
  rw [evalTerm, hn]
  simp only [h1, this]

/-- What evaluation shows, and that it keeps the invariant. -/
theorem eval_ok {S : Session Tm Mp} (hS : SInv S) {n : Str} {t : Tm} (h : S.now.env.lookup n = some t) :
    SInv (S.step (.eval n)).1 ∧ (S.step (.eval n)).2 = .value t ⟨t, S.now.map⟩ S.now.map := by
  have hdot := hS.now.env _ (lookup_in h)
  simp only [Session.step, h]
  cases hc : S.now.table.lookup n with
  | some code =>
    have hm := hS.now.table _ (lookup_in hc)
    have hcode : code = ⟨t, S.now.map⟩ := by
      obtain ⟨h1, h2 | ⟨k, -, h3⟩⟩ := hm
      · rw [h] at h2
        cases h2
        cases code
        cases h1
        rfl
      · exact absurd (show '.' ∈ goalName k by rw [← h3]; exact hdot) (goalName_dot k)
    simp only [evalTerm, hc]
    exact ⟨⟨hS.now, fun s hs => by rcases List.mem_cons.1 hs with rfl | hs; exacts [hS.now, hS.past s hs], hS.loaded⟩, by rw [hcode]⟩
  | none =>
    obtain ⟨f, hf⟩ := evalTerm_new hS ⟨'.', hdot, by decide⟩ hc t
    rw [hf]
    refine ⟨⟨⟨fun p hp => ?_, hS.now.env⟩, fun s hs => ?_, fun p hp => ?_⟩, rfl⟩
    · rcases List.mem_cons.1 hp with rfl | hp
      · exact ⟨rfl, .inl h⟩
      · exact hS.now.table p hp
    · rcases List.mem_cons.1 hs with rfl | hs; exacts [hS.now, hS.past s hs]
    · rcases List.mem_cons.1 hp with rfl | hp
      · simp
      · simp [hS.loaded p hp]

/-- The same for the tactic. -/
theorem tac_ok {S : Session Tm Mp} (hS : SInv S) (t : Tm) :
    SInv (S.step (.tac none t)).1 ∧ (S.step (.tac none t)).2 = .value t ⟨t, S.now.map⟩ S.now.map := by
  have hS' : SInv { S with counter := S.counter + 1 } :=
    ⟨hS.now.mono (Nat.le_succ _), fun s hs => (hS.past s hs).mono (Nat.le_succ _), hS.loaded⟩
  have hc : S.now.table.lookup (goalName S.counter) = none := by
    cases hc : S.now.table.lookup (goalName S.counter) with
    | none => rfl
    | some code =>
      obtain ⟨-, h2 | ⟨k, h3, h4⟩⟩ := hS.now.table _ (lookup_in hc)
      · exact absurd (hS.now.env _ (lookup_in h2)) (goalName_dot _)
      · have := goalName_eq h4
        omega
  obtain ⟨f, hf⟩ := evalTerm_new hS' (goalName_letter S.counter) hc t
  simp only [Session.step, Option.getD_none]
  rw [hf]
  refine ⟨⟨⟨fun p hp => ?_, hS'.now.env⟩, fun s hs => ?_, fun p hp => ?_⟩, rfl⟩
  · rcases List.mem_cons.1 hp with rfl | hp
    · exact ⟨rfl, .inr ⟨S.counter, Nat.lt_succ_self _, rfl⟩⟩
    · exact hS'.now.table p hp
  · rcases List.mem_cons.1 hs with rfl | hs; exacts [hS'.now, hS'.past s hs]
  · rcases List.mem_cons.1 hp with rfl | hp
    · simp
    · simp [hS.loaded p hp]

/-- The invariant holds after all quiet commands. -/
theorem after_inv (cs : List (Cmd Tm Mp)) (S : Session Tm Mp) (hS : SInv S) (hq : Quiet S cs) : SInv (S.after cs) := by
  induction cs generalizing S with
  | nil => exact hS
  | cons c cs ih =>
    obtain ⟨h1, h2⟩ := hq
    refine ih _ ?_ h2
    cases c with
    | define n t =>
      simp only [Session.step]
      split
      · rename_i hn
        refine ⟨⟨fun p hp => ?_, fun p hp => ?_⟩, fun s hs => ?_, hS.loaded⟩
        · refine ⟨(hS.now.table p hp).1, (hS.now.table p hp).2.imp_left fun h => ?_⟩
          rw [List.lookup_cons]
          split
          · rename_i he
            rw [beq_iff_eq] at he
            rw [he, lookup_absent hn.2] at h
            cases h
          · exact h
        · rcases List.mem_cons.1 hp with rfl | hp
          · exact hn.1
          · exact hS.now.env p hp
        · rcases List.mem_cons.1 hs with rfl | hs; exacts [hS.now, hS.past s hs]
      · exact hS
    | setMap m =>
      refine ⟨⟨fun p hp => ?_, hS.now.env⟩, fun s hs => ?_, hS.loaded⟩
      · simp only [Session.step] at hp
        rcases h1 with h1 | rfl
        · rw [h1] at hp; simp at hp
        · exact hS.now.table p hp
      · rcases List.mem_cons.1 hs with rfl | hs; exacts [hS.now, hS.past s hs]
    | back k =>
      simp only [Session.step]
      split
      · rename_i s hs
        exact ⟨hS.past s (List.mem_of_getElem? hs), fun s hs => hS.past s (List.mem_of_mem_drop hs), hS.loaded⟩
      · exact hS
    | eval n =>
      cases h : S.now.env.lookup n with
      | some t => exact (eval_ok hS h).1
      | none => simp only [Session.step, h]; exact hS
    | tac file t =>
      cases h1
      exact (tac_ok hS t).1

theorem init_inv (m : Mp) : SInv (Session.init (Tm := Tm) m) :=
  ⟨⟨fun p hp => by simp [Session.init] at hp, fun p hp => by simp [Session.init] at hp⟩, fun s hs => by simp [Session.init] at hs, fun p hp => by simp [Session.init] at hp⟩

/-- **C68, partial.** In all sessions, with going back and defining constants again, evaluating a constant runs the code compiled for its definition, and the tactic runs the
code of its term, compiled with the mapping with which the result is read. Missing: sessions in which file names are given to the tactic, or in which `Extract Inductives` is used after terms were compiled; both are
refuted below. -/
theorem C68_eval_partial (m : Mp) (cs : List (Cmd Tm Mp)) (hq : Quiet (Session.init m) cs) :
    (∀ n t, ((Session.init m).after cs).now.env.lookup n = some t →
      (((Session.init m).after cs).step (.eval n)).2 = .value t ⟨t, ((Session.init m).after cs).now.map⟩ ((Session.init m).after cs).now.map) ∧
    ∀ t, (((Session.init m).after cs).step (.tac none t)).2 = .value t ⟨t, ((Session.init m).after cs).now.map⟩ ((Session.init m).after cs).now.map :=
  have hS := after_inv cs _ (init_inv m) hq
  ⟨fun _ _ h => (eval_ok hS h).2, fun t => (tac_ok hS t).2⟩

/-- **C68, refuted for file names.** `certirocq_eval -file "f"` on two terms gives the value of the first term twice. -/
theorem C68_file_refuted (m : Mp) {t u : Tm} (h : t ≠ u) :
    ∃ c, (((Session.init m).after [.tac (some ['f']) t]).step (.tac (some ['f']) u)).2 = .value u c m ∧ c.term ≠ u :=
  ⟨⟨t, m⟩, rfl, h⟩

/-- **C68, refuted for file names:** a file called "goal1" gives its value to the next evaluation without a file name. -/
theorem C68_goal_refuted (m : Mp) {t u : Tm} (h : t ≠ u) :
    ∃ c, (((Session.init m).after [.tac (some (goalName 1)) t]).step (.tac none u)).2 = .value u c m ∧ c.term ≠ u :=
  ⟨⟨t, m⟩, by simp [Session.after, Session.step, Session.init, evalTerm, findFresh, load], h⟩

/-- **C68, refuted for mappings.** `CertiRocq Eval f`, then `CertiRocq Extract Inductives`, then `CertiRocq Eval f`: the code compiled with the old order of constructors is read with the new order. -/
theorem C68_mapping_refuted {m m' : Mp} (h : m ≠ m') (t : Tm) :
    ∃ c, (((Session.init m).after [.define "M.f".toList t, .eval "M.f".toList, .setMap m']).step (.eval "M.f".toList)).2 = .value t c m' ∧ c.map ≠ m' :=
  ⟨⟨t, m⟩, rfl, h⟩

/-- **C68, refuted for names of digits.** After going back, a file called "9" cannot be compiled a second time: the search for a fresh name fails. -/
theorem C68_digits_refuted (m : Mp) (t : Tm) :
    (((Session.init m).after [.tac (some ['9']) t, .back 0]).step (.tac (some ['9']) t)).2 = .error := rfl

end

/-- A session with going back and defining a constant again. -/
example : Quiet (Session.init (Tm := Nat) 0) [.setMap 1, .define "M.f".toList 5, .eval "M.f".toList, .tac none 7, .back 2, .define "M.f".toList 6] ∧
    ((Session.init (Tm := Nat) 0).after [.setMap 1, .define "M.f".toList 5, .eval "M.f".toList, .tac none 7, .back 2, .define "M.f".toList 6]).now.env.lookup "M.f".toList = some 6 :=
  ⟨⟨.inl rfl, trivial, trivial, rfl, trivial, trivial, trivial⟩, rfl⟩

/-! ## Going back -/

/-- A command that is not going back and does not fail leaves the state before it on top of the earlier states. -/
theorem step_past {Tm Mp : Type} (S : Session Tm Mp) (c : Cmd Tm Mp) (hb : ∀ k, c ≠ .back k) (he : (S.step c).2 ≠ .error) :
    (S.step c).1.past = S.now :: S.past := by
  have key : ∀ (S : Session Tm Mp) f t, (evalTerm S f t).1.past = S.past := by
    intro S f t
    unfold evalTerm
    split
    · rfl
    · split <;> rfl
  cases c with
  | define n t =>
    by_cases h : '.' ∈ n ∧ n ∉ S.now.env.map Prod.fst
    · simp only [Session.step, if_pos h]
    · simp only [Session.step, if_neg h] at he; exact absurd rfl he
  | setMap m => rfl
  | back k => exact absurd rfl (hb k)
  | eval n =>
    cases h : S.now.env.lookup n with
    | none => simp only [Session.step, h] at he; exact absurd rfl he
    | some t => simp only [Session.step, h, key]
  | tac f t => simp only [Session.step, key]

/-- Commands none of which goes back or fails. -/
def Forward {Tm Mp : Type} (S : Session Tm Mp) : List (Cmd Tm Mp) → Prop
  | [] => True
  | c :: cs => (∀ k, c ≠ .back k) ∧ (S.step c).2 ≠ .error ∧ Forward (S.step c).1 cs

/-- Going back over commands restores the constants, the order of constructors and the table of compiled terms from before them, and the states one can go back to. -/
theorem C68_back {Tm Mp : Type} : ∀ (cs : List (Cmd Tm Mp)) (c : Cmd Tm Mp) (S : Session Tm Mp), Forward S (c :: cs) →
    ((S.after (c :: cs)).step (.back cs.length)).1.now = S.now ∧ ((S.after (c :: cs)).step (.back cs.length)).1.past = S.past := by
  have key : ∀ (cs : List (Cmd Tm Mp)) (S : Session Tm Mp), Forward S cs → ∃ l, (S.after cs).past = l ++ S.past ∧ l.length = cs.length ∧
      (∀ h : cs ≠ [], l.getLast? = some S.now) := by
    intro cs
    induction cs with
    | nil => exact fun S _ => ⟨[], rfl, rfl, fun h => absurd rfl h⟩
    | cons c cs ih =>
      rintro S ⟨h1, h2, h3⟩
      obtain ⟨l, e1, e2, _⟩ := ih _ h3
      rw [step_past S c h1 h2] at e1
      exact ⟨l ++ [S.now], by simpa [Session.after] using e1, by simp [e2], fun _ => by simp⟩
  intro cs c S h
  obtain ⟨l, e1, e2, e3⟩ := key _ S h
  have e4 := e3 (by simp)
  have hl : (S.after (c :: cs)).past[cs.length]? = some S.now := by
    rw [e1, List.getElem?_append_left (by simp [e2]), ← e4, List.getLast?_eq_getElem?, e2]
    simp
  simp only [Session.step, hl]
  refine ⟨trivial, ?_⟩
  rw [e1, ← List.length_cons (a := c), ← e2, List.drop_left]

example : Forward (Session.init (Tm := Nat) 0) [.setMap 1, .define "M.f".toList 5, .eval "M.f".toList, .tac none 7] :=
  ⟨nofun, nofun, nofun, nofun, nofun, nofun, nofun, nofun, trivial⟩

end Reify
