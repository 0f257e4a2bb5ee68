import Verif.Msg.Model
import Verif.Runtime.AllocProps
import Verif.Proc.Props
import Verif.Bnd.Props

/-!
# C77: messages of a program are shown as they were sent

For all sequences of messages and all interleavings of the program with the plugin.
-/

namespace Msg

open Proc (Act Shown lines outs errs)

/-! ## Specification -/

/-- A message as text. -/
def text (s : List Nat) : List Char := s.map Char.ofNat

/-- The messages that the user should see: an error is the last one. -/
def sent : List (Kind × List Nat) → List (Kind × List Nat)
  | [] => []
  | (k, s) :: ms => if k = .error then [(k, s)] else (k, s) :: sent ms

/-- The messages that are no errors, and the error. -/
def normal (ms : List (Kind × List Nat)) : List (Kind × List Nat) := (sent ms).filter (·.1 ≠ .error)
def fatal (ms : List (Kind × List Nat)) : List (Kind × List Nat) := (sent ms).filter (·.1 = .error)

/-- The messages and the line about the time, which the driver adds if the program comes to its end. -/
def printed (time : List Nat) (ms : List (Kind × List Nat)) : List (Kind × List Nat) := normal ms ++ if fatal ms = [] then [(.info, time)] else []

/-- A line: bytes without zero and newline. -/
def IsLine (s : List Nat) : Prop := 0 ∉ s ∧ 10 ∉ s ∧ ∀ b ∈ s, b < 256

/-- A sequence of messages is on the channels one message per line. -/
def Separate : List (Kind × List Nat) → Prop
  | [] => True
  | [(k, s)] => k = .info ∨ s ≠ []
  | (k, _) :: ms => k = .info ∧ Separate ms

/-- The calls have their messages in memory, and `malloc` succeeds. -/
def Calls (malloc : Nat → Option (List Nat)) (cs : List (Kind × (Nat → Nat) × Nat × Nat)) (ms : List (Kind × List Nat)) : Prop :=
  List.Forall₂ (fun c m => c.1 = m.1 ∧ RT.IsCoqString c.2.1 c.2.2.2 m.2 ∧ m.2.length < c.2.2.1 ∧
    ∃ buf, malloc (m.2.length + 1) = some buf ∧ buf.length = m.2.length + 1) cs ms

/-- Bytes before the first zero. -/
def upTo (s : List Nat) : List Nat := s.takeWhile (· ≠ 0)

/-- What a message is on the standard output. -/
def line (m : Kind × List Nat) : List Char := text (upTo m.2) ++ if m.1 = .info then ['\n'] else []

/-! ## Lemmas -/

theorem fputs_eq (w : Char → Act) (s r : List Nat) : fputs w (s ++ 0 :: r) = some ((text (upTo s)).map w) := by
  induction s with
  | nil => simp [fputs, upTo, text]
  | cons b s ih =>
    by_cases h : b = 0
    · simp [fputs, h, upTo, text]
    · simp only [List.cons_append, fputs, h, if_false, ih, Option.map_some, upTo, text]
      simp [h]

theorem call_eq {malloc : Nat → Option (List Nat)} {m : Nat → Nat} {fuel p : Nat} {s : List Nat} (h : RT.IsCoqString m p s) (hf : s.length < fuel)
    {buf : List Nat} (hm : malloc (s.length + 1) = some buf) (hb : buf.length = s.length + 1) (k : Kind) :
    call malloc m fuel k p = some (if k = .error then ⟨(text (upTo s)).map .err, none⟩ else ⟨(line (k, s)).map .out, some 1⟩) := by
  rw [call, RT.C22_string_of_coq_string h malloc buf hm hb fuel hf]
  cases k <;> simp [puts, fputs_eq, line]

theorem outs_append (a b : List Act) : outs (a ++ b) = outs a ++ outs b := by simp [outs]
theorem errs_append (a b : List Act) : errs (a ++ b) = errs a ++ errs b := by simp [errs]
theorem outs_map_out (l : List Char) : outs (l.map .out) = l := by
  induction l with
  | nil => rfl
  | cons c l ih => rw [List.map_cons, Proc.outs_out, ih]
theorem errs_map_out (l : List Char) : errs (l.map .out) = [] := by
  induction l with
  | nil => rfl
  | cons c l ih => rw [List.map_cons, Proc.errs_out, ih]
theorem outs_map_err (l : List Char) : outs (l.map .err) = [] := by
  induction l with
  | nil => rfl
  | cons c l ih => rw [List.map_cons, Proc.outs_err, ih]
theorem errs_map_err (l : List Char) : errs (l.map .err) = l := by
  induction l with
  | nil => rfl
  | cons c l ih => rw [List.map_cons, Proc.errs_err, ih]

theorem upTo_eq {s : List Nat} (h : 0 ∉ s) : upTo s = s := by
  induction s with
  | nil => rfl
  | cons b s ih =>
    simp only [List.mem_cons, not_or] at h
    rw [upTo, List.takeWhile_cons, if_pos (by simpa using Ne.symm h.1)]
    exact congrArg _ (ih h.2)

theorem run_eq {malloc : Nat → Option (List Nat)} {cs : List (Kind × (Nat → Nat) × Nat × Nat)} {ms : List (Kind × List Nat)} (h : Calls malloc cs ms)
    {time : List Nat} (ht : 0 ∉ time) :
    ∃ p, run (text time) malloc cs = some (p, if fatal ms = [] then 0 else 1) ∧ Proc.NoInput p ∧ outs p = (printed time ms).flatMap line ∧
      errs p = (fatal ms).flatMap fun m => text (upTo m.2) := by
  induction h with
  | nil =>
    refine ⟨(text time ++ ['\n']).map .out, by simp [run, fatal, sent], by simp [Proc.NoInput], ?_, by rw [errs_map_out]; simp [fatal, sent]⟩
    rw [outs_map_out]
    simp [printed, normal, fatal, sent, line, upTo_eq ht]
  | @cons c m cs ms hc _ ih =>
    obtain ⟨k, mem, fuel, p⟩ := c
    obtain ⟨k', s⟩ := m
    obtain ⟨rfl, hs, hf, buf, hm, hb⟩ := hc
    simp only at hs hf hm hb
    obtain ⟨q, hq, hi, ho, he⟩ := ih
    by_cases hk : k = .error
    · subst hk
      refine ⟨(text (upTo s)).map .err, ?_, ?_, ?_, ?_⟩
      · simp [run, call_eq hs hf hm hb, fatal, sent]
      · simp [Proc.NoInput]
      · simp [outs_map_err, printed, normal, fatal, sent]
      · simp [errs_map_err, fatal, sent]
    · have hf' : fatal ((k, s) :: ms) = fatal ms := by simp [fatal, sent, hk]
      have hn' : normal ((k, s) :: ms) = (k, s) :: normal ms := by simp [normal, sent, hk]
      refine ⟨(line (k, s)).map .out ++ q, ?_, ?_, ?_, ?_⟩
      · simp [run, call_eq hs hf hm hb, hk, hq, hf']
      · simp only [Proc.NoInput, List.mem_append, not_or]
        exact ⟨by simp, hi⟩
      · rw [outs_append, outs_map_out, ho, printed, printed, hn', hf', List.cons_append, List.flatMap_cons]
      · rw [errs_append, errs_map_out, he, hf', List.nil_append]

theorem lines_no_newline (t l : List Char) (h : l ∈ lines t) : '\n' ∉ l := by
  induction t generalizing l with
  | nil => simp [lines] at h
  | cons c cs ih =>
    rw [lines] at h
    split at h
    · simp only [List.mem_cons] at h
      rcases h with rfl | h
      · simp
      · exact ih l h
    · rename_i hc
      split at h
      · simp only [List.mem_singleton] at h
        subst h
        simp [Ne.symm hc]
      · rename_i l' ls e
        simp only [List.mem_cons] at h
        rcases h with rfl | h
        · have := ih l' (by simp [e])
          simp [Ne.symm hc, this]
        · exact ih l (by simp [e, h])

theorem lines_mem (t l : List Char) (h : l ∈ lines t) (c : Char) (hc : c ∈ l) : c ∈ t := by
  induction t generalizing l with
  | nil => simp [lines] at h
  | cons d cs ih =>
    rw [lines] at h
    split at h
    · simp only [List.mem_cons] at h
      rcases h with rfl | h
      · simp at hc
      · exact List.mem_cons_of_mem _ (ih l h hc)
    · split at h
      · simp only [List.mem_singleton] at h
        subst h
        simp at hc
        simp [hc]
      · rename_i l' ls e
        simp only [List.mem_cons] at h
        rcases h with rfl | h
        · simp only [List.mem_cons] at hc ⊢
          exact hc.imp_right fun hc => ih l' (by simp [e]) hc
        · exact List.mem_cons_of_mem _ (ih l (by simp [e, h]) hc)

theorem lines_newline (l r : List Char) (h : '\n' ∉ l) : lines (l ++ '\n' :: r) = l :: lines r := by
  induction l with
  | nil => simp [lines]
  | cons c l ih =>
    simp only [List.mem_cons, not_or] at h
    simp [lines, Ne.symm h.1, ih h.2]

theorem lines_prefix_length (l r : List Char) (h : '\n' ∉ l) : (lines (l ++ r)).length ≤ max 1 (lines r).length := by
  induction l with
  | nil => simp
  | cons c l ih =>
    simp only [List.mem_cons, not_or] at h
    have := ih h.2
    simp only [List.cons_append, lines, Ne.symm h.1, if_false]
    split
    · simp
    · rename_i e; rw [e] at this; simpa using this

theorem lines_single (l : List Char) (h : '\n' ∉ l) (h0 : l ≠ []) : lines l = [l] := by
  induction l with
  | nil => exact absurd rfl h0
  | cons c l ih =>
    simp only [List.mem_cons, not_or] at h
    cases l with
    | nil => simp [lines, Ne.symm h.1]
    | cons d l =>
      have := ih h.2 (by simp)
      rw [lines, if_neg (Ne.symm h.1), this]

/-- There are at most as many lines as messages. -/
theorem lines_le (ms : List (Kind × List Nat)) (h : ∀ m ∈ ms, '\n' ∉ text (upTo m.2)) : (lines (ms.flatMap line)).length ≤ ms.length := by
  induction ms with
  | nil => simp [lines]
  | cons m ms ih =>
    have h1 := h m (by simp)
    have h2 := ih fun m hm => h m (by simp [hm])
    rw [List.flatMap_cons, line]
    split
    · rw [List.append_assoc, List.singleton_append, lines_newline _ _ h1]
      simpa using h2
    · have := lines_prefix_length (text (upTo m.2)) (ms.flatMap line) h1
      simp only [List.append_nil, List.length_cons]
      omega

theorem ofNat_byte {b : Nat} (h : b < 256) : (Char.ofNat b).toNat = b := by
  have hv : b.isValidChar := Or.inl (by omega)
  rw [Char.ofNat, dif_pos hv]; rfl

theorem text_inj {s t : List Nat} (hs : ∀ b ∈ s, b < 256) (ht : ∀ b ∈ t, b < 256) (h : text s = text t) : s = t := by
  have key : ∀ u : List Nat, (∀ b ∈ u, b < 256) → (text u).map Char.toNat = u := by
    intro u hu
    rw [text, List.map_map]
    conv_rhs => rw [← List.map_id u]
    exact List.map_congr_left fun b hb => ofNat_byte (hu b hb)
  rw [← key s hs, ← key t ht, h]

theorem nul_text {s : List Nat} (hs : ∀ b ∈ s, b < 256) : Char.ofNat 0 ∈ text s ↔ 0 ∈ s := by
  constructor
  · intro h
    obtain ⟨b, hb, e⟩ := List.mem_map.1 h
    have := congrArg Char.toNat e
    rw [ofNat_byte (hs b hb)] at this
    have : b = 0 := this
    exact this ▸ hb
  · exact fun h => List.mem_map_of_mem h

theorem newline_text {s : List Nat} (hs : ∀ b ∈ s, b < 256) : '\n' ∈ text s ↔ 10 ∈ s := by
  constructor
  · intro h
    obtain ⟨b, hb, e⟩ := List.mem_map.1 h
    have := congrArg Char.toNat e
    rw [ofNat_byte (hs b hb)] at this
    have : b = 10 := this
    exact this ▸ hb
  · exact fun h => List.mem_map.2 ⟨10, h, rfl⟩

theorem upTo_zero (s : List Nat) : 0 ∉ upTo s := by
  induction s with
  | nil => simp [upTo]
  | cons b s ih =>
    rw [upTo, List.takeWhile_cons]
    split
    · rename_i hb
      simp only [List.mem_cons, not_or]
      exact ⟨fun h => by simp [← h] at hb, ih⟩
    · simp

theorem upTo_mem {s : List Nat} {b : Nat} (h : b ∈ upTo s) : b ∈ s := (List.takeWhile_sublist _).subset h

/-- No line has a zero byte. -/
theorem lines_no_nul {ms : List (Kind × List Nat)} (hb : ∀ m ∈ ms, ∀ b ∈ m.2, b < 256) {l : List Char} (h : l ∈ lines (ms.flatMap line)) :
    Char.ofNat 0 ∉ l := by
  intro h0
  have := lines_mem _ _ h _ h0
  obtain ⟨m, hm, h1⟩ := List.mem_flatMap.1 this
  rw [line, List.mem_append] at h1
  rcases h1 with h1 | h1
  · exact upTo_zero m.2 ((nul_text fun b h => hb m hm b (upTo_mem h)).1 h1)
  · split at h1 <;> revert h1 <;> decide

theorem lines_separate {ms : List (Kind × List Nat)} (h0 : ∀ m ∈ ms, 0 ∉ m.2) (hn : ∀ m ∈ ms, '\n' ∉ text m.2) :
    lines (ms.flatMap line) = ms.map (fun m => text m.2) ↔ Separate ms := by
  induction ms with
  | nil => simp [lines, Separate]
  | cons m ms ih =>
    obtain ⟨k, s⟩ := m
    have e : upTo s = s := upTo_eq (h0 (k, s) (by simp))
    have hs : '\n' ∉ text s := hn (k, s) (by simp)
    have ih := ih (fun m hm => h0 m (by simp [hm])) fun m hm => hn m (by simp [hm])
    by_cases hk : k = .info
    · subst hk
      rw [List.flatMap_cons, line]
      simp only [e, if_true, List.append_assoc, List.singleton_append, lines_newline _ _ hs, List.map_cons, List.cons.injEq, true_and, ih]
      cases ms <;> simp [Separate]
    · rw [List.flatMap_cons, line]
      simp only [e, hk, if_false, List.append_nil, List.map_cons]
      cases ms with
      | nil =>
        simp only [List.flatMap_nil, List.append_nil, List.map_nil, Separate, hk, false_or]
        constructor
        · rintro h rfl
          simp [text, lines] at h
        · intro h
          exact lines_single _ hs (by simpa [text] using h)
      | cons m' ms' =>
        simp only [Separate, hk, false_and, iff_false]
        intro h
        have h1 := congrArg List.length h
        have h2 := lines_prefix_length (text s) ((m' :: ms').flatMap line) hs
        have h3 := lines_le (m' :: ms') fun m hm => by
          rw [upTo_eq (h0 m (by simp [hm]))]
          exact hn m (by simp [hm])
        simp only [List.length_cons, List.length_map] at h1 h3
        omega

theorem separate_time (l : List (Kind × List Nat)) (t : List Nat) : Separate (l ++ [(.info, t)]) ↔ ∀ m ∈ l, m.1 = .info := by
  induction l with
  | nil => simp [Separate]
  | cons m l ih =>
    obtain ⟨k, s⟩ := m
    have : Separate ((k, s) :: (l ++ [(.info, t)])) ↔ k = .info ∧ Separate (l ++ [(.info, t)]) := by
      cases l <;> simp [Separate]
    rw [List.cons_append, this, ih]
    simp

theorem normal_mem {ms : List (Kind × List Nat)} {m : Kind × List Nat} (h : m ∈ normal ms) : m ∈ ms := by
  replace h := (List.mem_filter.1 h).1
  induction ms with
  | nil => simp [sent] at h
  | cons a ms ih =>
    obtain ⟨k, s⟩ := a
    rw [sent] at h
    split at h
    · simp only [List.mem_singleton] at h; simp [h]
    · simp only [List.mem_cons] at h
      exact List.mem_cons.2 (h.imp_right ih)

theorem calls_bytes {malloc : Nat → Option (List Nat)} {cs : List (Kind × (Nat → Nat) × Nat × Nat)} {ms : List (Kind × List Nat)} (h : Calls malloc cs ms) :
    ∀ m ∈ ms, ∀ b ∈ m.2, b < 256 := by
  have str : ∀ {m : Nat → Nat} {p : Nat} {s : List Nat}, RT.IsCoqString m p s → ∀ b ∈ s, b < 256 := by
    intro m p s h
    induction h with
    | empty => simp
    | cons p c cs _ hc _ _ ih => simpa [hc] using ih
  induction h with
  | nil => simp
  | cons hc _ ih =>
    intro m hm
    simp only [List.mem_cons] at hm
    rcases hm with rfl | hm
    · exact str hc.2.1
    · exact ih m hm

/-! ## Theorems -/

/-- **C77** in `CertiRocq Eval`: all messages up to the error are shown, each as it was sent. -/
theorem C77_eval (junk : Nat → Nat) (ms : List (Kind × List Nat)) (hb : ∀ m ∈ ms, ∀ b ∈ m.2, b < 256) : eval junk ms = some (sent ms) := by
  induction ms with
  | nil => rfl
  | cons m ms ih =>
    obtain ⟨k, s⟩ := m
    have ih := ih fun m hm => hb m (by simp [hm])
    rw [eval, (Bnd.C74_bytestring junk s (hb (k, s) (by simp))).1]
    cases k <;> simp [sent, ih]

/-- **C77** each call that is no error returns the value that represents `tt`, the constructor number 0 without arguments. -/
theorem C77_value {malloc : Nat → Option (List Nat)} {m : Nat → Nat} {fuel p : Nat} {s : List Nat} (h : RT.IsCoqString m p s) (hf : s.length < fuel)
    {buf : List Nat} (hm : malloc (s.length + 1) = some buf) (hb : buf.length = s.length + 1) (k : Kind) :
    (call malloc m fuel k p).map (·.value) = some (if k = .error then none else some (2 * 0 + 1)) := by
  rw [call_eq h hf hm hb]
  by_cases hk : k = .error <;> simp [hk]

/-- **C77** (partial: what is shown of the messages is their lines, after a cut at zero bytes, and a line about the time).  The executable run by `CertiRocq Run` shows the lines
of the messages in order, and those of the error as warnings; its status is 1 exactly if there is an error. -/
theorem C77_run_partial {malloc : Nat → Option (List Nat)} {cs : List (Kind × (Nat → Nat) × Nat × Nat)} {ms : List (Kind × List Nat)} (h : Calls malloc cs ms)
    {time : List Nat} (ht : IsLine time) :
    ∃ p, run (text time) malloc cs = some (p, if fatal ms = [] then 0 else 1) ∧ ∀ {cap code n : Nat} {s : Proc.St} {r : List Shown},
      Proc.Steps cap code n (Proc.start p) s → Proc.runResult s = some r →
        r = (lines ((printed time ms).flatMap line)).map .notice ++ (lines ((fatal ms).flatMap fun m => text (upTo m.2))).map .warning := by
  obtain ⟨p, hp, -, ho, he⟩ := run_eq h ht.1
  refine ⟨p, hp, fun hs hr => ?_⟩
  rw [Proc.C72_shown hs hr, Proc.expected, ho, he]

/-- **C77** the run comes to an end, if the error is no longer than a pipe holds. -/
theorem C77_ends {malloc : Nat → Option (List Nat)} {cs : List (Kind × (Nat → Nat) × Nat × Nat)} {ms : List (Kind × List Nat)} (h : Calls malloc cs ms)
    {time : List Nat} (ht : IsLine time) {cap : Nat} (hc : 0 < cap) (he : ((fatal ms).flatMap (·.2)).length ≤ cap) (code : Nat) :
    ∃ p c, run (text time) malloc cs = some (p, c) ∧ ∃ n s, Proc.Steps cap code n (Proc.start p) s ∧ (Proc.runResult s).isSome := by
  obtain ⟨p, hp, hi, -, h2⟩ := run_eq h ht.1
  refine ⟨p, _, hp, (Proc.C72_completes_iff hc).2 ⟨hi, ?_⟩⟩
  rw [h2]
  refine Nat.le_trans ?_ he
  generalize fatal ms = l
  induction l with
  | nil => simp
  | cons m l ih =>
    simp only [List.flatMap_cons, List.length_append, text, List.length_map] at ih ⊢
    exact Nat.add_le_add (List.takeWhile_sublist _).length_le ih

theorem printed_mem {time : List Nat} {ms : List (Kind × List Nat)} {m : Kind × List Nat} (h : m ∈ printed time ms) : m ∈ normal ms ∨ m = (.info, time) := by
  rw [printed, List.mem_append] at h
  refine h.imp_right fun h => ?_
  split at h
  · simpa using h
  · simp at h

/-- **C77** exactly when `CertiRocq Run` shows the messages one by one as they were sent, with the line about the time: no message has a zero byte or a newline, and all are
sent with `msg_info`, but for one right before an error, if it is not empty. -/
theorem C77_run_iff {malloc : Nat → Option (List Nat)} {cs : List (Kind × (Nat → Nat) × Nat × Nat)} {ms : List (Kind × List Nat)} (h : Calls malloc cs ms)
    {time : List Nat} (ht : IsLine time) {p : List Act} {c : Nat} (hp : run (text time) malloc cs = some (p, c)) {cap code n : Nat} {s : Proc.St} {r : List Shown}
    (hs : Proc.Steps cap code n (Proc.start p) s) (hr : Proc.runResult s = some r) :
    Proc.notices r = (normal ms).map (fun m => text m.2) ++ (if fatal ms = [] then [text time] else []) ↔
      (∀ m ∈ normal ms, 0 ∉ m.2 ∧ 10 ∉ m.2) ∧ if fatal ms = [] then ∀ m ∈ normal ms, m.1 = .info else Separate (normal ms) := by
  obtain ⟨p', hp', -, ho, -⟩ := run_eq h ht.1
  obtain rfl : p' = p := by rw [hp] at hp'; simp only [Option.some.injEq, Prod.mk.injEq] at hp'; exact hp'.1.symm
  rw [Proc.C72_shown hs hr, Proc.expected, Proc.notices_expected, ho]
  have hb : ∀ m ∈ printed time ms, ∀ b ∈ m.2, b < 256 := fun m hm => by
    rcases printed_mem hm with hm | rfl
    · exact calls_bytes h m (normal_mem hm)
    · exact ht.2.2
  have e : (normal ms).map (fun m => text m.2) ++ (if fatal ms = [] then [text time] else []) = (printed time ms).map fun m => text m.2 := by
    rw [printed, List.map_append]
    split <;> rfl
  have e2 : Separate (printed time ms) ↔ if fatal ms = [] then ∀ m ∈ normal ms, m.1 = .info else Separate (normal ms) := by
    rw [printed]
    split
    · exact separate_time _ _
    · rw [List.append_nil]
  have e3 : ∀ m, m ∈ normal ms → m ∈ printed time ms := fun m hm => List.mem_append_left _ hm
  rw [e, ← e2]
  constructor
  · intro e
    have hz : ∀ m ∈ printed time ms, 0 ∉ m.2 := fun m hm h0 =>
      lines_no_nul hb (l := text m.2) (by rw [e]; exact List.mem_map.2 ⟨m, hm, rfl⟩) ((nul_text (hb m hm)).2 h0)
    have hn : ∀ m ∈ printed time ms, '\n' ∉ text m.2 := fun m hm => lines_no_newline _ _ (by rw [e]; exact List.mem_map.2 ⟨m, hm, rfl⟩)
    exact ⟨fun m hm => ⟨hz m (e3 m hm), fun h => hn m (e3 m hm) ((newline_text (hb m (e3 m hm))).2 h)⟩, (lines_separate hz hn).1 e⟩
  · rintro ⟨h1, h2⟩
    have key : ∀ m ∈ printed time ms, 0 ∉ m.2 ∧ 10 ∉ m.2 := fun m hm => by
      rcases printed_mem hm with hm | rfl
      · exact h1 m hm
      · exact ⟨ht.1, ht.2.1⟩
    exact (lines_separate (fun m hm => (key m hm).1) fun m hm h => (key m hm).2 ((newline_text (hb m hm)).1 h)).2 h2

/-- **C77 refuted**: notices run into each other and into the line about the time. Two notices `s` and `t` without newlines and zero bytes are shown as one line with the time,
unlike in `CertiRocq Eval`. -/
theorem C77_notice_refuted {malloc : Nat → Option (List Nat)} {cs : List (Kind × (Nat → Nat) × Nat × Nat)} {s t : List Nat}
    (h : Calls malloc cs [(.notice, s), (.notice, t)]) (hs : IsLine s) (ht : IsLine t) {time : List Nat} (htm : IsLine time) (junk : Nat → Nat) :
    eval junk [(.notice, s), (.notice, t)] = some [(.notice, s), (.notice, t)] ∧
    ∃ p, run (text time) malloc cs = some (p, 0) ∧ ∀ {cap code n : Nat} {u : Proc.St} {r : List Shown}, Proc.Steps cap code n (Proc.start p) u →
      Proc.runResult u = some r → r = [.notice (text (s ++ t ++ time))] := by
  refine ⟨C77_eval junk _ (calls_bytes h), ?_⟩
  obtain ⟨p, hp, hr⟩ := C77_run_partial h htm
  refine ⟨p, by simpa [fatal, sent] using hp, fun hs' hr' => ?_⟩
  rw [hr hs' hr']
  have : (printed time [(.notice, s), (.notice, t)]).flatMap line = text (s ++ t ++ time) ++ ['\n'] := by
    simp [printed, normal, fatal, sent, line, upTo_eq hs.1, upTo_eq ht.1, upTo_eq htm.1, text]
  have hb : ∀ b ∈ s ++ t ++ time, b < 256 := by
    intro b hb
    simp only [List.mem_append] at hb
    rcases hb with (hb | hb) | hb
    · exact hs.2.2 b hb
    · exact ht.2.2 b hb
    · exact htm.2.2 b hb
  rw [this, lines_newline _ _ fun h => by
    have := (newline_text hb).1 h
    simp only [List.mem_append] at this
    rcases this with (h | h) | h
    · exact hs.2.1 h
    · exact ht.2.1 h
    · exact htm.2.1 h]
  simp [fatal, sent, lines]

/-- **C77 refuted**: a message is cut at its first zero byte, whatever follows. -/
theorem C77_nul_refuted {malloc : Nat → Option (List Nat)} {cs : List (Kind × (Nat → Nat) × Nat × Nat)} {s t : List Nat}
    (h : Calls malloc cs [(.info, s ++ 0 :: t)]) (hs : IsLine s) {time : List Nat} (htm : IsLine time) (junk : Nat → Nat) :
    eval junk [(.info, s ++ 0 :: t)] = some [(.info, s ++ 0 :: t)] ∧
    ∃ p, run (text time) malloc cs = some (p, 0) ∧ ∀ {cap code n : Nat} {u : Proc.St} {r : List Shown}, Proc.Steps cap code n (Proc.start p) u →
      Proc.runResult u = some r → r = [.notice (text s), .notice (text time)] := by
  refine ⟨C77_eval junk _ (calls_bytes h), ?_⟩
  obtain ⟨p, hp, hr⟩ := C77_run_partial h htm
  refine ⟨p, by simpa [fatal, sent] using hp, fun hs' hr' => ?_⟩
  rw [hr hs' hr']
  have hu : upTo (s ++ 0 :: t) = s := by
    rw [upTo, List.takeWhile_append_of_pos]
    · simp
    · intro b hm
      simp only [ne_eq, decide_eq_true_eq]
      rintro rfl
      exact hs.1 hm
  have : (printed time [(.info, s ++ 0 :: t)]).flatMap line = text s ++ '\n' :: (text time ++ '\n' :: []) := by
    simp [printed, normal, fatal, sent, line, hu, upTo_eq htm.1]
  rw [this, lines_newline _ _ fun h => hs.2.1 ((newline_text hs.2.2).1 h), lines_newline _ _ fun h => htm.2.1 ((newline_text htm.2.2).1 h)]
  simp [fatal, sent, lines]

/-- **C77 refuted**: the error does not make `CertiRocq Run` fail, though the status of the program is 1, while `CertiRocq Eval` ends with the error. -/
theorem C77_error_refuted {malloc : Nat → Option (List Nat)} {cs : List (Kind × (Nat → Nat) × Nat × Nat)} {s : List Nat} {ms : List (Kind × List Nat)}
    (h : Calls malloc cs ((.error, s) :: ms)) {time : List Nat} (htm : IsLine time) (junk : Nat → Nat) :
    eval junk ((.error, s) :: ms) = some [(.error, s)] ∧
    ∃ p, run (text time) malloc cs = some (p, 1) ∧ ∀ {cap n : Nat} {u : Proc.St} {r : List Shown}, Proc.Steps cap 1 n (Proc.start p) u →
      Proc.runResult u = some r → ∀ k, Shown.failed k ∉ r := by
  refine ⟨C77_eval junk _ (calls_bytes h), ?_⟩
  obtain ⟨p, hp, -⟩ := C77_run_partial h htm
  exact ⟨p, by simpa [fatal, sent] using hp, fun hs hr => Proc.C72_status_refuted hs hr⟩

/-! ## The hypotheses are met -/

/-- The message "Hi" twice. -/
def hiCalls : List (Kind × (Nat → Nat) × Nat × Nat) := [(.notice, RT.hiMem, 10, 16), (.notice, RT.hiMem, 10, 16)]

theorem hiCalls_ok : Calls (fun n => some (List.replicate n 255)) hiCalls [(.notice, [72, 105]), (.notice, [72, 105])] :=
  .cons ⟨rfl, RT.hi_ok, by decide, List.replicate 3 255, rfl, rfl⟩ (.cons ⟨rfl, RT.hi_ok, by decide, List.replicate 3 255, rfl, rfl⟩ .nil)

/-- "Time 0". -/
def time0 : List Nat := [84, 105, 109, 101, 32, 48]

theorem time0_ok : IsLine time0 := by simp [IsLine, time0]

example : ∃ p, run (text time0) (fun n => some (List.replicate n 255)) hiCalls = some (p, 0) ∧ ∀ {cap code n : Nat} {u : Proc.St} {r : List Shown},
    Proc.Steps cap code n (Proc.start p) u → Proc.runResult u = some r → r = [.notice ['H', 'i', 'H', 'i', 'T', 'i', 'm', 'e', ' ', '0']] :=
  (C77_notice_refuted hiCalls_ok (by simp [IsLine]) (by simp [IsLine]) time0_ok id).2

example : ∃ p c, run (text time0) (fun n => some (List.replicate n 255)) hiCalls = some (p, c) ∧
    ∃ n s, Proc.Steps 2 0 n (Proc.start p) s ∧ (Proc.runResult s).isSome :=
  C77_ends hiCalls_ok time0_ok (by decide) (by decide) 0

/-- An error ends the program with status 1. -/
example : ∃ p, run (text time0) (fun n => some (List.replicate n 255)) [(.error, RT.hiMem, 10, 16)] = some (p, 1) ∧
    ∀ {cap n : Nat} {u : Proc.St} {r : List Shown}, Proc.Steps cap 1 n (Proc.start p) u → Proc.runResult u = some r → ∀ k, Shown.failed k ∉ r :=
  (C77_error_refuted (s := [72, 105]) (ms := []) (.cons ⟨rfl, RT.hi_ok, by decide, List.replicate 3 255, rfl, rfl⟩ .nil) time0_ok id).2

/-- The message "Hi" as information is shown as it was sent. -/
example {p : List Act} {c : Nat} (hp : run (text time0) (fun n => some (List.replicate n 255)) [(.info, RT.hiMem, 10, 16)] = some (p, c)) {n : Nat} {s : Proc.St}
    {r : List Shown} (hs : Proc.Steps 4096 0 n (Proc.start p) s) (hr : Proc.runResult s = some r) : Proc.notices r = [['H', 'i'], text time0] :=
  (C77_run_iff (ms := [(.info, [72, 105])]) (.cons ⟨rfl, RT.hi_ok, by decide, List.replicate 3 255, rfl, rfl⟩ .nil) time0_ok hp hs hr).2
    (by simp [normal, fatal, sent])

/-- Messages that are shown one by one. -/
example : Separate [(.info, [72]), (.info, []), (.notice, [105])] ∧ ¬ Separate [(.notice, [72]), (.info, [105])] := by
  simp [Separate]

end Msg
