import Verif.Boot.Lemmas

/-!
# C71: the result of a compiled program that OCaml gets is the result
-/

namespace Boot

variable {R : Heap} {al : Alloc}

/-- If no block of a result can be moved or freed by OCaml's collector while it is copied, then the copy terminates with the same data, whatever
the collector does.  The copy has no block in common with other memory, with itself or with what the caller has registered, which is kept.
Missing: results with blocks of numbers or bytes (see C71_raw_refuted), and results that share blocks with the arguments
(see C71_shared_refuted). -/
theorem C71_copy_partial (hl : Law R al) {d : Data} {v : Nat} {B : List Nat} (hv : Tree R d v B) (hd : d.Ok) {s : St} {os : Datas}
    (hR : ∀ a, R a ≠ none → s.heap a = none) {C : List Nat} (ho : os.Ok) (hs : Trees s.heap os s.roots C) :
    ∃ n w s' A C', copy R al n v s = some (w, s') ∧ Tree s'.heap d w A ∧ A.Nodup ∧ (∀ a ∈ A, R a = none) ∧ Trees s'.heap os s'.roots C' ∧
      ∀ a ∈ A, a ∉ C' := by
  obtain ⟨w, s', e, hi⟩ := copy_ok (n := d.depth) (s := s) (ds := .nil) (os := os) hl d hv hd (Nat.le_refl _)
    ⟨hR, trivial, ho, [], s.roots, [], C, rfl, ⟨rfl, rfl⟩, hs, List.nodup_nil, by simp⟩
  obtain ⟨_, ws, _, C', he, ⟨w', _, A, _, rfl, rfl, t1, rfl, rfl⟩, t2, h3, h4⟩ := hi.trees
  obtain ⟨rfl, he'⟩ : w = w' ∧ s'.roots = ws := by simpa using he
  rw [List.append_nil] at h3 h4
  have hin : ∀ a ∈ A, s'.heap a ≠ none := fun a ha => by
    have hr : Reach s'.heap [w] a := t1.reach hi.ok.1 (fun p q => .root (by simp) p q) a ha
    cases hr with
    | root _ _ h => exact h
    | field _ _ _ _ _ h => exact h
  refine ⟨d.depth, w, s', A, C', e, t1, h3, fun a ha => ?_, he' ▸ t2, h4⟩
  by_contra hne
  exact hin a ha (hi.apart a hne)

/-! ## An allocator -/

/-- An allocator that moves every block at every allocation: from `a` to `4 * a`.  The new block is at 4. -/
def mover : Alloc := fun _ H roots size tag =>
  (fun a => if a = 4 then some ⟨tag, List.replicate size unit⟩ else if a % 8 = 0 then (H (a / 4)).map (·.moved H (4 * ·)) else none,
    roots.map (moved H (4 * ·)), 4)

theorem reach_even {H : Heap} {roots : List Nat} {a : Nat} (h : Reach H roots a) : a % 2 = 0 := by
  cases h with
  | root _ h _ => exact h
  | field _ _ _ _ h _ => exact h

theorem mover_law (hR : ∀ a, R a ≠ none → a % 8 = 2) : Law R mover := by
  refine ⟨fun t H roots size tag hA => ⟨_, 4, (4 * ·), rfl, rfl, if_pos rfl, fun a b ha hb => ⟨?_, ?_, ?_⟩, fun a b _ _ h => ?_,
    fun a ha => ?_⟩⟩
  · show 4 * a % 2 = 0
    omega
  · have he := reach_even ha
    show 4 * a ≠ 4
    omega
  · have he := reach_even ha
    show (if 4 * a = 4 then _ else if 4 * a % 8 = 0 then _ else _) = _
    rw [if_neg (by omega), if_pos (by omega), show 4 * a / 4 = a by omega, hb]
    rfl
  · have h : 4 * a = 4 * b := h
    omega
  · have := hR a ha
    show (if a = 4 then _ else if a % 8 = 0 then _ else _) = _
    rw [if_neg (by omega), if_neg (by omega)]

/-- A value in the heap of the compiled program: a pair of a constructor with two arguments and an integer. -/
def demoHeap : Heap := fun a => if a = 10 then some ⟨0, [18, 7]⟩ else if a = 18 then some ⟨1, [3, 5]⟩ else none

def demoData : Data := .blk 0 (.cons (.blk 1 (.cons (.imm 3) (.cons (.imm 5) .nil))) (.cons (.imm 7) .nil))

theorem demo_apart {a : Nat} (h : demoHeap a ≠ none) : a = 10 ∨ a = 18 := by
  unfold demoHeap at h
  split at h
  · exact .inl ‹_›
  · split at h
    · exact .inr ‹_›
    · exact absurd rfl h

theorem demo_tree : Tree demoHeap demoData 10 [10, 18] :=
  ⟨rfl, [18, 7], [18], rfl, rfl, 18, [7], [18], [], rfl, rfl, ⟨rfl, [3, 5], [], rfl, rfl, 3, [5], [], [], rfl, rfl, ⟨rfl, rfl, rfl⟩,
    5, [], [], [], rfl, rfl, ⟨rfl, rfl, rfl⟩, rfl, rfl⟩, 7, [], [], [], rfl, rfl, ⟨rfl, rfl, rfl⟩, rfl, rfl⟩

/-- The copy made while everything moves. -/
example : ∃ n w s' A C', copy demoHeap mover n 10 ⟨fun a => if a = 16 then some ⟨0, [9]⟩ else none, [16], 0⟩ = some (w, s') ∧
    Tree s'.heap demoData w A ∧ A.Nodup ∧ (∀ a ∈ A, demoHeap a = none) ∧
    Trees s'.heap (.cons (.blk 0 (.cons (.imm 9) .nil)) .nil) s'.roots C' ∧ ∀ a ∈ A, a ∉ C' := by
  refine C71_copy_partial (C := [16]) (mover_law fun a h => ?_) demo_tree ?_ (fun a h => ?_) ?_ ?_
  · rcases demo_apart h with rfl | rfl <;> rfl
  · simp [demoData, Data.Ok, Datas.Ok, Datas.len]
  · rcases demo_apart h with rfl | rfl <;> rfl
  · simp [Data.Ok, Datas.Ok, Datas.len]
  · exact ⟨16, [], [16], [], rfl, rfl, ⟨rfl, [9], [], rfl, rfl, 9, [], [], [], rfl, rfl, ⟨rfl, rfl, rfl⟩, rfl, rfl⟩, rfl, rfl⟩

/-- Its words. -/
example : (copy demoHeap mover 3 10 ⟨fun a => if a = 16 then some ⟨0, [9]⟩ else none, [16], 0⟩).map (fun r => (r.1, r.2.roots, r.2.heap r.1)) =
    some (16, [256], some ⟨0, [4, 7]⟩) := by decide +kernel

/-! ## What goes wrong -/

/-- Blocks with the tag of a floating-point number are copied like constructors: the bits of 1.0 are taken for an address. -/
theorem C71_raw_refuted : ∃ (R : Heap) (al : Alloc) (s : St) (v : Nat), Law R al ∧ (∀ a, R a ≠ none → s.heap a = none) ∧
    R v = some ⟨253, [0x3FF0000000000000]⟩ ∧ ∀ n, copy R al n v s = none := by
  refine ⟨fun a => if a = 10 then some ⟨253, [0x3FF0000000000000]⟩ else none, mover, ⟨fun _ => none, [], 0⟩, 10, mover_law ?_, fun _ _ => rfl, rfl, ?_⟩
  · intro a h
    split at h
    · subst_vars; rfl
    · exact absurd rfl h
  · intro n
    cases n with
    | zero => rfl
    | succ n => cases n <;> rfl

/-- A result that contains an argument: the variable for the argument is registered by the caller and follows the block when it moves, the word
in the result does not. -/
theorem C71_shared_refuted : ∃ (R : Heap) (al : Alloc) (s : St) (v : Nat) (d : Data) (A C : List Nat) (os : Datas), Law R al ∧
    (∀ a, R a ≠ none → s.heap a = none) ∧ d.Ok ∧ Tree (mem R s.heap) d v A ∧ os.Ok ∧ Trees s.heap os s.roots C ∧ ∀ n, copy R al n v s = none := by
  refine ⟨fun a => if a = 10 then some ⟨0, [16]⟩ else none, mover, ⟨fun a => if a = 16 then some ⟨0, [9]⟩ else none, [16], 0⟩, 10,
    .blk 0 (.cons (.blk 0 (.cons (.imm 9) .nil)) .nil), [10, 16], [16], .cons (.blk 0 (.cons (.imm 9) .nil)) .nil, mover_law ?_, ?_, ?_, ?_, ?_, ?_, ?_⟩
  · intro a h
    split at h
    · subst_vars; rfl
    · exact absurd rfl h
  · intro a h
    dsimp only at h
    split at h
    · subst_vars; rfl
    · exact absurd rfl h
  · simp [Data.Ok, Datas.Ok, Datas.len]
  · exact ⟨rfl, [16], [16], rfl, rfl, 16, [], [16], [], rfl, rfl, ⟨rfl, [9], [], rfl, rfl, 9, [], [], [], rfl, rfl, ⟨rfl, rfl, rfl⟩, rfl, rfl⟩, rfl, rfl⟩
  · simp [Data.Ok, Datas.Ok, Datas.len]
  · exact ⟨16, [], [16], [], rfl, rfl, ⟨rfl, [9], [], rfl, rfl, 9, [], [], [], rfl, rfl, ⟨rfl, rfl, rfl⟩, rfl, rfl⟩, rfl, rfl⟩
  · intro n
    cases n with
    | zero => rfl
    | succ n => cases n <;> rfl

end Boot
