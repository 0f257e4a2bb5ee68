import Verif.GC.Mutator
import Mathlib.Tactic.IntervalCases

/-!
# A concrete heap

Three generations, a block of generation 2 (address 41, one field) and one of generation 1 (address 21, two fields), one
stack frame with two roots at 100 and 101. Used to show that the hypotheses of the theorems are met and as the starting
point of counterexample histories.
-/

namespace GC

/-- Memory of the example; `v` is the content of the field of the old block. -/
def demoMem (v : Nat) : Mem := fun x =>
  if x = 20 then 2 * 1024 else if x = 40 then 1024 else if x = 41 then v else if x = 100 then 8 * 41 else 1

def demoHeap : Heap := fun i =>
  if i = 0 then ⟨10, 10, 14, 14⟩ else if i = 1 then ⟨20, 23, 28, 28⟩ else if i = 2 then ⟨40, 42, 56, 56⟩ else nullSpace

def demoObjs : Nat → List Nat := fun i => if i = 1 then [21] else if i = 2 then [41] else []

def demo : TI := { mem := demoMem 1, alloc := 10, limit := 14, heap := demoHeap, fp := [⟨100, 102⟩], nalloc := 4 }

theorem demoObjs_mem {k a : Nat} (h : a ∈ demoObjs k) : (k = 1 ∧ a = 21) ∨ (k = 2 ∧ a = 41) := by
  unfold demoObjs at h
  by_cases h1 : k = 1
  · rw [if_pos h1] at h; exact Or.inl ⟨h1, by simpa using h⟩
  · rw [if_neg h1] at h
    by_cases h2 : k = 2
    · rw [if_pos h2] at h; exact Or.inr ⟨h2, by simpa using h⟩
    · rw [if_neg h2] at h; cases h

theorem demo_roots (x : Nat) : Roots demo.fp x ↔ x = 100 ∨ x = 101 := by
  unfold Roots demo
  simp only [List.mem_singleton, exists_eq_left]
  omega

theorem demo_current : currentHeap demo = demoHeap := by
  funext k
  unfold currentHeap
  by_cases h : k = 0
  · subst h; rfl
  · rw [if_neg h]; rfl

theorem demo_ok : MutatorOK (fun _ => False) demo 3 demoObjs := by
  unfold MutatorOK
  rw [demo_current]
  have hm : demo.mem = demoMem 1 := rfl
  rw [hm]
  constructor
  · decide
  · intro i hi; interval_cases i <;> decide
  · intro i hi
    constructor
    · simp only [demoHeap]; rw [if_neg (by omega), if_neg (by omega), if_neg (by omega)]; rfl
    · simp only [demoObjs]; rw [if_neg (by omega), if_neg (by omega)]
  · intro i hi; interval_cases i <;> decide
  · intro i hi
    have : i < 2 := by omega
    interval_cases i <;> decide
  · intro i j hi hj hij
    interval_cases i <;> interval_cases j <;> first | exact absurd rfl hij | decide
  · intro i hi
    interval_cases i
    · exact .nil _
    · exact .cons (by decide) (.nil _)
    · exact .cons (by decide) (.nil _)
  · intro i _ hi
    have : i < 2 := by omega
    interval_cases i <;> decide
  · intro i hi; omega
  · intro x i h; exact absurd h id
  · intro x i hx hi
    rw [demo_roots] at hx
    rcases hx with rfl | rfl <;> interval_cases i <;> decide
  · intro x hx
    rw [demo_roots] at hx
    rcases hx with rfl | rfl
    · exact Or.inr (Or.inl ⟨41, rfl, 2, by decide⟩)
    · exact Or.inl rfl
  · intro k a i ha _ hi
    rcases demoObjs_mem ha with ⟨rfl, rfl⟩ | ⟨rfl, rfl⟩
    · have : i < 2 := hi
      interval_cases i <;> exact Or.inl rfl
    · have : i < 1 := hi
      interval_cases i; exact Or.inl rfl
  · intro k a i j b ha _ hi he
    rcases demoObjs_mem ha with ⟨rfl, rfl⟩ | ⟨rfl, rfl⟩
    · have : i < 2 := hi
      have : demoMem 1 (21 + i) = 1 := by interval_cases i <;> rfl
      omega
    · have : i < 1 := hi
      have : demoMem 1 (41 + i) = 1 := by interval_cases i; rfl
      omega
  · intro j q hj q1 q2
    interval_cases j
    · have h1 : 14 ≤ q := q1
      have h2 : q < 14 := q2
      omega
    · have h1 : 28 ≤ q := q1
      have h2 : q < 28 := q2
      omega
    · have h1 : 56 ≤ q := q1
      have h2 : q < 56 := q2
      omega

/-- An allocator that hands out far away regions. -/
def demoMalloc (i : Nat) : Option Nat := some (1000 + 2 ^ (i + 4))

theorem demoMalloc_ok : MallocOK (fun _ => False) demo.heap 3 (Roots demo.fp) (demo.heap 0).size demoMalloc := by
  have hs : (demo.heap 0).size = 4 := rfl
  rw [hs]
  have hp : ∀ i j : Nat, i < j → 2 ^ (i + 4) + 2 ^ (i+1) * 4 ≤ 2 ^ (j + 4) := by
    intro i j hij
    have h1 : 2 ^ (i + 1 + 4) ≤ 2 ^ (j + 4) := Nat.pow_le_pow_right (by omega) (by omega)
    have h2 : 2 ^ (i + 1 + 4) = 2 ^ i * 32 := by rw [show i + 1 + 4 = i + 5 by omega, Nat.pow_add]
    have h3 : 2 ^ (i + 4) = 2 ^ i * 16 := by rw [Nat.pow_add]
    have h4 : 2 ^ (i + 1) = 2 ^ i * 2 := by rw [Nat.pow_add]; 
    omega
  constructor
  · intro i a hi ha
    unfold demoMalloc at ha
    obtain rfl : a = 1000 + 2 ^ (i + 4) := (Option.some.inj ha).symm
    generalize 2 ^ (i + 4) = p
    refine ⟨by omega, ?_, ?_⟩
    · intro j hj
      right
      have : (demo.heap j).remLimit ≤ 56 := by interval_cases j <;> decide
      omega
    · intro x hx
      rcases hx with hx | hx
      · exact absurd hx id
      · rw [demo_roots] at hx; omega
  · intro i j a b _ _ hij ha hb
    unfold demoMalloc at ha hb
    have ea : 1000 + 2 ^ (i + 4) = a := Option.some.inj ha
    have eb : 1000 + 2 ^ (j + 4) = b := Option.some.inj hb
    rcases Nat.lt_or_ge i j with h | h
    · have := hp i j h; omega
    · have := hp j i (by omega); omega

end GC
