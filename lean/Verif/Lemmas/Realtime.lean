import Verif.Spec.Realtime
import Mathlib.Algebra.BigOperators.Intervals

/-! Helper lemmas about histories of calls. -/

namespace Verif

variable {K : Type}

theorem RTFilter.after_nil {O : Type} (F : RTFilter K O) : F.after [] = F.init := rfl

theorem RTFilter.after_snoc {O : Type} (F : RTFilter K O) (h : List (Op K)) (op : Op K) :
    F.after (h ++ [op]) = F.exec (F.after h) op := by
  simp [RTFilter.after]

theorem nChannels_nil : nChannels ([] : List (Op K)) = 1 := rfl

theorem nChannels_snoc (h : List (Op K)) (op : Op K) :
    nChannels (h ++ [op]) = match op with
      | .setChannels m => m
      | _ => nChannels h := by
  cases op <;> simp [nChannels]

theorem pastInputs_nil (ch : ℕ) : pastInputs ch ([] : List (Op K)) = [] := rfl

theorem pastInputs_fst (ch : ℕ) (h : List (Op K)) :
    (h.foldl (fun (p : ℕ × List K) op => match op with
    | .sample x c => (p.1, if c = ch ∧ c < p.1 then x :: p.2 else p.2)
    | .reset => (p.1, [])
    | .setChannels m => (m, [])) (1, [])).1 = nChannels h := by
  induction h using List.reverseRecOn with
  | nil => rfl
  | append_singleton h op ih =>
    rw [nChannels_snoc, List.foldl_append, List.foldl_cons, List.foldl_nil]
    cases op <;> simp [ih]

theorem pastInputs_snoc (ch : ℕ) (h : List (Op K)) (op : Op K) :
    pastInputs ch (h ++ [op]) = match op with
      | .sample x c => if c = ch ∧ c < nChannels h then x :: pastInputs ch h else pastInputs ch h
      | _ => [] := by
  rw [← pastInputs_fst ch h]
  unfold pastInputs
  rw [List.foldl_append, List.foldl_cons, List.foldl_nil]
  cases op <;> rfl

theorem RTFilter.foldl_observe_fst {O : Type} (F : RTFilter K O) (ch : ℕ) (h : List (Op K)) :
    (h.foldl (F.observe ch) (F.init, [])).1 = F.after h := by
  induction h using List.reverseRecOn with
  | nil => rfl
  | append_singleton h op ih =>
    rw [RTFilter.after_snoc, List.foldl_append, List.foldl_cons, List.foldl_nil]
    simp [RTFilter.observe, ih]

theorem RTFilter.log_nil {O : Type} (F : RTFilter K O) (ch : ℕ) : F.log ch [] = [] := rfl

theorem RTFilter.log_snoc {O : Type} (F : RTFilter K O) (ch : ℕ) (h : List (Op K)) (op : Op K) :
    F.log ch (h ++ [op]) = match op with
      | .sample x c =>
        if c = ch then
          match F.answer h x c with
          | .ok y => (x, y) :: F.log ch h
          | .error _ => F.log ch h
        else F.log ch h
      | _ => [] := by
  unfold RTFilter.log RTFilter.answer
  rw [← F.foldl_observe_fst ch h, List.foldl_append, List.foldl_cons, List.foldl_nil]
  cases op <;> rfl

theorem tapSum_cons [Semiring K] (b0 : K) (b : List K) (x : K) (xs : List K) :
    tapSum (b0 :: b) (x :: xs) = b0 * x + tapSum b xs := by
  unfold tapSum
  rw [List.length_cons, Finset.sum_range_succ']
  simp [add_comm]

theorem tapSum_nil [Semiring K] (xs : List K) : tapSum [] xs = 0 := by
  simp [tapSum]

theorem tapSum_nil_right [Semiring K] (b : List K) : tapSum b [] = 0 := by
  simp [tapSum]

end Verif
