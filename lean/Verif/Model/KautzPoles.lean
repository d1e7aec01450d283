import Verif.Model.FilterBank
import Mathlib.Analysis.Complex.Polynomial.Basic
import Mathlib.Analysis.SpecialFunctions.Pow.Real

/-!
# Model of the search for the poles of a Kautz filter
(`KautzFilter.__find_optimal_poles_for_ir`, `dsptoolbox/classes/kautz_filter.py`, lines 361-421)

Exact arithmetic, so that no error is `nan` and the masks of lines 418-420 keep everything.
`scipy.linalg.lstsq` is a parameter; `np.roots` is the multiset of the roots, its order is not
modelled.
-/

namespace Verif.KautzPoles

open Verif.Bank (lfilter)

/-- `scipy.linalg.lstsq(A, b)[0]` -/
abbrev Solver := Mat ℝ → List ℝ → List ℝ

/-- The matrix of lines 392-396: column `k` is the filtered response delayed by `k` samples. -/
noncomputable def matrixA (order : ℕ) (h : List ℝ) : Mat ℝ :=
  ⟨h.length, order, fun r k => if r < k then 0 else h.getD (r - k) 0⟩

/-- Line 390: `np.hstack([np.zeros(order), -filtered_response[:-order]])` -/
def vectorB (order : ℕ) (h : List ℝ) : List ℝ :=
  List.replicate order 0 ++ (h.take (h.length - order)).map (- ·)

/-- One iteration (lines 389-401): the new coefficients of the polynomial, highest power first.
`g` is the reversed target. -/
noncomputable def step (solve : Solver) (order : ℕ) (g poly : List ℝ) : List ℝ :=
  let h := lfilter [1] poly g
  1 :: (solve (matrixA order h) (vectorB order h)).reverse

/-- Lines 403-415: the energy of the target filtered with the all-pass of the polynomial. -/
noncomputable def error (g poly : List ℝ) : ℝ :=
  ((lfilter poly.reverse poly g).map (· ^ 2)).sum

/-- The polynomials of `n` further iterations (lines 388-415). -/
noncomputable def loop (solve : Solver) (order : ℕ) (g : List ℝ) : ℕ → List ℝ → List (List ℝ)
  | 0, _ => []
  | n + 1, poly => step solve order g poly :: loop solve order g n (step solve order g poly)

open Classical in
/-- `np.argmin` of the errors (line 419): the first of the polynomials with the smallest error. -/
noncomputable def best (g : List ℝ) : List ℝ → List (List ℝ) → List ℝ
  | p, [] => p
  | p, q :: l => if error g q < error g p then best g q l else best g p l

/-- The polynomial of which `np.roots` takes the coefficients. -/
noncomputable def polynomial (c : List ℝ) : Polynomial ℂ :=
  ∑ k ∈ Finset.range c.length, Polynomial.monomial (c.length - 1 - k) ((c.getD k 0 : ℝ) : ℂ)

/-- Lines 377-420: the polynomial that is taken.  Without iterations `argmin` raises ValueError.
Without order the first column does not exist (IndexError); if the order exceeds the length of the
target the vector is longer than the matrix (ValueError of `lstsq`). -/
noncomputable def search (solve : Solver) (order iterations : ℕ) (target : List ℝ) :
    Except Err (List ℝ) :=
  if iterations = 0 then .error .valueError
  else if order = 0 then .error .indexError
  else if target.length < order then .error .valueError
  else
    match loop solve order target.reverse iterations (1 :: List.replicate order 0) with
    | [] => .error .valueError
    | p :: l => .ok (best target.reverse p l)

open Classical in
/-- `__find_optimal_poles_for_ir` (lines 361-421), for a target of more than one sample. -/
noncomputable def findPoles (solve : Solver) (order iterations : ℕ) (target : List ℝ) :
    Except Err (Multiset ℂ) :=
  match search solve order iterations target with
  | .error e => .error e
  | .ok c => .ok ((polynomial c).roots.filter fun z => 0 ≤ z.im)

end Verif.KautzPoles
