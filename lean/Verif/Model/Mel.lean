import Verif.Model.Helpers
import Mathlib.Algebra.BigOperators.Group.Finset.Basic

/-!
# Model of the mel filter bank (`dsptoolbox/transforms/transforms.py`, lines 198-278)

Exact arithmetic.
-/

namespace Verif.Mel

/-- `_hz2mel` (`helpers/frequency_conversion.py`, line 25). -/
noncomputable def hz2mel (f : ℝ) : ℝ := 2595 * Real.logb 10 (1 + f / 700)

/-- `_mel2hz` (`helpers/frequency_conversion.py`, line 46). -/
noncomputable def mel2hz (m : ℝ) : ℝ := 700 * ((10 : ℝ) ^ (m / 2595) - 1)

/-- The range of frequencies (`transforms.py`, lines 233-251); `f` is the frequency vector.  A
vector of one entry is squeezed to a scalar and rejected; in an empty one the first entry cannot
be read (line 238), its last entry neither (line 245). -/
noncomputable def rangeHz (f : List ℝ) (range : Option (ℝ × ℝ)) : Except Err (ℝ × ℝ) :=
  if f.length = 1 then .error .assertionError
  else if f.length = 0 then .error .indexError
  else
    match range with
    | none => .ok (f.getD 0 0, f.getD (f.length - 1) 0)
    | some (a, b) =>
      let lo := min a b
      let hi := max a b
      if ¬ hi ≤ f.getD (f.length - 1) 0 then .error .assertionError
      else if ¬ 0 ≤ lo then .error .assertionError
      else .ok (lo, hi)

/-- `mel_center_freqs[i]`: `np.linspace` with `bands + 2` points (`transforms.py`, lines 254-256). -/
noncomputable def center (lo hi : ℝ) (bands i : ℕ) : ℝ :=
  hz2mel lo + i * ((hz2mel hi - hz2mel lo) / (bands + 1))

/-- The entry `k` of a row before normalisation (`transforms.py`, lines 269-275); `i0`, `i1`, `i2`
are the bins of three consecutive frequencies.  The second assignment is the last one. -/
noncomputable def triangle (i0 i1 i2 k : ℕ) : ℝ :=
  if i1 ≤ k ∧ k < i2 then 1 - ((k - i1 : ℕ) : ℝ) * (1 / ((i2 - i1 : ℕ) : ℝ))
  else if i0 ≤ k ∧ k < i1 then ((k - i0 : ℕ) : ℝ) * (1 / ((i1 - i0 : ℕ) : ℝ))
  else 0

/-- The division by the sum (`transforms.py`, line 277) over `n` bins: `0 / 0` is nan, here
`none`. -/
noncomputable def normalizeRow (n : ℕ) (row : ℕ → ℝ) (k : ℕ) : Option ℝ :=
  if ∑ i ∈ Finset.range n, row i = 0 then none
  else some (row k / ∑ i ∈ Finset.range n, row i)

/-- The filters: one row for each band, one column for each frequency. -/
structure Filters where
  bands : ℕ
  bins : ℕ
  val : ℕ → ℕ → Option ℝ
  centers : ℕ → ℝ

/-- `mel_filterbank` (`transforms.py`, lines 198-278).  `np.linspace` with a negative number of
points raises ValueError: this happens if the bins are not ordered.  A negative number of bands is
left out. -/
noncomputable def filterbank (f : List ℝ) (range : Option (ℝ × ℝ)) (bands : ℕ) (normalize : Bool) :
    Except Err Filters :=
  match rangeHz f range with
  | .error e => .error e
  | .ok (lo, hi) =>
    match Helpers.findNearest ((List.range (bands + 2)).map fun i => mel2hz (center lo hi bands i)) f with
    | .error e => .error e
    | .ok inds =>
      let ind := fun i => inds.getD i 0
      if (List.range bands).any fun n => ind (n + 1) < ind n ∨ ind (n + 2) < ind (n + 1) then
        .error .valueError
      else
        .ok ⟨bands, f.length,
          fun n k =>
            let row := triangle (ind n) (ind (n + 1)) (ind (n + 2))
            if normalize then normalizeRow f.length row k else some (row k),
          fun n => center lo hi bands (n + 1)⟩

end Verif.Mel
