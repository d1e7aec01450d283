import Verif.Model.CombineIR
import Verif.Props.C31

/-!
# C86: the mixing of an impulse response with an impulse
-/

namespace Verif.CombineIR

open SignalData Level

/-! ### Specification -/

/-- `p` is the largest magnitude of the first `n` values. -/
def IsPeak (n : ℕ) (x : ℕ → ℝ) (p : ℝ) : Prop := (∀ r < n, |x r| ≤ p) ∧ ∃ r < n, |x r| = p

/-- What the factor `k` of the impulse has to do with the bands `a` (response) and `b` (impulse). -/
def Matches (m : Matching) (n : ℕ) (a b : ℕ → ℝ) (k : ℝ) : Prop :=
  match m with
  | .off => k = 1
  | .text s =>
    (s.toLower = "energy" → ∑ r ∈ Finset.range n, (k * b r) ^ 2 = ∑ r ∈ Finset.range n, a r ^ 2) ∧
    (s.toLower = "peak" → ∀ p, IsPeak n a p → IsPeak n (fun r => k * b r) p)
  | .number db => k = 10 ^ (db / 20)
  | .numpyFloat _ => k = 1

/-! ### Lemmas -/

theorem peak_ge (n : ℕ) (x : ℕ → ℝ) (r : ℕ) (hr : r < n) : |x r| ≤ peak n x := by
  unfold peak
  rw [Finset.le_fold_max]
  exact Or.inr ⟨r, Finset.mem_range.2 hr, le_rfl⟩

theorem peak_nonneg (n : ℕ) (x : ℕ → ℝ) : 0 ≤ peak n x := by
  unfold peak
  rw [Finset.le_fold_max]
  exact Or.inl le_rfl

theorem peak_attained (n : ℕ) (x : ℕ → ℝ) (h : peak n x ≠ 0) : ∃ r < n, |x r| = peak n x := by
  have h1 : peak n x ≤ (Finset.range n).fold max 0 fun r => |x r| := le_rfl
  rw [Finset.le_fold_max] at h1
  rcases h1 with h1 | ⟨r, hr, h1⟩
  · exact absurd (le_antisymm h1 (peak_nonneg n x)) h
  · exact ⟨r, Finset.mem_range.1 hr, le_antisymm (peak_ge n x r (Finset.mem_range.1 hr)) h1⟩

theorem peak_unique (n : ℕ) (x : ℕ → ℝ) (p : ℝ) (h : IsPeak n x p) : peak n x = p := by
  obtain ⟨h1, r, hr, h2⟩ := h
  refine le_antisymm ?_ (h2 ▸ peak_ge n x r hr)
  unfold peak
  rw [Finset.fold_max_le]
  exact ⟨h2 ▸ abs_nonneg _, fun r hr => h1 r (Finset.mem_range.1 hr)⟩

theorem factor_matches (m : Matching) (n : ℕ) (hn : 0 < n) (a b : ℕ → ℝ) (k : ℝ) (h : factor m n a b = some k) :
    0 ≤ k ∧ Matches m n a b k := by
  have hn' : (0 : ℝ) < n := by exact_mod_cast hn
  cases m with
  | off =>
    obtain rfl : (1 : ℝ) = k := by simpa [factor] using h
    exact ⟨zero_le_one, rfl⟩
  | numpyFloat d =>
    obtain rfl : (1 : ℝ) = k := by simpa [factor] using h
    exact ⟨zero_le_one, rfl⟩
  | number d =>
    obtain rfl : fromDb d true = k := by simpa [factor] using h
    exact ⟨by unfold fromDb; positivity, by simp [Matches, fromDb, dbFactor]⟩
  | text s =>
    simp only [factor] at h
    by_cases he : s.toLower = "energy"
    · rw [if_pos he] at h
      by_cases h0 : rms n b = 0
      · rw [if_pos h0] at h
        cases h
      rw [if_neg h0] at h
      obtain rfl : rms n a / rms n b = k := by simpa using h
      refine ⟨div_nonneg (Real.sqrt_nonneg _) (Real.sqrt_nonneg _), fun _ => ?_, fun hp => ?_⟩
      · have hsq : ∀ x : ℕ → ℝ, rms n x ^ 2 = (∑ r ∈ Finset.range n, x r ^ 2) / n := fun x =>
          Real.sq_sqrt (div_nonneg (Finset.sum_nonneg fun _ _ => sq_nonneg _) hn'.le)
        have hb0 : (∑ r ∈ Finset.range n, b r ^ 2) ≠ 0 := by
          intro h1
          have := hsq b
          rw [h1, zero_div] at this
          exact h0 (pow_eq_zero_iff (by norm_num) |>.1 this)
        simp only [mul_pow]
        rw [← Finset.mul_sum, div_pow, hsq, hsq]
        field_simp
      · rw [he] at hp
        exact absurd hp (by decide)
    · rw [if_neg he] at h
      by_cases hp : s.toLower = "peak"
      · rw [if_pos hp] at h
        by_cases h0 : peak n b = 0
        · rw [if_pos h0] at h
          cases h
        rw [if_neg h0] at h
        obtain rfl : peak n a / peak n b = k := by simpa using h
        have hk : 0 ≤ peak n a / peak n b := div_nonneg (peak_nonneg n a) (peak_nonneg n b)
        have hb : 0 < peak n b := lt_of_le_of_ne (peak_nonneg n b) (Ne.symm h0)
        refine ⟨hk, fun h => absurd h he, fun _ p hpk => ?_⟩
        have hpa := peak_unique n a p hpk
        refine ⟨fun r hr => ?_, ?_⟩
        · show |peak n a / peak n b * b r| ≤ p
          rw [abs_mul, abs_of_nonneg hk]
          calc peak n a / peak n b * |b r| ≤ peak n a / peak n b * peak n b := by
                gcongr
                exact peak_ge n b r hr
            _ = p := by rw [div_mul_cancel₀ _ h0, hpa]
        · obtain ⟨r, hr, h1⟩ := peak_attained n b h0
          refine ⟨r, hr, ?_⟩
          show |peak n a / peak n b * b r| = p
          rw [abs_mul, abs_of_nonneg hk, h1, div_mul_cancel₀ _ h0, hpa]
      · rw [if_neg hp] at h
        obtain rfl : (1 : ℝ) = k := by simpa using h
        exact ⟨zero_le_one, fun h => absurd h he, fun h => absurd h hp⟩

/-- The normalised array: one positive factor, and the largest magnitude is 1. -/
theorem normalizeArray_spec (A : Mat ℝ) (h : peakOn (cells A 0 false) A.val ≠ 0) :
    ∃ g > 0, (∀ r c, (normalizeArray A 0 true false).val r c = g * A.val r c) ∧
      (∀ r < A.rows, ∀ c < A.cols, |(normalizeArray A 0 true false).val r c| ≤ 1) ∧
      ∃ r < A.rows, ∃ c < A.cols, |(normalizeArray A 0 true false).val r c| = 1 := by
  have hpos : 0 < peakOn (cells A 0 false) A.val := lt_of_le_of_ne (peakOn_nonneg _ _) (Ne.symm h)
  have hval : ∀ r c, (normalizeArray A 0 true false).val r c = (peakOn (cells A 0 false) A.val)⁻¹ * A.val r c := by
    intro r c
    simp only [normalizeArray, levelOn, if_true, fromDb]
    have : cells A c false = cells A 0 false := by simp [cells]
    rw [this]
    norm_num
    ring
  refine ⟨_, inv_pos.2 hpos, hval, fun r hr c hc => ?_, ?_⟩
  · rw [hval, abs_mul, abs_of_pos (inv_pos.2 hpos), inv_mul_le_iff₀ hpos, mul_one]
    exact peakOn_ge (cells A 0 false) A.val (r, c) (by simp [cells, hr, hc])
  · obtain ⟨p, hp, h1⟩ := peakOn_attained _ _ h
    simp only [cells, Bool.false_eq_true, if_false, Finset.mem_product, Finset.mem_range] at hp
    refine ⟨p.1, hp.1, p.2, hp.2, ?_⟩
    rw [hval, abs_mul, abs_of_pos (inv_pos.2 hpos), h1, inv_mul_cancel₀ hpos.ne']

/-! ### Theorems -/

/-- A result is the sum, up to one positive factor, of one band of the response and the other band of the impulses,
each channel of which is scaled as requested and has the sign of the response at its latency.  The largest
magnitude of the result is 1. -/
theorem C86_combined (low high : (ℕ → ℝ) → ℕ → ℝ) (takeLower : Bool) (m : Matching) (latencies : Mat ℝ → ℕ → ℝ)
    (impulses : (ℕ → ℝ) → Mat ℝ) (data out : Mat ℝ)
    (h : combine low high takeLower m latencies impulses data = .ok (some out)) :
    out.rows = data.rows ∧ out.cols = data.cols ∧
    (∀ r < out.rows, ∀ c < out.cols, |out.val r c| ≤ 1) ∧ (∃ r < out.rows, ∃ c < out.cols, |out.val r c| = 1) ∧
    ∃ ir : Mat ℝ, (∃ g > 0, ∀ r c, ir.val r c = g * data.val r c) ∧
      (∃ r < data.rows, ∃ c < data.cols, |ir.val r c| = 1) ∧
      ∃ g > 0, ∀ c < data.cols,
        let a := (if takeLower then low else high) fun r => ir.val r c
        let b := (if takeLower then high else low) fun r => (impulses (latencies ir)).val r c
        ∃ k ≥ 0, Matches m data.rows a b k ∧
          (0 < ir.val ⌊latencies ir c + 0.5⌋₊ c → ∀ r, out.val r c = g * (a r + k * b r)) ∧
          (ir.val ⌊latencies ir c + 0.5⌋₊ c < 0 → ∀ r, out.val r c = g * (a r - k * b r)) := by
  unfold combine at h
  by_cases h1 : accepted m = false
  · rw [if_pos h1] at h
    cases h
  rw [if_neg h1] at h
  by_cases h2 : peakOn (cells data 0 false) data.val = 0
  · rw [if_pos h2] at h
    cases h
  rw [if_neg h2] at h
  dsimp only at h
  obtain ⟨g1, hg1, hv1, hb1, hone1⟩ := normalizeArray_spec data h2
  set ir := normalizeArray data 0 true false with hir
  have hrows : ir.rows = data.rows := rfl
  have hcols : ir.cols = data.cols := rfl
  unfold mix at h
  dsimp only at h
  generalize (if takeLower = true then low else high) = f1 at h ⊢
  generalize (if takeLower = true then high else low) = f2 at h ⊢
  split at h
  · cases h
  rename_i s hs
  split at hs
  swap
  · cases hs
  rename_i hall
  obtain rfl := Option.some.inj hs
  split at h
  · cases h
  rename_i hp
  obtain rfl := Option.some.inj (Except.ok.inj h)
  obtain ⟨g, hg, hv, hb, hone⟩ := normalizeArray_spec _ hp
  refine ⟨rfl, rfl, hb, hone, ir, ⟨g1, hg1, hv1⟩, hone1, g, hg, fun c hc => ?_⟩
  dsimp only
  obtain ⟨k, hk⟩ := Option.isSome_iff_exists.1 (hall c hc)
  have hn : 0 < data.rows := by
    obtain ⟨r, hr, -⟩ := hone1
    omega
  obtain ⟨hk0, hm⟩ := factor_matches m ir.rows hn _ _ k hk
  refine ⟨k, hk0, hm, fun hpol r => ?_, fun hpol r => ?_⟩
  · rw [hv]
    simp only [hk, Option.getD_some, polarity, sign_pos hpol, SignType.coe_one]
    ring
  · rw [hv]
    simp only [hk, Option.getD_some, polarity, sign_neg hpol, SignType.coe_neg, SignType.coe_one]
    ring

/-- Texts other than `energy` and `peak` (in any case) are refused. -/
theorem C86_combine_refused (low high : (ℕ → ℝ) → ℕ → ℝ) (takeLower : Bool) (s : String)
    (latencies : Mat ℝ → ℕ → ℝ) (impulses : (ℕ → ℝ) → Mat ℝ) (data : Mat ℝ) :
    combine low high takeLower (.text s) latencies impulses data = .error .assertionError ↔
      s.toLower ≠ "energy" ∧ s.toLower ≠ "peak" := by
  unfold combine
  by_cases h : accepted (.text s) = false
  · rw [if_pos h]
    simp only [accepted, decide_eq_false_iff_not, not_or] at h
    simpa using h
  · rw [if_neg h]
    simp only [accepted, decide_eq_false_iff_not, not_not] at h
    constructor
    · intro h'
      exfalso
      dsimp only at h'
      split at h'
      · cases h'
      split at h'
      · cases h'
      split at h' <;> cases h'
    · rintro ⟨h2, h3⟩
      exact absurd h (by simp [h2, h3])

/-- **Disagreement.** A level given as a floating-point number of numpy is ignored. -/
theorem C86_numpy_level_ignored (low high : (ℕ → ℝ) → ℕ → ℝ) (takeLower : Bool) (db : ℝ)
    (latencies : Mat ℝ → ℕ → ℝ) (impulses : (ℕ → ℝ) → Mat ℝ) (data : Mat ℝ) :
    combine low high takeLower (.numpyFloat db) latencies impulses data =
      combine low high takeLower .off latencies impulses data := rfl

/-- With bands that add up to the signal, an impulse is combined with itself to the same impulse. -/
theorem C86_combined_impulse (low high : (ℕ → ℝ) → ℕ → ℝ) (hsum : ∀ x r, low x r + high x r = x r)
    (takeLower : Bool) (latencies : Mat ℝ → ℕ → ℝ) (impulses : (ℕ → ℝ) → Mat ℝ) (n t : ℕ) (ht : t < n) (A : ℝ) (hA : 0 < A)
    (hlat : ∀ M : Mat ℝ, (∀ r, M.val r 0 = if r = t then 1 else 0) → latencies M 0 = t)
    (himp : ∀ l : ℕ → ℝ, l 0 = t → ∀ r, (impulses l).val r 0 = if r = t then 1 else 0) :
    ∃ out, combine low high takeLower .off latencies impulses ⟨n, 1, fun r _ => if r = t then A else 0⟩ =
        .ok (some out) ∧ ∀ r, out.val r 0 = if r = t then 1 else 0 := by
  have hpk : ∀ (B : ℝ) (f : ℕ → ℕ → ℝ), 0 < B → (∀ r, f r 0 = if r = t then B else 0) →
      peakOn (cells ⟨n, 1, f⟩ 0 false) f = B := by
    intro B f hB hf
    have hmem : (t, 0) ∈ cells ⟨n, 1, f⟩ 0 false := by simp [cells, ht]
    have h1 := peakOn_ge _ f _ hmem
    simp only [hf, if_true, abs_of_pos hB] at h1
    refine le_antisymm ?_ h1
    unfold peakOn
    rw [Finset.fold_max_le]
    refine ⟨hB.le, fun p hp => ?_⟩
    simp only [cells, Bool.false_eq_true, if_false, Finset.mem_product, Finset.mem_range, Nat.lt_one_iff] at hp
    rw [hp.2, hf]
    by_cases h : p.1 = t
    · rw [if_pos h, abs_of_pos hB]
    · rw [if_neg h, abs_zero]
      exact hB.le
  have hnorm : ∀ (B : ℝ) (f : ℕ → ℕ → ℝ), 0 < B → (∀ r, f r 0 = if r = t then B else 0) →
      ∀ r, (normalizeArray ⟨n, 1, f⟩ 0 true false).val r 0 = if r = t then 1 else 0 := by
    intro B f hB hf r
    simp only [normalizeArray, levelOn, if_true, fromDb, hpk B f hB hf, hf]
    by_cases h : r = t
    · rw [if_pos h, if_pos h]
      norm_num
      field_simp
    · rw [if_neg h, if_neg h, zero_mul]
  have hir := hnorm A (fun r _ => if r = t then A else 0) hA (fun _ => rfl)
  unfold combine
  rw [if_neg (by simp [accepted])]
  dsimp only
  rw [hpk A _ hA (fun _ => rfl), if_neg hA.ne']
  set ir := normalizeArray ⟨n, 1, fun r _ => if r = t then A else 0⟩ 0 true false with hird
  have hl := hlat ir hir
  have hi := himp (latencies ir) hl
  unfold mix
  dsimp only
  rw [if_pos (fun c _ => by simp [factor])]
  dsimp only
  have hpol : polarity ir (latencies ir) 0 = 1 := by
    unfold polarity
    rw [hl, show ⌊(t : ℝ) + 0.5⌋₊ = t by
      rw [Nat.floor_eq_iff (by positivity)]
      constructor <;> linarith, hir, if_pos rfl]
    simp
  have hs : ∀ r, (fun r c => (if takeLower then low else high) (fun r => ir.val r c) r +
      (if takeLower then high else low) (fun r => (impulses (latencies ir)).val r c) r *
        (factor .off ir.rows ((if takeLower then low else high) fun r => ir.val r c)
          ((if takeLower then high else low) fun r => (impulses (latencies ir)).val r c)).getD 0 *
        polarity ir (latencies ir) c) r 0 = if r = t then (1 : ℝ) else 0 := by
    intro r
    dsimp only
    rw [hpol]
    simp only [factor, Option.getD_some, mul_one]
    rw [show (fun r => (impulses (latencies ir)).val r 0) = fun r => ir.val r 0 from funext fun r => by rw [hi, hir]]
    rw [← hir r]
    cases takeLower
    · simp only [Bool.false_eq_true, if_false]
      rw [add_comm]
      exact hsum (fun r => ir.val r 0) r
    · simp only [if_true]
      exact hsum (fun r => ir.val r 0) r
  have hrows : ir.rows = n := rfl
  have hcols : ir.cols = 1 := rfl
  rw [hrows, hcols] at *
  rw [hpk 1 _ one_pos hs, if_neg one_ne_zero]
  exact ⟨_, rfl, hnorm 1 _ one_pos hs⟩

/-- The hypotheses are met, for example by bands of equal gain and an impulse at sample 3 of 8. -/
example : ∃ out, combine (fun x r => x r / 2) (fun x r => x r / 2) true .off (fun _ _ => 3)
    (fun _ => ⟨8, 1, fun r _ => if r = 3 then 1 else 0⟩) ⟨8, 1, fun r _ => if r = 3 then 5 else 0⟩ = .ok (some out) :=
  let ⟨out, h, _⟩ := C86_combined_impulse (fun x r => x r / 2) (fun x r => x r / 2) (fun _ _ => by ring) true
    (fun _ _ => 3) (fun _ => ⟨8, 1, fun r _ => if r = 3 then 1 else 0⟩) 8 3 (by norm_num) 5 (by norm_num)
    (fun _ _ => by norm_num) (fun _ _ _ => rfl)
  ⟨out, h⟩

end Verif.CombineIR
