import Verif.Model.SegmentalSNR
import Verif.Lemmas.Framing
import Mathlib.Algebra.BigOperators.Group.List.Lemmas
import Mathlib.Algebra.Order.BigOperators.Group.List
import Mathlib.Algebra.BigOperators.Ring.List
import Mathlib.Tactic.FieldSimp
import Mathlib.Tactic.Positivity
import Mathlib.Tactic.NormNum
import Mathlib.Tactic.Linarith

/-!
# C116: frequency-weighted segmental SNR
-/

namespace Verif.SegmentalSNR

open Verif.SignalData (padTrim)
open Verif.Framing (numberFrames)

section sums
variable {M : Type} [AddCommMonoid M]

theorem foldl_none (l : List (Option M)) : l.foldl (Option.map₂ (· + ·)) none = none := by
  induction l with
  | nil => rfl
  | cons a l ih => rw [List.foldl_cons]; exact ih

theorem foldl_none_iff (l : List (Option M)) (a : M) :
    l.foldl (Option.map₂ (· + ·)) (some a) = none ↔ none ∈ l := by
  induction l generalizing a with
  | nil => simp
  | cons b l ih =>
    rw [List.foldl_cons]
    cases b with
    | none =>
      show l.foldl _ none = none ↔ _
      rw [foldl_none]
      simp
    | some b =>
      show l.foldl _ (some (a + b)) = none ↔ _
      rw [ih]
      simp

theorem foldl_some (l : List M) (a : M) :
    (l.map some).foldl (Option.map₂ (· + ·)) (some a) = some (a + l.sum) := by
  induction l generalizing a with
  | nil => simp
  | cons b l ih =>
    rw [List.map_cons, List.foldl_cons]
    show List.foldl _ (some (a + b)) _ = _
    rw [ih, List.sum_cons, add_assoc]

omit [AddCommMonoid M] in
theorem all_some (l : List (Option M)) (h : none ∉ l) : ∃ l' : List M, l = l'.map some := by
  induction l with
  | nil => exact ⟨[], rfl⟩
  | cons a l ih =>
    simp only [List.mem_cons, not_or] at h
    obtain ⟨l', hl⟩ := ih h.2
    cases a with
    | none => exact absurd rfl h.1
    | some a => exact ⟨a :: l', by rw [hl]; rfl⟩

end sums

/-! ### Range -/

theorem limit_coe (lo hi v : ℝ) : limit lo hi (some (v : WithTop ℝ)) =
    some (if hi < (if v < lo then lo else v) then hi else if v < lo then lo else v) := by
  unfold limit
  simp only [WithTop.coe_lt_coe]
  by_cases h : v < lo
  · simp only [h, if_true, WithTop.coe_lt_coe, WithTop.untopD_coe]
  · simp only [h, if_false, WithTop.coe_lt_coe, WithTop.untopD_coe]

theorem limit_top (lo hi : ℝ) : limit lo hi (some ⊤) = some hi := by
  unfold limit
  simp

theorem limit_mem (lo hi : ℝ) (h : lo ≤ hi) (v : Val) (r : ℝ) (hr : limit lo hi v = some r) :
    lo ≤ r ∧ r ≤ hi := by
  cases v with
  | none => cases hr
  | some v =>
    cases v with
    | top =>
      rw [limit_top] at hr
      rw [← Option.some.inj hr]
      exact ⟨h, le_rfl⟩
    | coe v =>
      rw [limit_coe] at hr
      have hr := Option.some.inj hr
      rw [← hr]
      split_ifs <;> constructor <;> linarith

theorem sum_bounds (lo hi : ℝ) (l : List ℝ) (h : ∀ v ∈ l, lo ≤ v ∧ v ≤ hi) :
    l.length * lo ≤ l.sum ∧ l.sum ≤ l.length * hi := by
  induction l with
  | nil => simp
  | cons a l ih =>
    have h1 := ih fun v hv => h v (by simp [hv])
    have h2 := h a (by simp)
    rw [List.sum_cons, List.length_cons]
    push_cast
    constructor <;> nlinarith

theorem numberFrames_true (W step L : ℕ) (hs : step ≠ 0) :
    numberFrames W step L true = .ok (((L + step - 1) / step : ℕ), (W : ℤ) - (L % step : ℕ)) := by
  unfold numberFrames
  rw [if_neg hs, if_pos rfl]
  obtain ⟨n, h1, h2, h3⟩ := Framing.ceilDiv_nat L step (by omega)
  rw [h1]
  have : n = (L + step - 1) / step := by
    symm
    apply Nat.div_eq_of_lt_le
    · rcases Nat.eq_zero_or_pos n with h | h
      · rw [h]; omega
      · have := h3 (n - 1) (by omega)
        obtain ⟨k, rfl⟩ : ∃ k, n = k + 1 := ⟨n - 1, by omega⟩
        rw [Nat.add_sub_cancel] at this
        rw [Nat.add_mul]
        omega
    · rw [Nat.add_mul]
      omega
  rw [this]

/-- Number of frames. -/
def frameCount (step L : ℕ) : ℕ := (L + step - 1) / step

/-- Length of the padded signals. -/
def paddedLength (W step L : ℕ) : ℕ := ((L : ℤ) + ((W : ℤ) - (L % step : ℕ))).toNat

theorem channelSnr_eq (lo hi γ : ℝ) (w : List ℝ) (step : ℕ) (bands : List (List ℝ × List ℝ)) (L : ℕ)
    (hs : step ≠ 0) (hL : L ≠ 0) :
    channelSnr lo hi γ w step bands L =
      .ok ((((List.range (frameCount step L)).map fun (m : ℕ) => limit lo hi (frameSnr γ w
        (bands.map fun b => (frame w.length step (paddedLength w.length step L) m b.1,
          frame w.length step (paddedLength w.length step L) m b.2)))).foldl
        (Option.map₂ (· + ·)) (some 0)).map fun v => v / (frameCount step L : ℤ)) := by
  have hpos : 0 < frameCount step L := Nat.div_pos (by omega) (by omega)
  unfold channelSnr
  rw [numberFrames_true _ _ _ hs]
  simp only
  rw [if_neg (by unfold frameCount at hpos; omega)]
  rfl

theorem channelSnr_range (lo hi γ : ℝ) (h : lo ≤ hi) (w : List ℝ) (step : ℕ)
    (bands : List (List ℝ × List ℝ)) (L : ℕ) (v : ℝ)
    (hv : channelSnr lo hi γ w step bands L = .ok (some v)) : lo ≤ v ∧ v ≤ hi := by
  by_cases hs : step = 0
  · unfold channelSnr numberFrames at hv
    rw [if_pos hs] at hv
    cases hv
  by_cases hL : L = 0
  · unfold channelSnr at hv
    rw [numberFrames_true _ _ _ hs] at hv
    have h0 : (L + step - 1) / step = 0 := Nat.div_eq_of_lt (by omega)
    simp only [h0] at hv
    cases hv
  have hpos : 0 < frameCount step L := Nat.div_pos (by omega) (by omega)
  rw [channelSnr_eq _ _ _ _ _ _ _ hs hL] at hv
  set l := (List.range (frameCount step L)).map fun (m : ℕ) => limit lo hi (frameSnr γ w
        (bands.map fun b => (frame w.length step (paddedLength w.length step L) m b.1,
          frame w.length step (paddedLength w.length step L) m b.2))) with hl
  have hv := Except.ok.inj hv
  have hn : none ∉ l := by
    intro hn
    rw [(foldl_none_iff l 0).mpr hn] at hv
    cases hv
  obtain ⟨l', hl'⟩ := all_some l hn
  rw [hl', foldl_some, zero_add] at hv
  have hv : l'.sum / ((frameCount step L : ℤ) : ℝ) = v := Option.some.inj hv
  have hlen : l'.length = frameCount step L := by
    have := congrArg List.length hl'
    simpa [hl] using this.symm
  have hb := sum_bounds lo hi l' fun u hu => by
    have : some u ∈ l := by rw [hl']; exact List.mem_map_of_mem hu
    rw [hl] at this
    obtain ⟨m, _, hm⟩ := List.mem_map.mp this
    exact limit_mem lo hi h _ u hm
  rw [hlen] at hb
  have hp : (0 : ℝ) < frameCount step L := by exact_mod_cast hpos
  rw [← hv]
  push_cast
  rw [le_div_iff₀ hp, div_le_iff₀ hp]
  constructor <;> linarith [hb.1, hb.2]

/-! ### Calls -/

theorem mapM_getD {α : Type} (f : ℕ → Except Err α) (n : ℕ) (l : List α) (d : α)
    (h : (List.range n).mapM f = .ok l) : l.length = n ∧ ∀ i < n, f i = .ok (l.getD i d) := by
  have key : ∀ (k : List ℕ) (l : List α), k.mapM f = .ok l →
      l.length = k.length ∧ ∀ i < k.length, f (k.getD i 0) = .ok (l.getD i d) := by
    intro k
    induction k with
    | nil => intro l h; cases h; simp
    | cons a k ih =>
      intro l h
      rw [List.mapM_cons] at h
      cases ha : f a with
      | error e => rw [ha] at h; cases h
      | ok b =>
        rw [ha] at h
        cases hk : k.mapM f with
        | error e => simp only [hk, bind, Except.bind] at h; cases h
        | ok l' =>
          simp only [hk, bind, Except.bind, pure, Except.pure] at h
          cases h
          obtain ⟨h1, h2⟩ := ih l' hk
          refine ⟨by simp [h1], fun i hi => ?_⟩
          cases i with
          | zero => simpa using ha
          | succ i => simpa using h2 i (by simpa using hi)
  obtain ⟨h1, h2⟩ := key _ l h
  rw [List.length_range] at h1 h2
  refine ⟨h1, fun i hi => ?_⟩
  have := h2 i hi
  rwa [List.getD_eq_getElem _ _ (by simpa using hi), List.getElem_range] at this

/-- The arguments `fw_snr_seg` accepts. -/
def Accepted (x y : Sig) (fRange : ℝ × ℝ) (γ : ℝ) : Prop :=
  x.rate = y.rate ∧ x.length = y.length ∧
    (x.channels.length = y.channels.length ∨ x.channels.length = 1) ∧
    max fRange.1 fRange.2 < (x.rate / 2 : ℕ) ∧ 0 < min fRange.1 fRange.2 ∧ 0.1 ≤ γ ∧ γ ≤ 2

/-- Channel of the original that belongs to channel `n` of the modified signal. -/
def original (x y : Sig) (n : ℕ) : List ℝ :=
  if x.channels.length ≠ y.channels.length then x.channels.getD 0 [] else x.channels.getD n []

/-- The bands of channel `n`. -/
def bandsOf (bank : List ℝ → List (List ℝ)) (x y : Sig) (n : ℕ) : List (List ℝ × List ℝ) :=
  (bank (original x y n)).zip (bank (y.channels.getD n []))

theorem call_eq (bank : List ℝ → List (List ℝ)) (x y : Sig) (fRange snrRange : ℝ × ℝ) (γ : ℝ)
    (h : Accepted x y fRange γ) :
    fwSnrSeg bank x y fRange snrRange γ = (List.range y.channels.length).mapM fun (n : ℕ) =>
      channelSnr (min snrRange.1 snrRange.2) (max snrRange.1 snrRange.2) γ
        (hamming (windowLength x.rate)) ((hamming (windowLength x.rate)).length / 2)
        (bandsOf bank x y n) x.length := by
  obtain ⟨h1, h2, h3, h4, h5, h6, h7⟩ := h
  unfold fwSnrSeg
  rw [if_neg (by simpa using h1), if_neg (by simpa using h2), if_neg (by tauto), if_neg (by simpa using h4),
    if_neg (by simpa using h5), if_neg (by tauto)]
  simp only
  congr 1
  funext n
  unfold bandsOf original
  congr 3
  split_ifs <;> rfl

/-- **C116 (arguments).** Anything else raises AssertionError. -/
theorem C116_refused (bank : List ℝ → List (List ℝ)) (x y : Sig) (fRange snrRange : ℝ × ℝ) (γ : ℝ)
    (h : ¬ Accepted x y fRange γ) :
    fwSnrSeg bank x y fRange snrRange γ = .error .assertionError := by
  unfold fwSnrSeg
  unfold Accepted at h
  by_cases h1 : x.rate ≠ y.rate
  · rw [if_pos h1]
  rw [if_neg h1]
  by_cases h2 : x.length ≠ y.length
  · rw [if_pos h2]
  rw [if_neg h2]
  by_cases h3 : x.channels.length ≠ y.channels.length ∧ x.channels.length ≠ 1
  · rw [if_pos h3]
  rw [if_neg h3]
  by_cases h4 : ¬ (max fRange.1 fRange.2 < (x.rate / 2 : ℕ))
  · rw [if_pos h4]
  rw [if_neg h4]
  by_cases h5 : ¬ (0 < min fRange.1 fRange.2)
  · rw [if_pos h5]
  rw [if_neg h5]
  by_cases h6 : ¬ (0.1 ≤ γ ∧ γ ≤ 2)
  · rw [if_pos h6]
  exfalso
  apply h
  push Not at h1 h2 h3 h4 h5 h6
  refine ⟨h1, h2, ?_, h4, h5, h6.1, h6.2⟩
  by_cases hc : x.channels.length = y.channels.length
  · exact Or.inl hc
  · exact Or.inr (h3 hc)

/-- **C116 (range).** Every value that is reported lies in the requested range, in whichever order
its limits are given. -/
theorem C116_range (bank : List ℝ → List (List ℝ)) (x y : Sig) (fRange snrRange : ℝ × ℝ) (γ : ℝ)
    (l : List (Option ℝ)) (h : fwSnrSeg bank x y fRange snrRange γ = .ok l) :
    l.length = y.channels.length ∧
    ∀ v, some v ∈ l → min snrRange.1 snrRange.2 ≤ v ∧ v ≤ max snrRange.1 snrRange.2 := by
  by_cases ha : Accepted x y fRange γ
  · rw [call_eq bank x y fRange snrRange γ ha] at h
    obtain ⟨h1, h2⟩ := mapM_getD _ _ l none h
    refine ⟨h1, fun v hv => ?_⟩
    obtain ⟨i, hi, he⟩ := List.mem_iff_getElem.mp hv
    have := h2 i (by omega)
    rw [List.getD_eq_getElem _ _ hi, he] at this
    exact channelSnr_range _ _ γ min_le_max _ _ _ _ v this
  · rw [C116_refused bank x y fRange snrRange γ ha] at h
    cases h

/-! ### Levels -/

theorem getD_scale (x : List ℝ) (a : ℝ) (n : ℕ) : (x.map (· * a)).getD n 0 = x.getD n 0 * a := by
  by_cases h : n < x.length
  · rw [List.getD_eq_getElem _ _ (by simpa using h), List.getD_eq_getElem _ _ h, List.getElem_map]
  · rw [List.getD_eq_default _ _ (by simpa using h), List.getD_eq_default _ _ (by omega), zero_mul]

theorem magnitude_scale (w x : List ℝ) (a : ℝ) (k : ℕ) :
    magnitude w (x.map (· * a)) k = |a| * magnitude w x k := by
  unfold magnitude
  rw [← Real.norm_eq_abs, ← Complex.norm_real, ← norm_mul]
  congr 1
  unfold DFT.rfft DFT.dft
  rw [Finset.mul_sum]
  refine Finset.sum_congr rfl fun n _ => ?_
  beta_reduce
  rw [getD_scale]
  push_cast
  ring

theorem total_scale (w x : List ℝ) (a : ℝ) : total w (x.map (· * a)) = |a| * total w x := by
  unfold total
  rw [← List.sum_map_mul_left]
  simp only [magnitude_scale]

theorem magnitude_nonneg (w x : List ℝ) (k : ℕ) : 0 ≤ magnitude w x k := norm_nonneg _

theorem term_scale (γ : ℝ) (w x y : List ℝ) (a b : ℝ) (ha : a ≠ 0) (hb : b ≠ 0) (k : ℕ) :
    term γ w (x.map (· * a)) (y.map (· * b)) k =
      (term γ w x y k).map (WithTop.map fun v => |a| ^ γ * v) := by
  have ha' : |a| ≠ 0 := abs_ne_zero.mpr ha
  have hb' : |b| ≠ 0 := abs_ne_zero.mpr hb
  unfold term
  simp only [magnitude_scale, total_scale, mul_eq_zero, ha', hb', false_or]
  by_cases h : total w x = 0 ∨ total w y = 0 ∨ magnitude w x k = 0
  · rw [if_pos h, if_pos h]; rfl
  · rw [if_neg h, if_neg h, mul_div_mul_left _ _ ha', mul_div_mul_left _ _ hb']
    split_ifs with h2
    · rfl
    · rw [Real.mul_rpow (abs_nonneg a) (magnitude_nonneg w x k)]
      simp only [Option.map_some, WithTop.map_coe]
      congr 2
      ring

theorem fold_scale (c : ℝ) (l : List Val) :
    (l.map (Option.map (WithTop.map fun v => c * v))).foldl add (some 0) =
      (l.foldl add (some 0)).map (WithTop.map fun v => c * v) := by
  have key : ∀ (l : List Val) (s : Val),
      (l.map (Option.map (WithTop.map fun v => c * v))).foldl add (s.map (WithTop.map fun v => c * v)) =
      (l.foldl add s).map (WithTop.map fun v => c * v) := by
    intro l
    induction l with
    | nil => intro s; rfl
    | cons a l ih =>
      intro s
      rw [List.map_cons, List.foldl_cons, List.foldl_cons, ← ih]
      congr 1
      cases s with
      | none => rfl
      | some s =>
        cases a with
        | none => rfl
        | some a =>
          show some _ = some _
          congr 1
          cases s with
          | top => rfl
          | coe s =>
            cases a with
            | top => rfl
            | coe a =>
              show ((_ : ℝ) : WithTop ℝ) = ((_ : ℝ) : WithTop ℝ)
              beta_reduce
              rw [mul_add]
  have := key l (some 0)
  rw [← this]
  congr 1
  show some ((0 : ℝ) : WithTop ℝ) = some ((c * 0 : ℝ) : WithTop ℝ)
  rw [mul_zero]

theorem binSnr_scale (γ : ℝ) (w : List ℝ) (bands : List (List ℝ × List ℝ)) (a b : ℝ) (ha : a ≠ 0)
    (hb : b ≠ 0) (k : ℕ) :
    binSnr γ w (bands.map fun p => (p.1.map (· * a), p.2.map (· * b))) k = binSnr γ w bands k := by
  have hc : |a| ^ γ ≠ 0 := (Real.rpow_pos_of_pos (abs_pos.mpr ha) γ).ne'
  have hw : weight γ w (bands.map fun p => (p.1.map (· * a), p.2.map (· * b))) k =
      |a| ^ γ * weight γ w bands k := by
    unfold weight
    rw [List.map_map, ← List.sum_map_mul_left]
    congr 1
    refine List.map_congr_left fun p _ => ?_
    simp only [Function.comp]
    rw [magnitude_scale, Real.mul_rpow (abs_nonneg a) (magnitude_nonneg _ _ _)]
  unfold binSnr
  rw [hw, List.map_map]
  have h1 : (bands.map ((fun b => term γ w b.1 b.2 k) ∘
      fun p => (p.1.map (· * a), p.2.map (· * b)))) =
      (bands.map fun b => term γ w b.1 b.2 k).map (Option.map (WithTop.map fun v => |a| ^ γ * v)) := by
    rw [List.map_map]
    refine List.map_congr_left fun p _ => ?_
    exact term_scale γ w p.1 p.2 a b ha hb k
  rw [h1, fold_scale, Option.map_map]
  congr 1
  funext v
  cases v with
  | top => rfl
  | coe v =>
    show ((_ : ℝ) : WithTop ℝ) = ((_ : ℝ) : WithTop ℝ)
    congr 1
    beta_reduce
    rw [show (10 : ℝ) * (|a| ^ γ * v) = |a| ^ γ * (10 * v) by ring, mul_div_mul_left _ _ hc]

theorem padTrim_scale (x : List ℝ) (n : ℕ) (a : ℝ) :
    padTrim (x.map (· * a)) n true = (padTrim x n true).map (· * a) := by
  unfold padTrim
  simp only [List.length_map, if_true]
  split_ifs <;> simp [List.map_take]

theorem frame_scale (W step len m : ℕ) (x : List ℝ) (a : ℝ) :
    frame W step len m (x.map (· * a)) = (frame W step len m x).map (· * a) := by
  unfold frame
  rw [padTrim_scale, List.map_take, List.map_drop]

theorem channelSnr_scale (lo hi γ : ℝ) (w : List ℝ) (step : ℕ) (bands : List (List ℝ × List ℝ))
    (L : ℕ) (a b : ℝ) (ha : a ≠ 0) (hb : b ≠ 0) :
    channelSnr lo hi γ w step (bands.map fun p => (p.1.map (· * a), p.2.map (· * b))) L =
      channelSnr lo hi γ w step bands L := by
  have hf : ∀ len m, frameSnr γ w ((bands.map fun p => (p.1.map (· * a), p.2.map (· * b))).map
      fun p => (frame w.length step len m p.1, frame w.length step len m p.2)) =
      frameSnr γ w (bands.map fun p => (frame w.length step len m p.1, frame w.length step len m p.2)) := by
    intro len m
    have : (bands.map fun p => (p.1.map (· * a), p.2.map (· * b))).map
        (fun p => (frame w.length step len m p.1, frame w.length step len m p.2)) =
        (bands.map fun p => (frame w.length step len m p.1, frame w.length step len m p.2)).map
          fun p => (p.1.map (· * a), p.2.map (· * b)) := by
      rw [List.map_map, List.map_map]
      refine List.map_congr_left fun p _ => ?_
      simp only [Function.comp, frame_scale]
    rw [this]
    unfold frameSnr
    congr 2
    refine List.map_congr_left fun k _ => ?_
    exact binSnr_scale γ w _ a b ha hb k
  unfold channelSnr
  simp only [hf]

/-- A signal with gain `a`. -/
def amplified (x : Sig) (a : ℝ) : Sig := ⟨x.rate, x.length, x.channels.map fun c => c.map (· * a)⟩

/-- **C116 (levels).** For a homogeneous filter bank the value depends neither on the levels of the
signals nor on their polarity. -/
theorem C116_gain (bank : List ℝ → List (List ℝ))
    (hb : ∀ x a, bank (x.map (· * a)) = (bank x).map fun c => c.map (· * a))
    (x y : Sig) (fRange snrRange : ℝ × ℝ) (γ a b : ℝ) (ha : a ≠ 0) (hb0 : b ≠ 0) :
    fwSnrSeg bank (amplified x a) (amplified y b) fRange snrRange γ =
      fwSnrSeg bank x y fRange snrRange γ := by
  have hacc : Accepted (amplified x a) (amplified y b) fRange γ ↔ Accepted x y fRange γ := by
    simp [Accepted, amplified]
  by_cases h : Accepted x y fRange γ
  · rw [call_eq bank _ _ _ _ _ (hacc.mpr h), call_eq bank _ _ _ _ _ h]
    have hl : (amplified y b).channels.length = y.channels.length := by simp [amplified]
    rw [hl]
    congr 1
    funext n
    show channelSnr _ _ _ (hamming (windowLength x.rate)) _ _ x.length = _
    rw [← channelSnr_scale _ _ γ _ _ (bandsOf bank x y n) x.length a b ha hb0]
    congr 1
    have hg : ∀ (l : List (List ℝ)) (c : ℝ) (i : ℕ),
        (l.map fun v => v.map (· * c)).getD i [] = (l.getD i []).map (· * c) := by
      intro l c i
      by_cases hi : i < l.length
      · rw [List.getD_eq_getElem _ _ (by simpa using hi), List.getD_eq_getElem _ _ hi, List.getElem_map]
      · rw [List.getD_eq_default _ _ (by simpa using hi), List.getD_eq_default _ _ (by omega)]
        rfl
    have ho : original (amplified x a) (amplified y b) n = (original x y n).map (· * a) := by
      unfold original amplified
      simp only [List.length_map, hg]
      split_ifs <;> rfl
    unfold bandsOf
    rw [ho, hb]
    have : (amplified y b).channels.getD n [] = (y.channels.getD n []).map (· * b) := hg _ _ _
    rw [this, hb, List.zip_map]
    rfl
  · rw [C116_refused bank _ _ _ _ _ h, C116_refused bank _ _ _ _ _ (fun h1 => h (hacc.mp h1))]

/-! ### nan -/

theorem map_none {α β : Type} (f : α → β) (v : Option α) : v.map f = none ↔ v = none := by
  cases v <;> simp

theorem term_none (γ : ℝ) (w x y : List ℝ) (k : ℕ) :
    term γ w x y k = none ↔ total w x = 0 ∨ total w y = 0 ∨ magnitude w x k = 0 := by
  unfold term
  constructor
  · intro h
    by_contra h0
    rw [if_neg h0] at h
    simp only at h
    split_ifs at h
  · intro h
    rw [if_pos h]

theorem binSnr_none (γ : ℝ) (w : List ℝ) (bands : List (List ℝ × List ℝ)) (k : ℕ) :
    binSnr γ w bands k = none ↔ ∃ b ∈ bands, term γ w b.1 b.2 k = none := by
  unfold binSnr
  rw [map_none]
  show List.foldl (Option.map₂ (· + ·)) (some 0) _ = none ↔ _
  rw [foldl_none_iff]
  simp

theorem frameSnr_none (γ : ℝ) (w : List ℝ) (bands : List (List ℝ × List ℝ)) :
    frameSnr γ w bands = none ↔ ∃ k ≤ w.length / 2, ∃ b ∈ bands, term γ w b.1 b.2 k = none := by
  unfold frameSnr
  rw [map_none]
  show List.foldl (Option.map₂ (· + ·)) (some 0) _ = none ↔ _
  rw [foldl_none_iff]
  simp only [List.mem_map, List.mem_range, binSnr_none]
  constructor
  · rintro ⟨k, hk, h⟩; exact ⟨k, by omega, h⟩
  · rintro ⟨k, hk, h⟩; exact ⟨k, by omega, h⟩

theorem limit_none (lo hi : ℝ) (v : Val) : limit lo hi v = none ↔ v = none := by
  cases v with
  | none => simp [limit]
  | some v => simp [limit]

theorem channelSnr_none (lo hi γ : ℝ) (w : List ℝ) (step : ℕ) (bands : List (List ℝ × List ℝ)) (L : ℕ)
    (hs : step ≠ 0) (hL : L ≠ 0) :
    channelSnr lo hi γ w step bands L = .ok none ↔
      ∃ m < frameCount step L, ∃ k ≤ w.length / 2, ∃ b ∈ bands,
        total w (frame w.length step (paddedLength w.length step L) m b.1) = 0 ∨
        total w (frame w.length step (paddedLength w.length step L) m b.2) = 0 ∨
        magnitude w (frame w.length step (paddedLength w.length step L) m b.1) k = 0 := by
  rw [channelSnr_eq _ _ _ _ _ _ _ hs hL]
  rw [Except.ok.injEq, map_none, foldl_none_iff]
  simp only [List.mem_map, List.mem_range, limit_none, frameSnr_none, term_none, exists_exists_and_eq_and]

theorem hamming_length (N : ℕ) : (hamming N).length = N := by simp [hamming]

theorem channels_value (bank : List ℝ → List (List ℝ)) (x y : Sig) (fRange snrRange : ℝ × ℝ) (γ : ℝ)
    (l : List (Option ℝ)) (h : fwSnrSeg bank x y fRange snrRange γ = .ok l) (n : ℕ)
    (hn : n < y.channels.length) :
    channelSnr (min snrRange.1 snrRange.2) (max snrRange.1 snrRange.2) γ
        (hamming (windowLength x.rate)) (windowLength x.rate / 2)
        (bandsOf bank x y n) x.length = .ok (l.getD n none) := by
  by_cases ha : Accepted x y fRange γ
  · rw [call_eq bank x y fRange snrRange γ ha] at h
    have := (mapM_getD _ _ l none h).2 n hn
    rwa [hamming_length] at this
  · rw [C116_refused bank x y fRange snrRange γ ha] at h
    cases h

/-- **C116 (channels).** The value of a channel is that of the single channels; a single original
is compared with all channels. -/
theorem C116_channels (bank : List ℝ → List (List ℝ)) (x y : Sig) (fRange snrRange : ℝ × ℝ) (γ : ℝ)
    (l : List (Option ℝ)) (h : fwSnrSeg bank x y fRange snrRange γ = .ok l) (n : ℕ)
    (hn : n < y.channels.length) :
    fwSnrSeg bank ⟨x.rate, x.length, [x.channels.getD (if x.channels.length = 1 then 0 else n) []]⟩
      ⟨y.rate, y.length, [y.channels.getD n []]⟩ fRange snrRange γ = .ok [l.getD n none] := by
  have ha : Accepted x y fRange γ := by
    by_contra ha
    rw [C116_refused bank x y fRange snrRange γ ha] at h
    cases h
  have hv := channels_value bank x y fRange snrRange γ l h n hn
  have ha' : Accepted ⟨x.rate, x.length, [x.channels.getD (if x.channels.length = 1 then 0 else n) []]⟩
      ⟨y.rate, y.length, [y.channels.getD n []]⟩ fRange γ := by
    obtain ⟨h1, h2, h3, h4⟩ := ha
    exact ⟨h1, h2, Or.inl rfl, h4⟩
  rw [call_eq bank _ _ _ _ _ ha']
  have hb : bandsOf bank ⟨x.rate, x.length, [x.channels.getD (if x.channels.length = 1 then 0 else n) []]⟩
      ⟨y.rate, y.length, [y.channels.getD n []]⟩ 0 = bandsOf bank x y n := by
    unfold bandsOf original
    simp only [List.length_cons, List.length_nil, List.getD_cons_zero]
    rw [if_neg (by simp)]
    congr 2
    by_cases h1 : x.channels.length = 1
    · rw [if_pos h1]
      split_ifs with h2
      · rfl
      · have : n = 0 := by omega
        rw [this]
    · rw [if_neg h1]
      have := ha.2.2.1.resolve_right h1
      rw [if_neg (by simpa using this)]
  show List.mapM _ (List.range 1) = _
  rw [List.range_one, List.mapM_cons, hb, hamming_length, hv]
  rfl

/-- **C116 (silence), negation of "every accepted call returns numbers".**  The value of a channel
is `nan` exactly if some frame of 75 ms of one of its bands, of the original or of the modified
signal, has an empty spectrum, or a bin of the original vanishes. -/
theorem C116_nan (bank : List ℝ → List (List ℝ)) (x y : Sig) (fRange snrRange : ℝ × ℝ) (γ : ℝ)
    (l : List (Option ℝ)) (h : fwSnrSeg bank x y fRange snrRange γ = .ok l) (n : ℕ)
    (hn : n < y.channels.length) (hw : 2 ≤ windowLength x.rate) (hL : x.length ≠ 0) :
    l.getD n none = none ↔
      ∃ m < frameCount (windowLength x.rate / 2) x.length, ∃ k ≤ windowLength x.rate / 2,
        ∃ b ∈ bandsOf bank x y n,
          let f := frame (windowLength x.rate) (windowLength x.rate / 2)
            (paddedLength (windowLength x.rate) (windowLength x.rate / 2) x.length) m
          total (hamming (windowLength x.rate)) (f b.1) = 0 ∨
          total (hamming (windowLength x.rate)) (f b.2) = 0 ∨
          magnitude (hamming (windowLength x.rate)) (f b.1) k = 0 := by
  have hv := channels_value bank x y fRange snrRange γ l h n hn
  have := channelSnr_none (min snrRange.1 snrRange.2) (max snrRange.1 snrRange.2) γ
    (hamming (windowLength x.rate)) (windowLength x.rate / 2) (bandsOf bank x y n) x.length
    (by omega) hL
  rw [hv, Except.ok.injEq, hamming_length] at this
  exact this

theorem magnitude_zero (w x : List ℝ) (hx : ∀ v ∈ x, v = 0) (k : ℕ) : magnitude w x k = 0 := by
  unfold magnitude DFT.rfft DFT.dft
  rw [norm_eq_zero]
  refine Finset.sum_eq_zero fun n _ => ?_
  have : x.getD n 0 = 0 := by
    by_cases h : n < x.length
    · rw [List.getD_eq_getElem _ _ h]; exact hx _ (List.getElem_mem h)
    · rw [List.getD_eq_default _ _ (by omega)]
  beta_reduce
  rw [this]
  simp

/-- In particular one silent frame of one band makes the value of the channel `nan`. -/
theorem C116_silent_frame (bank : List ℝ → List (List ℝ)) (x y : Sig) (fRange snrRange : ℝ × ℝ) (γ : ℝ)
    (l : List (Option ℝ)) (h : fwSnrSeg bank x y fRange snrRange γ = .ok l) (n : ℕ)
    (hn : n < y.channels.length) (hw : 2 ≤ windowLength x.rate) (hL : x.length ≠ 0) (m : ℕ)
    (hm : m < frameCount (windowLength x.rate / 2) x.length) (b : List ℝ × List ℝ)
    (hb : b ∈ bandsOf bank x y n)
    (hs : (∀ i, m * (windowLength x.rate / 2) ≤ i →
        i < m * (windowLength x.rate / 2) + windowLength x.rate → b.1.getD i 0 = 0) ∨
      ∀ i, m * (windowLength x.rate / 2) ≤ i →
        i < m * (windowLength x.rate / 2) + windowLength x.rate → b.2.getD i 0 = 0) :
    l.getD n none = none := by
  have hz : ∀ (W step len : ℕ) (c : List ℝ), (∀ i, m * step ≤ i → i < m * step + W → c.getD i 0 = 0) →
      ∀ v ∈ frame W step len m c, v = 0 := by
    intro W step len c hc v hv
    unfold frame at hv
    obtain ⟨i, hi, he⟩ := List.mem_iff_getElem.mp hv
    rw [List.length_take, List.length_drop, SignalData.padTrim_length] at hi
    rw [List.getElem_take, List.getElem_drop] at he
    have h1 := SignalData.padTrim_end c len (m * step + i) (by omega)
    rw [List.getD_eq_getElem _ _ (by rw [SignalData.padTrim_length]; omega), he] at h1
    rw [h1]
    exact hc _ (by omega) (by omega)
  have ht : ∀ (w c : List ℝ), (∀ v ∈ c, v = 0) → total w c = 0 := by
    intro w c hc
    unfold total
    refine List.sum_eq_zero fun v hv => ?_
    obtain ⟨k, _, rfl⟩ := List.mem_map.mp hv
    exact magnitude_zero w c hc k
  rw [C116_nan bank x y fRange snrRange γ l h n hn hw hL]
  refine ⟨m, hm, 0, Nat.zero_le _, b, hb, ?_⟩
  simp only
  rcases hs with hs | hs
  · exact Or.inl (ht _ _ (hz _ _ _ _ hs))
  · exact Or.inr (Or.inl (ht _ _ (hz _ _ _ _ hs)))

/-! ### Identical signals -/

theorem total_pos (w x : List ℝ) (k : ℕ) (hk : k ≤ w.length / 2) (h : 0 < magnitude w x k) :
    0 < total w x := by
  unfold total
  have h1 : magnitude w x k ∈ (List.range (w.length / 2 + 1)).map fun (k : ℕ) => magnitude w x k :=
    List.mem_map.mpr ⟨k, List.mem_range.mpr (by omega), rfl⟩
  refine lt_of_lt_of_le h (List.single_le_sum (fun v hv => ?_) _ h1)
  obtain ⟨j, _, rfl⟩ := List.mem_map.mp hv
  exact magnitude_nonneg w x j

/-- Every bin of the frame carries at least the fraction `δ` of the sum of the magnitudes. -/
def Occupied (w x : List ℝ) (δ : ℝ) : Prop :=
  ∀ k ≤ w.length / 2, 0 < magnitude w x k ∧ δ * total w x ≤ magnitude w x k

theorem term_same (γ δ : ℝ) (hδ : 0 < δ) (w x : List ℝ) (h : Occupied w x δ) (k : ℕ)
    (hk : k ≤ w.length / 2) :
    ∃ v : ℝ, term γ w x x k = some (v : WithTop ℝ) ∧
      (60 + 2 * Real.logb 10 δ) * magnitude w x k ^ γ ≤ v := by
  obtain ⟨h1, h2⟩ := h k hk
  have ht := total_pos w x k hk h1
  have ha : δ ≤ magnitude w x k / total w x := by rwa [le_div_iff₀ ht]
  unfold term
  rw [if_neg (by push Not; exact ⟨ht.ne', ht.ne', h1.ne'⟩)]
  simp only [sub_self, zero_add]
  rw [if_neg (by norm_num)]
  refine ⟨_, rfl, ?_⟩
  refine mul_le_mul_of_nonneg_right ?_ (Real.rpow_nonneg h1.le γ)
  have ha0 : 0 < magnitude w x k / total w x := lt_of_lt_of_le hδ ha
  rw [Real.logb_div (pow_ne_zero 2 ha0.ne') (by norm_num), Real.logb_pow, Real.logb_pow]
  have h3 : Real.logb 10 (1e-30 : ℝ) = -30 := by
    rw [show (1e-30 : ℝ) = 10 ^ (-30 : ℝ) by
      rw [Real.rpow_neg (by norm_num)]; norm_num]
    exact Real.logb_rpow (by norm_num) (by norm_num)
  rw [h3]
  have := Real.logb_le_logb_of_le (b := 10) (by norm_num) hδ ha
  push_cast
  linarith

theorem frameSnr_same (γ δ : ℝ) (hδ : 0 < δ) (w : List ℝ) (bands : List (List ℝ)) (hb : bands ≠ [])
    (h : ∀ x ∈ bands, Occupied w x δ) :
    ∃ v : ℝ, frameSnr γ w (bands.map fun x => (x, x)) = some (v : WithTop ℝ) ∧
      10 * (60 + 2 * Real.logb 10 δ) ≤ v := by
  set T := 60 + 2 * Real.logb 10 δ with hT
  have hbin : ∀ k ≤ w.length / 2, ∃ v : ℝ, binSnr γ w (bands.map fun x => (x, x)) k =
      some (v : WithTop ℝ) ∧ 10 * T ≤ v := by
    intro k hk
    have key : ∀ l : List (List ℝ), (∀ x ∈ l, Occupied w x δ) →
        ∃ vs : List ℝ, l.map (fun x => term γ w x x k) = (vs.map fun (v : ℝ) => (v : WithTop ℝ)).map some ∧
          T * (l.map fun x => magnitude w x k ^ γ).sum ≤ vs.sum := by
      intro l
      induction l with
      | nil => intro _; exact ⟨[], rfl, by simp⟩
      | cons x l ih =>
        intro hl
        obtain ⟨vs, h1, h2⟩ := ih fun y hy => hl y (by simp [hy])
        obtain ⟨v, h3, h4⟩ := term_same γ δ hδ w x (hl x (by simp)) k hk
        refine ⟨v :: vs, ?_, ?_⟩
        · rw [List.map_cons, h1, h3]; rfl
        · rw [List.map_cons, List.sum_cons, List.sum_cons, mul_add]
          exact add_le_add h4 h2
    obtain ⟨vs, h1, h2⟩ := key bands h
    have hw : weight γ w (bands.map fun x => (x, x)) k = (bands.map fun x => magnitude w x k ^ γ).sum := by
      unfold weight
      rw [List.map_map]
      rfl
    have hpos : 0 < (bands.map fun x => magnitude w x k ^ γ).sum := by
      refine List.sum_pos _ (fun v hv => ?_) (by simpa using hb)
      obtain ⟨x, hx, rfl⟩ := List.mem_map.mp hv
      exact Real.rpow_pos_of_pos ((h x hx) k hk).1 γ
    have hsum : ((vs.map fun (v : ℝ) => (v : WithTop ℝ)).sum) = ((vs.sum : ℝ) : WithTop ℝ) := by
      clear h1 h2
      induction vs with
      | nil => rfl
      | cons v vs ih => rw [List.map_cons, List.sum_cons, List.sum_cons, ih]; rfl
    refine ⟨10 * vs.sum / (bands.map fun x => magnitude w x k ^ γ).sum, ?_, ?_⟩
    · unfold binSnr
      rw [hw, List.map_map]
      have : (bands.map ((fun b => term γ w b.1 b.2 k) ∘ fun x => (x, x))) =
          (vs.map fun (v : ℝ) => (v : WithTop ℝ)).map some := h1
      rw [this]
      show Option.map _ (List.foldl (Option.map₂ (· + ·)) (some 0) _) = _
      rw [foldl_some, zero_add, hsum]
      rfl
    · rw [le_div_iff₀ hpos]
      linarith
  choose! g hg1 hg2 using hbin
  have hm : (List.range (w.length / 2 + 1)).map (fun (k : ℕ) => binSnr γ w (bands.map fun x => (x, x)) k) =
      ((List.range (w.length / 2 + 1)).map fun (k : ℕ) => ((g k : ℝ) : WithTop ℝ)).map some := by
    rw [List.map_map]
    refine List.map_congr_left fun k hk => ?_
    exact hg1 k (by have := List.mem_range.mp hk; omega)
  have hsum : ∀ l : List ℕ, (l.map fun (k : ℕ) => ((g k : ℝ) : WithTop ℝ)).sum =
      (((l.map g).sum : ℝ) : WithTop ℝ) := by
    intro l
    induction l with
    | nil => rfl
    | cons v vs ih => rw [List.map_cons, List.sum_cons, List.map_cons, List.sum_cons, ih]; rfl
  refine ⟨((List.range (w.length / 2 + 1)).map g).sum / (w.length / 2 + 1 : ℕ), ?_, ?_⟩
  · unfold frameSnr
    rw [hm]
    show Option.map _ (List.foldl (Option.map₂ (· + ·)) (some 0) _) = _
    rw [foldl_some, zero_add, hsum]
    rfl
  · rw [le_div_iff₀ (by positivity)]
    have : ∀ n ≤ w.length / 2 + 1, 10 * T * n ≤ ((List.range n).map g).sum := by
      intro n
      induction n with
      | zero => intro _; simp
      | succ n ih =>
        intro hn
        rw [List.range_succ, List.map_append, List.sum_append]
        have h1 := ih (by omega)
        have h2 := hg2 n (by omega)
        simp only [List.map_cons, List.map_nil, List.sum_cons, List.sum_nil, add_zero]
        push_cast
        linarith
    exact this _ le_rfl

theorem limit_high (lo hi v : ℝ) (h : lo ≤ hi) (hv : hi ≤ v) : limit lo hi (some (v : WithTop ℝ)) = some hi := by
  have h0 : ¬ v < lo := by linarith
  rw [limit_coe]
  simp only [h0, if_false]
  split_ifs with h1
  · rfl
  · rw [le_antisymm (not_lt.mp h1) hv]

theorem channelSnr_same (lo hi γ δ : ℝ) (hlh : lo ≤ hi) (hδ : 0 < δ) (w : List ℝ) (step : ℕ)
    (bands : List (List ℝ)) (L : ℕ) (hs : step ≠ 0) (hL : L ≠ 0) (hb : bands ≠ [])
    (hhi : hi ≤ 10 * (60 + 2 * Real.logb 10 δ))
    (h : ∀ m < frameCount step L, ∀ x ∈ bands,
      Occupied w (frame w.length step (paddedLength w.length step L) m x) δ) :
    channelSnr lo hi γ w step (bands.map fun x => (x, x)) L = .ok (some hi) := by
  rw [channelSnr_eq _ _ _ _ _ _ _ hs hL]
  have hpos : 0 < frameCount step L := Nat.div_pos (by omega) (by omega)
  have hf : (List.range (frameCount step L)).map (fun (m : ℕ) => limit lo hi (frameSnr γ w
        ((bands.map fun x => (x, x)).map fun b => (frame w.length step (paddedLength w.length step L) m b.1,
          frame w.length step (paddedLength w.length step L) m b.2)))) =
      (List.replicate (frameCount step L) hi).map some := by
    rw [List.map_replicate, List.eq_replicate_iff]
    refine ⟨by simp, fun v hv => ?_⟩
    obtain ⟨m, hm, rfl⟩ := List.mem_map.mp hv
    have hm := List.mem_range.mp hm
    obtain ⟨v, h1, h2⟩ := frameSnr_same γ δ hδ w
      (bands.map (frame w.length step (paddedLength w.length step L) m)) (by simpa using hb)
      (fun x hx => by
        obtain ⟨y, hy, rfl⟩ := List.mem_map.mp hx
        exact h m hm y hy)
    have he : ((bands.map fun x => (x, x)).map fun b =>
        (frame w.length step (paddedLength w.length step L) m b.1,
          frame w.length step (paddedLength w.length step L) m b.2)) =
        (bands.map (frame w.length step (paddedLength w.length step L) m)).map fun x => (x, x) := by
      rw [List.map_map, List.map_map]
      rfl
    rw [he, h1]
    exact limit_high lo hi v hlh (hhi.trans h2)
  rw [hf, foldl_some, zero_add, List.sum_replicate]
  show Except.ok (some _) = _
  congr 2
  have : (frameCount step L : ℝ) ≠ 0 := by exact_mod_cast hpos.ne'
  rw [nsmul_eq_mul]
  push_cast
  field_simp

/-- **C116 (identical signals).** A signal compared with itself, amplified or inverted, is given the
upper limit of the range if no bin of its bands falls too far below the others. -/
theorem C116_identical (bank : List ℝ → List (List ℝ))
    (hb : ∀ x a, bank (x.map (· * a)) = (bank x).map fun c => c.map (· * a))
    (x : Sig) (a : ℝ) (ha : a ≠ 0) (fRange snrRange : ℝ × ℝ) (γ δ : ℝ) (hδ : 0 < δ)
    (hacc : Accepted x x fRange γ) (hw : 2 ≤ windowLength x.rate) (hL : x.length ≠ 0)
    (hne : ∀ c ∈ x.channels, bank c ≠ [])
    (hhi : max snrRange.1 snrRange.2 ≤ 10 * (60 + 2 * Real.logb 10 δ))
    (ho : ∀ c ∈ x.channels, ∀ u ∈ bank c, ∀ m < frameCount (windowLength x.rate / 2) x.length,
      Occupied (hamming (windowLength x.rate))
        (frame (windowLength x.rate) (windowLength x.rate / 2)
          (paddedLength (windowLength x.rate) (windowLength x.rate / 2) x.length) m u) δ) :
    fwSnrSeg bank x (amplified x a) fRange snrRange γ =
      .ok (x.channels.map fun _ => some (max snrRange.1 snrRange.2)) := by
  have h1 : amplified x 1 = x := by
    cases x
    simp [amplified]
  have h2 := C116_gain bank hb x x fRange snrRange γ 1 a one_ne_zero ha
  rw [h1] at h2
  rw [h2, call_eq bank x x fRange snrRange γ hacc,
    Framing.mapM_ok _ (fun _ => some (max snrRange.1 snrRange.2)) _ fun n hn => ?_]
  · congr 1
    apply List.ext_getElem
    · simp
    · intro i _ _; simp
  · have hn := List.mem_range.mp hn
    have hmem : x.channels.getD n [] ∈ x.channels := by
      rw [List.getD_eq_getElem _ _ hn]; exact List.getElem_mem hn
    have hbands : bandsOf bank x x n = (bank (x.channels.getD n [])).map fun u => (u, u) := by
      unfold bandsOf original
      rw [if_neg (by simp)]
      rw [← List.map_id (bank (x.channels.getD n [])), List.zip_map_left]
      simp [List.zip, List.zipWith_self]
    rw [hbands, hamming_length]
    refine channelSnr_same _ _ γ δ min_le_max hδ _ _ _ _ (by omega) hL (hne _ hmem) hhi ?_
    rw [hamming_length]
    intro m hm u hu
    exact ho _ hmem u hu m hm

/-! ### A case that meets the hypotheses: a click -/

/-- A click at a sampling rate of 40 Hz. -/
def click : Sig := ⟨40, 2, [[1, 0]]⟩

theorem click_frame (m : ℕ) (hm : m < frameCount (windowLength click.rate / 2) click.length) :
    frame (windowLength click.rate) (windowLength click.rate / 2)
      (paddedLength (windowLength click.rate) (windowLength click.rate / 2) click.length) m [1, 0] =
      [1, 0, 0, 0] := by
  have h : frameCount (windowLength click.rate / 2) click.length = 1 := by decide
  rw [h] at hm
  have hm : m = 0 := by omega
  subst hm
  have h1 : windowLength click.rate = 4 := by decide
  have h2 : paddedLength (windowLength click.rate) (windowLength click.rate / 2) click.length = 6 := by
    decide
  rw [h2, h1]
  simp [frame, padTrim]

theorem click_magnitude (k : ℕ) : magnitude (hamming 4) [1, 0, 0, 0] k = 0.08 := by
  unfold magnitude DFT.rfft DFT.dft
  rw [hamming_length, Finset.sum_range_succ', Finset.sum_eq_zero]
  · simp [hamming, DFT.e, List.range_succ]
    norm_num
  · intro i hi
    have hi := Finset.mem_range.mp hi
    have : ([1, 0, 0, 0] : List ℝ).getD (i + 1) 0 = 0 := by
      have : i = 0 ∨ i = 1 ∨ i = 2 := by omega
      rcases this with rfl | rfl | rfl <;> rfl
    beta_reduce
    rw [this]
    simp

theorem click_occupied : Occupied (hamming 4) [1, 0, 0, 0] (1 / 3) := by
  intro k _
  have ht : total (hamming 4) [1, 0, 0, 0] = 0.24 := by
    unfold total
    simp only [click_magnitude, hamming_length]
    norm_num [List.range_succ]
  rw [click_magnitude, ht]
  norm_num

/-- Every hypothesis of `C116_identical` holds of the click and the trivial filter bank. -/
example : fwSnrSeg (fun x => [x]) click (amplified click (-2)) (5, 10) (-10, 35) 0.2 =
    .ok [some 35] := by
  have h := C116_identical (fun x => [x]) (fun _ _ => rfl) click (-2) (by norm_num) (5, 10) (-10, 35)
    0.2 (1 / 3) (by norm_num) ⟨rfl, rfl, Or.inl rfl, by norm_num [click], by norm_num, by norm_num,
      by norm_num⟩ (by decide) (by decide) (fun c _ => by simp) (by
      have h1 : (-1 : ℝ) ≤ Real.logb 10 (1 / 3) := by
        rw [Real.le_logb_iff_rpow_le (by norm_num) (by norm_num), Real.rpow_neg_one]
        norm_num
      simp only
      rw [max_eq_right (by norm_num)]
      linarith) (fun c hc u hu m hm => by
      have hc : c = [1, 0] := by simpa [click] using hc
      subst hc
      rw [List.mem_singleton.mp hu, click_frame m hm]
      exact click_occupied)
  rw [h]
  simp only [click, List.map_cons, List.map_nil]
  rw [max_eq_right (by norm_num)]

/-- A silent modified signal: `nan`. -/
example : fwSnrSeg (fun x => [x]) click ⟨40, 2, [[0, 0]]⟩ (5, 10) (-10, 35) 0.2 = .ok [none] := by
  have hacc : Accepted click ⟨40, 2, [[0, 0]]⟩ (5, 10) 0.2 :=
    ⟨rfl, rfl, Or.inl rfl, by norm_num [click], by norm_num, by norm_num, by norm_num⟩
  have h0 : (hamming (windowLength click.rate)).length / 2 ≠ 0 := by
    rw [hamming_length]; decide
  have : ∃ l, fwSnrSeg (fun x => [x]) click ⟨40, 2, [[0, 0]]⟩ (5, 10) (-10, 35) 0.2 = .ok l := by
    rw [call_eq _ _ _ _ _ _ hacc]
    refine ⟨_, Framing.mapM_ok _ _ _ fun n _ => channelSnr_eq _ _ _ _ _ _ _ h0 (by decide)⟩
  obtain ⟨l, hl⟩ := this
  have h1 := (C116_range _ _ _ _ _ _ l hl).1
  have h2 := C116_silent_frame _ _ _ _ _ _ l hl 0 (by decide) (by decide) (by decide) 0 (by decide)
    ([1, 0], [0, 0]) (by simp [bandsOf, original, click])
    (Or.inr fun i _ _ => by
      by_cases hi : i < 2
      · have : i = 0 ∨ i = 1 := by omega
        rcases this with rfl | rfl <;> rfl
      · exact List.getD_eq_default _ _ (not_lt.mp hi))
  rw [hl]
  have h1 : l.length = 1 := h1
  match l, h1 with
  | [a], _ => rw [show a = none from h2]

end Verif.SegmentalSNR
