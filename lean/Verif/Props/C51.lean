import Verif.Model.Gain
import Verif.Props.C36
import Verif.Props.C50
import Verif.Props.C30

/-!
# C51: applying a gain
-/

set_option linter.unusedSectionVars false

namespace Verif.Gain

open Verif.SignalData Verif.Bank Verif.LFilter

variable {K : Type} [Field K] [LinearOrder K] [IsStrictOrderedRing K]

/-- The gain of channel `c`: one for all, or one per channel. -/
def gainOf (g : List K) (c : ℕ) : K := if g.length = 1 then g.getD 0 0 else g.getD c 0

/-- Signals: every sample of every channel is multiplied by its gain and, if the signal constrains
its amplitude, by the scale factor that the new signal reports. -/
theorem C51_signal (s : State K) (hs : Shaped s) (g : List K)
    (hg : g.length = 1 ∨ g.length = s.re.cols) :
    ∃ t, gainSignal s g = .ok t ∧ t.HasShape s.re.rows s.re.cols ∧ t.constrain = s.constrain ∧
      (s.constrain = false → t.scale = 1) ∧
      ∀ r < s.re.rows, ∀ c < s.re.cols,
        t.sample r c = t.scale * (gainOf g c * s.sample r c) := by
  have hx : scaleData s.re g = .ok ⟨s.re.rows, s.re.cols, fun r c => s.re.val r c * gainOf g c, none⟩ := by
    unfold scaleData gainOf
    rcases hg with h | h
    · simp only [if_pos h]
    · by_cases h1 : g.length = 1
      · simp only [if_pos h1]
      · simp only [if_neg h1, if_pos h]
  obtain ⟨t, ht, hcon, hshape, hscale, hre, -, -⟩ := setData_scaled
    ⟨⟨0, 0, fun _ _ => 0⟩, none, s.constrain, 1⟩
    ⟨s.re.rows, s.re.cols, fun r c => s.re.val r c * gainOf g c, none⟩ hs.tall
    (fun h => hs.more h.1) hs.one
  refine ⟨t, ?_, hshape, hcon, fun h => ?_, fun r hr c hc => ?_⟩
  · unfold gainSignal copyWith construct
    rw [hx]
    exact ht
  · rw [hscale, if_neg]
    simp [h]
  · rw [hre r hr c hc]
    simp only [State.sample, hr, hc, and_self, if_true]
    ring

/-- Multiband signals: the same for every band. -/
theorem C51_multiband (bands : List (State K)) (hs : ∀ s ∈ bands, Shaped s) (g : List K)
    (hg : ∀ s ∈ bands, g.length = 1 ∨ g.length = s.re.cols) :
    ∃ ts, gainMultiband bands g = .ok ts ∧ List.Forall₂ (fun s t =>
      t.HasShape s.re.rows s.re.cols ∧ (s.constrain = false → t.scale = 1) ∧
      ∀ r < s.re.rows, ∀ c < s.re.cols,
        t.sample r c = t.scale * (gainOf g c * s.sample r c)) bands ts := by
  unfold gainMultiband
  induction bands with
  | nil => exact ⟨[], rfl, List.Forall₂.nil⟩
  | cons s bands ih =>
    obtain ⟨t, ht, hsh, -, hsc, hval⟩ := C51_signal s (hs s (by simp)) g (hg s (by simp))
    obtain ⟨ts, hts, hall⟩ := ih (fun u hu => hs u (by simp [hu])) fun u hu => hg u (by simp [hu])
    refine ⟨t :: ts, ?_, List.Forall₂.cons ⟨hsh, hsc, hval⟩ hall⟩
    rw [List.mapM_cons, ht, hts]
    rfl

/-- The imaginary part of a complex signal is lost. -/
theorem C51_imaginary_lost (s t : State K) (g : List K) (h : gainSignal s g = .ok t) :
    t.im = none := by
  unfold gainSignal at h
  have hx : ∀ x, scaleData s.re g = .ok x → x.im = none := by
    intro x hx
    unfold scaleData at hx
    split_ifs at hx <;> cases hx <;> rfl
  cases hd : scaleData s.re g with
  | error e => rw [hd] at h; cases h
  | ok x =>
    rw [hd] at h
    have him := hx x hd
    simp only [copyWith, construct, setData] at h
    have hsf : ∀ y, standardForm x = .ok y → y.im = none := by
      intro y hy
      unfold standardForm at hy
      by_cases h1 : x.rows = 1 ∧ x.cols = 1
      · rw [if_pos h1] at hy; cases hy
      rw [if_neg h1] at hy
      have := Except.ok.inj hy
      subst this
      split_ifs <;> simp [Input.T, him]
    cases hst : standardForm x with
    | error e => rw [hst] at h; cases h
    | ok y =>
      rw [hst] at h
      have hy := hsf y hst
      simp only at h
      have him' : y.imMat = none := by simp [Input.imMat, hy]
      split_ifs at h
      all_goals
        have := Except.ok.inj h
        subst this
        simp [him']

theorem zseries_scale (b : List K) (g : K) :
    zseries (b.map (· * g)) = PowerSeries.C g * zseries b := by
  ext n
  rw [PowerSeries.coeff_C_mul, zseries_coeff, zseries_coeff]
  by_cases h : n < b.length
  · rw [List.getD_eq_getElem _ _ (by simpa using h), List.getD_eq_getElem _ _ h, List.getElem_map,
      mul_comm]
  · rw [List.getD_eq_default _ _ (by simpa using h), List.getD_eq_default _ _ (by simpa using h),
      mul_zero]

theorem scaleLast_ok (g : K) (secs : List (List K × List K)) (hne : secs ≠ []) :
    ∃ l, scaleLast g secs = .ok l ∧ (Filt.sos l).H = PowerSeries.C g * (Filt.sos secs).H ∧
      ((Filt.sos secs).Proper → (Filt.sos l).Proper) := by
  induction secs with
  | nil => exact absurd rfl hne
  | cons s rest ih =>
    cases rest with
    | nil =>
      refine ⟨_, rfl, ?_, ?_⟩
      · simp only [Filt.H, List.map_cons, List.map_nil, List.prod_cons, List.prod_nil, mul_one,
          ratio, zseries_scale, mul_assoc]
      · intro h u hu
        rw [List.mem_singleton] at hu
        subst hu
        exact h s (by simp)
    | cons t rest =>
      obtain ⟨l, hl, hH, hP⟩ := ih (by simp)
      refine ⟨s :: l, ?_, ?_, ?_⟩
      · unfold scaleLast
        rw [hl]
      · have h1 : (Filt.sos (s :: l)).H = ratio s.1 s.2 * (Filt.sos l).H := by simp [Filt.H]
        have h2 : (Filt.sos (s :: t :: rest)).H = ratio s.1 s.2 * (Filt.sos (t :: rest)).H := by
          simp [Filt.H]
        rw [h1, h2, hH]
        ring
      · intro h u hu
        rcases List.mem_cons.mp hu with rfl | hu
        · exact h u (by simp)
        · exact hP (fun v hv => h v (List.mem_cons_of_mem _ hv)) u hu

/-- A filter that has at least one section if it is stored in sections. -/
def HasSections : Filt K → Prop
  | .sos secs => secs ≠ []
  | _ => True

theorem gainFilter_H (F : Filt K) (hF : F.Proper) (hs : HasSections F) (g : K) :
    ∃ G, gainFilter F g = .ok G ∧ G.Proper ∧ G.H = PowerSeries.C g * F.H := by
  cases F with
  | fir b =>
    refine ⟨_, rfl, ?_, zseries_scale b g⟩
    intro h
    exact hF (List.map_eq_nil_iff.mp h)
  | ba b a =>
    refine ⟨_, rfl, hF, ?_⟩
    simp only [Filt.H, ratio, zseries_scale, mul_assoc]
  | sos secs =>
    obtain ⟨l, hl, hH, hP⟩ := scaleLast_ok g secs hs
    refine ⟨.sos l, ?_, hP hF, hH⟩
    simp only [gainFilter, hl]
    rfl

/-- Filters: the output for every input is multiplied by the gain. -/
theorem C51_filter (F : Filt K) (hF : F.Proper) (hs : HasSections F) (g : K) :
    ∃ G, gainFilter F g = .ok G ∧
      ∀ x, G.channel x = (F.channel x).map (g * ·) := by
  obtain ⟨G, hG, hP, hH⟩ := gainFilter_H F hF hs g
  refine ⟨G, hG, fun x => ?_⟩
  have hlen : (G.channel x).length = ((F.channel x).map (g * ·)).length := by
    rw [channel_length G hP, List.length_map, channel_length F hF]
  refine agree_list _ _ hlen ?_
  rw [channel_length G hP]
  refine (channel_agree G hP x).trans ?_
  have h2 : zseries ((F.channel x).map (g * ·)) = PowerSeries.C g * zseries (F.channel x) := by
    rw [← zseries_scale]
    congr 2
    funext a
    exact mul_comm _ _
  rw [h2, hH, mul_assoc]
  exact ((channel_agree F hF x).mul_left (PowerSeries.C g)).symm

theorem gainBank_H (Fs : List (Filt K)) (hF : ∀ F ∈ Fs, F.Proper) (hs : ∀ F ∈ Fs, HasSections F)
    (gs : List K) (hlen : gs.length = Fs.length) :
    ∃ Gs, (Fs.zip gs).mapM (fun p => gainFilter p.1 p.2) = .ok Gs ∧ (∀ G ∈ Gs, G.Proper) ∧
      Gs.map Filt.H = (Fs.zip gs).map fun p => PowerSeries.C p.2 * p.1.H := by
  induction Fs generalizing gs with
  | nil => exact ⟨[], rfl, by simp, by simp⟩
  | cons F Fs ih =>
    cases gs with
    | nil => simp at hlen
    | cons g gs =>
      obtain ⟨G, hG, hP, hH⟩ := gainFilter_H F (hF F (by simp)) (hs F (by simp)) g
      obtain ⟨Gs, hGs, hPs, hHs⟩ := ih (fun u hu => hF u (by simp [hu]))
        (fun u hu => hs u (by simp [hu])) gs (by simpa using hlen)
      refine ⟨G :: Gs, ?_, ?_, ?_⟩
      · rw [List.zip_cons_cons, List.mapM_cons, hG, hGs]
        rfl
      · intro u hu
        rcases List.mem_cons.mp hu with rfl | hu
        · exact hP
        · exact hPs u hu
      · rw [List.map_cons, List.zip_cons_cons, List.map_cons, hH, hHs]

/-- Filter banks: filter `i` of the new bank gives for every input the output of filter `i`
multiplied by gain `i`. -/
theorem C51_bank_parallel (Fs : List (Filt K)) (hF : ∀ F ∈ Fs, F.Proper)
    (hs : ∀ F ∈ Fs, HasSections F) (g : List K) (hg : g.length = 1 ∨ g.length = Fs.length) :
    ∃ Gs, gainBank Fs g = .ok Gs ∧ Gs.length = Fs.length ∧
      ∀ i (h : i < Fs.length) (h' : i < Gs.length) x,
        (Gs[i]).channel x = ((Fs[i]).channel x).map (gainOf g i * ·) := by
  have key : ∀ (Fs : List (Filt K)) (gs : List K), gs.length = Fs.length → (∀ F ∈ Fs, F.Proper) →
      (∀ F ∈ Fs, HasSections F) →
      ∃ Gs, (Fs.zip gs).mapM (fun p => gainFilter p.1 p.2) = .ok Gs ∧ Gs.length = Fs.length ∧
      ∀ i (h : i < Fs.length) (h' : i < Gs.length) x,
        (Gs[i]).channel x = ((Fs[i]).channel x).map (gs.getD i 0 * ·) := by
    intro Fs
    induction Fs with
    | nil => intro gs _ _ _; exact ⟨[], rfl, rfl, fun i h => absurd h (by simp)⟩
    | cons F Fs ih =>
      intro gs hl hF hs
      cases gs with
      | nil => simp at hl
      | cons g gs =>
        obtain ⟨G, hG, hv⟩ := C51_filter F (hF F (by simp)) (hs F (by simp)) g
        obtain ⟨Gs, hGs, hGl, hvs⟩ := ih gs (by simpa using hl) (fun u hu => hF u (by simp [hu]))
          fun u hu => hs u (by simp [hu])
        refine ⟨G :: Gs, ?_, by simp [hGl], fun i h h' x => ?_⟩
        · rw [List.zip_cons_cons, List.mapM_cons, hG, hGs]
          rfl
        · cases i with
          | zero => simpa using hv x
          | succ i => simpa using hvs i (by simpa using h) (by simpa using h') x
  unfold gainBank
  rw [if_neg (by omega)]
  by_cases h1 : g.length = 1
  · simp only [if_pos h1]
    obtain ⟨Gs, hGs, hl, hv⟩ := key Fs (List.replicate Fs.length (g.getD 0 0)) (by simp) hF hs
    refine ⟨Gs, hGs, hl, fun i h h' x => ?_⟩
    rw [hv i h h' x]
    have : (List.replicate Fs.length (g.getD 0 0)).getD i 0 = gainOf g i := by
      rw [List.getD_eq_getElem _ _ (by simpa using h), List.getElem_replicate]
      simp [gainOf, h1]
    rw [this]
  · simp only [if_neg h1]
    obtain ⟨Gs, hGs, hl, hv⟩ := key Fs g (by omega) hF hs
    refine ⟨Gs, hGs, hl, fun i h h' x => ?_⟩
    rw [hv i h h' x]
    simp [gainOf, h1]

/-- A single gain for a filter bank: the output of the summed mode is multiplied by the gain, the
output of the sequential mode by its power with the number of filters. -/
theorem C51_bank_single (Fs : List (Filt K)) (hF : ∀ F ∈ Fs, F.Proper)
    (hs : ∀ F ∈ Fs, HasSections F) (g : K) (s : State K) (hsh : Shaped s)
    (hcon : s.constrain = false) :
    ∃ Gs, gainBank Fs [g] = .ok Gs ∧
      (∃ t u, summed Fs s = .ok t ∧ summed Gs s = .ok u ∧
        ∀ r < s.re.rows, ∀ c < s.re.cols, u.sample r c = g * t.sample r c) ∧
      (∃ t u, sequential Fs s = .ok t ∧ sequential Gs s = .ok u ∧
        ∀ r < s.re.rows, ∀ c < s.re.cols, u.sample r c = g ^ Fs.length * t.sample r c) := by
  obtain ⟨Gs, hGs, hP, hH⟩ := gainBank_H Fs hF hs (List.replicate Fs.length g) (by simp)
  have hzip : ∀ Fs : List (Filt K), ((Fs.zip (List.replicate Fs.length g)).map
      fun p => PowerSeries.C p.2 * p.1.H) = Fs.map fun F => PowerSeries.C g * F.H := by
    intro Fs
    induction Fs with
    | nil => rfl
    | cons F Fs ih =>
      rw [List.length_cons, List.replicate_succ, List.zip_cons_cons, List.map_cons, List.map_cons, ih]
  rw [hzip] at hH
  have hsum : (Gs.map Filt.H).sum = PowerSeries.C g * (Fs.map Filt.H).sum := by
    rw [hH]
    clear hH hGs hzip hF hs
    induction Fs with
    | nil => simp
    | cons F Fs ih => rw [List.map_cons, List.sum_cons, ih, List.map_cons, List.sum_cons, mul_add]
  have hprod : (Gs.map Filt.H).prod = PowerSeries.C (g ^ Fs.length) * (Fs.map Filt.H).prod := by
    rw [hH]
    clear hH hGs hzip hF hs hsum
    induction Fs with
    | nil => simp
    | cons F Fs ih =>
      rw [List.map_cons, List.prod_cons, ih, List.map_cons, List.prod_cons, List.length_cons,
        pow_succ, map_mul]
      ring
  have hread : ∀ (t u : State K) (h : K) (P : PowerSeries K), t.HasShape s.re.rows s.re.cols →
      u.HasShape s.re.rows s.re.cols →
      (∀ c < s.re.cols, AgreeUpTo s.re.rows (chanZ t c) (P * chanZ s c)) →
      (∀ c < s.re.cols, AgreeUpTo s.re.rows (chanZ u c) (PowerSeries.C h * P * chanZ s c)) →
      ∀ r < s.re.rows, ∀ c < s.re.cols, u.sample r c = h * t.sample r c := by
    intro t u h P hts hus ht hu r hr c hc
    have h1 := ht c hc r hr
    have h2 := hu c hc r hr
    rw [mul_assoc, PowerSeries.coeff_C_mul, ← h1] at h2
    unfold chanZ at h2
    rw [zseries_coeff, zseries_coeff, getD_map_range, getD_map_range, hts.1, hus.1, if_pos hr,
      if_pos hr] at h2
    exact h2
  refine ⟨Gs, ?_, ?_, ?_⟩
  · unfold gainBank
    rw [if_neg (by simp)]
    simpa using hGs
  · obtain ⟨t, ht, hts, htv⟩ := C36_summed Fs hF s hsh hcon
    obtain ⟨u, hu, hus, huv⟩ := C36_summed Gs hP s hsh hcon
    rw [hsum] at huv
    exact ⟨t, u, ht, hu, hread t u g _ hts hus htv huv⟩
  · obtain ⟨t, ht, hts, htv⟩ := C36_sequential Fs hF s hsh hcon
    obtain ⟨u, hu, hus, huv⟩ := C36_sequential Gs hP s hsh hcon
    rw [hprod] at huv
    exact ⟨t, u, ht, hu, hread t u _ _ hts hus htv huv⟩

/-- A wrong number of gains is rejected. -/
theorem C51_bank_rejects (Fs : List (Filt K)) (g : List K) (h1 : g.length ≠ 1)
    (h2 : g.length ≠ Fs.length) : gainBank Fs g = .error .assertionError := by
  unfold gainBank
  rw [if_pos ⟨h1, h2⟩]

/-- Gains add in dB: for signals without amplitude constraint, a gain of `a` dB followed by `b` dB
has the same samples as a gain of `a + b` dB. -/
theorem C51_compose (s : State ℝ) (hs : Shaped s) (hcon : s.constrain = false) (a b : ℝ) :
    ∃ t u v, gainSignal s (linear [a]) = .ok t ∧ gainSignal t (linear [b]) = .ok u ∧
      gainSignal s (linear [a + b]) = .ok v ∧ u.HasShape s.re.rows s.re.cols ∧
      v.HasShape s.re.rows s.re.cols ∧
      ∀ r < s.re.rows, ∀ c < s.re.cols, u.sample r c = v.sample r c := by
  obtain ⟨t, ht, hts, htc, htsc, htv⟩ := C51_signal s hs (linear [a]) (Or.inl rfl)
  have hsh : Shaped t := ⟨by rw [hts.2]; exact hs.one, by rw [hts.1, hts.2]; exact hs.tall,
    by rw [hts.1]; exact hs.more⟩
  obtain ⟨u, hu, hus, -, husc, huv⟩ := C51_signal t hsh (linear [b]) (Or.inl rfl)
  obtain ⟨v, hv, hvs, -, hvsc, hvv⟩ := C51_signal s hs (linear [a + b]) (Or.inl rfl)
  rw [hts.1, hts.2] at hus huv
  refine ⟨t, u, v, ht, hu, hv, hus, hvs, fun r hr c hc => ?_⟩
  rw [huv r hr c hc, hvv r hr c hc, htv r hr c hc, husc (by rw [htc, hcon]), htsc hcon, hvsc hcon]
  simp only [gainOf, linear, List.map_cons, List.map_nil, List.length_singleton, if_true,
    List.getD_cons_zero]
  have : Level.fromDb (a + b) true = Level.fromDb a true * Level.fromDb b true := by
    unfold Level.fromDb
    rw [add_div, Real.rpow_add (by norm_num)]
  rw [this]
  ring

/-- A gain of 0 dB changes nothing, and 20 dB is a factor of ten. -/
theorem C51_values : Level.fromDb 0 true = 1 ∧ Level.fromDb 20 true = 10 ∧
    Level.fromDb (-20) true = 1 / 10 := by
  unfold Level.fromDb Level.dbFactor
  refine ⟨by norm_num, by norm_num, ?_⟩
  rw [if_pos rfl, show (-20 : ℝ) / 20 = -1 by norm_num, Real.rpow_neg_one]
  norm_num

/-- Concrete case: filters with one section and two sections. -/
example : ((gainFilter (.sos [([1, 2, 0], [1, 0, 0]), ([1, 1, 0], [1, 1/2, 0])]) 3 :
    Except Err (Filt ℚ)).toOption.map fun F => F.channel [1, 0]) = some [3, 15/2] := by
  decide +kernel

/-- Concrete signal for the hypotheses. -/
example : Shaped (⟨⟨3, 2, fun r c => r + c⟩, none, false, 1⟩ : State ℚ) :=
  ⟨by decide, by decide, by decide⟩

end Verif.Gain
