import Mathlib.Data.List.GetD
import Verif.Model.TrimIR
import Verif.Props.C45

/-!
# C91: trimming of impulse responses
-/

namespace Verif.TrimIR

/-! ### Windows -/

/-- Mean value of the window before window `k`; the first window is compared with 0 dB. -/
def prev (m : ℕ → ℝ) : ℕ → ℝ
  | 0 => 0
  | k + 1 => m k

theorem scan_spec (m : ℕ → ℝ) (left k : ℕ) :
    k ≤ scan m left k (prev m k) ∧ scan m left k (prev m k) ≤ k + left ∧
      (∀ j, k ≤ j → j < scan m left k (prev m k) → m j < prev m j) ∧
      (scan m left k (prev m k) = k + left ∨
        prev m (scan m left k (prev m k)) ≤ m (scan m left k (prev m k))) := by
  induction left generalizing k with
  | zero => exact ⟨le_refl _, le_refl _, fun j h1 h2 => absurd h2 (by simp only [scan]; omega), Or.inl rfl⟩
  | succ left ih =>
    unfold scan
    by_cases h : prev m k ≤ m k
    · rw [if_pos h]
      exact ⟨le_refl _, by omega, fun j h1 h2 => absurd h2 (by omega), Or.inr h⟩
    · rw [if_neg h]
      obtain ⟨h1, h2, h3, h4⟩ := ih (k + 1)
      rw [show prev m (k + 1) = m k from rfl] at h1 h2 h3 h4
      refine ⟨by omega, by omega, fun j hj1 hj2 => ?_, ?_⟩
      · rcases Nat.lt_or_ge k j with hj | hj
        · exact h3 j hj hj2
        · rw [show j = k by omega]
          exact not_le.1 h
      · rcases h4 with h4 | h4
        · exact Or.inl (by omega)
        · exact Or.inr h4

/-- The end found with one window length: the centre of the first window whose mean value is not below that of
the window before it, the end of the envelope at the latest. -/
theorem C91_windows (env : List ℝ) (w : ℕ) :
    ∃ k ≤ env.length / w, endOf env w = min (k * w + w / 2) env.length ∧
      (∀ j < k, meanAt env (j * w) w < prev (fun i => meanAt env (i * w) w) j) ∧
      (k = env.length / w ∨ prev (fun i => meanAt env (i * w) w) k ≤ meanAt env (k * w) w) := by
  have h := scan_spec (fun i => meanAt env (i * w) w) (env.length / w) 0
  rw [show prev (fun i => meanAt env (i * w) w) 0 = 0 from rfl] at h
  obtain ⟨-, h2, h3, h4⟩ := h
  refine ⟨_, by omega, ?_, fun j hj => h3 j (Nat.zero_le _) hj, by simpa using h4⟩
  unfold endOf
  dsimp only
  congr 1
  omega

theorem endOf_le (env : List ℝ) (w : ℕ) : endOf env w ≤ env.length := min_le_right _ _

/-! ### Choice of the end -/

theorem mean_bounds (l : List ℕ) (lo hi : ℕ) (h : ∀ a ∈ l, lo ≤ a ∧ a ≤ hi) :
    lo * l.length ≤ l.sum ∧ l.sum ≤ hi * l.length := by
  induction l with
  | nil => simp
  | cons a l ih =>
    have h1 := ih fun b hb => h b (List.mem_cons_of_mem _ hb)
    have h2 := h a (by simp)
    simp only [List.sum_cons, List.length_cons]
    constructor <;> nlinarith

theorem upTo_mem (t : ℝ) (ends : List ℕ) (corr : List ℝ) (a : ℕ) (h : a ∈ upTo t ends corr) : a ∈ ends := by
  unfold upTo at h
  rw [List.mem_map] at h
  obtain ⟨p, hp, rfl⟩ := h
  exact (List.of_mem_zip (List.mem_filter.1 hp).1).1

theorem choose_bounds (len lo : ℕ) (ends : List ℕ) (corr : List ℝ) (select : ℕ)
    (h : ∀ a ∈ ends, lo ≤ a ∧ a ≤ len) (hs : select < ends.length) :
    lo ≤ choose len ends corr select ∧ choose len ends corr select ≤ len := by
  have hsel : lo ≤ ends.getD select 0 ∧ ends.getD select 0 ≤ len := by
    rw [List.getD_eq_getElem _ _ hs]
    exact h _ (List.getElem_mem hs)
  have hb : ∀ t, lo * (upTo t ends corr).length ≤ (upTo t ends corr).sum ∧
      (upTo t ends corr).sum ≤ len * (upTo t ends corr).length := fun t =>
    mean_bounds _ lo len fun a ha => h a (upTo_mem t ends corr a ha)
  unfold choose
  split_ifs with h1 h2 h3
  · exact hsel
  · have hpos := List.length_pos_iff.2 h2
    have := hb (-0.9)
    exact ⟨(Nat.le_div_iff_mul_le hpos).2 this.1, Nat.div_le_of_le_mul (by rw [mul_comm]; exact this.2)⟩
  · have := hb (-0.7)
    generalize (upTo (-0.7) ends corr).length = l at this ⊢
    generalize (upTo (-0.7) ends corr).sum = u at this ⊢
    refine ⟨(Nat.le_div_iff_mul_le (by omega)).2 (by nlinarith), Nat.div_le_of_le_mul (by nlinarith)⟩
  · have hlen : lo ≤ len := hsel.1.trans hsel.2
    have := mean_bounds ends lo len h
    generalize ends.length = l at this ⊢
    generalize ends.sum = u at this ⊢
    refine ⟨(Nat.le_div_iff_mul_le (by omega)).2 (by nlinarith), Nat.div_le_of_le_mul (by nlinarith)⟩

/-- A coefficient of at most -0.95 decides alone; else the ends with at most -0.9 are averaged; else the best
one counts ten times among those with at most -0.7; else the whole length counts five times. -/
theorem C91_choice (len : ℕ) (ends : List ℕ) (corr : List ℝ) (s : ℕ) :
    (corr.getD s 0 ≤ -0.95 → choose len ends corr s = ends.getD s 0) ∧
    (-0.95 < corr.getD s 0 → upTo (-0.9) ends corr ≠ [] →
      choose len ends corr s = (upTo (-0.9) ends corr).sum / (upTo (-0.9) ends corr).length) ∧
    (-0.95 < corr.getD s 0 → upTo (-0.9) ends corr = [] → upTo (-0.7) ends corr ≠ [] →
      choose len ends corr s =
        (9 * ends.getD s 0 + (upTo (-0.7) ends corr).sum) / (9 + (upTo (-0.7) ends corr).length)) ∧
    (-0.95 < corr.getD s 0 → upTo (-0.7) ends corr = [] →
      choose len ends corr s = (5 * len + ends.sum) / (5 + ends.length)) := by
  unfold choose
  refine ⟨fun h => if_pos h, fun h1 h2 => ?_, fun h1 h2 h3 => ?_, fun h1 h2 => ?_⟩
  · rw [if_neg (by linarith), if_pos h2]
  · rw [if_neg (by linarith), if_neg (not_not.2 h2), if_pos h3]
  · have h3 : upTo (-0.9) ends corr = [] := by
      unfold upTo at h2 ⊢
      rw [List.map_eq_nil_iff, List.filter_eq_nil_iff] at h2 ⊢
      intro p hp h
      refine h2 p hp ?_
      simp only [decide_eq_true_eq] at h ⊢
      norm_num at h ⊢
      linarith
    rw [if_neg (by linarith), if_neg (not_not.2 h3), if_neg (not_not.2 h2)]

/-! ### Start, stop and peak -/

theorem mapM_ok {α β : Type} (f : α → Except Err β) (l : List α) (r : List β) (h : l.mapM f = .ok r) :
    r.length = l.length ∧ ∀ a ∈ l, ∃ b ∈ r, f a = .ok b := by
  induction l generalizing r with
  | nil =>
    cases h
    simp
  | cons a l ih =>
    rw [List.mapM_cons] at h
    cases ha : f a with
    | error e => rw [ha] at h; cases h
    | ok b =>
      rw [ha] at h
      cases hl : l.mapM f with
      | error e =>
        simp only [hl, bind, Except.bind] at h
        cases h
      | ok rs =>
        simp only [hl, bind, Except.bind, pure, Except.pure] at h
        cases h
        obtain ⟨h1, h2⟩ := ih rs hl
        refine ⟨by simp [h1], fun c hc => ?_⟩
        rcases List.mem_cons.1 hc with rfl | hc
        · exact ⟨b, by simp, ha⟩
        · obtain ⟨d, hd, hd'⟩ := h2 c hc
          exact ⟨d, List.mem_cons_of_mem _ hd, hd'⟩

theorem pearson_two (env : List ℝ) (n : ℕ) (b : ℝ) (h : pearson env n = .ok b) : 2 ≤ n := by
  unfold pearson at h
  by_contra hn
  rw [if_pos (by omega)] at h
  cases h

theorem aboveNoise_bounds (env : List ℝ) (n k : ℕ) (floor : Option ℝ) (d : ℝ)
    (h : aboveNoise env n floor d = .ok k) : k ≤ n ∧ (n : ℝ) * 3 / 4 - 1 / 2 ≤ k ∧ (2 ≤ n → 2 ≤ k) ∧
      ((fit env n).2 ≤ 0 → floor ≠ none) := by
  unfold aboveNoise at h
  dsimp only at h
  by_cases h1 : 0 < (fit env n).2
  · rw [if_pos h1] at h
    cases h
    refine ⟨le_refl _, ?_, id, fun h2 => absurd h1 (not_lt.2 h2)⟩
    have : (0 : ℝ) ≤ n := by positivity
    linarith
  · rw [if_neg h1] at h
    cases floor with
    | none => cases h
    | some f =>
      dsimp only at h
      by_cases h2 : (fit env n).2 = 0
      · rw [if_pos h2] at h
        cases h
      · rw [if_neg h2] at h
        cases h
        have hfl := Nat.lt_floor_add_one ((n : ℝ) * 75 / 100 + 1 / 2)
        have hn : (0 : ℝ) ≤ n := by positivity
        refine ⟨min_le_right _ _, ?_, fun h3 => ?_, fun _ => by simp⟩
        · rw [Nat.cast_min, le_min_iff]
          constructor
          · refine le_trans ?_ (Nat.cast_le.2 (le_max_right _ _))
            linarith
          · linarith
        · refine le_min (le_trans ?_ (le_max_right _ _)) h3
          refine Nat.le_floor ?_
          have : (2 : ℝ) ≤ n := by exact_mod_cast h3
          push_cast
          linarith

/-- The result of the trimming: it starts the given time and one sample before the peak (at the first sample
if there are fewer), the third value is the index of the peak after trimming, it ends at least two samples
after the peak, at most the length of the envelope after it, and keeps three quarters of the length `n` until
the end that was found by the windows. -/
theorem C91_indices (envelope : List ℝ → List ℝ) (minValue : ℝ) (x : List ℝ) (fs : ℕ) (offset safety : ℝ)
    (ho : 0 ≤ offset) (start stop imp : ℕ)
    (h : trim envelope minValue x fs offset safety = .ok (start, stop, imp)) :
    ∃ peak n, Latency.argmaxAbs x = .ok peak ∧
      (start : ℤ) = max 0 (peak - 1 - ⌊offset * fs + 1 / 2⌋) ∧ start + imp = peak ∧
      n ≤ (envelope (x.drop peak)).length ∧
      peak + 2 ≤ stop ∧ stop ≤ peak + n ∧ peak + (n * 3 / 4 - 1 / 2 : ℝ) ≤ stop ∧
      (safety = 0 → stop = peak + n) ∧
      (safety ≠ 0 → (fit (envelope (x.drop peak)) n).2 ≤ 0 → stop ≤ x.length) := by
  unfold trim at h
  cases hp : Latency.argmaxAbs x with
  | error e => rw [hp] at h; cases h
  | ok peak =>
    rw [hp] at h
    dsimp only at h
    have htr : truncate (offset * fs + 1 / 2) = ⌊offset * fs + 1 / 2⌋ := by
      unfold truncate
      rw [if_pos (by positivity)]
    have hfl : 0 ≤ ⌊offset * fs + 1 / 2⌋ := Int.floor_nonneg.2 (by positivity)
    rw [htr] at h
    generalize ⌊offset * fs + 1 / 2⌋ = o at h hfl
    cases hc : (ends (envelope (x.drop peak)) fs).mapM (pearson (envelope (x.drop peak))) with
    | error e => rw [hc] at h; cases h
    | ok corr =>
      rw [hc] at h
      dsimp only at h
      obtain ⟨hlen, hok⟩ := mapM_ok _ _ _ hc
      cases hs : Helpers.argmin corr with
      | error e => rw [hs] at h; cases h
      | ok select =>
        rw [hs] at h
        dsimp only at h
        have hsel : select < corr.length := by
          have hne : corr ≠ [] := by
            intro h0
            rw [h0] at hs
            cases hs
          obtain ⟨i, hi, hf⟩ := Helpers.argmin_spec corr hne
          rw [hi] at hs
          cases hs
          exact hf.1
        have hends : ∀ a ∈ ends (envelope (x.drop peak)) fs, 2 ≤ a ∧ a ≤ (envelope (x.drop peak)).length := by
          intro a ha
          obtain ⟨b, -, hb⟩ := hok a ha
          refine ⟨pearson_two _ _ _ hb, ?_⟩
          unfold ends at ha
          rw [List.mem_map] at ha
          obtain ⟨ms, -, rfl⟩ := ha
          exact endOf_le _ _
        have hch := choose_bounds _ 2 _ corr select hends (by rw [← hlen]; exact hsel)
        generalize choose (envelope (x.drop peak)).length (ends (envelope (x.drop peak)) fs) corr select = n
          at h hch
        refine ⟨peak, n, rfl, ?_⟩
        by_cases h0 : safety = 0
        · rw [if_pos h0] at h
          cases h
          refine ⟨by omega, by omega, hch.2, by omega, by omega, ?_, fun _ => by omega,
            fun h1 => absurd h0 h1⟩
          push_cast
          have : (0 : ℝ) ≤ n := by positivity
          linarith
        · rw [if_neg h0] at h
          cases ha : aboveNoise (envelope (x.drop peak)) n (noiseFloor (x.drop (n + peak)) minValue) |safety|
            with
          | error e => rw [ha] at h; cases h
          | ok k =>
            rw [ha] at h
            cases h
            obtain ⟨k1, k2, k3, k4⟩ := aboveNoise_bounds _ _ _ _ _ ha
            have := k3 hch.1
            refine ⟨by omega, by omega, hch.2, by omega, by omega, ?_, fun h1 => absurd h1 h0,
              fun _ h1 => ?_⟩
            · push_cast
              linarith
            · have h2 := k4 h1
              unfold noiseFloor at h2
              by_cases h3 : x.drop (n + peak) = []
              · rw [if_pos h3] at h2
                exact absurd rfl h2
              · rw [List.drop_eq_nil_iff] at h3
                omega

/-- The peak is kept and is sample `imp` of the trimmed response. -/
theorem C91_peak (envelope : List ℝ → List ℝ) (minValue : ℝ) (x : List ℝ) (fs : ℕ) (offset safety : ℝ)
    (ho : 0 ≤ offset) (start stop imp : ℕ)
    (h : trim envelope minValue x fs offset safety = .ok (start, stop, imp)) (i : ℕ) (hi : i < x.length) :
    |x.getD i 0| ≤ |((x.take stop).drop start).getD imp 0| := by
  obtain ⟨peak, n, hp, -, h2, -, h3, -⟩ := C91_indices envelope minValue x fs offset safety ho start stop imp h
  have hne : x ≠ [] := by
    intro h0
    rw [h0] at hi
    simp at hi
  obtain ⟨k, hk, hf⟩ := Helpers.argmin_spec (x.map fun a => -|a|) (by simpa using hne)
  unfold Latency.argmaxAbs at hp
  rw [hk] at hp
  cases hp
  have hk' : peak < x.length := by simpa using hf.1
  have := hf.2.1 i (by simpa using hi)
  rw [List.getD_eq_getElem _ _ (by simpa using hk'), List.getD_eq_getElem _ _ (by simpa using hi),
    List.getElem_map, List.getElem_map] at this
  rw [List.getD_eq_getElem _ _ hi, List.getD_eq_getElem _ _ (by
    rw [List.length_drop, List.length_take]
    omega)]
  simp only [List.getElem_drop, List.getElem_take, h2]
  linarith

/-! ### Several channels -/

theorem foldl_min (l : List (ℕ × ℕ × ℕ)) (a : ℕ) :
    l.foldl (fun m c => min m c.1) a ≤ a ∧ (∀ c ∈ l, l.foldl (fun m c => min m c.1) a ≤ c.1) ∧
      (l.foldl (fun m c => min m c.1) a = a ∨ ∃ c ∈ l, l.foldl (fun m c => min m c.1) a = c.1) := by
  induction l generalizing a with
  | nil => simp
  | cons b l ih =>
    obtain ⟨h1, h2, h3⟩ := ih (min a b.1)
    rw [List.foldl_cons]
    refine ⟨h1.trans (min_le_left _ _), fun c hc => ?_, ?_⟩
    · rcases List.mem_cons.1 hc with rfl | hc
      · exact h1.trans (min_le_right _ _)
      · exact h2 c hc
    · rcases h3 with h3 | ⟨c, hc, h3⟩
      · rcases min_choice a b.1 with h4 | h4
        · exact Or.inl (h3.trans h4)
        · exact Or.inr ⟨b, by simp, h3.trans h4⟩
      · exact Or.inr ⟨c, List.mem_cons_of_mem _ hc, h3⟩

theorem foldl_max (l : List (ℕ × ℕ × ℕ)) (a : ℕ) :
    a ≤ l.foldl (fun m c => max m c.2.1) a ∧ (∀ c ∈ l, c.2.1 ≤ l.foldl (fun m c => max m c.2.1) a) ∧
      (l.foldl (fun m c => max m c.2.1) a = a ∨ ∃ c ∈ l, l.foldl (fun m c => max m c.2.1) a = c.2.1) := by
  induction l generalizing a with
  | nil => simp
  | cons b l ih =>
    obtain ⟨h1, h2, h3⟩ := ih (max a b.2.1)
    rw [List.foldl_cons]
    refine ⟨(le_max_left _ _).trans h1, fun c hc => ?_, ?_⟩
    · rcases List.mem_cons.1 hc with rfl | hc
      · exact (le_max_right _ _).trans h1
      · exact h2 c hc
    · rcases h3 with h3 | ⟨c, hc, h3⟩
      · rcases max_choice a b.2.1 with h4 | h4
        · exact Or.inl (h3.trans h4)
        · exact Or.inr ⟨b, by simp, h3.trans h4⟩
      · exact Or.inr ⟨c, List.mem_cons_of_mem _ hc, h3⟩

/-- All channels are cut at the same bounds, which contain the bounds of every channel; each bound is the
bound of some channel. -/
theorem C91_channels (envelope : List ℝ → List ℝ) (minValue : ℝ) (channels : List (List ℝ)) (fs : ℕ)
    (offset : ℝ) (r : List (List ℝ)) (start stop : ℕ)
    (h : trimAll envelope minValue channels fs (some offset) = .ok (r, start, stop)) :
    0 ≤ offset ∧ r = channels.map (fun x => (x.take stop).drop start) ∧
      ∃ bounds : List (ℕ × ℕ × ℕ), channels.mapM (fun x => trim envelope minValue x fs offset 10) = .ok bounds ∧
        (∀ c ∈ bounds, start ≤ c.1 ∧ c.2.1 ≤ stop) ∧ (∃ c ∈ bounds, c.1 = start) ∧ ∃ c ∈ bounds, c.2.1 = stop := by
  unfold trimAll at h
  dsimp only at h
  by_cases ho : 0 ≤ offset
  swap
  · rw [if_pos ho] at h
    cases h
  rw [if_neg (not_not.2 ho)] at h
  refine ⟨ho, ?_⟩
  cases hb : channels.mapM fun x => trim envelope minValue x fs offset 10 with
  | error e => rw [hb] at h; cases h
  | ok bounds =>
    rw [hb] at h
    cases bounds with
    | nil => cases h
    | cons b rest =>
      dsimp only at h
      cases h
      refine ⟨rfl, _, rfl, fun c hc => ?_, ?_, ?_⟩
      · rcases List.mem_cons.1 hc with rfl | hc
        · exact ⟨(foldl_min rest _).1, (foldl_max rest _).1⟩
        · exact ⟨(foldl_min rest _).2.1 c hc, (foldl_max rest _).2.1 c hc⟩
      · rcases (foldl_min rest b.1).2.2 with h1 | ⟨c, hc, h1⟩
        · exact ⟨b, by simp, h1.symm⟩
        · exact ⟨c, List.mem_cons_of_mem _ hc, h1.symm⟩
      · rcases (foldl_max rest b.2.1).2.2 with h1 | ⟨c, hc, h1⟩
        · exact ⟨b, by simp, h1.symm⟩
        · exact ⟨c, List.mem_cons_of_mem _ hc, h1.symm⟩

/-- Without an offset (`None`) nothing is removed before the peak. -/
theorem C91_no_offset (envelope : List ℝ → List ℝ) (minValue : ℝ) (x : List ℝ) (fs : ℕ) (hfs : 0 < fs)
    (safety : ℝ) (start stop imp : ℕ)
    (h : trim envelope minValue x fs ((x.length : ℝ) / fs) safety = .ok (start, stop, imp)) : start = 0 := by
  obtain ⟨peak, n, hp, h1, -⟩ := C91_indices envelope minValue x fs _ safety (by positivity) start stop imp h
  have hne : x ≠ [] := by
    intro h0
    rw [h0] at hp
    cases hp
  obtain ⟨k, hk, hf⟩ := Helpers.argmin_spec (x.map fun a => -|a|) (by simpa using hne)
  unfold Latency.argmaxAbs at hp
  rw [hk] at hp
  cases hp
  have hk' : peak < x.length := by simpa using hf.1
  have hfs' : (fs : ℝ) ≠ 0 := by positivity
  have h2 : (x.length : ℤ) ≤ ⌊(x.length : ℝ) / fs * fs + 1 / 2⌋ := by
    rw [div_mul_cancel₀ _ hfs', Int.le_floor]
    push_cast
    linarith
  omega

/-! ### The level decides -/

/-- An envelope that decays by `s` dB per sample from `c` dB. -/
noncomputable def decay (c s : ℝ) (n : ℕ) : List ℝ := (List.range n).map fun i : ℕ => c - s * i

theorem decay_getD (c s : ℝ) (n i : ℕ) (hi : i < n) : (decay c s n).getD i 0 = c - s * i := by
  unfold decay
  rw [List.getD_eq_getElem _ _ (by simpa using hi)]
  simp

theorem decay_mean (c s : ℝ) (n a w : ℕ) (hw : 0 < w) (h : a + w ≤ n) :
    meanAt (decay c s n) a w = c - s * a - s * ((∑ j ∈ Finset.range w, (j : ℝ)) / w) := by
  unfold meanAt
  have hw' : (w : ℝ) ≠ 0 := by positivity
  rw [Finset.sum_congr rfl (g := fun i : ℕ => (c - s * a) - s * (i : ℝ)) (by
    intro i hi
    rw [Finset.mem_range] at hi
    rw [decay_getD c s n _ (by omega)]
    push_cast
    ring)]
  rw [Finset.sum_sub_distrib, Finset.sum_const, Finset.card_range, ← Finset.mul_sum, nsmul_eq_mul]
  field_simp

theorem sxx_pos (n : ℕ) (h : 2 ≤ n) : 0 < sxx n := by
  unfold sxx
  generalize (∑ j ∈ Finset.range n, (j : ℝ)) / n = m
  have h0 : ∀ i ∈ Finset.range n, 0 ≤ ((i : ℝ) - m) ^ 2 := fun i _ => sq_nonneg _
  refine (Finset.sum_pos_iff_of_nonneg h0).2 ?_
  by_cases hm : m = 0
  · exact ⟨1, by simp; omega, by rw [hm]; norm_num⟩
  · refine ⟨0, by simp; omega, ?_⟩
    have : 0 < m ^ 2 := by positivity
    simpa using this

theorem decay_sums (c s : ℝ) (n k : ℕ) (hk : 2 ≤ k) (h : k ≤ n) :
    sxy (decay c s n) k = -s * sxx k ∧ syy (decay c s n) k = s ^ 2 * sxx k := by
  unfold sxy syy sxx
  rw [decay_mean c s n 0 k (by omega) (by omega), Finset.mul_sum, Finset.mul_sum]
  constructor
  all_goals
    refine Finset.sum_congr rfl fun i hi => ?_
    rw [Finset.mem_range] at hi
    rw [decay_getD c s n i (by omega)]
    push_cast
    ring

theorem decay_pearson (c s : ℝ) (hs : 0 < s) (n k : ℕ) (hk : 2 ≤ k) (h : k ≤ n) :
    pearson (decay c s n) k = .ok (-1) := by
  obtain ⟨h1, h2⟩ := decay_sums c s n k hk h
  have hx := sxx_pos k hk
  unfold pearson
  rw [if_neg (by omega), if_neg (by rw [h2]; positivity), h1, h2, Real.sqrt_mul (by positivity),
    Real.sqrt_sq hs.le]
  congr 1
  rw [show √(sxx k) * (s * √(sxx k)) = s * (√(sxx k) * √(sxx k)) by ring, Real.mul_self_sqrt hx.le]
  field_simp

theorem decay_slope (c s : ℝ) (n k : ℕ) (hk : 2 ≤ k) (h : k ≤ n) : (fit (decay c s n) k).2 = -s := by
  unfold fit
  dsimp only
  rw [(decay_sums c s n k hk h).1]
  have := sxx_pos k hk
  field_simp

theorem windowLength_mono (fs a b : ℕ) (h : a ≤ b) : windowLength fs a ≤ windowLength fs b := by
  unfold windowLength
  refine Nat.floor_le_floor ?_
  have : (a : ℝ) ≤ b := by exact_mod_cast h
  gcongr

theorem decay_ends (c s : ℝ) (n fs : ℕ) (hw : 4 ≤ windowLength fs 10) (hn : 2 ≤ n) :
    ∀ a ∈ ends (decay c s n) fs, 2 ≤ a ∧ a ≤ n := by
  intro a ha
  unfold ends at ha
  rw [List.mem_map] at ha
  obtain ⟨ms, hms, rfl⟩ := ha
  have hlen : (decay c s n).length = n := by simp [decay]
  have h10 : 10 ≤ ms := by
    simp at hms
    omega
  have h1 := windowLength_mono fs 10 ms h10
  obtain ⟨k, -, h2, -⟩ := C91_windows (decay c s n) (windowLength fs ms)
  rw [hlen] at h2
  rw [h2]
  refine ⟨le_min ?_ hn, min_le_right _ _⟩
  have : 2 ≤ windowLength fs ms / 2 := by omega
  omega

/-- For a linear decay all coefficients are -1: the shortest window decides. -/
theorem decay_choice (c s : ℝ) (hs : 0 < s) (n fs : ℕ) (hw : 4 ≤ windowLength fs 10) (hn : 2 ≤ n) :
    (ends (decay c s n) fs).mapM (pearson (decay c s n)) = .ok [-1, -1, -1, -1, -1] ∧
      Helpers.argmin [(-1 : ℝ), -1, -1, -1, -1] = .ok 0 ∧
      choose n (ends (decay c s n) fs) [-1, -1, -1, -1, -1] 0 = endOf (decay c s n) (windowLength fs 10) := by
  have h := decay_ends c s n fs hw hn
  refine ⟨?_, ?_, ?_⟩
  · unfold ends at h ⊢
    simp only [List.map_cons, List.map_nil, List.mem_cons, List.not_mem_nil, or_false, forall_eq_or_imp,
      forall_eq] at h ⊢
    obtain ⟨h1, h2, h3, h4, h5⟩ := h
    simp only [List.mapM_cons, List.mapM_nil, decay_pearson c s hs n _ h1.1 h1.2,
      decay_pearson c s hs n _ h2.1 h2.2, decay_pearson c s hs n _ h3.1 h3.2,
      decay_pearson c s hs n _ h4.1 h4.2, decay_pearson c s hs n _ h5.1 h5.2]
    rfl
  · obtain ⟨i, hi, hf⟩ := Helpers.argmin_spec [(-1 : ℝ), -1, -1, -1, -1] (by simp)
    rw [hi]
    congr 1
    by_contra h0
    have h1 := hf.1
    have h2 := hf.2.2 0 (by omega)
    simp at h1
    have h3 : i = 1 ∨ i = 2 ∨ i = 3 ∨ i = 4 := by omega
    rcases h3 with rfl | rfl | rfl | rfl <;> simp at h2
  · refine ((C91_choice n _ _ 0).1 (by norm_num)).trans ?_
    rfl

/-- A response that decays linearly in dB until its end, however long (a simulated response without noise): the
trimming raises an error, if the level at the peak is at most 0 dB and the last incomplete window is at most
half as long as the others. -/
theorem C91_clean_wrong (envelope : List ℝ → List ℝ) (minValue : ℝ) (x : List ℝ) (fs peak n : ℕ)
    (offset safety c s : ℝ) (hp : Latency.argmaxAbs x = .ok peak) (hn : x.length ≤ peak + n) (hn2 : 2 ≤ n)
    (he : envelope (x.drop peak) = decay c s n) (hc : c ≤ 0) (hs : 0 < s) (hw : 4 ≤ windowLength fs 10)
    (hr : n % windowLength fs 10 ≤ windowLength fs 10 / 2) (hsafe : safety ≠ 0) :
    trim envelope minValue x fs offset safety = .error .valueError := by
  obtain ⟨h1, h2, h3⟩ := decay_choice c s hs n fs hw hn2
  have hlen : (decay c s n).length = n := by simp [decay]
  have hend : endOf (decay c s n) (windowLength fs 10) = n := by
    obtain ⟨k, hk1, hk2, -, hk3⟩ := C91_windows (decay c s n) (windowLength fs 10)
    rw [hlen] at hk1 hk2 hk3
    generalize windowLength fs 10 = w at hw hr hk1 hk2 hk3 ⊢
    have hsum : 0 < (∑ j ∈ Finset.range w, (j : ℝ)) / w := by
      refine div_pos (Finset.sum_pos' (fun i _ => by positivity) ⟨1, by simp; omega, by norm_num⟩) ?_
      have : 0 < w := by omega
      exact_mod_cast this
    have hk : k = n / w := by
      by_contra hne
      have hkw : k * w + w ≤ n := by
        have h4 : k + 1 ≤ n / w := by omega
        have h5 := (Nat.le_div_iff_mul_le (by omega)).1 h4
        rw [Nat.add_mul, one_mul] at h5
        exact h5
      have h4 := hk3.resolve_left hne
      rw [decay_mean c s n (k * w) w (by omega) hkw] at h4
      cases k with
      | zero =>
        unfold prev at h4
        push_cast at h4
        nlinarith
      | succ k =>
        dsimp only [prev] at h4
        rw [Nat.add_mul, one_mul] at hkw
        rw [decay_mean c s n (k * w) w (by omega) (by omega)] at h4
        push_cast at h4
        have : (0 : ℝ) < w := by
          have : 0 < w := by omega
          exact_mod_cast this
        nlinarith
    rw [hk2, hk]
    have h4 := Nat.div_add_mod n w
    rw [mul_comm] at h4
    generalize n / w * w = q at h4 ⊢
    omega
  unfold trim
  rw [hp]
  dsimp only
  rw [he, h1]
  dsimp only
  rw [h2]
  dsimp only
  rw [hlen, h3, hend, if_neg hsafe, List.drop_of_length_le (by omega)]
  unfold aboveNoise noiseFloor
  dsimp only
  rw [decay_slope c s n n hn2 (le_refl _), if_neg (by linarith), if_pos rfl]

/-- The same decay at a high level (the mean value of the first 10 ms is not below 0 dB): the response is cut
5 ms after the peak, although it has not decayed at all. -/
theorem C91_loud_wrong (envelope : List ℝ → List ℝ) (minValue : ℝ) (x : List ℝ) (fs peak n : ℕ)
    (offset safety c s : ℝ) (hp : Latency.argmaxAbs x = .ok peak) (hn2 : windowLength fs 10 ≤ n)
    (hx : peak + windowLength fs 10 < x.length)
    (he : envelope (x.drop peak) = decay c s n) (hs : 0 < s) (hc : s * windowLength fs 10 ≤ c)
    (hw : 4 ≤ windowLength fs 10) :
    ∃ start stop imp, trim envelope minValue x fs offset safety = .ok (start, stop, imp) ∧
      stop ≤ peak + windowLength fs 10 / 2 := by
  obtain ⟨h1, h2, h3⟩ := decay_choice c s hs n fs hw (by omega)
  have hlen : (decay c s n).length = n := by simp [decay]
  have hend : endOf (decay c s n) (windowLength fs 10) = windowLength fs 10 / 2 := by
    obtain ⟨k, hk1, hk2, hk3, -⟩ := C91_windows (decay c s n) (windowLength fs 10)
    rw [hlen] at hk1 hk2
    generalize windowLength fs 10 = w at hw hc hn2 hk1 hk2 hk3 ⊢
    have hk : k = 0 := by
      by_contra hne
      have h4 := hk3 0 (by omega)
      rw [decay_mean c s n (0 * w) w (by omega) (by omega)] at h4
      unfold prev at h4
      have hw0 : (0 : ℝ) < w := by
        have : 0 < w := by omega
        exact_mod_cast this
      have h5 : (∑ j ∈ Finset.range w, (j : ℝ)) / w ≤ w := by
        rw [div_le_iff₀ hw0]
        refine (Finset.sum_le_card_nsmul _ _ (w : ℝ) fun i hi => ?_).trans ?_
        · rw [Finset.mem_range] at hi
          exact_mod_cast hi.le
        · simp
      simp only [zero_mul, Nat.cast_zero, mul_zero, sub_zero] at h4
      nlinarith
    rw [hk2, hk]
    omega
  unfold trim
  rw [hp]
  dsimp only
  rw [he, h1]
  dsimp only
  rw [h2]
  dsimp only
  rw [hlen, h3, hend]
  by_cases h0 : safety = 0
  · rw [if_pos h0]
    exact ⟨_, _, _, rfl, by omega⟩
  · rw [if_neg h0]
    have hdrop : x.drop (windowLength fs 10 / 2 + peak) ≠ [] := by
      rw [Ne, List.drop_eq_nil_iff]
      omega
    have hslope := decay_slope c s n (windowLength fs 10 / 2) (by omega) (by omega)
    obtain ⟨k, hk⟩ : ∃ k, aboveNoise (decay c s n) (windowLength fs 10 / 2)
        (noiseFloor (x.drop (windowLength fs 10 / 2 + peak)) minValue) |safety| = .ok k := by
      unfold aboveNoise noiseFloor
      dsimp only
      rw [hslope, if_neg (by linarith), if_neg hdrop]
      dsimp only
      rw [if_neg (by linarith)]
      exact ⟨_, rfl⟩
    rw [hk]
    have := (aboveNoise_bounds _ _ _ _ _ hk).1
    exact ⟨_, _, _, rfl, by omega⟩

/-! ### Examples -/

/-- 10 ms at 48 kHz -/
theorem window_example : windowLength 48000 10 = 480 := by
  unfold windowLength
  rw [Nat.floor_eq_iff (by positivity)]
  norm_num

/-- One second at 48 kHz from the peak on, 60 dB per second. -/
example : 4 ≤ windowLength 48000 10 ∧ 48000 % windowLength 48000 10 ≤ windowLength 48000 10 / 2 ∧
    60 / 48000 * (windowLength 48000 10 : ℝ) ≤ 1 := by
  rw [window_example]
  norm_num

example : Latency.argmaxAbs [(0 : ℚ), 0, 1, 1 / 2, 1 / 4] = .ok 2 := by decide +kernel

/-- A trimming that succeeds: the loud decay. -/
example (x : List ℝ) (hx : 1000 < x.length) (hp : Latency.argmaxAbs x = .ok 20) :
    ∃ start stop imp, trim (fun _ => decay 1 (60 / 48000) 48000) (1 / 10 ^ 300) x 48000 0 10 =
      .ok (start, stop, imp) := by
  obtain ⟨a, b, c, h, -⟩ := C91_loud_wrong (fun _ => decay 1 (60 / 48000) 48000) (1 / 10 ^ 300) x 48000 20 48000
    0 10 1 (60 / 48000) hp (by rw [window_example]; norm_num) (by rw [window_example]; omega) rfl (by norm_num)
    (by rw [window_example]; norm_num) (by rw [window_example]; norm_num)
  exact ⟨a, b, c, h⟩

end Verif.TrimIR
