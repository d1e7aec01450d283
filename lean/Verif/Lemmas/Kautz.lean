import Verif.Model.Kautz
import Verif.Lemmas.Implements

/-! Lemmas about Kautz filters: transfer functions of the taps. -/

namespace Verif.Kautz

open PowerSeries Bank

theorem addTap_implements {T : RTFilter ℝ} {G : RTFilter ℝ (List ℝ)} {f : List ℝ → ℝ}
    {g : List ℝ → List ℝ} (hT : Implements T f) (hG : Implements G g) :
    Implements (addTap T G) (fun xs => f xs :: g xs) := by
  have hafter : ∀ h, (addTap T G).after h = (T.after h, G.after (seen T (fun x _ => x) h)) := by
    intro h
    induction h using List.reverseRecOn with
    | nil => rfl
    | append_singleton h op ih =>
      rw [RTFilter.after_snoc, ih, RTFilter.after_snoc, seen_snoc]
      cases op with
      | reset => simp [RTFilter.after_snoc, RTFilter.exec, addTap]
      | setChannels m => simp [RTFilter.after_snoc, RTFilter.exec, addTap]
      | sample x c =>
        simp only [RTFilter.exec, addTap, RTFilter.answer]
        rcases hp : T.process (T.after h) x c with ⟨r, s'⟩
        cases r with
        | error e => simp
        | ok y =>
          simp only [RTFilter.after_snoc, RTFilter.exec]
          rcases hq : G.process (G.after (seen T (fun x _ => x) h)) x c with ⟨r2, s2⟩
          cases r2 <;> simp
  have hseen := hT.seen (fun x _ => x) (fun l => l.headD 0) (fun _ _ => rfl)
  have hid : ∀ xs : List ℝ, mapTails (fun l => l.headD 0) xs = xs := mapTails_id _ fun _ _ => rfl
  refine ⟨fun h x ch hc => ?_, fun h x ch hc => ?_⟩
  · have h1 := hT.answer h x ch hc
    have h2 := hG.answer (seen T (fun x _ => x) h) x ch (by rw [(hseen h).1]; exact hc)
    rw [(hseen h).2, hid] at h2
    unfold RTFilter.answer at h1 h2 ⊢
    rw [hafter]
    simp only [addTap]
    rcases hp : T.process (T.after h) x ch with ⟨r, s'⟩
    rcases hq : G.process (G.after (seen T (fun x _ => x) h)) x ch with ⟨r2, s2⟩
    rw [hp] at h1
    rw [hq] at h2
    dsimp only at h1 h2
    subst h1 h2
    rfl
  · have h1 := hT.refused h x ch hc
    unfold RTFilter.answer at h1 ⊢
    rw [hafter]
    simp only [addTap]
    rcases hp : T.process (T.after h) x ch with ⟨r, s'⟩
    rw [hp] at h1
    dsimp only at h1
    subst h1
    rfl

theorem advance_implements {A : RTFilter ℝ} {G : RTFilter ℝ (List ℝ)} {f : List ℝ → ℝ}
    {g : List ℝ → List ℝ} (hA : Implements A f) (hG : Implements G g) :
    Implements (advance A G) (fun xs => g (mapTails f xs)) := by
  have hafter : ∀ h, (advance A G).after h = (A.after h, G.after (seen A (fun _ y => y) h)) := by
    intro h
    induction h using List.reverseRecOn with
    | nil => rfl
    | append_singleton h op ih =>
      rw [RTFilter.after_snoc, ih, RTFilter.after_snoc, seen_snoc]
      cases op with
      | reset => simp [RTFilter.after_snoc, RTFilter.exec, advance]
      | setChannels m => simp [RTFilter.after_snoc, RTFilter.exec, advance]
      | sample x c =>
        simp only [RTFilter.exec, advance, RTFilter.answer]
        rcases hp : A.process (A.after h) x c with ⟨r, s'⟩
        cases r with
        | error e => simp
        | ok y => simp [RTFilter.after_snoc, RTFilter.exec]
  have hseen := hA.seen (fun _ y => y) f (fun _ _ => rfl)
  refine ⟨fun h x ch hc => ?_, fun h x ch hc => ?_⟩
  · have h1 := hA.answer h x ch hc
    have h2 := hG.answer (seen A (fun _ y => y) h) (f (x :: pastInputs ch h)) ch
      (by rw [(hseen h).1]; exact hc)
    rw [(hseen h).2, ← mapTails_cons] at h2
    unfold RTFilter.answer at h1 h2 ⊢
    rw [hafter]
    simp only [advance]
    rcases hp : A.process (A.after h) x ch with ⟨r, s'⟩
    rw [hp] at h1
    dsimp only at h1
    subst h1
    exact h2
  · have h1 := hA.refused h x ch hc
    unfold RTFilter.answer at h1 ⊢
    rw [hafter]
    simp only [advance]
    rcases hp : A.process (A.after h) x ch with ⟨r, s'⟩
    rw [hp] at h1
    dsimp only at h1
    subst h1
    rfl

/-- Transfer functions of the taps of one section. -/
noncomputable def Section.gains : Section → List (PowerSeries ℝ)
  | .real p => [ratio [√(1 - p ^ 2)] [1, -p]]
  | .pair q r =>
    [ratio [√((1 - r) * (1 + r - q) / 2), -√((1 - r) * (1 + r - q) / 2)] [1, q, r],
      ratio [√((1 - r) * (1 + r + q) / 2), √((1 - r) * (1 + r + q) / 2)] [1, q, r]]

/-- Transfer function of the allpass to the next section. -/
noncomputable def Section.adv : Section → PowerSeries ℝ
  | .real p => ratio [-p, 1] [1, -p]
  | .pair q r => ratio [r, q, 1] [1, q, r]

/-- Transfer functions of all taps. -/
noncomputable def gains : List Section → List (PowerSeries ℝ)
  | [] => []
  | s :: ss => s.gains ++ (gains ss).map (· * s.adv)

theorem gains_length (ss : List Section) : (gains ss).length = total ss := by
  induction ss with
  | nil => rfl
  | cons s ss ih => cases s <;> simp [gains, total, Section.taps, Section.gains, ih] <;> omega

/-- The taps of the realtime filter. -/
theorem bank_implements (ss : List Section) (hs : ss ≠ []) :
    Implements (bank ss) (fun xs => (gains ss).map (lastOut · xs)) := by
  have hsil : ∀ {A : RTFilter ℝ} {f}, Implements A f →
      Implements (advance A silent) (fun _ => []) := by
    intro A f hA
    have hafter : ∀ h, ((advance A silent).after h).1 = A.after h := by
      intro h
      induction h using List.reverseRecOn with
      | nil => rfl
      | append_singleton h op ih =>
        rw [RTFilter.after_snoc, RTFilter.after_snoc, ← ih]
        cases op with
        | reset => rfl
        | setChannels m => rfl
        | sample x c =>
          simp only [RTFilter.exec, advance]
          rcases hp : A.process _ x c with ⟨r, s'⟩
          cases r <;> simp
    refine ⟨fun h x ch hc => ?_, fun h x ch hc => ?_⟩
    · have h1 := hA.answer h x ch hc
      unfold RTFilter.answer at h1 ⊢
      rw [← hafter] at h1
      generalize (advance A silent).after h = st at h1 ⊢
      simp only [advance]
      rcases hp : A.process st.1 x ch with ⟨r, s'⟩
      rw [hp] at h1
      dsimp only at h1
      subst h1
      rfl
    · have h1 := hA.refused h x ch hc
      unfold RTFilter.answer at h1 ⊢
      rw [← hafter] at h1
      generalize (advance A silent).after h = st at h1 ⊢
      simp only [advance]
      rcases hp : A.process st.1 x ch with ⟨r, s'⟩
      rw [hp] at h1
      dsimp only at h1
      subst h1
      rfl
  induction ss with
  | nil => exact absurd rfl hs
  | cons s ss ih =>
    have hnext : ∀ {A : RTFilter ℝ} {H : PowerSeries ℝ}, Implements A (lastOut H) →
        Implements (advance A (bank ss)) (fun xs => ((gains ss).map (· * H)).map (lastOut · xs)) := by
      intro A H hA
      cases hss : ss with
      | nil => exact hsil hA
      | cons s' ss' =>
        rw [← hss]
        have := advance_implements hA (ih (by rw [hss]; simp))
        convert this using 2 with xs
        rw [List.map_map]
        refine List.map_congr_left fun g _ => ?_
        exact (lastOut_mapTails g H xs).symm
    have h0 : ∀ a : List ℝ, ([1] ++ a).getD 0 0 ≠ (0 : ℝ) := by simp
    cases s with
    | real p =>
      exact addTap_implements (iir_implements _ _ (h0 _) (by simp [IIRFilter.order]))
        (hnext (iir_implements _ _ (h0 _) (by simp [IIRFilter.order])))
    | pair q r =>
      exact addTap_implements (iir_implements _ _ (h0 [q, r]) (by simp [IIRFilter.order]))
        (addTap_implements (iir_implements _ _ (h0 [q, r]) (by simp [IIRFilter.order]))
          (hnext (iir_implements _ _ (h0 [q, r]) (by simp [IIRFilter.order]))))

theorem zseries_map_mul (k : ℝ) (b : List ℝ) : zseries (b.map (k * ·)) = C k * zseries b := by
  ext n
  rw [zseries_coeff, coeff_C_mul, zseries_coeff]
  by_cases h : n < b.length
  · rw [List.getD_eq_getElem _ _ (by simpa using h), List.getD_eq_getElem _ _ h, List.getElem_map]
  · rw [List.getD_eq_default _ _ (by simpa using h), List.getD_eq_default _ _ (by omega), mul_zero]

theorem tap_column (b b' a x : List ℝ) (k c : ℝ) (ha : a.getD 0 0 ≠ 0) (hb : b' = b.map (k * ·)) (n : ℕ)
    (hn : n < x.length) :
    ((lfilter b a x).map fun v => k * v * c).getD n 0 = coeff n (ratio b' a * zseries x) * c := by
  have h1 := lfilter_agree b a x ha n hn
  rw [zseries_coeff] at h1
  have hl : n < (lfilter b a x).length := by rw [lfilter_length]; exact hn
  rw [List.getD_eq_getElem _ _ hl] at h1
  rw [List.getD_eq_getElem _ _ (by simpa using hl), List.getElem_map, h1, hb]
  unfold ratio
  rw [zseries_map_mul, mul_assoc (C k), mul_assoc (C k), coeff_C_mul]

/-- The columns of the tap-out matrix. -/
theorem columns_spec (ss : List Section) (c x : List ℝ) :
    (columns ss c x).length = total ss ∧ ∀ i < total ss,
      ((columns ss c x).getD i []).length = x.length ∧ ∀ n < x.length,
        ((columns ss c x).getD i []).getD n 0 =
          coeff n ((gains ss).getD i 0 * zseries x) * c.getD i 0 := by
  induction ss generalizing c x with
  | nil => exact ⟨rfl, fun i hi => absurd hi (by simp [total])⟩
  | cons s ss ih =>
    have hrest : ∀ (b a : List ℝ) (m : ℕ), a.getD 0 0 ≠ 0 → ∀ j < total ss,
        ((columns ss (c.drop m) (lfilter b a x)).getD j []).length = x.length ∧ ∀ n < x.length,
        ((columns ss (c.drop m) (lfilter b a x)).getD j []).getD n 0 =
          coeff n (((gains ss).map (· * ratio b a)).getD j 0 * zseries x) * c.getD (m + j) 0 := by
      intro b a m ha j hj
      obtain ⟨h1, h2⟩ := (ih (c.drop m) (lfilter b a x)).2 j hj
      rw [lfilter_length] at h1 h2
      refine ⟨h1, fun n hn => ?_⟩
      rw [h2 n hn, LFilter.getD_drop]
      congr 1
      rw [(lfilter_agree b a x ha).mul_left _ n hn]
      have hg : j < (gains ss).length := by rw [gains_length]; exact hj
      rw [List.getD_eq_getElem _ _ hg, List.getD_eq_getElem _ _ (by simpa using hg), List.getElem_map,
        mul_assoc]
    cases s with
    | real p =>
      refine ⟨by simp [columns, (ih _ _).1, total, Section.taps]; omega, fun i hi => ?_⟩
      cases i with
      | zero =>
        refine ⟨by simp [columns, lfilter_length], fun n hn => ?_⟩
        exact tap_column [1] _ _ x _ _ (by simp) (by simp) n hn
      | succ i =>
        have hi' : i < total ss := by simp [total, Section.taps] at hi ⊢; omega
        obtain ⟨h1, h2⟩ := hrest [-p, 1] [1, -p] 1 (by simp) i hi'
        refine ⟨h1, fun n hn => ?_⟩
        rw [add_comm i 1]
        have e1 : (columns (.real p :: ss) c x).getD (1 + i) [] =
            (columns ss (c.drop 1) (lfilter [-p, 1] [1, -p] x)).getD i [] := by
          rw [add_comm 1 i]; rfl
        have e2 : (gains (.real p :: ss)).getD (1 + i) 0 =
            ((gains ss).map (· * ratio [-p, 1] [1, -p])).getD i 0 := by
          rw [add_comm 1 i]; rfl
        rw [e1, e2]
        exact h2 n hn
    | pair q r =>
      refine ⟨by simp [columns, (ih _ _).1, total, Section.taps]; omega, fun i hi => ?_⟩
      match i with
      | 0 =>
        refine ⟨by simp [columns, lfilter_length], fun n hn => ?_⟩
        exact tap_column [1, -1] _ _ x _ _ (by simp) (by simp) n hn
      | 1 =>
        refine ⟨by simp [columns, lfilter_length], fun n hn => ?_⟩
        exact tap_column [1, 1] _ _ x _ _ (by simp) (by simp) n hn
      | i + 2 =>
        have hi' : i < total ss := by simp [total, Section.taps] at hi ⊢; omega
        obtain ⟨h1, h2⟩ := hrest [r, q, 1] [1, q, r] 2 (by simp) i hi'
        refine ⟨h1, fun n hn => ?_⟩
        have e1 : (columns (.pair q r :: ss) c x).getD (i + 2) [] =
            (columns ss (c.drop 2) (lfilter [r, q, 1] [1, q, r] x)).getD i [] := rfl
        have e2 : (gains (.pair q r :: ss)).getD (i + 2) 0 =
            ((gains ss).map (· * ratio [r, q, 1] [1, q, r])).getD i 0 := rfl
        rw [e1, e2, add_comm i 2]
        exact h2 n hn

end Verif.Kautz
