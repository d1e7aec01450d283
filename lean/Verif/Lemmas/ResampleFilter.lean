import Verif.Model.ResampleFilter
import Mathlib.Algebra.BigOperators.Group.List.Lemmas
import Mathlib.Algebra.BigOperators.Ring.List
import Mathlib.Tactic.FieldSimp
import Mathlib.Tactic.Ring
import Mathlib.Tactic.Linarith
import Mathlib.Tactic.NormNum
import Mathlib.Tactic.LinearCombination
import Mathlib.Data.Complex.BigOperators

/-!
# Lemmas about the resampling of filters
-/

namespace Verif.ResampleFilter

theorem add_one_ne {w : ℂ} (h : w ≠ -1) : w + 1 ≠ 0 := fun h0 => h (eq_neg_of_add_eq_zero_left h0)

theorem sub_toAnalog_self (f w : ℂ) (hw : w ≠ -1) : f - toAnalog f w = 2 * f / (w + 1) := by
  have := add_one_ne hw
  unfold toAnalog
  field_simp
  ring

theorem toAnalog_sub (f z w : ℂ) (hz : z ≠ -1) (hw : w ≠ -1) :
    toAnalog f z - toAnalog f w = (f - toAnalog f w) * ((z - w) / (z + 1)) := by
  have h1 := add_one_ne hz
  have h2 := add_one_ne hw
  rw [sub_toAnalog_self f w hw]
  unfold toAnalog
  field_simp
  ring

theorem toAnalog_zero (f : ℂ) : toAnalog f 0 = -f := by simp [toAnalog]

theorem sub_toDigital (f z s : ℂ) (hz : z ≠ -1) (hs : f ≠ s) :
    z - toDigital f s = (z + 1) * ((toAnalog f z - s) / (f - s)) := by
  have h1 := add_one_ne hz
  have h2 := sub_ne_zero.mpr hs
  unfold toDigital toAnalog
  field_simp
  ring

theorem prod_toAnalog (f z : ℂ) (hz : z ≠ -1) (l : List ℂ) (hl : ∀ w ∈ l, w ≠ -1) :
    ((l.map (toAnalog f)).map fun s => toAnalog f z - s).prod * (z + 1) ^ l.length =
      ((l.map (toAnalog f)).map fun s => f - s).prod * (l.map fun w => z - w).prod := by
  have h1 := add_one_ne hz
  induction l with
  | nil => simp
  | cons w l ih =>
    simp only [List.map_cons, List.prod_cons, List.length_cons]
    rw [toAnalog_sub f z w hz (hl w (by simp)), pow_succ]
    have := ih fun v hv => hl v (by simp [hv])
    calc _ = (f - toAnalog f w) * (z - w) * ((((l.map (toAnalog f)).map
              fun s => toAnalog f z - s).prod) * (z + 1) ^ l.length) := by
            field_simp
      _ = _ := by rw [this]; ring

theorem prod_toDigital (f z : ℂ) (hz : z ≠ -1) (l : List ℂ) (hl : f ∉ l) :
    ((l.map (toDigital f)).map fun w => z - w).prod * (l.map fun s => f - s).prod =
      (z + 1) ^ l.length * (l.map fun s => toAnalog f z - s).prod := by
  induction l with
  | nil => simp
  | cons s l ih =>
    simp only [List.mem_cons, not_or] at hl
    have h2 := sub_ne_zero.mpr hl.1
    simp only [List.map_cons, List.prod_cons, List.length_cons]
    rw [sub_toDigital f z s hz hl.1, pow_succ]
    calc _ = (z + 1) * (toAnalog f z - s) * ((((l.map (toDigital f)).map
              fun w => z - w).prod) * (l.map fun s => f - s).prod) := by
            field_simp
      _ = _ := by rw [ih hl.2]; ring

theorem prod_sub_ne (f : ℂ) (l : List ℂ) (hl : f ∉ l) : (l.map fun s => f - s).prod ≠ 0 := by
  rw [Ne, List.prod_eq_zero_iff]
  intro h
  obtain ⟨s, hs, h0⟩ := List.mem_map.mp h
  exact hl (sub_eq_zero.mp h0 ▸ hs)

/-- Real or in conjugate pairs. -/
def Sym (l : List ℂ) : Prop := (l.map (starRingEnd ℂ)).Perm l

theorem Sym.append {l l' : List ℂ} (h : Sym l) (h' : Sym l') : Sym (l ++ l') := by
  unfold Sym
  rw [List.map_append]
  exact List.Perm.append h h'

theorem Sym.replicate (n : ℕ) (r : ℝ) : Sym (List.replicate n (r : ℂ)) := by
  unfold Sym
  rw [List.map_replicate, Complex.conj_ofReal]

theorem Sym.map {l : List ℂ} (h : Sym l) (g : ℂ → ℂ)
    (hg : ∀ w, starRingEnd ℂ (g w) = g (starRingEnd ℂ w)) : Sym (l.map g) := by
  unfold Sym
  rw [List.map_map]
  have : (l.map (starRingEnd ℂ ∘ g)) = (l.map (starRingEnd ℂ)).map g := by
    rw [List.map_map]
    refine List.map_congr_left fun w _ => hg w
  rw [this]
  exact List.Perm.map g h

theorem Sym.filter {l : List ℂ} (h : Sym l) : Sym (l.filter fun w => decide (w ≠ -1)) := by
  unfold Sym
  have : (l.filter fun w => decide (w ≠ -1)).map (starRingEnd ℂ) =
      (l.map (starRingEnd ℂ)).filter fun w => decide (w ≠ -1) := by
    rw [List.filter_map]
    congr 1
    refine List.filter_congr fun w _ => ?_
    simp only [Function.comp, decide_eq_decide]
    refine not_congr ⟨fun h => ?_, fun h => ?_⟩
    · rw [h]; simp
    · have := congrArg (starRingEnd ℂ) h
      simpa using this
  rw [this]
  exact List.Perm.filter _ h

theorem Sym.prod_real {l : List ℂ} (h : Sym l) (f : ℝ) :
    ∃ r : ℝ, (l.map fun s => (f : ℂ) - s).prod = r := by
  have hc : starRingEnd ℂ (l.map fun s => (f : ℂ) - s).prod = (l.map fun s => (f : ℂ) - s).prod := by
    rw [map_list_prod, List.map_map]
    have : l.map (starRingEnd ℂ ∘ fun s => (f : ℂ) - s) =
        (l.map (starRingEnd ℂ)).map fun s => (f : ℂ) - s := by
      rw [List.map_map]
      refine List.map_congr_left fun w _ => ?_
      simp
    rw [this]
    exact (List.Perm.map _ h).prod_eq
  exact Complex.conj_eq_iff_real.mp hc

theorem toAnalog_conj (f : ℝ) (w : ℂ) :
    starRingEnd ℂ (toAnalog f w) = toAnalog f (starRingEnd ℂ w) := by
  simp [toAnalog]

theorem toDigital_conj (f : ℝ) (w : ℂ) :
    starRingEnd ℂ (toDigital f w) = toDigital f (starRingEnd ℂ w) := by
  simp [toDigital]

/-- The zeros of the filter that is mapped to the new rate. -/
noncomputable def effZeros (F : Zpk) : List ℂ :=
  let z := F.z.filter fun w => decide (w ≠ -1)
  if F.p.length - F.z.length ≠ 0 then z ++ List.replicate (F.p.length - z.length) 0 else z

/-- The poles of the filter that is mapped to the new rate. -/
noncomputable def effPoles (F : Zpk) : List ℂ :=
  let z := F.z.filter fun w => decide (w ≠ -1)
  if F.z.length - F.p.length ≠ 0 then F.p ++ List.replicate (z.length - F.p.length) 0 else F.p

theorem analogZeros_eq (F : Zpk) (f : ℂ) : analogZeros F f = (effZeros F).map (toAnalog f) := by
  unfold analogZeros effZeros
  simp only [List.length_map]
  split_ifs
  · rw [List.map_append, List.map_replicate, toAnalog_zero]
  · rfl

theorem analogPoles_eq (F : Zpk) (f : ℂ) : analogPoles F f = (effPoles F).map (toAnalog f) := by
  unfold analogPoles effPoles
  simp only [List.length_map]
  split_ifs
  · rw [List.map_append, List.map_replicate, toAnalog_zero]
  · rfl

theorem effZeros_ne (F : Zpk) : ∀ w ∈ effZeros F, w ≠ -1 := by
  intro w hw
  unfold effZeros at hw
  have h1 : w ∈ F.z.filter (fun w => decide (w ≠ -1)) → w ≠ -1 := fun h => by
    simpa using (List.mem_filter.mp h).2
  simp only at hw
  split_ifs at hw
  · rcases List.mem_append.mp hw with h | h
    · exact h1 h
    · rw [(List.mem_replicate.mp h).2]; norm_num
  · exact h1 hw

theorem effPoles_mem (F : Zpk) (w : ℂ) (hw : w ∈ effPoles F) : w ∈ F.p ∨ w = 0 := by
  unfold effPoles at hw
  simp only at hw
  split_ifs at hw
  · rcases List.mem_append.mp hw with h | h
    · exact Or.inl h
    · exact Or.inr (List.mem_replicate.mp h).2
  · exact Or.inl hw

theorem effPoles_ne (F : Zpk) (h : (-1 : ℂ) ∉ F.p) : ∀ w ∈ effPoles F, w ≠ -1 := by
  intro w hw
  rcases effPoles_mem F w hw with h1 | h1
  · rintro rfl; exact h h1
  · rw [h1]; norm_num

theorem effZeros_sym (F : Zpk) (h : Sym F.z) : Sym (effZeros F) := by
  unfold effZeros
  simp only
  split_ifs
  · exact h.filter.append (by simpa using Sym.replicate _ 0)
  · exact h.filter

theorem effPoles_sym (F : Zpk) (h : Sym F.p) : Sym (effPoles F) := by
  unfold effPoles
  simp only
  split_ifs
  · exact h.append (by simpa using Sym.replicate _ 0)
  · exact h

theorem filter_length (l : List ℂ) :
    (l.filter fun w => decide (w ≠ -1)).length + l.count (-1) = l.length := by
  induction l with
  | nil => rfl
  | cons a l ih =>
    by_cases h : a = -1
    · subst h
      rw [List.filter_cons_of_neg (by simp), List.count_cons_self, List.length_cons]
      omega
    · rw [List.filter_cons_of_pos (by simpa using h), List.count_cons_of_ne (by exact h)]
      simp only [List.length_cons]
      omega

theorem filter_prod (l : List ℂ) (z : ℂ) :
    ((l.filter fun w => decide (w ≠ -1)).map fun w => z - w).prod * (z + 1) ^ l.count (-1) =
      (l.map fun w => z - w).prod := by
  induction l with
  | nil => simp
  | cons a l ih =>
    by_cases h : a = -1
    · subst h
      rw [List.filter_cons_of_neg (by simp), List.count_cons_self, List.map_cons, List.prod_cons,
        ← ih, pow_succ, sub_neg_eq_add]
      ring
    · rw [List.filter_cons_of_pos (by simpa using h), List.count_cons_of_ne (by exact h),
        List.map_cons, List.prod_cons, List.map_cons, List.prod_cons, ← ih]
      ring

theorem effLength_le (F : Zpk) : (effZeros F).length ≤ (effPoles F).length := by
  have := filter_length F.z
  unfold effZeros effPoles
  simp only
  split_ifs <;> (try simp only [List.length_append, List.length_replicate]) <;> omega

end Verif.ResampleFilter
