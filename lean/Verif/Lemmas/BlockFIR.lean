import Verif.Model.BlockFIR
import Verif.Spec.Blocks
import Verif.Lemmas.DFT
import Verif.Lemmas.Channels
import Mathlib.Data.List.GetD
import Mathlib.Data.List.OfFn
import Mathlib.Algebra.BigOperators.Intervals
import Mathlib.Tactic.Linarith

/-! Lemmas about the block-processing FIR filters. -/

namespace Verif.BlockFIR

open DFT Finset

theorem nextFastLen_le (t : ℕ) : t ≤ nextFastLen t := by
  classical
  exact (Nat.find_spec (exists_smooth t)).2

theorem nextFastLen_eq (t : ℕ) (h : Smooth t) : nextFastLen t = t := by
  classical
  exact le_antisymm (Nat.find_min' _ ⟨h, le_rfl⟩) (nextFastLen_le t)

theorem irfftLen_even (N : ℕ) (h : Even N) : irfftLen (rfftBins N) = N := by
  obtain ⟨m, hm⟩ := h
  unfold irfftLen rfftBins
  omega

theorem samples_getD_lt {B : ℕ} (b : Fin B → ℝ) (bs : List (Fin B → ℝ)) (i : ℕ) (hi : i < B) :
    (samples (b :: bs)).getD i 0 = b ⟨B - 1 - i, by omega⟩ := by
  rw [samples, List.getD_append _ _ _ _ (by simpa using hi), List.getD_eq_getElem _ _ (by simpa using hi)]
  simp

theorem samples_getD_ge {B : ℕ} (b : Fin B → ℝ) (bs : List (Fin B → ℝ)) (i : ℕ) (hi : B ≤ i) :
    (samples (b :: bs)).getD i 0 = (samples bs).getD (i - B) 0 := by
  rw [samples, List.getD_append_right _ _ _ _ (by simpa using hi)]
  simp

theorem getD_drop' (l : List ℝ) (k i : ℕ) : (l.drop k).getD i 0 = l.getD (k + i) 0 := by
  simp [List.getD_eq_getElem?_getD]

/-! ### Overlap-save -/

theorem loadBlock_eq {B : ℕ} (N : ℕ) (hN : B ≤ N) (buf : ℕ → ℝ) (block : Fin B → ℝ)
    (past : List (Fin B → ℝ))
    (hb : ∀ j < N - B, buf j = (samples past).getD (N - B - 1 - j) 0) (j : ℕ) (hj : j < N) :
    loadBlock N buf block j = (samples (block :: past)).getD (N - 1 - j) 0 := by
  unfold loadBlock
  split
  · rename_i h
    rw [hb j h, samples_getD_ge _ _ _ (by omega)]
    congr 1
    omega
  · rename_i h
    rw [dif_pos (by omega), samples_getD_lt _ _ _ (by omega)]
    congr 1
    apply Fin.ext
    show j - (N - B) = B - 1 - (N - 1 - j)
    omega

theorem overlapSave_buffer (fir : List ℝ) (B : ℕ) (past : List (Fin B → ℝ)) (j : ℕ)
    (hj : j < totalLength fir B - B) :
    (overlapSaveColumn fir B).colAfter past j
      = (samples past).getD (totalLength fir B - B - 1 - j) 0 := by
  have hN : fir.length + B ≤ totalLength fir B := nextFastLen_le _
  induction past generalizing j with
  | nil => simp [samples]; rfl
  | cons b past ih =>
    have : (overlapSaveColumn fir B).colAfter (b :: past) j
        = if j < totalLength fir B - B then
            loadBlock (totalLength fir B) ((overlapSaveColumn fir B).colAfter past) b (j + B)
          else loadBlock (totalLength fir B) ((overlapSaveColumn fir B).colAfter past) b j := rfl
    rw [this, if_pos hj, loadBlock_eq _ (by omega) _ _ past ih _ (by omega)]
    congr 1
    omega

theorem overlapSave_out (fir : List ℝ) (hfir : fir ≠ []) (B : ℕ) (hB : 0 < B)
    (he : Even (totalLength fir B))
    (past : List (Fin B → ℝ)) (b : Fin B → ℝ) :
    (overlapSaveColumn fir B).out past b = convBlock fir past b := by
  have hN : fir.length + B ≤ totalLength fir B := nextFastLen_le _
  have hL : 0 < fir.length := List.length_pos_of_ne_nil hfir
  funext i
  have : (overlapSaveColumn fir B).out past b i
      = irfft (irfftLen (rfftBins (totalLength fir B)))
        (fun k => rfft (totalLength fir B) (loadBlock (totalLength fir B)
            ((overlapSaveColumn fir B).colAfter past) b) k
          * rfft (totalLength fir B) (fun m => fir.getD m 0) k)
        (irfftLen (rfftBins (totalLength fir B)) - B + i) := rfl
  rw [this, irfftLen_even _ he, irfft_mul _ (by omega) he]
  unfold convBlock tapSum
  have hi := i.2
  rw [← Finset.sum_subset (s₁ := range fir.length)]
  · refine Finset.sum_congr rfl fun m hm => ?_
    have hm' := mem_range.1 hm
    rw [loadBlock_eq _ (by omega) _ _ past (overlapSave_buffer fir B past) _
      (Nat.mod_lt _ (by omega)), getD_drop']
    congr 2
    rw [show totalLength fir B - B + ↑i + totalLength fir B - m
      = (totalLength fir B - B + ↑i - m) + totalLength fir B by omega, Nat.add_mod_right,
      Nat.mod_eq_of_lt (by omega)]
    omega
  · intro m hm
    simp only [mem_range] at hm ⊢
    omega
  · intro m _ hm
    simp only [mem_range, not_lt] at hm
    rw [List.getD_eq_default _ _ hm, zero_mul]

/-! ### Uniform partitions -/

/-- The window of the last `2 * B` samples. -/
noncomputable def window {B : ℕ} (bs : List (Fin B → ℝ)) (j : ℕ) : ℝ :=
  (samples bs).getD (2 * B - 1 - j) 0

/-- What one channel stores when it has received the blocks `bs`. -/
structure PartInv (fir : List ℝ) {B : ℕ} (bs : List (Fin B → ℝ)) (ind : ℕ) (spec : ℕ → ℕ → ℂ)
    (inb : ℕ → ℝ) : Prop where
  ind_lt : ind < nPartitions fir B
  spec_eq : ∀ q < nPartitions fir B,
    spec ((ind + 2 * nPartitions fir B - 1 - q) % nPartitions fir B)
      = rfft (2 * B) (window (bs.drop q))
  inb_eq : ∀ j, B ≤ j → j < 2 * B → inb j = window bs j

theorem rfft_congr (N : ℕ) (x y : ℕ → ℝ) (h : ∀ j < N, x j = y j) : rfft N x = rfft N y := by
  funext k
  unfold rfft dft
  refine Finset.sum_congr rfl fun n hn => ?_
  simp only [h n (mem_range.1 hn)]

theorem rfft_zero (N : ℕ) : rfft N (fun _ => 0) = fun _ => 0 := by
  funext k
  simp [rfft, dft]

theorem partInv_nil (fir : List ℝ) (B : ℕ) (ind : ℕ) (h : ind < nPartitions fir B) :
    PartInv fir ([] : List (Fin B → ℝ)) ind (fun _ _ => 0) (fun _ => 0) := by
  refine ⟨h, fun q _ => ?_, fun j _ _ => ?_⟩
  · rw [rfft_congr _ (window (([] : List (Fin B → ℝ)).drop q)) (fun _ => 0), rfft_zero]
    intro j _
    simp [window, samples]
  · simp [window, samples]

theorem window_cons {B : ℕ} (b : Fin B → ℝ) (bs : List (Fin B → ℝ)) (inb : ℕ → ℝ)
    (hin : ∀ j, B ≤ j → j < 2 * B → inb j = window bs j) (j : ℕ) (hj : j < 2 * B) :
    (if j < B then inb (j + B) else if h : j - B < B then b ⟨j - B, h⟩ else 0)
      = window (b :: bs) j := by
  unfold window
  split
  · rename_i h
    rw [hin (j + B) (by omega) (by omega), samples_getD_ge _ _ _ (by omega)]
    unfold window
    congr 1
    omega
  · rename_i h
    rw [dif_pos (by omega), samples_getD_lt _ _ _ (by omega)]
    congr 1
    apply Fin.ext
    show j - B = B - 1 - (2 * B - 1 - j)
    omega

theorem partInv_spec (fir : List ℝ) {B : ℕ} (bs : List (Fin B → ℝ)) (ind : ℕ)
    (spec : ℕ → ℕ → ℂ) (inb : ℕ → ℝ) (b : Fin B → ℝ) (hI : PartInv fir bs ind spec inb)
    (p : ℕ) (hp : p < nPartitions fir B) :
    (partStep fir ind spec inb b).2.1
        (if p ≤ ind then ind - p else ind + nPartitions fir B - p)
      = rfft (2 * B) (window ((b :: bs).drop p)) := by
  have hlt := hI.ind_lt
  have hdef : ∀ r, (partStep fir ind spec inb b).2.1 r
      = if r = ind then rfft (2 * B) (fun j => if j < B then inb (j + B)
          else if h : j - B < B then b ⟨j - B, h⟩ else 0) else spec r := fun _ => rfl
  rw [hdef]
  cases p with
  | zero =>
    rw [if_pos (by simp)]
    exact rfft_congr _ _ _ (fun j hj => window_cons b bs inb hI.inb_eq j hj)
  | succ q =>
    have hne : (if q + 1 ≤ ind then ind - (q + 1) else ind + nPartitions fir B - (q + 1)) ≠ ind := by
      split <;> omega
    rw [if_neg hne]
    have := hI.spec_eq q (by omega)
    rw [List.drop_succ_cons, ← this]
    congr 1
    split
    · rw [show ind + 2 * nPartitions fir B - 1 - q
        = (ind - (q + 1)) + nPartitions fir B + nPartitions fir B by omega, Nat.add_mod_right,
        Nat.add_mod_right, Nat.mod_eq_of_lt (by omega)]
    · rw [show ind + 2 * nPartitions fir B - 1 - q
        = (ind + nPartitions fir B - (q + 1)) + nPartitions fir B by omega, Nat.add_mod_right,
        Nat.mod_eq_of_lt (by omega)]

theorem partInv_step (fir : List ℝ) {B : ℕ} (bs : List (Fin B → ℝ)) (ind : ℕ)
    (spec : ℕ → ℕ → ℂ) (inb : ℕ → ℝ) (b : Fin B → ℝ) (hI : PartInv fir bs ind spec inb) :
    PartInv fir (b :: bs) ((ind + 1) % nPartitions fir B)
      (partStep fir ind spec inb b).2.1 (partStep fir ind spec inb b).2.2 := by
  have hlt := hI.ind_lt
  refine ⟨Nat.mod_lt _ (by omega), fun q hq => ?_, fun j h1 h2 => ?_⟩
  · rw [← partInv_spec fir bs ind spec inb b hI q hq]
    by_cases hw : ind + 1 < nPartitions fir B
    · rw [Nat.mod_eq_of_lt hw]
      split
      · rw [show ind + 1 + 2 * nPartitions fir B - 1 - q
          = (ind - q) + nPartitions fir B + nPartitions fir B by omega, Nat.add_mod_right,
          Nat.add_mod_right, Nat.mod_eq_of_lt (by omega)]
      · rw [show ind + 1 + 2 * nPartitions fir B - 1 - q
          = (ind + nPartitions fir B - q) + nPartitions fir B by omega, Nat.add_mod_right,
          Nat.mod_eq_of_lt (by omega)]
    · have : ind + 1 = nPartitions fir B := by omega
      rw [← this, Nat.mod_self, this, if_pos (by omega)]
      rw [show 0 + 2 * nPartitions fir B - 1 - q
          = (ind - q) + nPartitions fir B by omega, Nat.add_mod_right,
          Nat.mod_eq_of_lt (by omega)]
  · exact window_cons b bs inb hI.inb_eq j h2

theorem samples_drop {B : ℕ} (bs : List (Fin B → ℝ)) (p i : ℕ) :
    (samples (bs.drop p)).getD i 0 = (samples bs).getD (p * B + i) 0 := by
  induction p generalizing bs with
  | zero => simp
  | succ p ih =>
    cases bs with
    | nil => simp [samples]
    | cons b bs =>
      rw [List.drop_succ_cons, ih, samples_getD_ge _ _ _ (by nlinarith)]
      congr 1
      rw [Nat.succ_mul]
      omega

theorem sum_blocks (P B : ℕ) (f : ℕ → ℝ) :
    ∑ p ∈ range P, ∑ m ∈ range B, f (p * B + m) = ∑ n ∈ range (P * B), f n := by
  induction P with
  | zero => simp
  | succ P ih => rw [Finset.sum_range_succ, ih, Nat.succ_mul, Finset.sum_range_add]

theorem irfft_congr (n : ℕ) (X Y : ℕ → ℂ) (h : ∀ k, X k = Y k) (j : ℕ) :
    irfft n X j = irfft n Y j := by
  rw [funext h]

theorem partStep_out (fir : List ℝ) {B : ℕ} (hB : 0 < B) (bs : List (Fin B → ℝ)) (ind : ℕ)
    (spec : ℕ → ℕ → ℂ) (inb : ℕ → ℝ) (b : Fin B → ℝ) (hI : PartInv fir bs ind spec inb) :
    (partStep fir ind spec inb b).1 = convBlock fir bs b := by
  funext i
  have hi := i.2
  have he : Even (2 * B) := even_two_mul B
  have hdef : (partStep fir ind spec inb b).1 i
      = irfft (irfftLen (rfftBins (2 * B)))
      (fun k => ∑ p ∈ range (nPartitions fir B), rfft (2 * B) (partition fir B p) k *
        (partStep fir ind spec inb b).2.1
          (if p ≤ ind then ind - p else ind + nPartitions fir B - p) k)
      (irfftLen (rfftBins (2 * B)) - B + i) := rfl
  rw [hdef, irfftLen_even _ he]
  have hk : ∀ k, (∑ p ∈ range (nPartitions fir B), rfft (2 * B) (partition fir B p) k *
        (partStep fir ind spec inb b).2.1
          (if p ≤ ind then ind - p else ind + nPartitions fir B - p) k)
      = ∑ p ∈ range (nPartitions fir B), rfft (2 * B) (window ((b :: bs).drop p)) k *
        rfft (2 * B) (partition fir B p) k := by
    intro k
    refine Finset.sum_congr rfl fun p hp => ?_
    rw [partInv_spec fir bs ind spec inb b hI p (mem_range.1 hp), mul_comm]
  rw [irfft_congr _ _ _ hk, irfft_sum]
  have hp : ∀ p ∈ range (nPartitions fir B),
      irfft (2 * B) (fun k => rfft (2 * B) (window ((b :: bs).drop p)) k *
        rfft (2 * B) (partition fir B p) k) (2 * B - B + i)
      = ∑ m ∈ range B, fir.getD (p * B + m) 0
          * ((samples (b :: bs)).drop (B - 1 - i)).getD (p * B + m) 0 := by
    intro p _
    rw [irfft_mul _ (by omega) he, ← Finset.sum_subset (s₁ := range B)]
    · refine Finset.sum_congr rfl fun m hm => ?_
      have hm' := mem_range.1 hm
      unfold partition window
      rw [if_pos hm', samples_drop, getD_drop']
      congr 2
      rw [show 2 * B - B + ↑i + 2 * B - m = (B + i - m) + 2 * B by omega, Nat.add_mod_right,
        Nat.mod_eq_of_lt (by omega)]
      omega
    · intro m hm
      simp only [mem_range] at hm ⊢
      omega
    · intro m _ hm
      simp only [mem_range] at hm
      simp [partition, hm]
  rw [Finset.sum_congr rfl hp,
    sum_blocks (nPartitions fir B) B (fun n => fir.getD n 0
      * ((samples (b :: bs)).drop (B - 1 - i)).getD n 0)]
  unfold convBlock tapSum
  symm
  refine Finset.sum_subset ?_ ?_
  · intro m hm
    simp only [mem_range] at hm ⊢
    have h1 := Nat.div_add_mod fir.length B
    have h2 := Nat.mod_lt fir.length hB
    unfold nPartitions
    rw [Nat.succ_mul, Nat.mul_comm]
    omega
  · intro m _ hm
    simp only [mem_range, not_lt] at hm
    rw [List.getD_eq_default _ _ hm, zero_mul]

/-! ### Histories -/

theorem part_process_pos (fir : List ℝ) (B : ℕ) (s : PartState) (b : Fin B → ℝ) (ch : ℕ)
    (h : ch < s.n) :
    (uniformPartitioned fir B).process s b ch =
      (.ok (partStep fir s.ind (s.spec ch) (s.inb ch) b).1,
        (⟨s.n, (s.ind + 1) % nPartitions fir B,
        fun c => if c = ch then (partStep fir s.ind (s.spec ch) (s.inb ch) b).2.1 else s.spec c,
        fun c => if c = ch then (partStep fir s.ind (s.spec ch) (s.inb ch) b).2.2
          else s.inb c⟩ : PartState)) :=
  if_pos h

theorem part_process_neg (fir : List ℝ) (B : ℕ) (s : PartState) (b : Fin B → ℝ) (ch : ℕ)
    (h : ¬ ch < s.n) :
    (uniformPartitioned fir B).process s b ch = (.error .indexError, s) := if_neg h

/-- The state of a partitioned filter after a history: channel `ch` is as it should be if
no other channel received blocks since the last reset. -/
theorem part_after (fir : List ℝ) (B : ℕ) (h : List (Op (Fin B → ℝ))) :
    ∃ s : PartState, (uniformPartitioned fir B).after h = s ∧ s.n = nChannels h ∧
      s.ind < nPartitions fir B ∧
      ∀ ch, (∀ c, c ≠ ch → pastInputs c h = []) →
        PartInv fir (pastInputs ch h) s.ind (s.spec ch) (s.inb ch) := by
  have hP : 0 < nPartitions fir B := Nat.succ_pos _
  induction h using List.reverseRecOn with
  | nil => exact ⟨_, rfl, rfl, hP, fun ch _ => partInv_nil fir B 0 hP⟩
  | append_singleton h op ih =>
    obtain ⟨s, hs, hn, hind, hI⟩ := ih
    rw [RTFilter.after_snoc, nChannels_snoc, hs]
    cases op with
    | reset =>
      refine ⟨⟨s.n, s.ind, fun _ _ _ => 0, fun _ _ => 0⟩, rfl, hn, hind, fun ch _ => ?_⟩
      rw [pastInputs_snoc]
      exact partInv_nil fir B s.ind hind
    | setChannels m =>
      refine ⟨⟨m, 0, fun _ _ _ => 0, fun _ _ => 0⟩, rfl, rfl, hP, fun ch _ => ?_⟩
      rw [pastInputs_snoc]
      exact partInv_nil fir B 0 hP
    | sample b c =>
      by_cases hc : c < s.n
      · refine ⟨_, congrArg Prod.snd (part_process_pos fir B s b c hc), hn,
          Nat.mod_lt _ hP, fun ch hch => ?_⟩
        have hcn : c < nChannels h := hn ▸ hc
        have hcc : c = ch := by
          by_contra hne
          have := hch c hne
          rw [pastInputs_snoc] at this
          simp [hcn] at this
        subst hcc
        rw [pastInputs_snoc]
        simp only [hcn, and_self, if_true]
        refine partInv_step fir _ _ _ _ b (hI c fun c' hc' => ?_)
        have := hch c' hc'
        rw [pastInputs_snoc] at this
        simpa [Ne.symm hc'] using this
      · refine ⟨s, congrArg Prod.snd (part_process_neg fir B s b c hc), hn, hind,
          fun ch hch => ?_⟩
        have hcn : ¬ c < nChannels h := hn ▸ hc
        have hp : ∀ c', pastInputs c' (h ++ [.sample b c]) = pastInputs c' h := by
          intro c'
          rw [pastInputs_snoc]
          simp [hcn]
        rw [hp]
        exact hI ch fun c' hc' => by rw [← hp c']; exact hch c' hc'

theorem multichannel_inv (firs : ℕ → List ℝ) (B : ℕ)
    (hlen : ∀ c, (firs c).length = (firs 0).length) (bs : List (ℕ → Fin B → ℝ)) (c : ℕ) :
    PartInv (firs c) (bs.map (· c)) ((multichannelColumn firs B).colAfter bs).ind
      (((multichannelColumn firs B).colAfter bs).spec c)
      (((multichannelColumn firs B).colAfter bs).inb c) := by
  have hP : nPartitions (firs 0) B = nPartitions (firs c) B := by
    unfold nPartitions
    rw [hlen c]
  induction bs with
  | nil => exact partInv_nil (firs c) B 0 (Nat.succ_pos _)
  | cons b bs ih =>
    have := partInv_step (firs c) _ _ _ _ (b c) ih
    rw [← hP] at this
    exact this

end Verif.BlockFIR
