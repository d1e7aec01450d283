import Verif.Model.FIRFilter
import Verif.Lemmas.Realtime
import Mathlib.Tactic.Ring

/-!
Invariant of the ring buffer of the realtime FIR filter (used for C01).
-/

namespace Verif.FIRFilter

variable {K : Type} [CommSemiring K]

/-- Invariant: channel `ch` of the ring buffer holds the past inputs `xs` (most
recent first) counted backwards from the write index. -/
def Inv (order : ℕ) (s : State K) (ch : ℕ) (xs : List K) : Prop :=
  s.ind ch < order ∧
  ∀ i, i < order → s.buf (((s.ind ch : ℤ) - (i : ℤ)) % (order : ℤ)).toNat ch = xs.getD i 0

theorem accumulate_eq (b : List K) (order : ℕ) (buf : ℕ → ℕ → K) (w ch : ℕ) (y : K)
    (n : ℕ) :
    accumulate b order buf w ch y n = y + ∑ i ∈ Finset.range n,
      buf (((w : ℤ) - (i : ℤ)) % (order : ℤ)).toNat ch * b.getD (i + 1) 0 := by
  induction n with
  | zero => simp [accumulate]
  | succ n ih => rw [accumulate, ih, Finset.sum_range_succ, add_assoc]

theorem tapSum_split (b : List K) (hb : 1 ≤ b.length) (x : K) (xs : List K) :
    tapSum b (x :: xs) = b.getD 0 0 * x +
      ∑ i ∈ Finset.range (b.length - 1), xs.getD i 0 * b.getD (i + 1) 0 := by
  cases b with
  | nil => simp at hb
  | cons b0 b =>
    rw [tapSum_cons]
    simp [tapSum, mul_comm]

theorem mod_facts (order w i : ℕ) :
    ((((w + 1) % order : ℕ) : ℤ) - (i : ℤ)) % (order : ℤ) =
      (if i = 0 then (((w + 1) % order : ℕ) : ℤ) else ((w : ℤ) - ((i - 1 : ℕ) : ℤ)) % (order : ℤ)) := by
  have h1 : (((w + 1) % order : ℕ) : ℤ) = ((w : ℤ) + 1) % (order : ℤ) := by push_cast; rfl
  split
  · next h0 =>
    subst h0
    rw [h1]
    simp
  · next h0 =>
    rw [h1, Int.emod_sub_emod]
    congr 1
    omega

theorem mod_ne (order w i : ℕ) (hi : i + 1 < order) :
    (((w : ℤ) - (i : ℤ)) % (order : ℤ)).toNat ≠ (w + 1) % order := by
  intro h
  have h2 : ((w : ℤ) - (i : ℤ)) % (order : ℤ) = ((w : ℤ) + 1) % (order : ℤ) := by
    have := Int.emod_nonneg ((w : ℤ) - (i : ℤ)) (b := (order : ℤ)) (by omega)
    have h3 : (((((w : ℤ) - (i : ℤ)) % (order : ℤ)).toNat : ℕ) : ℤ) = (((w + 1) % order : ℕ) : ℤ) := by
      rw [h]
    rw [Int.toNat_of_nonneg this] at h3
    rw [h3]; push_cast; rfl
  have h5 : ((order : ℤ)) ∣ (((w : ℤ) + 1) - ((w : ℤ) - (i : ℤ))) := by
    exact Int.dvd_of_emod_eq_zero (by
      rw [Int.sub_emod, h2]; simp)
  have h6 : ((w : ℤ) + 1) - ((w : ℤ) - (i : ℤ)) = ((i + 1 : ℕ) : ℤ) := by push_cast; ring
  rw [h6] at h5
  have := Int.le_of_dvd (by omega) h5
  omega

theorem inv_after (b : List K) (hb : 2 ≤ b.length) (h : List (Op K)) :
    ((filter b).after h : State K).nCh = nChannels h ∧
    ∀ ch, Inv (b.length - 1) ((filter b).after h) ch (pastInputs ch h) := by
  induction h using List.reverseRecOn with
  | nil =>
    refine ⟨rfl, fun ch => ⟨?_, fun i _ => ?_⟩⟩
    · show 0 < b.length - 1
      omega
    · simp [RTFilter.after, filter, pastInputs_nil]
  | append_singleton h op ih =>
    obtain ⟨ihn, ihc⟩ := ih
    rw [RTFilter.after_snoc, nChannels_snoc]
    cases op with
    | reset =>
      refine ⟨ihn, fun ch => ?_⟩
      rw [pastInputs_snoc]
      exact ⟨(ihc ch).1, fun i _ => by simp [RTFilter.exec, filter, reset]⟩
    | setChannels m =>
      refine ⟨rfl, fun ch => ?_⟩
      rw [pastInputs_snoc]
      refine ⟨?_, fun i _ => by simp [RTFilter.exec, filter, setChannels]⟩
      show 0 < b.length - 1
      omega
    | sample x c =>
      set s : State K := (filter b).after h with hs
      have ho : ¬ (b.length - 1 = 0) := by omega
      by_cases hc : s.nCh ≤ c
      · -- rejected call
        have hex : (filter b).exec s (.sample x c) = s := by
          simp [RTFilter.exec, filter, process, hc]
        rw [hex]
        refine ⟨ihn, fun ch => ?_⟩
        rw [pastInputs_snoc]
        have : ¬ (c = ch ∧ c < nChannels h) := by
          intro hcc; rw [← ihn] at hcc; omega
        simp only [this, if_false]
        exact ihc ch
      · have hex : (filter b).exec s (.sample x c) =
            { s with
              buf := fun r c' => if r = (s.ind c + 1) % (b.length - 1) ∧ c' = c then x
                else s.buf r c'
              ind := fun c' => if c' = c then (s.ind c + 1) % (b.length - 1) else s.ind c' } := by
          simp [RTFilter.exec, filter, process, hc, ho]
        rw [hex]
        refine ⟨ihn, fun ch => ?_⟩
        rw [pastInputs_snoc]
        by_cases hcc : c = ch
        · subst hcc
          have h1 : c = c ∧ c < nChannels h := ⟨rfl, by rw [← ihn]; omega⟩
          simp only [h1, if_true, and_self]
          obtain ⟨hw, hbuf⟩ := ihc c
          refine ⟨by simpa using Nat.mod_lt _ (by omega), fun i hi => ?_⟩
          simp only [if_true, and_true]
          rw [mod_facts (b.length - 1) (s.ind c) i]
          by_cases hi0 : i = 0
          · subst hi0
            simp only [if_true, Int.toNat_natCast]
            simp
          · simp only [hi0, if_false]
            have hne := mod_ne (b.length - 1) (s.ind c) (i - 1) (by omega)
            simp only [hne, if_false]
            rw [hbuf (i - 1) (by omega)]
            obtain ⟨j, rfl⟩ : ∃ j, i = j + 1 := ⟨i - 1, by omega⟩
            simp
        · have hcc' : ¬ (ch = c) := fun h => hcc h.symm
          simp only [hcc, false_and, if_false]
          refine ⟨by simpa [hcc'] using (ihc ch).1, fun i hi => ?_⟩
          simpa [hcc'] using (ihc ch).2 i hi

end Verif.FIRFilter
