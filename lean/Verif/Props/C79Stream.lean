import Verif.Model.LinkwitzRiley
import Verif.Lemmas.LFilter

/-!
# C79 (continued): block-wise filtering with state
-/

namespace Verif.LinkwitzRiley

open Verif.LFilter

section
variable {K : Type} [Field K]

theorem sosRun_length (ss : Sos K) (z : List (List K)) (x : List K) : (sosRun ss z x).1.length = x.length := by
  induction ss generalizing z x with
  | nil => rfl
  | cons s ss ih =>
    simp only [sosRun]
    rw [ih]
    generalize z.headD [] = y
    induction x generalizing y with
    | nil => rfl
    | cons a x ihx => simp only [lfilterIIR, List.length_cons, ihx]

theorem sosRun_cut (ss : Sos K) (z : List (List K)) (x y : List K) :
    sosRun ss z (x ++ y) = ((sosRun ss z x).1 ++ (sosRun ss (sosRun ss z x).2 y).1,
      (sosRun ss (sosRun ss z x).2 y).2) := by
  induction ss generalizing z x y with
  | nil => rfl
  | cons s ss ih =>
    simp only [sosRun, iir_cut, ih, List.headD_cons, List.tail_cons]

/-- A filter with state on consecutive blocks. -/
def blocks {S : Type} (f : S → List K → List (List K) × S) : S → List (List K) → List (List (List K)) × S
  | s, [] => ([], s)
  | s, x :: xs =>
    let r := f s x
    let r' := blocks f r.2 xs
    (r.1 :: r'.1, r'.2)

/-- The blocks of band `n` put together. -/
def joined (bs : List (List (List K))) (n : ℕ) : List K := (bs.map fun b => b.getD n []).flatten

/-- Filtering of two consecutive blocks gives the bands of the whole signal and leaves the same state. -/
def CutOk {S : Type} (f : S → List K → List (List K) × S) (bands : ℕ) : Prop :=
  ∀ s x y, (∀ n < bands, (f s (x ++ y)).1.getD n [] = (f s x).1.getD n [] ++ (f (f s x).2 y).1.getD n []) ∧
    (f s (x ++ y)).2 = (f (f s x).2 y).2

theorem cut_one (c : Cross K) : CutOk (bandsZi [c] 0) 2 := by
  intro s x y
  constructor
  · intro n hn
    have : n = 0 ∨ n = 1 := by omega
    rcases this with rfl | rfl <;>
      simp only [bandsZi, splitZi, allpassesZi, sosRun_cut, Function.update_self, List.getD_cons_zero,
        List.getD_cons_succ]
  · simp only [bandsZi, splitZi, allpassesZi, sosRun_cut, Function.update_self, Function.update_idem]

theorem cut_two (c d : Cross K) : CutOk (bandsZi [c, d] 0) 3 := by
  intro s x y
  constructor
  · intro n hn
    have : n = 0 ∨ n = 1 ∨ n = 2 := by omega
    rcases this with rfl | rfl | rfl
    · simp only [bandsZi, splitZi, allpassesZi, allpassZi, sosRun_cut, Function.update_self,
        List.getD_cons_zero, zero_add, Function.update_of_ne (show (0 : ℕ) ≠ 1 by decide)]
      rw [List.zipWith_append (by simp only [sosRun_length])]
    · simp only [bandsZi, splitZi, allpassesZi, allpassZi, sosRun_cut, Function.update_self,
        List.getD_cons_zero, List.getD_cons_succ, zero_add, Function.update_of_ne (show (1 : ℕ) ≠ 0 by decide),
        Function.update_of_ne (show (0 : ℕ) ≠ 1 by decide)]
    · simp only [bandsZi, splitZi, allpassesZi, allpassZi, sosRun_cut, Function.update_self,
        List.getD_cons_zero, List.getD_cons_succ, zero_add, Function.update_of_ne (show (1 : ℕ) ≠ 0 by decide),
        Function.update_of_ne (show (0 : ℕ) ≠ 1 by decide)]
  · simp only [bandsZi, splitZi, allpassesZi, allpassZi, sosRun_cut, Function.update_self, zero_add,
      Function.update_of_ne (show (1 : ℕ) ≠ 0 by decide), Function.update_of_ne (show (0 : ℕ) ≠ 1 by decide),
      Function.update_idem]
    congr 1
    funext k
    by_cases h0 : k = 0
    · subst h0; simp
    · by_cases h1 : k = 1
      · subst h1; simp
      · simp [h0, h1]

omit [Field K] in
theorem blocks_cut {S : Type} (f : S → List K → List (List K) × S) (bands : ℕ) (h : CutOk f bands)
    (s : S) (xs : List (List K)) (hx : xs ≠ []) :
    (∀ n < bands, joined (blocks f s xs).1 n = (f s xs.flatten).1.getD n []) ∧
      (blocks f s xs).2 = (f s xs.flatten).2 := by
  induction xs generalizing s with
  | nil => exact absurd rfl hx
  | cons x xs ih =>
    rcases eq_or_ne xs [] with rfl | hne
    · refine ⟨fun n _ => ?_, ?_⟩ <;> simp [blocks, joined]
    · have h1 := ih (f s x).2 hne
      have h2 := h s x xs.flatten
      refine ⟨fun n hn => ?_, ?_⟩
      · rw [List.flatten_cons, h2.1 n hn, ← h1.1 n hn]
        rfl
      · rw [List.flatten_cons, h2.2, ← h1.2]
        rfl

/-- With one or two crossovers the blocks of every band, put together, are the band of the whole signal, for
any blocks and from any state, and the state is also the same. -/
theorem C79_stream_partial (cs : List (Cross K)) (h0 : cs ≠ []) (h2 : cs.length ≤ 2) (s : ChannelZi K)
    (xs : List (List K)) (hx : xs ≠ []) :
    (∀ n ≤ cs.length, joined (blocks (bandsZi cs 0) s xs).1 n = (bandsZi cs 0 s xs.flatten).1.getD n []) ∧
      (blocks (bandsZi cs 0) s xs).2 = (bandsZi cs 0 s xs.flatten).2 := by
  match cs, h0, h2 with
  | [c], _, _ =>
    have := blocks_cut _ 2 (cut_one c) s xs hx
    exact ⟨fun n hn => this.1 n (by simpa using Nat.lt_succ_of_le hn), this.2⟩
  | [c, d], _, _ =>
    have := blocks_cut _ 3 (cut_two c d) s xs hx
    exact ⟨fun n hn => this.1 n (by simpa using Nat.lt_succ_of_le hn), this.2⟩

/-! ### Any number of crossovers -/

/-- The state with another entry for allpass `k`. -/
def ChannelZi.set (st : ChannelZi K) (k : ℕ) (v : Zi K) : ChannelZi K := ⟨st.cross, Function.update st.allpass k v⟩

omit [Field K] in
theorem ChannelZi.set_set (st : ChannelZi K) (k : ℕ) (u v : Zi K) : (st.set k u).set k v = st.set k v := by
  simp [ChannelZi.set]

theorem allpassZi_set (c : Cross K) (ap k : ℕ) (hk : k < ap) (st : ChannelZi K) (v : Zi K) (x : List K) :
    allpassZi c ap (st.set k v) x = ((allpassZi c ap st x).1, (allpassZi c ap st x).2.set k v) := by
  simp only [allpassZi, ChannelZi.set, Function.update_of_ne (show ap ≠ k by omega)]
  rw [Function.update_comm (show ap ≠ k by omega)]

theorem allpassesZi_set (cs : List (Cross K)) (ap k : ℕ) (hk : k < ap) (st : ChannelZi K) (v : Zi K) (x : List K) :
    allpassesZi cs ap (st.set k v) x = ((allpassesZi cs ap st x).1, (allpassesZi cs ap st x).2.set k v) := by
  induction cs generalizing ap st x with
  | nil => rfl
  | cons c cs ih =>
    simp only [allpassesZi]
    rw [allpassZi_set c ap k hk]
    dsimp only
    rw [ih (ap + 1) (by omega)]

/-- The allpasses of one band on two consecutive blocks. -/
theorem allpassesZi_cut (cs : List (Cross K)) (ap : ℕ) (st : ChannelZi K) (x y : List K) :
    allpassesZi cs ap st (x ++ y) =
      ((allpassesZi cs ap st x).1 ++ (allpassesZi cs ap (allpassesZi cs ap st x).2 y).1,
        (allpassesZi cs ap (allpassesZi cs ap st x).2 y).2) := by
  induction cs generalizing ap st x y with
  | nil => rfl
  | cons c cs ih =>
    have e : ∀ (st : ChannelZi K) x, allpassZi c ap st x =
        (List.zipWith (· + ·) (sosRun c.low (st.allpass ap).1 x).1 (sosRun c.high (st.allpass ap).2 x).1,
          st.set ap ((sosRun c.low (st.allpass ap).1 x).2, (sosRun c.high (st.allpass ap).2 x).2)) := fun _ _ => rfl
    simp only [allpassesZi]
    rw [e st (x ++ y), e st x]
    dsimp only
    rw [sosRun_cut, sosRun_cut]
    dsimp only
    rw [List.zipWith_append (by simp only [sosRun_length]), ih (ap + 1), allpassesZi_set cs (ap + 1) ap (by omega),
      allpassesZi_set cs (ap + 1) ap (by omega) st]
    dsimp only
    have e2 : ∀ (s : ChannelZi K) v, (s.set ap v).allpass ap = v := fun s v => by simp [ChannelZi.set]
    rw [e (((allpassesZi cs (ap + 1) st _).2).set ap _) y, e2]
    dsimp only
    rw [ChannelZi.set_set]

/-- A block through the allpasses of one band, as a filter with state. -/
theorem allpassesZi_blocks (cs : List (Cross K)) (ap : ℕ) :
    CutOk (fun st x => ([(allpassesZi cs ap st x).1], (allpassesZi cs ap st x).2)) 1 := by
  intro s x y
  refine ⟨fun n hn => ?_, ?_⟩
  · obtain rfl : n = 0 := by omega
    simp only [List.getD_cons_zero]
    rw [allpassesZi_cut]
  · simp only
    rw [allpassesZi_cut]

/-- The allpasses of one band, taken alone, can be used block-wise, whatever their number: each has a state of
its own. -/
theorem C79_stream_allpasses (cs : List (Cross K)) (ap : ℕ) (s : ChannelZi K) (xs : List (List K)) (hx : xs ≠ []) :
    joined (blocks (fun st x => ([(allpassesZi cs ap st x).1], (allpassesZi cs ap st x).2)) s xs).1 0 =
      (allpassesZi cs ap s xs.flatten).1 :=
  (blocks_cut _ 1 (allpassesZi_blocks cs ap) s xs hx).1 0 (by omega)

theorem allpassesZi_cross (cs : List (Cross K)) (ap : ℕ) (st : ChannelZi K) (x : List K) :
    (allpassesZi cs ap st x).2.cross = st.cross := by
  induction cs generalizing ap st x with
  | nil => rfl
  | cons c cs ih => simp only [allpassesZi]; rw [ih]; rfl

/-- The two highest bands and the states of the crossovers, without the allpasses. -/
def topZi : List (Cross K) → ℕ → (ℕ → Zi K) → List K → (List K × List K) × (ℕ → Zi K)
  | [], _, z, x => ((x, x), z)
  | [c], cn, z, x => (((sosRun c.low (z cn).1 x).1, (sosRun c.high (z cn).2 x).1),
      Function.update z cn ((sosRun c.low (z cn).1 x).2, (sosRun c.high (z cn).2 x).2))
  | c :: d :: cs, cn, z, x =>
    topZi (d :: cs) (cn + 1) (Function.update z cn ((sosRun c.low (z cn).1 x).2, (sosRun c.high (z cn).2 x).2))
      (sosRun c.high (z cn).2 x).1

theorem bandsZi_length (cs : List (Cross K)) (cn : ℕ) (st : ChannelZi K) (x : List K) :
    (bandsZi cs cn st x).1.length = cs.length + 1 := by
  induction cs generalizing cn st x with
  | nil => rfl
  | cons c cs ih => simp only [bandsZi, List.length_cons, ih]

theorem bandsZi_top (cs : List (Cross K)) (h : cs ≠ []) (cn : ℕ) (st : ChannelZi K) (x : List K) :
    (bandsZi cs cn st x).1.getD (cs.length - 1) [] = (topZi cs cn st.cross x).1.1 ∧
      (bandsZi cs cn st x).1.getD cs.length [] = (topZi cs cn st.cross x).1.2 ∧
      (bandsZi cs cn st x).2.cross = (topZi cs cn st.cross x).2 := by
  induction cs generalizing cn st x with
  | nil => exact absurd rfl h
  | cons c cs ih =>
    cases cs with
    | nil => exact ⟨rfl, rfl, rfl⟩
    | cons d cs =>
      have := ih (by simp) (cn + 1) (allpassesZi (d :: cs) (cn + 1) (splitZi c cn st x).2.2 (splitZi c cn st x).1).2
        (splitZi c cn st x).2.1
      rw [allpassesZi_cross] at this
      have e : ∀ n, (bandsZi (c :: d :: cs) cn st x).1.getD (n + 1) [] =
          (bandsZi (d :: cs) (cn + 1) (allpassesZi (d :: cs) (cn + 1) (splitZi c cn st x).2.2 (splitZi c cn st x).1).2
            (splitZi c cn st x).2.1).1.getD n [] := fun n => rfl
      have l1 : (c :: d :: cs).length - 1 = ((d :: cs).length - 1) + 1 := by simp
      have l2 : (c :: d :: cs).length = (d :: cs).length + 1 := rfl
      rw [l1, l2, e, e]
      exact this

theorem topZi_set (cs : List (Cross K)) (cn k : ℕ) (hk : k < cn) (z : ℕ → Zi K) (v : Zi K) (x : List K) :
    topZi cs cn (Function.update z k v) x =
      ((topZi cs cn z x).1, Function.update (topZi cs cn z x).2 k v) := by
  induction cs generalizing cn z x with
  | nil => rfl
  | cons c cs ih =>
    cases cs with
    | nil =>
      simp only [topZi, Function.update_of_ne (show cn ≠ k by omega)]
      rw [Function.update_comm (show cn ≠ k by omega)]
    | cons d cs =>
      simp only [topZi, Function.update_of_ne (show cn ≠ k by omega)]
      rw [Function.update_comm (show k ≠ cn by omega), ih (cn + 1) (by omega)]

theorem topZi_cut (cs : List (Cross K)) (cn : ℕ) (z : ℕ → Zi K) (x y : List K) :
    topZi cs cn z (x ++ y) =
      (((topZi cs cn z x).1.1 ++ (topZi cs cn (topZi cs cn z x).2 y).1.1,
        (topZi cs cn z x).1.2 ++ (topZi cs cn (topZi cs cn z x).2 y).1.2), (topZi cs cn (topZi cs cn z x).2 y).2) := by
  induction cs generalizing cn z x y with
  | nil => rfl
  | cons c cs ih =>
    cases cs with
    | nil => simp only [topZi, sosRun_cut, Function.update_self, Function.update_idem]
    | cons d cs =>
      simp only [topZi]
      rw [sosRun_cut, sosRun_cut]
      dsimp only
      rw [ih, topZi_set _ _ _ (by omega), topZi_set _ _ _ (by omega) z]
      simp only [Function.update_self, Function.update_idem]

/-- The two highest bands of any number of crossovers can be filtered block-wise. -/
theorem C79_stream_top (cs : List (Cross K)) (h : cs ≠ []) (s : ChannelZi K) (xs : List (List K)) (hx : xs ≠ [])
    (n : ℕ) (hn : n = cs.length - 1 ∨ n = cs.length) :
    joined (blocks (bandsZi cs 0) s xs).1 n = (bandsZi cs 0 s xs.flatten).1.getD n [] := by
  induction xs generalizing s with
  | nil => exact absurd rfl hx
  | cons x xs ih =>
    rcases eq_or_ne xs [] with rfl | hne
    · simp [blocks, joined]
    · have h1 := ih (bandsZi cs 0 s x).2 hne
      have e : joined (blocks (bandsZi cs 0) s (x :: xs)).1 n =
          (bandsZi cs 0 s x).1.getD n [] ++ joined (blocks (bandsZi cs 0) (bandsZi cs 0 s x).2 xs).1 n := rfl
      rw [e, h1, List.flatten_cons]
      have t := bandsZi_top cs h 0
      rcases hn with rfl | rfl
      · rw [(t _ _).1, (t _ _).1, (t _ _).1, (t _ _).2.2, topZi_cut]
      · rw [(t _ _).2.1, (t _ _).2.1, (t _ _).2.1, (t _ _).2.2, topZi_cut]

/-- A section as `scipy.signal` stores it: six coefficients, `a₀ = 1`, no pole at `z = 1`. -/
def Stored (s : List K × List K) : Prop :=
  ∃ b0 b1 b2 a1 a2, s = ([b0, b1, b2], [1, a1, a2]) ∧ 1 + a1 + a2 ≠ 0

/-- Gain of a filter at 0 Hz. -/
def dcGain (ss : Sos K) : K := (ss.map fun s => s.1.sum / s.2.sum).prod

theorem steady (ss : Sos K) (hs : ∀ s ∈ ss, Stored s) (g : K) (n : ℕ) :
    sosRun ss (sosZi ss g) (List.replicate n g) = (List.replicate n (g * dcGain ss), sosZi ss g) := by
  induction ss generalizing g with
  | nil => simp [sosRun, sosZi, dcGain]
  | cons s ss ih =>
    obtain ⟨b0, b1, b2, a1, a2, rfl, ha⟩ := hs s (by simp)
    have h1 : ∀ n, lfilterIIR [b0, b1, b2] [1, a1, a2] 2
        [b1 * g - a1 * (g * (b0 + b1 + b2) / (1 + a1 + a2)) + (b2 * g - a2 * (g * (b0 + b1 + b2) / (1 + a1 + a2))),
          b2 * g - a2 * (g * (b0 + b1 + b2) / (1 + a1 + a2))] (List.replicate n g) =
        (List.replicate n (g * (b0 + b1 + b2) / (1 + a1 + a2)),
          [b1 * g - a1 * (g * (b0 + b1 + b2) / (1 + a1 + a2)) +
            (b2 * g - a2 * (g * (b0 + b1 + b2) / (1 + a1 + a2))),
          b2 * g - a2 * (g * (b0 + b1 + b2) / (1 + a1 + a2))]) := by
      intro n
      have hy : b0 * g + (b1 * g - a1 * (g * (b0 + b1 + b2) / (1 + a1 + a2)) +
          (b2 * g - a2 * (g * (b0 + b1 + b2) / (1 + a1 + a2)))) = g * (b0 + b1 + b2) / (1 + a1 + a2) := by
        field_simp
        ring
      induction n with
      | zero => rfl
      | succ n ihn =>
        rw [List.replicate_succ, lfilterIIR]
        have e : df2tState [b0, b1, b2] [1, a1, a2] 2 [b1 * g - a1 * (g * (b0 + b1 + b2) / (1 + a1 + a2)) +
            (b2 * g - a2 * (g * (b0 + b1 + b2) / (1 + a1 + a2))),
          b2 * g - a2 * (g * (b0 + b1 + b2) / (1 + a1 + a2))] g (g * (b0 + b1 + b2) / (1 + a1 + a2)) =
          [b1 * g - a1 * (g * (b0 + b1 + b2) / (1 + a1 + a2)) +
            (b2 * g - a2 * (g * (b0 + b1 + b2) / (1 + a1 + a2))),
          b2 * g - a2 * (g * (b0 + b1 + b2) / (1 + a1 + a2))] := by
          simp [df2tState, List.range_succ]
          ring
        simp only [List.getD_cons_zero]
        rw [hy, e, ihn]
        rfl
    have hsum1 : ([b0, b1, b2] : List K).sum = b0 + b1 + b2 := by simp [add_assoc]
    have hsum2 : ([1, a1, a2] : List K).sum = 1 + a1 + a2 := by simp [add_assoc]
    simp only [sosRun, sosZi, List.headD_cons, List.tail_cons, hsum1, hsum2, List.getD_cons_zero,
      List.getD_cons_succ]
    rw [h1 n]
    dsimp only
    rw [ih (fun t ht => hs t (List.mem_cons_of_mem _ ht))]
    simp only [dcGain, List.map_cons, List.prod_cons, hsum1, hsum2]
    rw [mul_div_assoc, mul_assoc]

end

/-- With the initial state a constant signal one goes through a crossover without transient. -/
theorem C79_stream_constant {K : Type} [Field K] (c : Cross K) (hl : ∀ s ∈ c.low, Stored s)
    (hh : ∀ s ∈ c.high, Stored s) (n : ℕ) :
    (bandsZi [c] 0 (initialZi [c]) (List.replicate n 1)).1 =
      [List.replicate n (dcGain c.low), List.replicate n (dcGain c.high)] := by
  simp only [bandsZi, splitZi, allpassesZi, initialZi, List.getElem?_cons_zero]
  rw [steady c.low hl 1 n, steady c.high hh 1 n, one_mul, one_mul]

/-- The state is not scaled with the signal: silence does not stay silent. -/
theorem C79_stream_silence_wrong :
    (bandsZi [second (1 : ℚ)] 0 (initialZi [second 1]) [0, 0, 0]).1 ≠ [[0, 0, 0], [0, 0, 0]] := by
  decide +kernel

/-- With three crossovers the bands share the states of the allpasses: two blocks are not the bands of
the whole signal. -/
theorem C79_stream_three_wrong :
    let cs : List (Cross ℚ) := [second (1 / 3), second (1 / 2), second 1]
    joined (blocks (bandsZi cs 0) (initialZi cs) [[1], [0]]).1 0 ≠
      (bandsZi cs 0 (initialZi cs) [1, 0]).1.getD 0 [] := by
  decide +kernel

/-- Concrete case: stored sections, and two blocks with two crossovers. -/
example : (∀ s ∈ (second (1 / 2 : ℚ)).low, Stored s) ∧
    joined (blocks (bandsZi [second (1 / 3 : ℚ), second (1 / 2)] 0) (initialZi [second (1 / 3), second (1 / 2)])
      [[1], [0]]).1 0 =
      (bandsZi [second (1 / 3 : ℚ), second (1 / 2)] 0 (initialZi [second (1 / 3), second (1 / 2)]) [1, 0]).1.getD 0 [] := by
  refine ⟨?_, (C79_stream_partial _ (by simp) (by simp) _ [[1], [0]] (by simp)).1 0 (by simp)⟩
  intro s hs
  simp only [second, List.mem_cons, List.not_mem_nil, or_false] at hs
  subst hs
  exact ⟨_, _, _, _, _, rfl, by norm_num⟩

end Verif.LinkwitzRiley
