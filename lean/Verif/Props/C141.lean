import Verif.Model.WindowType

/-!
# C141: window types and the gaussian window
-/

namespace Verif.WindowType

/-! ### Window types -/

/-- The names of `scipy.signal.windows.get_window`, with the number of parameters they need. -/
def scipyNames : List (String × ℕ) :=
  [("boxcar", 0), ("triang", 0), ("blackman", 0), ("hamming", 0), ("hann", 0), ("bartlett", 0),
   ("flattop", 0), ("parzen", 0), ("bohman", 0), ("blackmanharris", 0), ("nuttall", 0),
   ("barthann", 0), ("cosine", 0), ("exponential", 0), ("tukey", 0), ("taylor", 0), ("lanczos", 0),
   ("kaiser", 1), ("kaiser_bessel_derived", 1), ("gaussian", 1), ("general_cosine", 1),
   ("general_gaussian", 2), ("general_hamming", 1), ("dpss", 1), ("chebwin", 1)]

/-- The last parameter that a program gave to a window. -/
def lastGiven (k : Kind) : List Op → Option Param
  | [] => none
  | .extra k' p :: ops => (lastGiven k ops).or (if k' = k then some p else none)
  | _ :: ops => lastGiven k ops

theorem registry_run (ops : List Op) (s : Registry) (h : Holder) (k : Kind) :
    (run (s, h) ops).1 k = (lastGiven k ops).or (s k) := by
  induction ops generalizing s h with
  | nil => simp [run, lastGiven]
  | cons o ops ih =>
    cases o with
    | extra k' p =>
      rw [run, ih, lastGiven]
      unfold withExtra
      by_cases hk : k' = k
      · subst hk
        cases lastGiven k' ops <;> simp
      · rw [if_neg hk]
        dsimp only
        rw [Function.update_of_ne (fun h => hk h.symm)]
        cases lastGiven k ops <;> simp
    | set k' => exact ih _ _
    | cache b => exact ih _ _
    | get force => exact ih _ _

/-- How the name, the number of parameters and the parameter are handed to scipy. -/
inductive Handed (k : Kind) : Option Param → Except Err Format → Prop
  | plain (p) (name : String) (h : (name, 0) ∈ scipyNames) : Handed k p (.ok (.plain name))
  | missing (name : String) (n : ℕ) (hn : 0 < n) (h : (name, n) ∈ scipyNames) :
      Handed k none (.error .attributeError)
  | one (p) (name : String) (h : (name, 1) ∈ scipyNames) : Handed k (some p) (.ok (.one name p))
  | two (a b r) (name : String) (h : (name, 2) ∈ scipyNames) :
      Handed k (some (.seq (a :: b :: r))) (.ok (.two name a b))
  | number (x) (name : String) (h : (name, 2) ∈ scipyNames) :
      Handed k (some (.num x)) (.error .typeError)
  | short (l : List ℝ) (hl : l.length < 2) (name : String) (h : (name, 2) ∈ scipyNames) :
      Handed k (some (.seq l)) (.error .indexError)

/-- **C141**: whatever the program has done, a window is handed to scipy under a name that scipy knows with as many
parameters as it needs, which are the last ones given to this type of window anywhere in the program; if there
were none and one is needed, AttributeError. -/
theorem C141_format (ops : List Op) (h : Holder) (k : Kind) :
    Handed k (lastGiven k ops) (toScipy (run (fun _ => none, h) ops).1 k) := by
  have hr := registry_run ops (fun _ => none) h k
  rw [Option.or_none] at hr
  unfold toScipy
  rw [hr]
  generalize lastGiven k ops = p
  by_cases hg : k = .generalGaussian
  · subst hg
    rw [if_pos (by decide), if_pos rfl]
    match p with
    | none => exact .missing "general_gaussian" 2 (by decide) (by decide)
    | some (.num x) => exact .number x "general_gaussian" (by decide)
    | some (.seq []) => exact .short [] (by simp) "general_gaussian" (by decide)
    | some (.seq [a]) => exact .short [a] (by simp) "general_gaussian" (by decide)
    | some (.seq (a :: b :: r)) => exact .two a b r _ (by decide)
  · rw [if_neg hg]
    by_cases hn : needs k = true
    · rw [if_pos hn]
      have hname : (toStr k, 1) ∈ scipyNames := by
        cases k <;> first | exact absurd rfl hg | exact absurd hn (by decide) | decide
      cases p with
      | none => exact .missing _ 1 (by decide) hname
      | some p => exact .one p _ hname
    · rw [if_neg hn]
      refine .plain p _ ?_
      cases k <;> first | exact absurd (by decide) hn | decide

/-- **C141**: different types have different names. -/
theorem C141_names (k k' : Kind) (h : toStr k = toStr k') : k = k' := by
  revert h
  cases k <;> cases k' <;> first | (intro _; rfl) | (intro h; exact absurd h (by decide))

/-- **C141**, not so: a window keeps the parameter it was made with.  After a second window of the type is made, both
have its parameter. -/
theorem C141_shared_wrong (s : Registry) (k : Kind) (p q : Param) (hk : needs k = true)
    (hg : k ≠ .generalGaussian) :
    let first := withExtra s k p
    let second := withExtra first.1 k q
    toScipy first.1 first.2 = .ok (.one (toStr k) p) ∧
      toScipy second.1 first.2 = .ok (.one (toStr k) q) := by
  simp [withExtra, toScipy, hk, hg]

/-- **C141**, not so: the parameter of a window that takes one is used.  For windows with a default (Tukey, taper
fraction; Exponential, decay; Taylor), it is ignored. -/
theorem C141_ignored_wrong (s : Registry) (k : Kind) (hk : needs k = false) (p : Param) :
    toScipy (withExtra s k p).1 k = toScipy s k := by
  unfold toScipy
  rw [if_neg (by simp [hk]), if_neg (by simp [hk])]

/-! ### The saved spectrogram -/

/-- No parameter is given to a window, and the cache is not switched off. -/
def Quiet (ops : List Op) : Prop := ∀ o ∈ ops, (∀ k p, o ≠ .extra k p) ∧ o ≠ .cache false

/-- The window type of the last `set_spectrogram_parameters`. -/
def lastWindow (k : Kind) : List Op → Kind
  | [] => k
  | .set k' :: ops => lastWindow k' ops
  | _ :: ops => lastWindow k ops

/-- What holds between the operations of a quiet program. -/
def Good (s : Registry) (h : Holder) : Prop :=
  (h.cacheOn = false → h.saved = none) ∧
    ∀ f, h.saved = some f → h.dirty = false → toScipy s h.window = .ok f

theorem good_get (s : Registry) (h : Holder) (force : Bool) (hg : Good s h) :
    Good s (getSpectrogram s h force).2 ∧ (getSpectrogram s h force).2.window = h.window ∧
      (getSpectrogram s h force).1 = toScipy s h.window := by
  have hc : ∀ r : Except Err Format × Holder,
      r = (match toScipy s h.window with
        | .error e => (.error e, h)
        | .ok f => (.ok f, { h with dirty := false, saved := if h.cacheOn then some f else h.saved })) →
      Good s r.2 ∧ r.2.window = h.window ∧ r.1 = toScipy s h.window := by
    intro r hr
    cases ht : toScipy s h.window with
    | error e =>
      rw [ht] at hr
      subst hr
      exact ⟨hg, rfl, rfl⟩
    | ok f =>
      rw [ht] at hr
      subst hr
      refine ⟨⟨fun h0 => ?_, fun f' hf' _ => ?_⟩, rfl, rfl⟩
      · have h0 : h.cacheOn = false := h0
        simp [h0, hg.1 h0]
      · cases h0 : h.cacheOn with
        | false => simp [h0, hg.1 h0] at hf'
        | true =>
          simp only [h0, if_true] at hf'
          rw [← Option.some.inj hf']
          exact ht
  unfold getSpectrogram
  by_cases hf : (force || h.dirty) = true
  · rw [if_pos hf]
    exact hc _ rfl
  · rw [if_neg hf]
    cases hs : h.saved with
    | none =>
      have := hc _ rfl
      rw [hs] at this
      exact this
    | some f =>
      have hd : h.dirty = false := by
        cases hd : h.dirty with
        | false => rfl
        | true => exact absurd (by simp [hd]) hf
      exact ⟨hg, rfl, (hg.2 f hs hd).symm⟩

theorem good_run (ops : List Op) (s : Registry) (h : Holder) (hq : Quiet ops) (hg : Good s h) :
    (run (s, h) ops).1 = s ∧ Good s (run (s, h) ops).2 ∧
      (run (s, h) ops).2.window = lastWindow h.window ops := by
  induction ops generalizing h with
  | nil => exact ⟨rfl, hg, rfl⟩
  | cons o ops ih =>
    have hq' : Quiet ops := fun o ho => hq o (List.mem_cons_of_mem _ ho)
    cases o with
    | extra k p => exact absurd rfl ((hq _ List.mem_cons_self).1 k p)
    | set k =>
      have hw : (setWindow h k).window = k := by
        unfold setWindow
        split_ifs with hk
        · exact hk
        · rfl
      have := ih (setWindow h k) hq' (by
        unfold setWindow
        split_ifs
        · exact hg
        · exact ⟨hg.1, fun f _ hd => by cases hd⟩)
      rw [hw] at this
      exact this
    | cache b =>
      cases b with
      | false => exact absurd rfl (hq _ List.mem_cons_self).2
      | true => exact ih _ hq' ⟨fun h0 => (by cases h0), hg.2⟩
    | get force =>
      have h1 := good_get s h force hg
      have := ih _ hq' h1.1
      rw [h1.2.1] at this
      exact this

/-- **C141** (partial: for programs that give no parameters to windows after the signal was made, and that do not
switch its cache off): the spectrogram is always that of the window type set last. -/
theorem C141_spectrogram_partial (s : Registry) (cacheOn force : Bool) (ops : List Op) (hq : Quiet ops) :
    (getSpectrogram (run (s, .new cacheOn) ops).1 (run (s, .new cacheOn) ops).2 force).1 =
      toScipy s (lastWindow .hann ops) := by
  have hg : Good s (.new cacheOn) := ⟨fun _ => rfl, fun f (hf : none = some f) _ => by cases hf⟩
  obtain ⟨h1, h2, h3⟩ := good_run ops s _ hq hg
  rw [h1, (good_get s _ force h2).2.2, h3]
  rfl

/-- A quiet program. -/
example : Quiet [.set .kaiser, .get false, .cache true, .get true, .set .hann] := by
  intro o ho
  fin_cases ho <;> simp

/-- With `force_computation`, always, whatever the program did. -/
theorem C141_forced (s : Registry) (h : Holder) :
    (getSpectrogram s h true).1 = toScipy s h.window := by
  unfold getSpectrogram
  simp only [Bool.true_or, if_true]
  cases toScipy s h.window <;> rfl

/-- **C141**, not so: a signal whose window is set to another parameter gives the spectrogram for this parameter.  The
parameters of the spectrogram seem the same, and the saved spectrogram is returned. -/
theorem C141_stale_wrong (s : Registry) (k : Kind) (p q : Param) (hk : needs k = true)
    (hg : k ≠ .generalGaussian) :
    let c := run (s, .new true) [.extra k p, .set k, .get false, .extra k q, .set k]
    c.2.window = k ∧ toScipy c.1 k = .ok (.one (toStr k) q) ∧
      (getSpectrogram c.1 c.2 false).1 = .ok (.one (toStr k) p) := by
  have hh : ¬ Kind.hann = k := by
    rintro rfl
    exact absurd hk (by decide)
  simp [run, withExtra, setWindow, getSpectrogram, toScipy, Holder.new, hk, hg, hh]

/-- Two different parameters. -/
example : needs .kaiser = true ∧ Kind.kaiser ≠ .generalGaussian ∧ Param.num 5 ≠ .num 14 := by
  refine ⟨rfl, by decide, fun h => ?_⟩
  norm_num [Param.num.injEq] at h

/-- **C141**, not so: a signal gives the spectrogram of its window type also when its cache is switched off.  The
flag is reset by the first call, which does not save, and the second call returns the old spectrogram. -/
theorem C141_cache_off_wrong (s : Registry) :
    let c := run (s, .new true) [.get false, .cache false, .set .blackman, .get false]
    c.2.window = .blackman ∧ (getSpectrogram c.1 c.2 false).1 = .ok (.plain "hann") := by
  have h1 : toScipy s .hann = .ok (.plain "hann") := rfl
  have h2 : toScipy s .blackman = .ok (.plain "blackman") := rfl
  simp [run, setWindow, getSpectrogram, Holder.new, h1, h2]

/-! ### The gaussian window -/

/-- The window with standard deviation `σ` and its middle at `m`. -/
noncomputable def bell (σ m x : ℝ) : ℝ := Real.exp (-((x - m) ^ 2 / (2 * σ ^ 2)))

/-- **C141**: the gaussian window has the length asked for; its samples are those of a bell with the standard deviation of
`_gaussian_window_sigma`, with the middle at the half of the length displaced by `offset`; a periodic window is that of
one sample more, without its last sample. -/
theorem C141_gaussian (length : ℕ) (alpha : ℝ) (ha : alpha ≠ 0) (symmetric : Bool) (offset : ℤ)
    (hl : 2 ≤ if symmetric then length else length + 1) :
    let L := if symmetric then length else length + 1
    (gaussianWindow length alpha symmetric offset).length = length ∧
    ∀ n < length, (gaussianWindow length alpha symmetric offset).getD n none =
      some (bell (sigma L alpha) (((L : ℝ) - 1) / 2 + offset) n) := by
  intro L
  have hL : (2 : ℝ) ≤ (L : ℝ) := by exact_mod_cast hl
  have hh : ((L : ℝ) - 1) / 2 ≠ 0 := by
    have : 0 < (L : ℝ) - 1 := by linarith
    positivity
  have hv : ∀ x : ℝ, Real.exp (-0.5 * (alpha * (x - offset - ((L : ℝ) - 1) / 2) / (((L : ℝ) - 1) / 2)) ^ 2) =
      bell (sigma L alpha) (((L : ℝ) - 1) / 2 + offset) x := by
    intro x
    unfold bell sigma
    congr 1
    have : (L : ℝ) - 1 ≠ 0 := by
      intro h0
      exact hh (by rw [h0]; simp)
    field_simp
    ring
  have hw : gaussianWindow length alpha symmetric offset =
      (List.range length).map fun (n : ℕ) =>
        some (bell (sigma L alpha) (((L : ℝ) - 1) / 2 + offset) n) := by
    unfold gaussianWindow
    simp only [show (if symmetric = true then length else length + 1) = L from rfl, if_neg hh, hv]
    cases symmetric with
    | true => rfl
    | false =>
      have hl : L = length + 1 := rfl
      rw [if_neg (by decide), ← List.map_dropLast]
      congr 1
      rw [hl, List.range_succ, List.dropLast_concat]
  rw [hw]
  refine ⟨by simp, fun n hn => ?_⟩
  simp [List.getD_eq_getElem?_getD, hn]

/-- The hypotheses are met. -/
example : (2 : ℝ) ≠ 0 ∧ 2 ≤ if true then 5 else 5 + 1 := by norm_num

/-- **C141**: without offset the symmetric window is its own mirror image. -/
theorem C141_symmetric (length : ℕ) (alpha : ℝ) (ha : alpha ≠ 0) (hl : 2 ≤ length) (n : ℕ) (hn : n < length) :
    (gaussianWindow length alpha true 0).getD n none =
      (gaussianWindow length alpha true 0).getD (length - 1 - n) none := by
  obtain ⟨_, h⟩ := C141_gaussian length alpha ha true 0 (by simpa using hl)
  rw [h n hn, h (length - 1 - n) (by omega)]
  congr 1
  unfold bell
  congr 3
  have : ((length - 1 - n : ℕ) : ℝ) = (length : ℝ) - 1 - n := by
    rw [Nat.cast_sub (by omega), Nat.cast_sub (by omega)]
    simp
  rw [this]
  simp only [if_true, Int.cast_zero]
  ring

/-- **C141**: no sample exceeds 1, and a sample is 1 exactly where it is in the displaced middle. -/
theorem C141_peak (length : ℕ) (alpha : ℝ) (ha : alpha ≠ 0) (hl : 2 ≤ length) (offset : ℤ) (n : ℕ)
    (hn : n < length) : ∃ w, (gaussianWindow length alpha true offset).getD n none = some w ∧
      0 < w ∧ w ≤ 1 ∧ (w = 1 ↔ (n : ℝ) = ((length : ℝ) - 1) / 2 + offset) := by
  obtain ⟨_, h⟩ := C141_gaussian length alpha ha true offset (by simpa using hl)
  refine ⟨_, h n hn, Real.exp_pos _, Real.exp_le_one_iff.2 (neg_nonpos.2 (by positivity)), ?_⟩
  simp only [if_true]
  have hs : sigma length alpha ≠ 0 := by
    unfold sigma
    have : (2 : ℝ) ≤ length := by exact_mod_cast hl
    have : (length : ℝ) - 1 ≠ 0 := by linarith
    positivity
  unfold bell
  rw [Real.exp_eq_one_iff, neg_eq_zero, div_eq_zero_iff, or_iff_left (by positivity), sq_eq_zero_iff,
    sub_eq_zero]

/-- **C141**, not so: the offset is where the middle of the window is put ("moves the middle point of the window to
the passed value").  With length 5
and offset 3 the middle would be at 5, and the window only rises. -/
theorem C141_offset_wrong (alpha : ℝ) (ha : alpha ≠ 0) (n : ℕ) (hn : n < 5) :
    (gaussianWindow 5 alpha true 3).getD n none ≠ some 1 := by
  obtain ⟨w, hw, _, _, h1⟩ := C141_peak 5 alpha ha (by norm_num) 3 n hn
  rw [hw]
  intro h
  have := h1.1 (Option.some.inj h)
  norm_num at this
  have : n = 5 := by exact_mod_cast this
  omega

/-- **C141**, not so: every length gives a window.  A symmetric one of a single sample is nan. -/
theorem C141_single_wrong (alpha : ℝ) : gaussianWindow 1 alpha true 0 = [none] := by
  simp [gaussianWindow]

end Verif.WindowType
