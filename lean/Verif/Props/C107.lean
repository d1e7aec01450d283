import Verif.Model.SavePaths

/-!
# C107: names of saved files
-/

namespace Verif.SavePaths

/-- The file name of a path: what comes after its last separator. -/
def FileName (sep : Char) (path base : List Char) : Prop :=
  sep ∉ base ∧ (path = base ∨ ∃ dir, path = dir ++ sep :: base)

/-- The extension of a file name: what comes after its last dot. -/
def Extension (base e : List Char) : Prop := '.' ∉ e ∧ ∃ stem, base = stem ++ '.' :: e

theorem split_ne_nil (c : Char) (s : List Char) : split c s ≠ [] := by
  cases s with
  | nil => simp [split]
  | cons x xs =>
    rw [split]
    split_ifs
    · simp
    · split <;> simp

theorem split_of_not_mem (c : Char) (s : List Char) (h : c ∉ s) : split c s = [s] := by
  induction s with
  | nil => rfl
  | cons x xs ih =>
    have h1 : ¬ x = c := fun e => h (by simp [e])
    rw [split, if_neg h1, ih fun hm => h (List.mem_cons_of_mem _ hm)]

/-- Splitting after a separator. -/
theorem split_append (c : Char) (a b : List Char) :
    (split c (a ++ c :: b)).getLastD [] = (split c b).getLastD [] ∧
      (split c (a ++ c :: b)).length ≠ 1 := by
  induction a with
  | nil =>
    rw [List.nil_append, split, if_pos rfl]
    cases h : split c b with
    | nil => exact absurd h (split_ne_nil c b)
    | cons y ys => exact ⟨by simp [List.getLastD], by simp⟩
  | cons x xs ih =>
    rw [List.cons_append, split]
    cases h : split c (xs ++ c :: b) with
    | nil => exact absurd h (split_ne_nil _ _)
    | cons y ys =>
      rw [h] at ih
      cases ys with
      | nil => exact absurd rfl ih.2
      | cons z zs =>
        split_ifs
        · exact ⟨by rw [← ih.1]; simp [List.getLastD], by simp⟩
        · exact ⟨by rw [← ih.1]; simp [List.getLastD], by simp⟩

/-- A string without the separator, or with a last one. -/
theorem last_sep (c : Char) (s : List Char) :
    c ∉ s ∨ ∃ a b, s = a ++ c :: b ∧ c ∉ b := by
  induction s with
  | nil => left; simp
  | cons x xs ih =>
    rcases ih with h | ⟨a, b, rfl, hb⟩
    · by_cases hx : x = c
      · exact .inr ⟨[], xs, by simp [hx], h⟩
      · left
        simp only [List.mem_cons, not_or]
        exact ⟨fun e => hx e.symm, h⟩
    · exact .inr ⟨x :: a, b, by simp, hb⟩

theorem split_fileName {sep : Char} {path base : List Char} (h : FileName sep path base) :
    (split sep path).getLastD [] = base := by
  rcases h with ⟨hn, rfl | ⟨dir, rfl⟩⟩
  · rw [split_of_not_mem _ _ hn]
    rfl
  · rw [(split_append sep dir base).1, split_of_not_mem _ _ hn]
    rfl

/-- Every path has a file name. -/
theorem exists_fileName (sep : Char) (path : List Char) : ∃ base, FileName sep path base := by
  rcases last_sep sep path with h | ⟨a, b, rfl, hb⟩
  · exact ⟨path, h, .inl rfl⟩
  · exact ⟨b, hb, .inr ⟨a, rfl⟩⟩

/-- Every path has exactly one file name, and every file name with a dot has exactly one extension. -/
theorem C107_well_defined (sep : Char) (path : List Char) :
    (∃! base, FileName sep path base) ∧
      ∀ base : List Char, '.' ∈ base → ∃! e, Extension base e := by
  constructor
  · obtain ⟨b, hb⟩ := exists_fileName sep path
    exact ⟨b, hb, fun b' hb' => (split_fileName hb').symm.trans (split_fileName hb)⟩
  · intro base hd
    rcases last_sep '.' base with h | ⟨a, b, rfl, hb⟩
    · exact absurd hd h
    · refine ⟨b, ⟨hb, a, rfl⟩, ?_⟩
      rintro e ⟨he, s, hs⟩
      have h1 := (split_append '.' a b).1
      rw [hs, (split_append '.' s e).1, split_of_not_mem _ _ hb, split_of_not_mem _ _ he] at h1
      exact h1

/-- A name without a dot is completed with the format, a name with the desired extension stays as it
is, and a name with any other extension is refused. -/
theorem C107_path (sep : Char) (path base fmt : List Char) (hb : FileName sep path base) :
    ('.' ∉ base → checkFormat sep path fmt = .ok (path ++ '.' :: fmt)) ∧
    (Extension base fmt → checkFormat sep path fmt = .ok path) ∧
    (∀ e, Extension base e → e ≠ fmt → checkFormat sep path fmt = .error .assertionError) := by
  unfold checkFormat
  dsimp only
  rw [split_fileName hb]
  have key : ∀ e, Extension base e →
      (split '.' base).length ≠ 1 ∧ (split '.' base).getLastD [] = e := by
    rintro e ⟨he, s, rfl⟩
    refine ⟨(split_append '.' s e).2, ?_⟩
    rw [(split_append '.' s e).1, split_of_not_mem _ _ he]
    rfl
  refine ⟨fun h => ?_, fun h => ?_, fun e h hne => ?_⟩
  · rw [split_of_not_mem _ _ h]
    rfl
  · obtain ⟨k1, k2⟩ := key fmt h
    rw [if_pos k1, if_pos k2]
  · obtain ⟨k1, k2⟩ := key e h
    rw [if_pos k1, k2, if_neg hne]

/-- The path that is used always ends with the format, and is the given one or the given one with the
format appended. -/
theorem C107_result (sep : Char) (path fmt q : List Char)
    (h : checkFormat sep path fmt = .ok q) :
    (q = path ∨ q = path ++ '.' :: fmt) ∧ ∃ s, q = s ++ '.' :: fmt := by
  obtain ⟨base, hb⟩ := exists_fileName sep path
  obtain ⟨h1, h2, h3⟩ := C107_path sep path base fmt hb
  rcases last_sep '.' base with hd | ⟨s, e, he, hn⟩
  · rw [h1 hd] at h
    injection h with h
    exact ⟨.inr h.symm, path, h.symm⟩
  · by_cases hf : e = fmt
    · subst hf
      rw [h2 ⟨hn, s, he⟩] at h
      injection h with h
      subst h
      refine ⟨.inl rfl, ?_⟩
      rcases hb.2 with hp | ⟨dir, hp⟩
      · exact ⟨s, by rw [hp, he]⟩
      · exact ⟨dir ++ sep :: s, by rw [hp, he]; simp⟩
    · rw [h3 e ⟨hn, s, he⟩ hf] at h
      cases h

/-- The completed path is accepted and stays as it is. -/
theorem C107_idempotent (sep : Char) (hs : sep ≠ '.') (path fmt q : List Char) (hd : '.' ∉ fmt)
    (hf : sep ∉ fmt) (h : checkFormat sep path fmt = .ok q) : checkFormat sep q fmt = .ok q := by
  rcases (C107_result sep path fmt q h).1 with rfl | rfl
  · exact h
  · obtain ⟨base, hb⟩ := exists_fileName sep path
    have hb' : FileName sep (path ++ '.' :: fmt) (base ++ '.' :: fmt) := by
      refine ⟨?_, ?_⟩
      · simp only [List.mem_append, List.mem_cons, not_or]
        exact ⟨hb.1, hs, hf⟩
      · rcases hb.2 with hp | ⟨dir, hp⟩
        · exact .inl (by rw [hp])
        · exact .inr ⟨dir, by rw [hp]; simp⟩
    exact (C107_path sep _ _ fmt hb').2.1 ⟨hd, base, rfl⟩

/-- One save. -/
structure Save (α : Type) where
  path : List Char
  object : α

/-- A history of saves; refused ones change nothing. -/
def run {α : Type} (sep : Char) (files : Files α) : List (Save α) → Files α
  | [] => files
  | s :: rest => run sep (match savePkl sep files s.path s.object with
      | .ok g => g
      | .error _ => files) rest

theorem savePkl_ok {α : Type} {sep : Char} {files : Files α} {p q : List Char} {x : α}
    (h : checkFormat sep p ['p', 'k', 'l'] = .ok q) :
    savePkl sep files p x = .ok fun r => if r = q then some x else files r := by
  unfold savePkl
  rw [h]
  rfl

theorem run_untouched {α : Type} (sep : Char) (q : List Char) (l : List (Save α))
    (files : Files α)
    (h : ∀ s ∈ l, checkFormat sep s.path ['p', 'k', 'l'] ≠ .ok q) : run sep files l q = files q := by
  induction l generalizing files with
  | nil => rfl
  | cons s rest ih =>
    rw [run, ih _ fun t ht => h t (List.mem_cons_of_mem _ ht)]
    cases hc : checkFormat sep s.path ['p', 'k', 'l'] with
    | error e => simp only [savePkl, hc, bind, Except.bind]
    | ok r =>
      rw [savePkl_ok hc]
      have : q ≠ r := fun e => h s List.mem_cons_self (by rw [hc, e])
      dsimp only
      rw [if_neg this]

/-- After any history of saves, loading a path gives the object saved last under the same file; the
name may be given with or without its extension in both calls. -/
theorem C107_load_after_save {α : Type} (sep : Char) (files : Files α)
    (before after : List (Save α)) (s : Save α) (path q : List Char)
    (hs : checkFormat sep s.path ['p', 'k', 'l'] = .ok q)
    (hp : checkFormat sep path ['p', 'k', 'l'] = .ok q)
    (ha : ∀ t ∈ after, checkFormat sep t.path ['p', 'k', 'l'] ≠ .ok q) :
    loadPkl sep (run sep files (before ++ s :: after)) path = .ok (some s.object) := by
  have : run sep files (before ++ s :: after) q = some s.object := by
    induction before generalizing files with
    | nil =>
      rw [List.nil_append, run, run_untouched sep q after _ ha, savePkl_ok hs]
      dsimp only
      rw [if_pos rfl]
    | cons t ts ih => rw [List.cons_append, run]; exact ih _
  unfold loadPkl
  rw [hp]
  simp only [bind, Except.bind, pure, Except.pure, this]

/-- In particular with the path of the call and with the completed path. -/
theorem C107_load_same_path {α : Type} (sep : Char) (hsep : sep ∉ ['.', 'p', 'k', 'l'])
    (files g : Files α) (path : List Char) (x : α) (h : savePkl sep files path x = .ok g) :
    loadPkl sep g path = .ok (some x) ∧
      ∃ q, g q = some x ∧ (∃ s, q = s ++ ['.', 'p', 'k', 'l']) ∧
        loadPkl sep g q = .ok (some x) ∧ ∀ r ≠ q, g r = files r := by
  cases hc : checkFormat sep path ['p', 'k', 'l'] with
  | error e => simp only [savePkl, hc, bind, Except.bind] at h; cases h
  | ok q =>
    rw [savePkl_ok hc] at h
    injection h with h
    subst h
    simp only [List.mem_cons, not_or] at hsep
    have hi := C107_idempotent sep hsep.1 path _ q (by decide) (by simpa using hsep.2) hc
    refine ⟨?_, q, if_pos rfl, ?_, ?_, fun r hr => if_neg hr⟩
    · simp only [loadPkl, hc, bind, Except.bind, pure, Except.pure, if_true]
    · exact (C107_result sep path _ q hc).2
    · simp only [loadPkl, hi, bind, Except.bind, pure, Except.pure, if_true]

/-- Signals: what is written for every mode and bit depth. -/
theorem C107_signal (sep : Char) (path mode : List Char) (b : ℤ) (w : Written) :
    saveSignal sep path mode b = .ok w ↔
      ∃ q, checkFormat sep path mode = .ok q ∧
        ((mode = "pkl".toList ∧ w = .pickle q) ∨
          ((mode = "wav".toList ∨ mode = "flac".toList) ∧
            ((b = 16 ∧ w = .audio q .pcm16) ∨ (b = 24 ∧ w = .audio q .pcm24) ∨
              (b = 32 ∧ w = .audio q .float) ∨ (b = 64 ∧ w = .audio q .double)))) := by
  unfold saveSignal
  rw [show "pkl".toList = ['p', 'k', 'l'] from rfl, show "wav".toList = ['w', 'a', 'v'] from rfl,
    show "flac".toList = ['f', 'l', 'a', 'c'] from rfl]
  cases hc : checkFormat sep path mode with
  | error e => simp [bind, Except.bind]
  | ok q =>
    simp only [bind, Except.bind, pure, Except.pure, Except.ok.injEq, exists_eq_left']
    by_cases hm : mode = ['w', 'a', 'v'] ∨ mode = ['f', 'l', 'a', 'c']
    · have hp : mode ≠ ['p', 'k', 'l'] := by rintro rfl; revert hm; decide
      rw [if_pos hm]
      simp only [hm, hp, false_and, false_or, true_and]
      split_ifs with h1 h2 h3 h4
      · subst h1; simp [eq_comm]
      · subst h2; simp [eq_comm]
      · subst h3; simp [eq_comm]
      · subst h4; simp [eq_comm]
      · simp [h1, h2, h3, h4]
    · rw [if_neg hm]
      simp only [hm, false_and, or_false]
      split_ifs with hp
      · simp [hp, eq_comm]
      · simp [hp]

/-- Code fact that contradicts the documentation ("if the path does not have any format, the desired
one is added"): a dot anywhere in the name counts as a format, so that names such as `take.1` cannot
be saved. -/
theorem C107_dotted_name_refused (sep : Char) (dir stem e fmt : List Char) (hs : sep ∉ stem)
    (he : sep ∉ e) (hsep : sep ≠ '.') (hd : '.' ∉ e) (hne : e ≠ fmt) :
    checkFormat sep (dir ++ sep :: (stem ++ '.' :: e)) fmt = .error .assertionError := by
  refine (C107_path sep _ (stem ++ '.' :: e) fmt ⟨?_, .inr ⟨dir, rfl⟩⟩).2.2 e ⟨hd, stem, rfl⟩ hne
  simp only [List.mem_append, List.mem_cons, not_or]
  exact ⟨hs, hsep, he⟩

example : checkFormat '/' "out.d/a".toList "wav".toList = .ok "out.d/a.wav".toList ∧
    checkFormat '/' "out/a.wav".toList "wav".toList = .ok "out/a.wav".toList ∧
    checkFormat '/' "out/take.1".toList "wav".toList = .error .assertionError := by
  refine ⟨rfl, rfl, rfl⟩

end Verif.SavePaths
