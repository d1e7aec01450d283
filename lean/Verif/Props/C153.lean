import Verif.Model.MicArray
import Verif.Props.C75
import Verif.Props.C78

/-!
# C153: the saved properties of microphone arrays
-/

namespace Verif.Beamforming

/-! ## Specification -/

/-- The coordinates after the assignments of a history. -/
def current (l : List Point) : List MicOp → List Point
  | [] => l
  | .assign (some l') :: h => current l' h
  | _ :: h => current l h

/-- What a property is for given coordinates. -/
noncomputable def fresh (l : List Point) : MicOp → Except Err MicVal
  | .assign none => .error .assertionError
  | .assign (some _) => .ok .done
  | .coordinates => .ok (.points l)
  | .dimensions => .ok (.axes (extendedAxes l))
  | .centerCoordinates => (centerIndex l).map fun i => .point (l.getD i 0)
  | .centerChannel => (centerIndex l).map fun i => .number i
  | .aperture => if l.length < 2 then .error .valueError else .ok (.reals [aperture l])
  | .minDistance => if l.length < 2 then .error .valueError else .ok (.reals [minDistance l])
  | .heToHz he c => if l.length < 2 then .error .valueError else .ok (.reals [heToHz l c he])
  | .hzToHe f c => if l.length < 2 then .error .valueError else .ok (.reals [hzToHe l c f])
  | .maximumRange he c => if l.length < 2 then .error .valueError else .ok (.reals (frequencyRange l he c))
  | .rangeFromHe he c => if he.length ≠ 2 then .error .assertionError
    else if l.length < 2 then .error .valueError else .ok (.reals (he.map fun x => heToHz l c x))

/-- Operations that need the center. -/
def MicOp.needsCenter : MicOp → Bool
  | .centerCoordinates => true
  | .centerChannel => true
  | _ => false

/-- Operations that need the aperture or the minimum distance. -/
def MicOp.needsExtents : MicOp → Bool
  | .aperture => true
  | .minDistance => true
  | .heToHz _ _ => true
  | .hzToHe _ _ => true
  | .maximumRange _ _ => true
  | .rangeFromHe he _ => he.length == 2
  | _ => false

/-- No operation of a history is an assignment of an array. -/
def NoAssign (h : List MicOp) : Prop := ∀ op ∈ h, ∀ l, op ≠ .assign (some l)

/-- The coordinates at the time of the first operation of the kind `need` at which the coordinates have at
least `least` points; those after the whole history if there has been none. -/
def basis (need : MicOp → Bool) (least : ℕ) : List Point → List MicOp → List Point
  | l, [] => l
  | l, op :: h => if need op = true ∧ least ≤ l.length then l
    else basis need least (current l [op]) h

/-! ## Invariants -/

theorem centerIndex_ok (l : List Point) (h : l ≠ []) : ∃ i, centerIndex l = .ok i := by
  obtain ⟨i, hi, -⟩ := Helpers.argmin_spec (l.map fun p => distance p (centroid l)) (by simpa using h)
  exact ⟨i, hi⟩

theorem centerIndex_nil : ∃ e, centerIndex [] = .error e := ⟨_, rfl⟩

theorem getCenter_some (s : MicState) (c : Point × ℕ) (h : s.center = some c) : s.getCenter = (.ok c, s) := by
  unfold MicState.getCenter
  rw [h]

theorem getCenter_ok (s : MicState) (h : s.center = none) (i : ℕ) (hi : centerIndex s.coords = .ok i) :
    s.getCenter = (.ok (s.coords.getD i 0, i), { s with center := some (s.coords.getD i 0, i) }) := by
  unfold MicState.getCenter
  rw [h]
  dsimp only
  rw [hi]

theorem getCenter_error (s : MicState) (h : s.center = none) (e : Err) (hi : centerIndex s.coords = .error e) :
    s.getCenter = (.error e, s) := by
  unfold MicState.getCenter
  rw [h]
  dsimp only
  rw [hi]

theorem getExtents_some (s : MicState) (c : ℝ × ℝ) (h : s.extents = some c) : s.getExtents = (.ok c, s) := by
  unfold MicState.getExtents
  rw [h]

theorem getExtents_ok (s : MicState) (h : s.extents = none) (hi : 2 ≤ s.coords.length) :
    s.getExtents = (.ok (aperture s.coords, minDistance s.coords),
      { s with extents := some (aperture s.coords, minDistance s.coords) }) := by
  unfold MicState.getExtents
  rw [h]
  exact if_neg (by omega)

theorem getExtents_error (s : MicState) (h : s.extents = none) (hi : s.coords.length < 2) :
    s.getExtents = (.error .valueError, s) := by
  unfold MicState.getExtents
  rw [h]
  exact if_pos hi

/-- The saved values of a state. -/
structure Saved (s : MicState) (l bc be : List Point) : Prop where
  coords : s.coords = l
  dims : s.dims = extendedAxes l
  center : (s.center = none ∧ bc = l) ∨ ∃ i, centerIndex bc = .ok i ∧ s.center = some (bc.getD i 0, i)
  extents : (s.extents = none ∧ be = l) ∨ (2 ≤ be.length ∧ s.extents = some (aperture be, minDistance be))

/-- Reading gives the value for the coordinates that are the basis. -/
theorem saved_answer (s : MicState) (l bc be : List Point) (hs : Saved s l bc be) (op : MicOp) :
    (s.step op).1 = fresh (if op.needsCenter then bc else if op.needsExtents then be else l) op := by
  obtain ⟨h1, h2, h3, h4⟩ := hs
  have hc : s.getCenter.1 = (centerIndex bc).map fun i => (bc.getD i 0, i) := by
    rcases h3 with ⟨h3, rfl⟩ | ⟨i, hi, h3⟩
    · subst h1
      cases hi : centerIndex s.coords with
      | error e => rw [getCenter_error s h3 e hi]; rfl
      | ok i => rw [getCenter_ok s h3 i hi]; rfl
    · rw [getCenter_some s _ h3, hi]
      rfl
  have he : s.getExtents.1 = if be.length < 2 then .error .valueError else .ok (aperture be, minDistance be) := by
    rcases h4 with ⟨h4, rfl⟩ | ⟨h5, h4⟩
    · subst h1
      by_cases hl : s.coords.length < 2
      · rw [getExtents_error s h4 hl, if_pos hl]
      · rw [getExtents_ok s h4 (by omega), if_neg hl]
    · rw [getExtents_some s _ h4, if_neg (by omega)]
  have hmapc : ∀ f : Point × ℕ → MicVal, (s.withCenter f).1 = (centerIndex bc).map fun i => f (bc.getD i 0, i) := by
    intro f
    unfold MicState.withCenter
    dsimp only
    rw [hc]
    cases centerIndex bc with
    | error e => rfl
    | ok i => rfl
  have hmape : ∀ f : ℝ × ℝ → MicVal, (s.withExtents f).1 =
      if be.length < 2 then .error .valueError else .ok (f (aperture be, minDistance be)) := by
    intro f
    unfold MicState.withExtents
    dsimp only
    rw [he]
    split_ifs <;> rfl
  cases op with
  | assign p => cases p <;> rfl
  | coordinates => show Except.ok (MicVal.points s.coords) = _; rw [h1]; rfl
  | dimensions => show Except.ok (MicVal.axes s.dims) = _; rw [h2]; rfl
  | centerCoordinates => exact hmapc _
  | centerChannel => exact hmapc _
  | aperture => exact hmape _
  | minDistance => exact hmape _
  | heToHz he c => exact hmape _
  | hzToHe f c => exact hmape _
  | maximumRange he c => exact hmape _
  | rangeFromHe x c =>
    unfold MicState.step fresh MicOp.needsExtents MicOp.needsCenter
    dsimp only
    by_cases hx : x.length = 2
    · rw [if_neg (by simpa using hx), if_neg (by simpa using hx)]
      simp only [hx, beq_self_eq_true, Bool.false_eq_true, if_false, if_true]
      exact hmape _
    · rw [if_pos hx, if_pos hx]

/-- One operation keeps the bases that are fixed. -/
theorem saved_step (s : MicState) (l bc be : List Point) (hs : Saved s l bc be) (op : MicOp) :
    Saved (s.step op).2 (current l [op])
      (if (s.center = none ∧ ¬ (op.needsCenter = true ∧ 1 ≤ l.length)) then current l [op] else bc)
      (if (s.extents = none ∧ ¬ (op.needsExtents = true ∧ 2 ≤ l.length)) then current l [op] else be) := by
  obtain ⟨h1, h2, h3, h4⟩ := hs
  -- operations that change nothing but saved values
  have hread : ∀ op : MicOp, current l [op] = l → op.needsCenter = false → op.needsExtents = false →
      Saved s (current l [op])
      (if (s.center = none ∧ ¬ (op.needsCenter = true ∧ 1 ≤ l.length)) then current l [op] else bc)
      (if (s.extents = none ∧ ¬ (op.needsExtents = true ∧ 2 ≤ l.length)) then current l [op] else be) := by
    intro op e1 e2 e3
    rw [e1, e2, e3]
    refine ⟨h1, h2, ?_, ?_⟩
    · rcases h3 with ⟨h3, rfl⟩ | ⟨i, hi, h3⟩
      · left
        exact ⟨h3, by rw [if_pos ⟨h3, by simp⟩]⟩
      · right
        rw [if_neg (by rw [h3]; simp)]
        exact ⟨i, hi, h3⟩
    · rcases h4 with ⟨h4, rfl⟩ | ⟨h5, h4⟩
      · left
        exact ⟨h4, by rw [if_pos ⟨h4, by simp⟩]⟩
      · right
        rw [if_neg (by rw [h4]; simp)]
        exact ⟨h5, h4⟩
  have hcen : ∀ (op : MicOp) (f : Point × ℕ → MicVal), current l [op] = l → op.needsCenter = true →
      op.needsExtents = false → Saved (s.withCenter f).2 (current l [op])
      (if (s.center = none ∧ ¬ (op.needsCenter = true ∧ 1 ≤ l.length)) then current l [op] else bc)
      (if (s.extents = none ∧ ¬ (op.needsExtents = true ∧ 2 ≤ l.length)) then current l [op] else be) := by
    intro op f e1 e2 e3
    rw [e1, e2, e3]
    have hext : (s.extents = none ∧ (if (s.extents = none ∧ ¬ (false = true ∧ 2 ≤ l.length)) then l else be) = l) ∨
        (2 ≤ (if (s.extents = none ∧ ¬ (false = true ∧ 2 ≤ l.length)) then l else be).length ∧
          s.extents = some (aperture (if (s.extents = none ∧ ¬ (false = true ∧ 2 ≤ l.length)) then l else be),
            minDistance (if (s.extents = none ∧ ¬ (false = true ∧ 2 ≤ l.length)) then l else be))) := by
      rcases h4 with ⟨h4, rfl⟩ | ⟨h5, h4⟩
      · left
        exact ⟨h4, by rw [if_pos ⟨h4, by simp⟩]⟩
      · right
        rw [if_neg (by rw [h4]; simp)]
        exact ⟨h5, h4⟩
    unfold MicState.withCenter
    dsimp only
    rcases h3 with ⟨h3, rfl⟩ | ⟨i, hi, h3⟩
    · rw [ite_self]
      subst h1
      by_cases hl : s.coords = []
      · obtain ⟨e, he⟩ := centerIndex_nil
        rw [← hl] at he
        rw [getCenter_error s h3 e he]
        exact ⟨rfl, h2, Or.inl ⟨h3, rfl⟩, hext⟩
      · obtain ⟨i, hi⟩ := centerIndex_ok s.coords hl
        rw [getCenter_ok s h3 i hi]
        exact ⟨rfl, h2, Or.inr ⟨i, hi, rfl⟩, hext⟩
    · rw [getCenter_some s _ h3, if_neg (by rw [h3]; simp)]
      exact ⟨h1, h2, Or.inr ⟨i, hi, h3⟩, hext⟩
  have hexts : ∀ (op : MicOp) (f : ℝ × ℝ → MicVal), current l [op] = l → op.needsCenter = false →
      op.needsExtents = true → Saved (s.withExtents f).2 (current l [op])
      (if (s.center = none ∧ ¬ (op.needsCenter = true ∧ 1 ≤ l.length)) then current l [op] else bc)
      (if (s.extents = none ∧ ¬ (op.needsExtents = true ∧ 2 ≤ l.length)) then current l [op] else be) := by
    intro op f e1 e2 e3
    rw [e1, e2, e3]
    have hce : (s.center = none ∧ (if (s.center = none ∧ ¬ (false = true ∧ 1 ≤ l.length)) then l else bc) = l) ∨
        ∃ i, centerIndex (if (s.center = none ∧ ¬ (false = true ∧ 1 ≤ l.length)) then l else bc) = .ok i ∧
          s.center = some ((if (s.center = none ∧ ¬ (false = true ∧ 1 ≤ l.length)) then l else bc).getD i 0, i) := by
      rcases h3 with ⟨h3, rfl⟩ | ⟨i, hi, h3⟩
      · left
        exact ⟨h3, by rw [if_pos ⟨h3, by simp⟩]⟩
      · right
        rw [if_neg (by rw [h3]; simp)]
        exact ⟨i, hi, h3⟩
    unfold MicState.withExtents
    dsimp only
    rcases h4 with ⟨h4, rfl⟩ | ⟨h5, h4⟩
    · rw [ite_self (c := (s.extents = none ∧ _))]
      subst h1
      by_cases hl : s.coords.length < 2
      · rw [getExtents_error s h4 hl]
        exact ⟨rfl, h2, hce, Or.inl ⟨h4, rfl⟩⟩
      · rw [getExtents_ok s h4 (by omega)]
        exact ⟨rfl, h2, hce, Or.inr ⟨by omega, rfl⟩⟩
    · rw [getExtents_some s _ h4, if_neg (c := (s.extents = none ∧ _)) (by rw [h4]; simp)]
      exact ⟨h1, h2, hce, Or.inr ⟨h5, h4⟩⟩
  cases op with
  | assign p =>
    cases p with
    | none => exact hread _ rfl rfl rfl
    | some l' =>
      refine ⟨rfl, rfl, ?_, ?_⟩
      · rcases h3 with ⟨h3, rfl⟩ | ⟨i, hi, h3⟩
        · left
          exact ⟨h3, by rw [if_pos ⟨h3, by simp [MicOp.needsCenter]⟩]⟩
        · right
          rw [if_neg (by rw [h3]; simp)]
          exact ⟨i, hi, h3⟩
      · rcases h4 with ⟨h4, rfl⟩ | ⟨h5, h4⟩
        · left
          exact ⟨h4, by rw [if_pos ⟨h4, by simp [MicOp.needsExtents]⟩]⟩
        · right
          rw [if_neg (by rw [h4]; simp)]
          exact ⟨h5, h4⟩
  | coordinates => exact hread _ rfl rfl rfl
  | dimensions => exact hread _ rfl rfl rfl
  | centerCoordinates => exact hcen _ _ rfl rfl rfl
  | centerChannel => exact hcen _ _ rfl rfl rfl
  | aperture => exact hexts _ _ rfl rfl rfl
  | minDistance => exact hexts _ _ rfl rfl rfl
  | heToHz he c => exact hexts _ _ rfl rfl rfl
  | hzToHe f c => exact hexts _ _ rfl rfl rfl
  | maximumRange he c => exact hexts _ _ rfl rfl rfl
  | rangeFromHe x c =>
    by_cases hx : x.length = 2
    · have : s.step (.rangeFromHe x c) = s.withExtents fun e => .reals (x.map fun h => h * c / e.1) :=
        if_neg (by simpa using hx)
      rw [this]
      exact hexts _ _ rfl rfl (by simp [MicOp.needsExtents, hx])
    · have : s.step (.rangeFromHe x c) = (.error .assertionError, s) := if_pos hx
      rw [this]
      exact hread _ rfl rfl (by simp [MicOp.needsExtents, hx])

theorem withExtents_center (s : MicState) (f : ℝ × ℝ → MicVal) : (s.withExtents f).2.center = s.center := by
  unfold MicState.withExtents MicState.getExtents
  dsimp only
  cases s.extents with
  | some e => rfl
  | none =>
    dsimp only
    split_ifs <;> rfl

theorem withCenter_extents (s : MicState) (f : Point × ℕ → MicVal) : (s.withCenter f).2.extents = s.extents := by
  unfold MicState.withCenter MicState.getCenter
  dsimp only
  cases s.center with
  | some e => rfl
  | none =>
    dsimp only
    cases centerIndex s.coords <;> rfl

theorem withCenter_center (s : MicState) (f : Point × ℕ → MicVal) :
    (s.withCenter f).2.center = none ↔ s.center = none ∧ ¬ 1 ≤ s.coords.length := by
  unfold MicState.withCenter
  dsimp only
  cases hc : s.center with
  | some c => rw [getCenter_some s c hc]; simp [hc]
  | none =>
    by_cases hl : s.coords = []
    · obtain ⟨e, he⟩ := centerIndex_nil
      rw [← hl] at he
      rw [getCenter_error s hc e he]
      simp [hc, hl]
    · obtain ⟨i, hi⟩ := centerIndex_ok s.coords hl
      rw [getCenter_ok s hc i hi]
      have := List.length_pos_of_ne_nil hl
      simp
      omega

theorem withExtents_extents (s : MicState) (f : ℝ × ℝ → MicVal) :
    (s.withExtents f).2.extents = none ↔ s.extents = none ∧ ¬ 2 ≤ s.coords.length := by
  unfold MicState.withExtents
  dsimp only
  cases hc : s.extents with
  | some c => rw [getExtents_some s c hc]; simp [hc]
  | none =>
    by_cases hl : s.coords.length < 2
    · rw [getExtents_error s hc hl]
      simp [hc]
      omega
    · rw [getExtents_ok s hc (by omega)]
      simp
      omega

theorem step_center (s : MicState) (op : MicOp) : (s.step op).2.center = none ↔
    s.center = none ∧ ¬ (op.needsCenter = true ∧ 1 ≤ s.coords.length) := by
  cases op with
  | assign p => cases p <;> simp [MicState.step, MicOp.needsCenter]
  | coordinates => simp [MicState.step, MicOp.needsCenter]
  | dimensions => simp [MicState.step, MicOp.needsCenter]
  | centerCoordinates => simp [MicState.step, MicOp.needsCenter, withCenter_center]
  | centerChannel => simp [MicState.step, MicOp.needsCenter, withCenter_center]
  | aperture => simp [MicState.step, MicOp.needsCenter, withExtents_center]
  | minDistance => simp [MicState.step, MicOp.needsCenter, withExtents_center]
  | heToHz he c => simp [MicState.step, MicOp.needsCenter, withExtents_center]
  | hzToHe f c => simp [MicState.step, MicOp.needsCenter, withExtents_center]
  | maximumRange he c => simp [MicState.step, MicOp.needsCenter, withExtents_center]
  | rangeFromHe x c =>
    unfold MicState.step
    dsimp only
    split_ifs <;> simp [MicOp.needsCenter, withExtents_center]

theorem step_extents (s : MicState) (op : MicOp) : (s.step op).2.extents = none ↔
    s.extents = none ∧ ¬ (op.needsExtents = true ∧ 2 ≤ s.coords.length) := by
  cases op with
  | assign p => cases p <;> simp [MicState.step, MicOp.needsExtents]
  | coordinates => simp [MicState.step, MicOp.needsExtents]
  | dimensions => simp [MicState.step, MicOp.needsExtents]
  | centerCoordinates => simp [MicState.step, MicOp.needsExtents, withCenter_extents]
  | centerChannel => simp [MicState.step, MicOp.needsExtents, withCenter_extents]
  | aperture => simp [MicState.step, MicOp.needsExtents, withExtents_extents]
  | minDistance => simp [MicState.step, MicOp.needsExtents, withExtents_extents]
  | heToHz he c => simp [MicState.step, MicOp.needsExtents, withExtents_extents]
  | hzToHe f c => simp [MicState.step, MicOp.needsExtents, withExtents_extents]
  | maximumRange he c => simp [MicState.step, MicOp.needsExtents, withExtents_extents]
  | rangeFromHe x c =>
    unfold MicState.step
    dsimp only
    by_cases hx : x.length = 2
    · rw [if_neg (by simpa using hx), withExtents_extents]
      simp [MicOp.needsExtents, hx]
    · rw [if_pos hx]
      simp [MicOp.needsExtents, hx]

theorem current_cons (l : List Point) (op : MicOp) (h : List MicOp) :
    current l (op :: h) = current (current l [op]) h := by
  cases op with
  | assign p => cases p <;> rfl
  | _ => rfl

theorem basis_cons (need : MicOp → Bool) (least : ℕ) (l : List Point) (op : MicOp) (h : List MicOp) :
    basis need least l (op :: h) = if need op = true ∧ least ≤ l.length then l
      else basis need least (current l [op]) h := rfl

/-- The saved values after a history. -/
theorem saved_after : ∀ (h : List MicOp) (s : MicState) (l bc be : List Point), Saved s l bc be →
    Saved (s.after h) (current l h) (if s.center = none then basis MicOp.needsCenter 1 l h else bc)
      (if s.extents = none then basis MicOp.needsExtents 2 l h else be)
  | [], s, l, bc, be, hs => by
    have h3 := hs.center
    have h4 := hs.extents
    have e1 : (if s.center = none then basis MicOp.needsCenter 1 l [] else bc) = bc := by
      rcases h3 with ⟨h, rfl⟩ | ⟨i, -, h⟩
      · rw [if_pos h]; rfl
      · rw [if_neg (by rw [h]; simp)]
    have e2 : (if s.extents = none then basis MicOp.needsExtents 2 l [] else be) = be := by
      rcases h4 with ⟨h, rfl⟩ | ⟨-, h⟩
      · rw [if_pos h]; rfl
      · rw [if_neg (by rw [h]; simp)]
    rw [e1, e2]
    exact hs
  | op :: h, s, l, bc, be, hs => by
    have hl := hs.coords
    have h3 := hs.center
    have h4 := hs.extents
    have ih := saved_after h _ _ _ _ (saved_step s l bc be hs op)
    have e0 : s.after (op :: h) = (s.step op).2.after h := rfl
    rw [e0, current_cons]
    have e1 : (if s.center = none then basis MicOp.needsCenter 1 l (op :: h) else bc) =
        if (s.step op).2.center = none then basis MicOp.needsCenter 1 (current l [op]) h
        else if (s.center = none ∧ ¬ (op.needsCenter = true ∧ 1 ≤ l.length)) then current l [op] else bc := by
      simp only [step_center, hl]
      rcases h3 with ⟨h3, rfl⟩ | ⟨i, -, h3⟩
      · rw [if_pos h3, basis_cons]
        by_cases hn : op.needsCenter = true ∧ 1 ≤ bc.length
        · rw [if_pos hn, if_neg (by simp [hn]), if_neg (by simp [hn])]
        · rw [if_neg hn, if_pos ⟨h3, hn⟩]
      · rw [if_neg (by rw [h3]; simp), if_neg (by rw [h3]; simp), if_neg (by rw [h3]; simp)]
    have e2 : (if s.extents = none then basis MicOp.needsExtents 2 l (op :: h) else be) =
        if (s.step op).2.extents = none then basis MicOp.needsExtents 2 (current l [op]) h
        else if (s.extents = none ∧ ¬ (op.needsExtents = true ∧ 2 ≤ l.length)) then current l [op] else be := by
      simp only [step_extents, hl]
      rcases h4 with ⟨h4, rfl⟩ | ⟨-, h4⟩
      · rw [if_pos h4, basis_cons]
        by_cases hn : op.needsExtents = true ∧ 2 ≤ be.length
        · rw [if_pos hn, if_neg (by simp [hn]), if_neg (by simp [hn])]
        · rw [if_neg hn, if_pos ⟨h4, hn⟩]
      · rw [if_neg (by rw [h4]; simp), if_neg (by rw [h4]; simp), if_neg (by rw [h4]; simp)]
    rw [e1, e2]
    exact ih

theorem saved_new (l : List Point) : Saved (MicState.new l) l l l :=
  ⟨rfl, rfl, Or.inl ⟨rfl, rfl⟩, Or.inl ⟨rfl, rfl⟩⟩

theorem current_noAssign (l : List Point) : ∀ h : List MicOp, NoAssign h → current l h = l
  | [], _ => rfl
  | op :: h, hn => by
    have e : current l [op] = l := by
      cases op with
      | assign p =>
        cases p with
        | none => rfl
        | some l' => exact absurd rfl (hn _ (by simp) l')
      | _ => rfl
    rw [current_cons, e]
    exact current_noAssign l h fun op hop => hn op (by simp [hop])

theorem basis_noAssign (need : MicOp → Bool) (least : ℕ) (l : List Point) : ∀ h : List MicOp, NoAssign h →
    basis need least l h = l
  | [], _ => rfl
  | op :: h, hn => by
    have e := current_noAssign l [op] fun o ho => hn o (by simp at ho; simp [ho])
    unfold basis
    rw [e]
    split_ifs
    · rfl
    · exact basis_noAssign need least l h fun op hop => hn op (by simp [hop])

/-! ## Theorems -/

/-- After every history of assignments and readings (also failed ones): coordinates and dimensions are those
of the last assignment; center, aperture, minimum distance and what depends on them belong to the coordinates
at the time when they were read for the first time. -/
theorem C153_history (l : List Point) (h : List MicOp) (op : MicOp) :
    (MicState.new l).answer h op = fresh
      (if op.needsCenter then basis MicOp.needsCenter 1 l h
        else if op.needsExtents then basis MicOp.needsExtents 2 l h else current l h) op := by
  have hs := saved_after h _ l l l (saved_new l)
  have e1 : (MicState.new l).center = none := rfl
  have e2 : (MicState.new l).extents = none := rfl
  rw [if_pos e1, if_pos e2] at hs
  exact saved_answer _ _ _ _ hs op

/-- An array whose coordinates are not assigned again: every property, after every history of readings, is
the one of its coordinates. -/
theorem C153_unchanged (l : List Point) (h : List MicOp) (hn : NoAssign h) (op : MicOp) :
    (MicState.new l).answer h op = fresh l op := by
  rw [C153_history, basis_noAssign _ _ l h hn, basis_noAssign _ _ l h hn, current_noAssign l h hn]
  simp

/-- Assigning coordinates before the first reading of the center (and of the aperture or the minimum distance)
is as good as building the array with them. -/
theorem C153_assigned_first_partial (l l' : List Point) (h : List MicOp) (hn : NoAssign h) (op : MicOp) :
    (MicState.new l).answer (.assign (some l') :: h) op = fresh l' op := by
  rw [C153_history]
  have e : ∀ need least, need (MicOp.assign (some l')) = false →
      basis need least l (.assign (some l') :: h) = l' := by
    intro need least hne
    unfold basis
    rw [if_neg (by simp [hne])]
    exact basis_noAssign _ _ l' h hn
  rw [e _ _ rfl, e _ _ rfl]
  have e2 : current l (.assign (some l') :: h) = l' := current_noAssign l' h hn
  rw [e2]
  simp

theorem basis_read (need : MicOp → Bool) (least : ℕ) (l : List Point) : ∀ (h1 : List MicOp) (op : MicOp)
    (h2 : List MicOp), NoAssign h1 → need op = true → least ≤ l.length → basis need least l (h1 ++ op :: h2) = l
  | [], op, h2, _, h, hl => if_pos ⟨h, hl⟩
  | o :: h1, op, h2, hn, h, hl => by
    have e := current_noAssign l [o] fun o' ho => hn o' (by simp at ho; simp [ho])
    rw [List.cons_append]
    unfold basis
    rw [e]
    split_ifs
    · rfl
    · exact basis_read need least l h1 op h2 (fun op hop => hn op (by simp [hop])) h hl

/-- What has been read once stays as it is: assignments after it have no influence. -/
theorem C153_stale (l : List Point) (h1 h2 : List MicOp) (hn : NoAssign h1) (first op : MicOp) :
    (l ≠ [] → first.needsCenter = true → op.needsCenter = true →
      (MicState.new l).answer (h1 ++ first :: h2) op = fresh l op) ∧
    (2 ≤ l.length → first.needsExtents = true → op.needsExtents = true →
      (MicState.new l).answer (h1 ++ first :: h2) op = fresh l op) := by
  constructor
  · intro hl hf ho
    rw [C153_history, if_pos ho, basis_read _ _ l h1 first h2 hn hf (List.length_pos_of_ne_nil hl)]
  · intro hl hf ho
    have hc : op.needsCenter = false := by cases op <;> first | rfl | cases ho
    rw [C153_history, hc, if_neg (by simp), if_pos ho, basis_read _ _ l h1 first h2 hn hf hl]

/-- The axes of an array are those along which two points differ. -/
theorem C153_dimensions (l : List Point) (h : l ≠ []) (i : Fin 3) :
    i ∈ extendedAxes l ↔ ∃ p ∈ l, ∃ q ∈ l, p i ≠ q i := by
  classical
  unfold extendedAxes constantAxis
  simp only [List.mem_filter, List.mem_finRange, true_and, decide_not, Bool.not_eq_true', decide_eq_false_iff_not]
  constructor
  · intro hn
    obtain ⟨q, hq⟩ := List.exists_mem_of_ne_nil l h
    by_contra hc
    push Not at hc
    exact hn ⟨q i, h, fun p hp => hc p hp q hq⟩
  · rintro ⟨p, hp, q, hq, hpq⟩ ⟨v, -, hv⟩
    exact hpq (by rw [hv p hp, hv q hq])

/-- Two microphones on the x axis at the given distance. -/
def micsAt (d : ℝ) : List Point := [![0, 0, 0], ![d, 0, 0]]

theorem micsAt_aperture (d : ℝ) (hd : 0 ≤ d) : aperture (micsAt d) = d := by
  obtain ⟨h1, ⟨i, hi, j, hj, hij, h2⟩, -⟩ := C78_aperture (micsAt d) le_rfl
  have hv : ∀ a b : ℝ, distance ![a, 0, 0] ![b, 0, 0] = |a - b| := by
    intro a b
    unfold distance
    simp only [Fin.sum_univ_three]
    simp
    rw [show a ^ 2 + b ^ 2 - 2 * (a * b) = (a - b) ^ 2 by ring, Real.sqrt_sq_eq_abs]
  rw [h2]
  have hlen : (micsAt d).length = 2 := rfl
  rw [hlen] at hi hj
  have e0 : (micsAt d).getD 0 0 = ![0, 0, 0] := rfl
  have e1 : (micsAt d).getD 1 0 = ![d, 0, 0] := rfl
  interval_cases i <;> interval_cases j
  · exact absurd rfl hij
  · rw [e0, e1, hv, zero_sub, abs_neg, abs_of_nonneg hd]
  · rw [e0, e1, hv, sub_zero, abs_of_nonneg hd]
  · exact absurd rfl hij

/-- An array whose aperture has been read keeps it when it gets other coordinates, with the frequencies for
Helmholtz numbers: two microphones at distance 1, then at distance 2. -/
theorem C153_stale_wrong :
    (MicState.new (micsAt 1)).answer [.aperture, .assign (some (micsAt 2))] .coordinates = .ok (.points (micsAt 2)) ∧
    (MicState.new (micsAt 1)).answer [.aperture, .assign (some (micsAt 2))] .aperture = .ok (.reals [1]) ∧
    fresh (micsAt 2) .aperture = .ok (.reals [2]) ∧
    (MicState.new (micsAt 1)).answer [.aperture, .assign (some (micsAt 2))] (.heToHz 4 343) =
      .ok (.reals [1372]) ∧
    fresh (micsAt 2) (.heToHz 4 343) = .ok (.reals [686]) := by
  have h1 := micsAt_aperture 1 zero_le_one
  have h2 := micsAt_aperture 2 zero_le_two
  have hst := fun op ho => ((C153_stale (micsAt 1) [] [.assign (some (micsAt 2))] (fun _ h => by simp at h) .aperture
    op).2 le_rfl rfl ho)
  refine ⟨?_, ?_, ?_, ?_, ?_⟩
  · rw [C153_history]
    rfl
  · have := hst .aperture rfl
    rw [List.nil_append] at this
    rw [this]
    show (if (micsAt 1).length < 2 then Except.error Err.valueError else Except.ok (MicVal.reals [aperture (micsAt 1)])) = _
    rw [if_neg (by decide), h1]
  · show (if (micsAt 2).length < 2 then Except.error Err.valueError else Except.ok (MicVal.reals [aperture (micsAt 2)])) = _
    rw [if_neg (by decide), h2]
  · have := hst (.heToHz 4 343) rfl
    rw [List.nil_append] at this
    rw [this]
    show (if (micsAt 1).length < 2 then Except.error Err.valueError else Except.ok (MicVal.reals [4 * 343 / aperture (micsAt 1)])) = _
    rw [if_neg (by decide), h1]
    norm_num
  · show (if (micsAt 2).length < 2 then Except.error Err.valueError else Except.ok (MicVal.reals [4 * 343 / aperture (micsAt 2)])) = _
    rw [if_neg (by decide), h2]
    norm_num

/-- Concrete case: a history of readings. -/
example : NoAssign [.aperture, .assign none, .centerChannel] := by
  intro op hop l
  simp at hop
  rcases hop with rfl | rfl | rfl <;> simp

end Verif.Beamforming
