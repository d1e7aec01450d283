import Verif.Model.Bytes24
import Mathlib.Tactic.NormNum
import Mathlib.Data.List.GetD

/-!
# C24: 24 bit packing round-trips
-/

namespace Verif.Bytes24

/-- Numbers representable in 24 bits. -/
def InRange (signed : Bool) (v : ℤ) : Prop :=
  if signed then -2 ^ 23 ≤ v ∧ v < 2 ^ 23 else 0 ≤ v ∧ v < 2 ^ 24

/-- The three bytes kept of one number. -/
def bytes24 (little : Bool) (v : ℤ) : List ℕ :=
  let u := (v % 2 ^ 32).toNat
  let le := [u % 256, u / 256 % 256, u / 65536 % 256]
  if little then le else le.reverse

private theorem range_add_four (n : ℕ) :
    List.range (4 + n) = [0, 1, 2, 3] ++ (List.range n).map (fun i => i + 4) := by
  rw [List.range_add]
  congr 1
  exact List.map_congr_left fun i _ => Nat.add_comm 4 i

private theorem pack_eq (little : Bool) (vs : List ℤ) :
    pack little vs = vs.flatMap (bytes24 little) := by
  induction vs with
  | nil => simp [pack]
  | cons v vs ih =>
    have hlen : (bytes32 little v).length = 4 := by cases little <;> simp [bytes32]
    obtain ⟨a, b, c, d, h4⟩ : ∃ a b c d, bytes32 little v = [a, b, c, d] := by
      match bytes32 little v, hlen with
      | [a, b, c, d], _ => exact ⟨a, b, c, d, rfl⟩
    have h24 : bytes24 little v = if little then [a, b, c] else [b, c, d] := by
      cases little <;> simp [bytes24, bytes32] at h4 ⊢ <;> omega
    unfold pack at ih ⊢
    simp only [List.flatMap_cons, h4, List.length_append, List.length_cons, List.length_nil] at ih ⊢
    rw [Nat.zero_add, range_add_four, List.filter_append, List.map_append]
    rw [← ih, h24]
    congr 1
    · cases little <;> simp
    · rw [List.filter_map, List.map_map]
      have : ((fun i => decide (i % 4 ≠ if little = true then 3 else 0)) ∘ fun i => i + 4) =
          fun i => decide (i % 4 ≠ if little = true then 3 else 0) := by
        funext i
        simp
      rw [this]
      refine List.map_congr_left fun i _ => ?_
      simp [List.getD_eq_getElem?_getD]

private theorem fromBytes_bytes24 (little signed : Bool) (v : ℤ) (h : InRange signed v) :
    fromBytes little signed (bytes24 little v) = v := by
  unfold InRange at h
  unfold fromBytes bytes24
  cases little <;> cases signed <;>
    simp only [if_true, if_false, Bool.false_eq_true, List.reverse_cons, List.reverse_nil,
      List.nil_append, List.cons_append, List.getD_cons_zero, List.getD_cons_succ,
      false_and, true_and] at h ⊢ <;> (try split_ifs) <;> omega

private theorem bytes24_length (little : Bool) (v : ℤ) : (bytes24 little v).length = 3 := by
  cases little <;> simp [bytes24]

private theorem flat_length (little : Bool) (vs : List ℤ) :
    (vs.flatMap (bytes24 little)).length = 3 * vs.length := by
  induction vs with
  | nil => simp
  | cons v vs ih => rw [List.flatMap_cons, List.length_append, ih, bytes24_length,
      List.length_cons]; omega

private theorem unpack_flat (little : Bool) (vs : List ℤ) (n : ℕ) (hn : n < vs.length) :
    ((vs.flatMap (bytes24 little)).drop (3 * n)).take 3 = bytes24 little (vs.getD n 0) := by
  induction vs generalizing n with
  | nil => simp at hn
  | cons v vs ih =>
    rw [List.flatMap_cons]
    cases n with
    | zero =>
      simp only [Nat.mul_zero, List.drop_zero, List.getD_cons_zero]
      rw [List.take_append_of_le_length (by rw [bytes24_length]),
        List.take_of_length_le (by rw [bytes24_length])]
    | succ n =>
      have h3 : 3 * (n + 1) = (bytes24 little v).length + 3 * n := by
        rw [bytes24_length]; omega
      rw [h3, List.drop_append, List.getD_cons_succ]
      simp only [List.length_cons] at hn
      have hd : List.drop ((bytes24 little v).length + 3 * n) (bytes24 little v) = [] := by
        apply List.drop_of_length_le
        omega
      rw [hd, List.nil_append, Nat.add_sub_cancel_left]
      exact ih n (by omega)

/-- **C24.**  For every list of integers representable in 24 bits (signed or unsigned) and
either byte order: packing gives three bytes per sample, and unpacking returns the list. -/
theorem C24_round_trip (little signed : Bool) (vs : List ℤ) (h : ∀ v ∈ vs, InRange signed v) :
    (pack little vs).length = 3 * vs.length ∧
    unpack little signed (pack little vs) = .ok vs := by
  rw [pack_eq]
  have hl := flat_length little vs
  refine ⟨hl, ?_⟩
  unfold unpack
  rw [hl, if_pos (by omega)]
  congr 1
  apply List.ext_getElem
  · simp
  · intro i h1 h2
    simp only [List.getElem_map, List.getElem_range]
    rw [unpack_flat little vs i h2, List.getD_eq_getElem _ _ h2]
    exact fromBytes_bytes24 little signed _ (h _ (List.getElem_mem h2))

/-- **C24**, rejected: byte strings whose length is not a multiple of three. -/
theorem C24_rejects (little signed : Bool) (b : List ℕ) (h : ¬ 3 ∣ b.length) :
    unpack little signed b = .error .assertionError := by
  unfold unpack
  rw [if_neg (by omega)]

/-- **C24**, the other direction: every byte string whose length is a multiple of three is
the packed form of the unpacked numbers, which are in the 24 bit range. -/
theorem C24_unpack_pack (little signed : Bool) (b : List ℕ) (hb : ∀ x ∈ b, x < 256)
    (h : 3 ∣ b.length) :
    ∃ vs, unpack little signed b = .ok vs ∧ (∀ v ∈ vs, InRange signed v) ∧
      pack little vs = b := by
  unfold unpack
  rw [if_pos (Nat.mod_eq_zero_of_dvd h)]
  refine ⟨_, rfl, ?_⟩
  obtain ⟨m, hm⟩ := h
  rw [hm, Nat.mul_div_cancel_left _ (by norm_num), pack_eq]
  induction m generalizing b with
  | zero =>
    have : b = [] := List.length_eq_zero_iff.mp (by omega)
    subst this
    simp
  | succ m ih =>
    match b, hm with
    | [], hm => simp at hm
    | [_], hm => simp at hm; omega
    | [_, _], hm => simp at hm; omega
    | x :: y :: z :: b, hm =>
      simp only [List.length_cons] at hm
      obtain ⟨h1, h2⟩ := ih b (fun a ha => hb a (by simp [ha])) (by omega)
      have hx := hb x (by simp)
      have hy := hb y (by simp)
      have hz := hb z (by simp)
      rw [List.range_succ_eq_map, List.map_cons, List.map_map]
      have hrest : ((fun n => fromBytes little signed
          (List.take 3 (List.drop (3 * n) (x :: y :: z :: b)))) ∘ Nat.succ) =
          fun n => fromBytes little signed (List.take 3 (List.drop (3 * n) b)) := by
        funext n
        have : 3 * Nat.succ n = 3 * n + 3 := by omega
        simp only [Function.comp, this, List.drop_succ_cons]
      rw [hrest]
      have hfirst : InRange signed (fromBytes little signed [x, y, z]) ∧
          bytes24 little (fromBytes little signed [x, y, z]) = [x, y, z] := by
        unfold InRange fromBytes bytes24
        cases little <;> cases signed <;>
          simp only [if_true, if_false, Bool.false_eq_true, List.reverse_cons, List.reverse_nil,
            List.nil_append, List.cons_append, List.getD_cons_zero, List.getD_cons_succ,
            false_and, true_and, List.cons.injEq, and_true] <;> (try split_ifs) <;> omega
      have htake : List.take 3 (List.drop (3 * 0) (x :: y :: z :: b)) = [x, y, z] := by simp
      refine ⟨?_, ?_⟩
      · intro v hv
        rw [List.mem_cons] at hv
        rcases hv with rfl | hv
        · rw [htake]
          exact hfirst.1
        · exact h1 v hv
      · rw [List.flatMap_cons, htake, hfirst.2, h2]
        rfl

/-- Extreme values of both signs. -/
example : unpack true true (pack true [-8388608, 8388607, -1, 0, 123456]) =
    .ok [-8388608, 8388607, -1, 0, 123456] := by
  refine (C24_round_trip true true _ fun v hv => ?_).2
  simp only [List.mem_cons, List.not_mem_nil, or_false] at hv
  unfold InRange
  simp only [if_true]
  omega

/-- **C24**, out of range: a number outside of the 24 bit range does not come back. -/
theorem C24_out_of_range : pack true [2 ^ 23] = pack true [-2 ^ 23] ∧
    unpack true true (pack true [2 ^ 23]) = .ok [-2 ^ 23] := by
  decide +kernel

end Verif.Bytes24
