import Verif.Model.FilterChain
import Verif.Model.FIRFilter
import Verif.Lemmas.Realtime
import Mathlib.Algebra.Ring.Rat
import Mathlib.Tactic.NormNum

/-!
# C03: a filter chain is the sequential application of its filters
-/

namespace Verif

variable {K : Type}

/-- The history of calls as the next stage sees it when a complete history has been
passed through filter `F` alone: every accepted sample is replaced by the value `F`
returned, rejected samples disappear, resets and channel changes are passed on. -/
def RTFilter.passThrough (F : RTFilter K) (h : List (Op K)) : List (Op K) :=
  (h.foldl (fun (p : F.State × List (Op K)) op =>
    (F.exec p.1 op,
      match op with
      | .sample x c =>
        match (F.process p.1 x c).1 with
        | .ok y => p.2 ++ [.sample y c]
        | .error _ => p.2
      | op => p.2 ++ [op])) (F.init, [])).2

namespace FilterChain

theorem passThrough_snoc (F : RTFilter K) (h : List (Op K)) (op : Op K) :
    F.passThrough (h ++ [op]) = match op with
      | .sample x c =>
        match F.answer h x c with
        | .ok y => F.passThrough h ++ [.sample y c]
        | .error _ => F.passThrough h
      | op => F.passThrough h ++ [op] := by
  have hfst : ∀ h : List (Op K), (h.foldl (fun (p : F.State × List (Op K)) op =>
    (F.exec p.1 op,
      match op with
      | .sample x c =>
        match (F.process p.1 x c).1 with
        | .ok y => p.2 ++ [.sample y c]
        | .error _ => p.2
      | op => p.2 ++ [op])) (F.init, [])).1 = F.after h := by
    intro h
    induction h using List.reverseRecOn with
    | nil => rfl
    | append_singleton h op ih =>
      rw [RTFilter.after_snoc, List.foldl_append, List.foldl_cons, List.foldl_nil, ih]
  unfold RTFilter.passThrough RTFilter.answer
  rw [← hfst h, List.foldl_append, List.foldl_cons, List.foldl_nil]

theorem cons_after (F G : RTFilter K) (h : List (Op K)) :
    (cons F G).after h = (F.after h, G.after (F.passThrough h)) := by
  induction h using List.reverseRecOn with
  | nil => rfl
  | append_singleton h op ih =>
    rw [RTFilter.after_snoc, ih, RTFilter.after_snoc, passThrough_snoc]
    cases op with
    | reset => simp [RTFilter.after_snoc, RTFilter.exec, cons]
    | setChannels m => simp [RTFilter.after_snoc, RTFilter.exec, cons]
    | sample x c =>
      simp only [RTFilter.exec, cons, RTFilter.answer]
      rcases hp : F.process (F.after h) x c with ⟨r, s'⟩
      cases r with
      | error e => simp
      | ok y => simp [RTFilter.after_snoc, RTFilter.exec]

theorem cons_answer (F G : RTFilter K) (h : List (Op K)) (x : K) (ch : ℕ) :
    (cons F G).answer h x ch = match F.answer h x ch with
      | .ok y => G.answer (F.passThrough h) y ch
      | .error e => .error e := by
  unfold RTFilter.answer
  rw [cons_after]
  simp only [cons]
  rcases hp : F.process (F.after h) x ch with ⟨r, s'⟩
  cases r <;> simp

/-- **C03.**  Passing a complete history of calls through a chain gives the same calls
at the output as passing the complete history through the first filter, then the
complete result through the second one, and so on. -/
theorem C03_chain_is_sequential (Fs : List (RTFilter K)) (h : List (Op K)) :
    (chain Fs).passThrough h = Fs.foldl (fun h F => F.passThrough h) h := by
  induction Fs generalizing h with
  | nil =>
    simp only [chain, List.foldl_nil]
    induction h using List.reverseRecOn with
    | nil => rfl
    | append_singleton h op ih =>
      rw [passThrough_snoc]
      have ha : ∀ x c, (empty : RTFilter K).answer h x c = .ok x := fun _ _ => rfl
      cases op <;> simp [ih, ha]
  | cons F Fs ih =>
    rw [List.foldl_cons, ← ih]
    simp only [chain]
    induction h using List.reverseRecOn with
    | nil => rfl
    | append_singleton h op ihh =>
      rw [passThrough_snoc, passThrough_snoc]
      cases op with
      | reset => simp [passThrough_snoc, ihh]
      | setChannels m => simp [passThrough_snoc, ihh]
      | sample x c =>
        simp only [cons_answer]
        cases F.answer h x c with
        | error e => simp [ihh]
        | ok y => simp [passThrough_snoc, ihh]

/-- **C03**, single call: what the chain answers after a history is what the filters
answer one after the other, each one having seen the complete output of the previous
one; an exception of one filter is passed on. -/
theorem C03_chain_answer (F : RTFilter K) (Fs : List (RTFilter K)) (h : List (Op K)) (x : K)
    (ch : ℕ) :
    (chain (F :: Fs)).answer h x ch = match F.answer h x ch with
      | .ok y => (chain Fs).answer (F.passThrough h) y ch
      | .error e => .error e :=
  cons_answer F (chain Fs) h x ch

/-- **C03**, empty chain: the identity. -/
theorem C03_empty_chain (h : List (Op K)) (x : K) (ch : ℕ) :
    (chain ([] : List (RTFilter K))).answer h x ch = .ok x := rfl

/-- Two FIR filters in a chain on a concrete history. -/
example : (chain [FIRFilter.filter [1, 1], FIRFilter.filter [1, 2]] : RTFilter ℚ).passThrough
    [.sample 1 0, .sample 3 0, .reset, .sample 5 0] =
    [.sample 1 0, .sample 6 0, .reset, .sample 5 0] := by
  rw [C03_chain_is_sequential]
  simp [RTFilter.passThrough, FIRFilter.filter, FIRFilter.process, FIRFilter.accumulate,
    FIRFilter.reset, RTFilter.exec]
  norm_num

end FilterChain
end Verif
