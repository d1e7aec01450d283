import Verif.Spec.Realtime

/-!
# Model of `FilterChain` (`dsptoolbox/classes/filter_chain.py`, lines 4-35)

Simplifications: the filters of the list are distinct objects (python would let one
object appear twice and share its state) and `reset_state` / `set_n_channels` of the
members do not raise.
-/

namespace Verif.FilterChain

variable {K : Type}

/-- One filter followed by the rest of the chain: the loop bodies of
`set_n_channels` (`filter_chain.py`, lines 24-26), `reset_state` (lines 28-30) and
`process_sample` (lines 32-35).  An exception of a later filter leaves the earlier
filters advanced. -/
def cons (F G : RTFilter K) : RTFilter K where
  State := F.State × G.State
  init := (F.init, G.init)
  setChannels := fun s n => (F.setChannels s.1 n, G.setChannels s.2 n)
  reset := fun s => (F.reset s.1, G.reset s.2)
  process := fun s x ch =>
    match F.process s.1 x ch with
    | (.error e, s1) => (.error e, (s1, s.2))
    | (.ok y, s1) =>
      let r := G.process s.2 y ch
      (r.1, (s1, r.2))

/-- The empty chain: `process_sample` returns its argument (`filter_chain.py`, lines
33-35 with no filters). -/
def empty : RTFilter K where
  State := Unit
  init := ()
  setChannels := fun s _ => s
  reset := fun s => s
  process := fun s x _ => (.ok x, s)

/-- `FilterChain(filters)` (`filter_chain.py`, line 18). -/
def chain : List (RTFilter K) → RTFilter K
  | [] => empty
  | F :: Fs => cons F (chain Fs)

end Verif.FilterChain
