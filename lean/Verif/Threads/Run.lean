/-!
# Executions of a labelled transition system

The thread primitives are modelled as labelled transition systems: a state, and a relation
`step s l s'` in which `l` is `some e` when the step makes the event `e` visible at the API (a call
starts or returns) and `none` otherwise.  Every schedule of any number of threads is an execution
of that relation, so quantifying over `Run` is quantifying over all interleavings.
-/

namespace Verif.Threads

/-- The states reachable from an initial state together with the history of visible events, most
recent event first.  This is a generic notion and models no code. -/
inductive Run {σ ε : Type} (init : σ → Prop) (step : σ → Option ε → σ → Prop) : List ε → σ → Prop
  | start {s} : init s → Run init step [] s
  | tau {h s s'} : Run init step h s → step s none s' → Run init step h s'
  | emit {h s e s'} : Run init step h s → step s (some e) s' → Run init step (e :: h) s'

end Verif.Threads
