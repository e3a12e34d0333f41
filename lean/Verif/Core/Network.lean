import Verif.Core.Training
import Verif.Core.SWEReduced
import Mathlib.Algebra.BigOperators.Fin
import Mathlib.Algebra.Order.BigOperators.Ring.Finset

/-!
Model of the torch modules of the reduced solvers: `LaxFriedrichsModule`
(`finite_volume/shallow_water/solver/reduced_llf.py` lines 9-22) and `LaxFriedrichs2Module`
(`reduced_llf_2.py` lines 9-24), `predict` with the scalers (`reduced_model.py` lines 48-51) and the
network as a function of the stencil (`ApproximatedSubgridFlux`, lines 151-171).

Weights are arbitrary; rounding (to float32 in particular) is not modelled.
-/

set_option linter.unusedSectionVars false

namespace Verif.Network

open Verif.Py Verif.Training Verif.FV Verif.SWE

variable {K : Type*} [Field K] [LinearOrder K] [IsStrictOrderedRing K]

/-- Parameters of `nn.Linear(a, b)`. -/
structure Linear (K : Type*) (a b : ℕ) where
  weight : Fin b → Fin a → K
  bias : Fin b → K

/-- `nn.Linear.forward` for one row; another number of entries is a `RuntimeError`. -/
def Linear.forward {a b : ℕ} (l : Linear K a b) (x : List K) : Except Error (List K) :=
  if x.length = a then .ok (List.ofFn fun i => ∑ j, l.weight i j * x.getD j 0 + l.bias i)
  else .error .runtimeError

/-- `nn.LeakyReLU()` for one entry, with the default slope 0.01. -/
def leaky (x : K) : K := max 0 x + 1 / 100 * min 0 x

/-- The layers that are used. -/
inductive Layer (K : Type*) where
  | linear (a b : ℕ) (l : Linear K a b)
  | leakyReLU

/-- `forward` of a layer. -/
def Layer.forward : Layer K → List K → Except Error (List K)
  | .linear _ _ l, x => l.forward x
  | .leakyReLU, x => .ok (x.map leaky)

/-- `nn.Sequential.forward`. -/
def sequential : List (Layer K) → List K → Except Error (List K)
  | [], x => .ok x
  | l :: ls, x =>
    match l.forward x with
    | .error e => .error e
    | .ok y => sequential ls y

/-- `LaxFriedrichsModule`, `reduced_llf.py` lines 9-22. -/
def llfModule (l0 : Linear K 8 32) (l1 : Linear K 32 32) (l2 : Linear K 32 2) : List (Layer K) :=
  [.linear 8 32 l0, .leakyReLU, .linear 32 32 l1, .leakyReLU, .linear 32 2 l2]

/-- `LaxFriedrichs2Module`, `reduced_llf_2.py` lines 9-24. -/
def llf2Module (l0 : Linear K 8 128) (l1 l2 : Linear K 128 128) (l3 : Linear K 128 2) :
    List (Layer K) :=
  [.linear 8 128 l0, .leakyReLU, .linear 128 128 l1, .leakyReLU, .linear 128 128 l2, .leakyReLU,
    .linear 128 2 l3]

/-- `predict`, `reduced_model.py` lines 48-51, of one row with fitted scalers. -/
def predict (layers : List (Layer K)) (si so : Scaler K) (row : List K) : Except Error (List K) :=
  match si.transform row with
  | .error e => .error e
  | .ok x =>
    match sequential layers x with
    | .error e => .error e
    | .ok y => so.inverse y

/-- The value of `predict` for a stencil, `reduced_model.py` lines 163-165.  The case that it does not
return two numbers does not occur for the modules above (`C107_predict`). -/
def network (layers : List (Layer K)) (si so : Scaler K) (stencil : List (State K)) : State K :=
  match predict layers si so (flatten stencil) with
  | .ok [h, q] => (h, q)
  | _ => 0

end Verif.Network
