import Mathlib.Algebra.Order.Field.Basic
import Mathlib.Algebra.Order.Group.Abs
import Mathlib.Data.Sign.Basic
import Verif.Core.Py

/-!
Small utilities: elementwise extrema and `minmod` (`core/function.py`), argument validators
(`core/type.py`), the splitting of solver arguments (`core/solver.py`), the choice of the time
integrator of the continuous Galerkin solver (`finite_element/ode_solver.py`) and the cached flux
approximation (`finite_element/flux_approximation.py`).
-/

set_option linter.unusedSectionVars false

namespace Verif.Utilities

open Verif.Py (Error)

/-! ### `core/function.py` -/

section Function

variable {K : Type*} [Field K] [LinearOrder K] [IsStrictOrderedRing K]

/-- A binary elementwise numpy operation on one dimensional arrays: equal lengths, or an array of
length one is repeated; otherwise numpy raises a `ValueError`. -/
def broadcast₂ (op : K → K → K) (a b : List K) : Except Error (List K) :=
  if a.length = b.length then .ok (List.zipWith op a b)
  else
    match a, b with
    | [x], b => .ok (b.map (op x))
    | a, [y] => .ok (a.map fun x => op x y)
    | _, _ => .error .valueError

/-- `maximum` (core/function.py 4-8), without keyword arguments.  Called without values,
`values[0]` raises an `IndexError`. -/
def maximum : List (List K) → Except Error (List K)
  | [] => .error .indexError
  | [v] => .ok v
  | v :: w :: vs => do
    let rest ← maximum (w :: vs)
    broadcast₂ max v rest

/-- `minimum` (core/function.py 11-15), without keyword arguments. -/
def minimum : List (List K) → Except Error (List K)
  | [] => .error .indexError
  | [v] => .ok v
  | v :: w :: vs => do
    let rest ← minimum (w :: vs)
    broadcast₂ min v rest

/-- `np.sign` of a number. -/
def sgn (x : K) : K := if 0 < x then 1 else if x < 0 then -1 else 0

/-- `minmod` (core/function.py 18-24): zeros, overwritten where the signs agree.  Only arrays of
equal shape are modelled, other pairs are reported as `ValueError`. -/
def minmod (a b : List K) : Except Error (List K) :=
  if a.length = b.length then
    .ok (List.zipWith (fun x y => if sgn x = sgn y then sgn x * min |x| |y| else 0) a b)
  else .error .valueError

end Function

/-! ### `core/type.py` -/

section Types

variable {K : Type*} [LinearOrder K] [Zero K] [One K]

/-- Values of `float(...)`: a number, an infinity or not a number. -/
inductive PyFloat (K : Type*) where
  | nan
  | negInf
  | posInf
  | fin (x : K)
  deriving DecidableEq, Repr

/-- `value <= x` for a number `x`; every comparison with `nan` is false. -/
def PyFloat.le : PyFloat K → K → Bool
  | .nan, _ => false
  | .negInf, _ => true
  | .posInf, _ => false
  | .fin y, x => decide (y ≤ x)

/-- `value < x`. -/
def PyFloat.lt : PyFloat K → K → Bool
  | .nan, _ => false
  | .negInf, _ => true
  | .posInf, _ => false
  | .fin y, x => decide (y < x)

/-- `value > x`. -/
def PyFloat.gt : PyFloat K → K → Bool
  | .nan, _ => false
  | .negInf, _ => false
  | .posInf, _ => true
  | .fin y, x => decide (x < y)

/-- `positive_float` (core/type.py 1-6); `float` is python's conversion of strings, `none` when it
raises. -/
def positiveFloat (float : String → Option (PyFloat K)) (input : String) :
    Except Error (PyFloat K) :=
  match float input with
  | none => .error .valueError
  | some value => if value.le 0 then .error .valueError else .ok value

/-- `positive_int` (core/type.py 9-14). -/
def positiveInt (int : String → Option ℤ) (input : String) : Except Error ℤ :=
  match int input with
  | none => .error .valueError
  | some value => if value ≤ 0 then .error .valueError else .ok value

/-- `non_negative_int` (core/type.py 17-22). -/
def nonNegativeInt (int : String → Option ℤ) (input : String) : Except Error ℤ :=
  match int input with
  | none => .error .valueError
  | some value => if value < 0 then .error .valueError else .ok value

/-- `percent_number` (core/type.py 25-30). -/
def percentNumber (float : String → Option (PyFloat K)) (input : String) :
    Except Error (PyFloat K) :=
  match float input with
  | none => .error .valueError
  | some value => if value.lt 0 || value.gt 1 then .error .valueError else .ok value

end Types

/-! ### `core/solver.py`: `SolverAction` -/

section Action

/-- The loop of `_pop_solver_arguments` (core/solver.py 212-219): the slice index, searched from
position `i` on; `prev` is the value before it. -/
def sliceIndex (keys : List String) (prev : String) : List String → ℕ → Option ℕ
  | [], _ => none
  | v :: vs, i =>
    if v ∈ keys ∧ prev ∉ ["+f"] then some i else sliceIndex keys v vs (i + 1)

/-- `_pop_solver_arguments` (core/solver.py 209-224): the arguments of the first solver, and what is
left in the list.  Position zero is never a slice index (`i > 0`). -/
def popSolverArguments (keys : List String) : List String → List String × List String
  | [] => ([], [])
  | v :: vs =>
    match sliceIndex keys v vs 1 with
    | none => (v :: vs, [])
    | some i => ((v :: vs).take i, (v :: vs).drop i)

theorem sliceIndex_ge (keys : List String) (vs : List String) (prev : String) (i j : ℕ)
    (h : sliceIndex keys prev vs i = some j) : i ≤ j := by
  induction vs generalizing prev i with
  | nil => simp [sliceIndex] at h
  | cons v vs ih =>
    simp only [sliceIndex] at h
    split at h
    · simp at h; omega
    · have := ih _ _ h; omega

theorem popSolverArguments_lt (keys : List String) (v : String) (vs : List String) :
    (popSolverArguments keys (v :: vs)).2.length < (v :: vs).length := by
  rw [popSolverArguments]
  cases h : sliceIndex keys v vs 1 with
  | none => simp
  | some i =>
    have := sliceIndex_ge keys vs v 1 i h
    simp only [List.length_drop, List.length_cons]
    omega

/-- The `while` loop of `SolverAction.__call__` (core/solver.py 202-205), only the splitting. -/
def split (keys : List String) : List String → List (List String)
  | [] => []
  | v :: vs =>
    (popSolverArguments keys (v :: vs)).1 :: split keys (popSolverArguments keys (v :: vs)).2
termination_by values => values.length
decreasing_by exact popSolverArguments_lt keys v vs

/-- Outcome of the action. -/
inductive Outcome (N : Type*) where
  /-- `namespace.solver` is set to this list -/
  | namespaces (l : List N)
  /-- a message is printed and `quit()` is called -/
  | quit
  /-- another exception (or the exit of argparse on invalid arguments) -/
  | raised (e : Error)
  deriving DecidableEq, Repr

/-- `_get_solver_namespace` (core/solver.py 226-242).  `parsers` are the registered parsers, each a
function from its arguments to a namespace or to an exception; a `KeyError` of the parser itself is
handled like an unknown name. -/
def solverNamespace {N : Type*} (parsers : List (String × (List String → Except Error N)))
    (raw : List String) : Except (Option Error) N :=
  match raw with
  | [] => .error (some .indexError)
  | key :: args =>
    match parsers.lookup key with
    | none => .error none
    | some parse =>
      match parse args with
      | .ok n => .ok n
      | .error .keyError => .error none
      | .error e => .error (some e)

/-- `SolverAction.__call__` (core/solver.py 195-207). -/
def action {N : Type*} (parsers : List (String × (List String → Except Error N)))
    (values : List String) : Outcome N :=
  match (split (parsers.map Prod.fst) values).mapM (solverNamespace parsers) with
  | .ok l => .namespaces l
  | .error none => .quit
  | .error (some e) => .raised e

end Action

/-! ### Choice of the time integrator of the continuous Galerkin solver -/

section Construct

/-- The classes of `core/ode_solver.py`. -/
inductive Method where
  | forwardEuler
  | heun
  | ssp3
  | rungeKutta8
  deriving DecidableEq, Repr

/-- Parameters of the constructor: `ExplicitRungeKuttaMethod.__init__` (core/ode_solver.py 25-30),
inherited by all classes but `RungeKutta8`, which has its own (core/ode_solver.py 132-135). -/
def Method.parameters : Method → List String
  | .rungeKutta8 => ["right_hand_side", "initial_value", "start_time"]
  | _ => ["right_hand_side", "initial_value", "initial_time"]

/-- A python call with `pos` positional arguments and the keywords `kw`; every parameter after the
second has a default value. -/
def callable (params : List String) (pos : ℕ) (kw : List String) : Bool :=
  decide (pos ≤ params.length) && kw.all (fun k => decide (k ∈ params.drop pos)) && decide kw.Nodup
    && (params.take 2).zipIdx.all (fun p => decide (p.2 < pos) || decide (p.1 ∈ kw))

/-- `build_optimal_ode_solver` (finite_element/ode_solver.py 8-22). -/
def optimalMethod : ℕ → Except Error Method
  | 1 => .ok .heun
  | 2 => .ok .ssp3
  | 3 => .ok .rungeKutta8
  | 4 => .ok .rungeKutta8
  | 5 => .ok .rungeKutta8
  | 6 => .ok .rungeKutta8
  | 7 => .ok .rungeKutta8
  | _ => .error .keyError

/-- The construction of the integrator in `Solver.__init__` (core/solver.py 43-47): two positional
arguments and the keyword `initial_time`. -/
def instantiate (m : Method) : Except Error Method :=
  if callable m.parameters 2 ["initial_time"] then .ok m else .error .typeError

/-- `ContinuousGalerkinSolver.__init__` (finite_element/scalar/solver/cg.py 46-85), only the choice
and construction of the integrator; the polynomial degree passes
`polynomial_degree or defaults.POLYNOMIAL_DEGREE` (finite_element/space.py 343, defaults.py 36). -/
def cgIntegrator (degree : Option ℕ) : Except Error Method := do
  let d := match degree with
    | none => 1
    | some 0 => 1
    | some d => d
  let m ← optimalMethod d
  instantiate m

/-- `LowOrderContinuousGalerkinSolver.__init__`, `MCLSolver.__init__` (cg_low.py 93, mcl.py 128): the
integrator is an option, by default Heun's method. -/
def chosenIntegrator (choice : Option Method) : Except Error Method :=
  instantiate (choice.getD .heun)

end Construct

/-! ### `finite_element/flux_approximation.py` -/

section Cache

variable {K : Type*} [DecidableEq K]

/-- Arrays in memory, by address. -/
abbrev Memory (K : Type*) := ℕ → List K

/-- A flux function: it returns a new array computed from its argument, or (`lambda u: u`) the very
same array. -/
inductive Flux (K : Type*) where
  | fresh (f : List K → List K)
  | same

/-- The value of the flux at an array. -/
def Flux.value : Flux K → List K → List K
  | .fresh f, u => f u
  | .same, u => u

/-- The attribute `_flux_approximation`: not set, a private array, or the array at an address. -/
inductive Cached (K : Type*) where
  | unset
  | own (v : List K)
  | ref (a : ℕ)

/-- A `FluxApproximation` object (flux_approximation.py 6-32).  The class attribute
`_last_dof_vector = np.empty(1)` is an array `[garbage]`. -/
structure Cache (K : Type*) where
  flux : Flux K
  /-- address of `_last_dof_vector`; `none` is the class attribute -/
  last : Option ℕ
  garbage : K
  cached : Cached K

/-- `FluxApproximation.__init__` (flux_approximation.py 24-25). -/
def Cache.init (flux : Flux K) (garbage : K) : Cache K := ⟨flux, none, garbage, .unset⟩

/-- `(a != b).any()` for one dimensional arrays: equal lengths, or length one repeated. Other shapes
make numpy raise (since 1.25; earlier versions return a `bool`, which has no attribute `any`). -/
def anyDifferent (a b : List K) : Except Error Bool :=
  if a.length = b.length then .ok ((List.zipWith (fun x y => decide (x ≠ y)) a b).any id)
  else
    match a, b with
    | [x], b => .ok (b.any fun y => decide (x ≠ y))
    | a, [y] => .ok (a.any fun x => decide (x ≠ y))
    | _, _ => .error .valueError

/-- The result of reading `self._flux_approximation`; `none` is an `AttributeError`. -/
def Cache.read (c : Cache K) (mem : Memory K) : Option (List K) :=
  match c.cached with
  | .unset => none
  | .own v => some v
  | .ref a => some (mem a)

/-- `__call__` (flux_approximation.py 27-32) with the array at address `a`: the returned value (`none`
is an exception) and the object afterwards. -/
def Cache.call (c : Cache K) (mem : Memory K) (a : ℕ) : Option (List K) × Cache K :=
  let last := match c.last with
    | none => [c.garbage]
    | some b => mem b
  match anyDifferent (mem a) last with
  | .error _ => (none, c)
  | .ok true =>
    let c' := { c with
      last := some a
      cached := match c.flux with
        | .fresh f => .own (f (mem a))
        | .same => .ref a }
    (c'.read mem, c')
  | .ok false => (c.read mem, c)

/-- What a program does with the object: call it with an array, or write (in place, or newly
allocated) an array. -/
inductive Op (K : Type*) where
  | call (a : ℕ)
  | write (a : ℕ) (v : List K)

/-- A program run: the returned values, one for each call, with the contents of the argument. -/
def run (c : Cache K) (mem : Memory K) : List (Op K) → List (List K × Option (List K))
  | [] => []
  | .call a :: ops => (mem a, (c.call mem a).1) :: run (c.call mem a).2 mem ops
  | .write a v :: ops => run c (Function.update mem a v) ops

end Cache

end Verif.Utilities
