import Verif.Core.Coarsen
import Verif.Core.Py
import Mathlib.Algebra.Order.Field.Basic
import Mathlib.Algebra.BigOperators.Group.List.Basic

/-!
Model of `ReducedNetwork` (`finite_volume/shallow_water/solver/reduced_model.py` lines 17-117) and of
`command/train_network.py`.

The module behind the network (a torch module trained by skorch) is an oracle: a state `M`, a function
`apply` from states and rows to rows, and a training procedure.  `sklearn.preprocessing.StandardScaler` is
modelled in exact arithmetic, with a square root `rt` as parameter.  Rounding to `float32` is not
modelled.
-/

set_option linter.unusedSectionVars false

namespace Verif.Training

open Verif.Py

variable {K : Type*} [Field K] [LinearOrder K]

/-- A fitted `StandardScaler`: mean and scale of the columns. -/
structure Scaler (K : Type*) where
  mean : List K
  scale : List K
  deriving DecidableEq

/-- Mean of a column. -/
def meanOf (xs : List K) : K := xs.sum / xs.length

/-- Variance of a column (`ddof = 0`). -/
def variance (xs : List K) : K := meanOf (xs.map fun x => (x - meanOf xs) ^ 2)

/-- Scale of a column: the standard deviation, 1 for constant columns. -/
def scaleOf (rt : K → K) (xs : List K) : K := if variance xs = 0 then 1 else rt (variance xs)

/-- Column `j` of a table. -/
def column (rows : List (List K)) (j : ℕ) : List K := rows.map fun row => row.getD j 0

/-- `StandardScaler.fit` on a table with `width` columns; no rows are a `ValueError`. -/
def Scaler.fit (rt : K → K) (width : ℕ) (rows : List (List K)) : Except Error (Scaler K) :=
  if rows = [] then .error .valueError
  else .ok ⟨(List.range width).map fun j => meanOf (column rows j),
    (List.range width).map fun j => scaleOf rt (column rows j)⟩

/-- `StandardScaler.transform` of one row; another number of columns is a `ValueError`. -/
def Scaler.transform (s : Scaler K) (row : List K) : Except Error (List K) :=
  if row.length = s.mean.length then
    .ok ((List.range row.length).map fun j => (row.getD j 0 - s.mean.getD j 0) / s.scale.getD j 0)
  else .error .valueError

/-- `StandardScaler.inverse_transform` of one row. -/
def Scaler.inverse (s : Scaler K) (row : List K) : Except Error (List K) :=
  if row.length = s.mean.length then
    .ok ((List.range row.length).map fun j => row.getD j 0 * s.scale.getD j 0 + s.mean.getD j 0)
  else .error .valueError

/-- A `ReducedNetwork`: state of the module and of the two scalers, `none` before they are fitted
(lines 32-33). -/
structure Network (K M : Type*) where
  module : M
  input : Option (Scaler K) := none
  output : Option (Scaler K) := none

/-- The torch module with its training: rows to rows, and a new state from inputs, targets and number
of epochs. -/
structure Oracle (K M : Type*) where
  apply : M → List K → List K
  train : M → List (List K) → List (List K) → ℕ → M

variable {M : Type*}

/-- `fit`, lines 42-46. -/
def Network.fit (rt : K → K) (o : Oracle K M) (n : Network K M) (inputWidth outputWidth : ℕ)
    (X y : List (List K)) (epochs : ℕ) : Except Error (Network K M) :=
  match Scaler.fit rt inputWidth X with
  | .error e => .error e
  | .ok si =>
    match X.mapM si.transform with
    | .error e => .error e
    | .ok X' =>
      match Scaler.fit rt outputWidth y with
      | .error e => .error e
      | .ok so =>
        match y.mapM so.transform with
        | .error e => .error e
        | .ok y' => .ok ⟨o.train n.module X' y' epochs, some si, some so⟩

/-- `predict`, lines 48-51, of one row.  A scaler that is not fitted raises `NotFittedError`, which is a
`ValueError`. -/
def Network.predict (o : Oracle K M) (n : Network K M) (row : List K) : Except Error (List K) :=
  match n.input with
  | none => .error .valueError
  | some si =>
    match si.transform row with
    | .error e => .error e
    | .ok x =>
      match n.output with
      | none => .error .valueError
      | some so => so.inverse (o.apply n.module x)

/-- The files of a network: parameters and scalers (lines 19-24).  Optimizer and history do not
influence predictions. -/
structure Files (K M : Type*) where
  network : Option M
  input : Option (Scaler K)
  output : Option (Scaler K)

/-- `save_params`, lines 53-63: pickling a scaler that is not fitted gives a file with such a scaler;
here networks are saved after `fit`. -/
def Network.save (n : Network K M) : Files K M := ⟨some n.module, n.input, n.output⟩

/-- `load_params`, lines 71-79: the module is initialised, then the files are read in the order
parameters, input scaler, output scaler; the first missing file ends loading with a message and without
an exception. -/
def Network.load (initial : M) (n : Network K M) (f : Files K M) : Network K M :=
  match f.network with
  | none => { n with module := initial }
  | some m =>
    match f.input with
    | none => { n with module := m }
    | some si =>
      match f.output with
      | none => { n with module := m, input := some si }
      | some so => ⟨m, some si, some so⟩

/-- A row of the data file: coarse values around the node, then the subgrid flux, each with height and
discharge (`command/generate_data.py` lines 204-213). -/
def flatten (states : List (K × K)) : List K := states.flatMap fun u => [u.1, u.2]

/-- `execute`, `command/train_network.py` lines 46-51: every `skip`-th row, split before the last two
columns. -/
def trainingData (skip : ℕ) (columns : ℕ) (rows : List (List K)) : List (List K) × List (List K) :=
  let used := Coarsen.stride skip 0 rows
  (used.map fun row => row.take (columns - 2), used.map fun row => row.drop (columns - 2))

/-- `epochs or defaults.EPOCHS` and the like, lines 33-34. -/
def orDefault (value : Option ℕ) (default : ℕ) : ℕ :=
  match value with
  | none => default
  | some 0 => default
  | some n => n

/-- `_save_params`, lines 61-74: without `confirm` the parameters are saved; else answers are read until
one is valid.  `none`: the input ended (`EOFError`). -/
def saveParams : Bool → List String → Option Bool
  | false, _ => some true
  | true, [] => none
  | true, a :: rest =>
    if a.toLower = "y" ∨ a.toLower = "yes" then some true
    else if a.toLower = "n" ∨ a.toLower = "no" then some false
    else saveParams true rest

/-- `execute`, lines 42-57: the network after training, and the files afterwards. -/
def execute (rt : K → K) (o : Oracle K M) (n : Network K M) (columns : ℕ) (rows : List (List K))
    (epochs skip : Option ℕ) (epochsDefault skipDefault : ℕ) (confirm : Bool) (answers : List String)
    (files : Files K M) : Except Error (Network K M × Option (Files K M)) :=
  let data := trainingData (orDefault skip skipDefault) columns rows
  match n.fit rt o (columns - 2) 2 data.1 data.2 (orDefault epochs epochsDefault) with
  | .error e => .error e
  | .ok n' => .ok (n', (saveParams confirm answers).map fun save => if save then n'.save else files)

end Verif.Training
