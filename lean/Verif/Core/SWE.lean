import Verif.Core.FV
import Verif.Core.Scalar

/-!
Model of the shallow water finite volume solvers: `finite_volume/shallow_water/core.py`,
`numerical_flux.py`, `solver/low_order.py`, `solver/mcl.py`, `solver/energy_stable.py`,
`solver/lax_wendroff.py`.

A cell value is a pair `(h, q)` of height and discharge.  The square root is a parameter `rt` of the
model: theorems name the properties of it they need, which the real square root has.
`EPSILON` is a positive parameter; python's default is `1e-15`.  Which of several errors at
different nodes is raised first is not modelled.
-/

set_option linter.unusedSectionVars false

namespace Verif.SWE

open Verif.Py Verif.Boundary Verif.FV

/-- Gravitational acceleration, `defaults.EPSILON` and the square root. -/
structure Params (K : Type*) [Zero K] [LT K] where
  g : K
  eps : K
  eps_pos : 0 < eps
  rt : K → K

variable {K : Type*} [Field K] [LinearOrder K] [IsStrictOrderedRing K]

/-- Cell values: height and discharge. -/
abbrev State (K : Type*) := K × K

/-- One row of `nullify`, `core.py` lines 10-16. -/
def nullify (P : Params K) (u : State K) : State K :=
  let height := if P.eps < u.1 then (1 : K) else 0
  let discharge := if P.eps < |u.2| then (1 : K) else 0
  (u.1 * height * 1, u.2 * height * discharge)

/-- `get_average`, lines 19-20. -/
def average (a b : K) : K := (a + b) / 2

/-- `get_velocity`, lines 43-47.  The denominator is positive since `eps` is. -/
def velocity (P : Params K) (u : State K) : K :=
  2 * u.1 * u.2 / (u.1 ^ 2 + max u.1 P.eps ^ 2)

/-- `np.sign`. -/
def sgn (x : K) : K := if x < 0 then -1 else if 0 < x then 1 else 0

/-- `get_height_positivity_fix`, lines 54-62. -/
def positivityFix (bar step : K) : K := min (|step| / 2) bar * sgn step

/-- `is_constant`, lines 65-66. -/
def isConstant (P : Params K) : List K → Except Error Bool
  | [] => .error .indexError
  | b :: bs => .ok ((b :: bs).all (fun x => decide (|x - b| < P.eps)))

/-- `Flux.__call__`, lines 98-130, at one cell. -/
def flux (P : Params K) (u : State K) : Except Error (State K) :=
  if u.1 < 0 then .error .valueError
  else if u.1 < P.eps then .ok (0, 0)
  else .ok (u.2, u.2 ^ 2 / u.1 + P.g * u.1 ^ 2 / 2)

/-- `FluxJacobian.__call__`, lines 150-177, at one cell: the two rows. -/
def fluxJacobian (P : Params K) (u : State K) : Except Error ((K × K) × (K × K)) :=
  if u.1 < 0 then .error .valueError
  else if u.1 < P.eps then .ok ((0, 1), (0, 0))
  else .ok ((0, 1), (2 * u.2 / u.1, -(u.2 / u.1) ^ 2 + P.g * u.1))

/-- `WaveSpeed`, lines 195-228. -/
def waveSpeed (P : Params K) (uL uR : State K) : K × K :=
  (min (min (velocity P uL + -P.rt (P.g * uL.1)) (velocity P uR + -P.rt (P.g * uR.1))) 0,
   max (max (velocity P uL + P.rt (P.g * uL.1)) (velocity P uR + P.rt (P.g * uR.1))) 0)

/-- `MaximumWaveSpeed`, lines 243-261. -/
def maxSpeed (P : Params K) (uL uR : State K) : K :=
  max (|velocity P uL| + P.rt (P.g * uL.1)) (|velocity P uR| + P.rt (P.g * uR.1))

/-- `Entropy.__call__`, lines 272-283 (the entropy variables). -/
def entropy (P : Params K) (u : State K) (b : K) : State K :=
  (P.g * (u.1 + b) - velocity P u ^ 2 / 2, velocity P u)

/-- `Potential.__call__`, lines 294-298. -/
def potential (P : Params K) (u : State K) : K := P.g / 2 * u.1 ^ 2 * velocity P u

/-- `RiemannSolver`, lines 301-336, with the default wave speed. -/
def riemann (P : Params K) : Riemann K (State K) where
  flux := flux P
  waveSpeed := fun uL uR => .ok (-maxSpeed P uL uR, maxSpeed P uL uR)

/-! ### Bathymetry and source term -/

/-- What `NumericalFlux._build_bathymetry` (`numerical_flux.py` lines 29-45) stores: nothing (zero)
or the padded bathymetry with its differences. -/
structure Bathymetry (K : Type*) where
  /-- `self._bathymetry`; `none` stands for `np.array([0])` -/
  values : Option (List K)
  deriving DecidableEq

/-- Differences of neighbouring entries (`np.diff`). -/
def diff (l : List K) : List K := List.zipWith (fun a b => b - a) l l.tail

/-- `_build_bathymetry`, lines 29-45.  The argument `none` stands for `None` or a float. -/
def buildBathymetry (P : Params K) : Option (List K) → Except Error (Bathymetry K)
  | none => .ok ⟨none⟩
  | some b =>
    match isConstant P b with
    | .error e => .error e
    | .ok true => .ok ⟨none⟩
    | .ok false => .ok ⟨some (b.headD 0 :: b ++ [b.getLastD 0])⟩

/-- `self._bathymetry_step` broadcast to `n` nodes.  A length different from the number of nodes is a
`ValueError` (numpy would also broadcast a single step; there are always at least two). -/
def Bathymetry.steps (B : Bathymetry K) (n : ℕ) : Except Error (List K) :=
  match B.values with
  | none => .ok (List.replicate n 0)
  | some b => if (diff b).length = n then .ok (diff b) else .error .valueError

/-- Evaluation of a function of left value, right value and bathymetry step at all nodes. -/
def nodesE {γ : Type*} (B : Bathymetry K) (f : State K → State K → K → Except Error γ)
    (l r : List (State K)) : Except Error (List γ) :=
  match B.steps (l.zip r).length with
  | .error e => .error e
  | .ok ds => zipE (fun p d => f p.1 p.2 d) (l.zip r) ds

/-- `_get_source_term`, lines 53-68, at one node. -/
def source (P : Params K) (uL uR : State K) (step : K) : State K :=
  (0, P.g / 2 * average uL.1 uR.1 * step)

/-- `NumericalFlux.__call__`, lines 47-51. -/
def withSource (P : Params K) (B : Bathymetry K) (F : NumFlux (State K)) : NumFlux (State K) where
  dim := F.dim
  call := fun values =>
    match F.call values, requiredValues 2 values with
    | .error e, _ => .error e
    | _, .error e => .error e
    | .ok (fl, fr), .ok [l, r] =>
      match nodesE B (fun a b d => .ok (source P a b d)) l r with
      | .error e => .error e
      | .ok s => .ok (List.zipWith (fun a b => a + -b) fl s, List.zipWith (fun a b => a + -b) fr s)
    | _, _ => .error .typeError

/-- `LaxFriedrichsFluxGetter` (`solver/lax_friedrichs.py`). -/
def lfFlux (P : Params K) (B : Bathymetry K) : NumFlux (State K) :=
  withSource P B (laxFriedrichs (riemann P))

/-- `CentralFluxGetter` (`solver/central.py`). -/
def centralFlux (P : Params K) (B : Bathymetry K) : NumFlux (State K) :=
  withSource P B (central K (flux P))

/-! ### Low order scheme -/

/-- The attributes `LowOrderFlux` computes at one node (`solver/low_order.py` lines 54-112). -/
structure LowNode (K : Type*) where
  w : K
  heightHLL : K
  dischargeHLL : K
  fix : K
  heightLeft : K
  heightRight : K
  dischargeLeft : K
  dischargeRight : K
  fluxLeft : State K
  fluxRight : State K

instance : Inhabited (LowNode K) := ⟨⟨0, 0, 0, 0, 0, 0, 0, 0, 0, 0⟩⟩

/-- `LowOrderFlux.__call__` at one node, lines 54-112. -/
def lowNode (P : Params K) (uL uR : State K) (step : K) : Except Error (LowNode K) :=
  match (riemann P).solve uL uR with
  | .error e => .error e
  | .ok r =>
    let w := r.speedRight
    let hH := r.state.1
    let qH := r.state.2
    let fix := positivityFix hH step
    let src := -(P.g * average uL.1 uR.1 * fix / w)
    let v := average (velocity P uL) (velocity P uR)
    let hl := hH + fix
    let hr := hH + -fix
    let ql := qH + v * fix + src
    let qr := qH + -v * fix + src
    .ok { w := w, heightHLL := hH, dischargeHLL := qH, fix := fix, heightLeft := hl,
          heightRight := hr, dischargeLeft := ql, dischargeRight := qr,
          fluxLeft := w • ((hl, ql) + -uL) + -r.fluxLeft,
          fluxRight := w • ((hr, qr) + -uR) + r.fluxRight }

/-- `LowOrderFlux`. -/
def lowOrder (P : Params K) (B : Bathymetry K) : NumFlux (State K) where
  dim := 2
  call := fun
    | [l, r] =>
      match nodesE B (lowNode P) l r with
      | .error e => .error e
      | .ok ns => .ok (ns.map (·.fluxLeft), ns.map (·.fluxRight))
    | _ => .error .typeError

/-! ### Monolithic convex limiting -/

/-- First assignment of `_replace_nans` (`solver/mcl.py` lines 108-109); `none` is `nan`. -/
def replaceFirst : List (Option K) → List (Option K)
  | none :: y :: ys => y :: y :: ys
  | xs => xs

/-- An entry of an array; `nan` is `nonFinite`. -/
def finite : Option K → Except Error K
  | some a => .ok a
  | none => .error .nonFinite

/-- `_replace_nans`, `solver/mcl.py` lines 106-112, for one array; the second assignment (lines
111-112) is the first one for the reversed array.  A `nan` that stays is `nonFinite`.  Arrays have at
least two entries. -/
def replaceNans (x : List (Option K)) : Except Error (List K) :=
  (replaceFirst (replaceFirst x).reverse).reverse.mapM finite

/-- `get_cell_neighbours` followed by `_replace_nans`. -/
def cellNeighbours (bc : BC K (State K)) (left right : List K) :
    Except Error (List K × List K) :=
  -- only the number of ghost cells and the periodic flag of the conditions are used
  let bc' : BC K (Option K) := ⟨List.replicate bc.left.length (.copy 0),
    List.replicate bc.right.length (.copy 0), bc.periodic⟩
  match bc'.cellNeighbours none (left.map some) (some (right.map some)) with
  | .error e => .error e
  | .ok (a, b) =>
    match replaceNans a, replaceNans b with
    | .error e, _ => .error e
    | _, .error e => .error e
    | .ok a, .ok b => .ok (a, b)

/-- `_get_height_bounds`, lines 97-104: maxima and minima. -/
def heightBounds (bc : BC K (State K)) (ns : List (LowNode K)) : Except Error (List K × List K) :=
  match cellNeighbours bc (ns.map (·.heightLeft)) (ns.map (·.heightRight)) with
  | .error e => .error e
  | .ok (hl, hr) => .ok (List.zipWith max hl hr, List.zipWith min hl hr)

/-- `_velocity_bar_state`, lines 137-140. -/
def velocityBar (n : LowNode K) : Except Error K :=
  if n.heightLeft + n.heightRight = 0 then .error .nonFinite
  else .ok ((n.dischargeLeft + n.dischargeRight) / (n.heightLeft + n.heightRight))

/-- Division of arrays. -/
def divE (a b : K) : Except Error K := if b = 0 then .error .nonFinite else .ok (a / b)

/-- `_get_velocity_bounds`, lines 174-186. -/
def velocityBounds (bc : BC K (State K)) (ns : List (LowNode K)) (vbar : List K) :
    Except Error (List K × List K) :=
  match cellNeighbours bc (ns.map (·.heightHLL)) (ns.map (·.heightHLL)),
    cellNeighbours bc vbar vbar,
    cellNeighbours bc (ns.map (·.dischargeLeft)) (ns.map (·.dischargeRight)) with
  | .error e, _, _ => .error e
  | _, .error e, _ => .error e
  | _, _, .error e => .error e
  | .ok (hl, hr), .ok (vl, vr), .ok (ql, qr) =>
    match zipE divE ql hl, zipE divE qr hr with
    | .error e, _ => .error e
    | _, .error e => .error e
    | .ok a, .ok b =>
      .ok (List.zipWith max vl (List.zipWith max vr (List.zipWith max a b)),
           List.zipWith min vl (List.zipWith min vr (List.zipWith min a b)))

/-- The limited fluxes at one node, lines 59-172: `anti` is the right antidiffusive flux, `H`, `h`
the maxima and minima of the heights in the cells left and right of the node, `V`, `v` those of the
velocities.  Returns the right limited flux; the left one is its negative. -/
def limitedNode (n : LowNode K) (vbar : K) (anti : State K) (HL HR hL hR VL VR vL vR : K) : State K :=
  let fh := Scalar.limitNode anti.1 n.w n.heightLeft n.heightRight HL HR hL hR
  let height := n.heightHLL + fh / n.w
  let vflux := anti.2 + n.w * (n.dischargeRight + -height * vbar)
  let vmax := n.w * min (height * (VR - vbar)) (height * (vbar - vL))
  let vmin := n.w * max (height * (vR - vbar)) (height * (vbar - VL))
  let fv := max vmin (min vmax vflux)
  (fh, fv + -n.w * (n.dischargeRight + -height * vbar))

/-- `MCLFlux.__call__`, lines 46-82. `high` is the right flux of the target. -/
def mcl (P : Params K) (B : Bathymetry K) (bc : BC K (State K)) (F : NumFlux (State K)) :
    NumFlux (State K) where
  dim := F.dim
  call := fun values =>
    match requiredValues 2 values with
    | .error e => .error e
    | .ok [l, r] =>
      match nodesE B (lowNode P) l r, F.call values with
      | .error e, _ => .error e
      | _, .error e => .error e
      | .ok ns, .ok (_, high) =>
        match heightBounds bc ns, ns.mapM velocityBar with
        | .error e, _ => .error e
        | _, .error e => .error e
        | .ok (H, h), .ok vbar =>
          match velocityBounds bc ns vbar with
          | .error e => .error e
          | .ok (V, v) =>
            if high.length = ns.length then
              let lim := (List.range ns.length).map (fun j =>
                let n := ns.getD j default
                limitedNode n (vbar.getD j 0) (high.getD j 0 + -n.fluxRight) (H.getD j 0)
                  (H.getD (j + 1) 0) (h.getD j 0) (h.getD (j + 1) 0) (V.getD j 0) (V.getD (j + 1) 0)
                  (v.getD j 0) (v.getD (j + 1) 0))
              .ok (List.zipWith (fun a b => a + b) (ns.map (·.fluxLeft)) (lim.map (fun x => -x)),
                List.zipWith (fun a b => a + b) (ns.map (·.fluxRight)) lim)
            else .error .valueError
    | .ok _ => .error .typeError

/-! ### Energy stable and Lax-Wendroff fluxes -/

/-- `EnergyStableFlux.__call__`, `solver/energy_stable.py` lines 20-25, at one node. -/
def energyStableNode (P : Params K) (uL uR : State K) : Except Error (State K) :=
  flux P (average uL.1 uR.1, average uL.2 uR.2)

/-- `EnergyStableFlux`. -/
def energyStable (P : Params K) : NumFlux (State K) := twoPoint (energyStableNode P)

/-- `EnergyStableFluxGetter`, lines 127-131. -/
def energyStableFlux (P : Params K) (B : Bathymetry K) : NumFlux (State K) :=
  withSource P B (energyStable P)

/-- `_get_diffusion_matrix`, lines 73-120: `1/2 R L R^T`, entries `a11, a12, a21, a22`. -/
def diffusionMatrix (P : Params K) (uL uR : State K) : K × K × K × K :=
  let avg : State K := (average uL.1 uR.1, average uL.2 uR.2)
  let c := P.rt (P.g * avg.1)
  let m := velocity P avg - c
  let p := velocity P avg + c
  let s := 1 / P.rt (2 * P.g)
  let r11 := s * 1
  let r12 := s * 1
  let r21 := s * m
  let r22 := s * p
  let l1 := s * |m|
  let l2 := s * |p|
  (1 / 2 * (r11 * l1 * r11 + r12 * l2 * r12), 1 / 2 * (r11 * l1 * r21 + r12 * l2 * r22),
   1 / 2 * (r21 * l1 * r11 + r22 * l2 * r12), 1 / 2 * (r21 * l1 * r21 + r22 * l2 * r22))

/-- `_get_diffusion`, lines 60-71, at one node with step `d` of the entropy variables. -/
def diffusion (P : Params K) (uL uR d : State K) : State K :=
  let A := diffusionMatrix P uL uR
  (A.1 * d.1 + A.2.1 * d.2, A.2.2.1 * d.1 + A.2.2.2 * d.2)

/-- `FirstOrderDiffusiveEnergyStableFlux.__call__`, lines 46-53, at one node with bathymetry step and
step of the entropy variables: left and right flux.  The division by `sqrt(2 g)` is in lines 97 and
112. -/
def diffusiveNode (P : Params K) (uL uR : State K) (step : K) (d : State K) :
    Except Error (State K × State K) :=
  if P.rt (2 * P.g) = 0 then .error .nonFinite
  else
    match energyStableNode P uL uR with
    | .error e => .error e
    | .ok f =>
      let new := f - diffusion P uL uR d
      .ok (-new - source P uL uR step, new - source P uL uR step)

/-- `FirstOrderDiffusiveEnergyStableFlux`, lines 28-124. -/
def diffusiveFlux (P : Params K) (B : Bathymetry K) : NumFlux (State K) where
  dim := 2
  call := fun
    | [l, r] =>
      match dofVector [l, r] with
      | .error e => .error e
      | .ok u =>
        let b := B.values.getD (List.replicate u.length 0)
        if b.length = u.length then
          let E := List.zipWith (entropy P) u b
          let d := List.zipWith (fun a b => b - a) E E.tail
          match B.steps (l.zip r).length with
          | .error e => .error e
          | .ok ds =>
            match zipE (fun p q => diffusiveNode P p.1 p.2 q.1 q.2) (l.zip r) (ds.zip d) with
            | .error e => .error e
            | .ok fs => .ok (fs.map (·.1), fs.map (·.2))
        else .error .valueError
    | _ => .error .typeError

/-- `LaxWendroffFlux.__call__`, `solver/lax_wendroff.py` lines 27-40, at one node. -/
def laxWendroffNode {V : Type*} [AddCommGroup V] [Module K V] (R : Riemann K V) (speed : V → V → K)
    (dt dx : K) (uL uR : V) : Except Error V :=
  match R.nodeFlux uL uR with
  | .error e => .error e
  | .ok f => if dx = 0 then .error .nonFinite else .ok (f + (1 / dx) • (dt * speed uL uR) • (uR - uL))

end Verif.SWE
