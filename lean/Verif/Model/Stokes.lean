import Verif.Model.Poisson
import Verif.Model.TimeStepping

/-!
# Model of the Stokes solver (navier_stokes/navier_stokes.py 73-494)

Velocities are `ℕ → Fin d → K`, pressures `ℕ → K`, indexed by the nodes of the two meshes. The meshes returned by
`refine_premesh(...).finalize()`, the two quadratures and the interior mask (`interiorMask`) are arguments of `create`;
`lax.custom_linear_solve` is its `solve` argument (it only changes derivatives, which are the subject of `StokesGrad.lean`). A division by zero anywhere in a step is
the error `"nan"`.
-/

namespace Verif.NS

open Verif.Core Verif.Linalg

variable {K : Type*} [Field K] [LinearOrder K] {d : ℕ}

/-- Velocity fields. -/
abbrev Vel (K : Type*) (d : ℕ) := ℕ → Fin d → K

/-- `StokesVelocity.gather` (navier_stokes.py 210-211). -/
def vGather (mesh : Mesh K d) (u : Vel K d) : ℕ → ℕ → Fin d → K := fun m n k => mesh.gather (fun p => u p k) m n

/-- `StokesVelocity.scatter` (navier_stokes.py 213-214). -/
def vScatter (mesh : Mesh K d) (ul : ℕ → ℕ → Fin d → K) : Vel K d := fun p k => mesh.scatter (fun m n => ul m n k) p

/-- `StokesVelocity.exchange` (navier_stokes.py 216-218). -/
def vExchange (mesh : Mesh K d) (u : Vel K d) : Vel K d := fun p k => mesh.exchange (fun p => u p k) p

/-- The form of `A_local` (navier_stokes.py 220-227). -/
def vStiffForm (fs : FESpace K d) (ul vl : ℕ → ℕ → Fin d → K) : K :=
  integrate fs (fun m q => ∑ i, ∑ j, vectorGrad fs ul m q i j * vectorGrad fs vl m q i j)

/-- The form of `B_local` (navier_stokes.py 229-236). -/
def vMassForm (fs : FESpace K d) (ul vl : ℕ → ℕ → Fin d → K) : K :=
  integrate fs (fun m q => ∑ k, vectorFn fs ul m q k * vectorFn fs vl m q k)

/-- The form of `C_local` (navier_stokes.py 238-245). -/
def vConvForm (fs : FESpace K d) (ul vl : ℕ → ℕ → Fin d → K) : K :=
  integrate fs (fun m q => ∑ i, ∑ j, vectorFn fs ul m q i * vectorGrad fs ul m q i j * vectorFn fs vl m q j)

/-- `StokesSEM` with its `StokesVelocity` and `StokesPressure` (navier_stokes.py 98-152, 249-256). -/
structure StokesSEM (K : Type*) (d : ℕ) where
  vspace : FESpace K d
  overint : FESpace K d
  pspace : FESpace K d
  mask : ℕ → K
  diagQqt : ℕ → K
  massDiag : Vel K d

/-- `StokesSEM.create` (navier_stokes.py 258-293) with the two `create` methods it calls (103-121, 154-193). The pressure
space never needs inverse Jacobians. -/
def StokesSEM.create (vmesh pmesh : Mesh K d) (quad overQuad : Quadrature1D K) (mask : ℕ → K) : Option (StokesSEM K d) :=
  match FESpace.create vmesh quad, FESpace.create vmesh overQuad, FESpace.build pmesh quad with
  | some vspace, some overint, some pspace => some {
      vspace := vspace
      overint := overint
      pspace := pspace
      mask := mask
      diagQqt := vmesh.scatter (fun _ _ => 1)
      massDiag := vScatter vmesh (vectorCovector (vMassForm vspace (fun _ _ _ => 1))) }
  | _, _, _ => none

namespace StokesSEM

variable (sem : StokesSEM K d)

/-- Number of velocity nodes. -/
def numV : ℕ := sem.vspace.mesh.numNodes

/-- Number of pressure nodes. -/
def numP : ℕ := sem.pspace.mesh.numNodes

/-- Multiplication with `interior_mask`. -/
def masked (u : Vel K d) : Vel K d := fun p k => sem.mask p * u p k

/-- `B` (navier_stokes.py 295-297). -/
def B (u : Vel K d) : Vel K d := fun p k => sem.mask p * sem.massDiag p k * u p k

/-- `Bi` (navier_stokes.py 299-302). -/
def Bi (u : Vel K d) : Vel K d :=
  fun p k => (1 / vExchange sem.vspace.mesh sem.massDiag p k) * vExchange sem.vspace.mesh u p k

/-- `A` (navier_stokes.py 304-307). -/
def A (u : Vel K d) : Vel K d :=
  sem.masked (vScatter sem.vspace.mesh (vectorCovector (vStiffForm sem.vspace (vGather sem.vspace.mesh u))))

/-- `C` (navier_stokes.py 201-204, 309-311). -/
def C (u : Vel K d) : Vel K d :=
  sem.masked (vScatter sem.vspace.mesh (vectorCovector (vConvForm sem.overint (vGather sem.vspace.mesh u))))

/-- `D` (navier_stokes.py 313-320, 331-333); the covector is one of the pressure space, which integrates. -/
def D (u : Vel K d) : ℕ → K :=
  sem.pspace.mesh.scatter (scalarCovector (fun ql => integrate sem.pspace
    (fun m q => divFn sem.vspace (vGather sem.vspace.mesh u) m q * scalarFn sem.pspace ql m q)))

/-- `Dt` (navier_stokes.py 322-329, 335-338); the covector is one of the velocity space. -/
def Dt (p : ℕ → K) : Vel K d :=
  sem.masked (vScatter sem.vspace.mesh (vectorCovector (fun vl => integrate sem.vspace
    (fun m q => divFn sem.vspace vl m q * scalarFn sem.pspace (sem.pspace.mesh.gather p) m q))))

/-- `Q` (navier_stokes.py 340-343) for `beta = bdfk_coeffs(time_order)[-1]`. -/
def Q (dt beta : K) (u : Vel K d) : Vel K d := fun p k => (dt / beta) * sem.Bi u p k

/-- `E` (navier_stokes.py 345-348). -/
def E (dt beta : K) (p : ℕ → K) : ℕ → K := sem.D (sem.Q dt beta (sem.Dt p))

/-- `pressure.B` (navier_stokes.py 129-136). -/
def pressureB (p : ℕ → K) : ℕ → K := massOp sem.pspace p

/-- `jnp.vdot` of velocity fields. -/
def vDot (u v : Vel K d) : K := ∑ p ∈ Finset.range sem.numV, ∑ k, u p k * v p k

/-- `_pressure_project_out_nullspace` (navier_stokes.py 73-79). -/
def projectOut (p : ℕ → K) : ℕ → K :=
  let w := sem.pspace.mesh.exchange p
  let q : ℕ → K := fun _ => 1
  fun j => w j - nodeDot sem.numP q (sem.pressureB w) / nodeDot sem.numP q (sem.pressureB q) * q j

/-- `filter` (navier_stokes.py 460-482); `low` are the grid points of one order less. -/
def filter (low : Nodes1D K) (alpha : K) (u : Vel K d) : Option (Vel K d) :=
  let grid := sem.vspace.mesh.grid
  match interpMatrix1d grid.bary grid.value low.value, interpMatrix1d low.bary low.value grid.value with
  | some L, some H =>
    match interpMatrix d L, interpMatrix d H with
    | some Ld, some Hd =>
      let local_ : ℕ → ℕ → Fin d → K := fun m n k => Hd.apply (Ld.apply (fun n => vGather sem.vspace.mesh u m n k)) n
      let filtered : Vel K d := fun p k => (1 / sem.diagQqt p) * vScatter sem.vspace.mesh local_ p k
      some (fun p k => (1 - alpha) * u p k + alpha * filtered p k)
    | _, _ => none
  | _, _ => none

/-- `vorticity` (navier_stokes.py 484-494) of a two dimensional space whose quadrature points are its nodes. -/
def vorticity (sem : StokesSEM K 2) (u : Vel K 2) : ℕ → K :=
  let g := vectorGrad sem.vspace (vGather sem.vspace.mesh u)
  let vortLocal : ℕ → ℕ → K := fun m q => g m q 1 0 - g m q 0 1
  fun p => (1 / sem.diagQqt p) * sem.vspace.mesh.scatter vortLocal p

/-- No division by zero by the entries of the two diagonals. -/
def finite : Prop :=
  ∀ p < sem.numV, sem.diagQqt p ≠ 0 ∧ ∀ k, vExchange sem.vspace.mesh sem.massDiag p k ≠ 0

instance : Decidable sem.finite := by unfold finite; infer_instance

/-- The preconditioner of the pressure solve (navier_stokes.py 419-420, 449-452). -/
inductive PPrecond (K : Type*)
  | identity
  | project
  | custom (M : (ℕ → K) → ℕ → K)

/-- Whether the mean is projected out, which divides by the volume of the domain. -/
def PPrecond.isProject : PPrecond K → Bool
  | .project => true
  | _ => false

/-- The arguments `pressure_preconditioner` and `project_out_nullspace` (navier_stokes.py 354-355, 419-420). -/
def choosePrecond (precond : Option ((ℕ → K) → ℕ → K)) (project : Bool) : PPrecond K :=
  match precond with
  | some M => .custom M
  | none => if project then .project else .identity

/-- The preconditioner as a function. -/
def precondFn (sem : StokesSEM K d) : PPrecond K → (ℕ → K) → ℕ → K
  | .identity => fun p => p
  | .project => sem.projectOut
  | .custom M => M

/-- The result of a step: velocity, pressure, tentative velocity after filtering, and the counts and residuals of the
two solves (`aux`). The tentative velocity is not returned by Python; it is kept to state properties. -/
structure Step (K : Type*) (d : ℕ) where
  u : Vel K d
  p : ℕ → K
  uStar : Vel K d
  uResidual : K
  uIterations : ℕ
  pResidual : K
  pIterations : ℕ

/-- `H_` (navier_stokes.py 429-431). -/
def H (mu dt beta : K) (u : Vel K d) : Vel K d := fun p k => (beta / dt) * sem.B u p k + mu * sem.A u p k

/-- `p_ext` (navier_stokes.py 423-425); `none` is the `IndexError` of a history that is too short. -/
def extrapolate (c : Fin 2 → K) (ps : List (ℕ → K)) : Option (ℕ → K) :=
  match ps.reverse with
  | p1 :: p2 :: _ => some (fun j => c 1 * p1 j + c 0 * p2 j)
  | _ => none

/-- `sum(coef * u for coef, u in zip(beta_hist, us))` (navier_stokes.py 432). -/
def history (beta : List K) (us : List (Vel K d)) : Vel K d :=
  fun p k => ((beta.zip us).map (fun e => e.1 * e.2 p k)).sum

/-- `stokes_one_step` (navier_stokes.py 350-458). -/
def oneStep (low : Nodes1D K) (us : List (Vel K d)) (ps : List (ℕ → K)) (f : Vel K d) (mu dt : K) (timeOrder : ℕ)
    (alpha : K) (uBoundary : Option (Vel K d)) (precond : Option ((ℕ → K) → ℕ → K)) (project : Bool) (tol atol : K) :
    Except String (Step K d) :=
  let M := choosePrecond precond project
  match (extkCoeffs 1 : Option (Fin 2 → K)) with
  | none => .error "nan"
  | some c =>
    match extrapolate c ps with
    | none => .error "IndexError"
    | some pExt =>
      match (bdfkCoeffs timeOrder : Option (Fin (timeOrder + 1) → K)) with
      | none => .error "ZeroDivisionError"
      | some b =>
        let beta := b (Fin.last timeOrder)
        if ¬ sem.finite ∨ dt = 0 ∨ beta = 0 ∨
            (M.isProject = true ∧ nodeDot sem.numP (fun _ => 1) (sem.pressureB (fun _ => 1)) = 0) then .error "nan"
        else
          let f1 : Vel K d := f + sem.Dt pExt
          let hist := history (List.ofFn (fun i : Fin timeOrder => b i.castSucc)) us
          let f2 : Vel K d := f1 - sem.B (fun p k => (1 / dt) * hist p k)
          let f3 : Vel K d := match uBoundary with
            | none => f2
            | some ub => f2 - sem.H mu dt beta ub
          match cg sem.vDot (sem.H mu dt beta) (vExchange sem.vspace.mesh) f3 0 tol atol (10 * (sem.numV * d)) with
          | none => .error "nan"
          | some (us0, res1, n1) =>
            let us1 : Vel K d := match uBoundary with
              | none => us0
              | some ub => us0 + ub
            match sem.filter low alpha us1 with
            | none => .error "nan"
            | some uStar =>
              match cg (nodeDot sem.numP) (sem.E dt beta) (sem.precondFn M) (-sem.D uStar) 0 tol atol (10 * sem.numP) with
              | none => .error "nan"
              | some (dp, res2, n2) =>
                .ok ⟨uStar + sem.Q dt beta (sem.Dt dp), pExt + dp, uStar, res1, n1, res2, n2⟩

end StokesSEM

end Verif.NS
