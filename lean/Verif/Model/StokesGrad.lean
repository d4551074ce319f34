import Verif.Model.Stokes

/-!
# Model of reverse mode differentiation through a Stokes step (navier_stokes/navier_stokes.py 419-458)

`jax.vjp` of `stokes_one_step` with respect to its arrays. Every operation of a step except the two linear solves is a fixed
linear map, of which `jax` applies the transpose (`vvT`, `vpT`, `pvT`: the transposed matrix). For
`lax.custom_linear_solve(matvec, b, solve, symmetric=True)` it calls `solve(matvec, ·)` on the cotangent instead, that is `cg`
with the operator, preconditioner, tolerances and iteration limit of the forward pass; the cotangents of `aux` are dropped.
-/

namespace Verif.NS

open Verif.Core Verif.Linalg

variable {K : Type*} [Field K] [LinearOrder K] {d : ℕ}

/-- The velocity that is one at one node in one component. -/
def vUnit (j : ℕ) (k : Fin d) : Vel K d := fun i l => if i = j ∧ l = k then 1 else 0

/-- The pressure that is one at one node. -/
def pUnit (j : ℕ) : ℕ → K := fun i => if i = j then 1 else 0

namespace StokesSEM

variable (sem : StokesSEM K d)

/-- Transpose of a linear map of velocities. -/
def vvT (L : Vel K d → Vel K d) (y : Vel K d) : Vel K d :=
  fun j k => if j < sem.numV then sem.vDot (L (vUnit j k)) y else 0

/-- Transpose of a linear map from velocities to pressures. -/
def vpT (L : Vel K d → ℕ → K) (y : ℕ → K) : Vel K d :=
  fun j k => if j < sem.numV then nodeDot sem.numP (L (vUnit j k)) y else 0

/-- Transpose of a linear map from pressures to velocities. -/
def pvT (L : (ℕ → K) → Vel K d) (y : Vel K d) : ℕ → K :=
  fun j => if j < sem.numP then sem.vDot (L (pUnit j)) y else 0

/-- The filter as a function (navier_stokes.py 446, 460-482), when it is defined. -/
def filterFn (low : Nodes1D K) (alpha : K) (u : Vel K d) : Vel K d := (sem.filter low alpha u).getD 0

/-- Cotangents of the arguments of a step: of the force, of the velocities, of the last two pressures and of the boundary
values. -/
structure StepCt (K : Type*) (d timeOrder : ℕ) where
  f : Vel K d
  us : Fin timeOrder → Vel K d
  p1 : ℕ → K
  p2 : ℕ → K
  ub : Vel K d

/-- `jax.vjp` of `stokes_one_step` (navier_stokes.py 419-458): the statements in reverse order. -/
def oneStepVjp (low : Nodes1D K) (mu dt : K) (timeOrder : ℕ) (alpha : K) (precond : Option ((ℕ → K) → ℕ → K))
    (project : Bool) (tol atol : K) (ctU : Vel K d) (ctP : ℕ → K) : Except String (StepCt K d timeOrder) :=
  let M := choosePrecond precond project
  match (extkCoeffs 1 : Option (Fin 2 → K)), (bdfkCoeffs timeOrder : Option (Fin (timeOrder + 1) → K)) with
  | some c, some b =>
    let beta := b (Fin.last timeOrder)
    if ¬ sem.finite ∨ dt = 0 ∨ beta = 0 ∨
        (M.isProject = true ∧ nodeDot sem.numP (fun _ => 1) (sem.pressureB (fun _ => 1)) = 0) then .error "nan"
    else
      -- u = u_star + Q_(Dt(dp)), p = p_ext + dp
      let ctDp : ℕ → K := ctP + sem.pvT (fun p => sem.Q dt beta (sem.Dt p)) ctU
      -- dp = custom_linear_solve(E, -D(u_star))
      match cg (nodeDot sem.numP) (sem.E dt beta) (sem.precondFn M) ctDp 0 tol atol (10 * sem.numP) with
      | none => .error "nan"
      | some (w, _, _) =>
        let ctStar : Vel K d := ctU - sem.vpT sem.D w
        -- u_star = filter(u_star)
        match sem.filter low alpha 0 with
        | none => .error "nan"
        | some _ =>
          let ct0 : Vel K d := sem.vvT (sem.filterFn low alpha) ctStar
          -- u_star = custom_linear_solve(H_, f) + u_boundary
          match cg sem.vDot (sem.H mu dt beta) (vExchange sem.vspace.mesh) ct0 0 tol atol (10 * (sem.numV * d)) with
          | none => .error "nan"
          | some (y, _, _) =>
            -- f = f + Dt(p_ext) - B(history / dt) - H_(u_boundary)
            let ctExt : ℕ → K := ctP + sem.pvT sem.Dt y
            .ok {
              f := y
              us := fun i => fun p k => -((1 / dt) * b i.castSucc * sem.vvT sem.B y p k)
              p1 := fun j => c 1 * ctExt j
              p2 := fun j => c 0 * ctExt j
              ub := ct0 - sem.vvT (sem.H mu dt beta) y }
  | _, _ => .error "nan"

end StokesSEM

end Verif.NS
