import Verif.Model.Rollout
import Verif.Model.StokesGrad

/-!
# Model of reverse mode differentiation through the training rollout (niles/train.py 140-173, 196-349, 444-450)

`jax.value_and_grad` of `compute_mse_loss` with respect to the weights: the rollout is run forward, then the statements of
`body_fn` are transposed in reverse order, from the last step to the first. The network is an arbitrary function with an arbitrary
reverse pass, which maps cotangents of its tokens and of its two KL terms to a cotangent of the weights (`G`) and of its input
tokens. Stokes steps are reversed by `oneStepVjp`. Cotangents of the data of the batch are dropped.
-/

namespace Verif.NS

open Verif.Core

variable {K : Type*} [Field K] {d : ℕ}

/-- The derivative of the form of `C_local` (navier_stokes.py 238-245) at the local velocity `ul` in the direction `hl`. -/
def vConvJvp (fs : FESpace K d) (ul hl vl : ℕ → ℕ → Fin d → K) : K :=
  integrate fs (fun m q => ∑ i, ∑ j, (vectorFn fs hl m q i * vectorGrad fs ul m q i j +
    vectorFn fs ul m q i * vectorGrad fs hl m q i j) * vectorFn fs vl m q j)

namespace StokesSEM

variable (sem : StokesSEM K d)

/-- `jax.jvp` of `C` (navier_stokes.py 201-204, 309-311) at `u`. -/
def Cjvp (u h : Vel K d) : Vel K d :=
  sem.masked (vScatter sem.vspace.mesh (vectorCovector (vConvJvp sem.overint (vGather sem.vspace.mesh u)
    (vGather sem.vspace.mesh h))))

/-- `jax.vjp` of `C` at `u`: the transposed derivative. -/
def Cvjp (u y : Vel K d) : Vel K d := sem.vvT (sem.Cjvp u) y

end StokesSEM

end Verif.NS

namespace Verif.Niles

open Verif.Core Verif.NS

variable {K : Type*} [Field K] [LinearOrder K] {G : Type*}

/-- Reverse pass of the network of one example at the current weights: step, input tokens, cotangents of the output tokens and of
`kl_q0` and `kl_path` to the cotangents of the weights and of the input tokens. -/
abbrev NetVjp (K G : Type*) := ℕ → List (List K) → (ℕ → ℕ → K) → K → K → G × (ℕ → ℕ → K)

/-- Transpose of `ts[:, idx, :]` (train.py 239, 256): the cotangents of all copies of a token are added. -/
def takeT (idx : List ℕ) (ct : ℕ → ℕ → K) : ℕ → ℕ → K :=
  fun j c => ∑ m ∈ Finset.range idx.length, if idx.getD m 0 = j then ct m c else 0

/-- Transpose of a permutation that is applied only with `config.permute_elements`. -/
def permuteT (b : Bool) (idx : List ℕ) (ct : ℕ → ℕ → K) : ℕ → ℕ → K := if b then takeT idx ct else ct

/-- Reverse pass of train.py 232-264: `ctF` is the cotangent of the nodal closure term, `k0` and `kp` those of the KL terms. The
transpose of `scatter` is `gather` and the other way round. In the first `push` steps `stop_gradient` (train.py 246-249)
replaces the cotangent of the tokens by zero. -/
def closureVjp (c : SolverConfig K) (mesh : Mesh K 2) (vjp : NetVjp K G) (push i : ℕ) (u : Vel K 2) (ctF : Vel K 2) (k0 kp : K) :
    Except String (G × Vel K 2) :=
  match permuteIf c.permuteElements elementPerm (tokens mesh u) with
  | .error e => .error e
  | .ok inputs =>
    let ctTok : ℕ → ℕ → K := fun m r => vGather mesh ctF m (r / 2) ⟨r % 2, Nat.mod_lt _ (by decide)⟩
    let ctOut := permuteT c.permuteElements (argsort elementPerm) ctTok
    let r := vjp i inputs (if i < push then fun _ _ => 0 else ctOut) k0 kp
    let ctIn := permuteT c.permuteElements elementPerm r.2
    .ok (r.1, vScatter mesh fun m n k => ctIn m (n * 2 + k))

/-- Cotangents of the velocities, pressures and advection terms of a carry, by their position. -/
structure CarryCt (K : Type*) where
  us : ℕ → Vel K 2
  ps : ℕ → ℕ → K
  cus : ℕ → Vel K 2

/-- The coefficient of `cus[i]` in the extrapolated advection term (train.py 163-164). -/
def extWeight (k i : ℕ) : K :=
  match (extkCoeffs k : Option (Fin (k + 1) → K)) with
  | none => 0
  | some e => if h : i < k + 1 then e ⟨i, h⟩ else 0

/-- Reverse pass of `body_fn` (train.py 227-280) with `_solve_one_step` (train.py 162-173) at the carry `s`, of which `u` is the
new velocity: `ct` are the cotangents of the new carry, `ctPred` is that of the prediction. The lists of a carry drop their first
entry and take a new last one. -/
def bodyVjp [Add G] (low : Nodes1D K) (c : SolverConfig K) (sem : StokesSEM K 2) (vjp : NetVjp K G) (push : ℕ) (s : Carry K)
    (u : Vel K 2) (ct : CarryCt K) (ctPred : Vel K 2) (k0 kp : K) : Except String (G × CarryCt K) :=
  let T := c.timeOrder
  match s.us.getLast? with
  | none => .error "IndexError"
  | some ul =>
    -- cu = sem.C(u)
    let ctU := ct.us (T - 1) + ctPred + sem.Cvjp u (ct.cus (T - 1))
    match sem.oneStepVjp low (1 / c.reynolds) c.dt T c.alpha none true 0 c.atol ctU (ct.ps (T - 1)) with
    | .error e => .error e
    | .ok sc =>
      -- f = -cu + sem.B(f)
      let ctF1 := sem.vvT sem.B sc.f
      match closureVjp c sem.vspace.mesh vjp push s.i ul ctF1 k0 kp with
      | .error e => .error e
      | .ok (g, ctUl) =>
        .ok (g, {
          us := fun i => (if i = 0 then 0 else ct.us (i - 1)) + (if h : i < T then sc.us ⟨i, h⟩ else 0) +
            (if i + 1 = T then ctUl - c.drag • ctF1 else 0)
          ps := fun i => (if i = 0 then 0 else ct.ps (i - 1)) + (if i + 1 = T then sc.p1 else 0) +
            (if i + 2 = T then sc.p2 else 0)
          cus := fun i => (if i = 0 then 0 else ct.cus (i - 1)) + (-extWeight (K := K) (T - 1) i) • sc.f })

/-- Reverse pass of `lax.scan(body_fn, init_carry, ...)` (train.py 292-293): the carry of every step is that of the forward run,
the cotangents of the weights are added up. The cotangents of the last carry are zero except for the KL terms, whose cotangents
`k0` and `kp` are those of every step, since the steps add their terms. -/
def scanVjp [Zero G] [Add G] (low : Nodes1D K) (wave : K → K) (c : SolverConfig K) (sem : StokesSEM K 2) (net : Closure K)
    (vjp : NetVjp K G) (push : ℕ) (k0 kp : K) : ℕ → Carry K → (ℕ → Vel K 2) → Except String (G × CarryCt K)
  | 0, _, _ => .ok (0, ⟨fun _ => 0, fun _ => 0, fun _ => 0⟩)
  | n + 1, s, ctPreds =>
    match bodyFn low wave c sem net s with
    | .error e => .error e
    | .ok (s', u) =>
      match scanVjp low wave c sem net vjp push k0 kp n s' (fun i => ctPreds (i + 1)) with
      | .error e => .error e
      | .ok (g', ct) =>
        match bodyVjp low c sem vjp push s u ct (ctPreds 0) k0 kp with
        | .error e => .error e
        | .ok (g, ct') => .ok (g' + g, ct')

/-- Reverse pass of the loss of one of `B` examples (train.py 208-217, 282-325): the cotangent of a prediction is its distance
from the target, divided by `B`; the cotangent of both KL terms is the penalty, divided by `B`. -/
def rolloutVjp [Zero G] [Add G] (low : Nodes1D K) (wave : K → K) (c : SolverConfig K) (sem : StokesSEM K 2) (net : Closure K)
    (vjp : NetVjp K G) (push : ℕ) (klPenalty : K) (B n : ℕ) (ex : Example K) : Except String G :=
  match rollout low wave c sem net n ex with
  | .error e => .error e
  | .ok (preds, targets, _, _) =>
    let us := ex.u.take c.timeOrder
    match scanVjp low wave c sem net vjp push (klPenalty / B) (klPenalty / B) n
        ⟨0, us, ex.p.take c.timeOrder, us.map sem.C, 0, 0⟩
        (fun i p k => if p < sem.numV then 1 / (B : K) * (preds.getD i 0 p k - targets.getD i 0 p k) else 0) with
    | .error e => .error e
    | .ok (g, _) => .ok g

/-- The examples of a batch one after the other. -/
def rolloutsVjp [Zero G] [Add G] (low : Nodes1D K) (wave : K → K) (c : SolverConfig K) (sem : StokesSEM K 2) (nets : ℕ → Closure K)
    (vjps : ℕ → NetVjp K G) (push : ℕ) (klPenalty : K) (B n : ℕ) : ℕ → List (Example K) → Except String G
  | _, [] => .ok 0
  | b, ex :: exs =>
    match rolloutVjp low wave c sem (nets b) (vjps b) push klPenalty B n ex with
    | .error e => .error e
    | .ok g =>
      match rolloutsVjp low wave c sem nets vjps push klPenalty B n (b + 1) exs with
      | .error e => .error e
      | .ok g' => .ok (g + g')

/-- `grads` of `jax.value_and_grad(loss_fn, has_aux=True)` (train.py 444-450) for `compute_mse_loss` (train.py 196-349): `nets` are
the networks and `vjps` their reverse passes at the current weights, one for each example; `push` is
`config.num_pushforward_steps`. -/
def lossVjp [Zero G] [Add G] (low : Nodes1D K) (wave : K → K) (c : SolverConfig K) (sem : StokesSEM K 2) (nets : ℕ → Closure K)
    (vjps : ℕ → NetVjp K G) (push : ℕ) (klPenalty : K) (n : ℕ) (batch : List (Example K)) : Except String G :=
  if batch.isEmpty then .error "nan"
  else rolloutsVjp low wave c sem nets vjps push klPenalty batch.length n 0 batch

end Verif.Niles
