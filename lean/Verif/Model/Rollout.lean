import Verif.Model.Stokes
import Verif.Model.MultiscalePerm
import Verif.Model.JitDistributed

/-!
# Model of the rollout and the loss of niles/train.py (51-59, 130-173, 196-375)

Arithmetic is exact (the network input is rounded to `float32` in Python). The examples of a batch do not interact:
`vmap` over the batch is a map over a list. The closure network is an arbitrary function of the step (its random keys),
the number of the example and the element tokens; it returns tokens and the two KL terms. `sin` is the argument `wave`.
Exceptions are strings. Gradients (`stop_gradient`) do not change values.
-/

namespace Verif.Niles

open Verif.Core Verif.NS

variable {K : Type*} [Field K] [LinearOrder K]

/-- The fields of `config` that the solver reads; `atol` is the literal `1e-7` of train.py 172. -/
structure SolverConfig (K : Type*) where
  timeOrder : ℕ
  reynolds : K
  dt : K
  alpha : K
  drag : K
  atol : K
  numElements : ℕ
  numChannels : ℕ
  permuteElements : Bool

/-- `_kolmogorov_forcing` (train.py 130-138); `wave y` is `sin(2 π 4 y)`. -/
def kolmogorov (wave : K → K) (drag : K) (x u : Fin 2 → K) : Fin 2 → K :=
  fun k => (if k = 0 then wave (x 1) else 0) - drag * u k

/-- The extrapolated advection term (train.py 163-164): `sum(c[-i] * cus[-i] for i in range(1, len(c) + 1))`. -/
def extAdvection (k : ℕ) (cus : List (Vel K 2)) : Except String (Vel K 2) :=
  match (extkCoeffs k : Option (Fin (k + 1) → K)) with
  | none => .error "ZeroDivisionError"
  | some c =>
    if cus.length < k + 1 then .error "IndexError"
    else .ok (fun p j => ∑ i : Fin (k + 1), c (Fin.rev i) * cus.reverse.getD i 0 p j)

/-- `_solve_one_step` (train.py 140-173). -/
def solveStep (low : Nodes1D K) (wave : K → K) (c : SolverConfig K) (sem : StokesSEM K 2) (us : List (Vel K 2))
    (ps : List (ℕ → K)) (cus : List (Vel K 2)) (f : Vel K 2) : Except String (Vel K 2 × (ℕ → K) × Vel K 2) :=
  match extAdvection (c.timeOrder - 1) cus with
  | .error e => .error e
  | .ok cu =>
    match us.getLast? with
    | none => .error "IndexError"
    | some ul =>
      if c.reynolds = 0 then .error "ZeroDivisionError"
      else
        let f1 : Vel K 2 := fun p k => f p k + kolmogorov wave c.drag (sem.vspace.mesh.coords p) (ul p) k
        let f2 : Vel K 2 := fun p k => -cu p k + sem.B f1 p k
        match sem.oneStep low us ps f2 (1 / c.reynolds) c.dt c.timeOrder c.alpha none none true 0 c.atol with
        | .error e => .error e
        | .ok st => .ok (st.u, st.p, sem.C st.u)

/-- `gather` and `reshape` (train.py 232-237): one token per element, the components of its nodes one after the other. -/
def tokens (mesh : Mesh K 2) (u : Vel K 2) : List (List K) :=
  (List.range mesh.numElements).map fun m =>
    (List.range mesh.nodesPerElem).flatMap fun n => (List.finRange 2).map fun k => vGather mesh u m n k

/-- The second `reshape` (train.py 258-263). -/
def untokens (mesh : Mesh K 2) (ts : List (List K)) : Except String (ℕ → ℕ → Fin 2 → K) :=
  if ts.length = mesh.numElements ∧ ∀ t ∈ ts, t.length = mesh.nodesPerElem * 2 then
    .ok (fun m n k => (ts.getD m []).getD (n * 2 + k) 0)
  else .error "TypeError: reshape"

/-- The closure network of one example: step and tokens to tokens, `kl_q0` and `kl_path`. -/
abbrev Closure (K : Type*) := ℕ → List (List K) → List (List K) × K × K

/-- `perm` and `invperm` (train.py 223-224). -/
def elementPerm : List ℕ := makeMultiscalePerm 12 [2, 3] [2, 4]

/-- Applied only with `config.permute_elements` (train.py 238-239, 255-256). An index out of range is clamped by JAX; the
assertion on the shape (train.py 240) has then failed already or the reshape fails, so the model stops with an error. -/
def permuteIf (b : Bool) (idx : List ℕ) (ts : List (List K)) : Except String (List (List K)) :=
  if b then
    match takeIdx ts idx with
    | some ts' => .ok ts'
    | none => .error "AssertionError"
  else .ok ts

/-- The nodal closure term (train.py 232-264) and the KL terms. -/
def closureTerm (c : SolverConfig K) (mesh : Mesh K 2) (net : Closure K) (i : ℕ) (u : Vel K 2) :
    Except String (Vel K 2 × K × K) :=
  match permuteIf c.permuteElements elementPerm (tokens mesh u) with
  | .error e => .error e
  | .ok inputs =>
    if inputs.length ≠ c.numElements ∨ ∃ t ∈ inputs, t.length ≠ c.numChannels then .error "AssertionError"
    else
      let out := net i inputs
      match permuteIf c.permuteElements (argsort elementPerm) out.1 with
      | .error e => .error e
      | .ok ts =>
        match untokens mesh ts with
        | .error e => .error e
        | .ok fl => .ok (vScatter mesh fl, out.2.1, out.2.2)

/-- The carry of the scan (train.py 228, 268-279) of one example. -/
structure Carry (K : Type*) where
  i : ℕ
  us : List (Vel K 2)
  ps : List (ℕ → K)
  cus : List (Vel K 2)
  klQ0 : K
  klPath : K

/-- `body_fn` (train.py 227-280). -/
def bodyFn (low : Nodes1D K) (wave : K → K) (c : SolverConfig K) (sem : StokesSEM K 2) (net : Closure K)
    (s : Carry K) : Except String (Carry K × Vel K 2) :=
  match s.us.getLast? with
  | none => .error "IndexError"
  | some ul =>
    match closureTerm c sem.vspace.mesh net s.i ul with
    | .error e => .error e
    | .ok (f, kl0, klp) =>
      match solveStep low wave c sem s.us s.ps s.cus f with
      | .error e => .error e
      | .ok (u, p, cu) =>
        .ok (⟨s.i + 1, s.us.drop 1 ++ [u], s.ps.drop 1 ++ [p], s.cus.drop 1 ++ [cu], kl0 + s.klQ0, klp + s.klPath⟩, u)

/-- `lax.scan(body_fn, init_carry, jnp.arange(n))` (train.py 292-293). -/
def scanBody (low : Nodes1D K) (wave : K → K) (c : SolverConfig K) (sem : StokesSEM K 2) (net : Closure K) :
    ℕ → Carry K → Except String (Carry K × List (Vel K 2))
  | 0, s => .ok (s, [])
  | n + 1, s =>
    match bodyFn low wave c sem net s with
    | .error e => .error e
    | .ok (s', u) =>
      match scanBody low wave c sem net n s' with
      | .error e => .error e
      | .ok (s'', us) => .ok (s'', u :: us)

/-- One example of a batch: the frames of its window. -/
structure Example (K : Type*) where
  u : List (Vel K 2)
  p : List (ℕ → K)

/-- Rollout of one example over `n` steps (train.py 208-217, 282-299, 302-305): predictions, targets and the summed KL
terms. `index_in_dim` and `slice_in_dim` raise when the window is too short. -/
def rollout (low : Nodes1D K) (wave : K → K) (c : SolverConfig K) (sem : StokesSEM K 2) (net : Closure K) (n : ℕ)
    (ex : Example K) : Except String (List (Vel K 2) × List (Vel K 2) × K × K) :=
  if ex.u.length < c.timeOrder ∨ ex.p.length < c.timeOrder then .error "ValueError: index_in_dim"
  else
    let us := ex.u.take c.timeOrder
    match scanBody low wave c sem net n ⟨0, us, ex.p.take c.timeOrder, us.map sem.C, 0, 0⟩ with
    | .error e => .error e
    | .ok (s, preds) =>
      if ex.u.length < c.timeOrder + n then .error "TypeError: slice"
      else .ok (preds, (ex.u.drop c.timeOrder).take n, s.klQ0, s.klPath)

/-- `optax.l2_loss` summed over nodes and components (train.py 308-309). -/
def frameLoss (sem : StokesSEM K 2) (a b : Vel K 2) : K :=
  ∑ p ∈ Finset.range sem.numV, ∑ k, (1 / 2) * (a p k - b p k) ^ 2

/-- `mapM` over the examples with their numbers. -/
def rollouts (low : Nodes1D K) (wave : K → K) (c : SolverConfig K) (sem : StokesSEM K 2) (nets : ℕ → Closure K) (n : ℕ) :
    ℕ → List (Example K) → Except String (List (List (Vel K 2) × List (Vel K 2) × K × K))
  | _, [] => .ok []
  | b, ex :: exs =>
    match rollout low wave c sem (nets b) n ex with
    | .error e => .error e
    | .ok r =>
      match rollouts low wave c sem nets n (b + 1) exs with
      | .error e => .error e
      | .ok rs => .ok (r :: rs)

/-- The mean over a list. -/
def meanOf (l : List K) : K := l.sum / l.length

/-- `compute_mse_loss` (train.py 196-349) of the training branch: the loss and `mse`, one entry per step. An empty batch
gives NaN. -/
def computeLoss (low : Nodes1D K) (wave : K → K) (c : SolverConfig K) (sem : StokesSEM K 2) (nets : ℕ → Closure K)
    (klPenalty : K) (n : ℕ) (batch : List (Example K)) : Except String (K × List K) :=
  if batch.isEmpty then .error "nan"
  else
    match rollouts low wave c sem nets n 0 batch with
    | .error e => .error e
    | .ok rs =>
      let mse := (List.range n).map fun i => meanOf (rs.map fun r => frameLoss sem (r.1.getD i 0) (r.2.1.getD i 0))
      let kl := meanOf (rs.map (·.2.2.1)) + meanOf (rs.map (·.2.2.2))
      .ok (mse.sum + klPenalty * kl, mse)

end Verif.Niles
