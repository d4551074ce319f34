import Verif.Lemmas.StokesScale
import Verif.Model.Rollout
import Verif.Props.C92

/-!
# C155: flows of the same Reynolds number are computed alike

Velocities times `c`, pressures and forces times `c²`, viscosity times `c` and time step divided by `c` describe the same flow in
other units. `C155_partial`: without an absolute tolerance, which is the default of `stokes_one_step`, the step in the new units
takes the same numbers of iterations and returns the result of the step in the old units, expressed in the new ones, or raises the
same error. `C155_rollout_partial`: the same for the step of the training loop, with advection, forcing and drag;
`C155_trajectory_partial`: for whole trajectories with any closure.
The full statement, for the absolute tolerance `1e-7` that the training loop uses (train.py 172), is false. `C155_stops`: for every
flow there are units in which the solver does nothing and returns a fluid at rest. `C155_violated`: an instance in which the two
steps differ.
-/

namespace Verif.NS

open Verif.Core Verif.Linalg

variable {K : Type*} [Field K] [LinearOrder K] {d : ℕ} {sem : StokesSEM K d} {low : Nodes1D K} {vmesh pmesh : Mesh K d}
  {quad overQuad : Quadrature1D K} {mask : ℕ → K}

theorem create_wf (hc : StokesSEM.create vmesh pmesh quad overQuad mask = some sem) (hv : 0 < vmesh.grid.numPoints)
    (hp : 0 < pmesh.grid.numPoints) : sem.vspace.WF ∧ sem.overint.WF ∧ sem.pspace.WF := by
  unfold StokesSEM.create at hc
  split at hc
  · rename_i v o p h1 h2 h3
    rw [Option.some.injEq] at hc
    subst hc
    have hb : ∀ {q : Quadrature1D K} {fs : FESpace K d}, FESpace.create vmesh q = some fs → FESpace.build vmesh q = some fs := by
      intro q fs h
      unfold FESpace.create at h
      split at h <;> simp_all
    exact ⟨FESpace.build_wf (hb h1) hv, FESpace.build_wf (hb h2) hv, FESpace.build_wf h3 hp⟩
  · cases hc

/-- The step of the solver in other units. -/
theorem C155_partial [IsStrictOrderedRing K] (hs : StokesSEM.create vmesh pmesh quad overQuad mask = some sem)
    (hv : 0 < vmesh.grid.numPoints) (hp : 0 < pmesh.grid.numPoints) {c : K} (hc : 0 < c) (us : List (Vel K d)) (ps : List (ℕ → K))
    (f : Vel K d) (mu dt : K) (timeOrder : ℕ) (alpha : K) (ub : Option (Vel K d)) (precond : Option ((ℕ → K) → ℕ → K))
    (project : Bool) (hM : ∀ M, precond = some M → ∀ (a : K) p, M (a • p) = a • M p) (tol : K) :
    match sem.oneStep low us ps f mu dt timeOrder alpha ub precond project tol 0 with
    | .error e => sem.oneStep low (us.map (c • ·)) (ps.map (c ^ 2 • ·)) (c ^ 2 • f) (c * mu) (dt / c) timeOrder alpha
        (ub.map (c • ·)) precond project tol 0 = .error e
    | .ok st => ∃ st', sem.oneStep low (us.map (c • ·)) (ps.map (c ^ 2 • ·)) (c ^ 2 • f) (c * mu) (dt / c) timeOrder alpha
        (ub.map (c • ·)) precond project tol 0 = .ok st' ∧ st'.u = c • st.u ∧ st'.p = c ^ 2 • st.p ∧
          st'.uIterations = st.uIterations ∧ st'.pIterations = st.pIterations ∧
          st'.uResidual = c ^ 4 * st.uResidual ∧ st'.pResidual = c ^ 2 * st.pResidual := by
  obtain ⟨h1, _, h2⟩ := create_wf hs hv hp
  rw [oneStep_rescaled h1 h2 hc.ne' us ps f mu dt timeOrder alpha ub precond project hM tol]
  cases sem.oneStep low us ps f mu dt timeOrder alpha ub precond project tol 0 with
  | error e => rfl
  | ok st => exact ⟨_, rfl, rfl, rfl, rfl, rfl, rfl, rfl⟩

/-- With an absolute tolerance: in suitable units every flow for which the step succeeds is stopped at once. -/
theorem C155_stops [IsStrictOrderedRing K] (hs : StokesSEM.create vmesh pmesh quad overQuad mask = some sem)
    (hv : 0 < vmesh.grid.numPoints) (hp : 0 < pmesh.grid.numPoints) (us : List (Vel K d)) (ps : List (ℕ → K))
    (f : Vel K d) (mu dt : K) (timeOrder : ℕ) (alpha : K) (precond : Option ((ℕ → K) → ℕ → K)) (project : Bool)
    {tol' atol' : K} {st : StokesSEM.Step K d}
    (hok : sem.oneStep low us ps f mu dt timeOrder alpha none precond project tol' atol' = .ok st) (tol : K) {atol : K}
    (ha : atol ≠ 0) :
    ∃ c0 > 0, ∀ c, 0 < c → c < c0 → ∃ st',
      sem.oneStep low (us.map (c • ·)) (ps.map (c ^ 2 • ·)) (c ^ 2 • f) (c * mu) (dt / c) timeOrder alpha none precond
        project tol atol = .ok st' ∧ st'.u = 0 ∧ st'.uIterations = 0 ∧ st'.pIterations = 0 := by
  obtain ⟨h1, _, h2⟩ := create_wf hs hv hp
  exact oneStep_stops h1 h2 us ps f mu dt timeOrder alpha precond project hok tol ha

/-- Similarity fails for the tolerances of the training loop. -/
theorem C155_violated : ∃ cs : CubeStokes 2, cubeStokes 3 2 5 2 0 1 [0, 1] [] = .ok cs ∧ ∃ (f : Vel ℝ 2) (c : ℝ), 0 < c ∧
    cs.sem.oneStep cs.low [] [c ^ 2 • 0, c ^ 2 • 0] (c ^ 2 • f) (c * (1 / 10)) (1 / 100 / c) 3 (1 / 20) none none true 0 (1 / 10 ^ 7) ≠
      (cs.sem.oneStep cs.low [] [0, 0] f (1 / 10) (1 / 100) 3 (1 / 20) none none true 0 (1 / 10 ^ 7)).map (rescaleStep c) := by
  have hb : CubeBCs 2 [0, 1] [] := Or.inr rfl
  obtain ⟨cs, hcs⟩ := C92_create (over := 2) (n := 3) (d := 2) (p := 5) (a := 0) (b := 1) (by norm_num) (by norm_num)
    (by norm_num) (by norm_num) [0, 1] hb
  obtain ⟨vnode, pnode, l, h⟩ := cubeStokes_of (by norm_num) (by norm_num) (by norm_num) (by norm_num) hb hcs
  obtain ⟨mask, _, hs⟩ := h.create
  have hC := h.vcube.cells.toAffCells
  have hvm : cs.sem.vspace.mesh = cs.vmesh := (FESpace.build_fields h.vbuild).choose_spec.choose_spec.choose_spec.2.2.2.2.1
  have hN0 : 0 < cs.vmesh.numNodes := by
    have hne : 0 < cs.vmesh.nodesPerElem := by
      unfold Mesh.nodesPerElem
      rw [hC.points]
      positivity
    exact (Nat.zero_le _).trans_lt (hC.lt 0 (by norm_num) 0 hne)
  have hN : 0 < cs.sem.numV := by
    unfold StokesSEM.numV
    rwa [hvm]
  have hvp : 0 < cs.vmesh.grid.numPoints := by rw [hC.points]; omega
  have hpp : 0 < cs.pmesh.grid.numPoints := by rw [h.pcube.points]; omega
  set f : Vel ℝ 2 := fun j k => if j = 0 ∧ k = 0 then 1 else 0 with hf
  have hfout : ∀ j, cs.vmesh.numNodes ≤ j → f j = 0 := by
    intro j hj
    funext k
    have : j ≠ 0 := by omega
    simp [hf, this]
  have hg : cgBound cs.sem.vDot f 0 (1 / 10 ^ 7) < cs.sem.vDot f (vExchange cs.sem.vspace.mesh f) := by
    have hx : vExchange cs.sem.vspace.mesh f 0 0 = 1 := by
      unfold vExchange
      rw [exchange_sum _ _ 0 (by rwa [hvm]), Finset.sum_eq_single 0]
      · rw [if_pos (SameNode.refl _ _)]
        simp [hf]
      · intro j _ hj
        simp [hf, hj]
      · intro h0
        exact absurd (Finset.mem_range.mpr hN) h0
    have hd : cs.sem.vDot f (vExchange cs.sem.vspace.mesh f) = 1 := by
      unfold StokesSEM.vDot
      rw [Finset.sum_eq_single 0]
      · rw [Finset.sum_eq_single 0]
        · rw [hx]
          simp [hf]
        · intro k _ hk
          simp [hf, hk]
        · simp
      · intro j _ hj
        simp [hf, hj]
      · intro h0
        exact absurd (Finset.mem_range.mpr hN) h0
    rw [hd]
    unfold cgBound
    norm_num
  obtain ⟨st, hst, _⟩ := C92_step (us := []) (ps := [0, 0]) (f := f) (mu := 1 / 10) (dt := 1 / 100)
    (alpha := 1 / 20) (timeOrder := 3) (project := true) (by norm_num) (by norm_num) (by norm_num) (by norm_num) hb hcs
    (fun _ => Or.inr (fun k => by fin_cases k <;> simp)) (fun h => absurd rfl h) hfout (by norm_num) (by norm_num) (by norm_num)
    (by simp)
  obtain ⟨c0, hc0, hsmall⟩ := C155_stops hs hvp hpp [] [0, 0] f (1 / 10) (1 / 100) 3 (1 / 20) none true hst 0
    (atol := 1 / 10 ^ 7) (by norm_num)
  refine ⟨cs, hcs, f, c0 / 2, by positivity, fun he => ?_⟩
  obtain ⟨st', hst', _, hit, _⟩ := hsmall (c0 / 2) (by positivity) (by linarith)
  simp only [List.map_nil, List.map_cons] at hst'
  rw [hst'] at he
  cases ho : cs.sem.oneStep cs.low [] [0, 0] f (1 / 10) (1 / 100) 3 (1 / 20) none none true 0 (1 / 10 ^ 7) with
  | error e => rw [ho] at he; cases he
  | ok s =>
    rw [ho] at he
    have h1 := congrArg (fun r => match r with | .ok t => t.uIterations | .error _ => 0) he
    obtain ⟨w1, _, w2⟩ := create_wf hs hvp hpp
    have h2 : 0 < s.uIterations := oneStep_iterates w1 w2 (by omega) hg ho
    simp only [Except.map, rescaleStep] at h1
    omega

/-- The hypotheses hold, and the step succeeds with the default absolute tolerance. -/
example : ∃ cs : CubeStokes 2, cubeStokes 3 2 5 2 0 1 [1] [("boundary", .dirichlet)] = .ok cs ∧
    (∃ mask, StokesSEM.create cs.vmesh cs.pmesh cs.quad cs.overQuad mask = some cs.sem) ∧ 0 < cs.vmesh.grid.numPoints ∧
    0 < cs.pmesh.grid.numPoints ∧
    ∃ st, cs.sem.oneStep cs.low [] [fun _ => 0, fun _ => 1] 0 (1/10) (1/100) 3 (1/20) none none true 0 0 = .ok st := by
  have hb : CubeBCs 2 [1] [("boundary", .dirichlet)] := Or.inl ⟨rfl, 0, by simp⟩
  obtain ⟨cs, hcs⟩ := C92_create (over := 2) (n := 3) (d := 2) (p := 5) (a := 0) (b := 1) (by norm_num) (by norm_num)
    (by norm_num) (by norm_num) [1] hb
  obtain ⟨vnode, pnode, l, h⟩ := cubeStokes_of (by norm_num) (by norm_num) (by norm_num) (by norm_num) hb hcs
  obtain ⟨mask, _, hs⟩ := h.create
  obtain ⟨st, hst, _⟩ := C92_step (us := []) (ps := [fun _ => 0, fun _ => 1]) (f := 0) (mu := 1/10) (dt := 1/100)
    (alpha := 1/20) (timeOrder := 3) (project := true) (by norm_num) (by norm_num) (by norm_num) (by norm_num) hb hcs
    (fun _ => Or.inl (by simp)) (fun _ _ _ _ => rfl) (fun _ _ => rfl) (by norm_num) (by norm_num) (by norm_num) (by simp)
  exact ⟨cs, hcs, ⟨mask, hs⟩, by rw [h.vcube.cells.points]; omega, by rw [h.pcube.points]; omega, st, hst⟩

end Verif.NS

namespace Verif.Niles

open Verif.Core Verif.NS

variable {K : Type*} [Field K] [LinearOrder K] {sem : StokesSEM K 2} {low : Nodes1D K} {vmesh pmesh : Mesh K 2}
  {quad overQuad : Quadrature1D K} {mask : ℕ → K}

theorem extAdvection_smul (k : ℕ) (c : K) (cus : List (Vel K 2)) :
    extAdvection k (cus.map (c • ·)) = (extAdvection k cus).map (c • ·) := by
  unfold extAdvection
  split
  · rfl
  · rename_i e _
    rw [List.length_map]
    split
    · rfl
    · simp only [Except.map]
      congr 1
      funext p j
      rw [Pi.smul_apply, Pi.smul_apply, smul_eq_mul, Finset.mul_sum]
      refine Finset.sum_congr rfl fun i _ => ?_
      have : (cus.map (c • ·)).reverse.getD i 0 = c • cus.reverse.getD i 0 := by
        rw [← List.map_reverse, List.getD_eq_getElem?_getD, List.getElem?_map, List.getD_eq_getElem?_getD]
        cases cus.reverse[(i : ℕ)]? <;> simp
      rw [this]
      simp only [Pi.smul_apply, smul_eq_mul]
      ring

/-- The configuration in other units; `atol` is not changed. -/
def SolverConfig.rescale (c : K) (cfg : SolverConfig K) : SolverConfig K :=
  { cfg with reynolds := cfg.reynolds / c, dt := cfg.dt / c, drag := c * cfg.drag }

/-- The step of the training loop in other units, without the absolute tolerance: advection terms, closure and forcing are
multiplied by `c²`, the drag coefficient by `c`. -/
theorem C155_rollout_partial [IsStrictOrderedRing K] (hs : StokesSEM.create vmesh pmesh quad overQuad mask = some sem)
    (hv : 0 < vmesh.grid.numPoints) (hp : 0 < pmesh.grid.numPoints) {c : K} (hc : 0 < c) (wave : K → K) (cfg : SolverConfig K)
    (hatol : cfg.atol = 0) (us : List (Vel K 2)) (ps : List (ℕ → K)) (cus : List (Vel K 2)) (f : Vel K 2) :
    solveStep low (fun y => c ^ 2 * wave y) (cfg.rescale c) sem (us.map (c • ·)) (ps.map (c ^ 2 • ·)) (cus.map (c ^ 2 • ·))
        (c ^ 2 • f) =
      (solveStep low wave cfg sem us ps cus f).map (fun r => (c • r.1, c ^ 2 • r.2.1, c ^ 2 • r.2.2)) := by
  obtain ⟨h1, h3, h2⟩ := create_wf hs hv hp
  unfold solveStep SolverConfig.rescale
  dsimp only
  rw [extAdvection_smul]
  cases extAdvection (cfg.timeOrder - 1) cus with
  | error e => rfl
  | ok cu =>
    dsimp only [Except.map]
    rw [List.getLast?_map]
    cases us.getLast? with
    | none => rfl
    | some ul =>
      dsimp only [Option.map_some]
      by_cases hr : cfg.reynolds = 0
      · rw [if_pos (by rw [hr, zero_div]), if_pos hr]
      · rw [if_neg (div_ne_zero hr hc.ne'), if_neg hr]
        have hf : (fun (p : ℕ) (k : Fin 2) => -(c ^ 2 • cu) p k + sem.B (fun p k => (c ^ 2 • f) p k +
            kolmogorov (fun y => c ^ 2 * wave y) (c * cfg.drag) (sem.vspace.mesh.coords p) ((c • ul) p) k) p k) =
            c ^ 2 • (fun (p : ℕ) (k : Fin 2) => -cu p k + sem.B (fun p k => f p k +
              kolmogorov wave cfg.drag (sem.vspace.mesh.coords p) (ul p) k) p k) := by
          funext p k
          simp only [StokesSEM.B, kolmogorov, Pi.smul_apply, smul_eq_mul]
          split <;> ring
        rw [hf, hatol, show 1 / (cfg.reynolds / c) = c * (1 / cfg.reynolds) by field_simp]
        have := oneStep_rescaled (low := low) h1 h2 hc.ne' us ps (fun (p : ℕ) (k : Fin 2) => -cu p k + sem.B (fun p k => f p k +
              kolmogorov wave cfg.drag (sem.vspace.mesh.coords p) (ul p) k) p k) (1 / cfg.reynolds) cfg.dt cfg.timeOrder cfg.alpha
              none none true (fun M h => by cases h) 0
        rw [Option.map_none] at this
        rw [this]
        cases sem.oneStep low us ps (fun (p : ℕ) (k : Fin 2) => -cu p k + sem.B (fun p k => f p k +
              kolmogorov wave cfg.drag (sem.vspace.mesh.coords p) (ul p) k) p k) (1 / cfg.reynolds) cfg.dt cfg.timeOrder cfg.alpha
              none none true 0 0 with
        | error e => rfl
        | ok st =>
          dsimp only [Except.map, rescaleStep]
          rw [C_smul h3, ← pow_two]

/-- Tokens in other units. -/
def scaleTokens (a : K) (ts : List (List K)) : List (List K) := ts.map (List.map (a * ·))

/-- The closure in other units: it reads velocities and returns forces. -/
def rescaleClosure (c : K) (net : Closure K) : Closure K := fun i ts =>
  (scaleTokens (c ^ 2) (net i (scaleTokens c⁻¹ ts)).1, (net i (scaleTokens c⁻¹ ts)).2)

theorem scaleTokens_inv {c : K} (hc : c ≠ 0) (ts : List (List K)) : scaleTokens c⁻¹ (scaleTokens c ts) = ts := by
  unfold scaleTokens
  rw [List.map_map]
  conv_rhs => rw [← List.map_id ts]
  refine List.map_congr_left fun t _ => ?_
  rw [Function.comp_apply, List.map_map, id]
  conv_rhs => rw [← List.map_id t]
  refine List.map_congr_left fun x _ => ?_
  rw [Function.comp_apply, id, inv_mul_cancel_left₀ hc]

theorem tokens_smul (mesh : Mesh K 2) (a : K) (u : Vel K 2) : tokens mesh (a • u) = scaleTokens a (tokens mesh u) := by
  unfold tokens scaleTokens
  rw [List.map_map]
  refine List.map_congr_left fun m _ => ?_
  rw [Function.comp_apply, List.map_flatMap]
  congr 1
  funext n
  rw [List.map_map]
  refine List.map_congr_left fun k _ => ?_
  rw [vGather_smul]
  rfl

theorem takeIdx_scaled (a : K) (ts : List (List K)) (idx : List ℕ) :
    takeIdx (scaleTokens a ts) idx = (takeIdx ts idx).map (scaleTokens a) := by
  unfold takeIdx scaleTokens
  induction idx with
  | nil => rfl
  | cons i l ih =>
    rw [List.mapM_cons, List.mapM_cons, ih, List.getElem?_map]
    cases ts[i]? with
    | none => rfl
    | some t =>
      cases l.mapM (fun i => ts[i]?) <;> rfl

theorem permuteIf_scaled (a : K) (b : Bool) (ts : List (List K)) (idx : List ℕ) :
    permuteIf b idx (scaleTokens a ts) = (permuteIf b idx ts).map (scaleTokens a) := by
  unfold permuteIf
  cases b with
  | false => rfl
  | true =>
    simp only [if_true, takeIdx_scaled]
    cases takeIdx ts idx <;> rfl

theorem untokens_scaled (mesh : Mesh K 2) (a : K) (ts : List (List K)) :
    untokens mesh (scaleTokens a ts) = (untokens mesh ts).map (a • ·) := by
  unfold untokens scaleTokens
  have hiff : ((ts.map (List.map (a * ·))).length = mesh.numElements ∧
      ∀ t ∈ ts.map (List.map (a * ·)), t.length = mesh.nodesPerElem * 2) ↔
      (ts.length = mesh.numElements ∧ ∀ t ∈ ts, t.length = mesh.nodesPerElem * 2) := by
    simp
  by_cases h : ts.length = mesh.numElements ∧ ∀ t ∈ ts, t.length = mesh.nodesPerElem * 2
  · rw [if_pos (hiff.mpr h), if_pos h]
    simp only [Except.map]
    congr 1
    funext m n k
    simp only [Pi.smul_apply, smul_eq_mul, List.getD_eq_getElem?_getD, List.getElem?_map]
    cases ts[m]? with
    | none => simp
    | some t =>
      simp only [Option.map_some, Option.getD_some, List.getElem?_map]
      cases t[n * 2 + (k : ℕ)]? <;> simp
  · rw [if_neg (fun h' => h (hiff.mp h')), if_neg h]
    rfl

theorem closureTerm_scaled {c : K} (hc : c ≠ 0) (cfg : SolverConfig K) (mesh : Mesh K 2) (net : Closure K) (i : ℕ) (u : Vel K 2) :
    closureTerm (cfg.rescale c) mesh (rescaleClosure c net) i (c • u) =
      (closureTerm cfg mesh net i u).map (fun r => (c ^ 2 • r.1, r.2)) := by
  unfold closureTerm SolverConfig.rescale
  dsimp only
  rw [tokens_smul, permuteIf_scaled]
  cases permuteIf cfg.permuteElements elementPerm (tokens mesh u) with
  | error e => rfl
  | ok ts =>
    dsimp only [Except.map]
    have hiff : ((scaleTokens c ts).length ≠ cfg.numElements ∨ ∃ t ∈ scaleTokens c ts, t.length ≠ cfg.numChannels) ↔
        (ts.length ≠ cfg.numElements ∨ ∃ t ∈ ts, t.length ≠ cfg.numChannels) := by
      unfold scaleTokens
      simp
    by_cases h : ts.length ≠ cfg.numElements ∨ ∃ t ∈ ts, t.length ≠ cfg.numChannels
    · rw [if_pos (hiff.mpr h), if_pos h]
    · rw [if_neg (fun h' => h (hiff.mp h')), if_neg h]
      simp only [rescaleClosure, scaleTokens_inv hc, permuteIf_scaled]
      cases permuteIf cfg.permuteElements (argsort elementPerm) (net i ts).1 with
      | error e => rfl
      | ok ts' =>
        dsimp only [Except.map]
        rw [untokens_scaled]
        cases untokens mesh ts' with
        | error e => rfl
        | ok fl =>
          dsimp only [Except.map]
          rw [vScatter_smul]

/-- The carry of the scan in other units. -/
def Carry.rescale (c : K) (s : Carry K) : Carry K :=
  ⟨s.i, s.us.map (c • ·), s.ps.map (c ^ 2 • ·), s.cus.map (c ^ 2 • ·), s.klQ0, s.klPath⟩

theorem bodyFn_rescaled [IsStrictOrderedRing K] (hs : StokesSEM.create vmesh pmesh quad overQuad mask = some sem)
    (hv : 0 < vmesh.grid.numPoints) (hp : 0 < pmesh.grid.numPoints) {c : K} (hc : 0 < c) (wave : K → K) (cfg : SolverConfig K)
    (hatol : cfg.atol = 0) (net : Closure K) (s : Carry K) :
    bodyFn low (fun y => c ^ 2 * wave y) (cfg.rescale c) sem (rescaleClosure c net) (s.rescale c) =
      (bodyFn low wave cfg sem net s).map (fun r => (r.1.rescale c, c • r.2)) := by
  unfold bodyFn Carry.rescale
  dsimp only
  rw [List.getLast?_map]
  cases s.us.getLast? with
  | none => rfl
  | some ul =>
    dsimp only [Option.map_some]
    rw [closureTerm_scaled hc.ne']
    cases closureTerm cfg sem.vspace.mesh net s.i ul with
    | error e => rfl
    | ok r =>
      obtain ⟨f, kl0, klp⟩ := r
      dsimp only [Except.map]
      rw [C155_rollout_partial hs hv hp hc wave cfg hatol]
      cases solveStep low wave cfg sem s.us s.ps s.cus f with
      | error e => rfl
      | ok r =>
        obtain ⟨u, p, cu⟩ := r
        simp only [Except.map, List.map_append, List.map_drop, List.map_cons, List.map_nil]

theorem scanBody_rescaled [IsStrictOrderedRing K] (hs : StokesSEM.create vmesh pmesh quad overQuad mask = some sem)
    (hv : 0 < vmesh.grid.numPoints) (hp : 0 < pmesh.grid.numPoints) {c : K} (hc : 0 < c) (wave : K → K) (cfg : SolverConfig K)
    (hatol : cfg.atol = 0) (net : Closure K) : ∀ (n : ℕ) (s : Carry K),
    scanBody low (fun y => c ^ 2 * wave y) (cfg.rescale c) sem (rescaleClosure c net) n (s.rescale c) =
      (scanBody low wave cfg sem net n s).map (fun r => (r.1.rescale c, r.2.map (c • ·))) := by
  intro n
  induction n with
  | zero => intro s; rfl
  | succ n ih =>
    intro s
    rw [scanBody, scanBody, bodyFn_rescaled hs hv hp hc wave cfg hatol]
    cases bodyFn low wave cfg sem net s with
    | error e => rfl
    | ok r =>
      obtain ⟨s', u⟩ := r
      dsimp only [Except.map]
      rw [ih]
      cases scanBody low wave cfg sem net n s' with
      | error e => rfl
      | ok r => rfl

/-- Whole trajectories: for every closure, the predictions and targets of the rollout in other units are the old ones rescaled,
the KL terms are the same, and errors are the same. -/
theorem C155_trajectory_partial [IsStrictOrderedRing K] (hs : StokesSEM.create vmesh pmesh quad overQuad mask = some sem)
    (hv : 0 < vmesh.grid.numPoints) (hp : 0 < pmesh.grid.numPoints) {c : K} (hc : 0 < c) (wave : K → K) (cfg : SolverConfig K)
    (hatol : cfg.atol = 0) (net : Closure K) (n : ℕ) (ex : Example K) :
    rollout low (fun y => c ^ 2 * wave y) (cfg.rescale c) sem (rescaleClosure c net) n ⟨ex.u.map (c • ·), ex.p.map (c ^ 2 • ·)⟩ =
      (rollout low wave cfg sem net n ex).map (fun r => (r.1.map (c • ·), r.2.1.map (c • ·), r.2.2)) := by
  obtain ⟨_, h3, _⟩ := create_wf hs hv hp
  unfold rollout
  have ht : (cfg.rescale c).timeOrder = cfg.timeOrder := rfl
  simp only [ht, List.length_map]
  by_cases h : ex.u.length < cfg.timeOrder ∨ ex.p.length < cfg.timeOrder
  · rw [if_pos h, if_pos h]
    rfl
  · rw [if_neg h, if_neg h]
    have e : (⟨0, (ex.u.map (c • ·)).take cfg.timeOrder, (ex.p.map (c ^ 2 • ·)).take cfg.timeOrder,
        ((ex.u.map (c • ·)).take cfg.timeOrder).map sem.C, 0, 0⟩ : Carry K) =
        Carry.rescale c ⟨0, ex.u.take cfg.timeOrder, ex.p.take cfg.timeOrder, (ex.u.take cfg.timeOrder).map sem.C, 0, 0⟩ := by
      unfold Carry.rescale
      simp only [List.map_take, List.map_map]
      congr 2
      refine List.map_congr_left fun u _ => ?_
      simp only [Function.comp_apply, C_smul h3, pow_two]
    rw [e, scanBody_rescaled hs hv hp hc wave cfg hatol]
    cases scanBody low wave cfg sem net n ⟨0, ex.u.take cfg.timeOrder, ex.p.take cfg.timeOrder,
        (ex.u.take cfg.timeOrder).map sem.C, 0, 0⟩ with
    | error e => rfl
    | ok r =>
      obtain ⟨s, preds⟩ := r
      dsimp only [Except.map]
      split
      · rfl
      · simp only [List.map_take, List.map_drop, Carry.rescale]

end Verif.Niles
