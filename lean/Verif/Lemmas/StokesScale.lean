import Verif.Lemmas.ConvGrad
import Verif.Lemmas.CGSim

/-! A step of the solver on rescaled data. -/

namespace Verif.Linalg

variable {K V : Type*} [Field K] [LinearOrder K] [AddCommGroup V] [Module K V]

/-- What is needed of the operator, the preconditioner and the inner product to follow a run on rescaled data. -/
structure CGHomog (dot : V → V → K) (A M A' : V → V) (r s : K) : Prop where
  dotL : ∀ (c : K) x y, dot (c • x) y = c * dot x y
  dotR : ∀ (c : K) x y, dot x (c • y) = c * dot x y
  op : ∀ (c : K) x, A (c • x) = c • A x
  pre : ∀ (c : K) x, M (c • x) = c • M x
  scaled : ∀ x, A' x = (r / s) • A x
  hr : r ≠ 0
  hs : s ≠ 0

/-- The loop state of the run on the rescaled data. -/
def CGState.scale (r s : K) (t : CGState K V) : CGState K V := ⟨s • t.x, r • t.r, r ^ 2 * t.gamma, r • t.p, t.k⟩

variable {dot : V → V → K} {A M A' : V → V} {r s : K}

theorem cgBody_scale (h : CGHomog dot A M A' r s) (t : CGState K V) :
    cgBody dot A' M (t.scale r s) = (cgBody dot A M t).map (CGState.scale r s) := by
  have hr := h.hr
  have hs := h.hs
  have hAp : A' (r • t.p) = (r ^ 2 / s) • A t.p := by
    rw [h.scaled, h.op, smul_smul]
    congr 1
    field_simp
  have hd : dot (r • t.p) ((r ^ 2 / s) • A t.p) = r ^ 3 / s * dot t.p (A t.p) := by
    rw [h.dotL, h.dotR]
    field_simp
  have h3 : r ^ 3 / s ≠ 0 := div_ne_zero (pow_ne_zero _ hr) hs
  unfold cgBody CGState.scale
  simp only [hAp, hd]
  by_cases h0 : dot t.p (A t.p) = 0
  · simp [h0]
  · have ha : r ^ 2 * t.gamma / (r ^ 3 / s * dot t.p (A t.p)) = s / r * (t.gamma / dot t.p (A t.p)) := by
      field_simp
    have hr' : r • t.r - (s / r * (t.gamma / dot t.p (A t.p))) • (r ^ 2 / s) • A t.p =
        r • (t.r - (t.gamma / dot t.p (A t.p)) • A t.p) := by
      rw [smul_sub, smul_smul, smul_smul]
      congr 2
      field_simp
    rw [if_neg (mul_ne_zero h3 h0), if_neg h0]
    simp only [ha, hr', h.pre, h.dotL, h.dotR]
    by_cases hg : t.gamma = 0
    · simp [hg]
    · rw [if_neg (mul_ne_zero (pow_ne_zero _ hr) hg), if_neg hg, Option.map_some]
      congr 1
      refine CGState.mk.injEq .. |>.mpr ⟨?_, rfl, by ring, ?_, rfl⟩
      · rw [smul_add, smul_smul, smul_smul]
        congr 2
        field_simp
      · rw [smul_add, smul_smul, smul_smul]
        congr 2
        field_simp

variable [IsStrictOrderedRing K]

theorem cgLoop_scale (h : CGHomog dot A M A' r s) (bound : K) (maxiter : ℕ) :
    ∀ (fuel : ℕ) (t : CGState K V), cgLoop dot A' M (r ^ 2 * bound) maxiter fuel (t.scale r s) =
      (cgLoop dot A M bound maxiter fuel t).map (CGState.scale r s) := by
  intro fuel
  have h2 : 0 < r ^ 2 := by have := h.hr; positivity
  induction fuel with
  | zero => intro t; rfl
  | succ fuel ih =>
    intro t
    rw [cgLoop, cgLoop]
    have hc : cgCond (r ^ 2 * bound) maxiter (t.scale r s) ↔ cgCond bound maxiter t := by
      unfold cgCond CGState.scale
      dsimp only [gt_iff_lt]
      rw [gt_iff_lt, gt_iff_lt, mul_lt_mul_iff_right₀ h2]
    by_cases hcs : cgCond bound maxiter t
    · rw [if_pos hcs, if_pos (hc.mpr hcs), cgBody_scale h]
      cases cgBody dot A M t with
      | none => rfl
      | some t' => exact ih t'
    · rw [if_neg hcs, if_neg (fun h' => hcs (hc.mp h'))]
      rfl

/-- The run on rescaled data takes the same iterations. -/
theorem cg_scale (h : CGHomog dot A M A' r s) (b : V) (tol : K) {atol atol' : K} (ha : atol' ^ 2 = r ^ 2 * atol ^ 2) (maxiter : ℕ) :
    cg dot A' M (r • b) 0 tol atol' maxiter =
      (cg dot A M b 0 tol atol maxiter).map (fun e => (s • e.1, r ^ 2 * e.2.1, e.2.2)) := by
  have h2 : 0 ≤ r ^ 2 := sq_nonneg r
  have hb : cgBound dot (r • b) tol atol' = r ^ 2 * cgBound dot b tol atol := by
    unfold cgBound
    rw [h.dotL, h.dotR, ha, mul_max_of_nonneg _ _ h2]
    congr 1
    ring
  have hA0 : A 0 = 0 := by simpa using h.op 0 0
  have hi : cgInit dot A' M (r • b) 0 = (cgInit dot A M b 0).scale r s := by
    unfold cgInit CGState.scale
    simp only [h.scaled, hA0, smul_zero, sub_zero, h.pre, h.dotL, h.dotR]
    congr 1
    ring
  unfold cg
  rw [hb, hi, cgLoop_scale h]
  cases cgLoop dot A M (cgBound dot b tol atol) maxiter maxiter (cgInit dot A M b 0) <;> rfl

/-- The solver stops at once if the first residual is small. -/
theorem cg_at_once (dot : V → V → K) (A M : V → V) (b : V) (hA : A 0 = 0) {tol atol : K} (h : dot b (M b) ≤ atol ^ 2) (maxiter : ℕ) :
    cg dot A M b 0 tol atol maxiter = some (0, dot b (M b), 0) := by
  have hc : ¬ cgCond (cgBound dot b tol atol) maxiter (cgInit dot A M b 0) := by
    unfold cgCond cgInit cgBound
    simp only [hA, sub_zero]
    exact fun h' => absurd (h'.1.trans_le h) (not_lt.mpr (le_max_right _ _))
  unfold cg
  cases maxiter with
  | zero => simp [cgLoop, cgInit, hA]
  | succ n => rw [cgLoop, if_neg hc]; simp [cgInit, hA]

end Verif.Linalg

namespace Verif.NS

open Verif.Core Verif.Linalg

variable {K : Type*} [Field K] [LinearOrder K] {d : ℕ} {sem : StokesSEM K d} {low : Nodes1D K}

theorem vDot_smul_first (c : K) (u v : Vel K d) : sem.vDot (c • u) v = c * sem.vDot u v := by
  simp only [StokesSEM.vDot, Finset.mul_sum, Pi.smul_apply, smul_eq_mul, mul_assoc]

theorem vDot_smul_second (c : K) (u v : Vel K d) : sem.vDot u (c • v) = c * sem.vDot u v := by
  simp only [StokesSEM.vDot, Finset.mul_sum, Pi.smul_apply, smul_eq_mul, mul_left_comm]

theorem field_exchange_smul (mesh : Mesh K d) (c : K) (w : ℕ → K) : mesh.exchange (c • w) = c • mesh.exchange w := by
  funext j
  by_cases hj : j < mesh.numNodes
  · simp only [exchange_sum _ _ j hj, Pi.smul_apply, smul_eq_mul, Finset.mul_sum, mul_ite, mul_zero]
  · simp only [Pi.smul_apply, exchange_outside mesh _ j (not_lt.mp hj), smul_zero]

theorem pressureB_smul (hwf : sem.pspace.WF) (c : K) (p : ℕ → K) : sem.pressureB (c • p) = c • sem.pressureB p := by
  unfold StokesSEM.pressureB massOp
  rw [← Mesh.scatter_smul]
  congr 1
  funext m n
  simp only [scalarCovector, Pi.smul_apply, Mesh.gather_smul, smul_eq_mul, massForm]
  rw [← integrate_mul]
  congr 1
  funext m q
  unfold scalarFn
  rw [Pi.smul_apply, hwf.smul, mul_assoc]

theorem projectOut_smul (hwf : sem.pspace.WF) (c : K) (p : ℕ → K) : sem.projectOut (c • p) = c • sem.projectOut p := by
  funext j
  simp only [StokesSEM.projectOut, field_exchange_smul, pressureB_smul hwf, nodeDot_smul_right, Pi.smul_apply, smul_eq_mul]
  ring

theorem precondFn_smul (hwf : sem.pspace.WF) (precond : Option ((ℕ → K) → ℕ → K)) (project : Bool)
    (hM : ∀ M, precond = some M → ∀ (c : K) p, M (c • p) = c • M p) (c : K) (p : ℕ → K) :
    sem.precondFn (StokesSEM.choosePrecond precond project) (c • p) =
      c • sem.precondFn (StokesSEM.choosePrecond precond project) p := by
  cases precond with
  | some M => exact hM M rfl c p
  | none =>
    cases project with
    | true => exact projectOut_smul hwf c p
    | false => rfl

theorem filter_smul (low : Nodes1D K) (alpha c : K) (u : Vel K d) :
    sem.filter low alpha (c • u) = (sem.filter low alpha u).map (c • ·) := by
  unfold StokesSEM.filter
  dsimp only
  cases interpMatrix1d sem.vspace.mesh.grid.bary sem.vspace.mesh.grid.value low.value with
  | none => rfl
  | some L =>
    cases interpMatrix1d low.bary low.value sem.vspace.mesh.grid.value with
    | none => rfl
    | some H =>
      dsimp only
      cases interpMatrix d L with
      | none => rfl
      | some Ld =>
        cases interpMatrix d H with
        | none => rfl
        | some Hd =>
          have has : ∀ (A : NMat K) (c : K) (x : ℕ → K), A.apply (c • x) = c • A.apply x := by
            intro A c x
            funext i
            exact NMat.apply_smul A c x i
          have : (fun (m n : ℕ) (k : Fin d) => Hd.apply (Ld.apply (fun n => vGather sem.vspace.mesh (c • u) m n k)) n) =
              c • (fun m n k => Hd.apply (Ld.apply (fun n => vGather sem.vspace.mesh u m n k)) n) := by
            funext m n k
            simp only [vGather_smul, Pi.smul_apply, smul_eq_mul]
            have h1 := has Ld c (fun n => vGather sem.vspace.mesh u m n k)
            have h2 : (fun n => c * vGather sem.vspace.mesh u m n k) = c • (fun n => vGather sem.vspace.mesh u m n k) := rfl
            rw [h2, h1, has, Pi.smul_apply, smul_eq_mul]
          simp only [Option.map_some, this, vScatter_smul]
          congr 1
          funext p k
          simp only [Pi.smul_apply, smul_eq_mul]
          ring

theorem history_smul (beta : List K) (c : K) (us : List (Vel K d)) :
    StokesSEM.history beta (us.map (c • ·)) = c • StokesSEM.history beta us := by
  funext p k
  unfold StokesSEM.history
  rw [Pi.smul_apply, Pi.smul_apply, smul_eq_mul]
  induction us generalizing beta with
  | nil => simp
  | cons u us ih =>
    cases beta with
    | nil => simp
    | cons b bs =>
      simp only [List.map_cons, List.zip_cons_cons, List.sum_cons, ih bs, Pi.smul_apply, smul_eq_mul]
      ring

theorem extrapolate_smul (e : Fin 2 → K) (c : K) (ps : List (ℕ → K)) :
    StokesSEM.extrapolate e (ps.map (c • ·)) = (StokesSEM.extrapolate e ps).map (c • ·) := by
  unfold StokesSEM.extrapolate
  rw [← List.map_reverse]
  match ps.reverse with
  | [] => rfl
  | [_] => rfl
  | p1 :: p2 :: _ =>
    simp only [List.map_cons, Option.map_some]
    congr 1
    funext j
    simp only [Pi.smul_apply, smul_eq_mul]
    ring

theorem H_smul (hwf : sem.vspace.WF) (mu dt beta c : K) (u : Vel K d) : sem.H mu dt beta (c • u) = c • sem.H mu dt beta u := by
  rw [← HLin_apply sem hwf, map_smul, HLin_apply]

theorem E_smul (hwf : sem.pspace.WF) (dt beta c : K) (p : ℕ → K) : sem.E dt beta (c • p) = c • sem.E dt beta p := by
  rw [← ELin_apply sem hwf, map_smul, ELin_apply]

theorem H_rescaled {c : K} (hc : c ≠ 0) (mu dt beta : K) (u : Vel K d) : sem.H (c * mu) (dt / c) beta u = c • sem.H mu dt beta u := by
  funext p k
  simp only [StokesSEM.H, Pi.smul_apply, smul_eq_mul]
  field_simp

theorem Q_rescaled (c dt beta : K) (u : Vel K d) : sem.Q (dt / c) beta u = c⁻¹ • sem.Q dt beta u := by
  funext p k
  simp only [StokesSEM.Q, Pi.smul_apply, smul_eq_mul]
  ring

theorem E_rescaled (c dt beta : K) (p : ℕ → K) : sem.E (dt / c) beta p = c⁻¹ • sem.E dt beta p := by
  unfold StokesSEM.E
  rw [Q_rescaled]
  exact (DLin sem).map_smul _ _

theorem Dt_smul (hwf : sem.pspace.WF) (c : K) (p : ℕ → K) : sem.Dt (c • p) = c • sem.Dt p := (DtLin sem hwf).map_smul c p

theorem D_smul (c : K) (u : Vel K d) : sem.D (c • u) = c • sem.D u := (DLin sem).map_smul c u

theorem B_smul (c : K) (u : Vel K d) : sem.B (c • u) = c • sem.B u := (BLin sem).map_smul c u

theorem Q_smul (dt beta c : K) (u : Vel K d) : sem.Q dt beta (c • u) = c • sem.Q dt beta u := (QLin sem dt beta).map_smul c u

/-- The result of a step in other units: velocities times `c`, pressures times `c²`. -/
def rescaleStep (c : K) (s : StokesSEM.Step K d) : StokesSEM.Step K d :=
  ⟨c • s.u, c ^ 2 • s.p, c • s.uStar, c ^ 4 * s.uResidual, s.uIterations, c ^ 2 * s.pResidual, s.pIterations⟩

/-- The two solves of a step. -/
theorem solves_rescaled [IsStrictOrderedRing K] (hv : sem.vspace.WF) (hp : sem.pspace.WF) {c : K} (hc : c ≠ 0) (f3 : Vel K d)
    (pe : ℕ → K) (mu dt beta alpha : K) (M : StokesSEM.PPrecond K) (hM : ∀ (c : K) p, sem.precondFn M (c • p) = c • sem.precondFn M p)
    (tol : K) (post post' : Vel K d → Vel K d) (hpost : ∀ x, post' (c • x) = c • post x) :
    (match cg sem.vDot (sem.H (c * mu) (dt / c) beta) (vExchange sem.vspace.mesh) (c ^ 2 • f3) 0 tol 0 (10 * (sem.numV * d)) with
      | none => (.error "nan" : Except String (StokesSEM.Step K d))
      | some (us0, res1, n1) =>
        match sem.filter low alpha (post' us0) with
        | none => .error "nan"
        | some uStar =>
          match cg (nodeDot sem.numP) (sem.E (dt / c) beta) (sem.precondFn M) (-sem.D uStar) 0 tol 0 (10 * sem.numP) with
          | none => .error "nan"
          | some (dp, res2, n2) =>
            .ok ⟨uStar + sem.Q (dt / c) beta (sem.Dt dp), c ^ 2 • pe + dp, uStar, res1, n1, res2, n2⟩) =
    Except.map (rescaleStep c) (match cg sem.vDot (sem.H mu dt beta) (vExchange sem.vspace.mesh) f3 0 tol 0 (10 * (sem.numV * d)) with
      | none => (.error "nan" : Except String (StokesSEM.Step K d))
      | some (us0, res1, n1) =>
        match sem.filter low alpha (post us0) with
        | none => .error "nan"
        | some uStar =>
          match cg (nodeDot sem.numP) (sem.E dt beta) (sem.precondFn M) (-sem.D uStar) 0 tol 0 (10 * sem.numP) with
          | none => .error "nan"
          | some (dp, res2, n2) =>
            .ok ⟨uStar + sem.Q dt beta (sem.Dt dp), pe + dp, uStar, res1, n1, res2, n2⟩) := by
  have hH : CGHomog sem.vDot (sem.H mu dt beta) (vExchange sem.vspace.mesh) (sem.H (c * mu) (dt / c) beta) (c ^ 2) c :=
    ⟨vDot_smul_first, vDot_smul_second, H_smul hv mu dt beta, fun a u => (vExchLin sem.vspace.mesh).map_smul a u,
      fun u => by rw [H_rescaled hc]; congr 1; field_simp, pow_ne_zero _ hc, hc⟩
  rw [cg_scale hH f3 tol (atol := 0) (by simp)]
  cases cg sem.vDot (sem.H mu dt beta) (vExchange sem.vspace.mesh) f3 0 tol 0 (10 * (sem.numV * d)) with
  | none => rfl
  | some r1 =>
    obtain ⟨u0, res1, n1⟩ := r1
    rw [Option.map_some]
    dsimp only
    rw [hpost, filter_smul]
    cases sem.filter low alpha (post u0) with
    | none => rfl
    | some w =>
      rw [Option.map_some]
      dsimp only
      have hE : CGHomog (nodeDot sem.numP) (sem.E dt beta) (sem.precondFn M)
          (sem.E (dt / c) beta) c (c ^ 2) :=
        ⟨nodeDot_smul_left _, nodeDot_smul_right _, E_smul hp dt beta, hM,
          fun p => by rw [E_rescaled]; congr 1; field_simp, hc, pow_ne_zero _ hc⟩
      rw [D_smul, ← smul_neg, cg_scale hE _ tol (atol := 0) (by simp)]
      cases cg (nodeDot sem.numP) (sem.E dt beta) (sem.precondFn M) (-sem.D w) 0
          tol 0 (10 * sem.numP) with
      | none => rfl
      | some r2 =>
        obtain ⟨dp, res2, n2⟩ := r2
        rw [Option.map_some]
        dsimp only [Except.map]
        congr 1
        unfold rescaleStep
        dsimp only
        rw [Dt_smul hp, Q_smul, Q_rescaled, smul_smul, ← smul_add, show c ^ 2 * c⁻¹ = c by field_simp, ← smul_add]
        congr 1
        ring

theorem oneStep_rescaled [IsStrictOrderedRing K] (hv : sem.vspace.WF) (hp : sem.pspace.WF) {c : K} (hc : c ≠ 0)
    (us : List (Vel K d)) (ps : List (ℕ → K)) (f : Vel K d) (mu dt : K) (timeOrder : ℕ) (alpha : K) (ub : Option (Vel K d))
    (precond : Option ((ℕ → K) → ℕ → K)) (project : Bool)
    (hM : ∀ M, precond = some M → ∀ (c : K) p, M (c • p) = c • M p) (tol : K) :
    sem.oneStep low (us.map (c • ·)) (ps.map (c ^ 2 • ·)) (c ^ 2 • f) (c * mu) (dt / c) timeOrder alpha (ub.map (c • ·)) precond
        project tol 0 =
      (sem.oneStep low us ps f mu dt timeOrder alpha ub precond project tol 0).map (rescaleStep c) := by
  unfold StokesSEM.oneStep
  dsimp only
  cases (extkCoeffs 1 : Option (Fin 2 → K)) with
  | none => rfl
  | some e =>
    dsimp only
    rw [extrapolate_smul]
    cases StokesSEM.extrapolate e ps with
    | none => rfl
    | some pe =>
      rw [Option.map_some]
      dsimp only
      cases (bdfkCoeffs timeOrder : Option (Fin (timeOrder + 1) → K)) with
      | none => rfl
      | some b =>
        dsimp only
        generalize b (Fin.last timeOrder) = beta
        have hiff : (¬ sem.finite ∨ dt / c = 0 ∨ beta = 0 ∨ ((StokesSEM.choosePrecond precond project).isProject = true ∧
            nodeDot sem.numP (fun _ => 1) (sem.pressureB (fun _ => 1)) = 0)) ↔
            (¬ sem.finite ∨ dt = 0 ∨ beta = 0 ∨ ((StokesSEM.choosePrecond precond project).isProject = true ∧
            nodeDot sem.numP (fun _ => 1) (sem.pressureB (fun _ => 1)) = 0)) := by
          rw [div_eq_zero_iff, or_iff_left hc]
        by_cases hbad : (¬ sem.finite ∨ dt = 0 ∨ beta = 0 ∨ ((StokesSEM.choosePrecond precond project).isProject = true ∧
            nodeDot sem.numP (fun _ => 1) (sem.pressureB (fun _ => 1)) = 0))
        · rw [if_pos (hiff.mpr hbad), if_pos hbad]
          rfl
        · rw [if_neg (fun h => hbad (hiff.mp h)), if_neg hbad]
          have hB : sem.B (fun p k => 1 / (dt / c) * StokesSEM.history (List.ofFn fun i : Fin timeOrder => b i.castSucc)
              (us.map (c • ·)) p k) = c ^ 2 • sem.B (fun p k => 1 / dt *
                StokesSEM.history (List.ofFn fun i : Fin timeOrder => b i.castSucc) us p k) := by
            rw [← B_smul, history_smul]
            congr 1
            funext p k
            simp only [Pi.smul_apply, smul_eq_mul]
            field_simp
          rw [hB, Dt_smul hp, ← smul_add, ← smul_sub]
          generalize f + sem.Dt pe - sem.B (fun p k => 1 / dt *
            StokesSEM.history (List.ofFn fun i : Fin timeOrder => b i.castSucc) us p k) = f2
          cases ub with
          | none =>
            exact solves_rescaled hv hp hc f2 pe mu dt beta alpha _ (precondFn_smul hp precond project hM) tol id id (fun _ => rfl)
          | some w =>
            rw [Option.map_some]
            dsimp only
            rw [H_rescaled hc, H_smul hv, smul_smul, ← pow_two, ← smul_sub]
            exact solves_rescaled hv hp hc (f2 - sem.H mu dt beta w) pe mu dt beta alpha _ (precondFn_smul hp precond project hM) tol
              (· + w) (· + c • w) (fun _ => (smul_add _ _ _).symm)

/-- A small force: with an absolute tolerance nothing is solved and the fluid is at rest. -/
theorem oneStep_stops [IsStrictOrderedRing K] (hv : sem.vspace.WF) (hp : sem.pspace.WF) (us : List (Vel K d)) (ps : List (ℕ → K))
    (f : Vel K d) (mu dt : K) (timeOrder : ℕ) (alpha : K) (precond : Option ((ℕ → K) → ℕ → K)) (project : Bool)
    {tol' atol' : K} {st : StokesSEM.Step K d}
    (hok : sem.oneStep low us ps f mu dt timeOrder alpha none precond project tol' atol' = .ok st) (tol : K) {atol : K}
    (ha : atol ≠ 0) :
    ∃ c0 > 0, ∀ c, 0 < c → c < c0 → ∃ st',
      sem.oneStep low (us.map (c • ·)) (ps.map (c ^ 2 • ·)) (c ^ 2 • f) (c * mu) (dt / c) timeOrder alpha none precond
        project tol atol = .ok st' ∧ st'.u = 0 ∧ st'.uIterations = 0 ∧ st'.pIterations = 0 := by
  unfold StokesSEM.oneStep at hok ⊢
  dsimp only at hok ⊢
  cases hext : (extkCoeffs 1 : Option (Fin 2 → K)) with
  | none => rw [hext] at hok; cases hok
  | some e =>
    rw [hext] at hok
    dsimp only at hok ⊢
    simp only [extrapolate_smul]
    cases hpe : StokesSEM.extrapolate e ps with
    | none => rw [hpe] at hok; cases hok
    | some pe =>
      rw [hpe] at hok
      simp only [Option.map_some] at hok ⊢
      cases hbd : (bdfkCoeffs timeOrder : Option (Fin (timeOrder + 1) → K)) with
      | none => rw [hbd] at hok; cases hok
      | some b =>
        rw [hbd] at hok
        dsimp only at hok ⊢
        generalize b (Fin.last timeOrder) = beta at hok ⊢
        obtain ⟨hgood, w, hw⟩ : ¬ (¬ sem.finite ∨ dt = 0 ∨ beta = 0 ∨ ((StokesSEM.choosePrecond precond project).isProject = true ∧
            nodeDot sem.numP (fun _ => 1) (sem.pressureB (fun _ => 1)) = 0)) ∧ ∃ w, sem.filter low alpha (0 : Vel K d) = some w := by
          split at hok
          · cases hok
          · refine ⟨by assumption, ?_⟩
            split at hok
            · cases hok
            · rename_i u0 _ _ _
              split at hok
              · cases hok
              · rename_i w hw
                exact ⟨(0 : K) • w, by rw [← zero_smul K u0, filter_smul, hw]; rfl⟩
        set f2 : Vel K d := f + sem.Dt pe - sem.B (fun p k => 1 / dt *
          StokesSEM.history (List.ofFn fun i : Fin timeOrder => b i.castSucc) us p k) with hf2
        set g := sem.vDot f2 (vExchange sem.vspace.mesh f2) with hg
        have ha2 : 0 < atol ^ 2 := by positivity
        have hg1 : 0 < |g| + 1 := by positivity
        refine ⟨min 1 (atol ^ 2 / (|g| + 1)), lt_min one_pos (div_pos ha2 hg1), fun c hc0 hc1 => ?_⟩
        have hc := hc0.ne'
        have hB : sem.B (fun p k => 1 / (dt / c) * StokesSEM.history (List.ofFn fun i : Fin timeOrder => b i.castSucc)
            (us.map (c • ·)) p k) = c ^ 2 • sem.B (fun p k => 1 / dt *
              StokesSEM.history (List.ofFn fun i : Fin timeOrder => b i.castSucc) us p k) := by
          rw [← B_smul, history_smul]
          congr 1
          funext p k
          simp only [Pi.smul_apply, smul_eq_mul]
          field_simp
        rw [hB, Dt_smul hp, ← smul_add, ← smul_sub, ← hf2]
        have hH0 : sem.H (c * mu) (dt / c) beta 0 = 0 := by
          simpa using H_smul hv (c * mu) (dt / c) beta 0 (0 : Vel K d)
        have hE0 : sem.E (dt / c) beta 0 = 0 := by
          simpa using E_smul hp (dt / c) beta 0 (0 : ℕ → K)
        have hsmall : sem.vDot (c ^ 2 • f2) (vExchange sem.vspace.mesh (c ^ 2 • f2)) ≤ atol ^ 2 := by
          rw [show vExchange sem.vspace.mesh (c ^ 2 • f2) = c ^ 2 • vExchange sem.vspace.mesh f2 from
            (vExchLin sem.vspace.mesh).map_smul _ _, vDot_smul_first, vDot_smul_second, ← hg]
          have h1 : c < 1 := hc1.trans_le (min_le_left _ _)
          have h2 : c * (|g| + 1) < atol ^ 2 := (lt_div_iff₀ hg1).mp (hc1.trans_le (min_le_right _ _))
          have h4 : c ^ 4 ≤ c := by simpa using pow_le_pow_of_le_one hc0.le h1.le (show 1 ≤ 4 by norm_num)
          calc c ^ 2 * (c ^ 2 * g) = c ^ 4 * g := by ring
            _ ≤ c ^ 4 * (|g| + 1) := mul_le_mul_of_nonneg_left ((le_abs_self g).trans (by linarith)) (by positivity)
            _ ≤ c * (|g| + 1) := mul_le_mul_of_nonneg_right h4 hg1.le
            _ ≤ atol ^ 2 := h2.le
        have hgood' : ¬ (¬ sem.finite ∨ dt / c = 0 ∨ beta = 0 ∨ ((StokesSEM.choosePrecond precond project).isProject = true ∧
            nodeDot sem.numP (fun _ => 1) (sem.pressureB (fun _ => 1)) = 0)) := by
          rwa [div_eq_zero_iff, or_iff_left hc]
        have hw0 : w = 0 := by
          have h0 : sem.filter low alpha (0 : Vel K d) = (sem.filter low alpha (0 : Vel K d)).map ((0 : K) • ·) := by
            rw [← filter_smul, zero_smul]
          rw [hw, Option.map_some, Option.some.injEq, zero_smul] at h0
          exact h0
        subst hw0
        have hD0 : -sem.D (0 : Vel K d) = 0 := by
          rw [neg_eq_zero]
          simpa using D_smul (sem := sem) 0 (0 : Vel K d)
        have hn0 : ∀ y, nodeDot sem.numP (0 : ℕ → K) y = 0 := fun y => by simp [nodeDot]
        have h1 : sem.Dt (0 : ℕ → K) = 0 := by simpa using Dt_smul hp 0 (0 : ℕ → K)
        have h2 : sem.Q (dt / c) beta (0 : Vel K d) = 0 := by simpa using Q_smul (sem := sem) (dt / c) beta 0 (0 : Vel K d)
        rw [if_neg hgood', cg_at_once _ _ _ _ hH0 hsmall]
        dsimp only
        rw [hw]
        dsimp only
        rw [hD0, cg_at_once _ _ _ _ hE0 (by rw [hn0]; exact ha2.le)]
        dsimp only
        exact ⟨_, rfl, by rw [h1, h2, add_zero], rfl, rfl⟩

theorem cgLoop_count {V : Type*} [AddCommGroup V] [Module K V] (dot : V → V → K) (A M : V → V) (bound : K) (maxiter : ℕ) :
    ∀ (fuel : ℕ) (t t' : CGState K V), cgLoop dot A M bound maxiter fuel t = some t' → t.k ≤ t'.k := by
  intro fuel
  induction fuel with
  | zero => intro t t' h; rw [cgLoop, Option.some.injEq] at h; rw [h]
  | succ fuel ih =>
    intro t t' h
    rw [cgLoop] at h
    split at h
    · cases hb : cgBody dot A M t with
      | none => rw [hb] at h; cases h
      | some t2 =>
        rw [hb] at h
        have h1 := ih t2 t' h
        have h2 : t2.k = t.k + 1 := by
          unfold cgBody at hb
          dsimp only at hb
          split at hb
          · cases hb
          · split at hb
            · cases hb
            · rw [Option.some.injEq] at hb
              rw [← hb]
        omega
    · rw [Option.some.injEq] at h; rw [h]

/-- The solver iterates if the first residual is large. -/
theorem cg_iterates {V : Type*} [AddCommGroup V] [Module K V] (dot : V → V → K) (A M : V → V) (b : V) (hA : A 0 = 0) {tol atol : K}
    (h : cgBound dot b tol atol < dot b (M b)) {maxiter : ℕ} (hm : 0 < maxiter) {x : V} {res : K} {n : ℕ}
    (hcg : cg dot A M b 0 tol atol maxiter = some (x, res, n)) : 0 < n := by
  obtain ⟨m, rfl⟩ : ∃ m, maxiter = m + 1 := ⟨maxiter - 1, by omega⟩
  have hc : cgCond (cgBound dot b tol atol) (m + 1) (cgInit dot A M b 0) := by
    unfold cgCond cgInit
    simp only [hA, sub_zero]
    exact ⟨h, by omega⟩
  unfold cg at hcg
  rw [cgLoop, if_pos hc] at hcg
  cases hb : cgBody dot A M (cgInit dot A M b 0) with
  | none => rw [hb] at hcg; cases hcg
  | some t =>
    rw [hb] at hcg
    dsimp only at hcg
    cases hl : cgLoop dot A M (cgBound dot b tol atol) (m + 1) m t with
    | none => rw [hl] at hcg; cases hcg
    | some t' =>
      rw [hl, Option.some.injEq] at hcg
      have h1 := cgLoop_count dot A M _ _ m t t' hl
      have h2 : t.k = 0 + 1 := by
        unfold cgBody at hb
        dsimp only at hb
        split at hb
        · cases hb
        · split at hb
          · cases hb
          · rw [Option.some.injEq] at hb
            rw [← hb]
            rfl
      have h3 : t'.k = n := congrArg (fun e => e.2.2) hcg
      omega

/-- A step from rest without pressure iterates if the force is large. -/
theorem oneStep_iterates (hv : sem.vspace.WF) (hp : sem.pspace.WF) {f : Vel K d} {mu dt : K} {timeOrder : ℕ} {alpha : K}
    {precond : Option ((ℕ → K) → ℕ → K)} {project : Bool} {tol atol : K} {s : StokesSEM.Step K d} (hN : 0 < sem.numV * d)
    (hg : cgBound sem.vDot f tol atol < sem.vDot f (vExchange sem.vspace.mesh f))
    (h : sem.oneStep low [] [0, 0] f mu dt timeOrder alpha none precond project tol atol = .ok s) : 0 < s.uIterations := by
  unfold StokesSEM.oneStep at h
  dsimp only at h
  cases hext : (extkCoeffs 1 : Option (Fin 2 → K)) with
  | none => rw [hext] at h; cases h
  | some e =>
    rw [hext] at h
    dsimp only at h
    have hpe : StokesSEM.extrapolate e ([0, 0] : List (ℕ → K)) = some 0 := by
      simp only [StokesSEM.extrapolate, List.reverse_cons, List.reverse_nil, List.nil_append, List.cons_append]
      congr 1
      funext j
      simp
    rw [hpe] at h
    dsimp only at h
    cases hbd : (bdfkCoeffs timeOrder : Option (Fin (timeOrder + 1) → K)) with
    | none => rw [hbd] at h; cases h
    | some b =>
      rw [hbd] at h
      dsimp only at h
      have hf : f + sem.Dt 0 - sem.B (fun p k => 1 / dt *
          StokesSEM.history (List.ofFn fun i : Fin timeOrder => b i.castSucc) [] p k) = f := by
        have h1 : sem.Dt (0 : ℕ → K) = 0 := by simpa using Dt_smul hp 0 (0 : ℕ → K)
        have h2 : (fun (p : ℕ) (k : Fin d) => 1 / dt *
          StokesSEM.history (List.ofFn fun i : Fin timeOrder => b i.castSucc) [] p k) = 0 := by
          funext p k
          simp [StokesSEM.history]
        have h3 : sem.B (0 : Vel K d) = 0 := by simpa using B_smul (sem := sem) 0 (0 : Vel K d)
        rw [h1, h2, h3, add_zero, sub_zero]
      rw [hf] at h
      split at h
      · cases h
      · split at h
        · cases h
        · rename_i u0 res1 n1 hcg
          split at h
          · cases h
          · split at h
            · cases h
            · rw [Except.ok.injEq] at h
              subst h
              have hH0 : sem.H mu dt (b (Fin.last timeOrder)) 0 = 0 := by
                simpa using H_smul hv mu dt (b (Fin.last timeOrder)) 0 (0 : Vel K d)
              exact cg_iterates _ _ _ _ hH0 hg (by omega) hcg

end Verif.NS
