import Verif.Lemmas.CubeConv
import Verif.Props.C72
import Verif.Props.C94

/-!
# C95: polynomial solutions of the Navier-Stokes equations are reproduced by the solver steps and rollouts
-/

namespace Verif.NS

open Verif.Core Verif.Spec MeasureTheory MvPolynomial

variable {n d p over : ℕ} {a b : ℝ} {per : List ℕ} {bcs : List (String × BCType)} {cs : CubeStokes d}

/-- The convection term `(u · ∇) u`. -/
noncomputable def convection (u : ℝ → Fin d → (Fin d → ℝ) → ℝ) (t : ℝ) (k : Fin d) (x : Fin d → ℝ) : ℝ :=
  ∑ i, u t i x * partialDeriv i (u t k) x

/-- The Navier-Stokes equations on the cube at time `t`: the Stokes equations with the convection term on the other side. -/
def NavierStokesAt (a b : ℝ) (per : List ℕ) (bcs : List (String × BCType)) (mu : ℝ) (u : ℝ → Fin d → (Fin d → ℝ) → ℝ)
    (q : ℝ → (Fin d → ℝ) → ℝ) (F : ℝ → Fin d → (Fin d → ℝ) → ℝ) (t : ℝ) : Prop :=
  StokesAt a b per bcs mu u q (fun t k x => F t k x - convection u t k x) t

variable {u : ℝ → Fin d → (Fin d → ℝ) → ℝ} {q : ℝ → (Fin d → ℝ) → ℝ} {F : ℝ → Fin d → (Fin d → ℝ) → ℝ}
  {mu dt alpha T : ℝ} {K : ℕ} {us : Fin (K + 1) → Vel ℝ d} {older : List (ℕ → ℝ)} {p2 p1 : ℕ → ℝ} {g : Vel ℝ d}
  {ub : Option (Vel ℝ d)} {precond : Option ((ℕ → ℝ) → ℕ → ℝ)} {project : Bool}

theorem ext_exact {m : ℕ} {e : Fin (m + 1) → ℝ} (he : extkCoeffs m = some e) (hm : 1 ≤ m) (W : ℕ → MvPolynomial (Fin d) ℝ)
    (x : Fin d → ℝ) (T dt : ℝ) :
    ∑ i : Fin (m + 1), e i * eval x (atTime m W (T - ((m + 1 : ℕ) - (i : ℕ)) * dt)) = eval x (atTime m W T) := by
  obtain ⟨c, hc, h⟩ := C36_exact (K := ℝ) m hm
  rw [he, Option.some.injEq] at hc
  subst hc
  have h1 := h (timePoly m W x) (T - (m + 1) * dt) dt (degree_timePoly m W x)
  simp only [eval_timePoly] at h1
  rw [show T - (m + 1) * dt + (m + 1) * dt = T by ring] at h1
  rw [← h1]
  refine Finset.sum_congr rfl fun i _ => ?_
  rw [show T - ((m + 1 : ℕ) - (i : ℕ)) * dt = T - (m + 1) * dt + (i : ℕ) * dt by push_cast; ring]

/-- A step with extrapolated convection from the exact values at the previous times returns the exact values at the next
one. -/
theorem C95_step (hn : 1 ≤ n) (hd : 1 ≤ d) (hp : 3 ≤ p) (hab : a < b) (hb : CubeBCs d per bcs)
    (hcs : cubeStokes n d p over a b per bcs = .ok cs) (hmu : 0 ≤ mu) (hdt : 0 < dt) (hK : 1 ≤ K)
    {e : Fin (K + 1) → ℝ} (he : extkCoeffs K = some e)
    (hu : ∀ k, PolyTimeSpace (K + 1) (p - 1) (fun t => u t k)) (hq : PolyTimeSpace 1 (p - 2) q)
    (hc : ∀ k, PolyTimeSpace K (p - 1) (fun t => convection u t k))
    (hS : NavierStokesAt a b per bcs mu u q F T) (hub : BoundaryField cs.vmesh a b per bcs (u T) ub)
    (hus : ∀ i : Fin (K + 1), ∀ j < cs.vmesh.numNodes, ∀ k,
      us i j k = u (T - ((K + 1 : ℕ) - (i : ℕ)) * dt) k (cs.vmesh.coords j))
    (hp2 : ∀ j < cs.pmesh.numNodes, p2 j = q (T - 2 * dt) (cs.pmesh.coords j))
    (hp1 : ∀ j < cs.pmesh.numNodes, p1 j = q (T - dt) (cs.pmesh.coords j))
    (hg : ∀ j < cs.vmesh.numNodes, ∀ k, g j k = F T k (cs.vmesh.coords j)) :
    ∃ st, cs.sem.oneStep cs.low (List.ofFn us) (older ++ [p2, p1])
        (fun j k => -(∑ i, e i * cs.sem.C (us i) j k) + cs.sem.B g j k) mu dt (K + 1) alpha ub precond project 0 0 = .ok st ∧
      (∀ j < cs.vmesh.numNodes, ∀ k, st.u j k = u T k (cs.vmesh.coords j)) ∧
      ∀ j < cs.pmesh.numNodes, st.p j = q T (cs.pmesh.coords j) := by
  obtain ⟨vnode, pnode, l, h⟩ := cubeStokes_of hn hd hp hab hb hcs
  have H := h.setup hn hb
  obtain ⟨_, _, hvm, hpm, hmask, _, _⟩ := H.fields
  have hnv : cs.sem.numV = cs.vmesh.numNodes := by unfold StokesSEM.numV; rw [hvm]
  have hu0 := hu
  choose W hW hWu using hu
  choose Z hZ hZc using hc
  have hu' : ∀ t k, u t k = fun x => eval x (atTime (K + 1) (W k) t) := by
    intro t k; funext x; rw [eval_atTime]; exact hWu k t x
  have hc' : ∀ t k, (∑ j, atTime (K + 1) (W j) t * pderiv j (atTime (K + 1) (W k) t)) = atTime K (Z k) t := by
    intro t k
    refine MvPolynomial.funext fun x => ?_
    rw [eval_atTime, ← hZc k t x, map_sum]
    unfold convection
    simp only [hu', partialDeriv_eval, map_mul]
  have hdegU : ∀ t k i, (atTime (K + 1) (W k) t).degreeOf i ≤ p := fun t k i =>
    le_trans (degreeOf_atTime (hW k) t i) (Nat.sub_le p 1)
  have hdegC : ∀ t k i, (∑ j, atTime (K + 1) (W j) t * pderiv j (atTime (K + 1) (W k) t)).degreeOf i ≤ p - 1 := by
    intro t k i
    rw [hc']
    exact degreeOf_atTime (hZ k) t i
  refine step_force (g := fun j k => g j k - convection u T k (cs.vmesh.coords j)) hn hd hp hab hb hcs hmu hdt
    (Nat.le_add_left 1 K) hu0 hq hS hub hus hp2 hp1 (fun j hj k => by rw [hg j hj k]) ?_ ?_
  · intro j hj
    funext k
    have h1 : ∀ i, cs.sem.C (us i) j k = 0 := fun i => by
      have hm : cs.sem.C (us i) ∈ VSpace cs.sem := masked_mem fun j hj => funext fun k => vScatter_outside _ _ j hj k
      rw [hm j hj]; rfl
    have h2 : cs.sem.B g j k = 0 := by
      have hm : cs.sem.B g ∈ VSpace cs.sem := B_mem H.massOutside
      rw [hm j hj]; rfl
    simp only [h1, h2, mul_zero, Finset.sum_const_zero, neg_zero, add_zero]
    rfl
  · intro x hx
    have hCi : ∀ i, cs.sem.vDot x (cs.sem.C (us i)) = cs.sem.vDot x (cs.sem.B (nodal cs.vmesh
        (fun k => atTime K (Z k) (T - ((K + 1 : ℕ) - (i : ℕ)) * dt)))) := by
      intro i
      have h1 : ∀ j < cs.vmesh.numNodes, us i j = nodal cs.vmesh
          (fun k => atTime (K + 1) (W k) (T - ((K + 1 : ℕ) - (i : ℕ)) * dt)) j := by
        intro j hj
        funext k
        rw [hus i j hj k, hu']
        exact (if_pos hj).symm
      rw [h.conv_congr hn hb h1 hx, h.conv_mass hn hp hb hx (hdegU _) (hdegC _)]
      simp only [hc']
    have hlin : ∀ y : Fin (K + 1) → Vel ℝ d, ∑ i, e i * cs.sem.vDot x (y i) =
        ∑ j ∈ Finset.range cs.sem.numV, ∑ k, x j k * ∑ i, e i * y i j k := fun y => by
      unfold StokesSEM.vDot
      simp only [Finset.mul_sum]
      rw [Finset.sum_comm]
      refine Finset.sum_congr rfl fun j _ => ?_
      rw [Finset.sum_comm]
      exact Finset.sum_congr rfl fun k _ => Finset.sum_congr rfl fun i _ => by ring
    have hsplit : cs.sem.vDot x (fun j k => -(∑ i, e i * cs.sem.C (us i) j k) + cs.sem.B g j k) =
        -(∑ i, e i * cs.sem.vDot x (cs.sem.C (us i))) + cs.sem.vDot x (cs.sem.B g) := by
      rw [hlin]
      unfold StokesSEM.vDot
      rw [← Finset.sum_neg_distrib, ← Finset.sum_add_distrib]
      refine Finset.sum_congr rfl fun j _ => ?_
      rw [← Finset.sum_neg_distrib, ← Finset.sum_add_distrib]
      exact Finset.sum_congr rfl fun k _ => by ring
    rw [hsplit, Finset.sum_congr rfl fun i _ => by rw [hCi i]]
    rw [hlin]
    unfold StokesSEM.vDot StokesSEM.B
    rw [← Finset.sum_neg_distrib, ← Finset.sum_add_distrib]
    refine Finset.sum_congr rfl fun j hj => ?_
    rw [Finset.mem_range, hnv] at hj
    rw [← Finset.sum_neg_distrib, ← Finset.sum_add_distrib]
    refine Finset.sum_congr rfl fun k _ => ?_
    have hx1 := ext_exact he hK (Z k) (cs.vmesh.coords j) T dt
    have hx2 : convection u T k (cs.vmesh.coords j) = eval (cs.vmesh.coords j) (atTime K (Z k) T) := by
      rw [eval_atTime]; exact hZc k T _
    have hx3 : ∀ i : Fin (K + 1), nodal cs.vmesh (fun k => atTime K (Z k) (T - ((K + 1 : ℕ) - (i : ℕ)) * dt)) j k =
        eval (cs.vmesh.coords j) (atTime K (Z k) (T - ((K + 1 : ℕ) - (i : ℕ)) * dt)) := fun i => if_pos hj
    simp only [hx3]
    rw [hx2, ← hx1]
    have : ∑ i : Fin (K + 1), e i * (cs.sem.mask j * cs.sem.massDiag j k *
        eval (cs.vmesh.coords j) (atTime K (Z k) (T - ((K + 1 : ℕ) - (i : ℕ)) * dt))) =
        cs.sem.mask j * cs.sem.massDiag j k * ∑ i : Fin (K + 1), e i *
          eval (cs.vmesh.coords j) (atTime K (Z k) (T - ((K + 1 : ℕ) - (i : ℕ)) * dt)) := by
      rw [Finset.mul_sum]
      exact Finset.sum_congr rfl fun i _ => by ring
    rw [this]
    ring

/-! ## The growing stagnation point flow -/

theorem PolyTimeSpace.mono {m m' r : ℕ} (hm : m ≤ m') {w : ℝ → (Fin d → ℝ) → ℝ} (h : PolyTimeSpace m r w) :
    PolyTimeSpace m' r w := by
  obtain ⟨W, h1, h2⟩ := h
  refine ⟨fun i => if i ≤ m then W i else 0, fun i k => ?_, fun t x => ?_⟩
  · beta_reduce
    split
    · exact h1 i k
    · rw [degreeOf_zero]; omega
  · rw [h2, ← Finset.sum_subset (Finset.range_mono (show m + 1 ≤ m' + 1 by omega)) (fun i _ hi => by
      rw [Finset.mem_range] at hi
      beta_reduce
      rw [if_neg (by omega), map_zero, mul_zero])]
    refine Finset.sum_congr rfl fun i hi => ?_
    rw [Finset.mem_range] at hi
    beta_reduce
    rw [if_pos (by omega)]

theorem stagnation_conv (t : ℝ) (k : Fin 2) (x : Fin 2 → ℝ) :
    convection (fun t k (x : Fin 2 → ℝ) => (1 + t) * eval x (stagnationU k)) t k x = (1 + t) ^ 2 * x k := by
  have hU : ∀ (t : ℝ) (k : Fin 2), (fun x : Fin 2 → ℝ => (1 + t) * eval x (stagnationU k)) =
      fun x => eval x (MvPolynomial.C (1 + t) * stagnationU k) := by
    intro t k; funext x; simp
  unfold convection
  simp only [hU, partialDeriv_eval]
  fin_cases k
  · simp [Fin.sum_univ_two, pderiv_X, stagnationU]
    ring
  · simp [Fin.sum_univ_two, pderiv_X, stagnationU]
    ring

theorem stagnation_conv_poly (k : Fin 2) : PolyTimeSpace 2 (4 - 1) (fun t (x : Fin 2 → ℝ) =>
    convection (fun t k (x : Fin 2 → ℝ) => (1 + t) * eval x (stagnationU k)) t k x) := by
  refine ⟨fun i => if i = 1 then 2 * X k else X k, fun i κ => ?_, fun t x => ?_⟩
  · have hX : (X k : MvPolynomial (Fin 2) ℝ).degreeOf κ ≤ 1 := by rw [degreeOf_X]; split <;> omega
    have h2 : (2 : MvPolynomial (Fin 2) ℝ) = MvPolynomial.C 2 := (map_ofNat MvPolynomial.C 2).symm
    beta_reduce
    split
    · rw [h2]
      refine le_trans (degreeOf_C_mul_le _ _ _) ?_
      omega
    · omega
  · beta_reduce
    rw [stagnation_conv]
    simp [Finset.sum_range_succ]
    ring

/-- A step of third order on 2 × 2 elements of order 4 reproduces the growing stagnation point flow, whose convection term
`((1 + t)² x₀, (1 + t)² x₁)` does not vanish. -/
example : ∃ (cs : CubeStokes 2) (e : Fin 3 → ℝ), cubeStokes 2 2 4 2 (-1) 1 [] [("boundary", .dirichlet)] = .ok cs ∧
    extkCoeffs 2 = some e ∧ ∀ T : ℝ, ∃ st, cs.sem.oneStep cs.low
      (List.ofFn fun (i : Fin 3) j k => (1 + (T - (3 - (i : ℕ)) * (1 / 10))) * eval (cs.vmesh.coords j) (stagnationU k))
      ([] ++ [fun _ => T - 2 * (1 / 10), fun _ => T - 1 / 10])
      (fun j k => -(∑ i : Fin 3, e i * cs.sem.C (fun j k => (1 + (T - (3 - (i : ℕ)) * (1 / 10))) *
          eval (cs.vmesh.coords j) (stagnationU k)) j k) +
        cs.sem.B (fun j k => eval (cs.vmesh.coords j) (stagnationU k) + (1 + T) ^ 2 * cs.vmesh.coords j k) j k)
      (1 / 7) (1 / 10) 3 (1 / 20) (some (nodal cs.vmesh (fun k => MvPolynomial.C (1 + T) * stagnationU k))) none false 0 0 =
        .ok st ∧
      (∀ j < cs.vmesh.numNodes, ∀ k, st.u j k = (1 + T) * eval (cs.vmesh.coords j) (stagnationU k)) ∧
      ∀ j < cs.pmesh.numNodes, st.p j = T := by
  have hb : CubeBCs 2 [] [("boundary", .dirichlet)] := Or.inl ⟨rfl, 0, by simp⟩
  obtain ⟨cs, hcs⟩ := C92_create (over := 2) (n := 2) (d := 2) (p := 4) (a := -1) (b := 1) (by norm_num) (by norm_num)
    (by norm_num) (by norm_num) [] hb
  obtain ⟨e, he, _⟩ := C36_exact (K := ℝ) 2 (by norm_num)
  have hq : PolyTimeSpace 1 (4 - 2) (fun t (_ : Fin 2 → ℝ) => t) := by
    refine ⟨fun i => if i = 1 then 1 else 0, fun i κ => ?_, fun t x => ?_⟩
    · beta_reduce
      split
      · rw [degreeOf_one]; omega
      · rw [degreeOf_zero]; omega
    · simp
  refine ⟨cs, e, hcs, he, fun T => ?_⟩
  have hub : BoundaryField cs.vmesh (-1) 1 [] [("boundary", .dirichlet)]
      (fun k x => (1 + T) * eval x (stagnationU k))
      (some (nodal cs.vmesh (fun k => MvPolynomial.C (1 + T) * stagnationU k))) := by
    refine ⟨fun i hi j hj hs => ?_, fun j hj => ?_, fun _ j hj _ k => ?_⟩
    · have hco : cs.vmesh.coords i = cs.vmesh.coords j := funext fun k => by
        rcases hs k with g | g
        · exact g
        · exact absurd g.1 (by simp)
      funext k
      unfold nodal
      rw [if_pos hi, if_pos hj, hco]
    · funext k; exact if_neg (by omega)
    · unfold nodal
      rw [if_pos hj]
      simp
  have hS : NavierStokesAt (-1) 1 [] [("boundary", .dirichlet)] (1 / 7)
      (fun t k (x : Fin 2 → ℝ) => (1 + t) * eval x (stagnationU k)) (fun t _ => t)
      (fun t k x => eval x (stagnationU k) + (1 + t) ^ 2 * x k) T := by
    unfold NavierStokesAt
    simp only [stagnation_conv, add_sub_cancel_right]
    exact stagnation_solves T
  exact C95_step (K := 2) (e := e) (T := T) (dt := 1 / 10) (alpha := 1 / 20) (precond := none)
    (project := false) (older := [])
    (us := fun (i : Fin 3) j k => (1 + (T - (3 - (i : ℕ)) * (1 / 10))) * eval (cs.vmesh.coords j) (stagnationU k))
    (ub := some (nodal cs.vmesh (fun k => MvPolynomial.C (1 + T) * stagnationU k)))
    (g := fun j k => eval (cs.vmesh.coords j) (stagnationU k) + (1 + T) ^ 2 * cs.vmesh.coords j k) (by norm_num)
    (by norm_num) (by norm_num) (by norm_num) hb hcs (by norm_num) (by norm_num) (by norm_num) he
    (fun k => (stagnation_poly k).mono (by norm_num)) hq stagnation_conv_poly hS hub
    (fun i j _ k => by push_cast; ring) (fun j _ => rfl) (fun j _ => rfl) (fun j _ k => rfl)

end Verif.NS

namespace Verif.Niles

open Verif.Core Verif.NS Verif.Spec MvPolynomial

variable {n p over : ℕ} {a b : ℝ} {per : List ℕ} {bcs : List (String × BCType)} {cs : CubeStokes 2}
  {u : ℝ → Fin 2 → (Fin 2 → ℝ) → ℝ} {q : ℝ → (Fin 2 → ℝ) → ℝ} {F : ℝ → Fin 2 → (Fin 2 → ℝ) → ℝ}
  {wave : ℝ → ℝ} {c : SolverConfig ℝ} {K : ℕ} {T t0 : ℝ} {net : Closure ℝ}

/-- The values at the nodes at a time. -/
def ExactU (cs : CubeStokes 2) (u : ℝ → Fin 2 → (Fin 2 → ℝ) → ℝ) (t : ℝ) (v : Vel ℝ 2) : Prop :=
  ∀ j < cs.vmesh.numNodes, ∀ k, v j k = u t k (cs.vmesh.coords j)

/-- The values at the pressure nodes at a time. -/
def ExactP (cs : CubeStokes 2) (q : ℝ → (Fin 2 → ℝ) → ℝ) (t : ℝ) (r : ℕ → ℝ) : Prop :=
  ∀ j < cs.pmesh.numNodes, r j = q t (cs.pmesh.coords j)

/-- `f` and the forcing of the solver together are the force. -/
def ClosesForce (cs : CubeStokes 2) (wave : ℝ → ℝ) (c : SolverConfig ℝ) (u F : ℝ → Fin 2 → (Fin 2 → ℝ) → ℝ) (T : ℝ)
    (f : Vel ℝ 2) : Prop :=
  ∀ j < cs.vmesh.numNodes, ∀ k, f j k + ((if k = 0 then wave (cs.vmesh.coords j 1) else 0) -
    c.drag * u (T - c.dt) k (cs.vmesh.coords j)) = F T k (cs.vmesh.coords j)

/-- What the theorems assume of mesh, configuration and solution. -/
structure ExactSetup (n p over : ℕ) (a b : ℝ) (per : List ℕ) (bcs : List (String × BCType)) (cs : CubeStokes 2)
    (c : SolverConfig ℝ) (K : ℕ) (u : ℝ → Fin 2 → (Fin 2 → ℝ) → ℝ) (q : ℝ → (Fin 2 → ℝ) → ℝ) : Prop where
  cells : 1 ≤ n
  order : 3 ≤ p
  interval : a < b
  boundary : CubeBCs 2 per bcs
  create : cubeStokes n 2 p over a b per bcs = .ok cs
  timeOrder : c.timeOrder = K + 1
  two : 1 ≤ K
  reynolds : 0 < c.reynolds
  dt : 0 < c.dt
  atol : c.atol = 0
  velocity : ∀ k, PolyTimeSpace (K + 1) (p - 1) (fun t => u t k)
  pressure : PolyTimeSpace 1 (p - 2) q
  convection : ∀ k, PolyTimeSpace K (p - 1) (fun t => convection u t k)

/-- `_solve_one_step` returns the exact values at the next time. -/
theorem C95_solve (E : ExactSetup n p over a b per bcs cs c K u q)
    (hS : NavierStokesAt a b per bcs (1 / c.reynolds) u q F T)
    (hub : bcs ≠ [] → ∀ j < cs.vmesh.numNodes, OnBoundary cs.vmesh a b per j → ∀ k, u T k (cs.vmesh.coords j) = 0)
    {us : List (Vel ℝ 2)} {ps : List (ℕ → ℝ)} (hul : us.length = K + 1) (hpl : ps.length = K + 1)
    (hus : ∀ i < K + 1, ExactU cs u (T - ((K + 1 : ℕ) - (i : ℕ)) * c.dt) (us.getD i 0))
    (hps : ∀ i < K + 1, ExactP cs q (T - ((K + 1 : ℕ) - (i : ℕ)) * c.dt) (ps.getD i 0))
    {f : Vel ℝ 2} (hf : ClosesForce cs wave c u F T f) :
    ∃ v r, solveStep cs.low wave c cs.sem us ps (us.map cs.sem.C) f = .ok (v, r, cs.sem.C v) ∧
      ExactU cs u T v ∧ ExactP cs q T r := by
  obtain ⟨vnode, pnode, l, h⟩ := cubeStokes_of E.cells (by norm_num) E.order E.interval E.boundary E.create
  obtain ⟨_, _, hvm, _⟩ := (h.setup E.cells E.boundary).fields
  obtain ⟨e, he, _⟩ := C36_exact (K := ℝ) K E.two
  have hofn := ofFn_window us _ hul
  have hlast : us.getLast? = some (us.getD K 0) := by
    rw [List.getLast?_eq_getElem?, hul, List.getD_eq_getElem?_getD, Nat.add_sub_cancel,
      List.getElem?_eq_getElem (by omega)]
    rfl
  have hcus : us.map cs.sem.C = List.ofFn (fun i : Fin (K + 1) => cs.sem.C (us.getD i 0)) := by
    conv_lhs => rw [hofn]
    rw [List.map_ofFn]; rfl
  obtain ⟨older, hps2⟩ : ∃ older, ps = older ++ [ps.getD (K - 1) 0, ps.getD K 0] := by
    refine ⟨ps.take (K - 1), ?_⟩
    have h2 := E.two
    apply List.ext_getElem
    · simp; omega
    · intro i h1 h3
      by_cases hi : i < K - 1
      · rw [List.getElem_append_left (by simp; omega), List.getElem_take]
      · rw [List.getElem_append_right (by simp; omega)]
        have hi2 : i = K - 1 ∨ i = K := by omega
        have hmin : min (K - 1) ps.length = K - 1 := by omega
        rcases hi2 with rfl | rfl
        · simp [hmin, List.getElem?_eq_getElem h1]
        · have : i - (i - 1) = 1 := by omega
          simp [hmin, this, List.getElem?_eq_getElem h1]
  have h2 := E.two
  obtain ⟨st, hst, g1, g2⟩ := C95_step (T := T) (alpha := c.alpha) (ub := none) (precond := none) (project := true)
    (older := older) (us := fun i : Fin (K + 1) => us.getD i 0) (p2 := ps.getD (K - 1) 0) (p1 := ps.getD K 0)
    (g := fun j k => f j k + kolmogorov wave c.drag (cs.sem.vspace.mesh.coords j) (us.getD K 0 j) k)
    E.cells (by norm_num) E.order E.interval E.boundary E.create (one_div_pos.mpr E.reynolds).le E.dt E.two he
    E.velocity E.pressure E.convection hS hub (fun i j hj k => hus i i.2 j hj k)
    (fun j hj => by
      rw [hps (K - 1) (by omega) j hj]
      congr 1
      rw [Nat.cast_sub h2]
      push_cast
      ring)
    (fun j hj => by
      rw [hps K (by omega) j hj]
      congr 1
      push_cast
      ring)
    (fun j hj k => by
      rw [← hf j hj k, hvm]
      unfold kolmogorov
      rw [hus K (by omega) j hj k]
      congr 4
      push_cast
      ring)
  refine ⟨st.u, st.p, ?_, g1, g2⟩
  unfold solveStep
  rw [E.timeOrder, Nat.add_sub_cancel, hcus, extAdvection_ofFn K e he]
  simp only [hlast]
  rw [if_neg E.reynolds.ne', E.atol]
  rw [← hps2, ← hofn] at hst
  rw [hst]

/-- The closure, evaluated at step `i` on the values at the nodes, supplies what the forcing of the solver lacks. -/
def ClosureExact (cs : CubeStokes 2) (wave : ℝ → ℝ) (c : SolverConfig ℝ) (u F : ℝ → Fin 2 → (Fin 2 → ℝ) → ℝ) (net : Closure ℝ)
    (t0 : ℝ) (i : ℕ) : Prop :=
  ∀ v, ExactU cs u (t0 + i * c.dt - c.dt) v →
    ∃ f r, closureTerm c cs.vmesh net i v = .ok (f, r) ∧ ClosesForce cs wave c u F (t0 + i * c.dt) f

theorem shift_window {α : Type*} {l : List α} {x d : α} {m : ℕ} (hl : l.length = m + 1) {P : ℕ → α → Prop}
    (h : ∀ i < m + 1, P i (l.getD i d)) (hx : P (m + 1) x) : ∀ i < m + 1, P (i + 1) ((l.drop 1 ++ [x]).getD i d) := by
  intro i hi
  by_cases h1 : i < m
  · have := h (i + 1) (by omega)
    rw [List.getD_append _ _ _ _ (by simp; omega)]
    rw [List.getD_eq_getElem?_getD, List.getElem?_drop, Nat.add_comm 1 i, ← List.getD_eq_getElem?_getD]
    exact this
  · have : i = m := by omega
    subst this
    rw [List.getD_append_right _ _ _ _ (by simp; omega)]
    simpa [hl] using hx

theorem scan_exact (E : ExactSetup n p over a b per bcs cs c K u q) (N : ℕ)
    (hS : ∀ i < N, NavierStokesAt a b per bcs (1 / c.reynolds) u q F (t0 + i * c.dt))
    (hub : bcs ≠ [] → ∀ i < N, ∀ j < cs.vmesh.numNodes, OnBoundary cs.vmesh a b per j → ∀ k,
      u (t0 + i * c.dt) k (cs.vmesh.coords j) = 0)
    (hnet : ∀ i < N, ClosureExact cs wave c u F net t0 i) :
    ∀ (m : ℕ) (s : Carry ℝ), s.i + m ≤ N → s.us.length = K + 1 → s.ps.length = K + 1 → s.cus = s.us.map cs.sem.C →
      (∀ i < K + 1, ExactU cs u (t0 + (s.i : ℝ) * c.dt - ((K + 1 : ℕ) - (i : ℕ)) * c.dt) (s.us.getD i 0)) →
      (∀ i < K + 1, ExactP cs q (t0 + (s.i : ℝ) * c.dt - ((K + 1 : ℕ) - (i : ℕ)) * c.dt) (s.ps.getD i 0)) →
      ∃ s' preds, scanBody cs.low wave c cs.sem net m s = .ok (s', preds) ∧ preds.length = m ∧
        ∀ i < m, ExactU cs u (t0 + ((s.i + i : ℕ) : ℝ) * c.dt) (preds.getD i 0) := by
  obtain ⟨vnode, pnode, l, h⟩ := cubeStokes_of E.cells (by norm_num) E.order E.interval E.boundary E.create
  obtain ⟨_, _, hvm, _⟩ := (h.setup E.cells E.boundary).fields
  intro m
  induction m with
  | zero => intro s _ _ _ _ _ _; exact ⟨s, [], rfl, rfl, by simp⟩
  | succ m ih =>
    intro s hN hu hp hcus hus hps
    have hlast : s.us.getLast? = some (s.us.getD K 0) := by
      rw [List.getLast?_eq_getElem?, hu, List.getD_eq_getElem?_getD, Nat.add_sub_cancel,
        List.getElem?_eq_getElem (by omega)]
      rfl
    have hprev : ExactU cs u (t0 + (s.i : ℝ) * c.dt - c.dt) (s.us.getD K 0) := by
      have := hus K (by omega)
      rwa [show t0 + (s.i : ℝ) * c.dt - ((K + 1 : ℕ) - (K : ℕ)) * c.dt = t0 + (s.i : ℝ) * c.dt - c.dt by
        push_cast; ring] at this
    obtain ⟨f, ⟨kl0, klp⟩, hcl, hf⟩ := hnet s.i (by omega) _ hprev
    obtain ⟨v, r, hso, hv, hr⟩ := C95_solve E (hS s.i (by omega)) (fun hb => hub hb s.i (by omega)) hu hp hus hps hf
    have hshift : ∀ i : ℕ, t0 + ((s.i + 1 : ℕ) : ℝ) * c.dt - ((K + 1 : ℕ) - (i : ℕ)) * c.dt =
        t0 + (s.i : ℝ) * c.dt - ((K + 1 : ℕ) - ((i + 1 : ℕ) : ℝ)) * c.dt := fun i => by push_cast; ring
    have hnow : t0 + (s.i : ℝ) * c.dt - ((K + 1 : ℕ) - ((K + 1 : ℕ) : ℝ)) * c.dt = t0 + (s.i : ℝ) * c.dt := by ring
    obtain ⟨s', preds, hs, hlen, hall⟩ := ih ⟨s.i + 1, s.us.drop 1 ++ [v], s.ps.drop 1 ++ [r],
      s.cus.drop 1 ++ [cs.sem.C v], kl0 + s.klQ0, klp + s.klPath⟩ (by simp only; omega) (by simp [hu]) (by simp [hp])
      (by simp [hcus])
      (fun i hi => by
        simp only
        rw [hshift i]
        exact shift_window (P := fun i v => ExactU cs u (t0 + (s.i : ℝ) * c.dt - ((K + 1 : ℕ) - (i : ℝ)) * c.dt) v)
          hu hus (by rw [hnow]; exact hv) i hi)
      (fun i hi => by
        simp only
        rw [hshift i]
        exact shift_window (P := fun i v => ExactP cs q (t0 + (s.i : ℝ) * c.dt - ((K + 1 : ℕ) - (i : ℝ)) * c.dt) v)
          hp hps (by rw [hnow]; exact hr) i hi)
    refine ⟨s', v :: preds, ?_, by simp [hlen], ?_⟩
    · rw [scanBody]
      unfold bodyFn
      rw [hlast]
      simp only [hvm, hcl, hcus, hso]
      simp only [hcus] at hs
      simp only [hs]
    · intro i hi
      cases i with
      | zero => exact hv
      | succ i =>
        have := hall i (by omega)
        rw [List.getD_cons_succ]
        rwa [show s.i + 1 + i = s.i + (i + 1) by omega] at this

/-- A rollout from a window of exact frames, with a closure that supplies the missing force, predicts the exact frames: the
loss of every step is zero. -/
theorem C95_rollout (E : ExactSetup n p over a b per bcs cs c K u q) (N : ℕ)
    (hS : ∀ i < N, NavierStokesAt a b per bcs (1 / c.reynolds) u q F (t0 + i * c.dt))
    (hub : bcs ≠ [] → ∀ i < N, ∀ j < cs.vmesh.numNodes, OnBoundary cs.vmesh a b per j → ∀ k,
      u (t0 + i * c.dt) k (cs.vmesh.coords j) = 0)
    (hnet : ∀ i < N, ClosureExact cs wave c u F net t0 i) (ex : Example ℝ)
    (hlu : K + 1 + N ≤ ex.u.length) (hlp : K + 1 ≤ ex.p.length)
    (hus : ∀ i < K + 1 + N, ExactU cs u (t0 + ((i : ℝ) - (K + 1 : ℕ)) * c.dt) (ex.u.getD i 0))
    (hps : ∀ i < K + 1, ExactP cs q (t0 + ((i : ℝ) - (K + 1 : ℕ)) * c.dt) (ex.p.getD i 0)) :
    ∃ preds targets kl0 klp, rollout cs.low wave c cs.sem net N ex = .ok (preds, targets, kl0, klp) ∧
      preds.length = N ∧ targets.length = N ∧ ∀ i < N, ExactU cs u (t0 + (i : ℝ) * c.dt) (preds.getD i 0) ∧
        frameLoss cs.sem (preds.getD i 0) (targets.getD i 0) = 0 := by
  obtain ⟨vnode, pnode, l, h⟩ := cubeStokes_of E.cells (by norm_num) E.order E.interval E.boundary E.create
  obtain ⟨_, _, hvm, _⟩ := (h.setup E.cells E.boundary).fields
  have htake : ∀ {α : Type} (l : List α) (d : α) (i : ℕ), i < K + 1 → (l.take (K + 1)).getD i d = l.getD i d := by
    intro α l d i hi
    rw [List.getD_eq_getElem?_getD, List.getElem?_take_of_lt hi, ← List.getD_eq_getElem?_getD]
  have htime : ∀ i : ℕ, t0 + ((0 : ℕ) : ℝ) * c.dt - ((K + 1 : ℕ) - (i : ℕ)) * c.dt =
      t0 + ((i : ℝ) - (K + 1 : ℕ)) * c.dt := fun i => by push_cast; ring
  obtain ⟨s, preds, hs, hlen, hall⟩ := scan_exact E N hS hub hnet N
    ⟨0, ex.u.take (K + 1), ex.p.take (K + 1), (ex.u.take (K + 1)).map cs.sem.C, 0, 0⟩ (by simp) (by simp; omega)
    (by simp; omega) rfl
    (fun i hi => by simp only; rw [htime, htake _ _ _ hi]; exact hus i (by omega))
    (fun i hi => by simp only; rw [htime, htake _ _ _ hi]; exact hps i hi)
  refine ⟨preds, (ex.u.drop (K + 1)).take N, s.klQ0, s.klPath, ?_, hlen, by simp; omega, ?_⟩
  · unfold rollout
    rw [E.timeOrder, if_neg (by omega)]
    simp only [hs]
    rw [if_neg (by omega)]
  · intro i hi
    have hi1 := hall i hi
    simp only [Nat.zero_add] at hi1
    refine ⟨hi1, ?_⟩
    have ht : ((ex.u.drop (K + 1)).take N).getD i 0 = ex.u.getD (K + 1 + i) 0 := by
      rw [List.getD_eq_getElem?_getD, List.getElem?_take_of_lt hi, List.getElem?_drop, ← List.getD_eq_getElem?_getD]
    have hi2 := hus (K + 1 + i) (by omega)
    rw [show t0 + (((K + 1 + i : ℕ) : ℝ) - (K + 1 : ℕ)) * c.dt = t0 + (i : ℝ) * c.dt by push_cast; ring] at hi2
    unfold frameLoss StokesSEM.numV
    rw [hvm, ht]
    refine Finset.sum_eq_zero fun j hj => Finset.sum_eq_zero fun k _ => ?_
    rw [Finset.mem_range] at hj
    rw [hi1 j hj k, hi2 j hj k]
    ring

/-! ## Channel flow with drag -/

/-- The velocity `(1 - x₁², 0)`. -/
noncomputable def channelFlow : Fin 2 → MvPolynomial (Fin 2) ℝ := fun k => if k = 0 then 1 - X 1 * X 1 else 0

/-- The closure that returns zero tokens. -/
def zeroNet : Closure ℝ := fun _ ts => (ts.map (fun t => t.map (fun _ => 0)), 0, 0)

theorem zeroNet_shape : KeepsShape zeroNet := by
  intro i M L ts h1 h2
  refine ⟨by simp [zeroNet, h1], fun t ht => ?_⟩
  obtain ⟨t', ht', rfl⟩ := List.mem_map.mp ht
  simp [h2 t' ht']

theorem zeroNet_closure {c : SolverConfig ℝ} {mesh : Mesh ℝ 2} (hperm : c.permuteElements = false)
    (hc : SizesMatch c mesh) (i : ℕ) (v : Vel ℝ 2) : ∃ f r, closureTerm c mesh zeroNet i v = .ok (f, r) ∧ f = 0 := by
  obtain ⟨⟨f, r⟩, hr⟩ := closureTerm_ok hc zeroNet_shape i v
  refine ⟨f, r, hr, ?_⟩
  unfold closureTerm permuteIf at hr
  simp only [hperm] at hr
  rw [if_neg (by simp)] at hr
  simp only at hr
  split at hr
  · cases hr
  · rw [if_neg (by simp)] at hr
    simp only at hr
    unfold untokens at hr
    split at hr
    · cases hr
    · rename_i fl hfl
      split at hfl
      · simp only [Except.ok.injEq] at hfl
        simp only [Except.ok.injEq, Prod.mk.injEq] at hr
        rw [← hr.1]
        have hz : fl = fun _ _ _ => 0 := by
          rw [← hfl]
          funext m n k
          have hall : ∀ x ∈ (zeroNet i (tokens mesh v)).1.getD m [], x = 0 := by
            intro x hx
            by_cases hm : m < (zeroNet i (tokens mesh v)).1.length
            · rw [List.getD_eq_getElem _ _ hm] at hx
              have := List.getElem_mem hm
              obtain ⟨t', _, ht⟩ := List.mem_map.mp this
              rw [← ht] at hx
              obtain ⟨_, _, rfl⟩ := List.mem_map.mp hx
              rfl
            · rw [List.getD_eq_default _ _ (by omega)] at hx
              cases hx
          by_cases hn : n * 2 + (k : ℕ) < ((zeroNet i (tokens mesh v)).1.getD m []).length
          · rw [List.getD_eq_getElem _ _ hn]
            exact hall _ (List.getElem_mem hn)
          · rw [List.getD_eq_default _ _ (by omega)]
        rw [hz]
        funext j k
        have := congrFun (congrFun (vScatter_smul mesh 0 (fun _ _ _ => (0 : ℝ))) j) k
        rw [zero_smul, zero_smul] at this
        exact this
      · cases hfl

/-- The hypotheses of `C95_rollout` hold, for every number of steps, for channel flow that the wave drives against
viscosity and drag. -/
example (N : ℕ) : ∃ (cs : CubeStokes 2) (c : SolverConfig ℝ) (ex : Example ℝ) (preds targets : List (Vel ℝ 2)) (kl0 klp : ℝ),
    cubeStokes 12 2 3 2 (-1) 1 [0] [("boundary", .dirichlet)] = .ok cs ∧ 0 < c.drag ∧
    rollout cs.low (fun y => 2 / c.reynolds + c.drag * (1 - y ^ 2)) c cs.sem zeroNet N ex = .ok (preds, targets, kl0, klp) ∧
    ∀ i < N, ∀ j < cs.vmesh.numNodes, preds.getD i 0 j 0 = 1 - cs.vmesh.coords j 1 ^ 2 := by
  have hb : CubeBCs 2 [0] [("boundary", .dirichlet)] := Or.inl ⟨rfl, 1, by simp⟩
  obtain ⟨cs, hcs⟩ := C92_create (over := 2) (n := 12) (d := 2) (p := 3) (a := -1) (b := 1) (by norm_num) (by norm_num)
    (by norm_num) (by norm_num) [0] hb
  let c : SolverConfig ℝ := ⟨2, 20000, 1 / 1000, 1 / 20, 1 / 25, 0, cs.vmesh.numElements, cs.vmesh.nodesPerElem * 2, false⟩
  let ex : Example ℝ := ⟨List.replicate (2 + N) (nodal cs.vmesh channelFlow), List.replicate 2 0⟩
  have hconv : ∀ (k : Fin 2) (t : ℝ) (x : Fin 2 → ℝ), convection (fun _ k x => eval x (channelFlow k)) t k x = 0 := by
    intro k t x
    unfold convection
    simp only [partialDeriv_eval]
    fin_cases k <;> simp [Fin.sum_univ_two, channelFlow, pderiv_X]
  have hX : ∀ κ : Fin 2, (X 1 : MvPolynomial (Fin 2) ℝ).degreeOf κ ≤ 1 := fun κ => by rw [degreeOf_X]; split <;> omega
  have hdeg : ∀ k κ : Fin 2, (channelFlow k).degreeOf κ ≤ 2 := by
    intro k κ
    unfold channelFlow
    split
    · refine le_trans (degreeOf_sub_le _ _ _) (max_le (by rw [degreeOf_one]; omega) (le_trans (degreeOf_mul_le _ _ _) ?_))
      have := hX κ
      omega
    · rw [degreeOf_zero]; omega
  have E : ExactSetup 12 3 2 (-1) 1 [0] [("boundary", .dirichlet)] cs c 1 (fun _ k x => eval x (channelFlow k)) (fun _ _ => 0) := by
    refine ⟨by norm_num, by norm_num, by norm_num, hb, hcs, rfl, le_rfl, by norm_num [c], by norm_num [c], rfl, ?_, ?_, ?_⟩
    · intro k
      refine ⟨fun i => if i = 0 then channelFlow k else 0, fun i κ => ?_, fun t x => ?_⟩
      · beta_reduce
        split
        · exact hdeg k κ
        · rw [degreeOf_zero]; omega
      · simp [Finset.sum_range_succ]
    · exact ⟨fun _ => 0, fun i κ => by rw [degreeOf_zero]; omega, fun t x => by simp⟩
    · intro k
      refine ⟨fun _ => 0, fun i κ => by rw [degreeOf_zero]; omega, fun t x => ?_⟩
      beta_reduce
      rw [hconv]
      simp
  have hS : ∀ T, NavierStokesAt (-1) 1 [0] [("boundary", .dirichlet)] (1 / c.reynolds) (fun _ k (x : Fin 2 → ℝ) => eval x (channelFlow k))
      (fun _ _ => 0) (fun _ k _ => if k = 0 then 2 / c.reynolds else 0) T := by
    intro T
    have hQ : (fun _ : Fin 2 → ℝ => (0 : ℝ)) = fun x => eval x 0 := by funext x; simp
    unfold NavierStokesAt
    simp only [hconv, sub_zero]
    refine ⟨fun x _ k => ?_, fun x _ => ?_, fun i hi x _ => ?_, fun h => absurd h (by simp)⟩
    · simp only [hQ, partialDeriv_eval]
      fin_cases k
      · simp [Fin.sum_univ_two, pderiv_X, channelFlow]; ring
      · simp [channelFlow]
    · simp only [partialDeriv_eval]
      simp [Fin.sum_univ_two, pderiv_X, channelFlow]
    · have hi1 : i = 0 := by
        fin_cases i
        · rfl
        · simp at hi
      subst hi1
      simp only [partialDeriv_eval]
      refine ⟨by simp, fun k => ?_⟩
      fin_cases k <;> simp [pderiv_X, channelFlow]
  have hval : ∀ j < cs.vmesh.numNodes, ∀ k, nodal cs.vmesh channelFlow j k = eval (cs.vmesh.coords j) (channelFlow k) :=
    fun j hj k => if_pos hj
  obtain ⟨preds, targets, kl0, klp, h1, _, _, h4⟩ := C95_rollout (F := fun _ k _ => if k = 0 then 2 / c.reynolds else 0)
    (wave := fun y => 2 / c.reynolds + c.drag * (1 - y ^ 2)) (net := zeroNet) (t0 := 0) E N (fun i _ => hS _)
    (fun _ i _ j _ hbd k => by
      obtain ⟨κ, hκ, hco⟩ := hbd
      have hκ1 : κ = 1 := by
        fin_cases κ
        · simp at hκ
        · rfl
      subst hκ1
      fin_cases k
      · rcases hco with hco | hco <;> simp [channelFlow, hco]
      · simp [channelFlow])
    (fun i _ v _ => by
      obtain ⟨f, r, hf, rfl⟩ := zeroNet_closure (c := c) (mesh := cs.vmesh) rfl ⟨rfl, rfl, by simp [c]⟩ i v
      refine ⟨0, r, hf, fun j hj k => ?_⟩
      fin_cases k
      · simp [channelFlow]; ring
      · simp [channelFlow])
    ex (by simp [ex]) (by simp [ex])
    (fun i hi j hj k => by
      have : ex.u.getD i 0 = nodal cs.vmesh channelFlow := by
        rw [List.getD_eq_getElem _ _ (by simp [ex]; omega)]
        simp [ex]
      rw [this]; exact hval j hj k)
    (fun i hi j hj => by
      have : ex.p.getD i 0 = 0 := by
        rcases (show i = 0 ∨ i = 1 by omega) with rfl | rfl <;> rfl
      rw [this]; rfl)
  refine ⟨cs, c, ex, preds, targets, kl0, klp, hcs, by norm_num [c], h1, fun i hi j hj => ?_⟩
  rw [(h4 i hi).1 j hj 0]
  simp [channelFlow]
  ring

end Verif.Niles
