import Verif.Lemmas.CubeExact
import Verif.Props.C93

/-!
# C94: polynomial solutions of the Stokes equations are reproduced by the steps on unit cube meshes
-/

namespace Verif.NS

open Verif.Core Verif.Spec MeasureTheory MvPolynomial

variable {n d p over : ℕ} {a b : ℝ} {per : List ℕ} {bcs : List (String × BCType)} {cs : CubeStokes d}

/-- A function of time and space that is a polynomial of degree at most `m` in time and `r` in every coordinate. -/
def PolyTimeSpace (m r : ℕ) (w : ℝ → (Fin d → ℝ) → ℝ) : Prop :=
  ∃ W : ℕ → MvPolynomial (Fin d) ℝ, (∀ i k, (W i).degreeOf k ≤ r) ∧
    ∀ t x, w t x = ∑ i ∈ Finset.range (m + 1), t ^ i * eval x (W i)

/-- The Stokes equations on the cube at time `t`: momentum and mass balance, periodicity across the periodic axes, and
without boundary conditions the natural condition on the other faces. -/
structure StokesAt (a b : ℝ) (per : List ℕ) (bcs : List (String × BCType)) (mu : ℝ) (u : ℝ → Fin d → (Fin d → ℝ) → ℝ)
    (q : ℝ → (Fin d → ℝ) → ℝ) (F : ℝ → Fin d → (Fin d → ℝ) → ℝ) (t : ℝ) : Prop where
  momentum : ∀ x ∈ cube d a b, ∀ k, deriv (fun s => u s k x) t =
    mu * ∑ i, partialDeriv i (partialDeriv i (u t k)) x - partialDeriv k (q t) x + F t k x
  mass : ∀ x ∈ cube d a b, ∑ k, partialDeriv k (u t k) x = 0
  periodic : ∀ i : Fin d, (i : ℕ) ∈ per → ∀ x ∈ cube d a b, q t (Function.update x i b) = q t (Function.update x i a) ∧
    ∀ k, u t k (Function.update x i b) = u t k (Function.update x i a) ∧
      partialDeriv i (u t k) (Function.update x i b) = partialDeriv i (u t k) (Function.update x i a)
  natural : bcs = [] → ∀ i : Fin d, (i : ℕ) ∉ per → ∀ x ∈ cube d a b, ∀ s, s = a ∨ s = b → ∀ k,
    mu * partialDeriv i (u t k) (Function.update x i s) = if i = k then q t (Function.update x i s) else 0

/-- The argument `u_boundary`: absent when the velocity is zero on the boundary, or a field that takes the boundary values. -/
def BoundaryField (mesh : Mesh ℝ d) (a b : ℝ) (per : List ℕ) (bcs : List (String × BCType)) (w : Fin d → (Fin d → ℝ) → ℝ) :
    Option (Vel ℝ d) → Prop
  | none => bcs ≠ [] → ∀ j < mesh.numNodes, OnBoundary mesh a b per j → ∀ k, w k (mesh.coords j) = 0
  | some ub => (∀ i < mesh.numNodes, ∀ j < mesh.numNodes, SamePoint mesh a b per i j → ub i = ub j) ∧
      (∀ j, mesh.numNodes ≤ j → ub j = 0) ∧
      (bcs ≠ [] → ∀ j < mesh.numNodes, OnBoundary mesh a b per j → ∀ k, ub j k = w k (mesh.coords j))

/-! ## Polynomials on the cube -/

theorem eq_of_cube (hab : a < b) {P R : MvPolynomial (Fin d) ℝ} (h : ∀ x ∈ cube d a b, eval x P = eval x R) : P = R := by
  refine funext_set (fun _ => Set.Icc a b) (fun _ => Set.Icc_infinite hab) (fun x hx => ?_)
  apply h
  exact ⟨fun i => (hx i (Set.mem_univ i)).1, fun i => (hx i (Set.mem_univ i)).2⟩

theorem partialDeriv_eval (P : MvPolynomial (Fin d) ℝ) (k : Fin d) :
    partialDeriv k (fun y => eval y P) = fun x => eval x (pderiv k P) :=
  funext fun x => (hasLineDerivAt_eval P k x).lineDeriv

/-- The polynomial at a time. -/
noncomputable def atTime (m : ℕ) (W : ℕ → MvPolynomial (Fin d) ℝ) (t : ℝ) : MvPolynomial (Fin d) ℝ :=
  ∑ i ∈ Finset.range (m + 1), C (t ^ i) * W i

theorem eval_atTime (m : ℕ) (W : ℕ → MvPolynomial (Fin d) ℝ) (t : ℝ) (x : Fin d → ℝ) :
    eval x (atTime m W t) = ∑ i ∈ Finset.range (m + 1), t ^ i * eval x (W i) := by
  unfold atTime
  simp only [map_sum, map_mul, eval_C]

theorem degreeOf_atTime {m r : ℕ} {W : ℕ → MvPolynomial (Fin d) ℝ} (hW : ∀ i k, (W i).degreeOf k ≤ r) (t : ℝ) (k : Fin d) :
    (atTime m W t).degreeOf k ≤ r :=
  le_trans (degreeOf_sum_le _ _ _) (Finset.sup_le fun i _ => le_trans (degreeOf_C_mul_le _ _ _) (hW i k))

/-- The value at a point, as a polynomial in time. -/
noncomputable def timePoly (m : ℕ) (W : ℕ → MvPolynomial (Fin d) ℝ) (x : Fin d → ℝ) : Polynomial ℝ :=
  ∑ i ∈ Finset.range (m + 1), Polynomial.C (eval x (W i)) * Polynomial.X ^ i

theorem eval_timePoly (m : ℕ) (W : ℕ → MvPolynomial (Fin d) ℝ) (x : Fin d → ℝ) (t : ℝ) :
    (timePoly m W x).eval t = eval x (atTime m W t) := by
  rw [eval_atTime]
  unfold timePoly
  rw [Polynomial.eval_finsetSum]
  refine Finset.sum_congr rfl fun i _ => ?_
  rw [Polynomial.eval_mul, Polynomial.eval_C, Polynomial.eval_pow, Polynomial.eval_X, mul_comm]

theorem degree_timePoly (m : ℕ) (W : ℕ → MvPolynomial (Fin d) ℝ) (x : Fin d → ℝ) : (timePoly m W x).degree ≤ m := by
  unfold timePoly
  refine le_trans (Polynomial.degree_sum_le _ _) (Finset.sup_le fun i hi => ?_)
  refine le_trans (Polynomial.degree_C_mul_X_pow_le _ _) ?_
  exact_mod_cast Nat.lt_succ_iff.mp (Finset.mem_range.mp hi)

theorem bdf_exact {m : ℕ} {β : Fin (m + 1) → ℝ} (hβ : bdfkCoeffs m = some β) (hm : 1 ≤ m) (W : ℕ → MvPolynomial (Fin d) ℝ)
    (x : Fin d → ℝ) (T dt : ℝ) :
    β (Fin.last m) * eval x (atTime m W T) + ∑ i : Fin m, β i.castSucc * eval x (atTime m W (T - (m - (i : ℕ)) * dt)) =
      dt * deriv (fun t => eval x (atTime m W t)) T := by
  obtain ⟨c, hc, h⟩ := C37_exact (K := ℝ) m hm
  rw [hβ, Option.some.injEq] at hc
  subst hc
  have h1 := h (timePoly m W x) (T - m * dt) dt (degree_timePoly m W x)
  rw [Fin.sum_univ_castSucc] at h1
  simp only [eval_timePoly, Fin.val_castSucc, Fin.val_last] at h1
  have h2 : deriv (fun t => eval x (atTime m W t)) T = (timePoly m W x).derivative.eval T := by
    rw [← Polynomial.deriv]
    congr 1
    funext t
    exact (eval_timePoly m W x t).symm
  rw [h2, show T = T - m * dt + m * dt by ring, ← h1, show T - m * dt + m * dt = T by ring, add_comm]
  congr 1
  refine Finset.sum_congr rfl fun i _ => ?_
  rw [show T - (m - (i : ℕ)) * dt = T - m * dt + (i : ℕ) * dt by ring]

/-- A function that takes the same values on opposite faces takes the same values at identified points. -/
theorem periodic_eq {f : (Fin d → ℝ) → ℝ}
    (hf : ∀ k : Fin d, (k : ℕ) ∈ per → ∀ x ∈ cube d a b, f (Function.update x k b) = f (Function.update x k a))
    {x y : Fin d → ℝ} (hx : x ∈ cube d a b) (hy : y ∈ cube d a b)
    (hxy : ∀ k : Fin d, x k = y k ∨ ((k : ℕ) ∈ per ∧ ((x k = a ∧ y k = b) ∨ (x k = b ∧ y k = a)))) : f x = f y := by
  classical
  have key : ∀ s : Finset (Fin d), f x = f (s.piecewise y x) := by
    intro s
    induction s using Finset.induction_on with
    | empty => rw [Finset.piecewise_empty]
    | insert k s hk ih =>
      rw [ih, Finset.piecewise_insert]
      have hz : s.piecewise y x ∈ cube d a b := by
        constructor <;> intro i <;> by_cases hi : i ∈ s <;> simp only [Finset.piecewise, hi, if_true, if_false]
        · exact hy.1 i
        · exact hx.1 i
        · exact hy.2 i
        · exact hx.2 i
      have hzk : s.piecewise y x k = x k := Finset.piecewise_eq_of_notMem s y x hk
      generalize s.piecewise y x = z at hz hzk
      have hzz : Function.update z k (x k) = z := by rw [← hzk]; exact Function.update_eq_self k z
      rcases hxy k with h1 | ⟨h1, ⟨h2, h3⟩ | ⟨h2, h3⟩⟩
      · rw [← h1, hzz]
      · rw [h3, hf k h1 z hz, ← h2, hzz]
      · rw [h3, ← hf k h1 z hz, ← h2, hzz]
  have := key Finset.univ
  rwa [Finset.piecewise_univ] at this

namespace CubeSEM

variable {vnode pnode : ℕ → ℕ → ℕ} {l : List ℝ}

theorem coords_cube (h : CubeSEM n d p a b per bcs cs vnode pnode l) (hn : 1 ≤ n) {j : ℕ} (hj : j < cs.vmesh.numNodes) :
    cs.vmesh.coords j ∈ cube d a b := by
  have hC := h.vcube.cells
  obtain ⟨e, he, i, hi, rfl⟩ := hC.onto j hj
  have hc := hC.width
  have hu := upper (a := a) (b := b) hn
  have key : ∀ k : Fin d, a ≤ cs.vmesh.coords (vnode e i) k ∧ cs.vmesh.coords (vnode e i) k ≤ b := by
    intro k
    obtain ⟨x, _, h1, h2, h3⟩ := h.axis hn he hi k
    have hE : (digit n d k e : ℝ) + 1 ≤ n := by exact_mod_cast Verif.Common.digit_lt _ _ _ _ hn
    have hE0 : (0 : ℝ) ≤ digit n d k e := Nat.cast_nonneg _
    rw [h3]
    constructor
    · have := mul_nonneg hc.le (show (0 : ℝ) ≤ 2 * digit n d k e + 1 + x by linarith)
      linarith
    · have := mul_le_mul_of_nonneg_left (show 2 * (digit n d k e : ℝ) + 1 + x ≤ 2 * n by linarith) hc.le
      linarith
  exact ⟨fun k => (key k).1, fun k => (key k).2⟩

end CubeSEM

variable {u : ℝ → Fin d → (Fin d → ℝ) → ℝ} {q : ℝ → (Fin d → ℝ) → ℝ} {F : ℝ → Fin d → (Fin d → ℝ) → ℝ}
  {mu dt alpha T : ℝ} {timeOrder : ℕ} {us : Fin timeOrder → Vel ℝ d} {older : List (ℕ → ℝ)} {p2 p1 : ℕ → ℝ} {g : Vel ℝ d}
  {ub : Option (Vel ℝ d)} {precond : Option ((ℕ → ℝ) → ℕ → ℝ)} {project : Bool}

/-- A step with a load that acts on the velocities of the space like the nodal values of the force. -/
theorem step_force (hn : 1 ≤ n) (hd : 1 ≤ d) (hp : 3 ≤ p) (hab : a < b) (hb : CubeBCs d per bcs)
    (hcs : cubeStokes n d p over a b per bcs = .ok cs) (hmu : 0 ≤ mu) (hdt : 0 < dt) (htime : 1 ≤ timeOrder)
    (hu : ∀ k, PolyTimeSpace timeOrder (p - 1) (fun t => u t k)) (hq : PolyTimeSpace 1 (p - 2) q)
    (hS : StokesAt a b per bcs mu u q F T) (hub : BoundaryField cs.vmesh a b per bcs (u T) ub)
    (hus : ∀ i : Fin timeOrder, ∀ j < cs.vmesh.numNodes, ∀ k,
      us i j k = u (T - (timeOrder - (i : ℕ)) * dt) k (cs.vmesh.coords j))
    (hp2 : ∀ j < cs.pmesh.numNodes, p2 j = q (T - 2 * dt) (cs.pmesh.coords j))
    (hp1 : ∀ j < cs.pmesh.numNodes, p1 j = q (T - dt) (cs.pmesh.coords j))
    (hg : ∀ j < cs.vmesh.numNodes, ∀ k, g j k = F T k (cs.vmesh.coords j)) {f : Vel ℝ d} (hf : f ∈ VSpace cs.sem)
    (hfg : ∀ x ∈ TSpace cs.sem, cs.sem.vDot x f = cs.sem.vDot x (cs.sem.B g)) :
    ∃ st, cs.sem.oneStep cs.low (List.ofFn us) (older ++ [p2, p1]) f mu dt timeOrder alpha ub precond project 0 0 =
        .ok st ∧ (∀ j < cs.vmesh.numNodes, ∀ k, st.u j k = u T k (cs.vmesh.coords j)) ∧
      ∀ j < cs.pmesh.numNodes, st.p j = q T (cs.pmesh.coords j) := by
  obtain ⟨vnode, pnode, l, h⟩ := cubeStokes_of hn hd hp hab hb hcs
  have H := h.setup hn hb
  have hv := H.valid
  obtain ⟨_, _, hvm, hpm, hmask, _, _⟩ := H.fields
  have hnv : cs.sem.numV = cs.vmesh.numNodes := by unfold StokesSEM.numV; rw [hvm]
  choose W hW hWu using hu
  obtain ⟨R, hR, hRq⟩ := hq
  obtain ⟨β, hβ, _⟩ := C37_exact (K := ℝ) timeOrder htime
  have hu' : ∀ t k, u t k = fun x => eval x (atTime timeOrder (W k) t) := by
    intro t k; funext x; rw [eval_atTime]; exact hWu k t x
  have hq' : ∀ t, q t = fun x => eval x (atTime 1 R t) := by
    intro t; funext x; rw [eval_atTime]; exact hRq t x
  set U : Fin d → MvPolynomial (Fin d) ℝ := fun k => atTime timeOrder (W k) T with hUdef
  set Q : MvPolynomial (Fin d) ℝ := atTime 1 R T with hQdef
  have hUdeg : ∀ k i, (U k).degreeOf i ≤ p - 1 := fun k i => degreeOf_atTime (hW k) T i
  have hQdeg : ∀ i, Q.degreeOf i ≤ p - 2 := fun i => degreeOf_atTime hR T i
  have hUu : ∀ k, u T k = fun x => eval x (U k) := hu' T
  have hQq : q T = fun x => eval x Q := hq' T
  -- the pressure is extrapolated exactly
  have hext : ∀ j < cs.pmesh.numNodes, 2 * p1 j - p2 j = eval (cs.pmesh.coords j) Q := by
    intro j hj
    rw [hp1 j hj, hp2 j hj, hRq, hRq, hQdef, eval_atTime]
    simp only [Finset.sum_range_succ, Finset.range_zero, Finset.sum_empty]
    ring
  -- the velocity, up to the boundary values, is in the space
  have hcont : ∀ k, Verif.NS.Continuous cs.vmesh (fun j => nodal cs.vmesh U j k) := by
    intro k i hi j hj hs
    have hnod : ∀ j < cs.vmesh.numNodes, nodal cs.vmesh U j k = u T k (cs.vmesh.coords j) := fun j hj => by
      rw [hUu]; exact if_pos hj
    beta_reduce
    rw [hnod i hi, hnod j hj]
    exact periodic_eq (fun κ hκ x hx => ((hS.periodic κ hκ x hx).2 k).1) (h.coords_cube hn hi) (h.coords_cube hn hj)
      ((h.same_iff hi hj).mp hs)
  have hout : ∀ j, cs.vmesh.numNodes ≤ j → nodal cs.vmesh U j = 0 := fun j hj => by
    funext k; exact if_neg (by omega)
  have hin : ∀ j < cs.vmesh.numNodes, ∀ k, nodal cs.vmesh U j k = u T k (cs.vmesh.coords j) := fun j hj k => by
    rw [hUu]; exact if_pos hj
  have hmaskD : ∀ j < cs.vmesh.numNodes, cs.sem.mask j = 0 → bcs ≠ [] ∧ OnBoundary cs.vmesh a b per j := by
    intro j hj hm
    rw [← h.dirichlet_iff hb hj]
    by_contra hD
    rw [(hmask j).2 hD] at hm
    exact one_ne_zero hm
  obtain ⟨v, hvT, hvl⟩ : ∃ v, v ∈ TSpace cs.sem ∧ lift v ub = nodal cs.vmesh U := by
    cases ub with
    | none =>
      refine ⟨nodal cs.vmesh U, ⟨fun j hj => ?_, fun k => by rw [hvm]; exact hcont k⟩, rfl⟩
      by_cases hjn : j < cs.vmesh.numNodes
      · rcases hj with hj | hj
        · omega
        · obtain ⟨g1, g2⟩ := hmaskD j hjn hj
          funext k
          rw [hin j hjn k]
          exact hub g1 j hjn g2 k
      · exact hout j (not_lt.mp hjn)
    | some w =>
      obtain ⟨w1, w2, w3⟩ := hub
      refine ⟨nodal cs.vmesh U - w, ⟨fun j hj => ?_, fun k => ?_⟩, sub_add_cancel _ _⟩
      · by_cases hjn : j < cs.vmesh.numNodes
        · rcases hj with hj | hj
          · omega
          · obtain ⟨g1, g2⟩ := hmaskD j hjn hj
            funext k
            rw [Pi.sub_apply, Pi.sub_apply, hin j hjn k, w3 g1 j hjn g2 k, sub_self]
            rfl
        · rw [Pi.sub_apply, hout j (not_lt.mp hjn), w2 j (not_lt.mp hjn), sub_self]
      · rw [hvm]
        intro i hi j hj hs
        have g1 := hcont k i hi j hj hs
        have g2 := w1 i hi j hj ((h.same_iff hi hj).mp hs)
        beta_reduce at g1 ⊢
        rw [Pi.sub_apply, Pi.sub_apply, Pi.sub_apply, Pi.sub_apply, g1, g2]
  -- the fluxes
  have hflux : ∀ i k x, eval x (C mu * pderiv i (U k) - if i = k then Q else 0) =
      mu * partialDeriv i (u T k) x - if i = k then q T x else 0 := by
    intro i k x
    rw [hUu, partialDeriv_eval, hQq, map_sub, (eval x).map_mul, eval_C]
    split <;> simp
  have hperf : ∀ i : Fin d, (i : ℕ) ∈ per → ∀ k, faceSub i b (C mu * pderiv i (U k) - if i = k then Q else 0) =
      faceSub i a (C mu * pderiv i (U k) - if i = k then Q else 0) := by
    intro i hi k
    refine eq_of_cube hab fun x hx => ?_
    obtain ⟨g1, g2⟩ := hS.periodic i hi x hx
    rw [eval_faceSub, eval_faceSub, hflux, hflux, (g2 k).2, g1]
  have hnatf : bcs = [] → ∀ i : Fin d, (i : ℕ) ∉ per → ∀ k,
      faceSub i b (C mu * pderiv i (U k) - if i = k then Q else 0) = 0 ∧
        faceSub i a (C mu * pderiv i (U k) - if i = k then Q else 0) = 0 := by
    intro hbc i hi k
    constructor <;> refine eq_of_cube hab fun x hx => ?_
    · rw [eval_faceSub, hflux, hS.natural hbc i hi x hx b (Or.inr rfl) k, sub_self, map_zero]
    · rw [eval_faceSub, hflux, hS.natural hbc i hi x hx a (Or.inl rfl) k, sub_self, map_zero]
  have hdiv0 : ∑ k, pderiv k (U k) = 0 := by
    refine eq_of_cube hab fun x hx => ?_
    have := hS.mass x hx
    simp only [hUu, partialDeriv_eval] at this
    rw [map_sum, map_zero]
    exact this
  -- the balance at the nodes
  have hbal : ∀ j < cs.vmesh.numNodes, ∀ k, g j k - (1 / dt) * StokesSEM.history
      (List.ofFn (fun i : Fin timeOrder => β i.castSucc)) (List.ofFn us) j k -
        β (Fin.last timeOrder) / dt * nodal cs.vmesh U j k =
      nodal cs.vmesh (fun k => pderiv k Q - C mu * ∑ i, pderiv i (pderiv i (U k))) j k := by
    intro j hj k
    have hx := h.coords_cube hn hj
    have h1 := hS.momentum _ hx k
    have h2 := bdf_exact hβ htime (W k) (cs.vmesh.coords j) T dt
    have h3 : nodal cs.vmesh (fun k => pderiv k Q - C mu * ∑ i, pderiv i (pderiv i (U k))) j k =
        eval (cs.vmesh.coords j) (pderiv k Q - C mu * ∑ i, pderiv i (pderiv i (U k))) := if_pos hj
    have h4 : ∀ i : Fin timeOrder, β i.castSucc * us i j k =
        β i.castSucc * eval (cs.vmesh.coords j) (atTime timeOrder (W k) (T - (timeOrder - (i : ℕ)) * dt)) := by
      intro i
      rw [hus i j hj k, hu']
    have h5 : (fun s => u s k (cs.vmesh.coords j)) = fun s => eval (cs.vmesh.coords j) (atTime timeOrder (W k) s) := by
      funext s
      rw [hu']
    rw [h5] at h1
    simp only [hUu, hQq, partialDeriv_eval] at h1
    rw [C43_history, Finset.sum_congr rfl fun i _ => h4 i, h3, hg j hj k, hin j hj k, hUu, map_sub, (eval _).map_mul, eval_C,
      map_sum]
    rw [h1] at h2
    have h6 : β (Fin.last timeOrder) * eval (cs.vmesh.coords j) (U k) = β (Fin.last timeOrder) *
      eval (cs.vmesh.coords j) (atTime timeOrder (W k) T) := rfl
    generalize ∑ i : Fin timeOrder, β i.castSucc * eval (cs.vmesh.coords j)
      (atTime timeOrder (W k) (T - (timeOrder - (i : ℕ)) * dt)) = S at h2 ⊢
    rw [← h6] at h2
    field_simp
    linear_combination -h2
  have hvol : nodeDot cs.sem.numP (fun _ => 1) (cs.sem.pressureB (fun _ => 1)) ≠ 0 := by
    have HP := h.pressureSetup hn
    rw [mean_eq HP]
    have : integrate cs.sem.pspace (scalarFn cs.sem.pspace (cs.pmesh.gather (fun _ => (1 : ℝ)))) =
        integrate cs.sem.pspace (fun _ _ => 1) := by
      apply integrate_congr
      intro m hm q hq
      exact gather_one HP 1 m (by rw [← HP.mesh_eq]; exact hm) q hq
    rw [this]
    exact HP.volume
  have hmom : ∀ x ∈ TSpace cs.sem, cs.sem.vDot x (cs.sem.H mu dt (β (Fin.last timeOrder)) (lift v ub)) =
      cs.sem.vDot x (f + cs.sem.Dt (fun j => 2 * p1 j - p2 j) - cs.sem.B (fun p k => (1 / dt) *
        StokesSEM.history (List.ofFn (fun i : Fin timeOrder => β i.castSucc)) (List.ofFn us) p k)) := by
    intro x hx
    have hw := h.weak hn hp hb hx hUdeg hQdeg hext hperf hnatf
    rw [hvl]
    have hB : cs.sem.vDot x (cs.sem.B (nodal cs.vmesh (fun k => pderiv k Q - C mu * ∑ i, pderiv i (pderiv i (U k))))) =
        cs.sem.vDot x (cs.sem.B g) - cs.sem.vDot x (cs.sem.B (fun p k => (1 / dt) *
        StokesSEM.history (List.ofFn (fun i : Fin timeOrder => β i.castSucc)) (List.ofFn us) p k)) -
        β (Fin.last timeOrder) / dt * cs.sem.vDot x (cs.sem.B (nodal cs.vmesh U)) := by
      unfold StokesSEM.vDot StokesSEM.B
      rw [Finset.mul_sum, ← Finset.sum_sub_distrib, ← Finset.sum_sub_distrib]
      refine Finset.sum_congr rfl fun j hj => ?_
      rw [Finset.mem_range, hnv] at hj
      rw [Finset.mul_sum, ← Finset.sum_sub_distrib, ← Finset.sum_sub_distrib]
      refine Finset.sum_congr rfl fun k _ => ?_
      rw [← hbal j hj k]
      ring
    have hH : cs.sem.vDot x (cs.sem.H mu dt (β (Fin.last timeOrder)) (nodal cs.vmesh U)) =
        β (Fin.last timeOrder) / dt * cs.sem.vDot x (cs.sem.B (nodal cs.vmesh U)) +
          mu * cs.sem.vDot x (cs.sem.A (nodal cs.vmesh U)) := by
      unfold StokesSEM.vDot StokesSEM.H
      rw [Finset.mul_sum, Finset.mul_sum, ← Finset.sum_add_distrib]
      refine Finset.sum_congr rfl fun j _ => ?_
      rw [Finset.mul_sum, Finset.mul_sum, ← Finset.sum_add_distrib]
      exact Finset.sum_congr rfl fun k _ => by ring
    rw [vDot_sub, vDot_add, hH, hfg x hx]
    linarith
  obtain ⟨st, h1, h2, h3⟩ := step_exact (low := cs.low) (alpha := alpha) (precond := precond) (project := project)
    (older := older) H hf hmu hdt hβ hvT hmom (by rw [hvl]; exact h.filter_fixed hn hp hb alpha hUdeg)
    (by rw [hvl]; exact h.div_zero hn hp hb (fun k i => le_trans (hUdeg k i) (Nat.sub_le p 1)) hdiv0) hvol
  refine ⟨st, h1, fun j hj k => ?_, fun j hj => ?_⟩
  · rw [h2, hvl, hin j hj k]
  · rw [h3, hQq]
    exact hext j hj

/-- A step from the exact values at the previous times returns the exact values at the next one. -/
theorem C94_step (hn : 1 ≤ n) (hd : 1 ≤ d) (hp : 3 ≤ p) (hab : a < b) (hb : CubeBCs d per bcs)
    (hcs : cubeStokes n d p over a b per bcs = .ok cs) (hmu : 0 ≤ mu) (hdt : 0 < dt) (htime : 1 ≤ timeOrder)
    (hu : ∀ k, PolyTimeSpace timeOrder (p - 1) (fun t => u t k)) (hq : PolyTimeSpace 1 (p - 2) q)
    (hS : StokesAt a b per bcs mu u q F T) (hub : BoundaryField cs.vmesh a b per bcs (u T) ub)
    (hus : ∀ i : Fin timeOrder, ∀ j < cs.vmesh.numNodes, ∀ k,
      us i j k = u (T - (timeOrder - (i : ℕ)) * dt) k (cs.vmesh.coords j))
    (hp2 : ∀ j < cs.pmesh.numNodes, p2 j = q (T - 2 * dt) (cs.pmesh.coords j))
    (hp1 : ∀ j < cs.pmesh.numNodes, p1 j = q (T - dt) (cs.pmesh.coords j))
    (hg : ∀ j < cs.vmesh.numNodes, ∀ k, g j k = F T k (cs.vmesh.coords j)) :
    ∃ st, cs.sem.oneStep cs.low (List.ofFn us) (older ++ [p2, p1]) (cs.sem.B g) mu dt timeOrder alpha ub precond project 0 0 =
        .ok st ∧ (∀ j < cs.vmesh.numNodes, ∀ k, st.u j k = u T k (cs.vmesh.coords j)) ∧
      ∀ j < cs.pmesh.numNodes, st.p j = q T (cs.pmesh.coords j) := by
  obtain ⟨vnode, pnode, l, h⟩ := cubeStokes_of hn hd hp hab hb hcs
  exact step_force hn hd hp hab hb hcs hmu hdt htime hu hq hS hub hus hp2 hp1 hg (B_mem (h.setup hn hb).massOutside)
    (fun _ _ => rfl)

/-- A run that starts with exact values stays exact, for any number of steps. -/
theorem C94_run (hn : 1 ≤ n) (hd : 1 ≤ d) (hp : 3 ≤ p) (hab : a < b) (hb : CubeBCs d per bcs)
    (hcs : cubeStokes n d p over a b per bcs = .ok cs) (hmu : 0 ≤ mu) (hdt : 0 < dt) (htime : 1 ≤ timeOrder)
    (hu : ∀ k, PolyTimeSpace timeOrder (p - 1) (fun t => u t k)) (hq : PolyTimeSpace 1 (p - 2) q) {t0 : ℝ} {m : ℕ}
    (hm : timeOrder ≤ m) (hm2 : 2 ≤ m) (hS : ∀ s, m ≤ s → StokesAt a b per bcs mu u q F (t0 + s * dt))
    {ubs : ℕ → Option (Vel ℝ d)} (hub : ∀ s, m ≤ s → BoundaryField cs.vmesh a b per bcs (u (t0 + s * dt)) (ubs s))
    {gs : ℕ → Vel ℝ d} (hg : ∀ s, m ≤ s → ∀ j < cs.vmesh.numNodes, ∀ k, gs s j k = F (t0 + s * dt) k (cs.vmesh.coords j))
    {useq : ℕ → Vel ℝ d} {pseq : ℕ → ℕ → ℝ}
    (hu0 : ∀ s < m, ∀ j < cs.vmesh.numNodes, ∀ k, useq s j k = u (t0 + s * dt) k (cs.vmesh.coords j))
    (hp0 : ∀ s < m, ∀ j < cs.pmesh.numNodes, pseq s j = q (t0 + s * dt) (cs.pmesh.coords j))
    (hrun : ∀ s, m ≤ s → ∃ older st, cs.sem.oneStep cs.low (List.ofFn fun i : Fin timeOrder => useq (s - timeOrder + i))
      (older ++ [pseq (s - 2), pseq (s - 1)]) (cs.sem.B (gs s)) mu dt timeOrder alpha (ubs s) precond project 0 0 = .ok st ∧
      (∀ j < cs.vmesh.numNodes, useq s j = st.u j) ∧ ∀ j < cs.pmesh.numNodes, pseq s j = st.p j) (s : ℕ) :
    (∀ j < cs.vmesh.numNodes, ∀ k, useq s j k = u (t0 + s * dt) k (cs.vmesh.coords j)) ∧
      ∀ j < cs.pmesh.numNodes, pseq s j = q (t0 + s * dt) (cs.pmesh.coords j) := by
  induction s using Nat.strong_induction_on with
  | _ s ih =>
    by_cases hs : s < m
    · exact ⟨hu0 s hs, hp0 s hs⟩
    have hs' : m ≤ s := not_lt.mp hs
    obtain ⟨older, st, hst, h1, h2⟩ := hrun s hs'
    have hcast : ∀ i ≤ s, ((s - i : ℕ) : ℝ) = s - i := fun i hi => Nat.cast_sub hi
    obtain ⟨st', hst', h3, h4⟩ := C94_step (T := t0 + s * dt) (alpha := alpha) (precond := precond) (project := project)
      (older := older) (us := fun i : Fin timeOrder => useq (s - timeOrder + i)) (p2 := pseq (s - 2)) (p1 := pseq (s - 1))
      (g := gs s) hn hd hp hab hb hcs hmu hdt htime hu hq (hS s hs') (hub s hs')
      (fun i j hj k => by
        beta_reduce
        rw [(ih (s - timeOrder + i) (by omega)).1 j hj k]
        congr 1
        rw [Nat.cast_add, hcast _ (by omega)]
        ring)
      (fun j hj => by
        rw [(ih (s - 2) (by omega)).2 j hj]
        congr 1
        rw [hcast _ (by omega)]
        push_cast
        ring)
      (fun j hj => by
        rw [(ih (s - 1) (by omega)).2 j hj]
        congr 1
        rw [hcast _ (by omega)]
        push_cast
        ring) (hg s hs')
    rw [hst, Except.ok.injEq] at hst'
    subst hst'
    exact ⟨fun j hj k => by rw [h1 j hj]; exact h3 j hj k, fun j hj => by rw [h2 j hj]; exact h4 j hj⟩

/-- Flow in a channel that accelerates, with a pressure that grows across it: the velocity `(0, (1 + t) (1 - x₀²))`. -/
noncomputable def channelU : ℕ → Fin 2 → MvPolynomial (Fin 2) ℝ := fun i k => if k = 1 ∧ i ≤ 1 then 1 - X 0 * X 0 else 0

/-- The pressure `t x₀`. -/
noncomputable def channelQ : ℕ → MvPolynomial (Fin 2) ℝ := fun i => if i = 1 then X 0 else 0

theorem channelU_eval (t : ℝ) (k : Fin 2) (x : Fin 2 → ℝ) : ∑ i ∈ Finset.range (1 + 1), t ^ i * eval x (channelU i k) =
    if k = 1 then (1 + t) * (1 - x 0 * x 0) else 0 := by
  by_cases hk : k = 1
  · simp [Finset.sum_range_succ, channelU, hk]; ring
  · simp [channelU, hk]

example : ∃ cs : CubeStokes 2, cubeStokes 4 2 3 1 (-1) 1 [1] [("boundary", .dirichlet)] = .ok cs ∧
    ∃ st, cs.sem.oneStep cs.low (List.ofFn fun (_ : Fin 1) j k => if k = 1 then (1 + 2) * (1 - cs.vmesh.coords j 0 ^ 2) else 0)
      ([] ++ [fun j => 1 * cs.pmesh.coords j 0, fun j => 2 * cs.pmesh.coords j 0])
      (cs.sem.B (fun j k => if k = 1 then (1 - cs.vmesh.coords j 0 ^ 2) + 5 * 2 * (1 + 3) else 3)) 5 1 1 (1 / 20) none none true
      0 0 = .ok st ∧ (∀ j < cs.vmesh.numNodes, st.u j 1 = (1 + 3) * (1 - cs.vmesh.coords j 0 ^ 2)) ∧
      ∀ j < cs.pmesh.numNodes, st.p j = 3 * cs.pmesh.coords j 0 := by
  have hb : CubeBCs 2 [1] [("boundary", .dirichlet)] := Or.inl ⟨rfl, 0, by simp⟩
  obtain ⟨cs, hcs⟩ := C92_create (over := 1) (n := 4) (d := 2) (p := 3) (a := -1) (b := 1) (by norm_num) (by norm_num)
    (by norm_num) (by norm_num) [1] hb
  have hX : ∀ κ : Fin 2, (X 0 : MvPolynomial (Fin 2) ℝ).degreeOf κ ≤ 1 := fun κ => by rw [degreeOf_X]; split <;> omega
  have hu : ∀ k, PolyTimeSpace 1 (3 - 1) (fun t (x : Fin 2 → ℝ) => if k = (1 : Fin 2) then (1 + t) * (1 - x 0 * x 0) else 0) := by
    refine fun k => ⟨fun i => channelU i k, fun i κ => ?_, fun t x => (channelU_eval t k x).symm⟩
    unfold channelU
    beta_reduce
    split
    · refine le_trans (degreeOf_sub_le _ _ _) (max_le (by rw [degreeOf_one]; omega) (le_trans (degreeOf_mul_le _ _ _) ?_))
      have := hX κ
      omega
    · rw [degreeOf_zero]; omega
  have hq : PolyTimeSpace 1 (3 - 2) (fun t (x : Fin 2 → ℝ) => t * x 0) := by
    refine ⟨channelQ, fun i κ => ?_, fun t x => ?_⟩
    · unfold channelQ
      split
      · exact hX κ
      · rw [degreeOf_zero]; omega
    · simp [Finset.sum_range_succ, channelQ]
  have hU : ∀ (t : ℝ) (k : Fin 2), (fun x : Fin 2 → ℝ => if k = 1 then (1 + t) * (1 - x 0 * x 0) else 0) =
      fun x => eval x (if k = 1 then C (1 + t) * (1 - X 0 * X 0) else 0) := by
    intro t k
    funext x
    split <;> simp
  have hQ : ∀ t : ℝ, (fun x : Fin 2 → ℝ => t * x 0) = fun x => eval x (C t * X 0) := by
    intro t; funext x; simp
  have hS : StokesAt (-1) 1 [1] [("boundary", .dirichlet)] 5
      (fun t k (x : Fin 2 → ℝ) => if k = (1 : Fin 2) then (1 + t) * (1 - x 0 * x 0) else 0) (fun t x => t * x 0)
      (fun t k x => if k = 1 then (1 - x 0 ^ 2) + 5 * 2 * (1 + t) else t) 3 := by
    refine ⟨fun x _ k => ?_, fun x _ => ?_, fun i hi x _ => ?_, fun h => absurd h (by simp)⟩
    · beta_reduce
      simp only [hU, hQ, partialDeriv_eval]
      fin_cases k
      · simp [Fin.sum_univ_two, pderiv_X]
      · simp [Fin.sum_univ_two, pderiv_X]
        ring
    · simp only [hU, partialDeriv_eval]
      simp [Fin.sum_univ_two, pderiv_X]
    · have hi1 : i = 1 := by
        fin_cases i
        · simp at hi
        · rfl
      subst hi1
      beta_reduce
      simp only [hU, partialDeriv_eval]
      refine ⟨by simp, fun k => ?_⟩
      fin_cases k <;> simp [pderiv_X]
  obtain ⟨st, h1, h2, h3⟩ := C94_step (T := 3) (dt := 1) (alpha := 1 / 20) (precond := none) (project := true) (older := [])
    (us := fun (_ : Fin 1) j k => if k = 1 then (1 + 2) * (1 - cs.vmesh.coords j 0 ^ 2) else 0)
    (p2 := fun j => 1 * cs.pmesh.coords j 0) (p1 := fun j => 2 * cs.pmesh.coords j 0) (ub := none)
    (g := fun j k => if k = 1 then (1 - cs.vmesh.coords j 0 ^ 2) + 5 * 2 * (1 + 3) else 3) (by norm_num) (by norm_num) le_rfl
    (by norm_num) hb hcs (by norm_num) (by norm_num) le_rfl hu hq hS
    (fun _ j _ hbd k => by
      obtain ⟨κ, hκ, hco⟩ := hbd
      have hκ0 : κ = 0 := by
        fin_cases κ
        · rfl
        · simp at hκ
      subst hκ0
      beta_reduce
      rcases hco with hco | hco <;> rw [hco] <;> simp)
    (fun i j _ k => by
      fin_cases i
      norm_num
      split
      · ring
      · rfl)
    (fun j _ => by norm_num) (fun j _ => by norm_num) (fun j _ k => rfl)
  refine ⟨cs, hcs, st, h1, fun j hj => ?_, fun j hj => ?_⟩
  · rw [h2 j hj 1, if_pos rfl]; ring
  · rw [h3 j hj]

/-- A stagnation point flow that grows, with the velocity on the whole boundary prescribed: the velocity
`((1 + t) x₀, - (1 + t) x₁)`, the pressure `t`. -/
noncomputable def stagnationU : Fin 2 → MvPolynomial (Fin 2) ℝ := fun k => if k = 0 then X 0 else - X 1

theorem stagnation_poly (k : Fin 2) : PolyTimeSpace 2 (4 - 1) (fun t (x : Fin 2 → ℝ) => (1 + t) * eval x (stagnationU k)) := by
  refine ⟨fun i => if i ≤ 1 then stagnationU k else 0, fun i κ => ?_, fun t x => ?_⟩
  · beta_reduce
    split
    · unfold stagnationU
      split
      · rw [degreeOf_X]; split <;> omega
      · rw [degreeOf_neg, degreeOf_X]; split <;> omega
    · rw [degreeOf_zero]; omega
  · simp [Finset.sum_range_succ]; ring

theorem stagnation_solves (T : ℝ) : StokesAt (-1) 1 [] [("boundary", .dirichlet)] (1 / 7)
    (fun t k (x : Fin 2 → ℝ) => (1 + t) * eval x (stagnationU k)) (fun t _ => t) (fun _ k x => eval x (stagnationU k)) T := by
  have hU : ∀ (t : ℝ) (k : Fin 2), (fun x : Fin 2 → ℝ => (1 + t) * eval x (stagnationU k)) =
      fun x => eval x (C (1 + t) * stagnationU k) := by
    intro t k; funext x; simp
  have hQ : ∀ t : ℝ, (fun _ : Fin 2 → ℝ => t) = fun x => eval x (C t) := by
    intro t; funext x; simp
  refine ⟨fun x _ k => ?_, fun x _ => ?_, fun i hi => absurd hi (by simp), fun h => absurd h (by simp)⟩
  · simp only [hU, hQ, partialDeriv_eval]
    fin_cases k <;> simp [Fin.sum_univ_two, pderiv_X, stagnationU]
  · simp only [hU, partialDeriv_eval]
    simp [Fin.sum_univ_two, pderiv_X, stagnationU]

/-- The hypotheses of `C94_step` and `C94_run` hold for the stagnation point flow. -/
example : ∃ cs : CubeStokes 2, cubeStokes 3 2 4 2 (-1) 1 [] [("boundary", .dirichlet)] = .ok cs ∧
    ∀ s, 2 ≤ s → ∃ older st, cs.sem.oneStep cs.low
      (List.ofFn fun (i : Fin 2) j k => (1 + ((s - 2 + i : ℕ) : ℝ) * (1 / 10)) * eval (cs.vmesh.coords j) (stagnationU k))
      (older ++ [fun _ => ((s - 2 : ℕ) : ℝ) * (1 / 10), fun _ => ((s - 1 : ℕ) : ℝ) * (1 / 10)])
      (cs.sem.B (fun j k => eval (cs.vmesh.coords j) (stagnationU k))) (1 / 7) (1 / 10) 2 (1 / 20)
      (some (nodal cs.vmesh (fun k => C (1 + (s : ℝ) * (1 / 10)) * stagnationU k))) none false 0 0 = .ok st ∧
      (∀ j < cs.vmesh.numNodes, (fun k => (1 + (s : ℝ) * (1 / 10)) * eval (cs.vmesh.coords j) (stagnationU k)) = st.u j) ∧
      ∀ j < cs.pmesh.numNodes, (s : ℝ) * (1 / 10) = st.p j := by
  have hb : CubeBCs 2 [] [("boundary", .dirichlet)] := Or.inl ⟨rfl, 0, by simp⟩
  obtain ⟨cs, hcs⟩ := C92_create (over := 2) (n := 3) (d := 2) (p := 4) (a := -1) (b := 1) (by norm_num) (by norm_num)
    (by norm_num) (by norm_num) [] hb
  have hq : PolyTimeSpace 1 (4 - 2) (fun t (_ : Fin 2 → ℝ) => t) := by
    refine ⟨fun i => if i = 1 then 1 else 0, fun i κ => ?_, fun t x => ?_⟩
    · beta_reduce
      split
      · rw [degreeOf_one]; omega
      · rw [degreeOf_zero]; omega
    · simp [Finset.sum_range_succ]
  refine ⟨cs, hcs, fun s hs => ⟨[], ?_⟩⟩
  have hcast : ∀ i ≤ s, ((s - i : ℕ) : ℝ) = s - i := fun i hi => Nat.cast_sub hi
  have hub : BoundaryField cs.vmesh (-1) 1 [] [("boundary", .dirichlet)]
      (fun k x => (1 + (s : ℝ) * (1 / 10)) * eval x (stagnationU k))
      (some (nodal cs.vmesh (fun k => C (1 + (s : ℝ) * (1 / 10)) * stagnationU k))) := by
    refine ⟨fun i hi j hj hs => ?_, fun j hj => ?_, fun _ j hj _ k => ?_⟩
    · have hco : cs.vmesh.coords i = cs.vmesh.coords j := funext fun k => by
        rcases hs k with g | g
        · exact g
        · exact absurd g.1 (by simp)
      funext k
      unfold nodal
      rw [if_pos hi, if_pos hj, hco]
    · funext k; exact if_neg (by omega)
    · unfold nodal
      rw [if_pos hj]
      simp
  obtain ⟨st, h1, h2, h3⟩ := C94_step (T := (s : ℝ) * (1 / 10)) (dt := 1 / 10) (alpha := 1 / 20) (precond := none)
    (project := false) (older := [])
    (us := fun (i : Fin 2) j k => (1 + ((s - 2 + i : ℕ) : ℝ) * (1 / 10)) * eval (cs.vmesh.coords j) (stagnationU k))
    (p2 := fun _ => ((s - 2 : ℕ) : ℝ) * (1 / 10)) (p1 := fun _ => ((s - 1 : ℕ) : ℝ) * (1 / 10))
    (ub := some (nodal cs.vmesh (fun k => C (1 + (s : ℝ) * (1 / 10)) * stagnationU k)))
    (g := fun j k => eval (cs.vmesh.coords j) (stagnationU k)) (by norm_num) (by norm_num) (by norm_num)
    (by norm_num) hb hcs (by norm_num) (by norm_num) (by norm_num) stagnation_poly hq (stagnation_solves _)
    hub
    (fun i j _ k => by
      beta_reduce
      rw [Nat.cast_add, hcast _ hs]
      push_cast
      ring)
    (fun j _ => by
      beta_reduce
      rw [hcast _ hs]; push_cast; ring)
    (fun j _ => by
      beta_reduce
      rw [hcast _ (by omega)]; push_cast; ring) (fun j _ k => rfl)
  exact ⟨st, h1, fun j hj => funext fun k => (h2 j hj k).symm, fun j hj => (h3 j hj).symm⟩

end Verif.NS
