import Verif.Lemmas.CubeKernel
import Verif.Props.C92

/-!
# C93: on a unit cube mesh the pressure is determined up to one constant

There are no spurious pressures (checkerboards): only the constants are orthogonal to the divergence of every velocity, and
with an open boundary not even these.
-/

namespace Verif.NS

open Verif.Core Verif.Spec MeasureTheory MvPolynomial

variable {n d p over : ℕ} {a b : ℝ} {per : List ℕ} {bcs : List (String × BCType)} {cs : CubeStokes d}

/-- `u` is a velocity of the space: single valued, and zero on the boundary when a boundary condition is given. -/
structure Admissible (mesh : Mesh ℝ d) (a b : ℝ) (per : List ℕ) (bcs : List (String × BCType)) (u : Vel ℝ d) : Prop where
  single : ∀ i < mesh.numNodes, ∀ j < mesh.numNodes, SamePoint mesh a b per i j → u i = u j
  boundary : bcs ≠ [] → ∀ j < mesh.numNodes, OnBoundary mesh a b per j → u j = 0

namespace CubeSEM

variable {vnode pnode : ℕ → ℕ → ℕ} {l : List ℝ}

theorem admissible (h : CubeSEM n d p a b per bcs cs vnode pnode l) (hn : 1 ≤ n) (hb : CubeBCs d per bcs) {u : Vel ℝ d}
    (hu : u ∈ TSpace cs.sem) : Admissible cs.vmesh a b per bcs u := by
  have H := h.setup hn hb
  obtain ⟨_, _, hvm, _, hmask, _, _⟩ := H.fields
  refine ⟨fun i hi j hj hs => ?_, fun hne j hj hbd => ?_⟩
  · funext k
    have := hu.2 k i (by rw [hvm]; exact hi) j (by rw [hvm]; exact hj)
    exact this (by rw [hvm]; exact (h.same_iff hi hj).mpr hs)
  · exact hu.1 j (Or.inr ((hmask j).1 ((h.dirichlet_iff hb hj).mpr ⟨hne, hbd⟩)))

/-- The element polynomials of a piecewise polynomial. -/
theorem pieces (h : CubeSEM n d p a b per bcs cs vnode pnode l) {m : ℕ} {qh : (Fin d → ℝ) → ℝ}
    (hq : PiecewisePolynomial cs.vmesh m qh) : ∃ Q : ℕ → MvPolynomial (Fin d) ℝ, ∀ e < n ^ d, (∀ k, (Q e).degreeOf k ≤ m) ∧
      ∀ x ∈ openCell n d a ((b - a) / (2 * n)) e, qh x = eval x (Q e) := by
  have hC := h.vcube.cells
  have hq1 : ∀ e, ∃ P : MvPolynomial (Fin d) ℝ, e < n ^ d → (∀ k, P.degreeOf k ≤ m) ∧
      ∀ x ∈ openCell n d a ((b - a) / (2 * n)) e, qh x = eval x P := by
    intro e
    by_cases he : e < n ^ d
    · obtain ⟨P, h1, h2⟩ := hq e (by rw [hC.num]; exact he)
      refine ⟨P, fun _ => ⟨h1, fun x hx => h2 x ?_⟩⟩
      rw [hC.box he]
      exact interior_maximal openCell_sub openCell_open hx
    · exact ⟨0, fun h => absurd h he⟩
  choose Q hQ using hq1
  exact ⟨Q, hQ⟩

theorem interior_cell {e : ℕ} {a c : ℝ} : interior (CubeCells.cell n d a c e) = openCell n d a c e := by
  unfold CubeCells.cell openCell
  rw [← Set.pi_univ_Icc, interior_pi_set Set.finite_univ]
  simp only [interior_Icc]

/-- Nodal pressures that the algebraic gradient does not see. -/
theorem unseen_nodes (h : CubeSEM n d p a b per bcs cs vnode pnode l) (hn : 1 ≤ n) (hp : 3 ≤ p) (hb : CubeBCs d per bcs)
    {q : ℕ → ℝ} (hq : ∀ u ∈ TSpace cs.sem, nodeDot cs.sem.numP q (cs.sem.D u) = 0) :
    ∃ r : ℝ, (∀ j < cs.pmesh.numNodes, q j = r) ∧ (bcs = [] → (∃ k : Fin d, (k : ℕ) ∉ per) → r = 0) := by
  have hP := h.pcube
  have hv := (h.setup hn hb).valid
  obtain ⟨Q, hQ⟩ := hP.exists_field q
  obtain ⟨r, h1, h2⟩ := h.unseen_spec hn hp hb (fun e he => (hQ e (by rw [hP.num]; exact he)).1) (fun u hu U hU => by
    rw [← h.div_integral hp hU hQ, ← D_dot hv.pwf hv.prange]
    exact hq u hu)
  refine ⟨r, fun j hj => ?_, h2⟩
  obtain ⟨e, he, i, hi, rfl⟩ := hP.onto j hj
  have h3 := (hQ e (by rw [hP.num]; exact he)).2 i hi _ (hP.elem e he i hi)
  rw [h1 e he, eval_C] at h3
  exact h3.symm

end CubeSEM

/-- A piecewise polynomial of degree at most `p - 2` in each variable that is orthogonal to the divergence of every
velocity of the space is constant; without a boundary condition on an axis that is not periodic it is zero. -/
theorem C93_modes (hn : 1 ≤ n) (hd : 1 ≤ d) (hp : 3 ≤ p) (hab : a < b) (hb : CubeBCs d per bcs)
    (hcs : cubeStokes n d p over a b per bcs = .ok cs) {qh : (Fin d → ℝ) → ℝ} (hq : PiecewisePolynomial cs.vmesh (p - 2) qh)
    (horth : ∀ u, Admissible cs.vmesh a b per bcs u → ∀ uh : Fin d → (Fin d → ℝ) → ℝ,
      (∀ k, NodalFunction cs.vmesh p (fun j => u j k) (uh k)) → ∫ x in cube d a b, (∑ k, partialDeriv k (uh k) x) * qh x = 0) :
    ∃ r : ℝ, (∀ e < cs.vmesh.numElements, ∀ x ∈ interior (elementBox cs.vmesh e), qh x = r) ∧
      (bcs = [] → (∃ k : Fin d, (k : ℕ) ∉ per) → r = 0) := by
  obtain ⟨vnode, pnode, l, h⟩ := cubeStokes_of hn hd hp hab hb hcs
  have hC := h.vcube.cells
  obtain ⟨Q, hQ⟩ := h.pieces hq
  obtain ⟨q, hqf⟩ := h.pressure_field Q (fun e he => (hQ e he).1)
  obtain ⟨r, h1, h2⟩ := h.unseen_spec hn hp hb (fun e he => (hQ e he).1) (fun u hu U hU => by
    have huh := fun k => hC.exists_nodalFunction (fun j => u j k)
    choose uh huh using huh
    obtain ⟨U', hU', _, heq⟩ := h.div_cube hn huh (fun e he => (hQ e he).2)
    rw [← h.div_integral hp hU hqf, h.div_integral hp hU' hqf, ← heq]
    exact horth u (h.admissible hn hb hu) uh huh)
  refine ⟨r, fun e he x hx => ?_, h2⟩
  rw [hC.num] at he
  rw [hC.box he, CubeSEM.interior_cell] at hx
  rw [(hQ e he).2 x hx, h1 e he, eval_C]

/-- Conversely the constants are orthogonal to the divergence of every velocity when the boundary is closed. -/
theorem C93_constants (hn : 1 ≤ n) (hd : 1 ≤ d) (hp : 3 ≤ p) (hab : a < b) (hb : CubeBCs d per bcs)
    (hcs : cubeStokes n d p over a b per bcs = .ok cs) (hcl : bcs ≠ [] ∨ ∀ k : Fin d, (k : ℕ) ∈ per) {u : Vel ℝ d}
    (hu : Admissible cs.vmesh a b per bcs u) {uh : Fin d → (Fin d → ℝ) → ℝ}
    (huh : ∀ k, NodalFunction cs.vmesh p (fun j => u j k) (uh k)) (r : ℝ) :
    ∫ x in cube d a b, (∑ k, partialDeriv k (uh k) x) * r = 0 := by
  obtain ⟨vnode, pnode, l, h⟩ := cubeStokes_of hn hd hp hab hb hcs
  have hC := h.vcube.cells
  obtain ⟨U, hU, _, heq⟩ := h.div_cube hn huh (qh := fun _ => 1) (Q := fun _ => 1) (fun e he x hx => by simp)
  simp only [mul_one] at heq
  rw [integral_mul_const, heq, h.div_mean hn hb hcl hU (fun k i hi j hj hs => ?_) (fun j hj hD => ?_), zero_mul]
  · exact congrFun (hu.single i hi j hj ((h.same_iff hi hj).mp hs)) k
  · obtain ⟨h1, h2⟩ := (h.dirichlet_iff hb hj).mp hD
    exact hu.boundary h1 j hj h2

variable {us : List (Vel ℝ d)} {ps : List (ℕ → ℝ)} {f : Vel ℝ d} {mu dt alpha : ℝ} {timeOrder : ℕ} {project : Bool}

/-- Two pressures with the same right hand side differ by a constant; with an open boundary they are equal. -/
theorem C93_unique (hn : 1 ≤ n) (hd : 1 ≤ d) (hp : 3 ≤ p) (hab : a < b) (hb : CubeBCs d per bcs)
    (hcs : cubeStokes n d p over a b per bcs = .ok cs) (hdt : 0 < dt) {β : Fin (timeOrder + 1) → ℝ}
    (hβ : bdfkCoeffs timeOrder = some β) {q q' : ℕ → ℝ}
    (hE : cs.sem.E dt (β (Fin.last timeOrder)) q = cs.sem.E dt (β (Fin.last timeOrder)) q') :
    ∃ r : ℝ, (∀ j < cs.pmesh.numNodes, q' j = q j + r) ∧ (bcs = [] → (∃ k : Fin d, (k : ℕ) ∉ per) → r = 0) := by
  obtain ⟨vnode, pnode, l, h⟩ := cubeStokes_of hn hd hp hab hb hcs
  have hv := (h.setup hn hb).valid
  have hpos : 0 < dt / β (Fin.last timeOrder) := div_pos hdt (C37_leading timeOrder β hβ).2
  have hz : cs.sem.E dt (β (Fin.last timeOrder)) (q' - q) = 0 := by
    rw [← ELin_apply cs.sem hv.pwf, map_sub, ELin_apply, ELin_apply, hE, sub_self]
  have hform := E_form_zero hv dt _ hpos (q' - q) (by rw [hz]; simp [nodeDot])
  obtain ⟨r, h1, h2⟩ := h.unseen_nodes hn hp hb (q := q' - q) (fun u hu => by
    rw [D_Dt_adjoint hv u (VSpace_masked hu.1)]
    exact vDot_exchange_zero hu hform)
  refine ⟨r, fun j hj => ?_, h2⟩
  have := h1 j hj
  rw [Pi.sub_apply] at this
  linarith

/-- A step, solved to convergence, returns the only pressure, up to a constant, that makes the velocity divergence free:
whenever the correction with the pressure increment of `p'` does so, `p'` differs from the returned pressure by a constant,
and by nothing with an open boundary. -/
theorem C93_step (hn : 1 ≤ n) (hd : 1 ≤ d) (hp : 3 ≤ p) (hab : a < b) (hb : CubeBCs d per bcs)
    (hcs : cubeStokes n d p over a b per bcs = .ok cs)
    (hclosed : project = true → bcs ≠ [] ∨ ∀ k : Fin d, (k : ℕ) ∈ per)
    (hf : bcs ≠ [] → ∀ j < cs.vmesh.numNodes, OnBoundary cs.vmesh a b per j → f j = 0)
    (hf' : ∀ j, cs.vmesh.numNodes ≤ j → f j = 0) (hmu : 0 ≤ mu) (hdt : 0 < dt) (htime : 1 ≤ timeOrder)
    {older : List (ℕ → ℝ)} {p2 p1 : ℕ → ℝ} {β : Fin (timeOrder + 1) → ℝ} (hβ : bdfkCoeffs timeOrder = some β) :
    ∃ st, cs.sem.oneStep cs.low us (older ++ [p2, p1]) f mu dt timeOrder alpha none none project 0 0 = .ok st ∧
      st.u = st.uStar + cs.sem.Q dt (β (Fin.last timeOrder)) (cs.sem.Dt (fun j => st.p j - (2 * p1 j - p2 j))) ∧
      (∀ j, cs.sem.D st.u j = 0) ∧
      ∀ p' : ℕ → ℝ, (∀ j, cs.sem.D (st.uStar + cs.sem.Q dt (β (Fin.last timeOrder))
          (cs.sem.Dt (fun j => p' j - (2 * p1 j - p2 j)))) j = 0) →
        ∃ r : ℝ, (∀ j < cs.pmesh.numNodes, p' j = st.p j + r) ∧ (bcs = [] → (∃ k : Fin d, (k : ℕ) ∉ per) → r = 0) := by
  obtain ⟨vnode, pnode, l, h⟩ := cubeStokes_of hn hd hp hab hb hcs
  have S := h.stepSetup hn hp hab hb alpha project hclosed
  have hfD : ∀ j, DirichletNode cs.masks bcs j → f j = 0 := by
    intro j hj
    by_cases hjn : j < cs.vmesh.numNodes
    · obtain ⟨h1, h2⟩ := (h.dirichlet_iff hb hjn).mp hj
      exact hf h1 j hjn h2
    · exact hf' j (not_lt.mp hjn)
  obtain ⟨st, hst, hdiv, _⟩ := C42_divergence_free (us := us) (ps := older ++ [p2, p1]) S hfD hf' hmu hdt htime (by simp)
  obtain ⟨c, pExt, b', us0, dp, hc, hpe, hb', _, _, _, _, hu, hpst⟩ := oneStep_ok hst
  rw [hβ, Option.some.injEq] at hb'
  subst hb'
  rw [extrapolate_eq hc, Option.some.injEq] at hpe
  have hdp : (fun j => st.p j - (2 * p1 j - p2 j)) = dp := by
    funext j
    rw [hpst, ← hpe]
    simp
  refine ⟨st, hst, by rw [hdp]; exact hu, hdiv, fun p' hp' => ?_⟩
  have hE : cs.sem.E dt (β (Fin.last timeOrder)) dp =
      cs.sem.E dt (β (Fin.last timeOrder)) (fun j => p' j - (2 * p1 j - p2 j)) := by
    have e1 : cs.sem.D st.u = 0 := funext hdiv
    have e2 : cs.sem.D (st.uStar + cs.sem.Q dt (β (Fin.last timeOrder))
      (cs.sem.Dt (fun j => p' j - (2 * p1 j - p2 j)))) = 0 := funext hp'
    rw [hu, D_step] at e1
    rw [D_step] at e2
    exact add_left_cancel (e1.trans e2.symm)
  obtain ⟨r, h1, h2⟩ := C93_unique hn hd hp hab hb hcs hdt hβ hE
  refine ⟨r, fun j hj => ?_, h2⟩
  have h3 := h1 j hj
  have h4 : dp j = st.p j - (2 * p1 j - p2 j) := (congrFun hdp j).symm
  rw [h4] at h3
  linarith

/-- The hypotheses of `C93_modes` hold for constants in a channel: walls on one axis, the other periodic. -/
example : ∃ cs : CubeStokes 2, cubeStokes 4 2 3 1 (-1) 1 [1] [("boundary", .dirichlet)] = .ok cs ∧
    PiecewisePolynomial cs.vmesh (3 - 2) (fun _ => 7) ∧
    ∀ u, Admissible cs.vmesh (-1) 1 [1] [("boundary", .dirichlet)] u → ∀ uh : Fin 2 → (Fin 2 → ℝ) → ℝ,
      (∀ k, NodalFunction cs.vmesh 3 (fun j => u j k) (uh k)) →
      ∫ x in cube 2 (-1) 1, (∑ k, partialDeriv k (uh k) x) * 7 = 0 := by
  have hb : CubeBCs 2 [1] [("boundary", .dirichlet)] := Or.inl ⟨rfl, 0, by simp⟩
  obtain ⟨cs, hcs⟩ := C92_create (over := 1) (n := 4) (d := 2) (p := 3) (a := -1) (b := 1) (by norm_num) (by norm_num)
    (by norm_num) (by norm_num) [1] hb
  refine ⟨cs, hcs, fun e _ => ⟨C 7, fun k => by simp, fun x _ => by simp⟩, fun u hu uh huh => ?_⟩
  exact C93_constants (by norm_num) (by norm_num) (by norm_num) (by norm_num) hb hcs (Or.inl (by simp)) hu huh 7

/-- A step with an open boundary in three dimensions. -/
example : ∃ cs : CubeStokes 3, cubeStokes 2 3 4 0 0 1 [2] [] = .ok cs ∧
    ∃ st, cs.sem.oneStep cs.low [] ([] ++ [fun _ => 0, fun _ => 1]) 0 (1/10) (1/100) 2 (1/20) none none false 0 0 = .ok st ∧
      ∀ j, cs.sem.D st.u j = 0 := by
  have hb : CubeBCs 3 [2] [] := Or.inr rfl
  obtain ⟨cs, hcs⟩ := C92_create (over := 0) (n := 2) (d := 3) (p := 4) (a := 0) (b := 1) (by norm_num) (by norm_num)
    (by norm_num) (by norm_num) [2] hb
  obtain ⟨β, hβ, _⟩ := C37_exact (K := ℝ) 2 (by norm_num)
  obtain ⟨st, h1, _, h2, _⟩ := C93_step (us := []) (older := []) (p2 := fun _ => 0) (p1 := fun _ => 1) (f := 0) (mu := 1/10)
    (dt := 1/100) (alpha := 1/20) (timeOrder := 2) (project := false) (by norm_num) (by norm_num) (by norm_num) (by norm_num)
    hb hcs (by simp) (fun _ _ _ _ => rfl) (fun _ _ => rfl) (by norm_num) (by norm_num) (by norm_num) hβ
  exact ⟨cs, hcs, st, h1, h2⟩

end Verif.NS
