import Verif.Lemmas.CubeClosed
import Verif.Props.C81

/-!
# C92: a Stokes step on a unit cube mesh returns a discretely divergence free velocity

No assumption on the meshes, spaces, quadratures, node tables or masks is left: all are built by the model from the
arguments of `unit_cube_mesh` and `StokesSEM.create`.
-/

namespace Verif.NS

open Verif.Core Verif.Spec MeasureTheory MvPolynomial

variable {n d p over : ℕ} {a b : ℝ} {per : List ℕ} {bcs : List (String × BCType)} {cs : CubeStokes d}

/-- The spaces can be created for every number of cells, dimension, order of at least three, cube, periodic axes, with zero
velocity on the boundary or without boundary conditions. -/
theorem C92_create (hn : 1 ≤ n) (hd : 1 ≤ d) (hp : 3 ≤ p) (hab : a < b) (per : List ℕ) (hb : CubeBCs d per bcs) :
    ∃ cs, cubeStokes n d p over a b per bcs = .ok cs := by
  obtain ⟨cs, _, _, _, h, _⟩ := cubeStokes_spec (over := over) hn hd hp hab per hb
  exact ⟨cs, h⟩

theorem cubeStokes_of (hn : 1 ≤ n) (hd : 1 ≤ d) (hp : 3 ≤ p) (hab : a < b) (hb : CubeBCs d per bcs)
    (hcs : cubeStokes n d p over a b per bcs = .ok cs) : ∃ vnode pnode l, CubeSEM n d p a b per bcs cs vnode pnode l := by
  obtain ⟨cs', vnode, pnode, l, h, hS⟩ := cubeStokes_spec (over := over) hn hd hp hab per hb
  rw [hcs, Except.ok.injEq] at h
  subst h
  exact ⟨vnode, pnode, l, hS⟩

/-- Orders below two are rejected. -/
theorem C92_rejects (n d order over : ℕ) (a b : ℝ) (per : List ℕ) (bcs : List (String × BCType)) (h : order < 2) :
    ∃ e, cubeStokes n d order over a b per bcs = .error e := by
  unfold cubeStokes
  split
  · exact ⟨_, rfl⟩
  · exact ⟨_, if_pos h⟩

/-- `qh` is a pressure: inside every element a polynomial of degree at most `m` in every variable, with no condition
between elements. -/
def PiecewisePolynomial (mesh : Mesh ℝ d) (m : ℕ) (qh : (Fin d → ℝ) → ℝ) : Prop :=
  ∀ e < mesh.numElements, ∃ P : MvPolynomial (Fin d) ℝ, (∀ k, P.degreeOf k ≤ m) ∧
    ∀ x ∈ interior (elementBox mesh e), qh x = eval x P

/-- Nodes `i` and `j` are the same point of the domain whose axes `per` are wrapped around. -/
def SamePoint (mesh : Mesh ℝ d) (a b : ℝ) (per : List ℕ) (i j : ℕ) : Prop :=
  ∀ k : Fin d, mesh.coords i k = mesh.coords j k ∨
    ((k : ℕ) ∈ per ∧ ((mesh.coords i k = a ∧ mesh.coords j k = b) ∨ (mesh.coords i k = b ∧ mesh.coords j k = a)))

namespace CubeSEM

variable {vnode pnode : ℕ → ℕ → ℕ} {l : List ℝ}

/-- Integrals over the cube of the divergence against a pressure. -/
theorem div_cube (h : CubeSEM n d p a b per bcs cs vnode pnode l) (hn : 1 ≤ n) {u : Vel ℝ d} {uh : Fin d → (Fin d → ℝ) → ℝ}
    (hu : ∀ k, NodalFunction cs.vmesh p (fun j => u j k) (uh k)) {qh : (Fin d → ℝ) → ℝ} {Q : ℕ → MvPolynomial (Fin d) ℝ}
    (hQ : ∀ e < n ^ d, ∀ x ∈ openCell n d a ((b - a) / (2 * n)) e, qh x = eval x (Q e)) :
    ∃ U : Fin d → ℕ → MvPolynomial (Fin d) ℝ, (∀ k, CellField cs.vmesh p (fun j => u j k) (U k)) ∧
      IntegrableOn (fun x => (∑ k, partialDeriv k (uh k) x) * qh x) (cube d a b) ∧
      ∫ x in cube d a b, (∑ k, partialDeriv k (uh k) x) * qh x =
        ∑ e ∈ Finset.range (n ^ d), ∫ x in CubeCells.cell n d a ((b - a) / (2 * n)) e,
          eval x ((∑ k, pderiv k (U k e)) * Q e) := by
  have hC := h.vcube.cells
  have hU := fun k => hC.nodalFunction (hu k)
  choose U hU using hU
  have g := CubeCells.global (a := a) (c := (b - a) / (2 * n)) hn hC.width
    (fun x => (∑ k, partialDeriv k (uh k) x) * qh x) (fun e => (∑ k, pderiv k (U k e)) * Q e) (fun e he x hx => by
      rw [map_mul, map_sum, hQ e he x hx]
      congr 1
      refine Finset.sum_congr rfl fun k _ => ?_
      exact CubeCells.partial_eq (hU k).2 he hx k)
  rw [← cube_eq hn] at g
  exact ⟨U, fun k => (hU k).1, g.1, g.2⟩

theorem pressure_field (h : CubeSEM n d p a b per bcs cs vnode pnode l) (Q : ℕ → MvPolynomial (Fin d) ℝ)
    (hQ : ∀ e < n ^ d, ∀ k, (Q e).degreeOf k ≤ p - 2) : ∃ q, CellField cs.pmesh (p - 2) q Q := by
  have hP := h.pcube
  refine ⟨fun v => eval (cs.pmesh.coords v) (Q (v / (p - 2 + 1) ^ d)), fun e he => ?_⟩
  rw [hP.num] at he
  refine ⟨hQ e he, fun i hi v hv => ?_⟩
  rw [hP.elem e he i hi] at hv
  have hv' : pnode e i = v := by exact_mod_cast hv
  rw [h.pnodes] at hv'
  rw [hP.npe] at hi
  have hpos : 0 < (p - 2 + 1) ^ d := by positivity
  have : v / (p - 2 + 1) ^ d = e := by
    rw [← hv', mul_comm, Nat.mul_add_div hpos, Nat.div_eq_of_lt hi, add_zero]
  simp only [this]

end CubeSEM

variable {us : List (Vel ℝ d)} {ps : List (ℕ → ℝ)} {f : Vel ℝ d} {mu dt alpha : ℝ} {timeOrder : ℕ} {project : Bool}

/-- A step, solved to convergence, succeeds for every history, force, viscosity, step size, time order and filter strength.
The velocity is zero at the boundary nodes, single valued, and its divergence is orthogonal, with exact integrals over the
cube, to every function that is a polynomial of degree at most `p - 2` in each variable inside every element. The null space
may be projected out when the boundary is closed: zero velocity there, or no boundary at all. -/
theorem C92_step (hn : 1 ≤ n) (hd : 1 ≤ d) (hp : 3 ≤ p) (hab : a < b) (hb : CubeBCs d per bcs)
    (hcs : cubeStokes n d p over a b per bcs = .ok cs)
    (hclosed : project = true → bcs ≠ [] ∨ ∀ k : Fin d, (k : ℕ) ∈ per)
    (hf : bcs ≠ [] → ∀ j < cs.vmesh.numNodes, OnBoundary cs.vmesh a b per j → f j = 0)
    (hf' : ∀ j, cs.vmesh.numNodes ≤ j → f j = 0) (hmu : 0 ≤ mu) (hdt : 0 < dt) (htime : 1 ≤ timeOrder)
    (hps : 2 ≤ ps.length) :
    ∃ st, cs.sem.oneStep cs.low us ps f mu dt timeOrder alpha none none project 0 0 = .ok st ∧
      (bcs ≠ [] → ∀ j < cs.vmesh.numNodes, OnBoundary cs.vmesh a b per j → st.u j = 0) ∧
      (∀ i < cs.vmesh.numNodes, ∀ j < cs.vmesh.numNodes, SamePoint cs.vmesh a b per i j → st.u i = st.u j) ∧
      ∀ uh : Fin d → (Fin d → ℝ) → ℝ, (∀ k, NodalFunction cs.vmesh p (fun j => st.u j k) (uh k)) →
        ∀ qh, PiecewisePolynomial cs.vmesh (p - 2) qh →
          IntegrableOn (fun x => (∑ k, partialDeriv k (uh k) x) * qh x) (cube d a b) ∧
          ∫ x in cube d a b, (∑ k, partialDeriv k (uh k) x) * qh x = 0 := by
  obtain ⟨vnode, pnode, l, h⟩ := cubeStokes_of hn hd hp hab hb hcs
  have hC := h.vcube.cells
  have S := h.stepSetup hn hp hab hb alpha project hclosed
  have hfD : ∀ j, DirichletNode cs.masks bcs j → f j = 0 := by
    intro j hj
    by_cases hjn : j < cs.vmesh.numNodes
    · obtain ⟨h1, h2⟩ := (h.dirichlet_iff hb hjn).mp hj
      exact hf h1 j hjn h2
    · exact hf' j (not_lt.mp hjn)
  obtain ⟨st, hst, hD, hsame, _⟩ := C42_step (us := us) (tol := 0) (atol := 0) S hfD hf' hmu hdt htime hps
  obtain ⟨st', hst', hdiv, _⟩ := C42_divergence_free (us := us) S hfD hf' hmu hdt htime hps
  rw [hst, Except.ok.injEq] at hst'
  subst hst'
  refine ⟨st, hst, ?_, ?_, ?_⟩
  · intro hne j hj hbd
    exact hD j ((h.dirichlet_iff hb hj).mpr ⟨hne, hbd⟩)
  · intro i hi j hj hs
    exact hsame i hi j hj ((h.same_iff hi hj).mpr hs)
  · intro uh hu qh hq
    have hq1 : ∀ e, ∃ P : MvPolynomial (Fin d) ℝ, e < n ^ d → (∀ k, P.degreeOf k ≤ p - 2) ∧
        ∀ x ∈ openCell n d a ((b - a) / (2 * n)) e, qh x = eval x P := by
      intro e
      by_cases he : e < n ^ d
      · obtain ⟨P, h1, h2⟩ := hq e (by rw [hC.num]; exact he)
        refine ⟨P, fun _ => ⟨h1, fun x hx => h2 x ?_⟩⟩
        rw [hC.box he]
        exact interior_maximal openCell_sub openCell_open hx
      · exact ⟨0, fun h => absurd h he⟩
    choose Q hQ using hq1
    obtain ⟨U, hU, hint, heq⟩ := h.div_cube hn hu (fun e he => (hQ e he).2)
    refine ⟨hint, ?_⟩
    obtain ⟨q, hqf⟩ := h.pressure_field Q (fun e he => (hQ e he).1)
    have hv := S.setup.valid
    have h0 := D_dot hv.pwf hv.prange st.u q
    rw [h.div_integral hp hU hqf] at h0
    rw [heq, ← h0]
    unfold Verif.Core.nodeDot
    exact Finset.sum_eq_zero fun j _ => by rw [hdiv j, mul_zero]

/-- In particular as much flows out of every element as flows in. -/
theorem C92_element (hn : 1 ≤ n) (hd : 1 ≤ d) (hp : 3 ≤ p) (hab : a < b) (hb : CubeBCs d per bcs)
    (hcs : cubeStokes n d p over a b per bcs = .ok cs)
    (hclosed : project = true → bcs ≠ [] ∨ ∀ k : Fin d, (k : ℕ) ∈ per)
    (hf : bcs ≠ [] → ∀ j < cs.vmesh.numNodes, OnBoundary cs.vmesh a b per j → f j = 0)
    (hf' : ∀ j, cs.vmesh.numNodes ≤ j → f j = 0) (hmu : 0 ≤ mu) (hdt : 0 < dt) (htime : 1 ≤ timeOrder)
    (hps : 2 ≤ ps.length) :
    ∃ st, cs.sem.oneStep cs.low us ps f mu dt timeOrder alpha none none project 0 0 = .ok st ∧
      ∀ uh : Fin d → (Fin d → ℝ) → ℝ, (∀ k, NodalFunction cs.vmesh p (fun j => st.u j k) (uh k)) →
        ∀ e < cs.vmesh.numElements, ∫ x in interior (elementBox cs.vmesh e), ∑ k, partialDeriv k (uh k) x = 0 := by
  classical
  obtain ⟨vnode, pnode, l, h⟩ := cubeStokes_of hn hd hp hab hb hcs
  have hC := h.vcube.cells
  obtain ⟨st, hst, _, _, hdiv⟩ := C92_step (us := us) (alpha := alpha) hn hd hp hab hb hcs hclosed hf hf' hmu hdt htime hps
  refine ⟨st, hst, fun uh hu e he => ?_⟩
  have hmeas : MeasurableSet (interior (elementBox cs.vmesh e)) := isOpen_interior.measurableSet
  obtain ⟨_, h0⟩ := hdiv uh hu (Set.indicator (interior (elementBox cs.vmesh e)) (fun _ => 1)) (by
    intro e' he'
    by_cases hee : e' = e
    · subst hee
      exact ⟨1, fun k => by rw [degreeOf_one]; exact Nat.zero_le _, fun x hx => by rw [Set.indicator_of_mem hx]; simp⟩
    · refine ⟨0, fun k => by rw [degreeOf_zero]; exact Nat.zero_le _, fun x hx => ?_⟩
      rw [Set.indicator_of_notMem, map_zero]
      intro hx'
      rw [hC.num] at he he'
      have hpos := (isOpen_interior.inter isOpen_interior).measure_pos volume ⟨x, hx, hx'⟩
      rw [hC.box he, hC.box he'] at hpos
      have hz := CubeCells.overlap (d := d) (a := a) hC.width he' he hee
      exact hpos.ne' (measure_mono_null (Set.inter_subset_inter interior_subset interior_subset) hz))
  have hsub : interior (elementBox cs.vmesh e) ⊆ cube d a b := by
    rw [hC.num] at he
    rw [hC.box he, cube_eq hn, ← CubeCells.cover hn hC.width]
    exact interior_subset.trans (Set.subset_iUnion (fun e : Fin (n ^ d) => CubeCells.cell n d a _ (e : ℕ)) ⟨e, he⟩)
  have h1 : ∀ x, (∑ k, partialDeriv k (uh k) x) * Set.indicator (interior (elementBox cs.vmesh e)) (fun _ => (1 : ℝ)) x =
      Set.indicator (interior (elementBox cs.vmesh e)) (fun x => ∑ k, partialDeriv k (uh k) x) x := by
    intro x
    by_cases hx : x ∈ interior (elementBox cs.vmesh e)
    · rw [Set.indicator_of_mem hx, Set.indicator_of_mem hx, mul_one]
    · rw [Set.indicator_of_notMem hx, Set.indicator_of_notMem hx, mul_zero]
  simp only [h1] at h0
  rw [setIntegral_indicator hmeas, Set.inter_eq_self_of_subset_right hsub] at h0
  exact h0

/-- A nontrivial case: three by three cells of order five with overintegration, walls on one axis, the other periodic,
third order in time, viscosity, filter and null space projection. -/
example : ∃ cs : CubeStokes 2, cubeStokes 3 2 5 2 0 1 [1] [("boundary", .dirichlet)] = .ok cs ∧
    ∃ st, cs.sem.oneStep cs.low [] [fun _ => 0, fun _ => 1] 0 (1/10) (1/100) 3 (1/20) none none true 0 0 = .ok st := by
  have hb : CubeBCs 2 [1] [("boundary", .dirichlet)] := Or.inl ⟨rfl, 0, by simp⟩
  obtain ⟨cs, hcs⟩ := C92_create (over := 2) (n := 3) (d := 2) (p := 5) (a := 0) (b := 1) (by norm_num) (by norm_num)
    (by norm_num) (by norm_num) [1] hb
  obtain ⟨st, hst, _⟩ := C92_step (us := []) (ps := [fun _ => 0, fun _ => 1]) (f := 0) (mu := 1/10) (dt := 1/100)
    (alpha := 1/20) (timeOrder := 3) (project := true) (by norm_num) (by norm_num) (by norm_num) (by norm_num) hb hcs
    (fun _ => Or.inl (by simp)) (fun _ _ _ _ => rfl) (fun _ _ => rfl) (by norm_num) (by norm_num) (by norm_num) (by simp)
  exact ⟨cs, hcs, st, hst⟩

/-- All axes periodic and no boundary conditions. -/
example : CubeBCs 3 [0, 1, 2] [] ∧ ∀ k : Fin 3, (k : ℕ) ∈ [0, 1, 2] := ⟨Or.inr rfl, fun k => by fin_cases k <;> simp⟩

end Verif.NS
