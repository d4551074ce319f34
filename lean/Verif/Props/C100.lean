import Verif.Lemmas.CubeError
import Verif.Props.C81
import Mathlib.Analysis.SpecialFunctions.Trigonometric.Deriv

/-!
# C100: `solve_poisson` converges with order `p` on meshes of the unit cube
-/

namespace Verif.Core

open Verif.Spec Verif.Common MeasureTheory MvPolynomial

variable {d p : ℕ} {a b : ℝ} {per : List ℕ} {t : NodeType}

/-- The reference nodes of a mesh depend on the node family and the order only. -/
theorem cubeMesh_grid {n : ℕ} {mesh : Mesh ℝ d} {masks : List (String × (ℕ → Bool))} {grid : Nodes1D ℝ}
    (hg : createNodes t (p + 1) = some grid) (hm : cubeMesh n d p t a b per = .ok (mesh, masks)) : mesh.grid = grid := by
  unfold cubeMesh at hm
  rw [hg] at hm
  simp only at hm
  split at hm
  · simp at hm
  · rw [Except.ok.injEq] at hm
    have h1 : (finalMesh grid _).1 = mesh := congrArg Prod.fst hm
    rw [← h1]
    rfl

/-- The gradient error of the interpolant and of the load, and the error of the values of the interpolant, on every mesh. -/
theorem cube_interpolation (hp : 1 ≤ p) (ht : t.hasEnds) (hd : 1 ≤ d) (hab : a < b) {g f : (Fin d → ℝ) → ℝ} (hg : ContDiff ℝ (p + 1) g)
    (hf : ContDiff ℝ p f) : ∃ A, 0 ≤ A ∧ ∀ n, 1 ≤ n → ∀ (mesh : Mesh ℝ d) (masks : List (String × (ℕ → Bool))),
      cubeMesh n d p t a b per = .ok (mesh, masks) → ∀ (W F : ℕ → MvPolynomial (Fin d) ℝ),
      CellField mesh p (fun j => g (mesh.coords j)) W → CellField mesh p (fun j => f (mesh.coords j)) F →
      ∀ e < n ^ d, ∀ x ∈ CubeCells.cell n d a ((b - a) / (2 * n)) e,
        |f x - eval x (F e)| ≤ A * (1 / n) ^ p ∧ |g x - eval x (W e)| ≤ A * (1 / n) ^ p ∧
        ∀ k, |partialDeriv k g x - eval x (pderiv k (W e))| ≤ A * (1 / n) ^ p := by
  obtain ⟨grid, hgr, hty, hnum, hen, hw, hinj⟩ := createNodes_spec hp ht
  -- the nodes are in the reference interval
  have hin : ∀ i, |grid.value i| ≤ 1 := by
    obtain ⟨mesh, masks, node, h⟩ := cubeMesh_spec (n := 1) (d := d) (t := t) le_rfl hd hp ht hab per
    have h1 := cubeMesh_grid hgr h.made
    intro i
    have h2 := h.cells.within i (by rw [← hnum]; exact i.2)
    rw [h1, at0, dif_pos i.2] at h2
    exact abs_le.mpr h2
  obtain ⟨A1, hA1, H1⟩ := interp_value (q := grid.numPoints) (m := p - 1) (by omega) grid.value hinj hin
    (g := f) (by rw [show ((p - 1 : ℕ) : WithTop ℕ∞) + 1 = p by norm_cast; rw [Nat.sub_add_cancel hp]]; exact hf)
    (fun _ => a) (fun _ => b)
  obtain ⟨A2, hA2, H2⟩ := interp_value (q := grid.numPoints) (m := p) (by omega) grid.value hinj hin
    (g := g) hg (fun _ => a) (fun _ => b)
  choose A3 hA3 H3 using fun k => interp_grad hp hnum grid.value hinj hin (g := g) hg (fun _ => a) (fun _ => b) k
  have hba : 0 < b - a := by linarith
  set L := (b - a) / 2 with hL
  have hLpos : 0 < L := by positivity
  refine ⟨A1 * L ^ p + A2 * L ^ (p + 1) + ∑ k, A3 k * L ^ p, add_nonneg (by positivity)
    (Finset.sum_nonneg fun k _ => mul_nonneg (hA3 k) (by positivity)), ?_⟩
  intro n hn mesh masks hm W F hW hF e he x hx
  obtain ⟨node, h⟩ := cubeMesh_of hn hd hp ht hab hm
  have hC := h.cells
  have hgrid := cubeMesh_grid hgr hm
  have hn0 : (0 : ℝ) < n := by exact_mod_cast hn
  have hc : (b - a) / (2 * n) = L * (1 / n) := by rw [hL]; field_simp
  set c := (b - a) / (2 * n) with hcdef
  have hcpos : 0 < c := hC.width
  have hbe : a + 2 * c * n = b := by rw [hcdef]; field_simp; ring
  have hsub : ∀ y : Fin d → ℝ, (∀ k, |y k - centre n d a c e k| ≤ c) → y ∈ Set.Icc (fun _ : Fin d => a) (fun _ => b) := by
    intro y hy
    have h1 : y ∈ CubeCells.cell n d a c e :=
      ⟨fun k => by have := (abs_le.mp (hy k)).1; linarith, fun k => by have := (abs_le.mp (hy k)).2; linarith⟩
    have h2 := (Set.mem_iUnion (s := fun e : Fin (n ^ d) => CubeCells.cell n d a c (e : ℕ))).mpr ⟨⟨e, he⟩, h1⟩
    rw [CubeCells.cover hn hcpos, hbe] at h2
    exact h2
  have hx' : ∀ k, |x k - centre n d a c e k| ≤ c := fun k => abs_le.mpr
    ⟨by have := hx.1 k; simp only at this; linarith, by have := hx.2 k; simp only at this; linarith⟩
  have hnodal : ∀ {v : (Fin d → ℝ) → ℝ} {V : ℕ → MvPolynomial (Fin d) ℝ}, CellField mesh p (fun j => v (mesh.coords j)) V →
      (∀ k, (V e).degreeOf k < grid.numPoints) ∧ ∀ i < grid.numPoints ^ d,
        eval (fun k => c * gridPoint d grid.value i k + centre n d a c e k) (V e) =
          v (fun k => c * gridPoint d grid.value i k + centre n d a c e k) := by
    intro v V hV
    have hV' := hV e (by rw [hC.num]; exact he)
    refine ⟨fun k => by have := hV'.1 k; omega, fun i hi => ?_⟩
    have hi' : i < mesh.nodesPerElem := by
      have : mesh.nodesPerElem = mesh.grid.numPoints ^ d := rfl
      rw [this, hgrid]; exact hi
    have h1 := hV'.2 i hi' (node e i) (hC.elem e he i hi')
    have h2 : mesh.coords (node e i) = fun k => c * gridPoint d grid.value i k + centre n d a c e k := by
      funext k
      have := hC.coords e he i hi' k
      rw [hgrid] at this
      exact this
    rw [h2] at h1
    rw [h1]
    change v (mesh.coords (node e i)) = _
    rw [h2]
  obtain ⟨dF, vF⟩ := hnodal (v := f) hF
  obtain ⟨dW, vW⟩ := hnodal (v := g) hW
  have b1 := H1 (centre n d a c e) c hcpos hsub (F e) dF vF x hx'
  have b2 := H2 (centre n d a c e) c hcpos hsub (W e) dW vW x hx'
  have b3 := fun k => H3 k (centre n d a c e) c hcpos hsub (W e) dW vW x hx'
  have hr0 : (0 : ℝ) ≤ 1 / n := by positivity
  have hr1 : (1 : ℝ) / n ≤ 1 := by
    rw [div_le_one hn0]; exact_mod_cast hn
  have hrp : (0 : ℝ) ≤ (1 / n) ^ p := by positivity
  have hs0 : 0 ≤ ∑ k, A3 k * L ^ p := Finset.sum_nonneg fun k _ => mul_nonneg (hA3 k) (by positivity)
  have hm1 : 0 ≤ A1 * L ^ p := by positivity
  have hm2 : 0 ≤ A2 * L ^ (p + 1) := by positivity
  rw [Nat.sub_add_cancel hp, hc, mul_pow, ← mul_assoc] at b1
  rw [hc, mul_pow, ← mul_assoc] at b2
  refine ⟨le_trans b1 (mul_le_mul_of_nonneg_right (by linarith) hrp), le_trans b2 ?_, fun k => ?_⟩
  · refine le_trans (mul_le_mul_of_nonneg_left (pow_le_pow_of_le_one hr0 hr1 (Nat.le_succ p)) hm2) ?_
    exact mul_le_mul_of_nonneg_right (by linarith) hrp
  · have b := b3 k
    rw [hc, mul_pow, ← mul_assoc] at b
    have h1 : A3 k * L ^ p ≤ ∑ k, A3 k * L ^ p := Finset.single_le_sum (f := fun k => A3 k * L ^ p)
      (fun k _ => mul_nonneg (hA3 k) (by positivity)) (Finset.mem_univ k)
    exact le_trans b (mul_le_mul_of_nonneg_right (by linarith) hrp)

set_option maxHeartbeats 1000000 in
/-- Let `us` be a solution of Poisson's equation with `p + 2` continuous derivatives, zero on the faces that carry the boundary
condition and with zero normal derivative on the others.  There is a constant such that on every mesh, for the forcing given at
the nodes by `- Δ us`, the function computed by `solve_poisson` differs from `us` by at most the constant times `(1 / n) ^ p` in
the energy norm and in the mean square norm. -/
theorem C100_order (hd : 1 ≤ d) (hp : 1 ≤ p) (ht : t.hasEnds) (hab : a < b) (hper : ∃ k : Fin d, (k : ℕ) ∉ per)
    (us : (Fin d → ℝ) → ℝ) (hus : ContDiff ℝ (p + 2) us)
    (hD : ∀ x ∈ cube d a b, ∀ k : Fin d, (k : ℕ) ∉ per → x k = a ∨ x k = b → us x = 0)
    (hN : ∀ x ∈ cube d a b, ∀ k : Fin d, (k : ℕ) ∈ per → x k = a ∨ x k = b → partialDeriv k us x = 0) :
    ∃ C, ∀ n, 1 ≤ n → ∀ (mesh : Mesh ℝ d) (masks : List (String × (ℕ → Bool))) (quad : Quadrature1D ℝ),
      cubeMesh n d p t a b per = .ok (mesh, masks) → poissonQuadrature p d = some quad →
      ∀ f : ℕ → ℝ, (∀ j < mesh.numNodes, f j = - ∑ k, partialDeriv k (partialDeriv k us) (mesh.coords j)) →
      ∃ u, solvePoisson mesh quad masks f zeroDirichlet 0 0 = .ok u ∧ ∀ uh, NodalFunction mesh p u uh →
        IntegrableOn (fun x => ∑ k, (partialDeriv k uh x - partialDeriv k us x) ^ 2) (cube d a b) ∧
        IntegrableOn (fun x => (uh x - us x) ^ 2) (cube d a b) ∧
        ∫ x in cube d a b, ∑ k, (partialDeriv k uh x - partialDeriv k us x) ^ 2 ≤ (C * (1 / n) ^ p) ^ 2 ∧
        ∫ x in cube d a b, (uh x - us x) ^ 2 ≤ (C * (1 / n) ^ p) ^ 2 := by
  have hus1 : ContDiff ℝ (p + 1) us := hus.of_le (by norm_cast; omega)
  have hus2 : ContDiff ℝ 2 us := hus.of_le (by norm_cast; omega)
  have hus2' : ContDiff ℝ ((p + 1 : ℕ) + 1) us := hus.of_le (by norm_cast)
  have hpd : ∀ k : Fin d, ContDiff ℝ (p + 1) (partialDeriv k us) := fun k => by
    have := contDiff_partialDeriv hus2' k
    exact_mod_cast this
  have hlap : ContDiff ℝ p (fun x => - ∑ k, partialDeriv k (partialDeriv k us) x) :=
    (ContDiff.sum fun k _ => contDiff_partialDeriv (hpd k) k).neg
  obtain ⟨A, hA, H⟩ := cube_interpolation (per := per) hp ht hd hab hus1 hlap
  set vol := volume.real (cube d a b) with hvol
  have hvol0 : 0 ≤ vol := measureReal_nonneg
  obtain ⟨L, hL⟩ : ∃ L, L = b - a := ⟨_, rfl⟩
  set K := 2 * (4 * L ^ 2 + d) * vol with hK
  have hK0 : 0 ≤ K := by positivity
  set C2 := (2 * K + 2 * d * vol + (2 * (4 * L ^ 2 * K) + 2 * vol)) * A ^ 2 with hC2
  have hC20 : 0 ≤ C2 := by positivity
  refine ⟨√C2, ?_⟩
  intro n hn mesh masks quad hm hq f hf
  obtain ⟨u, hu, hzero, hweak, -⟩ := C81_galerkin hn hd hp ht hab hper hm hq f
  obtain ⟨node, h⟩ := cubeMesh_of hn hd hp ht hab hm
  have hC := h.cells
  refine ⟨u, hu, fun uh hU => ?_⟩
  have hn0 : (0 : ℝ) < n := by exact_mod_cast hn
  set c := (b - a) / (2 * n) with hcdef
  have hcpos : 0 < c := hC.width
  have hbL : 2 * c * n = L := by rw [hcdef, hL]; field_simp
  have hcube : cube d a b = Set.Icc (fun _ : Fin d => a) (fun _ => a + 2 * c * n) := cube_eq hn
  have hbe : a + 2 * c * n = b := by rw [hbL, hL]; ring
  have hin : ∀ j < mesh.numNodes, mesh.coords j ∈ cube d a b := fun j hj =>
    ⟨fun k => (h.inside j hj k).1, fun k => (h.inside j hj k).2⟩
  obtain ⟨wh, hWn⟩ := hC.exists_nodalFunction (fun j => us (mesh.coords j))
  obtain ⟨fh, hFn⟩ := hC.exists_nodalFunction f
  obtain ⟨U, hUf, hUe⟩ := hC.nodalFunction hU
  obtain ⟨W, hWf, hWe⟩ := hC.nodalFunction hWn
  obtain ⟨F, hFf, hFe⟩ := hC.nodalFunction hFn
  have hFf' : CellField mesh p (fun j => - ∑ k, partialDeriv k (partialDeriv k us) (mesh.coords j)) F := by
    intro e he
    refine ⟨(hFf e he).1, fun i hi w hw => ?_⟩
    have hwn : w < mesh.numNodes := by
      rw [hC.num] at he
      rw [hC.elem e he i hi] at hw
      have hw' : node e i = w := by exact_mod_cast hw
      rw [← hw']
      exact hC.lt e he i hi
    rw [(hFf e he).2 i hi w hw, hf w hwn]
  have hI := H n hn mesh masks hm W F hWf hFf'
  rw [← hcdef] at hI
  set ε := A * (1 / n : ℝ) ^ p with hε
  have hε0 : 0 ≤ ε := by positivity
  -- the difference is a function of the space that is zero at the boundary nodes
  have hEn : NodalFunction mesh p (fun j => u j - us (mesh.coords j)) (fun x => uh x - wh x) := by
    refine ⟨fun e he => ?_, fun j hj => ?_⟩
    · obtain ⟨P, hP, hPe⟩ := hU.piecewise e he
      obtain ⟨R, hR, hRe⟩ := hWn.piecewise e he
      refine ⟨P - R, fun k => ?_, fun x hx => by rw [hPe x hx, hRe x hx, map_sub]⟩
      exact le_trans (degreeOf_sub_le k P R) (max_le (hP k) (hR k))
    · simp only [hU.nodal j hj, hWn.nodal j hj]
  have hEz : ∀ j < mesh.numNodes, OnBoundary mesh a b per j → u j - us (mesh.coords j) = 0 := by
    rintro j hj hbd
    rw [hzero j hj hbd]
    obtain ⟨k, hk, hor⟩ := hbd
    rw [hD _ (hin j hj) k hk hor, sub_self]
  have hwk := hweak _ hEz uh _ fh hU hEn hFn
  unfold WeakForm at hwk
  rw [hcube] at hwk
  obtain ⟨E, hEf, hEe⟩ := hC.nodalFunction hEn
  have hface : ∀ k : Fin d, (k : ℕ) ∉ per → ∀ x ∈ Set.Icc (fun _ : Fin d => a) (fun _ => a + 2 * c * n),
      x k = a ∨ x k = a + 2 * c * n → uh x - wh x = 0 := by
    intro k hk x hx hor
    rcases hor with hor | hor
    · exact hC.zero_on_face hn hEf hEe (Or.inl rfl) (fun j hj hjk => hEz j hj ⟨k, hk, Or.inl hjk⟩) hx hor
    · exact hC.zero_on_face hn hEf hEe (Or.inr rfl) (fun j hj hjk => hEz j hj ⟨k, hk, Or.inr (hjk.trans hbe)⟩) hx hor
  obtain ⟨k0, hk0⟩ := hper
  obtain ⟨iN, iE, g1, g2⟩ := CubeCells.galerkin_error hn hcpos hUe hWe hFe hus2 (ε := ε)
    (fun e he x hx => (hI e he x hx).1) (fun e he x hx => (hI e he x hx).2.2) hwk
    (fun k x hx hor => by
      by_cases hk : (k : ℕ) ∈ per
      · right
        exact hN x (by rw [hcube]; exact hx) k hk (by rwa [hbe] at hor)
      · left
        exact hface k hk x hx hor) k0 (hface k0 hk0)
  rw [← hcube] at iN iE g1 g2
  rw [hbL] at g1 g2
  rw [← hvol] at g1
  have hQm : cube d a b = Set.Icc (fun _ : Fin d => a) (fun _ => b) := rfl
  have iconst : ∀ r : ℝ, IntegrableOn (fun _ : Fin d → ℝ => r) (cube d a b) := fun r => integrableOn_const (by
    rw [hQm]; exact isCompact_Icc.measure_lt_top.ne)
  have i1 : IntegrableOn (fun x => ∑ k, (partialDeriv k uh x - partialDeriv k us x) ^ 2) (cube d a b) := by
    rw [hcube]
    exact CubeCells.integrableOn_cells hn hcpos _ (fun e x => ∑ k, (eval x (pderiv k (U e)) - partialDeriv k us x) ^ 2)
      (fun e => continuous_finset_sum _ fun k _ => ((MvPolynomial.continuous_eval _).sub (hpd k).continuous).pow 2)
      (fun e he x hx => Finset.sum_congr rfl fun k _ => by rw [CubeCells.partial_eq hUe he hx])
  have i2 : IntegrableOn (fun x => (uh x - us x) ^ 2) (cube d a b) := by
    rw [hcube]
    exact CubeCells.integrableOn_cells hn hcpos _ (fun e x => (eval x (U e) - us x) ^ 2)
      (fun e => ((MvPolynomial.continuous_eval _).sub hus.continuous).pow 2)
      (fun e he x hx => by rw [hUe e he x (openCell_sub hx)])
  have hcell := CubeCells.ae_openCell (d := d) (a := a) hn hcpos
  rw [← hcube] at hcell
  have hsq : ∀ {x y e : ℝ}, |x - y| ≤ e → (x - y) ^ 2 ≤ e ^ 2 := fun {x y e} hxy => by
    rw [← sq_abs (x - y)]
    exact pow_le_pow_left₀ (abs_nonneg _) hxy 2
  have ae1 : ∀ᵐ x ∂(volume.restrict (cube d a b)), ∑ k, (partialDeriv k uh x - partialDeriv k us x) ^ 2 ≤
      2 * (∑ k, partialDeriv k (fun x => uh x - wh x) x ^ 2) + 2 * d * ε ^ 2 := by
    filter_upwards [hcell] with x hx
    obtain ⟨e, he, hx⟩ := hx
    have hd' : 2 * (d : ℝ) * ε ^ 2 = ∑ _k : Fin d, 2 * ε ^ 2 := by simp; ring
    rw [hd', Finset.mul_sum, ← Finset.sum_add_distrib]
    refine Finset.sum_le_sum fun k _ => ?_
    have hEe' := partial_sub hWe hUe
    rw [CubeCells.partial_eq hUe he hx, CubeCells.partial_eq hEe' he hx]
    have := hsq ((hI e he x (openCell_sub hx)).2.2 k)
    simp only [map_sub]
    nlinarith [sq_nonneg ((eval x (pderiv k (U e)) - eval x (pderiv k (W e))) + (partialDeriv k us x - eval x (pderiv k (W e))))]
  have ae2 : ∀ᵐ x ∂(volume.restrict (cube d a b)), (uh x - us x) ^ 2 ≤ 2 * (uh x - wh x) ^ 2 + 2 * ε ^ 2 := by
    filter_upwards [hcell] with x hx
    obtain ⟨e, he, hx⟩ := hx
    have := hsq ((hI e he x (openCell_sub hx)).2.1)
    rw [← hWe e he x (openCell_sub hx)] at this
    nlinarith [sq_nonneg ((uh x - wh x) + (us x - wh x))]
  have m1 := integral_mono_ae i1 ((iN.const_mul 2).add (iconst (2 * d * ε ^ 2))) ae1
  have m2 := integral_mono_ae i2 ((iE.const_mul 2).add (iconst (2 * ε ^ 2))) ae2
  rw [integral_add' (iN.const_mul 2) (iconst (2 * d * ε ^ 2)), integral_const_mul, setIntegral_const, smul_eq_mul, ← hvol] at m1
  rw [integral_add' (iE.const_mul 2) (iconst (2 * ε ^ 2)), integral_const_mul, setIntegral_const, smul_eq_mul, ← hvol] at m2
  have hfin : (√C2 * (1 / n : ℝ) ^ p) ^ 2 = (2 * K + 2 * d * vol + (2 * (4 * L ^ 2 * K) + 2 * vol)) * ε ^ 2 := by
    rw [mul_pow, Real.sq_sqrt hC20, hC2, hε]
    ring
  have g1' : ∫ x in cube d a b, ∑ k, partialDeriv k (fun x => uh x - wh x) x ^ 2 ≤ K * ε ^ 2 := by
    rw [hK]; linarith
  have g2' : ∫ x in cube d a b, (uh x - wh x) ^ 2 ≤ 4 * L ^ 2 * (K * ε ^ 2) :=
    le_trans g2 (mul_le_mul_of_nonneg_left g1' (by positivity))
  have hε2 : 0 ≤ ε ^ 2 := sq_nonneg ε
  have p1 : 0 ≤ K * ε ^ 2 := mul_nonneg hK0 hε2
  have p2 : 0 ≤ vol * ε ^ 2 := mul_nonneg hvol0 hε2
  have p3 : 0 ≤ (d : ℝ) * (vol * ε ^ 2) := mul_nonneg (by positivity) p2
  have p4 : 0 ≤ L ^ 2 * (K * ε ^ 2) := mul_nonneg (sq_nonneg L) p1
  rw [hfin]
  have hexp : (2 * K + 2 * d * vol + (2 * (4 * L ^ 2 * K) + 2 * vol)) * ε ^ 2 =
      2 * (K * ε ^ 2) + 2 * (d * (vol * ε ^ 2)) + 8 * (L ^ 2 * (K * ε ^ 2)) + 2 * (vol * ε ^ 2) := by ring
  rw [hexp]
  have q1 : vol * (2 * d * ε ^ 2) = 2 * (d * (vol * ε ^ 2)) := by ring
  have q2 : vol * (2 * ε ^ 2) = 2 * (vol * ε ^ 2) := by ring
  rw [q1] at m1
  rw [q2] at m2
  exact ⟨i1, i2, by linarith, by linarith⟩

/-- The error goes to zero under refinement of the mesh. -/
theorem C100_converges (hd : 1 ≤ d) (hp : 1 ≤ p) (ht : t.hasEnds) (hab : a < b) (hper : ∃ k : Fin d, (k : ℕ) ∉ per)
    (us : (Fin d → ℝ) → ℝ) (hus : ContDiff ℝ (p + 2) us)
    (hD : ∀ x ∈ cube d a b, ∀ k : Fin d, (k : ℕ) ∉ per → x k = a ∨ x k = b → us x = 0)
    (hN : ∀ x ∈ cube d a b, ∀ k : Fin d, (k : ℕ) ∈ per → x k = a ∨ x k = b → partialDeriv k us x = 0) {ε : ℝ} (hε : 0 < ε) :
    ∃ n0, ∀ n, n0 ≤ n → 1 ≤ n → ∀ (mesh : Mesh ℝ d) (masks : List (String × (ℕ → Bool))) (quad : Quadrature1D ℝ),
      cubeMesh n d p t a b per = .ok (mesh, masks) → poissonQuadrature p d = some quad →
      ∀ f : ℕ → ℝ, (∀ j < mesh.numNodes, f j = - ∑ k, partialDeriv k (partialDeriv k us) (mesh.coords j)) →
      ∃ u, solvePoisson mesh quad masks f zeroDirichlet 0 0 = .ok u ∧ ∀ uh, NodalFunction mesh p u uh →
        ∫ x in cube d a b, ∑ k, (partialDeriv k uh x - partialDeriv k us x) ^ 2 < ε ∧
        ∫ x in cube d a b, (uh x - us x) ^ 2 < ε := by
  obtain ⟨C, H⟩ := C100_order hd hp ht hab hper us hus hD hN
  have h1 : Filter.Tendsto (fun n : ℕ => (C * (1 / (n : ℝ)) ^ p) ^ 2) Filter.atTop (nhds ((C * 0 ^ p) ^ 2)) :=
    ((tendsto_one_div_atTop_nhds_zero_nat.pow p).const_mul C).pow 2
  rw [zero_pow (by omega), mul_zero, zero_pow (by norm_num)] at h1
  obtain ⟨n0, hn0⟩ := Filter.eventually_atTop.mp (h1.eventually_lt_const hε)
  refine ⟨n0, fun n hn hn1 mesh masks quad hm hq f hf => ?_⟩
  obtain ⟨u, hu, h2⟩ := H n hn1 mesh masks quad hm hq f hf
  refine ⟨u, hu, fun uh hU => ?_⟩
  obtain ⟨_, _, h3, h4⟩ := h2 uh hU
  exact ⟨lt_of_le_of_lt h3 (hn0 n hn), lt_of_le_of_lt h4 (hn0 n hn)⟩

/-- A solution that is no polynomial: `cos (π x) sin (π y)` on the unit square, periodic along the first axis, with cubic
Gauss-Lobatto-Legendre elements. -/
example : ∃ us : (Fin 2 → ℝ) → ℝ, ContDiff ℝ ((3 : ℕ) + 2) us ∧ us (fun _ => 1 / 4) ≠ 0 ∧
    (∀ x ∈ cube 2 0 1, ∀ k : Fin 2, (k : ℕ) ∉ [0] → x k = 0 ∨ x k = 1 → us x = 0) ∧
    (∀ x ∈ cube 2 0 1, ∀ k : Fin 2, (k : ℕ) ∈ [0] → x k = 0 ∨ x k = 1 → partialDeriv k us x = 0) ∧
    NodeType.hasEnds .gaussLobattoLegendre ∧ (∃ k : Fin 2, (k : ℕ) ∉ [0]) := by
  refine ⟨fun x => Real.cos (Real.pi * x 0) * Real.sin (Real.pi * x 1), ?_, ?_, ?_, ?_, Or.inr rfl, ⟨1, by simp⟩⟩
  · exact (Real.contDiff_cos.comp (contDiff_const.mul (contDiff_apply ℝ ℝ 0))).mul
      (Real.contDiff_sin.comp (contDiff_const.mul (contDiff_apply ℝ ℝ 1)))
  · have h1 : Real.pi * (1 / 4) = Real.pi / 4 := by ring
    simp only [h1, Real.cos_pi_div_four, Real.sin_pi_div_four]
    positivity
  · intro x _ k hk hor
    have hk1 : k = 1 := by
      fin_cases k
      · simp at hk
      · rfl
    subst hk1
    rcases hor with h | h <;> simp [h]
  · intro x _ k hk hor
    have hk0 : k = 0 := by
      fin_cases k
      · rfl
      · simp at hk
    subst hk0
    have h1 : HasDerivAt (fun s : ℝ => Real.cos (Real.pi * (x 0 + s)) * Real.sin (Real.pi * x 1))
        (- Real.sin (Real.pi * (x 0 + 0)) * (Real.pi * 1) * Real.sin (Real.pi * x 1)) 0 :=
      (((hasDerivAt_id (0 : ℝ)).const_add (x 0)).const_mul Real.pi).cos.mul_const _
    have h2 : HasLineDerivAt ℝ (fun x : Fin 2 → ℝ => Real.cos (Real.pi * x 0) * Real.sin (Real.pi * x 1))
        (- Real.sin (Real.pi * (x 0 + 0)) * (Real.pi * 1) * Real.sin (Real.pi * x 1)) x (Pi.single 0 1) := by
      unfold HasLineDerivAt
      refine h1.congr_of_eventuallyEq (Filter.Eventually.of_forall fun s => ?_)
      simp
    unfold partialDeriv
    rw [h2.lineDeriv]
    rcases hor with h | h <;> simp [h]

end Verif.Core
