import Verif.Lemmas.CubeWork
import Verif.Props.C118

/-!
# C122: the work of the advection term

On a periodic cube the advection of a flow without divergence moves kinetic energy around and does no work: the sum of the
products of `C(u)` and `u` over the nodes should be zero for the velocities of the solver. The form `(u·∇)u` of the advection
term does no work only as far as the divergence vanishes at every point.
-/

namespace Verif.NS

open Verif.Core Verif.Linalg Verif.Spec MeasureTheory MvPolynomial

variable {n d p over : ℕ} {a b : ℝ} {per : List ℕ}

/-- The work of the advection term on the velocity. -/
noncomputable def advectionWork {d : ℕ} (cs : CubeStokes d) (u : Vel ℝ d) : ℝ :=
  ∑ j ∈ Finset.range cs.vmesh.numNodes, ∑ k, u j k * cs.sem.C u j k

/-- Equal values on the nodes of the same point of the periodic cube. -/
def SingleValued {d : ℕ} (cs : CubeStokes d) (a b : ℝ) (per : List ℕ) (u : Vel ℝ d) : Prop :=
  ∀ i < cs.vmesh.numNodes, ∀ j < cs.vmesh.numNodes, SamePoint cs.vmesh a b per i j → u i = u j

/-- With `2 overintegration ≥ p + 1` the work is the integral of `((u·∇)u)·u`, which is minus one half of the integral of
the square of the velocity times its divergence. -/
theorem C122_work {cs : CubeStokes d} (hn : 1 ≤ n) (hd : 1 ≤ d) (hp : 3 ≤ p) (hab : a < b) (hover : p + 1 ≤ 2 * over)
    (hper : ∀ k : Fin d, (k : ℕ) ∈ per) (hcs : cubeStokes n d p over a b per [] = .ok cs) {u : Vel ℝ d}
    (hu : SingleValued cs a b per u) {uh : Fin d → (Fin d → ℝ) → ℝ} (huh : ∀ k, NodalFunction cs.vmesh p (fun j => u j k) (uh k)) :
    advectionWork cs u = ∫ x in cube d a b, ∑ i, ∑ k, uh i x * partialDeriv i (uh k) x * uh k x ∧
    advectionWork cs u = -(1 / 2) * ∫ x in cube d a b, (∑ k, uh k x ^ 2) * ∑ j, partialDeriv j (uh j) x := by
  have hb : CubeBCs d per [] := Or.inr rfl
  obtain ⟨vnode, pnode, l, h⟩ := cubeStokes_of hn hd hp hab hb hcs
  have hC := h.vcube.cells
  have hU := fun k => hC.nodalFunction (huh k)
  choose U hU using hU
  have g1 := CubeCells.global (a := a) (c := (b - a) / (2 * n)) hn hC.width
    (fun x => ∑ i, ∑ k, uh i x * partialDeriv i (uh k) x * uh k x) (fun e => ∑ i, ∑ k, U i e * pderiv i (U k e) * U k e)
    (fun e he x hx => by
      rw [map_sum]
      refine Finset.sum_congr rfl fun i _ => ?_
      rw [map_sum]
      refine Finset.sum_congr rfl fun k _ => ?_
      rw [map_mul, map_mul, (hU i).2 e he x (openCell_sub hx), (hU k).2 e he x (openCell_sub hx),
        CubeCells.partial_eq (hU k).2 he hx i])
  have g2 := CubeCells.global (a := a) (c := (b - a) / (2 * n)) hn hC.width
    (fun x => (∑ k, uh k x ^ 2) * ∑ j, partialDeriv j (uh j) x) (fun e => (∑ k, U k e ^ 2) * ∑ j, pderiv j (U j e))
    (fun e he x hx => by
      rw [map_mul, map_sum, map_sum]
      congr 1
      · refine Finset.sum_congr rfl fun k _ => ?_
        rw [map_pow, (hU k).2 e he x (openCell_sub hx)]
      · exact Finset.sum_congr rfl fun j _ => CubeCells.partial_eq (hU j).2 he hx j)
  rw [← cube_eq hn] at g1 g2
  have hw : advectionWork cs u = _ := h.conv_work hcs hover hn (fun k => (hU k).1)
  refine ⟨by rw [hw, g1.2], ?_⟩
  rw [hw, g2.2]
  exact h.work_parts hn hper (fun k => (hU k).1)
    (fun k i hi j hj hs => congrFun (hu i hi j hj ((h.same_iff hi hj).mp hs)) k)

/-- The advection of a velocity without divergence at every point inside the elements does no work, with enough
quadrature points. Missing: the velocities of the solver, whose divergence is only orthogonal to the pressures
(`C122_violated`), and fewer quadrature points. -/
theorem C122_partial {cs : CubeStokes d} (hn : 1 ≤ n) (hd : 1 ≤ d) (hp : 3 ≤ p) (hab : a < b) (hover : p + 1 ≤ 2 * over)
    (hper : ∀ k : Fin d, (k : ℕ) ∈ per) (hcs : cubeStokes n d p over a b per [] = .ok cs) {u : Vel ℝ d}
    (hu : SingleValued cs a b per u) {uh : Fin d → (Fin d → ℝ) → ℝ} (huh : ∀ k, NodalFunction cs.vmesh p (fun j => u j k) (uh k))
    (hdiv : ∀ e < cs.vmesh.numElements, ∀ x ∈ interior (elementBox cs.vmesh e), ∑ j, partialDeriv j (uh j) x = 0) :
    advectionWork cs u = 0 := by
  rw [(C122_work hn hd hp hab hover hper hcs hu huh).2]
  have hb : CubeBCs d per [] := Or.inr rfl
  obtain ⟨vnode, pnode, l, h⟩ := cubeStokes_of hn hd hp hab hb hcs
  have hC := h.vcube.cells
  have g := CubeCells.global (a := a) (c := (b - a) / (2 * n)) hn hC.width
    (fun x => (∑ k, uh k x ^ 2) * ∑ j, partialDeriv j (uh j) x) (fun _ => 0) (fun e he x hx => by
      rw [hdiv e (by rw [hC.num]; exact he) x (by
        rw [hC.box he]; exact interior_maximal openCell_sub openCell_open hx), mul_zero, map_zero])
  rw [← cube_eq hn] at g
  rw [g.2]
  simp

/-- For every mesh, order and number of extra quadrature points, the work on velocities that satisfy the constraints of the
solver takes every value. -/
theorem C122_violated {cs : CubeStokes 2} (hn : 1 ≤ n) (hp : 3 ≤ p) (hab : a < b) (hover : 1 ≤ over)
    (hper : ∀ k : Fin 2, (k : ℕ) ∈ per) (hcs : cubeStokes n 2 p over a b per [] = .ok cs) (r : ℝ) :
    ∃ u : Vel ℝ 2, SingleValued cs a b per u ∧ cs.sem.D u = 0 ∧ advectionWork cs u = r := by
  have hb : CubeBCs 2 per [] := Or.inr rfl
  obtain ⟨vnode, pnode, l, h⟩ := cubeStokes_of hn (by norm_num) hp hab hb hcs
  obtain ⟨_, _, hvm, _⟩ := (h.setup hn hb).fields
  obtain ⟨v, hv, hD, hN⟩ := h.exists_source hcs hover hn hp
  set c := (r - advectionWork cs v) / ∑ j ∈ Finset.range cs.vmesh.numNodes, cs.sem.C v j 0 with hc
  have hT : v + c • CubeSEM.unitVel cs 0 ∈ TSpace cs.sem := (TSpace cs.sem).add_mem hv ((TSpace cs.sem).smul_mem c (h.unitVel_mem hn 0))
  refine ⟨v + c • CubeSEM.unitVel cs 0, fun i hi j hj hij => ?_, ?_, ?_⟩
  · funext k
    have := hT.2 k
    rw [hvm] at this
    exact this i hi j hj ((h.same_iff hi hj).mpr hij)
  · have := (DLin cs.sem).map_add v (c • CubeSEM.unitVel cs 0)
    rw [(DLin cs.sem).map_smul] at this
    refine Eq.trans this ?_
    have e1 : DLin cs.sem v = 0 := hD
    have e2 : DLin cs.sem (CubeSEM.unitVel cs 0) = 0 := h.unitVel_div hn hp 0
    rw [e1, e2, smul_zero, add_zero]
  · have hw : advectionWork cs (v + c • CubeSEM.unitVel cs 0) = advectionWork cs v +
        c * ∑ j ∈ Finset.range cs.vmesh.numNodes, cs.sem.C v j 0 := h.work_shift hcs hover hn hper hv 0 c
    rw [hw, hc, div_mul_cancel₀ _ hN]
    ring

/-- The hypotheses hold on four by four elements of order three; the velocity of the first part is the shear flow
`(y (1 - y), 0)`. -/
example : ∃ cs : CubeStokes 2, cubeStokes 4 2 3 2 0 1 [0, 1] [] = .ok cs ∧
    (∃ u : Vel ℝ 2, (∀ j k, u j k = if k = 0 then cs.vmesh.coords j 1 * (1 - cs.vmesh.coords j 1) else 0) ∧ advectionWork cs u = 0) ∧
    ∃ u : Vel ℝ 2, cs.sem.D u = 0 ∧ advectionWork cs u = -1000 := by
  have hb : CubeBCs 2 [0, 1] [] := Or.inr rfl
  have hper : ∀ k : Fin 2, (k : ℕ) ∈ [0, 1] := fun k => by fin_cases k <;> simp
  obtain ⟨cs, hcs⟩ := C92_create (over := 2) (n := 4) (d := 2) (p := 3) (a := 0) (b := 1) (by norm_num) (by norm_num)
    (by norm_num) (by norm_num) [0, 1] hb
  refine ⟨cs, hcs, ⟨_, fun _ _ => rfl, ?_⟩, ?_⟩
  · refine C122_partial (by norm_num) (by norm_num) (by norm_num) (by norm_num) (by norm_num) hper hcs (fun i _ j _ hij => ?_)
      (uh := fun k x => eval x (if k = 0 then X 1 * (1 - X 1) else 0)) (fun k => ⟨fun e _ => ⟨_, fun κ => ?_, fun x _ => rfl⟩,
        fun j _ => ?_⟩) fun e _ x _ => ?_
    · funext k
      rcases hij 1 with h1 | ⟨_, h1 | h1⟩
      · rw [h1]
      · rw [h1.1, h1.2]; norm_num
      · rw [h1.1, h1.2]; norm_num
    · split_ifs
      · refine (degreeOf_mul_le κ _ _).trans ?_
        have h1 : degreeOf κ (X 1 : MvPolynomial (Fin 2) ℝ) ≤ 1 := by
          rw [degreeOf_X]; split_ifs <;> norm_num
        have h2 : degreeOf κ (1 - X 1 : MvPolynomial (Fin 2) ℝ) ≤ 1 := by
          refine (degreeOf_sub_le κ _ _).trans (max_le ?_ h1)
          rw [degreeOf_one]; norm_num
        omega
      · simp
    · by_cases hk : k = 0 <;> simp [hk]
    · rw [Fin.sum_univ_two]
      have h0 : ∀ (P : MvPolynomial (Fin 2) ℝ) k, partialDeriv k (fun x => eval x P) x = eval x (pderiv k P) :=
        fun P k => (hasLineDerivAt_eval P k x).lineDeriv
      rw [h0, h0]
      simp
  · obtain ⟨u, _, h1, h2⟩ := C122_violated (by norm_num) (by norm_num) (by norm_num) (by norm_num) hper hcs (-1000)
    exact ⟨u, h1, h2⟩

end Verif.NS
