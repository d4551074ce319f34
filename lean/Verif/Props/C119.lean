import Verif.Lemmas.CubeAdvect
import Verif.Props.C104
import Verif.Props.C118

/-!
# C119: momentum in the steps of niles/train.py

On a periodic square the advection moves momentum around, so that a step should change the momentum by the force alone. The
advection term of the solver is `(u·∇)u`, which conserves momentum only as far as the divergence vanishes at every point. The
velocities of the solver have a divergence that is orthogonal to the pressures, which is less.
-/

namespace Verif.Niles

open Verif.Core Verif.NS Verif.Linalg Verif.Spec MeasureTheory MvPolynomial

variable {n p over : ℕ} {a b : ℝ} {per : List ℕ} {cs : CubeStokes 2} {wave : ℝ → ℝ} {c : SolverConfig ℝ}

/-- The nodal force of a step: the closure term, the Kolmogorov forcing and the drag at the last velocity. -/
def nodalForce (mesh : Mesh ℝ 2) (wave : ℝ → ℝ) (drag : ℝ) (f u : Vel ℝ 2) : Vel ℝ 2 :=
  fun j l => f j l + ((if l = 0 then wave (mesh.coords j 1) else 0) - drag * u j l)

section Step

variable {sem : StokesSEM ℝ 2} {low : Nodes1D ℝ}

/-- A step of the solver as a Stokes step. -/
theorem solveStep_ofFn {K : ℕ} (hk : c.timeOrder = K + 1) {e : Fin (K + 1) → ℝ} (he : extkCoeffs K = some e)
    (U : Fin (K + 1) → Vel ℝ 2) (ps : List (ℕ → ℝ)) (f : Vel ℝ 2) (hre : c.reynolds ≠ 0) :
    solveStep low wave c sem (List.ofFn U) ps (List.ofFn (fun i => sem.C (U i))) f =
      match sem.oneStep low (List.ofFn U) ps
        (-(∑ i, e i • sem.C (U i)) + sem.B (nodalForce sem.vspace.mesh wave c.drag f (U (Fin.last K))))
        (1 / c.reynolds) c.dt (K + 1) c.alpha none none true 0 c.atol with
      | .error e => .error e
      | .ok st => .ok (st.u, st.p, sem.C st.u) := by
  have hlast : (List.ofFn U).getLast? = some (U (Fin.last K)) := by
    rw [List.getLast?_eq_getElem?, List.length_ofFn, List.getElem?_ofFn]
    simp [Fin.last]
  unfold solveStep
  rw [hk, Nat.add_sub_cancel, extAdvection_ofFn K e he]
  simp only [hlast, if_neg hre]
  have e1 : (fun q l => -∑ i, e i * sem.C (U i) q l + sem.B (fun q k => f q k +
      kolmogorov wave c.drag (sem.vspace.mesh.coords q) (U (Fin.last K) q) k) q l) =
      -(∑ i, e i • sem.C (U i)) + sem.B (nodalForce sem.vspace.mesh wave c.drag f (U (Fin.last K))) := by
    funext q l
    simp [Finset.sum_apply]
    rfl
  rw [e1]
  cases sem.oneStep low (List.ofFn U) ps
    (-∑ i, e i • sem.C (U i) + sem.B (nodalForce sem.vspace.mesh wave c.drag f (U (Fin.last K)))) (1 / c.reynolds)
    c.dt (K + 1) c.alpha none none true 0 c.atol <;> rfl

end Step

/-- The total of the convection operator along an axis, for a single valued velocity on the periodic square. -/
theorem C119_advection (hn : 1 ≤ n) (hp : 3 ≤ p) (hab : a < b) (hover : 1 ≤ over)
    (hper : ∀ k : Fin 2, (k : ℕ) ∈ per) (hcs : cubeStokes n 2 p over a b per [] = .ok cs) (u : Vel ℝ 2)
    (hu : ∀ i < cs.vmesh.numNodes, ∀ j < cs.vmesh.numNodes, SamePoint cs.vmesh a b per i j → u i = u j)
    {uh : Fin 2 → (Fin 2 → ℝ) → ℝ} (huh : ∀ k, NodalFunction cs.vmesh p (fun j => u j k) (uh k)) (k : Fin 2) :
    ∑ j ∈ Finset.range cs.vmesh.numNodes, cs.sem.C u j k = ∫ x in cube 2 a b, ∑ j, uh j x * partialDeriv j (uh k) x ∧
    ∑ j ∈ Finset.range cs.vmesh.numNodes, cs.sem.C u j k = -∫ x in cube 2 a b, (∑ j, partialDeriv j (uh j) x) * uh k x := by
  have hb : CubeBCs 2 per [] := Or.inr rfl
  obtain ⟨vnode, pnode, l, h⟩ := cubeStokes_of hn (by norm_num) hp hab hb hcs
  have hC := h.vcube.cells
  have hU := fun k => hC.nodalFunction (huh k)
  choose U hU using hU
  have g1 := CubeCells.global (a := a) (c := (b - a) / (2 * n)) hn hC.width
    (fun x => ∑ j, uh j x * partialDeriv j (uh k) x) (fun e => ∑ j, U j e * pderiv j (U k e)) (fun e he x hx => by
      rw [map_sum]
      refine Finset.sum_congr rfl fun j _ => ?_
      rw [map_mul, (hU j).2 e he x (openCell_sub hx), CubeCells.partial_eq (hU k).2 he hx j])
  have g2 := CubeCells.global (a := a) (c := (b - a) / (2 * n)) hn hC.width
    (fun x => (∑ j, partialDeriv j (uh j) x) * uh k x) (fun e => (∑ j, pderiv j (U j e)) * U k e) (fun e he x hx => by
      rw [map_mul, map_sum, (hU k).2 e he x (openCell_sub hx)]
      congr 1
      refine Finset.sum_congr rfl fun j _ => ?_
      exact CubeCells.partial_eq (hU j).2 he hx j)
  rw [← cube_eq hn] at g1 g2
  have hCt := h.conv_total hcs hover hn (fun k => (hU k).1) k
  refine ⟨by rw [hCt, g1.2], ?_⟩
  rw [hCt, g2.2]
  exact h.conv_parts hn hper (fun k => (hU k).1)
    (fun k i hi j hj hs => congrFun (hu i hi j hj ((h.same_iff hi hj).mp hs)) k) k

/-- The momentum balance of every step: the backward differences of the momenta divided by the step size are the integral of
the force, plus the integral of the extrapolated product of divergence and velocity, within the tolerance of the solver. -/
theorem C119_balance (hn : 1 ≤ n) (hp : 3 ≤ p) (hab : a < b) (hover : 1 ≤ over)
    (hper : ∀ k : Fin 2, (k : ℕ) ∈ per) (hcs : cubeStokes n 2 p over a b per [] = .ok cs) {K : ℕ} (hk : c.timeOrder = K + 1)
    (hre : 0 < c.reynolds) (hdt : 0 < c.dt) {e : Fin (K + 1) → ℝ} (he : extkCoeffs K = some e) {bd : Fin (K + 2) → ℝ}
    (hbd : bdfkCoeffs (K + 1) = some bd) (U : Fin (K + 1) → Vel ℝ 2) {ps : List (ℕ → ℝ)} {f u cu : Vel ℝ 2} {q : ℕ → ℝ}
    (hU : ∀ m, ∀ i < cs.vmesh.numNodes, ∀ j < cs.vmesh.numNodes, SamePoint cs.vmesh a b per i j → U m i = U m j)
    (hst : solveStep cs.low wave c cs.sem (List.ofFn U) ps (List.ofFn (fun i => cs.sem.C (U i))) f = .ok (u, q, cu))
    {Uh : Fin (K + 1) → Fin 2 → (Fin 2 → ℝ) → ℝ} {uh fh : Fin 2 → (Fin 2 → ℝ) → ℝ}
    (hUh : ∀ i k, NodalFunction cs.vmesh p (fun j => U i j k) (Uh i k)) (huh : ∀ k, NodalFunction cs.vmesh p (fun j => u j k) (uh k))
    (hfh : ∀ k, NodalFunction cs.vmesh p (fun j => nodalForce cs.vmesh wave c.drag f (U (Fin.last K)) j k) (fh k)) (k : Fin 2) :
    |((∑ i, bd i.castSucc * ∫ x in cube 2 a b, Uh i k x) + bd (Fin.last (K + 1)) * ∫ x in cube 2 a b, uh k x) / c.dt -
        ((∫ x in cube 2 a b, fh k x) + ∑ i, e i * ∫ x in cube 2 a b, (∑ j, partialDeriv j (Uh i j) x) * Uh i k x)| ≤
      Real.sqrt cs.vmesh.numNodes * |c.atol| := by
  have hb : CubeBCs 2 per [] := Or.inr rfl
  obtain ⟨vnode, pnode, l, h⟩ := cubeStokes_of hn (by norm_num) hp hab hb hcs
  have H := h.setup hn hb
  obtain ⟨_, _, hvm, _⟩ := H.fields
  rw [solveStep_ofFn hk he U ps f hre.ne'] at hst
  split at hst
  · cases hst
  rename_i st hst'
  simp only [Except.ok.injEq, Prod.mk.injEq] at hst
  obtain ⟨rfl, _, _⟩ := hst
  rw [hvm] at hst'
  have hmem : -(∑ i, e i • cs.sem.C (U i)) + cs.sem.B (nodalForce cs.vmesh wave c.drag f (U (Fin.last K))) ∈ VSpace cs.sem :=
    (VSpace cs.sem).add_mem ((VSpace cs.sem).neg_mem ((VSpace cs.sem).sum_mem fun i _ => (VSpace cs.sem).smul_mem _ (C_mem _)))
      (B_mem H.massOutside)
  obtain ⟨⟨z, hz⟩, key⟩ := C118_step hn (by norm_num) hp hab hcs U hbd (by positivity) hdt ((H.mem_VSpace _).mp hmem).2 hst'
  have g := key k (fun i => Uh i k) (uh k) (fun i => hUh i k) (huh k)
  have hF : ∑ j ∈ Finset.range cs.vmesh.numNodes,
      (-(∑ i, e i • cs.sem.C (U i)) + cs.sem.B (nodalForce cs.vmesh wave c.drag f (U (Fin.last K)))) j k =
      (∫ x in cube 2 a b, fh k x) + ∑ i, e i * ∫ x in cube 2 a b, (∑ j, partialDeriv j (Uh i j) x) * Uh i k x := by
    simp only [Pi.add_apply, Pi.neg_apply, Finset.sum_apply, Pi.smul_apply, smul_eq_mul]
    rw [Finset.sum_add_distrib, C118_force hn (by norm_num) hp hab hcs _ k (hfh k), add_comm, Finset.sum_neg_distrib, Finset.sum_comm,
      ← Finset.sum_neg_distrib]
    congr 1
    refine Finset.sum_congr rfl fun i _ => ?_
    rw [← Finset.mul_sum, (C119_advection hn hp hab hover hper hcs (U i) (hU i) (hUh i) k).2]
    ring
  rw [hF] at g
  refine g.trans ?_
  have hz0 : st.uResidual ≤ c.atol ^ 2 := by
    refine hz.trans (le_of_eq ?_)
    rw [max_eq_right]
    simp [sq_nonneg]
  rw [← Real.sqrt_sq_eq_abs, ← Real.sqrt_mul (Nat.cast_nonneg _)]
  exact Real.sqrt_le_sqrt (mul_le_mul_of_nonneg_left hz0 (Nat.cast_nonneg _))

/-- What is asked of a step: the momentum changes by the force alone, within the tolerance of the solver. -/
def MomentumBalance (p : ℕ) (a b : ℝ) (cs : CubeStokes 2) (wave : ℝ → ℝ) (c : SolverConfig ℝ) {K : ℕ} (bd : Fin (K + 2) → ℝ)
    (U : Fin (K + 1) → Vel ℝ 2) (f u : Vel ℝ 2) (tol : ℝ) : Prop :=
  ∀ (k : Fin 2) (Uh : Fin (K + 1) → (Fin 2 → ℝ) → ℝ) (uh fh : (Fin 2 → ℝ) → ℝ),
    (∀ i, NodalFunction cs.vmesh p (fun j => U i j k) (Uh i)) → NodalFunction cs.vmesh p (fun j => u j k) uh →
    NodalFunction cs.vmesh p (fun j => nodalForce cs.vmesh wave c.drag f (U (Fin.last K)) j k) fh →
    |((∑ i, bd i.castSucc * ∫ x in cube 2 a b, Uh i x) + bd (Fin.last (K + 1)) * ∫ x in cube 2 a b, uh x) / c.dt -
      ∫ x in cube 2 a b, fh x| ≤ tol

/-- Steps from velocities without divergence at every point inside the elements conserve momentum. Missing: the histories of
the solver, whose divergence is only orthogonal to the pressures (`C119_violated`). -/
theorem C119_partial (hn : 1 ≤ n) (hp : 3 ≤ p) (hab : a < b) (hover : 1 ≤ over)
    (hper : ∀ k : Fin 2, (k : ℕ) ∈ per) (hcs : cubeStokes n 2 p over a b per [] = .ok cs) {K : ℕ} (hk : c.timeOrder = K + 1)
    (hK : 1 ≤ K) (hre : 0 < c.reynolds) (hdt : 0 < c.dt) {bd : Fin (K + 2) → ℝ}
    (hbd : bdfkCoeffs (K + 1) = some bd) (U : Fin (K + 1) → Vel ℝ 2) {ps : List (ℕ → ℝ)} {f u cu : Vel ℝ 2} {q : ℕ → ℝ}
    (hU : ∀ m, ∀ i < cs.vmesh.numNodes, ∀ j < cs.vmesh.numNodes, SamePoint cs.vmesh a b per i j → U m i = U m j)
    (hdiv : ∀ i, ∃ Uh : Fin 2 → (Fin 2 → ℝ) → ℝ, (∀ k, NodalFunction cs.vmesh p (fun j => U i j k) (Uh k)) ∧
      ∀ e < cs.vmesh.numElements, ∀ x ∈ interior (elementBox cs.vmesh e), ∑ j, partialDeriv j (Uh j) x = 0)
    (hst : solveStep cs.low wave c cs.sem (List.ofFn U) ps (List.ofFn (fun i => cs.sem.C (U i))) f = .ok (u, q, cu)) :
    MomentumBalance p a b cs wave c bd U f u (Real.sqrt cs.vmesh.numNodes * |c.atol|) := by
  intro k Uh uh fh hUh huh hfh
  have hb : CubeBCs 2 per [] := Or.inr rfl
  obtain ⟨vnode, pnode, l, h⟩ := cubeStokes_of hn (by norm_num) hp hab hb hcs
  have hC := h.vcube.cells
  obtain ⟨e, he, _⟩ := extk_exists (K := ℝ) K hK
  choose V hV hdiv using hdiv
  have hu' : ∀ κ, ∃ vh, NodalFunction cs.vmesh p (fun j => u j κ) vh := fun κ => hC.exists_nodalFunction _
  choose u' hu' using hu'
  have hf' : ∀ κ, ∃ vh, NodalFunction cs.vmesh p (fun j => nodalForce cs.vmesh wave c.drag f (U (Fin.last K)) j κ) vh :=
    fun κ => hC.exists_nodalFunction _
  choose f' hf' using hf'
  have g := C119_balance hn hp hab hover hper hcs hk hre hdt he hbd U hU hst hV hu' hf' k
  have huniq : ∀ {w : ℕ → ℝ} {w1 w2 : (Fin 2 → ℝ) → ℝ}, NodalFunction cs.vmesh p w w1 → NodalFunction cs.vmesh p w w2 →
      ∫ x in cube 2 a b, w1 x = ∫ x in cube 2 a b, w2 x := by
    intro w w1 w2 h1 h2
    rw [← h.mass_cube hn hb (u := fun j _ => w j) (k := 0) h1, ← h.mass_cube hn hb (u := fun j _ => w j) (k := 0) h2]
  have hzero : ∀ i, ∫ x in cube 2 a b, (∑ j, partialDeriv j (V i j) x) * V i k x = 0 := by
    intro i
    have g := CubeCells.global (a := a) (c := (b - a) / (2 * n)) hn hC.width
      (fun x => (∑ j, partialDeriv j (V i j) x) * V i k x) (fun _ => 0) (fun e he x hx => by
        rw [hdiv i e (by rw [hC.num]; exact he) x (by
          rw [hC.box he]; exact interior_maximal openCell_sub openCell_open hx), zero_mul, map_zero])
    rw [← cube_eq hn] at g
    rw [g.2]
    simp
  simp only [hzero, mul_zero, Finset.sum_const_zero, add_zero] at g
  rw [huniq huh (hu' k), huniq hfh (hf' k), Finset.sum_congr rfl fun i _ => by rw [huniq (hUh i) (hV i k)]]
  exact g

/-- Steps from every history succeed. -/
theorem exists_solveStep (hn : 1 ≤ n) (hp : 3 ≤ p) (hab : a < b)
    (hper : ∀ k : Fin 2, (k : ℕ) ∈ per) (hcs : cubeStokes n 2 p over a b per [] = .ok cs) {K : ℕ} (hk : c.timeOrder = K + 1)
    (hK : 1 ≤ K) (hre : 0 < c.reynolds) (hdt : 0 < c.dt) (U : Fin (K + 1) → Vel ℝ 2) {ps : List (ℕ → ℝ)} (hps : 2 ≤ ps.length)
    (f : Vel ℝ 2) : ∃ u q cu, solveStep cs.low wave c cs.sem (List.ofFn U) ps
      (List.ofFn fun i => cs.sem.C (U i)) f = .ok (u, q, cu) := by
  have hb : CubeBCs 2 per [] := Or.inr rfl
  obtain ⟨vnode, pnode, l, h⟩ := cubeStokes_of hn (by norm_num) hp hab hb hcs
  have H := h.setup hn hb
  obtain ⟨e, he, _⟩ := extk_exists (K := ℝ) K hK
  have hmem : -(∑ i, e i • cs.sem.C (U i)) + cs.sem.B (nodalForce cs.sem.vspace.mesh wave c.drag f (U (Fin.last K))) ∈ VSpace cs.sem :=
    (VSpace cs.sem).add_mem ((VSpace cs.sem).neg_mem ((VSpace cs.sem).sum_mem fun i _ => (VSpace cs.sem).smul_mem _ (C_mem _)))
      (B_mem H.massOutside)
  obtain ⟨st, hst, _⟩ := C42_step (us := List.ofFn U) (tol := 0) (atol := c.atol)
    (h.stepSetup hn hp hab hb c.alpha true fun _ => Or.inr hper) ((H.mem_VSpace _).mp hmem).1 ((H.mem_VSpace _).mp hmem).2
    (mu := 1 / c.reynolds) (by positivity) hdt (by omega : 1 ≤ K + 1) hps
  exact ⟨st.u, st.p, cs.sem.C st.u, by rw [solveStep_ofFn hk he U ps f hre.ne', hst]⟩

/-- For every mesh, order, solver configuration, closure term and forcing, and every bound, there is a velocity that satisfies
the constraints of the solver, and from whose history a step succeeds and breaks the momentum balance by more than the bound. -/
theorem C119_violated (hn : 1 ≤ n) (hp : 3 ≤ p) (hab : a < b) (hover : 1 ≤ over)
    (hper : ∀ k : Fin 2, (k : ℕ) ∈ per) (hcs : cubeStokes n 2 p over a b per [] = .ok cs) {K : ℕ} (hk : c.timeOrder = K + 1)
    (hK : 1 ≤ K) (hre : 0 < c.reynolds) (hdt : 0 < c.dt) {bd : Fin (K + 2) → ℝ}
    (hbd : bdfkCoeffs (K + 1) = some bd) {ps : List (ℕ → ℝ)} (hps : 2 ≤ ps.length) (f : Vel ℝ 2) (bound : ℝ) :
    ∃ v : Vel ℝ 2, (∀ i < cs.vmesh.numNodes, ∀ j < cs.vmesh.numNodes, SamePoint cs.vmesh a b per i j → v i = v j) ∧
      cs.sem.D v = 0 ∧ ∃ u q cu, solveStep cs.low wave c cs.sem (List.ofFn fun _ : Fin (K + 1) => v) ps
        (List.ofFn fun _ : Fin (K + 1) => cs.sem.C v) f = .ok (u, q, cu) ∧
      ¬ MomentumBalance p a b cs wave c bd (fun _ => v) f u bound := by
  have hb : CubeBCs 2 per [] := Or.inr rfl
  obtain ⟨vnode, pnode, l, h⟩ := cubeStokes_of hn (by norm_num) hp hab hb hcs
  have hC := h.vcube.cells
  have H := h.setup hn hb
  obtain ⟨_, _, hvm, _⟩ := H.fields
  obtain ⟨e, he, _⟩ := extk_exists (K := ℝ) K hK
  obtain ⟨v0, hv0, hD0, hN⟩ := h.exists_source hcs hover hn hp
  set N := ∑ j ∈ Finset.range cs.vmesh.numNodes, cs.sem.C v0 j 0 with hNdef
  set tol := Real.sqrt cs.vmesh.numNodes * |c.atol| with htol
  have htol0 : 0 ≤ tol := by positivity
  have hNpos : 0 < |N| := abs_pos.mpr hN
  set s := Real.sqrt ((|bound| + tol + 1) / |N|) with hs
  have hs2 : s ^ 2 * |N| = |bound| + tol + 1 := by
    rw [hs, Real.sq_sqrt (by positivity)]
    field_simp
  have hvT : s • v0 ∈ TSpace cs.sem := (TSpace cs.sem).smul_mem s hv0
  have hsame : ∀ i < cs.vmesh.numNodes, ∀ j < cs.vmesh.numNodes, SamePoint cs.vmesh a b per i j → (s • v0) i = (s • v0) j := by
    intro i hi j hj hij
    funext k
    have := hvT.2 k
    rw [hvm] at this
    exact this i hi j hj ((h.same_iff hi hj).mpr hij)
  have hCs : ∑ j ∈ Finset.range cs.vmesh.numNodes, cs.sem.C (s • v0) j 0 = s ^ 2 * N := by
    rw [C71_quadratic H, hNdef, Finset.mul_sum]
    rfl
  have hDs : cs.sem.D (s • v0) = 0 := by
    have := (DLin cs.sem).map_smul s v0
    rw [show DLin cs.sem v0 = 0 from hD0, smul_zero] at this
    exact this
  obtain ⟨u, q, cu, hsol⟩ := exists_solveStep (wave := wave) hn hp hab hper hcs hk hK hre hdt (fun _ => s • v0) hps f
  refine ⟨s • v0, hsame, hDs, u, q, cu, hsol, fun hbal => ?_⟩
  have hV : ∀ κ, ∃ vh, NodalFunction cs.vmesh p (fun j => (s • v0) j κ) vh := fun κ => hC.exists_nodalFunction _
  choose V hV using hV
  have hu' : ∀ κ, ∃ vh, NodalFunction cs.vmesh p (fun j => u j κ) vh := fun κ => hC.exists_nodalFunction _
  choose u' hu' using hu'
  have hf' : ∀ κ, ∃ vh, NodalFunction cs.vmesh p (fun j => nodalForce cs.vmesh wave c.drag f (s • v0) j κ) vh :=
    fun κ => hC.exists_nodalFunction _
  choose f' hf' using hf'
  have g := C119_balance hn hp hab hover hper hcs hk hre hdt he hbd (fun _ => s • v0) (fun _ => hsame) hsol (fun _ => hV) hu' hf' 0
  have g' := hbal 0 (fun _ => V 0) (u' 0) (f' 0) (fun _ => hV 0) (hu' 0) (hf' 0)
  have hadv := (C119_advection hn hp hab hover hper hcs (s • v0) hsame hV 0).2
  rw [hCs] at hadv
  have hI : ∫ x in cube 2 a b, (∑ j, partialDeriv j (V j) x) * V 0 x = -(s ^ 2 * N) := by linarith
  simp only [hI] at g
  have he1 : ∑ i, e i * -(s ^ 2 * N) = -(s ^ 2 * N) := by rw [← Finset.sum_mul, C36_sum_one K e he, one_mul]
  rw [he1] at g
  have h1 : |s ^ 2 * N| ≤ bound + tol := by
    set R := ((∑ i : Fin (K + 1), bd i.castSucc * ∫ x in cube 2 a b, V 0 x) + bd (Fin.last (K + 1)) * ∫ x in cube 2 a b, u' 0 x) / c.dt
    set F := ∫ x in cube 2 a b, f' 0 x
    have := abs_sub (R - (F + -(s ^ 2 * N))) (R - F)
    rw [show R - (F + -(s ^ 2 * N)) - (R - F) = s ^ 2 * N by ring] at this
    linarith
  rw [abs_mul, abs_of_nonneg (sq_nonneg s), hs2] at h1
  have := le_abs_self bound
  linarith

/-- The hypotheses of `C119_partial` and `C119_violated` hold on a mesh of four by four elements; the history of the first is
the shear flow `(y (1 - y), 0)`. -/
example : ∃ cs : CubeStokes 2, cubeStokes 4 2 5 2 0 1 [0, 1] [] = .ok cs ∧
    ∀ c : SolverConfig ℝ, c = ⟨3, 1000, 1/100, 1/20, 1/10, 1/10, 4, 2, false⟩ → ∃ bd : Fin 4 → ℝ, bdfkCoeffs 3 = some bd ∧
    (∃ U : Fin 3 → Vel ℝ 2, (∀ m j k, U m j k = if k = 0 then cs.vmesh.coords j 1 * (1 - cs.vmesh.coords j 1) else 0) ∧
      (∀ m, ∀ i < cs.vmesh.numNodes, ∀ j < cs.vmesh.numNodes, SamePoint cs.vmesh 0 1 [0, 1] i j → U m i = U m j) ∧
      (∀ i, ∃ Uh : Fin 2 → (Fin 2 → ℝ) → ℝ, (∀ k, NodalFunction cs.vmesh 5 (fun j => U i j k) (Uh k)) ∧
        ∀ e < cs.vmesh.numElements, ∀ x ∈ interior (elementBox cs.vmesh e), ∑ j, partialDeriv j (Uh j) x = 0) ∧
      ∃ u q cu, solveStep cs.low (fun y => y) c cs.sem (List.ofFn U) [fun _ => 0, fun _ => 1]
        (List.ofFn fun i => cs.sem.C (U i)) (fun _ _ => 1) = .ok (u, q, cu) ∧
        MomentumBalance 5 0 1 cs (fun y => y) c bd U (fun _ _ => 1) u (Real.sqrt cs.vmesh.numNodes * |c.atol|)) ∧
    ∃ v u : Vel ℝ 2, cs.sem.D v = 0 ∧ ¬ MomentumBalance 5 0 1 cs (fun y => y) c bd (fun _ => v) (fun _ _ => 1) u 1000 := by
  have hb : CubeBCs 2 [0, 1] [] := Or.inr rfl
  have hper : ∀ k : Fin 2, (k : ℕ) ∈ [0, 1] := fun k => by fin_cases k <;> simp
  obtain ⟨cs, hcs⟩ := C92_create (over := 2) (n := 4) (d := 2) (p := 5) (a := 0) (b := 1) (by norm_num) (by norm_num)
    (by norm_num) (by norm_num) [0, 1] hb
  refine ⟨cs, hcs, ?_⟩
  rintro c rfl
  obtain ⟨bd, hbd⟩ : ∃ bd : Fin 4 → ℝ, bdfkCoeffs 3 = some bd := (bdfk_exists (K := ℝ) 3 (by norm_num)).imp fun _ h => h.1
  refine ⟨bd, hbd, ?_, ?_⟩
  · have hU : ∀ (m : Fin 3), ∀ i < cs.vmesh.numNodes, ∀ j < cs.vmesh.numNodes, SamePoint cs.vmesh 0 1 [0, 1] i j →
        (fun k : Fin 2 => if k = 0 then cs.vmesh.coords i 1 * (1 - cs.vmesh.coords i 1) else 0) =
        (fun k : Fin 2 => if k = 0 then cs.vmesh.coords j 1 * (1 - cs.vmesh.coords j 1) else 0) := by
      intro m i _ j _ hij
      funext k
      rcases hij 1 with h1 | ⟨_, h1 | h1⟩
      · rw [h1]
      · rw [h1.1, h1.2]; norm_num
      · rw [h1.1, h1.2]; norm_num
    have hdiv : ∀ _ : Fin 3, ∃ Uh : Fin 2 → (Fin 2 → ℝ) → ℝ, (∀ k, NodalFunction cs.vmesh 5
        (fun j => if k = 0 then cs.vmesh.coords j 1 * (1 - cs.vmesh.coords j 1) else 0) (Uh k)) ∧
        ∀ e < cs.vmesh.numElements, ∀ x ∈ interior (elementBox cs.vmesh e), ∑ j, partialDeriv j (Uh j) x = 0 := by
      intro _
      refine ⟨fun k x => eval x (if k = 0 then X 1 * (1 - X 1) else 0), fun k => ⟨fun e _ => ⟨_, fun κ => ?_, fun x _ => rfl⟩,
        fun j _ => ?_⟩, fun e _ x _ => ?_⟩
      · split_ifs
        · refine (degreeOf_mul_le κ _ _).trans ?_
          have h1 : degreeOf κ (X 1 : MvPolynomial (Fin 2) ℝ) ≤ 1 := by
            rw [degreeOf_X]; split_ifs <;> norm_num
          have h2 : degreeOf κ (1 - X 1 : MvPolynomial (Fin 2) ℝ) ≤ 1 := by
            refine (degreeOf_sub_le κ _ _).trans (max_le ?_ h1)
            rw [degreeOf_one]; norm_num
          omega
        · simp
      · by_cases hk : k = 0 <;> simp [hk]
      · rw [Fin.sum_univ_two]
        have h0 : ∀ (P : MvPolynomial (Fin 2) ℝ) k, partialDeriv k (fun x => eval x P) x = eval x (pderiv k P) :=
          fun P k => (hasLineDerivAt_eval P k x).lineDeriv
        rw [h0, h0]
        simp [pderiv_X_of_ne]
    obtain ⟨u, q, cu, hst⟩ := exists_solveStep (wave := fun y => y) (c := ⟨3, 1000, 1/100, 1/20, 1/10, 1/10, 4, 2, false⟩) (K := 2)
      (by norm_num) (by norm_num) (by norm_num) hper hcs rfl (by norm_num) (by norm_num) (by norm_num)
      (fun (_ : Fin 3) j k => if k = 0 then cs.vmesh.coords j 1 * (1 - cs.vmesh.coords j 1) else 0)
      (ps := [fun _ => 0, fun _ => 1]) (by simp) (fun _ _ => 1)
    refine ⟨_, fun _ _ _ => rfl, hU, hdiv, u, q, cu, hst, C119_partial (by norm_num) (by norm_num) (by norm_num) (by norm_num) hper hcs rfl (by norm_num)
      (by norm_num) (by norm_num) hbd _ hU hdiv hst⟩
  · obtain ⟨v, _, hv, u, _, _, _, h⟩ := C119_violated (wave := fun y => y) (c := ⟨3, 1000, 1/100, 1/20, 1/10, 1/10, 4, 2, false⟩) (K := 2)
      (by norm_num) (by norm_num) (by norm_num) (by norm_num) hper hcs rfl (by norm_num) (by norm_num) (by norm_num) hbd
      (ps := [fun _ => 0, fun _ => 1]) (by simp) (fun _ _ => 1) 1000
    exact ⟨v, u, hv, h⟩

end Verif.Niles
