import Verif.Lemmas.CubeTurn

/-!
Turns, mirrors and shifts of the cube are symmetries of the Stokes solver.
-/

namespace Verif.NS

open Verif.Core Verif.Common Verif.Spec MvPolynomial

variable {n d p over : ℕ} {a b c L : ℝ} {per : List ℕ} {bcs : List (String × BCType)} {cs : CubeStokes d} {g : Turn d}

/-- The values of `u` at the images of points are `s` times the values of `v`. -/
def TurnedBy (mesh : Mesh ℝ d) (per : List ℕ) (a b : ℝ) (n : ℕ) (g : Turn d) (s : ℝ) (u v : ℕ → ℝ) : Prop :=
  ∀ i < mesh.numNodes, ∀ j < mesh.numNodes, TorusPoint per (b - a) (mesh.coords j) (g.point a b n (mesh.coords i)) → u j = s * v i

section mesh

variable {mesh : Mesh ℝ d} {node : ℕ → ℕ → ℕ} {q : ℕ}

/-- The image of a node of an element is a node of the image of the element. -/
theorem _root_.Verif.Core.AffCells.turn (h : AffCells n q a ((b - a) / (2 * n)) mesh node) (hn : 1 ≤ n) (hs : SymNodes mesh.grid)
    (hg : g.Keeps per) {e i : ℕ} (he : e < n ^ d) (hi : i < mesh.nodesPerElem) :
    TorusPoint per (b - a) (mesh.coords (node (place n g g.shift e) (place mesh.grid.numPoints g 0 i)))
      (g.point a b n (mesh.coords (node e i))) := by
  intro m
  obtain ⟨k, rfl⟩ := g.axis.surjective m
  have hN : 1 ≤ mesh.grid.numPoints := h.numPos
  rw [Turn.point_axis, h.coords _ (place_lt hn g g.shift e) _ (place_lt hN g 0 i), h.coords e he i hi k, gridPoint_place hs hN]
  unfold centre
  rw [place_digit hn]
  have hlt := digit_lt n d k e (by omega)
  obtain ⟨y, hy⟩ : ∃ y, y = if g.flip k then n - 1 - digit n d k e else digit n d k e := ⟨_, rfl⟩
  have hylt : y < n := by rw [hy]; split <;> omega
  have hyr : (y : ℝ) = if g.flip k then (n : ℝ) - 1 - digit n d k e else digit n d k e := by
    rw [hy]
    split
    · rw [Nat.cast_sub (by omega), Nat.cast_sub hn]; simp
    · rfl
  unfold turnDigit
  rw [← hy]
  have hdiv := Nat.div_add_mod (y + g.shift (g.axis k)) n
  obtain ⟨z, hz⟩ : ∃ z, z = (y + g.shift (g.axis k)) / n := ⟨_, rfl⟩
  rw [← hz] at hdiv
  have hdiv' : (n : ℝ) * z + ((y + g.shift (g.axis k)) % n : ℕ) = y + g.shift (g.axis k) := by
    exact_mod_cast hdiv
  have hn0 : (n : ℝ) ≠ 0 := by exact_mod_cast (by omega : n ≠ 0)
  obtain ⟨cc, hcc⟩ : ∃ cc, cc = (b - a) / (2 * (n : ℝ)) := ⟨_, rfl⟩
  have hw : (b - a) / n = 2 * cc := by rw [hcc]; field_simp
  have hba : b - a = 2 * cc * n := by rw [hcc]; field_simp
  have hb : b = a + 2 * cc * n := by linarith
  rw [← hcc, hw]
  by_cases hk : ((g.axis k : Fin d) : ℕ) ∈ per
  · refine Or.inr ⟨hk, -(z : ℤ), ?_⟩
    push_cast
    push_cast at hdiv'
    rw [hba]
    unfold Turn.sign
    by_cases hf : g.flip k = true
    · rw [if_pos hf] at hyr ⊢
      rw [if_pos hf, hb]
      linear_combination 2 * cc * hdiv' + 2 * cc * hyr
    · rw [if_neg hf] at hyr ⊢
      rw [if_neg hf]
      linear_combination 2 * cc * hdiv' + 2 * cc * hyr
  · left
    rw [hg.shifts _ hk, Nat.add_zero, Nat.mod_eq_of_lt hylt]
    unfold Turn.sign
    by_cases hf : g.flip k = true
    · rw [if_pos hf] at hyr ⊢
      rw [if_pos hf, hb]
      push_cast
      linear_combination 2 * cc * hyr
    · rw [if_neg hf] at hyr ⊢
      rw [if_neg hf]
      push_cast
      linear_combination 2 * cc * hyr

/-- A mesh of the cube whose nodes are the same exactly at the same points. -/
structure Placed (n q : ℕ) (a b : ℝ) (per : List ℕ) (mesh : Mesh ℝ d) (node : ℕ → ℕ → ℕ) : Prop where
  cells : AffCells n q a ((b - a) / (2 * n)) mesh node
  sym : SymNodes mesh.grid
  same : ∀ i < mesh.numNodes, ∀ j < mesh.numNodes, (SameNode mesh i j ↔ TorusPoint per (b - a) (mesh.coords i) (mesh.coords j))

namespace Placed

theorem at_ (h : Placed n q a b per mesh node) {e i : ℕ} (he : e < n ^ d) (hi : i < mesh.nodesPerElem) :
    nodeAt mesh e i = node e i := by
  unfold nodeAt
  rw [h.cells.elem e he i hi]
  simp

theorem local_lt (h : Placed n q a b per mesh node) (g : Turn d) (i : ℕ) :
    place mesh.grid.numPoints g 0 i < mesh.nodesPerElem := place_lt h.cells.numPos g 0 i

theorem isoMesh (h : Placed n q a b per mesh node) (hn : 1 ≤ n) (hg : g.Keeps per) :
    IsoMesh mesh (place n g g.shift) (place mesh.grid.numPoints g 0) := by
  have hC := h.cells
  refine ⟨fun m hm i hi => ?_, fun j hj => ?_, ?_, place_perm hC.numPos g 0, fun m hm i hi m' hm' i' hi' => ?_⟩
  · rw [hC.num] at hm
    rw [hC.elem m hm i hi]
    have := hC.lt m hm i hi
    omega
  · obtain ⟨e, he, i, hi, rfl⟩ := hC.onto j hj
    exact ⟨e, by rw [hC.num]; exact he, i, hi, hC.elem e he i hi⟩
  · rw [hC.num]; exact place_perm hn g _
  · rw [hC.num] at hm hm'
    have hl := place_lt hn g g.shift m
    have hl' := place_lt hn g g.shift m'
    have hj := h.local_lt g i
    have hj' := h.local_lt g i'
    rw [h.at_ hl hj, h.at_ hl' hj', h.at_ hm hi, h.at_ hm' hi', h.same _ (hC.lt _ hl _ hj) _ (hC.lt _ hl' _ hj'),
      h.same _ (hC.lt _ hm i hi) _ (hC.lt _ hm' i' hi')]
    have h1 := hC.turn hn h.sym hg hm hi
    have h2 := hC.turn hn h.sym hg hm' hi'
    exact ⟨fun h3 => (h1.symm.trans (h3.trans h2)).of_turn hg, fun h3 => h1.trans ((h3.turn hg).trans h2.symm)⟩

/-- Corresponding fields are those that agree after the turn. -/
theorem field_iff (h : Placed n q a b per mesh node) (hn : 1 ≤ n) (hg : g.Keeps per) {s : ℝ} (hs : s ≠ 0) (u v : ℕ → ℝ) :
    IsoField mesh (place n g g.shift) (place mesh.grid.numPoints g 0) s u v ↔ TurnedBy mesh per a b n g s u v := by
  have hC := h.cells
  have hsym := h.isoMesh hn hg
  constructor
  · intro H i hi j hj hp
    obtain ⟨e, he, m, hm, rfl⟩ := hC.onto i hi
    have hl := place_lt hn g g.shift e
    have hlm := h.local_lt g m
    have h1 := H.moved e (by rw [hC.num]; exact he) m hm
    rw [h.at_ hl hlm, h.at_ he hm] at h1
    rw [← h1]
    refine H.left j hj _ (hC.lt _ hl _ hlm) ((h.same _ hj _ (hC.lt _ hl _ hlm)).2 ?_)
    exact hp.trans (hC.turn hn h.sym hg he hm).symm
  · intro H
    refine ⟨fun i hi j hj hij => ?_, fun i hi j hj hij => ?_, fun m hm i hi => ?_⟩
    · obtain ⟨e, he, m, hm, rfl⟩ := hC.onto i hi
      obtain ⟨e', he', rfl⟩ := hsym.elems.surj (m := e) (by rw [hC.num]; exact he)
      obtain ⟨m', hm', rfl⟩ := hsym.locals.surj hm
      rw [hC.num] at he'
      have h1 := H (node e' m') (hC.lt _ he' m' hm') _ hi (hC.turn hn h.sym hg he' hm')
      have h2 := H (node e' m') (hC.lt _ he' m' hm') j hj
        (((h.same _ hj _ hi).1 hij.symm).trans (hC.turn hn h.sym hg he' hm'))
      rw [h1, h2]
    · obtain ⟨e, he, m, hm, rfl⟩ := hC.onto i hi
      have hl := place_lt hn g g.shift e
      have hlm := h.local_lt g m
      have ht := hC.turn hn h.sym hg he hm
      have h1 := H _ hi _ (hC.lt _ hl _ hlm) ht
      have h2 := H j hj _ (hC.lt _ hl _ hlm) (ht.trans (((h.same _ hi _ hj).1 hij).turn hg))
      rw [h1] at h2
      exact mul_left_cancel₀ hs h2
    · rw [hC.num] at hm
      have hl := place_lt hn g g.shift m
      have hlm := h.local_lt g i
      rw [h.at_ hl hlm, h.at_ hm hi]
      exact H _ (hC.lt _ hm i hi) _ (hC.lt _ hl _ hlm) (hC.turn hn h.sym hg hm hi)

theorem isoSpace (h : Placed n q a b per mesh node) (hn : 1 ≤ n) (hg : g.Keeps per) {quad : Quadrature1D ℝ} {fs : FESpace ℝ d}
    (hb : FESpace.build mesh quad = some fs) (hq0 : 1 ≤ quad.nodes.numPoints) (hw : SymWeights quad) (hqs : SymNodes quad.nodes) :
    IsoSpace fs (place n g g.shift) (place mesh.grid.numPoints g 0) (place quad.nodes.numPoints g 0) g.axis g.sign := by
  have hC := h.cells
  obtain ⟨M1, A, W, hM1, hA, hW, hd, hmesh, hnq, hWeq, hint, hG, _, _, _⟩ := FESpace.build_fields hb
  have hpos := hC.numPos
  have hinj := hC.nodes
  have perm : ∀ x y : ℕ → ℝ, (∀ n < mesh.nodesPerElem, x (place mesh.grid.numPoints g 0 n) = y n) →
      ∃ P : MvPolynomial (Fin d) ℝ, (∀ k, P.degreeOf k < mesh.grid.numPoints) ∧ (∀ k, (turnPoly g P).degreeOf k < mesh.grid.numPoints) ∧
        (∀ i < mesh.nodesPerElem, x i = eval (gridPoint d mesh.grid.value i) P) ∧
        ∀ i < mesh.nodesPerElem, y i = eval (gridPoint d mesh.grid.value i) (turnPoly g P) := by
    intro x y hxy
    obtain ⟨P, hdeg, hP⟩ := exists_samples (d := d) hpos mesh.grid.value hinj x
    refine ⟨P, hdeg, fun k => (turnPoly_degree g P k).trans_lt (hdeg _), fun i hi => (hP i hi).symm, fun i hi => ?_⟩
    rw [turnPoly_eval g P (fun k => gridPoint_place h.sym hpos g i k), hP _ (place_lt hpos g 0 i), hxy i hi]
  refine ⟨by rw [hmesh]; exact h.isoMesh hn hg, FESpace.build_wf hb hpos, by rw [hnq]; exact place_perm hq0 g 0, g.sign_sq,
    fun x y hxy r hr => ?_, fun x y hxy r hr i => ?_, fun r hr => ?_, fun m hm r hr => ?_, fun m hm r hr i j => ?_⟩
  · rw [hmesh] at hxy
    by_cases hsame : mesh.grid.same quad.nodes
    · rw [hint, if_pos hsame, ← hsame.2.2]
      exact hxy r (by rw [hnq, ← hsame.2.2] at hr; exact hr)
    · obtain ⟨P, h1, h2, h3, h4⟩ := perm x y hxy
      have hr' : place quad.nodes.numPoints g 0 r < fs.numQuad := by rw [hnq]; exact place_lt hq0 g 0 r
      rw [fe_poly hb hpos hC.weights hinj hsame P h1 x h3 hr', fe_poly hb hpos hC.weights hinj hsame _ h2 y h4 hr]
      exact (turnPoly_eval g P fun k => gridPoint_place hqs hq0 g r k).symm
  · rw [hmesh] at hxy
    obtain ⟨P, h1, h2, h3, h4⟩ := perm x y hxy
    have hr' : place quad.nodes.numPoints g 0 r < fs.numQuad := by rw [hnq]; exact place_lt hq0 g 0 r
    have e1 := fe_grad hb hpos hC.weights hinj P h1 x h3 hr' (g.axis i)
    have e2 := fe_grad hb hpos hC.weights hinj _ h2 y h4 hr i
    unfold elemGrad at e1 e2
    rw [e1, e2, turnPoly_pderiv, eval_mul, eval_C, turnPoly_eval g _ fun k => gridPoint_place hqs hq0 g r k, ← mul_assoc,
      g.sign_sq, one_mul]
  · rw [hWeq]
    rw [hnq] at hr
    exact weights_place hw hq0 hC.dim hW g hr
  · rw [hmesh, hC.num] at hm
    have hr' : place quad.nodes.numPoints g 0 r < fs.numQuad := by rw [hnq]; exact place_lt hq0 g 0 r
    rw [hC.jacdet hb (place_lt hn g _ m) hr', hC.jacdet hb hm hr]
  · rw [hmesh, hC.num] at hm
    have hr' : place quad.nodes.numPoints g 0 r < fs.numQuad := by rw [hnq]; exact place_lt hq0 g 0 r
    rw [hC.invjac hb (place_lt hn g _ m) hr', hC.invjac hb hm hr]
    simp only [Matrix.smul_apply, smul_eq_mul, Matrix.one_apply, EmbeddingLike.apply_eq_iff_eq]
    split_ifs with hij
    · subst hij; rw [g.sign_sq, one_mul]
    · simp

end Placed

end mesh

/-! ### the filter -/

theorem basis_rev {N : ℕ} {v : Fin N → ℝ} (hv : Function.Injective v) (hs : ∀ i, v (Fin.rev i) = - v i) (i : Fin N) (x : ℝ) :
    (Lagrange.basis Finset.univ v (Fin.rev i)).eval (-x) = (Lagrange.basis Finset.univ v i).eval x := by
  unfold Lagrange.basis
  rw [Polynomial.eval_prod, Polynomial.eval_prod]
  refine Finset.prod_bij (fun j _ => Fin.rev j) (fun j hj => ?_) (fun j _ k _ h => Fin.rev_injective h)
    (fun j hj => ⟨Fin.rev j, ?_, Fin.rev_rev j⟩) (fun j hj => ?_)
  · simp only [Finset.mem_erase, Finset.mem_univ, and_true, ne_eq] at hj ⊢
    intro e
    exact hj (by rw [← e, Fin.rev_rev])
  · simp only [Finset.mem_erase, Finset.mem_univ, and_true, ne_eq] at hj ⊢
    exact fun e => hj (Fin.rev_injective e)
  · have e2 : v j = - v (Fin.rev j) := by rw [hs, neg_neg]
    unfold Lagrange.basisDivisor
    simp only [Polynomial.eval_mul, Polynomial.eval_C, Polynomial.eval_sub, Polynomial.eval_X]
    rw [hs, e2, show -v i - -v (Fin.rev j) = -(v i - v (Fin.rev j)) by ring, inv_neg]
    ring

theorem filter1_turn {N M : ℕ} {v : Fin N → ℝ} {w : Fin M → ℝ} (hv : Function.Injective v) (hvs : ∀ i, v (Fin.rev i) = - v i)
    (hw : Function.Injective w) (hws : ∀ i, w (Fin.rev i) = - w i) (f : Bool) {r j : ℕ} (hr : r < N) (hj : j < N) :
    filter1 (Matrix.of fun a i => (Lagrange.basis Finset.univ v i).eval (w a))
      (Matrix.of fun a i => (Lagrange.basis Finset.univ w i).eval (v a)) (turnDigit N f 0 r) (turnDigit N f 0 j) =
    filter1 (Matrix.of fun a i => (Lagrange.basis Finset.univ v i).eval (w a))
      (Matrix.of fun a i => (Lagrange.basis Finset.univ w i).eval (v a)) r j := by
  unfold turnDigit
  cases f
  · simp only [Bool.false_eq_true, if_false, Nat.add_zero, Nat.mod_eq_of_lt hr, Nat.mod_eq_of_lt hj]
  · have h1 : N - 1 - r < N := by omega
    have h2 : N - 1 - j < N := by omega
    simp only [if_true, Nat.add_zero, Nat.mod_eq_of_lt h1, Nat.mod_eq_of_lt h2]
    unfold filter1
    rw [dif_pos ⟨h1, h2⟩, dif_pos ⟨hr, hj⟩, Matrix.mul_apply, Matrix.mul_apply, ← Equiv.sum_comp Fin.revPerm]
    refine Finset.sum_congr rfl fun l _ => ?_
    simp only [Matrix.of_apply, Fin.revPerm_apply]
    have e1 : (⟨N - 1 - r, h1⟩ : Fin N) = Fin.rev ⟨r, hr⟩ := by
      apply Fin.ext; simp only [Fin.val_rev]; omega
    have e2 : (⟨N - 1 - j, h2⟩ : Fin N) = Fin.rev ⟨j, hj⟩ := by
      apply Fin.ext; simp only [Fin.val_rev]; omega
    rw [e1, e2, hvs, hws, basis_rev hw hws, basis_rev hv hvs]

theorem filterEntry_turn {mesh : Mesh ℝ d} {low : Nodes1D ℝ} (F : FilterSetup mesh low) (hs : SymNodes mesh.grid) (hl : SymNodes low)
    (g : Turn d) (i j : ℕ) : filterEntry mesh low (place mesh.grid.numPoints g 0 i) (place mesh.grid.numPoints g 0 j) =
      filterEntry mesh low i j := by
  have hL := interpMatrix1d_eq _ _ F.weights F.nodes low.value
  have hH := interpMatrix1d_eq _ _ F.lowWeights F.lowNodes mesh.grid.value
  unfold filterEntry
  rw [hL, hH]
  simp only
  rw [Finset.prod_range, Finset.prod_range, ← Equiv.prod_comp g.axis]
  refine Finset.prod_congr rfl fun k _ => ?_
  rw [place_digit F.points, place_digit F.points]
  exact filter1_turn F.nodes hs F.lowNodes hl _ (digit_lt _ _ _ _ F.points) (digit_lt _ _ _ _ F.points)

/-! ### the solver -/

theorem cubeStokes_low (hcs : cubeStokes n d p over a b per bcs = .ok cs) :
    createNodes .gaussLobattoLegendre p = some cs.low := by
  unfold cubeStokes at hcs
  split at hcs
  · exact absurd hcs (by simp)
  split at hcs
  · exact absurd hcs (by simp)
  split at hcs
  · exact absurd hcs (by simp)
  split at hcs
  · exact absurd hcs (by simp)
  split at hcs
  · exact absurd hcs (by simp)
  split at hcs
  · exact absurd hcs (by simp)
  split at hcs
  · exact absurd hcs (by simp)
  rename_i low hlow
  split at hcs
  · exact absurd hcs (by simp)
  simp only [Except.ok.injEq] at hcs
  subst hcs
  exact hlow

/-- The permutations of the solver. -/
noncomputable def turnMaps (cs : CubeStokes d) (n : ℕ) (g : Turn d) : IsoMaps ℝ d where
  elem := place n g g.shift
  vloc := place cs.vmesh.grid.numPoints g 0
  ploc := place cs.pmesh.grid.numPoints g 0
  quad := place cs.quad.nodes.numPoints g 0
  over := place cs.overQuad.nodes.numPoints g 0
  axis := g.axis
  sign := g.sign

namespace CubeSEM

variable {vnode pnode : ℕ → ℕ → ℕ} {l : List ℝ}

theorem vPlaced (h : CubeSEM n d p a b per bcs cs vnode pnode l) (hp : 3 ≤ p) (hab : a < b) :
    Placed n p a b per cs.vmesh vnode :=
  ⟨h.vcube.cells.toAffCells, symNodes_gll (by omega) (cubeMesh_grid h.vcube.made), fun _ hi _ hj => h.same_point hab hi hj⟩

theorem pPlaced (h : CubeSEM n d p a b per bcs cs vnode pnode l) (hn : 1 ≤ n) (hp : 3 ≤ p) (hab : a < b)
    (hcs : cubeStokes n d p over a b per bcs = .ok cs) : Placed n (p - 2) a b per cs.pmesh pnode := by
  refine ⟨h.pcube, symNodes_gl (cubeStokes_pgrid hcs), fun i hi j hj => ⟨fun hs => ?_, fun ht => ?_⟩⟩
  · rw [h.pressure_same hs]
    exact fun k => Or.inl rfl
  · obtain ⟨e, he, m, hm, rfl⟩ := h.pcube.onto i hi
    obtain ⟨e', he', m', hm', rfl⟩ := h.pcube.onto j hj
    obtain ⟨rfl, rfl⟩ := h.pressure_point hn hp hab hcs he hm he' hm' ht
    exact SameNode.refl _ _

/-- Turns, mirrors and shifts are symmetries of the solver. -/
theorem semIso (h : CubeSEM n d p a b per bcs cs vnode pnode l) (hn : 1 ≤ n) (hp : 3 ≤ p) (hab : a < b) (hb : CubeBCs d per bcs)
    (hcs : cubeStokes n d p over a b per bcs = .ok cs) (hg : g.Keeps per) : IsoSem cs.sem cs.low (turnMaps cs n g) := by
  have hC := h.vcube.cells
  obtain ⟨mask, hmask, hc⟩ := h.create
  obtain ⟨s1, s2, s3, s4, s5, s6⟩ := StokesSEM.create_fields hc
  have hob := (FESpace.create_build s3).1
  have hvm := FESpace.build_mesh h.vbuild
  have hpm := FESpace.build_mesh h.pbuild
  have hV := h.vPlaced hp hab
  have hP := h.pPlaced hn hp hab hcs
  obtain ⟨ov, ho⟩ := h.oquad
  obtain ⟨o1, o2, o3⟩ := symWeights_gll (m := p + ov) (by omega) ho
  have hq : createQuadrature .gaussLobattoLegendre (p + 1) = some cs.quad := by
    unfold cubeStokes at hcs
    split at hcs
    · exact absurd hcs (by simp)
    rename_i quad hquad
    split at hcs
    · exact absurd hcs (by simp)
    split at hcs
    · exact absurd hcs (by simp)
    split at hcs
    · exact absurd hcs (by simp)
    split at hcs
    · exact absurd hcs (by simp)
    split at hcs
    · exact absurd hcs (by simp)
    split at hcs
    · exact absurd hcs (by simp)
    split at hcs
    · exact absurd hcs (by simp)
    simp only [Except.ok.injEq] at hcs
    subst hcs
    exact hquad
  obtain ⟨q1, q2, q3⟩ := symWeights_gll (m := p) (by omega) hq
  have hlow : SymNodes cs.low := by
    have := cubeStokes_low hcs
    rw [show p = (p - 1) + 1 by omega] at this
    exact symNodes_gll (by omega) this
  have hF : FilterSetup cs.vmesh cs.low := h.filterSetup hp
  refine ⟨hV.isoSpace hn hg h.vbuild (by omega) q1 q2, hV.isoSpace hn hg hob (by omega) o1 o2,
    hP.isoSpace hn hg h.pbuild (by omega) q1 q2, by rw [FESpace.build_mesh hob, hvm],
    by rw [hpm, hvm, h.pcube.num, hC.num], h.numQuad, ?_, by rw [hvm]; exact s5, by rw [hvm]; exact s6,
    by rw [hvm]; exact hF, by rw [hvm]; exact h.aligned hn hab, fun i _ j _ => by
      rw [hvm]; exact filterEntry_turn hF hV.sym hlow g i j⟩
  rw [hvm]
  refine (hV.field_iff hn hg one_ne_zero _ _).2 ?_
  intro i hi j hj hpt
  obtain ⟨_, _, _, _, hm, _, _⟩ := (h.setup hn hb).fields
  have hiff : DirichletNode cs.masks bcs j ↔ DirichletNode cs.masks bcs i := by
    rw [h.dirichlet_iff hb hi, h.dirichlet_iff hb hj]
    refine and_congr_right fun _ => ?_
    unfold OnBoundary
    rw [← g.axis.exists_congr_right]
    refine exists_congr fun k => ?_
    rw [← not_iff_not.mpr (hg.axes k)]
    refine and_congr_right fun hk => ?_
    have hk' := fun h1 => hk ((hg.axes k).2 h1)
    rcases hpt (g.axis k) with h1 | h1
    · rw [h1, Turn.point_axis, hg.shifts _ hk', Nat.cast_zero, zero_mul, add_zero]
      split
      · constructor
        · rintro (h2 | h2)
          · right; linarith
          · left; linarith
        · rintro (h2 | h2)
          · right; linarith
          · left; linarith
      · rfl
    · exact absurd h1.1 hk'
  rw [one_mul]
  by_cases hD : DirichletNode cs.masks bcs i
  · rw [(hm i).1 hD, (hm j).1 (hiff.2 hD)]
  · rw [(hm i).2 hD, (hm j).2 (fun h1 => hD (hiff.1 h1))]

end CubeSEM

end Verif.NS
