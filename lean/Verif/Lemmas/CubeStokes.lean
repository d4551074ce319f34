import Verif.Lemmas.CubePressure
import Verif.Model.CubeStokes
import Verif.Props.C42_C43

/-!
# The Stokes spaces on the mesh of a cube
-/

namespace Verif.NS

open Verif.Core Verif.Spec MeasureTheory MvPolynomial

variable {n d p over : ℕ} {a b : ℝ} {per : List ℕ} {bcs : List (String × BCType)}

theorem gllQuadrature_spec {m : ℕ} (hm : 1 ≤ m) : ∃ quad l, createQuadrature .gaussLobattoLegendre (m + 1) = some quad ∧
    quad.nodes.nodeType = .gaussLobattoLegendre ∧ quad.nodes.numPoints = m + 1 ∧ l.length = m + 1 ∧
    (∀ d q k, gridPoint d quad.nodes.value q k = gridPoint d (vec l l.length) q k) ∧
    QuadratureRule quad.weights l (2 * m - 1) ∧ createNodes .gaussLobattoLegendre (m + 1) = some quad.nodes := by
  obtain ⟨l, h1, h2, h3, h4⟩ := C78_rule m hm
  have hof : List.ofFn (vec l (m + 1)) = l := by
    apply List.ext_getElem
    · simp [h2]
    · intro i hi hi'
      rw [List.getElem_ofFn]
      exact List.getD_eq_getElem _ _ hi'
  refine ⟨⟨⟨.gaussLobattoLegendre, m + 1, vec l (m + 1), vec (gllBary (gllWeights (m + 1) l)) (m + 1)⟩,
    gllWeights (m + 1) l⟩, l, ?_, rfl, rfl, h2, ?_, h4, ?_⟩
  · simp only [createQuadrature, createNodes, h1, Option.map_some]
    rw [hof]
  · intro d q k
    change gridPoint d (vec l (m + 1)) q k = _
    rw [h2]
  · simp only [createNodes, h1]

/-- The boundary conditions that are considered: zero velocity on the boundary, or none. -/
def CubeBCs (d : ℕ) (per : List ℕ) (bcs : List (String × BCType)) : Prop :=
  (bcs = [("boundary", .dirichlet)] ∧ ∃ k : Fin d, (k : ℕ) ∉ per) ∨ bcs = []

/-- What is known about the spaces on the mesh of a cube. -/
structure CubeSEM (n d p : ℕ) (a b : ℝ) (per : List ℕ) (bcs : List (String × BCType)) (cs : CubeStokes d)
    (vnode pnode : ℕ → ℕ → ℕ) (l : List ℝ) : Prop where
  vcube : CubeMesh n d p .gaussLobattoLegendre a b per cs.vmesh cs.masks vnode
  pcube : AffCells n (p - 2) a ((b - a) / (2 * n)) cs.pmesh pnode
  ptype : cs.pmesh.grid.nodeType = .gaussLegendre
  pdistinct : ∀ i j, cs.pmesh.nodeIndices i = cs.pmesh.nodeIndices j → i = j
  pnodes : ∀ e i, pnode e i = e * (p - 2 + 1) ^ d + i
  qtype : cs.quad.nodes.nodeType = .gaussLobattoLegendre
  qpoints : cs.quad.nodes.numPoints = p + 1
  count : cs.quad.nodes.numPoints = l.length
  values : ∀ q k, gridPoint d cs.quad.nodes.value q k = gridPoint d (vec l l.length) q k
  rule : QuadratureRule cs.quad.weights l (2 * p - 1)
  vbuild : FESpace.build cs.vmesh cs.quad = some cs.sem.vspace
  pbuild : FESpace.build cs.pmesh cs.quad = some cs.sem.pspace
  create : ∃ mask, interiorMask cs.masks bcs = some mask ∧
    StokesSEM.create cs.vmesh cs.pmesh cs.quad cs.overQuad mask = some cs.sem
  lowPoints : cs.low.numPoints = p
  lowWeights : TrueWeights cs.low.bary cs.low.value
  lowNodes : Function.Injective cs.low.value
  lowEnds : ∃ i j, cs.low.value i = -1 ∧ cs.low.value j = 1
  qnodes : createNodes .gaussLobattoLegendre (p + 1) = some cs.quad.nodes
  oquad : ∃ over, createQuadrature .gaussLobattoLegendre (p + over + 1) = some cs.overQuad

theorem cubeStokes_spec (hn : 1 ≤ n) (hd : 1 ≤ d) (hp : 3 ≤ p) (hab : a < b) (per : List ℕ) (hb : CubeBCs d per bcs) :
    ∃ cs vnode pnode l, cubeStokes n d p over a b per bcs = .ok cs ∧ CubeSEM n d p a b per bcs cs vnode pnode l := by
  obtain ⟨vmesh, masks, vnode, hv⟩ := cubeMesh_spec hn hd (show 1 ≤ p by omega) (Or.inr rfl) hab per
    (t := .gaussLobattoLegendre)
  obtain ⟨pmesh, pnode, hpm, hpc, hpt, hpi, hpn⟩ := cubePressure_spec hn hd (show 1 ≤ p - 2 by omega) hab per
  obtain ⟨quad, l, q1, q2, q3, q4, q5, q6, q7⟩ := gllQuadrature_spec (show 1 ≤ p by omega)
  obtain ⟨oq, ol, o1, o2, o3, o4, o5, o6, _⟩ := gllQuadrature_spec (show 1 ≤ p + over by omega)
  obtain ⟨low, l1, _, l3, l4, l5, l6⟩ := createNodes_spec (show 1 ≤ p - 1 by omega) (Or.inr rfl)
    (t := .gaussLobattoLegendre)
  rw [show p - 1 + 1 = p by omega] at l1
  have hl3 : low.numPoints = p := by omega
  obtain ⟨mask, hmask⟩ : ∃ mask : ℕ → ℝ, interiorMask masks bcs = some mask := by
    apply interiorMask_exists
    intro g hg
    rcases hb with ⟨rfl, hk⟩ | rfl
    · simp only [List.mem_singleton, Prod.mk.injEq, and_true] at hg
      obtain ⟨m, hm⟩ := hv.group hk
      rw [hg, hm]; rfl
    · simp at hg
  have hC := hv.cells
  obtain ⟨W, hW, _⟩ := C80_tensor q6 d hd
  obtain ⟨Wo, hWo, _⟩ := C80_tensor o6 d hd
  obtain ⟨vs, hvs⟩ := FESpace.build_exists (mesh := vmesh) (quad := quad) hd hC.numPos (by omega) hC.weights hC.nodes hW
  obtain ⟨os, hos⟩ := FESpace.build_exists (mesh := vmesh) (quad := oq) hd hC.numPos (by omega) hC.weights hC.nodes hWo
  obtain ⟨ps, hps⟩ := FESpace.build_exists (mesh := pmesh) (quad := quad) hd hpc.numPos (by omega) hpc.weights hpc.nodes hW
  have hcreate := hC.toAffCells.create hvs
  have hocreate := hC.toAffCells.create hos
  obtain ⟨sem, hsem⟩ : ∃ sem, StokesSEM.create vmesh pmesh quad oq mask = some sem := by
    unfold StokesSEM.create
    rw [hcreate, hocreate, hps]
    exact ⟨_, rfl⟩
  obtain ⟨s1, s2, _⟩ := StokesSEM.create_fields hsem
  rw [hcreate, Option.some.injEq] at s1
  rw [hps, Option.some.injEq] at s2
  refine ⟨⟨vmesh, pmesh, masks, quad, oq, low, sem⟩, vnode, pnode, l, ?_, ?_⟩
  · unfold cubeStokes
    rw [q1]
    simp only
    rw [if_neg (by omega), hpm]
    simp only
    rw [hv.made]
    simp only
    rw [hmask]
    simp only
    rw [show p + 1 + over = p + over + 1 by ring, o1]
    simp only
    rw [l1]
    simp only
    rw [hsem]
  · refine ⟨hv, hpc, hpt, hpi, hpn, q2, q3, q3.trans q4.symm, q5 d, q6, by rw [← s1]; exact hvs, by rw [← s2]; exact hps,
      ⟨mask, hmask, hsem⟩, hl3, l5, l6, ?_, q7, over, o1⟩
    have hf := l4.first
    have hl := l4.last
    unfold Nodes1D.vector at hf hl
    have g0 : (0 : ℕ) < low.numPoints := by omega
    have g1 : p - 1 < low.numPoints := by omega
    refine ⟨⟨0, g0⟩, ⟨p - 1, g1⟩, ?_, ?_⟩
    · exact (dif_pos g0).symm.trans hf
    · exact (dif_pos g1).symm.trans hl

namespace CubeSEM

variable {cs : CubeStokes d} {vnode pnode : ℕ → ℕ → ℕ} {l : List ℝ}

theorem dirichlet_iff (h : CubeSEM n d p a b per bcs cs vnode pnode l) (hb : CubeBCs d per bcs) {j : ℕ}
    (hj : j < cs.vmesh.numNodes) : DirichletNode cs.masks bcs j ↔ bcs ≠ [] ∧ OnBoundary cs.vmesh a b per j := by
  rcases hb with ⟨rfl, hk⟩ | rfl
  · have := h.vcube.dirichlet_iff hk hj
    unfold PoissonDirichlet zeroDirichlet at this
    simpa using this
  · simp [DirichletNode]

/-- Coordinates of the nodes of a cell along an axis. -/
theorem axis (h : CubeSEM n d p a b per bcs cs vnode pnode l) (hn : 1 ≤ n) {e i : ℕ} (he : e < n ^ d)
    (hi : i < cs.vmesh.nodesPerElem) (k : Fin d) : ∃ x, x = at0 cs.vmesh.grid.value (digit (p + 1) d k i) ∧ -1 ≤ x ∧ x ≤ 1 ∧
      cs.vmesh.coords (vnode e i) k = a + (b - a) / (2 * n) * (2 * digit n d k e + 1 + x) := by
  have hC := h.vcube.cells
  have hlt : digit (p + 1) d k i < p + 1 := Verif.Common.digit_lt _ _ _ _ (by omega)
  refine ⟨_, rfl, (hC.within _ hlt).1, (hC.within _ hlt).2, ?_⟩
  rw [hC.coords e he i hi k, hC.toAffCells.grid, centre]
  ring

theorem shared_of_end (h : CubeSEM n d p a b per bcs cs vnode pnode l) {r : ℕ} (hr : r < p + 1)
    (he : at0 cs.vmesh.grid.value r = -1 ∨ at0 cs.vmesh.grid.value r = 1) : SharedPoint cs.vmesh.grid cs.low r := by
  have hpts := h.vcube.cells.points
  have hr' : r < cs.vmesh.grid.numPoints := by omega
  have h0 : at0 cs.vmesh.grid.value r = cs.vmesh.grid.value ⟨r, hr'⟩ := by unfold at0; exact dif_pos hr'
  rw [h0] at he
  obtain ⟨i, j, hi, hj⟩ := h.lowEnds
  rcases he with he | he
  · exact ⟨hr', i, by rw [hi, he]⟩
  · exact ⟨hr', j, by rw [hj, he]⟩

/-- Two nodes with the same coordinate have the same position in cells of the same slice, or both lie on the faces of
their cells. -/
theorem axis_cases {n E E' : ℕ} {c x x' : ℝ} (hc : 0 < c) (hE : E < n) (hE' : E' < n) (hx : -1 ≤ x ∧ x ≤ 1)
    (hx' : -1 ≤ x' ∧ x' ≤ 1) (a b : ℝ) (hb : b = a + 2 * c * n) {s s' : ℝ} (hs : s = a + c * (2 * E + 1 + x))
    (hs' : s' = a + c * (2 * E' + 1 + x')) (h : s = s' ∨ (s = a ∧ s' = b) ∨ (s = b ∧ s' = a)) :
    (E = E' ∧ x = x') ∨ ((x = -1 ∨ x = 1) ∧ (x' = -1 ∨ x' = 1)) := by
  have hEn : (E : ℝ) + 1 ≤ n := by exact_mod_cast hE
  have hEn' : (E' : ℝ) + 1 ≤ n := by exact_mod_cast hE'
  have hE0 : (0 : ℝ) ≤ E := Nat.cast_nonneg _
  have hE0' : (0 : ℝ) ≤ E' := Nat.cast_nonneg _
  have lo : ∀ {E : ℕ} {x s : ℝ}, -1 ≤ x → s = a + c * (2 * E + 1 + x) → s = a → x = -1 := by
    intro E x s hx hs hsa
    have h0 : (0 : ℝ) ≤ E := Nat.cast_nonneg _
    have h1 : c * (2 * E + 1 + x) = 0 := by linarith
    rcases mul_eq_zero.mp h1 with h2 | h2
    · exact absurd h2 hc.ne'
    · linarith
  have hi : ∀ {E : ℕ} {x s : ℝ}, (E : ℝ) + 1 ≤ n → x ≤ 1 → s = a + c * (2 * E + 1 + x) → s = b → x = 1 := by
    intro E x s hE hx hs hsb
    have h1 : c * (2 * E + 1 + x - 2 * n) = 0 := by rw [hb, hs] at hsb; linarith
    rcases mul_eq_zero.mp h1 with h2 | h2
    · exact absurd h2 hc.ne'
    · linarith
  rcases h with h | ⟨h1, h2⟩ | ⟨h1, h2⟩
  · have h1 : c * (2 * (E : ℝ) + x - (2 * E' + x')) = 0 := by rw [hs, hs'] at h; linarith
    have h2 : 2 * (E : ℝ) + x = 2 * E' + x' := by
      rcases mul_eq_zero.mp h1 with h2 | h2
      · exact absurd h2 hc.ne'
      · linarith
    rcases lt_trichotomy E E' with hlt | heq | hlt
    · have : (E : ℝ) + 1 ≤ E' := by exact_mod_cast hlt
      exact Or.inr ⟨Or.inr (by linarith), Or.inl (by linarith)⟩
    · subst heq
      exact Or.inl ⟨rfl, by linarith⟩
    · have : (E' : ℝ) + 1 ≤ E := by exact_mod_cast hlt
      exact Or.inr ⟨Or.inl (by linarith), Or.inr (by linarith)⟩
  · exact Or.inr ⟨Or.inl (lo hx.1 hs h1), Or.inr (hi hEn' hx'.2 hs' h2)⟩
  · exact Or.inr ⟨Or.inr (hi hEn hx.2 hs h1), Or.inl (lo hx'.1 hs' h2)⟩

theorem same_iff (h : CubeSEM n d p a b per bcs cs vnode pnode l) {i j : ℕ} (hi : i < cs.vmesh.numNodes)
    (hj : j < cs.vmesh.numNodes) : SameNode cs.vmesh i j ↔ ∀ k : Fin d, cs.vmesh.coords i k = cs.vmesh.coords j k ∨
      ((k : ℕ) ∈ per ∧ ((cs.vmesh.coords i k = a ∧ cs.vmesh.coords j k = b) ∨
        (cs.vmesh.coords i k = b ∧ cs.vmesh.coords j k = a))) := by
  rw [← h.vcube.identified i hi j hj]
  constructor
  · rintro (h1 | h1)
    · rw [h1]
    · exact h1.1
  · intro h1
    obtain ⟨w, _, hw⟩ := h.vcube.index i hi
    refine Or.inr ⟨h1, ?_⟩
    rw [hw]
    omega

theorem filterSetup (h : CubeSEM n d p a b per bcs cs vnode pnode l) (hp : 3 ≤ p) : FilterSetup cs.vmesh cs.low :=
  ⟨h.vcube.cells.dim, h.vcube.cells.numPos, by rw [h.lowPoints]; omega, h.vcube.cells.weights, h.vcube.cells.nodes,
    h.lowWeights, h.lowNodes⟩

theorem width (hn : 1 ≤ n) (hab : a < b) : 0 < (b - a) / (2 * (n : ℝ)) := by
  have hn0 : (0 : ℝ) < n := by exact_mod_cast hn
  exact div_pos (by linarith) (by linarith)

theorem upper (hn : 1 ≤ n) : b = a + 2 * ((b - a) / (2 * (n : ℝ))) * n := by
  have hn0 : (n : ℝ) ≠ 0 := by exact_mod_cast (by omega : n ≠ 0)
  field_simp
  ring

theorem node_lt (h : CubeSEM n d p a b per bcs cs vnode pnode l) {e i : ℕ} (he : e < n ^ d)
    (hi : i < cs.vmesh.nodesPerElem) {v : ℕ} (hv : cs.vmesh.elements e i = v) : v = vnode e i := by
  rw [h.vcube.cells.elem e he i hi] at hv
  exact_mod_cast hv.symm

theorem faceClosed (h : CubeSEM n d p a b per bcs cs vnode pnode l) (hn : 1 ≤ n) (hab : a < b) (hb : CubeBCs d per bcs) :
    FaceClosed cs.vmesh cs.low (DirichletNode cs.masks bcs) := by
  have hC := h.vcube.cells
  intro e he i hi j hj v w hv hw hsf hZ
  rw [hC.num] at he
  obtain rfl := h.node_lt he hi hv
  obtain rfl := h.node_lt he hj hw
  rw [h.dirichlet_iff hb (hC.lt e he i hi)] at hZ
  rw [h.dirichlet_iff hb (hC.lt e he j hj)]
  obtain ⟨hne, k, hk, hco⟩ := hZ
  refine ⟨hne, k, hk, ?_⟩
  obtain ⟨x, hx, hx1, hx2, hcx⟩ := h.axis hn he hi k
  obtain ⟨y, hy, hy1, hy2, hcy⟩ := h.axis hn he hj k
  have hE : digit n d k e < n := Verif.Common.digit_lt _ _ _ _ hn
  have hends : x = -1 ∨ x = 1 := by
    have hc := width (n := n) hn hab
    have hu := upper (a := a) (b := b) hn
    have hEn : (digit n d k e : ℝ) + 1 ≤ n := by exact_mod_cast hE
    have hE0 : (0 : ℝ) ≤ digit n d k e := Nat.cast_nonneg _
    set c := (b - a) / (2 * (n : ℝ)) with hcdef
    rcases hco with hco | hco
    · have h1 : c * (2 * (digit n d k e : ℝ) + 1 + x) = 0 := by linarith
      rcases mul_eq_zero.mp h1 with h2 | h2
      · exact absurd h2 hc.ne'
      · exact Or.inl (by linarith)
    · have h1 : c * (2 * (digit n d k e : ℝ) + 1 + x - 2 * n) = 0 := by rw [hco] at hcx; linarith
      rcases mul_eq_zero.mp h1 with h2 | h2
      · exact absurd h2 hc.ne'
      · exact Or.inr (by linarith)
  have hlt : digit (p + 1) d k i < p + 1 := Verif.Common.digit_lt _ _ _ _ (by omega)
  have hsh := h.shared_of_end hlt (by rw [← hx]; exact hends)
  have hdig := hsf k k.2 (by rw [hC.points]; exact hsh)
  rw [hC.points] at hdig
  have : y = x := by rw [hy, hx, hdig]
  rw [hcy, this, ← hcx]
  exact hco

theorem aligned (h : CubeSEM n d p a b per bcs cs vnode pnode l) (hn : 1 ≤ n) (hab : a < b) : Aligned cs.vmesh cs.low := by
  have hC := h.vcube.cells
  have hc := width (n := n) hn hab
  have hu := upper (a := a) (b := b) hn
  intro e he i hi e' he' i' hi' v w hv hw hs
  rw [hC.num] at he he'
  obtain rfl := h.node_lt he hi hv
  obtain rfl := h.node_lt he' hi' hw
  rw [h.same_iff (hC.lt e he i hi) (hC.lt e' he' i' hi')] at hs
  rw [hC.points]
  have hinj : ∀ {r r' : ℕ}, r < p + 1 → r' < p + 1 → at0 cs.vmesh.grid.value r = at0 cs.vmesh.grid.value r' → r = r' := by
    intro r r' hr hr' heq
    have h1 : r < cs.vmesh.grid.numPoints := by rw [hC.points]; exact hr
    have h2 : r' < cs.vmesh.grid.numPoints := by rw [hC.points]; exact hr'
    have e1 : at0 cs.vmesh.grid.value r = cs.vmesh.grid.value ⟨r, h1⟩ := by unfold at0; exact dif_pos h1
    have e2 : at0 cs.vmesh.grid.value r' = cs.vmesh.grid.value ⟨r', h2⟩ := by unfold at0; exact dif_pos h2
    rw [e1, e2] at heq
    have := hC.nodes heq
    simpa using this
  have hlt : ∀ (k : Fin d) i, digit (p + 1) d k i < p + 1 := fun k i => Verif.Common.digit_lt _ _ _ _ (by omega)
  have key : ∀ k : Fin d, (digit n d k e = digit n d k e' ∧ digit (p + 1) d k i = digit (p + 1) d k i') ∨
      (SharedPoint cs.vmesh.grid cs.low (digit (p + 1) d k i) ∧ SharedPoint cs.vmesh.grid cs.low (digit (p + 1) d k i')) := by
    intro k
    obtain ⟨x, hx, hx1, hx2, hcx⟩ := h.axis hn he hi k
    obtain ⟨y, hy, hy1, hy2, hcy⟩ := h.axis hn he' hi' k
    have hcase : cs.vmesh.coords (vnode e i) k = cs.vmesh.coords (vnode e' i') k ∨
        (cs.vmesh.coords (vnode e i) k = a ∧ cs.vmesh.coords (vnode e' i') k = b) ∨
        (cs.vmesh.coords (vnode e i) k = b ∧ cs.vmesh.coords (vnode e' i') k = a) := by
      rcases hs k with h1 | ⟨_, h1⟩
      · exact Or.inl h1
      · exact Or.inr h1
    rcases axis_cases hc (Verif.Common.digit_lt _ _ _ _ hn) (Verif.Common.digit_lt _ _ _ _ hn) ⟨hx1, hx2⟩ ⟨hy1, hy2⟩ a b hu hcx hcy
      hcase with ⟨h1, h2⟩ | ⟨h1, h2⟩
    · exact Or.inl ⟨h1, hinj (hlt k i) (hlt k i') (by rw [← hx, ← hy, h2])⟩
    · exact Or.inr ⟨h.shared_of_end (hlt k i) (by rw [← hx]; exact h1), h.shared_of_end (hlt k i') (by rw [← hy]; exact h2)⟩
  refine ⟨fun k hk => ?_, fun j hj j' hj' hsf hsf' hoff => ?_⟩
  · rcases key ⟨k, hk⟩ with ⟨_, h1⟩ | h1
    · exact Or.inl h1
    · exact Or.inr h1
  · refine ⟨vnode e j, vnode e' j', hC.elem e he j hj, hC.elem e' he' j' hj', hC.lt e he j hj, hC.lt e' he' j' hj', ?_⟩
    rw [h.same_iff (hC.lt e he j hj) (hC.lt e' he' j' hj')]
    intro k
    have hsk := hs k
    have hsfk := hsf k k.2
    have hsfk' := hsf' k k.2
    rw [hC.points] at hsfk hsfk'
    obtain ⟨x, hx, _, _, hcx⟩ := h.axis hn he hi k
    obtain ⟨x', hx', _, _, hcx'⟩ := h.axis hn he' hi' k
    obtain ⟨y, hy, _, _, hcy⟩ := h.axis hn he hj k
    obtain ⟨y', hy', _, _, hcy'⟩ := h.axis hn he' hj' k
    have inherit : SharedPoint cs.vmesh.grid cs.low (digit (p + 1) d k i) →
        SharedPoint cs.vmesh.grid cs.low (digit (p + 1) d k i') →
        cs.vmesh.coords (vnode e j) k = cs.vmesh.coords (vnode e' j') k ∨ ((k : ℕ) ∈ per ∧
          ((cs.vmesh.coords (vnode e j) k = a ∧ cs.vmesh.coords (vnode e' j') k = b) ∨
            (cs.vmesh.coords (vnode e j) k = b ∧ cs.vmesh.coords (vnode e' j') k = a))) := fun g1 g2 => by
      have e1 : y = x := by rw [hy, hx, hsfk g1]
      have e2 : y' = x' := by rw [hy', hx', hsfk' g2]
      rw [e1, ← hcx] at hcy
      rw [e2, ← hcx'] at hcy'
      rw [hcy, hcy']
      exact hsk
    rcases key k with ⟨h1, h2⟩ | ⟨h1, h2⟩
    · by_cases hsh : SharedPoint cs.vmesh.grid cs.low (digit (p + 1) d k i)
      · exact inherit hsh (by rw [← h2]; exact hsh)
      · have := hoff k k.2 hsh
        left
        rw [hcy, hcy', h1, hy, hy', this]
    · exact inherit h1 h2

theorem quadWeights (h : CubeSEM n d p a b per bcs cs vnode pnode l) {mesh : Mesh ℝ d} {fs : FESpace ℝ d}
    (hfs : FESpace.build mesh cs.quad = some fs) : ∀ q < fs.numQuad, 0 < fs.weights.getD q 0 := by
  obtain ⟨W, hW, hWl, hWp, _⟩ := C80_tensor h.rule d h.vcube.cells.dim
  obtain ⟨_, _, W', _, _, hW', _, _, hnq, hfw, _⟩ := FESpace.build_fields hfs
  rw [hW, Option.some.injEq] at hW'
  subst hW'
  intro q hq
  rw [hnq, h.count, ← hWl] at hq
  rw [hfw, List.getD_eq_getElem _ _ hq]
  exact hWp _ (List.getElem_mem hq)

theorem _root_.Verif.Core.AffCells.samples {n p : ℕ} {a c : ℝ} {mesh : Mesh ℝ d} {node : ℕ → ℕ → ℕ}
    (h : AffCells n p a c mesh node) : SamplesMaps mesh (fun e j => C c * X j + C (centre n d a c e j)) := by
  intro e he j
  rw [h.num] at he
  refine ⟨fun k => ?_, fun i hi => ?_⟩
  · have hX : (affSub c (centre n d a c e) (X j)).degreeOf k < mesh.grid.numPoints :=
      h.affDegree (fun k => by rw [degreeOf_X]; split <;> have := h.order <;> omega) _ k
    unfold affSub at hX
    rwa [bind₁_X_right] at hX
  · unfold Mesh.elementCoords
    rw [h.gather _ he hi, h.coords e he i hi]
    simp

theorem setup (h : CubeSEM n d p a b per bcs cs vnode pnode l) (hn : 1 ≤ n) (hb : CubeBCs d per bcs) :
    StokesSetup cs.vmesh cs.pmesh cs.quad cs.overQuad cs.masks bcs cs.sem := by
  have hC := h.vcube.cells
  refine ⟨h.create, hC.inRange, h.pcube.inRange, hC.numPos, h.pcube.numPos, ?_, hC.weights, h.pcube.weights, hC.nodes,
    h.pcube.nodes, by rw [hC.num, h.pcube.num], ⟨_, hC.toAffCells.samples, h.pcube.samples⟩, h.quadWeights h.vbuild, ?_, ?_, ?_⟩
  · refine ⟨h.vcube.family.trans h.qtype.symm, ?_, ?_⟩
    · rw [h.vcube.family]; decide
    · rw [hC.points, h.qpoints]
  · intro e he q hq
    rw [hC.num] at he
    rw [hC.toAffCells.jacdet h.vbuild he hq]
    exact pow_pos hC.width d
  · intro j hj
    obtain ⟨e, he, i, hi, rfl⟩ := hC.onto j hj
    exact ⟨e, by rw [hC.num]; exact he, i, hi, hC.elem e he i hi⟩
  · intro i hi j hj hs hD
    rw [h.dirichlet_iff hb hi] at hD
    rw [h.dirichlet_iff hb hj]
    rw [h.same_iff hi hj] at hs
    obtain ⟨hne, k, hk, hco⟩ := hD
    refine ⟨hne, k, hk, ?_⟩
    rcases hs k with h1 | h1
    · rw [← h1]; exact hco
    · exact absurd h1.1 hk

theorem pressureSetup (h : CubeSEM n d p a b per bcs cs vnode pnode l) (hn : 1 ≤ n) : PressureSetup cs.pmesh cs.quad cs.sem := by
  have hP := h.pcube
  refine ⟨h.pbuild, hP.numPos, hP.weights, hP.nodes, ?_, fun i _ j _ hij => h.pdistinct i j hij, ?_⟩
  · intro e he i hi
    rw [hP.num] at he
    rw [hP.elem e he i hi]
    have := hP.lt e he i hi
    omega
  · have hpos : 0 < n ^ d := pow_pos (by omega) d
    obtain ⟨_, _, _, _, _, _, _, _, hnq, _⟩ := FESpace.build_fields h.pbuild
    have hq0 : 0 < cs.sem.pspace.numQuad := by rw [hnq, h.qpoints]; exact pow_pos (by omega) d
    apply ne_of_gt
    unfold integrate
    rw [FESpace.build_mesh h.pbuild, hP.num]
    refine Finset.sum_pos (fun e he => Finset.sum_pos (fun q hq => ?_) ⟨0, Finset.mem_range.mpr hq0⟩)
      ⟨0, Finset.mem_range.mpr hpos⟩
    rw [Finset.mem_range] at he hq
    rw [one_mul, hP.jacdet h.pbuild he hq]
    exact mul_pos (pow_pos hP.width d) (h.quadWeights h.pbuild q hq)

/-- The divergence of a velocity field of element polynomials `U`. -/
theorem div_eq (h : CubeSEM n d p a b per bcs cs vnode pnode l) {u : Vel ℝ d} {U : Fin d → ℕ → MvPolynomial (Fin d) ℝ}
    (hU : ∀ k, CellField cs.vmesh p (fun j => u j k) (U k)) {e q : ℕ} (he : e < n ^ d) (hq : q < cs.sem.vspace.numQuad) :
    divFn cs.sem.vspace (vGather cs.sem.vspace.mesh u) e q =
      eval (CubeCells.pt n a ((b - a) / (2 * n)) cs.quad e q) (∑ k, pderiv k (U k e)) := by
  have hm := FESpace.build_mesh h.vbuild
  unfold divFn
  rw [map_sum]
  refine Finset.sum_congr rfl fun k _ => ?_
  have := h.vcube.cells.toAffCells.scalarGrad h.vbuild (hU k) he hq k
  rw [hm]
  exact this

theorem numQuad (h : CubeSEM n d p a b per bcs cs vnode pnode l) : cs.sem.pspace.numQuad = cs.sem.vspace.numQuad := by
  rw [FESpace.build_numQuad h.vbuild, FESpace.build_numQuad h.pbuild]

/-- Integrals of the divergence against pressures. -/
theorem div_integral (h : CubeSEM n d p a b per bcs cs vnode pnode l) (hp : 3 ≤ p) {u : Vel ℝ d}
    {U : Fin d → ℕ → MvPolynomial (Fin d) ℝ}
    (hU : ∀ k, CellField cs.vmesh p (fun j => u j k) (U k)) {q : ℕ → ℝ} {Q : ℕ → MvPolynomial (Fin d) ℝ}
    (hQ : CellField cs.pmesh (p - 2) q Q) :
    integrate cs.sem.pspace (fun e i => divFn cs.sem.vspace (vGather cs.sem.vspace.mesh u) e i *
      scalarFn cs.sem.pspace (cs.sem.pspace.mesh.gather q) e i) =
      ∑ e ∈ Finset.range (n ^ d), ∫ x in CubeCells.cell n d a ((b - a) / (2 * n)) e, eval x ((∑ k, pderiv k (U k e)) * Q e) := by
  have hns : ¬ cs.pmesh.grid.same cs.quad.nodes := by
    rintro ⟨hs, _⟩
    rw [h.ptype, h.qtype] at hs
    exact absurd hs (by decide)
  apply h.pcube.integrate h.pbuild h.rule h.count h.values
  · intro e he k
    have h1 : (Q e).degreeOf k ≤ p - 2 := (hQ e (by rw [h.pcube.num]; exact he)).1 k
    have h2 : (∑ j, pderiv j (U j e)).degreeOf k ≤ p := by
      refine le_trans (degreeOf_sum_le _ _ _) (Finset.sup_le fun j _ => ?_)
      exact le_trans (degreeOf_pderiv_le _ _ _) ((hU j e (by rw [h.vcube.cells.num]; exact he)).1 k)
    refine le_trans (degreeOf_mul_le _ _ _) ?_
    omega
  · intro e he i hi
    rw [map_mul, h.div_eq hU he (by rw [← h.numQuad]; exact hi), FESpace.build_mesh h.pbuild,
      h.pcube.scalarFn h.pbuild hns hQ he hi]

end CubeSEM

end Verif.NS
