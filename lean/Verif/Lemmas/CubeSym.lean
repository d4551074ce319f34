import Verif.Lemmas.StokesSym
import Verif.Lemmas.CubeMass

/-!
Moving the elements of a periodic cube by whole elements is a symmetry of the Stokes solver.
-/

namespace Verif.NS

open Verif.Core Verif.Common Verif.Spec

variable {n d p over : ℕ} {a b c L : ℝ} {per : List ℕ} {bcs : List (String × BCType)} {cs : CubeStokes d}

/-- The same point of the domain: the coordinates along periodic axes are taken modulo the period `L`. -/
def TorusPoint (per : List ℕ) (L : ℝ) (x y : Fin d → ℝ) : Prop :=
  ∀ k : Fin d, x k = y k ∨ ((k : ℕ) ∈ per ∧ ∃ z : ℤ, x k = y k + z * L)

/-- The values of `u` at points moved by `w` are the values of `v`. -/
def Shifted (mesh : Mesh ℝ d) (per : List ℕ) (L : ℝ) (w : Fin d → ℝ) (u v : ℕ → ℝ) : Prop :=
  ∀ i < mesh.numNodes, ∀ j < mesh.numNodes, TorusPoint per L (mesh.coords j) (fun k => mesh.coords i k + w k) → u j = v i

namespace TorusPoint

variable {x y z w : Fin d → ℝ}

theorem symm (h : TorusPoint per L x y) : TorusPoint per L y x := fun k => by
  rcases h k with h1 | ⟨hk, m, h1⟩
  · exact Or.inl h1.symm
  · exact Or.inr ⟨hk, -m, by rw [h1]; push_cast; ring⟩

theorem trans (h : TorusPoint per L x y) (h' : TorusPoint per L y z) : TorusPoint per L x z := fun k => by
  rcases h k with h1 | ⟨hk, m, h1⟩
  · rw [h1]; exact h' k
  · rcases h' k with h2 | ⟨_, m', h2⟩
    · exact Or.inr ⟨hk, m, by rw [h1, h2]⟩
    · exact Or.inr ⟨hk, m + m', by rw [h1, h2]; push_cast; ring⟩

theorem add (h : TorusPoint per L x y) (w : Fin d → ℝ) : TorusPoint per L (fun k => x k + w k) (fun k => y k + w k) := fun k => by
  rcases h k with h1 | ⟨hk, m, h1⟩
  · exact Or.inl (by dsimp only; rw [h1])
  · exact Or.inr ⟨hk, m, by dsimp only; rw [h1]; ring⟩

theorem of_add (h : TorusPoint per L (fun k => x k + w k) (fun k => y k + w k)) : TorusPoint per L x y := fun k => by
  rcases h k with h1 | ⟨hk, m, h1⟩
  · exact Or.inl (by simpa using h1)
  · exact Or.inr ⟨hk, m, by linarith⟩

end TorusPoint

/-- The element `s k` elements further along axis `k`. -/
noncomputable def shiftElem (n d : ℕ) (s : Fin d → ℕ) (e : ℕ) : ℕ :=
  if h : 0 < n then (digit_surj (fun k : Fin d => (⟨(digit n d k e + s k) % n, Nat.mod_lt _ h⟩ : Fin n))).choose else e

theorem shiftElem_lt (hn : 1 ≤ n) (s : Fin d → ℕ) (e : ℕ) : shiftElem n d s e < n ^ d := by
  unfold shiftElem
  rw [dif_pos (show 0 < n by omega)]
  exact (digit_surj (fun k : Fin d => (⟨(digit n d k e + s k) % n, Nat.mod_lt _ (by omega)⟩ : Fin n))).choose_spec.1

theorem shiftElem_digit (hn : 1 ≤ n) (s : Fin d → ℕ) (e : ℕ) (k : Fin d) :
    digit n d k (shiftElem n d s e) = (digit n d k e + s k) % n := by
  unfold shiftElem
  rw [dif_pos (show 0 < n by omega)]
  exact (digit_surj (fun k : Fin d => (⟨(digit n d k e + s k) % n, Nat.mod_lt _ (by omega)⟩ : Fin n))).choose_spec.2 k

theorem shiftElem_inj (hn : 1 ≤ n) (s : Fin d → ℕ) {e e' : ℕ} (he : e < n ^ d) (he' : e' < n ^ d)
    (h : shiftElem n d s e = shiftElem n d s e') : e = e' := by
  refine digit_ext he he' fun k hk => ?_
  have h1 := shiftElem_digit hn s e ⟨k, hk⟩
  rw [h, shiftElem_digit hn s e' ⟨k, hk⟩] at h1
  have h2 : digit n d k e' ≡ digit n d k e [MOD n] := Nat.ModEq.add_right_cancel' _ h1
  unfold Nat.ModEq at h2
  rw [Nat.mod_eq_of_lt (digit_lt n d k e' (by omega)), Nat.mod_eq_of_lt (digit_lt n d k e (by omega))] at h2
  exact h2.symm

/-- The nodes of the moved element. -/
theorem _root_.Verif.Core.AffCells.shift {mesh : Mesh ℝ d} {node : ℕ → ℕ → ℕ} (h : AffCells n p a c mesh node) (hn : 1 ≤ n)
    {s : Fin d → ℕ} (hs : ∀ k : Fin d, (k : ℕ) ∉ per → s k = 0) {e i : ℕ} (he : e < n ^ d) (hi : i < mesh.nodesPerElem) :
    TorusPoint per (2 * c * n) (mesh.coords (node (shiftElem n d s e) i)) (fun k => mesh.coords (node e i) k + s k * (2 * c)) := by
  intro k
  dsimp only
  rw [h.coords _ (shiftElem_lt hn s e) i hi k, h.coords e he i hi k]
  unfold centre
  rw [shiftElem_digit hn]
  have hdiv := Nat.div_add_mod (digit n d k e + s k) n
  obtain ⟨z, hz⟩ : ∃ z, z = (digit n d k e + s k) / n := ⟨_, rfl⟩
  rw [← hz] at hdiv
  have hdiv' : (n : ℝ) * z + ((digit n d k e + s k) % n : ℕ) = digit n d k e + s k := by
    exact_mod_cast hdiv
  by_cases hk : (k : ℕ) ∈ per
  · refine Or.inr ⟨hk, -(z : ℤ), ?_⟩
    push_cast
    push_cast at hdiv'
    linear_combination 2 * c * hdiv'
  · left
    rw [hs k hk, Nat.add_zero, Nat.mod_eq_of_lt (digit_lt n d k e (by omega))]
    push_cast
    ring

namespace CubeSEM

variable {vnode pnode : ℕ → ℕ → ℕ} {l : List ℝ}

/-- Copies of a node are the nodes at the same point. -/
theorem same_point (h : CubeSEM n d p a b per bcs cs vnode pnode l) (hab : a < b) {i j : ℕ} (hi : i < cs.vmesh.numNodes)
    (hj : j < cs.vmesh.numNodes) : SameNode cs.vmesh i j ↔ TorusPoint per (b - a) (cs.vmesh.coords i) (cs.vmesh.coords j) := by
  rw [h.same_iff hi hj]
  refine forall_congr' fun k => ?_
  have h1 := h.vcube.inside i hi k
  have h2 := h.vcube.inside j hj k
  constructor
  · rintro (h3 | ⟨hk, ⟨h3, h4⟩ | ⟨h3, h4⟩⟩)
    · exact Or.inl h3
    · exact Or.inr ⟨hk, -1, by rw [h3, h4]; push_cast; ring⟩
    · exact Or.inr ⟨hk, 1, by rw [h3, h4]; push_cast; ring⟩
  · rintro (h3 | ⟨hk, z, h3⟩)
    · exact Or.inl h3
    · have hL : 0 < b - a := by linarith
      have hz1 : (z : ℝ) < 2 := by nlinarith
      have hz2 : (-2 : ℝ) < z := by nlinarith
      have hz3 : z < 2 := by exact_mod_cast hz1
      have hz4 : -2 < z := by exact_mod_cast hz2
      obtain rfl | rfl | rfl : z = -1 ∨ z = 0 ∨ z = 1 := by omega
      · refine Or.inr ⟨hk, Or.inl ?_⟩
        push_cast at h3
        constructor <;> linarith
      · exact Or.inl (by simpa using h3)
      · refine Or.inr ⟨hk, Or.inr ?_⟩
        push_cast at h3
        constructor <;> linarith

/-- Pressure nodes at the same point are the same node. -/
theorem pressure_point (h : CubeSEM n d p a b per bcs cs vnode pnode l) (hn : 1 ≤ n) (hp : 3 ≤ p) (hab : a < b)
    (hcs : cubeStokes n d p over a b per bcs = .ok cs) {e i e' i' : ℕ} (he : e < n ^ d) (hi : i < cs.pmesh.nodesPerElem)
    (he' : e' < n ^ d) (hi' : i' < cs.pmesh.nodesPerElem)
    (hs : TorusPoint per (b - a) (cs.pmesh.coords (pnode e i)) (cs.pmesh.coords (pnode e' i'))) : e = e' ∧ i = i' := by
  have hP := h.pcube
  obtain ⟨grid, hg, _, hnum, _, _, hin⟩ := createNodes_gl (p := p - 2 + 1) (by omega)
  rw [cubeStokes_pgrid hcs, Option.some.injEq] at hg
  subst hg
  have hc := width (n := n) hn hab
  have hu := upper (a := a) (b := b) hn
  have key : ∀ k : Fin d, digit n d k e = digit n d k e' ∧ gridPoint d cs.pmesh.grid.value i k = gridPoint d cs.pmesh.grid.value i' k := by
    intro k
    have hx : ∀ i, -1 < gridPoint d cs.pmesh.grid.value i k ∧ gridPoint d cs.pmesh.grid.value i k < 1 := by
      intro i
      have hlt : digit cs.pmesh.grid.numPoints d k i < cs.pmesh.grid.numPoints := digit_lt _ _ _ _ (by omega)
      have : gridPoint d cs.pmesh.grid.value i k = cs.pmesh.grid.value ⟨_, hlt⟩ := dif_pos hlt
      rw [this]
      exact hin _
    obtain ⟨z, hz⟩ : ∃ z : ℤ, cs.pmesh.coords (pnode e i) k = cs.pmesh.coords (pnode e' i') k + z * (b - a) := by
      rcases hs k with h1 | ⟨_, z, h1⟩
      · exact ⟨0, by rw [h1]; simp⟩
      · exact ⟨z, h1⟩
    rw [hP.coords e he i hi k, hP.coords e' he' i' hi' k] at hz
    have hx1 := hx i
    have hx2 := hx i'
    set x := gridPoint d cs.pmesh.grid.value i k
    set x' := gridPoint d cs.pmesh.grid.value i' k
    have hE := digit_lt n d k e (by omega)
    have hE' := digit_lt n d k e' (by omega)
    unfold centre at hz
    obtain ⟨cc, hcc⟩ : ∃ cc, cc = (b - a) / (2 * (n : ℝ)) := ⟨_, rfl⟩
    rw [← hcc] at hz hc hu
    have hba : b - a = cc * (2 * n) := by linarith
    rw [hba] at hz
    set E := digit n d k e
    set E' := digit n d k e'
    have hz' : x - x' = 2 * ((E' - E + z * n : ℤ) : ℝ) := by
      apply mul_left_cancel₀ hc.ne'
      push_cast
      linear_combination hz
    have hw1 : ((E' - E + z * n : ℤ) : ℝ) < 1 := by linarith
    have hw2 : (-1 : ℝ) < ((E' - E + z * n : ℤ) : ℝ) := by linarith
    have hw3 : (E' - E + z * n : ℤ) < 1 := by exact_mod_cast hw1
    have hw4 : (-1 : ℤ) < (E' - E + z * n : ℤ) := by exact_mod_cast hw2
    have hw : (E' - E + z * n : ℤ) = 0 := by omega
    have hz0 : z = 0 := by
      by_contra hne
      rcases lt_or_gt_of_ne hne with h1 | h1
      · have : z * n ≤ -1 * n := Int.mul_le_mul_of_nonneg_right (by omega) (by omega)
        omega
      · have : 1 * (n : ℤ) ≤ z * n := Int.mul_le_mul_of_nonneg_right (by omega) (by omega)
        omega
    rw [hw] at hz'
    rw [hz0] at hw
    refine ⟨by omega, ?_⟩
    push_cast at hz'
    linarith
  refine ⟨digit_ext he he' fun k hk => (key ⟨k, hk⟩).1, ?_⟩
  refine digit_ext (b := cs.pmesh.grid.numPoints) (d := d) hi hi' fun k hk => ?_
  have h1 := (key ⟨k, hk⟩).2
  have hlt : digit cs.pmesh.grid.numPoints d k i < cs.pmesh.grid.numPoints := digit_lt _ _ _ _ (by omega)
  have hlt' : digit cs.pmesh.grid.numPoints d k i' < cs.pmesh.grid.numPoints := digit_lt _ _ _ _ (by omega)
  have e1 : gridPoint d cs.pmesh.grid.value i ⟨k, hk⟩ = cs.pmesh.grid.value ⟨_, hlt⟩ := dif_pos hlt
  have e2 : gridPoint d cs.pmesh.grid.value i' ⟨k, hk⟩ = cs.pmesh.grid.value ⟨_, hlt'⟩ := dif_pos hlt'
  rw [e1, e2] at h1
  simpa using hP.nodes h1

theorem vnodeAt (h : CubeSEM n d p a b per bcs cs vnode pnode l) {e i : ℕ} (he : e < n ^ d) (hi : i < cs.vmesh.nodesPerElem) :
    nodeAt cs.vmesh e i = vnode e i := by
  unfold nodeAt
  rw [h.vcube.cells.elem e he i hi]
  simp

theorem pnodeAt (h : CubeSEM n d p a b per bcs cs vnode pnode l) {e i : ℕ} (he : e < n ^ d) (hi : i < cs.pmesh.nodesPerElem) :
    nodeAt cs.pmesh e i = pnode e i := by
  unfold nodeAt
  rw [h.pcube.elem e he i hi]
  simp

theorem period (hn : 1 ≤ n) : 2 * ((b - a) / (2 * (n : ℝ))) * n = b - a := by
  have := upper (a := a) (b := b) hn
  linarith

theorem pressure_same (h : CubeSEM n d p a b per bcs cs vnode pnode l) {i j : ℕ} (hs : SameNode cs.pmesh i j) : i = j := by
  rcases hs with h1 | h1
  · exact h1
  · exact h.pdistinct i j h1.1

variable {s : Fin d → ℕ}

theorem vMeshSym (h : CubeSEM n d p a b per bcs cs vnode pnode l) (hn : 1 ≤ n) (hab : a < b)
    (hs : ∀ k : Fin d, (k : ℕ) ∉ per → s k = 0) : MeshSym cs.vmesh (shiftElem n d s) := by
  have hC := h.vcube.cells
  refine ⟨fun m hm i hi => ?_, fun j hj => ?_, fun m _ => ?_, fun m hm m' hm' e => ?_, fun m hm i hi m' hm' i' hi' => ?_⟩
  · rw [hC.num] at hm
    rw [hC.elem m hm i hi]
    have := hC.lt m hm i hi
    omega
  · obtain ⟨e, he, i, hi, rfl⟩ := hC.onto j hj
    exact ⟨e, by rw [hC.num]; exact he, i, hi, hC.elem e he i hi⟩
  · rw [hC.num]; exact shiftElem_lt hn s m
  · rw [hC.num] at hm hm'; exact shiftElem_inj hn s hm hm' e
  · rw [hC.num] at hm hm'
    have hl := shiftElem_lt hn s m
    have hl' := shiftElem_lt hn s m'
    rw [h.vnodeAt hl hi, h.vnodeAt hl' hi', h.vnodeAt hm hi, h.vnodeAt hm' hi',
      h.same_point hab (hC.lt _ hl i hi) (hC.lt _ hl' i' hi'), h.same_point hab (hC.lt _ hm i hi) (hC.lt _ hm' i' hi')]
    have h1 := hC.toAffCells.shift (per := per) hn hs hm hi
    have h2 := hC.toAffCells.shift (per := per) hn hs hm' hi'
    rw [period hn] at h1 h2
    exact ⟨fun h3 => (h1.symm.trans (h3.trans h2)).of_add, fun h3 => h1.trans ((h3.add _).trans h2.symm)⟩

theorem pMeshSym (h : CubeSEM n d p a b per bcs cs vnode pnode l) (hn : 1 ≤ n) (s : Fin d → ℕ) :
    MeshSym cs.pmesh (shiftElem n d s) := by
  have hC := h.pcube
  have hinj : ∀ e < n ^ d, ∀ i < cs.pmesh.nodesPerElem, ∀ e' < n ^ d, ∀ i' < cs.pmesh.nodesPerElem, pnode e i = pnode e' i' →
      e = e' ∧ i = i' := by
    intro e _ i hi e' _ i' hi' heq
    have hnpe : cs.pmesh.nodesPerElem = (p - 2 + 1) ^ d := by unfold Mesh.nodesPerElem; rw [hC.points]
    rw [hnpe] at hi hi'
    rw [h.pnodes, h.pnodes] at heq
    have h0 : 0 < (p - 2 + 1) ^ d := by positivity
    have h1 := congrArg (· / (p - 2 + 1) ^ d) heq
    simp only [Nat.mul_comm _ ((p - 2 + 1) ^ d), Nat.mul_add_div h0, Nat.div_eq_of_lt hi, Nat.div_eq_of_lt hi', Nat.add_zero] at h1
    subst h1
    exact ⟨rfl, by omega⟩
  refine ⟨fun m hm i hi => ?_, fun j hj => ?_, fun m _ => ?_, fun m hm m' hm' e => ?_, fun m hm i hi m' hm' i' hi' => ?_⟩
  · rw [hC.num] at hm
    rw [hC.elem m hm i hi]
    have := hC.lt m hm i hi
    omega
  · obtain ⟨e, he, i, hi, rfl⟩ := hC.onto j hj
    exact ⟨e, by rw [hC.num]; exact he, i, hi, hC.elem e he i hi⟩
  · rw [hC.num]; exact shiftElem_lt hn s m
  · rw [hC.num] at hm hm'; exact shiftElem_inj hn s hm hm' e
  · rw [hC.num] at hm hm'
    have hl := shiftElem_lt hn s m
    have hl' := shiftElem_lt hn s m'
    rw [h.pnodeAt hl hi, h.pnodeAt hl' hi', h.pnodeAt hm hi, h.pnodeAt hm' hi']
    constructor
    · intro h1
      obtain ⟨h2, rfl⟩ := hinj _ hl _ hi _ hl' _ hi' (h.pressure_same h1)
      rw [shiftElem_inj hn s hm hm' h2]
      exact SameNode.refl _ _
    · intro h1
      obtain ⟨rfl, rfl⟩ := hinj _ hm _ hi _ hm' _ hi' (h.pressure_same h1)
      exact SameNode.refl _ _

theorem spaceSym {mesh : Mesh ℝ d} {node : ℕ → ℕ → ℕ} {quad : Quadrature1D ℝ} {fs : FESpace ℝ d} {q : ℕ}
    (hA : AffCells n q a c mesh node) (hn : 1 ≤ n) (hb : FESpace.build mesh quad = some fs) (hsym : MeshSym mesh (shiftElem n d s)) :
    SpaceSym fs (shiftElem n d s) := by
  have hm := FESpace.build_mesh hb
  refine ⟨by rw [hm]; exact hsym, FESpace.build_wf hb hA.numPos, fun m hlt q hq => ?_, fun m hlt q hq => ?_⟩
  · rw [hm, hA.num] at hlt
    rw [hA.jacdet hb (shiftElem_lt hn s m) hq, hA.jacdet hb hlt hq]
  · rw [hm, hA.num] at hlt
    rw [hA.invjac hb (shiftElem_lt hn s m) hq, hA.invjac hb hlt hq]

/-- Corresponding velocity components are those that agree after the shift. -/
theorem field_iff (h : CubeSEM n d p a b per bcs cs vnode pnode l) (hn : 1 ≤ n) (hab : a < b)
    (hs : ∀ k : Fin d, (k : ℕ) ∉ per → s k = 0) (u v : ℕ → ℝ) :
    SymField cs.vmesh (shiftElem n d s) u v ↔ Shifted cs.vmesh per (b - a) (fun k => s k * ((b - a) / n)) u v := by
  have hC := h.vcube.cells
  have hsym := h.vMeshSym hn hab hs
  have hw : ∀ k : Fin d, (s k : ℝ) * ((b - a) / n) = s k * (2 * ((b - a) / (2 * n))) := by
    intro k
    have hn0 : (n : ℝ) ≠ 0 := by exact_mod_cast (by omega : n ≠ 0)
    field_simp
  have hsh : ∀ e < n ^ d, ∀ i < cs.vmesh.nodesPerElem, TorusPoint per (b - a) (cs.vmesh.coords (vnode (shiftElem n d s e) i))
      (fun k => cs.vmesh.coords (vnode e i) k + s k * ((b - a) / n)) := by
    intro e he i hi
    have := hC.toAffCells.shift (per := per) hn hs he hi
    rw [period hn] at this
    simp only [hw]
    exact this
  constructor
  · intro H i hi j hj hp
    obtain ⟨e, he, m, hm, rfl⟩ := hC.onto i hi
    have hl := shiftElem_lt hn s e
    have h1 := H.moved e (by rw [hC.num]; exact he) m hm
    rw [h.vnodeAt hl hm, h.vnodeAt he hm] at h1
    rw [← h1]
    refine H.left j hj _ (hC.lt _ hl m hm) ((h.same_point hab hj (hC.lt _ hl m hm)).2 ?_)
    exact hp.trans (hsh e he m hm).symm
  · intro H
    refine ⟨fun i hi j hj hij => ?_, fun i hi j hj hij => ?_, fun m hm i hi => ?_⟩
    · obtain ⟨e, he, m, hm, rfl⟩ := hC.onto i hi
      obtain ⟨e', he', rfl⟩ := hsym.surj (m := e) (by rw [hC.num]; exact he)
      rw [hC.num] at he'
      have h1 := H (vnode e' m) (hC.lt _ he' m hm) _ hi (hsh e' he' m hm)
      have h2 := H (vnode e' m) (hC.lt _ he' m hm) j hj
        (((h.same_point hab hj hi).1 hij.symm).trans (hsh e' he' m hm))
      rw [h1, h2]
    · obtain ⟨e, he, m, hm, rfl⟩ := hC.onto i hi
      have hl := shiftElem_lt hn s e
      have h1 := H _ hi _ (hC.lt _ hl m hm) (hsh e he m hm)
      have h2 := H j hj _ (hC.lt _ hl m hm) ((hsh e he m hm).trans (((h.same_point hab hi hj).1 hij).add _))
      rw [← h1, ← h2]
    · rw [hC.num] at hm
      have hl := shiftElem_lt hn s m
      rw [h.vnodeAt hl hi, h.vnodeAt hm hi]
      exact H _ (hC.lt _ hm i hi) _ (hC.lt _ hl i hi) (hsh m hm i hi)

/-- The same for pressures. -/
theorem pfield_iff (h : CubeSEM n d p a b per bcs cs vnode pnode l) (hn : 1 ≤ n) (hp : 3 ≤ p) (hab : a < b)
    (hcs : cubeStokes n d p over a b per bcs = .ok cs) (hs : ∀ k : Fin d, (k : ℕ) ∉ per → s k = 0) (u v : ℕ → ℝ) :
    SymField cs.pmesh (shiftElem n d s) u v ↔ Shifted cs.pmesh per (b - a) (fun k => s k * ((b - a) / n)) u v := by
  have hC := h.pcube
  have hw : ∀ k : Fin d, (s k : ℝ) * ((b - a) / n) = s k * (2 * ((b - a) / (2 * n))) := by
    intro k
    have hn0 : (n : ℝ) ≠ 0 := by exact_mod_cast (by omega : n ≠ 0)
    field_simp
  have hsh : ∀ e < n ^ d, ∀ i < cs.pmesh.nodesPerElem, TorusPoint per (b - a) (cs.pmesh.coords (pnode (shiftElem n d s e) i))
      (fun k => cs.pmesh.coords (pnode e i) k + s k * ((b - a) / n)) := by
    intro e he i hi
    have := hC.shift (per := per) hn hs he hi
    rw [period hn] at this
    simp only [hw]
    exact this
  constructor
  · intro H i hi j hj hpt
    obtain ⟨e, he, m, hm, rfl⟩ := hC.onto i hi
    obtain ⟨e', he', m', hm', rfl⟩ := hC.onto j hj
    have hl := shiftElem_lt hn s e
    obtain ⟨rfl, rfl⟩ := h.pressure_point hn hp hab hcs he' hm' hl hm (hpt.trans (hsh e he m hm).symm)
    have h1 := H.moved e (by rw [hC.num]; exact he) m' hm'
    rwa [h.pnodeAt hl hm', h.pnodeAt he hm'] at h1
  · intro H
    refine ⟨fun i _ j _ hij => by rw [h.pressure_same hij], fun i _ j _ hij => by rw [h.pressure_same hij], fun m hm i hi => ?_⟩
    rw [hC.num] at hm
    have hl := shiftElem_lt hn s m
    rw [h.pnodeAt hl hi, h.pnodeAt hm hi]
    exact H _ (hC.lt _ hm i hi) _ (hC.lt _ hl i hi) (hsh m hm i hi)

/-- Moving by whole elements is a symmetry of the solver. -/
theorem semSym (h : CubeSEM n d p a b per bcs cs vnode pnode l) (hn : 1 ≤ n) (hp : 3 ≤ p) (hab : a < b) (hb : CubeBCs d per bcs)
    (hs : ∀ k : Fin d, (k : ℕ) ∉ per → s k = 0) : SemSym cs.sem cs.low (shiftElem n d s) := by
  have hC := h.vcube.cells
  obtain ⟨mask, hmask, hc⟩ := h.create
  obtain ⟨s1, s2, s3, s4, s5, s6⟩ := StokesSEM.create_fields hc
  have hob := (FESpace.create_build s3).1
  have hvm := FESpace.build_mesh h.vbuild
  have hpm := FESpace.build_mesh h.pbuild
  have hsym := h.vMeshSym hn hab hs
  refine ⟨spaceSym hC.toAffCells hn h.vbuild hsym, spaceSym hC.toAffCells hn hob hsym, spaceSym h.pcube hn h.pbuild (h.pMeshSym hn s),
    by rw [FESpace.build_mesh hob, hvm], by rw [hpm, hvm, h.pcube.num, hC.num], h.numQuad, ?_, by rw [hvm]; exact s5, by rw [hvm]; exact s6,
    by rw [hvm]; exact h.filterSetup hp, by rw [hvm]; exact h.aligned hn hab⟩
  rw [hvm, h.field_iff hn hab hs]
  intro i hi j hj hpt
  obtain ⟨_, _, _, _, hm, _, _⟩ := (h.setup hn hb).fields
  have hiff : DirichletNode cs.masks bcs j ↔ DirichletNode cs.masks bcs i := by
    rw [h.dirichlet_iff hb hi, h.dirichlet_iff hb hj]
    refine and_congr_right fun _ => exists_congr fun k => and_congr_right fun hk => ?_
    rcases hpt k with h1 | h1
    · rw [h1]; dsimp only; rw [hs k hk]; simp
    · exact absurd h1.1 hk
  by_cases hD : DirichletNode cs.masks bcs i
  · rw [(hm i).1 hD, (hm j).1 (hiff.2 hD)]
  · rw [(hm i).2 hD, (hm j).2 (fun h1 => hD (hiff.1 h1))]

end CubeSEM

end Verif.NS
