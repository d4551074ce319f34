import Verif.Lemmas.StokesFilter
import Verif.Lemmas.CGSim

/-!
Symmetries of a mesh: permutations of its elements that map copies of nodes to copies of nodes and keep the Jacobians. Fields
that correspond to each other under the symmetry are mapped to corresponding fields by all operators of the Stokes solver.
-/

set_option linter.unusedSectionVars false

namespace Verif.NS

open Verif.Core Verif.Linalg Finset

variable {K : Type*} [Field K] [LinearOrder K] [IsStrictOrderedRing K] {d : ℕ}

/-- The node at position `n` of element `m`. -/
def nodeAt (mesh : Mesh K d) (m n : ℕ) : ℕ := (mesh.elements m n).toNat

/-- A symmetry of the mesh. -/
structure MeshSym (mesh : Mesh K d) (τ : ℕ → ℕ) : Prop where
  inRange : ∀ m < mesh.numElements, ∀ n < mesh.nodesPerElem, 0 ≤ mesh.elements m n ∧ mesh.elements m n < mesh.numNodes
  cover : ∀ i < mesh.numNodes, ∃ m < mesh.numElements, ∃ n < mesh.nodesPerElem, mesh.elements m n = i
  maps : ∀ m < mesh.numElements, τ m < mesh.numElements
  inj : ∀ m < mesh.numElements, ∀ m' < mesh.numElements, τ m = τ m' → m = m'
  same : ∀ m < mesh.numElements, ∀ n < mesh.nodesPerElem, ∀ m' < mesh.numElements, ∀ n' < mesh.nodesPerElem,
    (SameNode mesh (nodeAt mesh (τ m) n) (nodeAt mesh (τ m') n') ↔ SameNode mesh (nodeAt mesh m n) (nodeAt mesh m' n'))

variable {mesh : Mesh K d} {τ : ℕ → ℕ}

namespace MeshSym

theorem nodeAt_lt (h : MeshSym mesh τ) {m n : ℕ} (hm : m < mesh.numElements) (hn : n < mesh.nodesPerElem) :
    nodeAt mesh m n < mesh.numNodes := by
  have := h.inRange m hm n hn
  unfold nodeAt
  omega

theorem nodeAt_cast (h : MeshSym mesh τ) {m n : ℕ} (hm : m < mesh.numElements) (hn : n < mesh.nodesPerElem) :
    mesh.elements m n = (nodeAt mesh m n : ℕ) := by
  have := h.inRange m hm n hn
  unfold nodeAt
  omega

theorem gather (h : MeshSym mesh τ) (u : ℕ → K) {m n : ℕ} (hm : m < mesh.numElements) (hn : n < mesh.nodesPerElem) :
    mesh.gather u m n = u (nodeAt mesh m n) := by
  rw [Mesh.gather_apply _ _ _ _ hn, h.nodeAt_cast hm hn, if_pos (by omega), readPos_nat (h.nodeAt_lt hm hn)]

theorem covered (h : MeshSym mesh τ) {i : ℕ} (hi : i < mesh.numNodes) :
    ∃ m < mesh.numElements, ∃ n < mesh.nodesPerElem, nodeAt mesh m n = i := by
  obtain ⟨m, hm, n, hn, he⟩ := h.cover i hi
  exact ⟨m, hm, n, hn, by unfold nodeAt; omega⟩

/-- Sums over the elements can be taken in the permuted order. -/
theorem sum (h : MeshSym mesh τ) {V : Type*} [AddCommMonoid V] (f : ℕ → V) :
    ∑ m ∈ range mesh.numElements, f (τ m) = ∑ m ∈ range mesh.numElements, f m := by
  refine Finset.sum_bij (fun m _ => τ m) (fun m hm => mem_range.2 (h.maps m (mem_range.1 hm)))
    (fun m hm m' hm' e => h.inj m (mem_range.1 hm) m' (mem_range.1 hm') e) (fun m hm => ?_) (fun _ _ => rfl)
  have hinj : Function.Injective fun i : Fin mesh.numElements => (⟨τ i, h.maps i i.2⟩ : Fin mesh.numElements) :=
    fun i j e => Fin.ext (h.inj i i.2 j j.2 (by simpa using e))
  obtain ⟨i, hi⟩ := Finite.surjective_of_injective hinj ⟨m, mem_range.1 hm⟩
  exact ⟨i, mem_range.2 i.2, by simpa using congrArg Fin.val hi⟩

theorem surj (h : MeshSym mesh τ) {m : ℕ} (hm : m < mesh.numElements) : ∃ m' < mesh.numElements, τ m' = m := by
  have hinj : Function.Injective fun i : Fin mesh.numElements => (⟨τ i, h.maps i i.2⟩ : Fin mesh.numElements) :=
    fun i j e => Fin.ext (h.inj i i.2 j j.2 (by simpa using e))
  obtain ⟨i, hi⟩ := Finite.surjective_of_injective hinj ⟨m, hm⟩
  exact ⟨i, i.2, by simpa using congrArg Fin.val hi⟩

/-- Scattered values summed over the copies of a node. -/
theorem exchange_scatter (h : MeshSym mesh τ) (ul : ℕ → ℕ → K) {i : ℕ} (hi : i < mesh.numNodes) :
    mesh.exchange (mesh.scatter ul) i = ∑ m ∈ range mesh.numElements, ∑ n ∈ range mesh.nodesPerElem,
      if SameNode mesh i (nodeAt mesh m n) then ul m n else 0 := by
  rw [exchange_sum mesh _ i hi]
  have e : ∀ j ∈ range mesh.numNodes, (if SameNode mesh i j then mesh.scatter ul j else 0) =
      ∑ m ∈ range mesh.numElements, ∑ n ∈ range mesh.nodesPerElem,
        if nodeAt mesh m n = j then (if SameNode mesh i (nodeAt mesh m n) then ul m n else 0) else 0 := by
    intro j _
    rw [Mesh.scatter_apply]
    split_ifs with hs
    · refine sum_congr rfl fun m hm => sum_congr rfl fun n hn => ?_
      rw [mem_range] at hm hn
      rw [h.nodeAt_cast hm hn, writePos_nat (h.nodeAt_lt hm hn), maskOf_natCast, one_mul]
      by_cases hj : nodeAt mesh m n = j
      · rw [if_pos (by rw [hj]), if_pos hj, if_pos (by rw [hj]; exact hs)]
      · rw [if_neg (fun e => hj (Option.some.inj e)), if_neg hj]
    · symm
      refine sum_eq_zero fun m _ => sum_eq_zero fun n _ => ?_
      split_ifs with h1 h2
      · exact absurd (h1 ▸ h2) hs
      · rfl
      · rfl
  rw [sum_congr rfl e, sum_comm]
  refine sum_congr rfl fun m hm => ?_
  rw [sum_comm]
  refine sum_congr rfl fun n hn => ?_
  rw [mem_range] at hm hn
  rw [Finset.sum_ite_eq, if_pos (mem_range.2 (h.nodeAt_lt hm hn))]

end MeshSym

/-! ### corresponding fields -/

/-- `u` and `v` are constant on copies, and `v` is `u` moved by the symmetry. -/
structure SymField (mesh : Mesh K d) (τ : ℕ → ℕ) (u v : ℕ → K) : Prop where
  left : Continuous mesh u
  right : Continuous mesh v
  moved : ∀ m < mesh.numElements, ∀ n < mesh.nodesPerElem, u (nodeAt mesh (τ m) n) = v (nodeAt mesh m n)

/-- The same for values that are to be summed over copies. -/
def SymDual (mesh : Mesh K d) (τ : ℕ → ℕ) (f g : ℕ → K) : Prop := SymField mesh τ (mesh.exchange f) (mesh.exchange g)

namespace SymField

variable {u v u' v' f g f' g' : ℕ → K}

theorem congr (h : MeshSym mesh τ) (H : SymField mesh τ u v) (hu : ∀ i < mesh.numNodes, u' i = u i) (hv : ∀ i < mesh.numNodes, v' i = v i) :
    SymField mesh τ u' v' where
  left i hi j hj hs := by rw [hu i hi, hu j hj]; exact H.left i hi j hj hs
  right i hi j hj hs := by rw [hv i hi, hv j hj]; exact H.right i hi j hj hs
  moved m hm n hn := by rw [hu _ (h.nodeAt_lt (h.maps m hm) hn), hv _ (h.nodeAt_lt hm hn)]; exact H.moved m hm n hn

/-- Every pointwise operation. -/
theorem map₂ (H : SymField mesh τ u v) (H' : SymField mesh τ u' v') (φ : K → K → K) :
    SymField mesh τ (fun i => φ (u i) (u' i)) (fun i => φ (v i) (v' i)) where
  left i hi j hj hs := by dsimp only; rw [H.left i hi j hj hs, H'.left i hi j hj hs]
  right i hi j hj hs := by dsimp only; rw [H.right i hi j hj hs, H'.right i hi j hj hs]
  moved m hm n hn := by rw [H.moved m hm n hn, H'.moved m hm n hn]

theorem map (H : SymField mesh τ u v) (φ : K → K) : SymField mesh τ (fun i => φ (u i)) (fun i => φ (v i)) :=
  H.map₂ H fun x _ => φ x

theorem const (c : K) : SymField mesh τ (fun _ => c) (fun _ => c) := ⟨fun _ _ _ _ _ => rfl, fun _ _ _ _ _ => rfl, fun _ _ _ _ => rfl⟩

theorem gather (h : MeshSym mesh τ) (H : SymField mesh τ u v) {m n : ℕ} (hm : m < mesh.numElements) (hn : n < mesh.nodesPerElem) :
    mesh.gather u (τ m) n = mesh.gather v m n := by
  rw [h.gather u (h.maps m hm) hn, h.gather v hm hn, H.moved m hm n hn]

/-- The symmetric number of places where a node occurs in the elements. -/
theorem count (h : MeshSym mesh τ) {m n : ℕ} (hm : m < mesh.numElements) (hn : n < mesh.nodesPerElem) (a b : ℕ → ℕ → K)
    (hab : ∀ m < mesh.numElements, ∀ n < mesh.nodesPerElem, a (τ m) n = b m n) :
    (∑ m' ∈ range mesh.numElements, ∑ n' ∈ range mesh.nodesPerElem,
      if SameNode mesh (nodeAt mesh (τ m) n) (nodeAt mesh m' n') then a m' n' else 0) =
    ∑ m' ∈ range mesh.numElements, ∑ n' ∈ range mesh.nodesPerElem,
      if SameNode mesh (nodeAt mesh m n) (nodeAt mesh m' n') then b m' n' else 0 := by
  rw [← h.sum]
  refine sum_congr rfl fun m' hm' => sum_congr rfl fun n' hn' => ?_
  rw [mem_range] at hm' hn'
  rw [hab m' hm' n' hn']
  exact if_congr (h.same m hm n hn m' hm' n' hn') rfl rfl

end SymField

namespace SymDual

variable {u v u' v' f g f' g' : ℕ → K}

/-- Values scattered from corresponding elements. -/
theorem scatter (h : MeshSym mesh τ) {a b : ℕ → ℕ → K}
    (hab : ∀ m < mesh.numElements, ∀ n < mesh.nodesPerElem, a (τ m) n = b m n) : SymDual mesh τ (mesh.scatter a) (mesh.scatter b) where
  left _ hi _ hj hs := exchange_same mesh _ hi hj hs
  right _ hi _ hj hs := exchange_same mesh _ hi hj hs
  moved m hm n hn := by
    rw [h.exchange_scatter _ (h.nodeAt_lt (h.maps m hm) hn), h.exchange_scatter _ (h.nodeAt_lt hm hn)]
    exact SymField.count h hm hn a b hab

theorem map₂ (h : MeshSym mesh τ) (H : SymDual mesh τ f g) (H' : SymDual mesh τ f' g') (a b : K) :
    SymDual mesh τ (fun i => a * f i + b * f' i) (fun i => a * g i + b * g' i) := by
  have e : ∀ (f f' : ℕ → K), ∀ i < mesh.numNodes, mesh.exchange (fun i => a * f i + b * f' i) i =
      a * mesh.exchange f i + b * mesh.exchange f' i := by
    intro f f' i hi
    rw [exchange_sum mesh _ i hi, exchange_sum mesh _ i hi, exchange_sum mesh _ i hi, mul_sum, mul_sum, ← sum_add_distrib]
    refine sum_congr rfl fun j _ => ?_
    split_ifs <;> ring
  exact (SymField.map₂ H H' fun x y => a * x + b * y).congr h (e f f') (e g g')

theorem mul (h : MeshSym mesh τ) (H : SymField mesh τ u v) (H' : SymDual mesh τ f g) :
    SymDual mesh τ (fun i => u i * f i) (fun i => v i * g i) :=
  (H.map₂ H' fun x y => x * y).congr h (fun i hi => exchange_mul mesh u f H.left i hi) (fun i hi => exchange_mul mesh v g H.right i hi)

/-- Corresponding pairs have the same scalar product. -/
theorem dot (h : MeshSym mesh τ) (H : SymField mesh τ u v) (H' : SymDual mesh τ f g) :
    ∑ i ∈ range mesh.numNodes, u i * f i = ∑ i ∈ range mesh.numNodes, v i * g i := by
  -- the number of places of a node
  let cnt : ℕ → K := fun i => ∑ m ∈ range mesh.numElements, ∑ n ∈ range mesh.nodesPerElem,
    if SameNode mesh i (nodeAt mesh m n) then (1 : K) else 0
  have hpos : ∀ i < mesh.numNodes, cnt i ≠ 0 := by
    intro i hi
    obtain ⟨m, hm, n, hn, he⟩ := h.covered hi
    refine ne_of_gt (sum_pos' (fun m _ => sum_nonneg fun n _ => ?_) ⟨m, mem_range.2 hm,
      sum_pos' (fun n _ => ?_) ⟨n, mem_range.2 hn, ?_⟩⟩)
    · split_ifs <;> simp
    · split_ifs <;> simp
    · rw [if_pos (by rw [he]; exact SameNode.refl _ _)]
      exact one_pos
  have hcont : ∀ i j, SameNode mesh i j → cnt i = cnt j := by
    intro i j hs
    refine sum_congr rfl fun m _ => sum_congr rfl fun n _ => if_congr ⟨fun h1 => hs.symm.trans h1, fun h1 => hs.trans h1⟩ rfl rfl
  have key : ∀ (u f : ℕ → K), Continuous mesh u → ∑ i ∈ range mesh.numNodes, u i * f i =
      ∑ m ∈ range mesh.numElements, ∑ n ∈ range mesh.nodesPerElem,
        u (nodeAt mesh m n) * mesh.exchange f (nodeAt mesh m n) / cnt (nodeAt mesh m n) := by
    intro u f hu
    have e1 : ∀ i ∈ range mesh.numNodes, u i * f i = ∑ m ∈ range mesh.numElements, ∑ n ∈ range mesh.nodesPerElem,
        if SameNode mesh (nodeAt mesh m n) i then u (nodeAt mesh m n) * f i / cnt (nodeAt mesh m n) else 0 := by
      intro i hi
      rw [mem_range] at hi
      have e2 : u i * f i = ∑ m ∈ range mesh.numElements, ∑ n ∈ range mesh.nodesPerElem,
          u i * f i / cnt i * (if SameNode mesh i (nodeAt mesh m n) then (1 : K) else 0) := by
        simp only [← mul_sum]
        exact (div_mul_cancel₀ _ (hpos i hi)).symm
      rw [e2]
      refine sum_congr rfl fun m hm => sum_congr rfl fun n hn => ?_
      rw [mem_range] at hm hn
      by_cases hs : SameNode mesh i (nodeAt mesh m n)
      · rw [if_pos hs, if_pos hs.symm, mul_one, hu i hi _ (h.nodeAt_lt hm hn) hs, hcont _ _ hs]
      · rw [if_neg hs, if_neg (fun h1 => hs h1.symm), mul_zero]
    rw [sum_congr rfl e1, sum_comm]
    refine sum_congr rfl fun m hm => ?_
    rw [sum_comm]
    refine sum_congr rfl fun n hn => ?_
    rw [mem_range] at hm hn
    rw [exchange_sum mesh f _ (h.nodeAt_lt hm hn), mul_sum, sum_div]
    refine sum_congr rfl fun i _ => ?_
    split_ifs <;> simp
  rw [key u f H.left, key v g H.right, ← h.sum]
  refine sum_congr rfl fun m hm => sum_congr rfl fun n hn => ?_
  rw [mem_range] at hm hn
  have e3 : cnt (nodeAt mesh (τ m) n) = cnt (nodeAt mesh m n) := SymField.count h hm hn _ _ fun _ _ _ _ => rfl
  rw [H.moved m hm n hn, show mesh.exchange f (nodeAt mesh (τ m) n) = _ from H'.moved m hm n hn, e3]

end SymDual

/-! ### spaces -/

/-- The symmetry keeps the Jacobians of the space. -/
structure SpaceSym (fs : FESpace K d) (τ : ℕ → ℕ) : Prop where
  sym : MeshSym fs.mesh τ
  wf : fs.WF
  det : ∀ m < fs.mesh.numElements, ∀ q < fs.numQuad, fs.jacdets (τ m) q = fs.jacdets m q
  inv : ∀ m < fs.mesh.numElements, ∀ q < fs.numQuad, fs.invjacs (τ m) q = fs.invjacs m q

/-- Corresponding local arrays. -/
def SymLocal (fs : FESpace K d) (τ : ℕ → ℕ) (a b : ℕ → ℕ → Fin d → K) : Prop :=
  ∀ m < fs.mesh.numElements, ∀ n < fs.mesh.nodesPerElem, ∀ k, a (τ m) n k = b m n k

namespace SpaceSym

variable {fs : FESpace K d} {a b : ℕ → ℕ → Fin d → K}

theorem integrate (h : SpaceSym fs τ) {w w' : QFun K} (hw : ∀ m < fs.mesh.numElements, ∀ q < fs.numQuad, w (τ m) q = w' m q) :
    integrate fs w = integrate fs w' := by
  unfold Verif.Core.integrate
  rw [← h.sym.sum]
  refine sum_congr rfl fun m hm => sum_congr rfl fun q hq => ?_
  rw [hw m (mem_range.1 hm) q (mem_range.1 hq), h.det m (mem_range.1 hm) q (mem_range.1 hq)]

theorem vectorFn (h : SpaceSym fs τ) (hab : SymLocal fs τ a b) {m q : ℕ} (hm : m < fs.mesh.numElements) (hq : q < fs.numQuad) (k : Fin d) :
    vectorFn fs a (τ m) q k = vectorFn fs b m q k :=
  h.wf.local_ _ _ (fun n hn => hab m hm n hn k) q hq

theorem vectorGrad (h : SpaceSym fs τ) (hab : SymLocal fs τ a b) {m q : ℕ} (hm : m < fs.mesh.numElements) (hq : q < fs.numQuad)
    (j k : Fin d) : vectorGrad fs a (τ m) q j k = vectorGrad fs b m q j k := by
  unfold Verif.Core.vectorGrad
  rw [h.inv m hm q hq]
  refine sum_congr rfl fun i _ => ?_
  congr 1
  exact NMat.apply_congr _ _ _ _ fun n hn => hab m hm n (by rwa [h.wf.cols] at hn) k

theorem divFn (h : SpaceSym fs τ) (hab : SymLocal fs τ a b) {m q : ℕ} (hm : m < fs.mesh.numElements) (hq : q < fs.numQuad) :
    divFn fs a (τ m) q = divFn fs b m q := sum_congr rfl fun j _ => h.vectorGrad hab hm hq j j

theorem scalarFn (h : SpaceSym fs τ) {a b : ℕ → ℕ → K} (hab : ∀ m < fs.mesh.numElements, ∀ n < fs.mesh.nodesPerElem, a (τ m) n = b m n)
    {m q : ℕ} (hm : m < fs.mesh.numElements) (hq : q < fs.numQuad) : scalarFn fs a (τ m) q = scalarFn fs b m q :=
  h.wf.local_ _ _ (fun n hn => hab m hm n hn) q hq

theorem unit (h : SpaceSym fs τ) {m m' : ℕ} (hm : m < fs.mesh.numElements) (hm' : m' < fs.mesh.numElements) (n n' : ℕ) :
    (unitLocal (τ m) n (τ m') n' : K) = unitLocal m n m' n' := by
  unfold unitLocal
  refine if_congr (and_congr_left fun _ => ⟨fun e => h.sym.inj m' hm' m hm e, fun e => by rw [e]⟩) rfl rfl

/-- Covectors of corresponding forms. -/
theorem vectorCovector (h : SpaceSym fs τ) {F F' : (ℕ → ℕ → Fin d → K) → K} (hF : ∀ a b, SymLocal fs τ a b → F a = F' b) :
    SymLocal fs τ (vectorCovector F) (vectorCovector F') := by
  intro m hm n hn k
  refine hF _ _ fun m' hm' n' _ k' => ?_
  rw [h.unit hm hm']

theorem scalarCovector (h : SpaceSym fs τ) {F F' : (ℕ → ℕ → K) → K}
    (hF : ∀ a b : ℕ → ℕ → K, (∀ m < fs.mesh.numElements, ∀ n < fs.mesh.nodesPerElem, a (τ m) n = b m n) → F a = F' b) :
    ∀ m < fs.mesh.numElements, ∀ n < fs.mesh.nodesPerElem, scalarCovector F (τ m) n = scalarCovector F' m n := by
  intro m hm n hn
  exact hF _ _ fun m' hm' n' _ => h.unit hm hm' n n'

end SpaceSym

end Verif.NS
