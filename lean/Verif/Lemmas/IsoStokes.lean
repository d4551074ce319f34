import Verif.Lemmas.IsoMesh
import Verif.Lemmas.StokesSym

/-!
The operators and the step of the Stokes solver commute with symmetries of the mesh that turn and mirror elements.
-/

set_option linter.unusedSectionVars false

namespace Verif.NS

open Verif.Core Verif.Linalg Finset SemSym

variable {K : Type*} [Field K] [LinearOrder K] [IsStrictOrderedRing K] {d : ℕ} {low : Nodes1D K}

/-- The permutations of a symmetry: of the elements, of the nodes for velocity and pressure, of the quadrature points for the linear
and for the advection terms, of the axes, and the signs of the axes. -/
structure IsoMaps (K : Type*) (d : ℕ) where
  elem : ℕ → ℕ
  vloc : ℕ → ℕ
  ploc : ℕ → ℕ
  quad : ℕ → ℕ
  over : ℕ → ℕ
  axis : Equiv.Perm (Fin d)
  sign : Fin d → K

variable {T : IsoMaps K d}

/-- A symmetry of all the parts of the solver. -/
structure IsoSem (sem : StokesSEM K d) (low : Nodes1D K) (T : IsoMaps K d) : Prop where
  v : IsoSpace sem.vspace T.elem T.vloc T.quad T.axis T.sign
  o : IsoSpace sem.overint T.elem T.vloc T.over T.axis T.sign
  p : IsoSpace sem.pspace T.elem T.ploc T.quad T.axis T.sign
  omesh : sem.overint.mesh = sem.vspace.mesh
  elements : sem.pspace.mesh.numElements = sem.vspace.mesh.numElements
  quad : sem.pspace.numQuad = sem.vspace.numQuad
  mask : IsoField sem.vspace.mesh T.elem T.vloc 1 sem.mask sem.mask
  diag : sem.diagQqt = sem.vspace.mesh.scatter (fun _ _ => 1)
  mass : sem.massDiag = vScatter sem.vspace.mesh (vectorCovector (vMassForm sem.vspace (fun _ _ _ => 1)))
  filter : FilterSetup sem.vspace.mesh low
  aligned : Aligned sem.vspace.mesh low
  entries : ∀ n < sem.vspace.mesh.nodesPerElem, ∀ j < sem.vspace.mesh.nodesPerElem,
    filterEntry sem.vspace.mesh low (T.vloc n) (T.vloc j) = filterEntry sem.vspace.mesh low n j

variable {sem : StokesSEM K d}

/-- Corresponding vectors at the nodes, with the factors `η`. -/
def IsoVelBy (sem : StokesSEM K d) (T : IsoMaps K d) (η : Fin d → K) (u v : Vel K d) : Prop :=
  ∀ k, IsoField sem.vspace.mesh T.elem T.vloc (η k) (fun j => u j (T.axis k)) (fun j => v j k)

/-- Corresponding vectors before the sum over copies. -/
def IsoCovelBy (sem : StokesSEM K d) (T : IsoMaps K d) (η : Fin d → K) (u v : Vel K d) : Prop :=
  ∀ k, IsoDual sem.vspace.mesh T.elem T.vloc (η k) (fun j => u j (T.axis k)) (fun j => v j k)

/-- Corresponding velocities. -/
def IsoVel (sem : StokesSEM K d) (T : IsoMaps K d) (u v : Vel K d) : Prop := IsoVelBy sem T T.sign u v

/-- Corresponding forces. -/
def IsoCovel (sem : StokesSEM K d) (T : IsoMaps K d) (u v : Vel K d) : Prop := IsoCovelBy sem T T.sign u v

/-- Corresponding pressures. -/
def IsoPres (sem : StokesSEM K d) (T : IsoMaps K d) (p q : ℕ → K) : Prop := IsoField sem.pspace.mesh T.elem T.ploc 1 p q

/-- Corresponding pressures before the sum over copies. -/
def IsoCopres (sem : StokesSEM K d) (T : IsoMaps K d) (p q : ℕ → K) : Prop := IsoDual sem.pspace.mesh T.elem T.ploc 1 p q

namespace IsoSem

variable {u v u' v' f g f' g' : Vel K d} {p q p' q' : ℕ → K} {η : Fin d → K}

theorem signs (h : IsoSem sem low T) : Signs T.sign := h.v.signs

theorem covel₂ (h : IsoSem sem low T) (H : IsoCovel sem T f g) (H' : IsoCovel sem T f' g') (a b : K) :
    IsoCovel sem T (fun i k => a * f i k + b * f' i k) (fun i k => a * g i k + b * g' i k) :=
  fun k => IsoDual.lin h.v.sym (H k) (H' k) a b

theorem covelSub (h : IsoSem sem low T) (H : IsoCovel sem T f g) (H' : IsoCovel sem T f' g') :
    IsoCovel sem T (f - f') (g - g') := by
  have := h.covel₂ H H' 1 (-1)
  have e : ∀ f f' : Vel K d, (fun i k => 1 * f i k + -1 * f' i k) = f - f' := fun f f' => by
    funext i k; simp only [Pi.sub_apply]; ring
  rwa [e, e] at this

theorem covelAdd (h : IsoSem sem low T) (H : IsoCovel sem T f g) (H' : IsoCovel sem T f' g') :
    IsoCovel sem T (f + f') (g + g') := by
  have := h.covel₂ H H' 1 1
  have e : ∀ f f' : Vel K d, (fun i k => 1 * f i k + 1 * f' i k) = f + f' := fun f f' => by
    funext i k; simp only [Pi.add_apply]; ring
  rwa [e, e] at this

theorem vel₂ (H : IsoVel sem T u v) (H' : IsoVel sem T u' v') (a b : K) :
    IsoVel sem T (fun i k => a * u i k + b * u' i k) (fun i k => a * v i k + b * v' i k) := fun k => (H k).lin (H' k) a b

theorem velAdd (H : IsoVel sem T u v) (H' : IsoVel sem T u' v') (c : K) : IsoVel sem T (u + c • u') (v + c • v') := by
  have := vel₂ H H' 1 c
  have e : ∀ u u' : Vel K d, (fun i k => 1 * u i k + c * u' i k) = u + c • u' := fun u u' => by
    funext i k; simp only [Pi.add_apply, Pi.smul_apply, smul_eq_mul]; ring
  rwa [e, e] at this

theorem velZero : IsoVel sem T 0 0 := fun _ => IsoField.zero

theorem covelMaskedBy (h : IsoSem sem low T) (H : IsoCovelBy sem T η f g) : IsoCovelBy sem T η (sem.masked f) (sem.masked g) := by
  intro k
  have := IsoDual.mul h.v.sym h.mask (H k)
  rwa [one_mul] at this

theorem gather (h : IsoSem sem low T) (H : IsoVelBy sem T η u v) :
    IsoLocal sem.vspace T.elem T.vloc T.axis η (vGather sem.vspace.mesh u) (vGather sem.vspace.mesh v) :=
  fun _ hm _ hn k => (H k).gather h.v.sym hm hn

theorem scatter (h : IsoSem sem low T) {a b : ℕ → ℕ → Fin d → K} (H : IsoLocal sem.vspace T.elem T.vloc T.axis η a b) :
    IsoCovelBy sem T η (vScatter sem.vspace.mesh a) (vScatter sem.vspace.mesh b) :=
  fun k => IsoDual.scatter h.v.sym fun m hm n hn => H m hm n hn k

theorem massDiag (h : IsoSem sem low T) : IsoCovelBy sem T (fun _ => 1) sem.massDiag sem.massDiag := by
  rw [h.mass]
  refine h.scatter (h.v.vectorCovector (fun _ => one_mul 1) fun a b t hab => h.v.integrate fun m hm q hq => ?_)
  rw [← Equiv.sum_comp T.axis, mul_sum]
  refine sum_congr rfl fun k _ => ?_
  rw [h.v.vectorFn hab hm hq, h.v.vectorFn (η := fun _ => 1) (b := fun _ _ _ => 1) (fun _ _ _ _ _ => (one_mul 1).symm) hm hq]
  ring

theorem A (h : IsoSem sem low T) (H : IsoVel sem T u v) : IsoCovel sem T (sem.A u) (sem.A v) := by
  refine h.covelMaskedBy (h.scatter (h.v.vectorCovector h.signs fun a b t hab => h.v.integrate fun m hm q hq => ?_))
  rw [← Equiv.sum_comp T.axis, mul_sum]
  refine sum_congr rfl fun i _ => ?_
  rw [← Equiv.sum_comp T.axis, mul_sum]
  refine sum_congr rfl fun j _ => ?_
  rw [h.v.vectorGrad hab hm hq, h.v.vectorGrad (h.gather H) hm hq]
  have hi := h.signs i
  have hj := h.signs j
  linear_combination (t * vectorGrad sem.vspace b m q i j * vectorGrad sem.vspace (vGather sem.vspace.mesh v) m q i j) *
    (T.sign j * T.sign j * hi + hj)

theorem C (h : IsoSem sem low T) (H : IsoVel sem T u v) : IsoCovel sem T (sem.C u) (sem.C v) := by
  have hg : IsoLocal sem.overint T.elem T.vloc T.axis T.sign (vGather sem.vspace.mesh u) (vGather sem.vspace.mesh v) := by
    have := h.gather H
    unfold IsoLocal at this ⊢
    rwa [h.omesh]
  refine h.covelMaskedBy (h.scatter ?_)
  have key := h.o.vectorCovector h.signs (F := vConvForm sem.overint (vGather sem.vspace.mesh u))
    (F' := vConvForm sem.overint (vGather sem.vspace.mesh v)) fun a b t hab => h.o.integrate fun m hm q hq => by
      rw [← Equiv.sum_comp T.axis, mul_sum]
      refine sum_congr rfl fun i _ => ?_
      rw [← Equiv.sum_comp T.axis, mul_sum]
      refine sum_congr rfl fun j _ => ?_
      rw [h.o.vectorFn hab hm hq, h.o.vectorGrad hg hm hq, h.o.vectorFn hg hm hq]
      have hi := h.signs i
      have hj := h.signs j
      grind
  unfold IsoLocal at key ⊢
  rwa [h.omesh] at key

theorem B (h : IsoSem sem low T) (H : IsoVel sem T u v) : IsoCovel sem T (sem.B u) (sem.B v) := by
  have h1 : IsoCovel sem T (fun i k => u i k * sem.massDiag i k) (fun i k => v i k * sem.massDiag i k) := by
    intro k
    have := IsoDual.mul h.v.sym (H k) (h.massDiag k)
    rwa [mul_one] at this
  have := h.covelMaskedBy h1
  have e : ∀ u : Vel K d, sem.masked (fun i k => u i k * sem.massDiag i k) = sem.B u := fun u => by
    funext i k; simp only [StokesSEM.masked, StokesSEM.B]; ring
  rwa [e, e] at this

theorem exchange (H : IsoCovel sem T f g) : IsoVel sem T (vExchange sem.vspace.mesh f) (vExchange sem.vspace.mesh g) := H

theorem Bi (h : IsoSem sem low T) (H : IsoCovel sem T f g) : IsoVel sem T (sem.Bi f) (sem.Bi g) := by
  intro k
  have := IsoField.mul ((h.massDiag k : IsoField _ _ _ _ _ _).map fun x => 1 / x) (H k)
  rwa [one_mul] at this

theorem Q (h : IsoSem sem low T) (dt beta : K) (H : IsoCovel sem T f g) : IsoVel sem T (sem.Q dt beta f) (sem.Q dt beta g) :=
  fun k => (h.Bi H k).smul (dt / beta)

theorem D (h : IsoSem sem low T) (H : IsoVel sem T u v) : IsoCopres sem T (sem.D u) (sem.D v) := by
  refine IsoDual.scatter h.p.sym (h.p.scalarCovector fun a b hab => h.p.integrate fun m hm q hq => ?_)
  have hg : IsoLocal sem.vspace T.elem T.vloc T.axis (fun k => 1 * T.sign k) (vGather sem.vspace.mesh u) (vGather sem.vspace.mesh v) := by
    simp only [one_mul]; exact h.gather H
  rw [h.p.scalarFn hab hm hq, h.v.divFn hg (by rwa [h.elements] at hm) (by rwa [h.quad] at hq)]
  ring

theorem Dt (h : IsoSem sem low T) (H : IsoPres sem T p q) : IsoCovel sem T (sem.Dt p) (sem.Dt q) := by
  refine h.covelMaskedBy (h.scatter (h.v.vectorCovector h.signs fun a b t hab => h.v.integrate fun m hm q' hq => ?_))
  rw [h.v.divFn hab hm hq, h.p.scalarFn (s := 1) (fun m hm n hn => IsoField.gather h.p.sym H hm hn) (by rwa [h.elements])
    (by rwa [h.quad])]
  ring

theorem E (h : IsoSem sem low T) (dt beta : K) (H : IsoPres sem T p q) : IsoCopres sem T (sem.E dt beta p) (sem.E dt beta q) :=
  h.D (h.Q dt beta (h.Dt H))

theorem pressureB (h : IsoSem sem low T) (H : IsoPres sem T p q) : IsoCopres sem T (sem.pressureB p) (sem.pressureB q) := by
  refine IsoDual.scatter h.p.sym (h.p.scalarCovector fun a b hab => h.p.integrate fun m hm q' hq => ?_)
  rw [h.p.scalarFn hab hm hq, h.p.scalarFn (s := 1) (fun m hm n hn => IsoField.gather h.p.sym H hm hn) hm hq]
  ring

theorem pDot (h : IsoSem sem low T) {r r' : ℕ → K} (H : IsoPres sem T p q) (H' : IsoCopres sem T r r') :
    nodeDot sem.numP p r = nodeDot sem.numP q r' := by
  have := IsoDual.dot h.p.sym H H'
  rwa [one_mul, one_mul] at this

theorem projectOut (h : IsoSem sem low T) (H : IsoCopres sem T p q) : IsoPres sem T (sem.projectOut p) (sem.projectOut q) := by
  have e : nodeDot sem.numP (fun _ => 1) (sem.pressureB (sem.pspace.mesh.exchange p)) =
      nodeDot sem.numP (fun _ => 1) (sem.pressureB (sem.pspace.mesh.exchange q)) :=
    h.pDot (IsoField.const 1) (h.pressureB H)
  unfold StokesSEM.projectOut
  simp only [e]
  exact IsoField.map H fun x => x - _ * 1

theorem H (h : IsoSem sem low T) (mu dt beta : K) (H : IsoVel sem T u v) : IsoCovel sem T (sem.H mu dt beta u) (sem.H mu dt beta v) :=
  h.covel₂ (h.B H) (h.A H) (beta / dt) mu

theorem vDot (h : IsoSem sem low T) (H : IsoVel sem T u v) (H' : IsoCovel sem T f g) : sem.vDot u f = sem.vDot v g := by
  unfold StokesSEM.vDot
  rw [sum_comm, sum_comm (s := range sem.numV), ← Equiv.sum_comp T.axis]
  refine sum_congr rfl fun k _ => ?_
  have := IsoDual.dot h.v.sym (H k) (H' k)
  rwa [h.signs k, one_mul] at this

/-- The two velocity solves go in lock step. -/
theorem velCG (h : IsoSem sem low T) (mu dt beta : K) : CGRel sem.vDot (sem.H mu dt beta) (vExchange sem.vspace.mesh)
    sem.vDot (sem.H mu dt beta) (vExchange sem.vspace.mesh) (IsoVel sem T) (IsoCovel sem T) where
  sAdd c hx hy := velAdd hx hy c
  rSub {x y x' y'} c hx hy := by
    have := h.covel₂ hx hy 1 (-c)
    have e : ∀ f f' : Vel K d, (fun i k => 1 * f i k + -c * f' i k) = f - c • f' := fun f f' => by
      funext i k; simp only [Pi.sub_apply, Pi.smul_apply, smul_eq_mul]; ring
    rwa [e, e] at this
  op hx := h.H mu dt beta hx
  pre hr := exchange hr
  dotSR hx hr := h.vDot hx hr
  dotRS {x x' r r'} hr hx := (vDot_comm r x).trans ((h.vDot hx hr).trans (vDot_comm x' r'))

theorem presAdd {a b a' b' : ℕ → K} (H : IsoPres sem T a b) (H' : IsoPres sem T a' b') (c : K) :
    IsoPres sem T (a + c • a') (b + c • b') := by
  have := IsoField.lin H H' 1 c
  have e : ∀ f f' : ℕ → K, (fun i => 1 * f i + c * f' i) = f + c • f' := fun f f' => by
    funext i; simp only [Pi.add_apply, Pi.smul_apply, smul_eq_mul]; ring
  rwa [e, e] at this

theorem pressureCG (h : IsoSem sem low T) (dt beta : K) : CGRel (nodeDot sem.numP) (sem.E dt beta) sem.projectOut
    (nodeDot sem.numP) (sem.E dt beta) sem.projectOut (IsoPres sem T) (IsoCopres sem T) where
  sAdd c hx hy := presAdd hx hy c
  rSub {x y x' y'} c hx hy := by
    have := IsoDual.lin h.p.sym hx hy 1 (-c)
    have e : ∀ f f' : ℕ → K, (fun i => 1 * f i + -c * f' i) = f - c • f' := fun f f' => by
      funext i; simp only [Pi.sub_apply, Pi.smul_apply, smul_eq_mul]; ring
    rwa [e, e] at this
  op hx := h.E dt beta hx
  pre hr := h.projectOut hr
  dotSR hx hr := h.pDot hx hr
  dotRS {x x' r r'} hr hx := (nodeDot_comm _ r x).trans ((h.pDot hx hr).trans (nodeDot_comm _ x' r'))

/-- The filtered value at a node is the one of any element with the node. -/
theorem filter_value (h : IsoSem sem low T) {u : Vel K d} {k : Fin d} (hu : Continuous sem.vspace.mesh (fun j => u j k))
    {loc : ℕ → ℕ → Fin d → K}
    (hloc : ∀ m, ∀ n < sem.vspace.mesh.nodesPerElem, ∀ k, loc m n k = ∑ j ∈ Finset.range sem.vspace.mesh.nodesPerElem,
      vGather sem.vspace.mesh u m j k * filterEntry sem.vspace.mesh low n j)
    {m n : ℕ} (hm : m < sem.vspace.mesh.numElements) (hn : n < sem.vspace.mesh.nodesPerElem) :
    (1 / sem.diagQqt (nodeAt sem.vspace.mesh m n)) * vScatter sem.vspace.mesh loc (nodeAt sem.vspace.mesh m n) k = loc m n k := by
  have hs := h.v.sym
  have he := hs.nodeAt_cast hm hn
  have hp := hs.nodeAt_lt hm hn
  set p := nodeAt sem.vspace.mesh m n
  have hne : sem.diagQqt p ≠ 0 := by
    rw [h.diag, Mesh.scatter_apply]
    apply ne_of_gt
    refine Finset.sum_pos' (fun m _ => Finset.sum_nonneg fun n _ => ?_) ⟨m, Finset.mem_range.mpr hm,
      Finset.sum_pos' (fun n _ => ?_) ⟨n, Finset.mem_range.mpr hn, ?_⟩⟩
    · split
      · rw [mul_one]; unfold maskOf; split <;> simp
      · exact le_rfl
    · split
      · rw [mul_one]; unfold maskOf; split <;> simp
      · exact le_rfl
    · rw [he, if_pos (writePos_nat hp), maskOf_nat]; simp
  have : vScatter sem.vspace.mesh loc p k = sem.diagQqt p * loc m n k := by
    rw [h.diag]
    unfold vScatter
    rw [Mesh.scatter_apply, Mesh.scatter_apply, Finset.sum_mul]
    refine Finset.sum_congr rfl fun m' hm' => ?_
    rw [Finset.sum_mul]
    refine Finset.sum_congr rfl fun n' hn' => ?_
    rw [Finset.mem_range] at hm' hn'
    split
    · rename_i hwp
      rw [mul_one]
      congr 1
      rw [hs.nodeAt_cast hm' hn', writePos_nat (hs.nodeAt_lt hm' hn'), Option.some.injEq] at hwp
      rw [hloc m' n' hn', hloc m n hn]
      exact filter_local_same h.filter h.aligned hu hm' hn' hm hn (hs.nodeAt_cast hm' hn') he (by rw [hwp]; exact SameNode.refl _ _)
    · rw [zero_mul]
  rw [this, ← mul_assoc, one_div, inv_mul_cancel₀ hne, one_mul]

theorem filter_iso (h : IsoSem sem low T) (alpha : K) (H : IsoVel sem T u v) :
    ∃ w w', sem.filter low alpha u = some w ∧ sem.filter low alpha v = some w' ∧ IsoVel sem T w w' := by
  obtain ⟨w, hw, loc, hloc, he⟩ := filter_eq (sem := sem) h.filter alpha u
  obtain ⟨w', hw', loc', hloc', he'⟩ := filter_eq (sem := sem) h.filter alpha v
  have hs := h.v.sym
  have cont : ∀ (u w : Vel K d) (loc : ℕ → ℕ → Fin d → K) (k : Fin d), Continuous sem.vspace.mesh (fun j => u j k) →
      (∀ m, ∀ n < sem.vspace.mesh.nodesPerElem, ∀ k, loc m n k = ∑ j ∈ Finset.range sem.vspace.mesh.nodesPerElem,
        vGather sem.vspace.mesh u m j k * filterEntry sem.vspace.mesh low n j) →
      (∀ p k, w p k = (1 - alpha) * u p k + alpha * ((1 / sem.diagQqt p) * vScatter sem.vspace.mesh loc p k)) →
      Continuous sem.vspace.mesh (fun j => w j k) := by
    intro u w loc k hu hloc he i hi j hj hij
    obtain ⟨m, hm, n, hn, rfl⟩ := hs.covered hi
    obtain ⟨m', hm', n', hn', rfl⟩ := hs.covered hj
    dsimp only
    rw [he, he, h.filter_value hu hloc hm hn, h.filter_value hu hloc hm' hn', hloc m n hn, hloc m' n' hn',
      filter_local_same h.filter h.aligned hu hm hn hm' hn' (hs.nodeAt_cast hm hn) (hs.nodeAt_cast hm' hn') hij]
    rw [show u _ k = u _ k from hu _ hi _ hj hij]
  refine ⟨w, w', hw, hw', fun k => ⟨cont u w loc _ (H k).left hloc he, cont v w' loc' k (H k).right hloc' he', ?_⟩⟩
  intro m hm n hn
  have hm' := hs.elems.maps m hm
  have hn' := hs.locals.maps n hn
  rw [he, he', h.filter_value (H k).left hloc hm' hn', h.filter_value (H k).right hloc' hm hn, hloc _ _ hn', hloc' _ n hn,
    (H k).moved m hm n hn]
  have hsum : ∑ j ∈ Finset.range sem.vspace.mesh.nodesPerElem,
      vGather sem.vspace.mesh u (T.elem m) j (T.axis k) * filterEntry sem.vspace.mesh low (T.vloc n) j =
      T.sign k * ∑ j ∈ Finset.range sem.vspace.mesh.nodesPerElem,
        vGather sem.vspace.mesh v m j k * filterEntry sem.vspace.mesh low n j := by
    rw [← hs.locals.sum, mul_sum]
    refine sum_congr rfl fun j hj => ?_
    rw [mem_range] at hj
    rw [h.gather H m hm j hj k, h.entries n hn j hj]
    ring
  rw [hsum]
  ring

/-- Histories. -/
theorem history (beta : List K) {us vs : List (Vel K d)} (H : List.Forall₂ (IsoVel sem T) us vs) :
    IsoVel sem T (StokesSEM.history beta us) (StokesSEM.history beta vs) := by
  induction H generalizing beta with
  | nil =>
    intro k
    unfold StokesSEM.history
    simp only [List.zip_nil_right, List.map_nil, List.sum_nil]
    exact IsoField.zero
  | cons hxy _ ih =>
    intro k
    unfold StokesSEM.history
    cases beta with
    | nil => simp only [List.zip_nil_left, List.map_nil, List.sum_nil]; exact IsoField.zero
    | cons b bs =>
      simp only [List.zip_cons_cons, List.map_cons, List.sum_cons]
      have := (hxy k).lin (ih bs k) b 1
      simp only [one_mul] at this
      exact this

theorem extrapolate (c : Fin 2 → K) {ps qs : List (ℕ → K)} (H : List.Forall₂ (IsoPres sem T) ps qs) :
    Option.Rel (IsoPres sem T) (StokesSEM.extrapolate c ps) (StokesSEM.extrapolate c qs) := by
  have hr := List.rel_reverse H
  unfold StokesSEM.extrapolate
  revert hr
  generalize ps.reverse = a
  generalize qs.reverse = b
  intro hr
  cases hr with
  | nil => exact .none
  | cons h1 ht =>
    cases ht with
    | nil => exact .none
    | cons h2 _ => exact .some (IsoField.lin h1 h2 (c 1) (c 0))

/-- Corresponding results of a step. -/
structure IsoStep (sem : StokesSEM K d) (T : IsoMaps K d) (s t : StokesSEM.Step K d) : Prop where
  u : IsoVel sem T s.u t.u
  p : IsoPres sem T s.p t.p
  uStar : IsoVel sem T s.uStar t.uStar
  uResidual : s.uResidual = t.uResidual
  uIterations : s.uIterations = t.uIterations
  pResidual : s.pResidual = t.pResidual
  pIterations : s.pIterations = t.pIterations

/-- The step on corresponding data, when the solver does not use the relative tolerance or both runs are the same. -/
theorem oneStep (h : IsoSem sem low T) {us vs : List (Vel K d)} {ps qs : List (ℕ → K)} (hus : List.Forall₂ (IsoVel sem T) us vs)
    (hps : List.Forall₂ (IsoPres sem T) ps qs) (hf : IsoCovel sem T f g) (mu dt : K) (timeOrder : ℕ) (alpha tol atol : K)
    (htol : tol = 0 ∨ (us = vs ∧ ps = qs ∧ f = g)) :
    ExRel (IsoStep sem T) (sem.oneStep low us ps f mu dt timeOrder alpha none none true tol atol)
      (sem.oneStep low vs qs g mu dt timeOrder alpha none none true tol atol) := by
  unfold StokesSEM.oneStep
  cases hc : (extkCoeffs 1 : Option (Fin 2 → K)) with
  | none => exact .error _
  | some c =>
    dsimp only
    have hext := extrapolate (sem := sem) (T := T) c hps
    cases h1 : StokesSEM.extrapolate c ps <;> cases h2 : StokesSEM.extrapolate c qs
    · exact .error _
    · rw [h1, h2] at hext; cases hext
    · rw [h1, h2] at hext; cases hext
    rename_i pe qe
    rw [h1, h2] at hext
    obtain ⟨hpe⟩ : IsoPres sem T pe qe ∧ True := by cases hext with | some h => exact ⟨h, trivial⟩
    dsimp only
    cases (bdfkCoeffs timeOrder : Option (Fin (timeOrder + 1) → K)) with
    | none => exact .error _
    | some b =>
      dsimp only
      split
      · exact .error _
      · have hf3 : IsoCovel sem T
            (f + sem.Dt pe - sem.B (fun p k => (1 / dt) * StokesSEM.history (List.ofFn (fun i : Fin timeOrder => b i.castSucc)) us p k))
            (g + sem.Dt qe - sem.B (fun p k => (1 / dt) * StokesSEM.history (List.ofFn (fun i : Fin timeOrder => b i.castSucc)) vs p k)) :=
          h.covelSub (h.covelAdd hf (h.Dt hpe)) (h.B fun k => (history _ hus k).smul (1 / dt))
        have hb1 : cgBound sem.vDot
            (f + sem.Dt pe - sem.B (fun p k => (1 / dt) * StokesSEM.history (List.ofFn (fun i : Fin timeOrder => b i.castSucc)) us p k))
              tol atol = cgBound sem.vDot
            (g + sem.Dt qe - sem.B (fun p k => (1 / dt) * StokesSEM.history (List.ofFn (fun i : Fin timeOrder => b i.castSucc)) vs p k))
              tol atol := by
          rcases htol with h0 | ⟨e1, e2, e3⟩
          · rw [h0]; unfold cgBound; simp
          · subst e1 e2 e3
            rw [h1, Option.some.injEq] at h2
            rw [h2]
        have hs1 := cg_sim (h.velCG mu dt (b (Fin.last timeOrder))) hf3 velZero hb1 (10 * (sem.numV * d))
        revert hs1
        cases hcg : cg sem.vDot (sem.H mu dt (b (Fin.last timeOrder))) (vExchange sem.vspace.mesh)
          (f + sem.Dt pe - sem.B (fun p k => (1 / dt) * StokesSEM.history (List.ofFn (fun i : Fin timeOrder => b i.castSucc)) us p k))
          0 tol atol (10 * (sem.numV * d)) <;>
        cases hcg' : cg sem.vDot (sem.H mu dt (b (Fin.last timeOrder))) (vExchange sem.vspace.mesh)
          (g + sem.Dt qe - sem.B (fun p k => (1 / dt) * StokesSEM.history (List.ofFn (fun i : Fin timeOrder => b i.castSucc)) vs p k))
          0 tol atol (10 * (sem.numV * d)) <;> intro hs1
        · exact .error _
        · cases hs1
        · cases hs1
        · rename_i r r'
          obtain ⟨u0, res, n⟩ := r
          obtain ⟨u0', res', n'⟩ := r'
          obtain ⟨hu0, hres⟩ : IsoVel sem T u0 u0' ∧ (res, n) = (res', n') := by cases hs1 with | some h => exact h
          dsimp only
          obtain ⟨w, w', hw, hw', hww⟩ := h.filter_iso alpha hu0
          rw [hw, hw']
          dsimp only
          have hD : IsoCopres sem T (-sem.D w) (-sem.D w') := by
            have := IsoDual.lin h.p.sym (h.D hww) (h.D hww) (-1) 0
            have e : ∀ f : ℕ → K, (fun i => -1 * f i + 0 * f i) = -f := fun f => by funext i; simp
            rwa [e, e] at this
          have hb2 : cgBound (nodeDot sem.numP) (-sem.D w) tol atol = cgBound (nodeDot sem.numP) (-sem.D w') tol atol := by
            rcases htol with h0 | ⟨e1, e2, e3⟩
            · rw [h0]; unfold cgBound; simp
            · subst e1 e2 e3
              rw [h1, Option.some.injEq] at h2
              subst h2
              rw [hcg, Option.some.injEq, Prod.mk.injEq] at hcg'
              rw [← hcg'.1, hw, Option.some.injEq] at hw'
              rw [hw']
          have hs2 := cg_sim (h.pressureCG dt (b (Fin.last timeOrder))) hD (IsoField.zero : IsoPres sem T 0 0) hb2
            (10 * sem.numP)
          have e4 : sem.precondFn (StokesSEM.choosePrecond none true) = sem.projectOut := rfl
          rw [e4]
          revert hs2
          cases cg (nodeDot sem.numP) (sem.E dt (b (Fin.last timeOrder))) sem.projectOut (-sem.D w) 0 tol atol (10 * sem.numP) <;>
          cases cg (nodeDot sem.numP) (sem.E dt (b (Fin.last timeOrder))) sem.projectOut (-sem.D w') 0 tol atol (10 * sem.numP) <;>
            intro hs2
          · exact .error _
          · cases hs2
          · cases hs2
          · rename_i r r'
            obtain ⟨dp, res2, n2⟩ := r
            obtain ⟨dp', res2', n2'⟩ := r'
            obtain ⟨hdp, hres2⟩ : IsoPres sem T dp dp' ∧ (res2, n2) = (res2', n2') := by cases hs2 with | some h => exact h
            rw [Prod.mk.injEq] at hres hres2
            refine .ok ⟨?_, ?_, hww, hres.1, hres.2, hres2.1, hres2.2⟩
            · have := vel₂ hww (h.Q dt (b (Fin.last timeOrder)) (h.Dt hdp)) 1 1
              simp only [one_mul] at this
              exact this
            · have := IsoField.lin hpe hdp 1 1
              simp only [one_mul] at this
              exact this

end IsoSem

end Verif.NS
