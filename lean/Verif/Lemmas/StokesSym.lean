import Verif.Lemmas.MeshSym
import Verif.Lemmas.CG

/-!
The operators and the step of the Stokes solver commute with symmetries of the mesh.
-/

set_option linter.unusedSectionVars false

namespace Verif.NS

open Verif.Core Verif.Linalg Finset

variable {K : Type*} [Field K] [LinearOrder K] [IsStrictOrderedRing K] {d : ℕ} {τ : ℕ → ℕ} {low : Nodes1D K}

/-- A symmetry of all the parts of the solver. -/
structure SemSym (sem : StokesSEM K d) (low : Nodes1D K) (τ : ℕ → ℕ) : Prop where
  v : SpaceSym sem.vspace τ
  o : SpaceSym sem.overint τ
  p : SpaceSym sem.pspace τ
  omesh : sem.overint.mesh = sem.vspace.mesh
  elements : sem.pspace.mesh.numElements = sem.vspace.mesh.numElements
  quad : sem.pspace.numQuad = sem.vspace.numQuad
  mask : SymField sem.vspace.mesh τ sem.mask sem.mask
  diag : sem.diagQqt = sem.vspace.mesh.scatter (fun _ _ => 1)
  mass : sem.massDiag = vScatter sem.vspace.mesh (vectorCovector (vMassForm sem.vspace (fun _ _ _ => 1)))
  filter : FilterSetup sem.vspace.mesh low
  aligned : Aligned sem.vspace.mesh low

variable {sem : StokesSEM K d}

/-- Corresponding velocities. -/
def SymVel (sem : StokesSEM K d) (τ : ℕ → ℕ) (u v : Vel K d) : Prop := ∀ k, SymField sem.vspace.mesh τ (fun j => u j k) (fun j => v j k)

/-- Corresponding velocities before the sum over copies. -/
def SymCovel (sem : StokesSEM K d) (τ : ℕ → ℕ) (u v : Vel K d) : Prop := ∀ k, SymDual sem.vspace.mesh τ (fun j => u j k) (fun j => v j k)

namespace SemSym

variable {u v u' v' f g f' g' : Vel K d} {p q p' q' : ℕ → K}

theorem covel₂ (h : SemSym sem low τ) (H : SymCovel sem τ f g) (H' : SymCovel sem τ f' g') (a b : K) :
    SymCovel sem τ (fun i k => a * f i k + b * f' i k) (fun i k => a * g i k + b * g' i k) :=
  fun k => SymDual.map₂ h.v.sym (H k) (H' k) a b

theorem covelSub (h : SemSym sem low τ) (H : SymCovel sem τ f g) (H' : SymCovel sem τ f' g') :
    SymCovel sem τ (f - f') (g - g') := by
  have := h.covel₂ H H' 1 (-1)
  have e : ∀ f f' : Vel K d, (fun i k => 1 * f i k + -1 * f' i k) = f - f' := fun f f' => by
    funext i k; simp only [Pi.sub_apply]; ring
  rwa [e, e] at this

theorem covelAdd (h : SemSym sem low τ) (H : SymCovel sem τ f g) (H' : SymCovel sem τ f' g') :
    SymCovel sem τ (f + f') (g + g') := by
  have := h.covel₂ H H' 1 1
  have e : ∀ f f' : Vel K d, (fun i k => 1 * f i k + 1 * f' i k) = f + f' := fun f f' => by
    funext i k; simp only [Pi.add_apply]; ring
  rwa [e, e] at this

theorem velAdd (H : SymVel sem τ u v) (H' : SymVel sem τ u' v') (c : K) : SymVel sem τ (u + c • u') (v + c • v') :=
  fun k => (H k).map₂ (H' k) fun x y => x + c * y

theorem velZero : SymVel sem τ 0 0 := fun _ => SymField.const 0

theorem covelScale (h : SemSym sem low τ) (H : SymVel sem τ u v) (H' : SymCovel sem τ f g) :
    SymCovel sem τ (fun i k => u i k * f i k) (fun i k => v i k * g i k) := fun k => SymDual.mul h.v.sym (H k) (H' k)

theorem covelMasked (h : SemSym sem low τ) (H : SymCovel sem τ f g) : SymCovel sem τ (sem.masked f) (sem.masked g) :=
  fun k => SymDual.mul h.v.sym h.mask (H k)

theorem gather (h : SemSym sem low τ) (H : SymVel sem τ u v) :
    SymLocal sem.vspace τ (vGather sem.vspace.mesh u) (vGather sem.vspace.mesh v) :=
  fun _ hm _ hn k => (H k).gather h.v.sym hm hn

theorem scatter (h : SemSym sem low τ) {a b : ℕ → ℕ → Fin d → K} (H : SymLocal sem.vspace τ a b) :
    SymCovel sem τ (vScatter sem.vspace.mesh a) (vScatter sem.vspace.mesh b) :=
  fun k => SymDual.scatter h.v.sym fun m hm n hn => H m hm n hn k

theorem massDiag (h : SemSym sem low τ) : SymCovel sem τ sem.massDiag sem.massDiag := by
  rw [h.mass]
  refine h.scatter (h.v.vectorCovector fun a b hab => h.v.integrate fun m hm q hq => sum_congr rfl fun k _ => ?_)
  rw [h.v.vectorFn hab hm hq, h.v.vectorFn (fun _ _ _ _ _ => rfl) hm hq]

theorem A (h : SemSym sem low τ) (H : SymVel sem τ u v) : SymCovel sem τ (sem.A u) (sem.A v) := by
  refine h.covelMasked (h.scatter (h.v.vectorCovector fun a b hab => h.v.integrate fun m hm q hq =>
    sum_congr rfl fun i _ => sum_congr rfl fun j _ => ?_))
  rw [h.v.vectorGrad hab hm hq, h.v.vectorGrad (h.gather H) hm hq]

theorem C (h : SemSym sem low τ) (H : SymVel sem τ u v) : SymCovel sem τ (sem.C u) (sem.C v) := by
  have hg : SymLocal sem.overint τ (vGather sem.vspace.mesh u) (vGather sem.vspace.mesh v) := by
    have := h.gather H
    unfold SymLocal at this ⊢
    rwa [h.omesh]
  refine h.covelMasked (h.scatter ?_)
  have key := h.o.vectorCovector (F := vConvForm sem.overint (vGather sem.vspace.mesh u))
    (F' := vConvForm sem.overint (vGather sem.vspace.mesh v)) fun a b hab => h.o.integrate fun m hm q hq =>
    sum_congr rfl fun i _ => sum_congr rfl fun j _ => by
      rw [h.o.vectorFn hab hm hq, h.o.vectorGrad hg hm hq, h.o.vectorFn hg hm hq]
  unfold SymLocal at key ⊢
  rwa [h.omesh] at key

theorem B (h : SemSym sem low τ) (H : SymVel sem τ u v) : SymCovel sem τ (sem.B u) (sem.B v) := by
  have := h.covelMasked (h.covelScale H h.massDiag)
  have e : ∀ u : Vel K d, sem.masked (fun i k => u i k * sem.massDiag i k) = sem.B u := fun u => by
    funext i k; simp only [StokesSEM.masked, StokesSEM.B]; ring
  rwa [e, e] at this

theorem exchange (H : SymCovel sem τ f g) : SymVel sem τ (vExchange sem.vspace.mesh f) (vExchange sem.vspace.mesh g) := H

theorem Bi (h : SemSym sem low τ) (H : SymCovel sem τ f g) : SymVel sem τ (sem.Bi f) (sem.Bi g) :=
  fun k => SymField.map₂ (h.massDiag k) (H k) fun x y => 1 / x * y

theorem Q (h : SemSym sem low τ) (dt beta : K) (H : SymCovel sem τ f g) : SymVel sem τ (sem.Q dt beta f) (sem.Q dt beta g) :=
  fun k => (h.Bi H k).map fun x => dt / beta * x

theorem D (h : SemSym sem low τ) (H : SymVel sem τ u v) : SymDual sem.pspace.mesh τ (sem.D u) (sem.D v) := by
  refine SymDual.scatter h.p.sym (h.p.scalarCovector fun a b hab => h.p.integrate fun m hm q hq => ?_)
  rw [h.p.scalarFn hab hm hq, h.v.divFn (h.gather H) (by rwa [h.elements] at hm) (by rwa [h.quad] at hq)]

theorem Dt (h : SemSym sem low τ) (H : SymField sem.pspace.mesh τ p q) : SymCovel sem τ (sem.Dt p) (sem.Dt q) := by
  refine h.covelMasked (h.scatter (h.v.vectorCovector fun a b hab => h.v.integrate fun m hm q' hq => ?_))
  rw [h.v.divFn hab hm hq, h.p.scalarFn (fun m hm n hn => H.gather h.p.sym hm hn) (by rwa [h.elements]) (by rwa [h.quad])]

theorem E (h : SemSym sem low τ) (dt beta : K) (H : SymField sem.pspace.mesh τ p q) :
    SymDual sem.pspace.mesh τ (sem.E dt beta p) (sem.E dt beta q) := h.D (h.Q dt beta (h.Dt H))

theorem pressureB (h : SemSym sem low τ) (H : SymField sem.pspace.mesh τ p q) :
    SymDual sem.pspace.mesh τ (sem.pressureB p) (sem.pressureB q) := by
  refine SymDual.scatter h.p.sym (h.p.scalarCovector fun a b hab => h.p.integrate fun m hm q' hq => ?_)
  rw [h.p.scalarFn hab hm hq, h.p.scalarFn (fun m hm n hn => H.gather h.p.sym hm hn) hm hq]

theorem projectOut (h : SemSym sem low τ) (H : SymDual sem.pspace.mesh τ p q) :
    SymField sem.pspace.mesh τ (sem.projectOut p) (sem.projectOut q) := by
  have e : nodeDot sem.numP (fun _ => 1) (sem.pressureB (sem.pspace.mesh.exchange p)) =
      nodeDot sem.numP (fun _ => 1) (sem.pressureB (sem.pspace.mesh.exchange q)) :=
    SymDual.dot h.p.sym (SymField.const 1) (h.pressureB H)
  unfold StokesSEM.projectOut
  simp only [e]
  exact SymField.map H fun x => x - _ * 1

theorem H (h : SemSym sem low τ) (mu dt beta : K) (H : SymVel sem τ u v) : SymCovel sem τ (sem.H mu dt beta u) (sem.H mu dt beta v) :=
  h.covel₂ (h.B H) (h.A H) (beta / dt) mu

theorem vDot (h : SemSym sem low τ) (H : SymVel sem τ u v) (H' : SymCovel sem τ f g) : sem.vDot u f = sem.vDot v g := by
  unfold StokesSEM.vDot
  rw [sum_comm, sum_comm (s := range sem.numV)]
  exact sum_congr rfl fun k _ => SymDual.dot h.v.sym (H k) (H' k)

theorem vDot_comm (u v : Vel K d) : sem.vDot u v = sem.vDot v u :=
  sum_congr rfl fun _ _ => sum_congr rfl fun _ _ => mul_comm _ _

/-- The two velocity solves go in lock step. -/
theorem velCG (h : SemSym sem low τ) (mu dt beta : K) : CGRel sem.vDot (sem.H mu dt beta) (vExchange sem.vspace.mesh)
    sem.vDot (sem.H mu dt beta) (vExchange sem.vspace.mesh) (SymVel sem τ) (SymCovel sem τ) where
  sAdd c hx hy := velAdd hx hy c
  rSub {x y x' y'} c hx hy := by
    have := h.covel₂ hx hy 1 (-c)
    have e : ∀ f f' : Vel K d, (fun i k => 1 * f i k + -c * f' i k) = f - c • f' := fun f f' => by
      funext i k; simp only [Pi.sub_apply, Pi.smul_apply, smul_eq_mul]; ring
    rwa [e, e] at this
  op hx := h.H mu dt beta hx
  pre hr := exchange hr
  dotSR hx hr := h.vDot hx hr
  dotRS {x x' r r'} hr hx := (vDot_comm r x).trans ((h.vDot hx hr).trans (vDot_comm x' r'))

theorem nodeDot_comm (N : ℕ) (u v : ℕ → K) : nodeDot N u v = nodeDot N v u := sum_congr rfl fun _ _ => mul_comm _ _

theorem pressureCG (h : SemSym sem low τ) (dt beta : K) : CGRel (nodeDot sem.numP) (sem.E dt beta) sem.projectOut
    (nodeDot sem.numP) (sem.E dt beta) sem.projectOut (SymField sem.pspace.mesh τ) (SymDual sem.pspace.mesh τ) where
  sAdd c hx hy := hx.map₂ hy fun x y => x + c * y
  rSub {x y x' y'} c hx hy := by
    have := SymDual.map₂ h.p.sym hx hy 1 (-c)
    have e : ∀ f f' : ℕ → K, (fun i => 1 * f i + -c * f' i) = f - c • f' := fun f f' => by
      funext i; simp only [Pi.sub_apply, Pi.smul_apply, smul_eq_mul]; ring
    rwa [e, e] at this
  op hx := h.E dt beta hx
  pre hr := h.projectOut hr
  dotSR hx hr := SymDual.dot h.p.sym hx hr
  dotRS {x x' r r'} hr hx := (nodeDot_comm _ r x).trans ((SymDual.dot h.p.sym hx hr).trans (nodeDot_comm _ x' r'))

/-- The filtered value at a node is the one of any element with the node. -/
theorem filter_value (h : SemSym sem low τ) {u : Vel K d} {k : Fin d} (hu : Continuous sem.vspace.mesh (fun j => u j k))
    {loc : ℕ → ℕ → Fin d → K}
    (hloc : ∀ m, ∀ n < sem.vspace.mesh.nodesPerElem, ∀ k, loc m n k = ∑ j ∈ Finset.range sem.vspace.mesh.nodesPerElem,
      vGather sem.vspace.mesh u m j k * filterEntry sem.vspace.mesh low n j)
    {m n : ℕ} (hm : m < sem.vspace.mesh.numElements) (hn : n < sem.vspace.mesh.nodesPerElem) :
    (1 / sem.diagQqt (nodeAt sem.vspace.mesh m n)) * vScatter sem.vspace.mesh loc (nodeAt sem.vspace.mesh m n) k = loc m n k := by
  have hs := h.v.sym
  have he := hs.nodeAt_cast hm hn
  have hp := hs.nodeAt_lt hm hn
  set p := nodeAt sem.vspace.mesh m n
  have hne : sem.diagQqt p ≠ 0 := by
    rw [h.diag, Mesh.scatter_apply]
    apply ne_of_gt
    refine Finset.sum_pos' (fun m _ => Finset.sum_nonneg fun n _ => ?_) ⟨m, Finset.mem_range.mpr hm,
      Finset.sum_pos' (fun n _ => ?_) ⟨n, Finset.mem_range.mpr hn, ?_⟩⟩
    · split
      · rw [mul_one]; unfold maskOf; split <;> simp
      · exact le_rfl
    · split
      · rw [mul_one]; unfold maskOf; split <;> simp
      · exact le_rfl
    · rw [he, if_pos (writePos_nat hp), maskOf_nat]; simp
  have : vScatter sem.vspace.mesh loc p k = sem.diagQqt p * loc m n k := by
    rw [h.diag]
    unfold vScatter
    rw [Mesh.scatter_apply, Mesh.scatter_apply, Finset.sum_mul]
    refine Finset.sum_congr rfl fun m' hm' => ?_
    rw [Finset.sum_mul]
    refine Finset.sum_congr rfl fun n' hn' => ?_
    rw [Finset.mem_range] at hm' hn'
    split
    · rename_i hwp
      rw [mul_one]
      congr 1
      rw [hs.nodeAt_cast hm' hn', writePos_nat (hs.nodeAt_lt hm' hn'), Option.some.injEq] at hwp
      rw [hloc m' n' hn', hloc m n hn]
      exact filter_local_same h.filter h.aligned hu hm' hn' hm hn (hs.nodeAt_cast hm' hn') he (by rw [hwp]; exact SameNode.refl _ _)
    · rw [zero_mul]
  rw [this, ← mul_assoc, one_div, inv_mul_cancel₀ hne, one_mul]

theorem filter_sym (h : SemSym sem low τ) (alpha : K) (H : SymVel sem τ u v) :
    ∃ w w', sem.filter low alpha u = some w ∧ sem.filter low alpha v = some w' ∧ SymVel sem τ w w' := by
  obtain ⟨w, hw, loc, hloc, he⟩ := filter_eq (sem := sem) h.filter alpha u
  obtain ⟨w', hw', loc', hloc', he'⟩ := filter_eq (sem := sem) h.filter alpha v
  have hs := h.v.sym
  have cont : ∀ (u w : Vel K d) (loc : ℕ → ℕ → Fin d → K), (∀ k, Continuous sem.vspace.mesh (fun j => u j k)) →
      (∀ m, ∀ n < sem.vspace.mesh.nodesPerElem, ∀ k, loc m n k = ∑ j ∈ Finset.range sem.vspace.mesh.nodesPerElem,
        vGather sem.vspace.mesh u m j k * filterEntry sem.vspace.mesh low n j) →
      (∀ p k, w p k = (1 - alpha) * u p k + alpha * ((1 / sem.diagQqt p) * vScatter sem.vspace.mesh loc p k)) →
      ∀ k, Continuous sem.vspace.mesh (fun j => w j k) := by
    intro u w loc hu hloc he k i hi j hj hij
    obtain ⟨m, hm, n, hn, rfl⟩ := hs.covered hi
    obtain ⟨m', hm', n', hn', rfl⟩ := hs.covered hj
    dsimp only
    rw [he, he, h.filter_value (hu k) hloc hm hn, h.filter_value (hu k) hloc hm' hn', hloc m n hn, hloc m' n' hn',
      filter_local_same h.filter h.aligned (hu k) hm hn hm' hn' (hs.nodeAt_cast hm hn) (hs.nodeAt_cast hm' hn') hij]
    rw [show u _ k = u _ k from hu k _ hi _ hj hij]
  refine ⟨w, w', hw, hw', fun k => ⟨cont u w loc (fun k => (H k).left) hloc he k, cont v w' loc' (fun k => (H k).right) hloc' he' k, ?_⟩⟩
  intro m hm n hn
  rw [he, he', h.filter_value (H k).left hloc (hs.maps m hm) hn, h.filter_value (H k).right hloc' hm hn, hloc _ n hn, hloc' _ n hn,
    (H k).moved m hm n hn]
  congr 2
  exact sum_congr rfl fun j hj => by rw [h.gather H m hm j (mem_range.1 hj) k]

/-- Histories. -/
theorem history (beta : List K) {us vs : List (Vel K d)} (H : List.Forall₂ (SymVel sem τ) us vs) :
    SymVel sem τ (StokesSEM.history beta us) (StokesSEM.history beta vs) := by
  induction H generalizing beta with
  | nil =>
    intro k
    unfold StokesSEM.history
    simp only [List.zip_nil_right, List.map_nil, List.sum_nil]
    exact SymField.const 0
  | cons hxy _ ih =>
    intro k
    unfold StokesSEM.history
    cases beta with
    | nil => simp only [List.zip_nil_left, List.map_nil, List.sum_nil]; exact SymField.const 0
    | cons b bs =>
      simp only [List.zip_cons_cons, List.map_cons, List.sum_cons]
      exact (hxy k).map₂ (ih bs k) fun x y => b * x + y

theorem extrapolate (c : Fin 2 → K) {ps qs : List (ℕ → K)} (H : List.Forall₂ (SymField sem.pspace.mesh τ) ps qs) :
    Option.Rel (SymField sem.pspace.mesh τ) (StokesSEM.extrapolate c ps) (StokesSEM.extrapolate c qs) := by
  have hr := List.rel_reverse H
  unfold StokesSEM.extrapolate
  revert hr
  generalize ps.reverse = a
  generalize qs.reverse = b
  intro hr
  cases hr with
  | nil => exact .none
  | cons h1 ht =>
    cases ht with
    | nil => exact .none
    | cons h2 _ => exact .some (h1.map₂ h2 fun x y => c 1 * x + c 0 * y)

/-- Corresponding results of a step. -/
structure SymStep (sem : StokesSEM K d) (τ : ℕ → ℕ) (s t : StokesSEM.Step K d) : Prop where
  u : SymVel sem τ s.u t.u
  p : SymField sem.pspace.mesh τ s.p t.p
  uStar : SymVel sem τ s.uStar t.uStar
  uResidual : s.uResidual = t.uResidual
  uIterations : s.uIterations = t.uIterations
  pResidual : s.pResidual = t.pResidual
  pIterations : s.pIterations = t.pIterations

/-- Both calls raise the same error, or both succeed with related results. -/
inductive ExRel {α β : Type*} (R : α → β → Prop) : Except String α → Except String β → Prop
  | error (e : String) : ExRel R (.error e) (.error e)
  | ok {a : α} {b : β} (h : R a b) : ExRel R (.ok a) (.ok b)

/-- The step on corresponding data, when the solver does not use the relative tolerance or both runs are the same. -/
theorem oneStep (h : SemSym sem low τ) {us vs : List (Vel K d)} {ps qs : List (ℕ → K)} (hus : List.Forall₂ (SymVel sem τ) us vs)
    (hps : List.Forall₂ (SymField sem.pspace.mesh τ) ps qs) (hf : SymCovel sem τ f g) (mu dt : K) (timeOrder : ℕ) (alpha tol atol : K)
    (htol : tol = 0 ∨ (us = vs ∧ ps = qs ∧ f = g)) :
    ExRel (SymStep sem τ) (sem.oneStep low us ps f mu dt timeOrder alpha none none true tol atol)
      (sem.oneStep low vs qs g mu dt timeOrder alpha none none true tol atol) := by
  unfold StokesSEM.oneStep
  cases hc : (extkCoeffs 1 : Option (Fin 2 → K)) with
  | none => exact .error _
  | some c =>
    dsimp only
    have hext := extrapolate (sem := sem) (τ := τ) c hps
    cases h1 : StokesSEM.extrapolate c ps <;> cases h2 : StokesSEM.extrapolate c qs
    · exact .error _
    · rw [h1, h2] at hext; cases hext
    · rw [h1, h2] at hext; cases hext
    rename_i pe qe
    rw [h1, h2] at hext
    obtain ⟨hpe⟩ : SymField sem.pspace.mesh τ pe qe ∧ True := by cases hext with | some h => exact ⟨h, trivial⟩
    dsimp only
    cases (bdfkCoeffs timeOrder : Option (Fin (timeOrder + 1) → K)) with
    | none => exact .error _
    | some b =>
      dsimp only
      split
      · exact .error _
      · have hf3 : SymCovel sem τ
            (f + sem.Dt pe - sem.B (fun p k => (1 / dt) * StokesSEM.history (List.ofFn (fun i : Fin timeOrder => b i.castSucc)) us p k))
            (g + sem.Dt qe - sem.B (fun p k => (1 / dt) * StokesSEM.history (List.ofFn (fun i : Fin timeOrder => b i.castSucc)) vs p k)) :=
          h.covelSub (h.covelAdd hf (h.Dt hpe)) (h.B fun k => (history _ hus k).map fun x => 1 / dt * x)
        have hb1 : cgBound sem.vDot
            (f + sem.Dt pe - sem.B (fun p k => (1 / dt) * StokesSEM.history (List.ofFn (fun i : Fin timeOrder => b i.castSucc)) us p k))
              tol atol = cgBound sem.vDot
            (g + sem.Dt qe - sem.B (fun p k => (1 / dt) * StokesSEM.history (List.ofFn (fun i : Fin timeOrder => b i.castSucc)) vs p k))
              tol atol := by
          rcases htol with h0 | ⟨e1, e2, e3⟩
          · rw [h0]; unfold cgBound; simp
          · subst e1 e2 e3
            rw [h1, Option.some.injEq] at h2
            rw [h2]
        have hs1 := cg_sim (h.velCG mu dt (b (Fin.last timeOrder))) hf3 velZero hb1 (10 * (sem.numV * d))
        revert hs1
        cases hcg : cg sem.vDot (sem.H mu dt (b (Fin.last timeOrder))) (vExchange sem.vspace.mesh)
          (f + sem.Dt pe - sem.B (fun p k => (1 / dt) * StokesSEM.history (List.ofFn (fun i : Fin timeOrder => b i.castSucc)) us p k))
          0 tol atol (10 * (sem.numV * d)) <;>
        cases hcg' : cg sem.vDot (sem.H mu dt (b (Fin.last timeOrder))) (vExchange sem.vspace.mesh)
          (g + sem.Dt qe - sem.B (fun p k => (1 / dt) * StokesSEM.history (List.ofFn (fun i : Fin timeOrder => b i.castSucc)) vs p k))
          0 tol atol (10 * (sem.numV * d)) <;> intro hs1
        · exact .error _
        · cases hs1
        · cases hs1
        · rename_i r r'
          obtain ⟨u0, res, n⟩ := r
          obtain ⟨u0', res', n'⟩ := r'
          obtain ⟨hu0, hres⟩ : SymVel sem τ u0 u0' ∧ (res, n) = (res', n') := by cases hs1 with | some h => exact h
          dsimp only
          obtain ⟨w, w', hw, hw', hww⟩ := h.filter_sym alpha hu0
          rw [hw, hw']
          dsimp only
          have hD : SymDual sem.pspace.mesh τ (-sem.D w) (-sem.D w') := by
            have := SymDual.map₂ h.p.sym (h.D hww) (h.D hww) (-1) 0
            have e : ∀ f : ℕ → K, (fun i => -1 * f i + 0 * f i) = -f := fun f => by funext i; simp
            rwa [e, e] at this
          have hb2 : cgBound (nodeDot sem.numP) (-sem.D w) tol atol = cgBound (nodeDot sem.numP) (-sem.D w') tol atol := by
            rcases htol with h0 | ⟨e1, e2, e3⟩
            · rw [h0]; unfold cgBound; simp
            · subst e1 e2 e3
              rw [h1, Option.some.injEq] at h2
              subst h2
              rw [hcg, Option.some.injEq, Prod.mk.injEq] at hcg'
              rw [← hcg'.1, hw, Option.some.injEq] at hw'
              rw [hw']
          have hs2 := cg_sim (h.pressureCG dt (b (Fin.last timeOrder))) hD (SymField.const 0 : SymField sem.pspace.mesh τ 0 0) hb2
            (10 * sem.numP)
          have e4 : sem.precondFn (StokesSEM.choosePrecond none true) = sem.projectOut := rfl
          rw [e4]
          revert hs2
          cases cg (nodeDot sem.numP) (sem.E dt (b (Fin.last timeOrder))) sem.projectOut (-sem.D w) 0 tol atol (10 * sem.numP) <;>
          cases cg (nodeDot sem.numP) (sem.E dt (b (Fin.last timeOrder))) sem.projectOut (-sem.D w') 0 tol atol (10 * sem.numP) <;>
            intro hs2
          · exact .error _
          · cases hs2
          · cases hs2
          · rename_i r r'
            obtain ⟨dp, res2, n2⟩ := r
            obtain ⟨dp', res2', n2'⟩ := r'
            obtain ⟨hdp, hres2⟩ : SymField sem.pspace.mesh τ dp dp' ∧ (res2, n2) = (res2', n2') := by cases hs2 with | some h => exact h
            rw [Prod.mk.injEq] at hres hres2
            exact .ok ⟨fun k => (hww k).map₂ (h.Q dt _ (h.Dt hdp) k) fun x y => x + y, hpe.map₂ hdp fun x y => x + y, hww,
              hres.1, hres.2, hres2.1, hres2.2⟩

end SemSym

end Verif.NS
