import Verif.Lemmas.CubeIso
import Verif.Lemmas.IsoRollout
import Verif.Props.C111

/-!
# C116: the solver does not single out a direction

Turning and mirroring all data of a step by a symmetry of the cube turns and mirrors the result, with the same numbers of
iterations; so it does for a rollout when the forcing has the symmetry and the nodal closure forces correspond.
-/

namespace Verif.NS

open Verif.Core Verif.Spec IsoSem

variable {n d p over : ℕ} {a b mu dt alpha tol atol : ℝ} {per : List ℕ} {bcs : List (String × BCType)} {cs : CubeStokes d} {timeOrder : ℕ}
  {us vs : List (Vel ℝ d)} {ps qs : List (ℕ → ℝ)} {f f' : Vel ℝ d} {g : Turn d}

/-- The values of `u` at the images of points are the values of `v`. -/
def Turned (mesh : Mesh ℝ d) (per : List ℕ) (a b : ℝ) (n : ℕ) (g : Turn d) (u v : ℕ → ℝ) : Prop :=
  ∀ i < mesh.numNodes, ∀ j < mesh.numNodes, TorusPoint per (b - a) (mesh.coords j) (g.point a b n (mesh.coords i)) → u j = v i

/-- The vectors `u` at the images of points are the images of the vectors `v`. -/
def TurnedVel (mesh : Mesh ℝ d) (per : List ℕ) (a b : ℝ) (n : ℕ) (g : Turn d) (u v : Vel ℝ d) : Prop :=
  ∀ i < mesh.numNodes, ∀ j < mesh.numNodes, TorusPoint per (b - a) (mesh.coords j) (g.point a b n (mesh.coords i)) →
    u j = g.vector (v i)

/-- Nodal forces: shared nodes hold partial sums, which are added before they are compared. -/
def TurnedForce (mesh : Mesh ℝ d) (per : List ℕ) (a b : ℝ) (n : ℕ) (g : Turn d) (u v : Vel ℝ d) : Prop :=
  TurnedVel mesh per a b n g (vExchange mesh u) (vExchange mesh v)

theorem turnedVel_iff {mesh : Mesh ℝ d} {u v : Vel ℝ d} : TurnedVel mesh per a b n g u v ↔
    ∀ k, TurnedBy mesh per a b n g (g.sign k) (fun j => u j (g.axis k)) (fun j => v j k) := by
  constructor
  · intro H k i hi j hj hpt
    dsimp only
    rw [H i hi j hj hpt, Turn.vector_axis]
  · intro H i hi j hj hpt
    funext m
    obtain ⟨k, rfl⟩ := g.axis.surjective m
    rw [Turn.vector_axis]
    exact H k i hi j hj hpt

theorem isoVel_iff {vnode pnode : ℕ → ℕ → ℕ} {l : List ℝ} (h : CubeSEM n d p a b per bcs cs vnode pnode l) (hn : 1 ≤ n) (hp : 3 ≤ p)
    (hab : a < b) (hg : g.Keeps per) (u v : Vel ℝ d) :
    IsoVel cs.sem (turnMaps cs n g) u v ↔ TurnedVel cs.vmesh per a b n g u v := by
  rw [turnedVel_iff]
  refine forall_congr' fun k => ?_
  rw [FESpace.build_mesh h.vbuild]
  exact (h.vPlaced hp hab).field_iff hn hg (g.sign_ne k) _ _

theorem isoCovel_iff {vnode pnode : ℕ → ℕ → ℕ} {l : List ℝ} (h : CubeSEM n d p a b per bcs cs vnode pnode l) (hn : 1 ≤ n) (hp : 3 ≤ p)
    (hab : a < b) (hg : g.Keeps per) (u v : Vel ℝ d) :
    IsoCovel cs.sem (turnMaps cs n g) u v ↔ TurnedForce cs.vmesh per a b n g u v := by
  unfold TurnedForce
  rw [turnedVel_iff]
  refine forall_congr' fun k => ?_
  unfold IsoDual
  rw [FESpace.build_mesh h.vbuild]
  exact (h.vPlaced hp hab).field_iff hn hg (g.sign_ne k) _ _

theorem isoPres_iff {vnode pnode : ℕ → ℕ → ℕ} {l : List ℝ} (h : CubeSEM n d p a b per bcs cs vnode pnode l) (hn : 1 ≤ n)
    (hp : 3 ≤ p) (hab : a < b) (hcs : cubeStokes n d p over a b per bcs = .ok cs) (hg : g.Keeps per) (u v : ℕ → ℝ) :
    IsoPres cs.sem (turnMaps cs n g) u v ↔ Turned cs.pmesh per a b n g u v := by
  unfold IsoPres
  rw [FESpace.build_mesh h.pbuild]
  refine ((h.pPlaced hn hp hab hcs).field_iff hn hg one_ne_zero _ _).trans ?_
  unfold TurnedBy Turned
  simp only [one_mul]

/-- **C116.** `stokes_one_step` with an absolute tolerance on a partly periodic cube: when the velocities and pressures of the
history and the force are those of another call, turned, mirrored and moved by a symmetry of the cube, then both calls fail with
the same error or the returned velocities and pressures are turned, mirrored and moved in the same way, and the residuals and the
numbers of iterations are equal. -/
theorem C116_step (hn : 1 ≤ n) (hd : 1 ≤ d) (hp : 3 ≤ p) (hab : a < b) (hb : CubeBCs d per bcs)
    (hcs : cubeStokes n d p over a b per bcs = .ok cs) (hg : g.Keeps per)
    (hus : List.Forall₂ (TurnedVel cs.vmesh per a b n g) us vs)
    (hps : List.Forall₂ (Turned cs.pmesh per a b n g) ps qs)
    (hf : TurnedForce cs.vmesh per a b n g f f') :
    (∃ e, cs.sem.oneStep cs.low us ps f mu dt timeOrder alpha none none true 0 atol = .error e ∧
      cs.sem.oneStep cs.low vs qs f' mu dt timeOrder alpha none none true 0 atol = .error e) ∨
    ∃ st st', cs.sem.oneStep cs.low us ps f mu dt timeOrder alpha none none true 0 atol = .ok st ∧
      cs.sem.oneStep cs.low vs qs f' mu dt timeOrder alpha none none true 0 atol = .ok st' ∧
      TurnedVel cs.vmesh per a b n g st.u st'.u ∧
      Turned cs.pmesh per a b n g st.p st'.p ∧
      st.uResidual = st'.uResidual ∧ st.uIterations = st'.uIterations ∧
      st.pResidual = st'.pResidual ∧ st.pIterations = st'.pIterations := by
  obtain ⟨vnode, pnode, l, h⟩ := cubeStokes_of hn hd hp hab hb hcs
  have H := (h.semIso hn hp hab hb hcs hg).oneStep (us := us) (vs := vs) (ps := ps) (qs := qs)
    (hus.imp fun u v huv => (isoVel_iff h hn hp hab hg u v).mpr huv)
    (hps.imp fun u v huv => (isoPres_iff h hn hp hab hcs hg u v).mpr huv)
    ((isoCovel_iff h hn hp hab hg f f').mpr hf) mu dt timeOrder alpha 0 atol (Or.inl rfl)
  revert H
  generalize cs.sem.oneStep cs.low us ps f mu dt timeOrder alpha none none true 0 atol = x
  generalize cs.sem.oneStep cs.low vs qs f' mu dt timeOrder alpha none none true 0 atol = y
  intro H
  cases H with
  | error e => exact Or.inl ⟨e, rfl, rfl⟩
  | ok hr =>
    exact Or.inr ⟨_, _, rfl, rfl, (isoVel_iff h hn hp hab hg _ _).mp hr.u, (isoPres_iff h hn hp hab hcs hg _ _).mp hr.p,
      hr.uResidual, hr.uIterations, hr.pResidual, hr.pIterations⟩

/-- **C116.** Data that are unchanged by a symmetry of the cube stay unchanged, whatever the tolerances: a symmetric flow keeps
its symmetry. -/
theorem C116_invariant (hn : 1 ≤ n) (hd : 1 ≤ d) (hp : 3 ≤ p) (hab : a < b) (hb : CubeBCs d per bcs)
    (hcs : cubeStokes n d p over a b per bcs = .ok cs) (hg : g.Keeps per)
    (hus : ∀ u ∈ us, TurnedVel cs.vmesh per a b n g u u) (hps : ∀ q ∈ ps, Turned cs.pmesh per a b n g q q)
    (hf : TurnedForce cs.vmesh per a b n g f f) {st : StokesSEM.Step ℝ d}
    (hst : cs.sem.oneStep cs.low us ps f mu dt timeOrder alpha none none true tol atol = .ok st) :
    TurnedVel cs.vmesh per a b n g st.u st.u ∧ Turned cs.pmesh per a b n g st.p st.p := by
  obtain ⟨vnode, pnode, l, h⟩ := cubeStokes_of hn hd hp hab hb hcs
  have H := (h.semIso hn hp hab hb hcs hg).oneStep (us := us) (vs := us) (ps := ps) (qs := ps)
    (List.forall₂_same.mpr fun u hu => (isoVel_iff h hn hp hab hg u u).mpr (hus u hu))
    (List.forall₂_same.mpr fun q hq => (isoPres_iff h hn hp hab hcs hg q q).mpr (hps q hq))
    ((isoCovel_iff h hn hp hab hg f f).mpr hf) mu dt timeOrder alpha tol atol (Or.inr ⟨rfl, rfl, rfl⟩)
  rw [hst] at H
  cases H with
  | ok hr => exact ⟨(isoVel_iff h hn hp hab hg _ _).mp hr.u, (isoPres_iff h hn hp hab hcs hg _ _).mp hr.p⟩

/-- **C116.** The advection term and the assembled viscous, mass and pressure terms of turned data are turned. -/
theorem C116_operators (hn : 1 ≤ n) (hd : 1 ≤ d) (hp : 3 ≤ p) (hab : a < b) (hb : CubeBCs d per bcs)
    (hcs : cubeStokes n d p over a b per bcs = .ok cs) (hg : g.Keeps per) {u v : Vel ℝ d} {q r : ℕ → ℝ}
    (huv : TurnedVel cs.vmesh per a b n g u v) (hqr : Turned cs.pmesh per a b n g q r) :
    TurnedForce cs.vmesh per a b n g (cs.sem.C u) (cs.sem.C v) ∧ TurnedForce cs.vmesh per a b n g (cs.sem.A u) (cs.sem.A v) ∧
      TurnedForce cs.vmesh per a b n g (cs.sem.B u) (cs.sem.B v) ∧ TurnedForce cs.vmesh per a b n g (cs.sem.Dt q) (cs.sem.Dt r) := by
  obtain ⟨vnode, pnode, l, h⟩ := cubeStokes_of hn hd hp hab hb hcs
  have H := h.semIso hn hp hab hb hcs hg
  have h1 := (isoVel_iff h hn hp hab hg u v).mpr huv
  have h2 := (isoPres_iff h hn hp hab hcs hg q r).mpr hqr
  exact ⟨(isoCovel_iff h hn hp hab hg _ _).mp (H.C h1), (isoCovel_iff h hn hp hab hg _ _).mp (H.A h1),
    (isoCovel_iff h hn hp hab hg _ _).mp (H.B h1), (isoCovel_iff h hn hp hab hg _ _).mp (H.Dt h2)⟩

/-- A quarter turn of the square with walls is one of the symmetries, and so is the mirror of a channel that moves it along. -/
example : Turn.Keeps (⟨Equiv.swap 0 1, ![true, false], 0⟩ : Turn 2) [] ∧
    Turn.Keeps (⟨Equiv.refl _, ![false, true], ![3, 0]⟩ : Turn 2) [0] := by
  refine ⟨⟨fun k => by simp, fun k _ => rfl⟩, ⟨fun k => by simp, fun k hk => ?_⟩⟩
  fin_cases k
  · simp at hk
  · rfl

/-- Fields sampled from functions on the domain meet the hypotheses: a vector field and its image. -/
example (mesh : Mesh ℝ d) (φ ψ : (Fin d → ℝ) → Fin d → ℝ) (hφ : ∀ x y, TorusPoint per (b - a) x y → φ x = φ y)
    (hψ : ∀ x, φ (g.point a b n x) = g.vector (ψ x)) :
    TurnedVel mesh per a b n g (fun j => φ (mesh.coords j)) (fun j => ψ (mesh.coords j)) :=
  fun _ _ _ _ hpt => (hφ _ _ hpt).trans (hψ _)

end Verif.NS

namespace Verif.Niles

open Verif.Core Verif.NS Verif.NS.IsoSem Verif.Spec

variable {n p over : ℕ} {a b : ℝ} {per : List ℕ} {bcs : List (String × BCType)} {cs : CubeStokes 2} {g : Turn 2} {wave : ℝ → ℝ}
  {c : SolverConfig ℝ} {net net' : Closure ℝ}

/-- Two closures whose nodal forces (as `body_fn` adds them to the forcing) are turned when the velocity is. -/
def ClosureTurns (c : SolverConfig ℝ) (mesh : Mesh ℝ 2) (per : List ℕ) (a b : ℝ) (n : ℕ) (g : Turn 2) (net net' : Closure ℝ) : Prop :=
  ∀ i u v, TurnedVel mesh per a b n g u v →
    (∃ e, closureTerm c mesh net i u = .error e ∧ closureTerm c mesh net' i v = .error e) ∨
    ∃ f f' kl, closureTerm c mesh net i u = .ok (f, kl) ∧ closureTerm c mesh net' i v = .ok (f', kl) ∧
      TurnedVel mesh per a b n g f f'

/-- The forcing field without the drag: it blows along the first axis with a strength that depends on the second coordinate. -/
def wind (wave : ℝ → ℝ) (x : Fin 2 → ℝ) : Fin 2 → ℝ := fun k => if k = 0 then wave (x 1) else 0

/-- **C116.** Any number of steps of `body_fn` (train.py 227-279): when the forcing has the period of the domain and the symmetry
`g`, and the nodal closure forces correspond, turning the history turns every velocity of the rollout, and the KL terms are the
same. -/
theorem C116_rollout (hn : 1 ≤ n) (hp : 3 ≤ p) (hab : a < b) (hb : CubeBCs 2 per bcs) (hcs : cubeStokes n 2 p over a b per bcs = .ok cs)
    (hg : g.Keeps per) (hw : 1 ∈ per → Function.Periodic wave (b - a))
    (hwg : ∀ x, wind wave (g.point a b n x) = g.vector (wind wave x))
    (hnet : ClosureTurns c cs.vmesh per a b n g net net') (i : ℕ) {us vs cus cvs : List (Vel ℝ 2)}
    {ps qs : List (ℕ → ℝ)} (kl0 klp : ℝ)
    (hus : List.Forall₂ (TurnedVel cs.vmesh per a b n g) us vs) (hps : List.Forall₂ (Turned cs.pmesh per a b n g) ps qs)
    (hcus : List.Forall₂ (TurnedForce cs.vmesh per a b n g) cus cvs) (steps : ℕ) :
    (∃ e, scanBody cs.low wave c cs.sem net steps ⟨i, us, ps, cus, kl0, klp⟩ = .error e ∧
      scanBody cs.low wave c cs.sem net' steps ⟨i, vs, qs, cvs, kl0, klp⟩ = .error e) ∨
    ∃ t t' preds preds', scanBody cs.low wave c cs.sem net steps ⟨i, us, ps, cus, kl0, klp⟩ = .ok (t, preds) ∧
      scanBody cs.low wave c cs.sem net' steps ⟨i, vs, qs, cvs, kl0, klp⟩ = .ok (t', preds') ∧
      List.Forall₂ (TurnedVel cs.vmesh per a b n g) preds preds' ∧ List.Forall₂ (Turned cs.pmesh per a b n g) t.ps t'.ps ∧
      t.klQ0 = t'.klQ0 ∧ t.klPath = t'.klPath := by
  obtain ⟨vnode, pnode, l, h⟩ := cubeStokes_of hn (by norm_num) hp hab hb hcs
  have hvm := FESpace.build_mesh h.vbuild
  have hV := isoVel_iff h hn hp hab hg
  have hP := isoPres_iff h hn hp hab hcs hg
  have hC := isoCovel_iff h hn hp hab hg
  have hnet' : IsoClosure cs.sem (turnMaps cs n g) c net net' := by
    intro i u v huv
    rw [hvm]
    rcases hnet i u v ((hV u v).mp huv) with ⟨e, h1, h2⟩ | ⟨f, g, kl, h1, h2, h3⟩
    · rw [h1, h2]; exact .error e
    · rw [h1, h2]; exact .ok ⟨(hV f g).mpr h3, rfl⟩
  have hwave : IsoVel cs.sem (turnMaps cs n g) (fun j k => if k = 0 then wave (cs.sem.vspace.mesh.coords j 1) else 0)
      (fun j k => if k = 0 then wave (cs.sem.vspace.mesh.coords j 1) else 0) := by
    rw [hvm, hV]
    intro i hi j hj hpt
    refine Eq.trans ?_ (hwg (cs.vmesh.coords i))
    funext k
    unfold wind
    have : wave (cs.vmesh.coords j 1) = wave (g.point a b n (cs.vmesh.coords i) 1) := by
      rcases hpt 1 with h1 | ⟨h0, z, h1⟩
      · rw [h1]
      · rw [h1]; exact (hw h0).int_mul z _
    dsimp only
    rw [this]
  have H := scanBody_iso (h.semIso hn hp hab hb hcs hg) hwave hnet' steps
    (s := ⟨i, us, ps, cus, kl0, klp⟩) (t := ⟨i, vs, qs, cvs, kl0, klp⟩)
    ⟨rfl, hus.imp fun u v => (hV u v).mpr, hps.imp fun u v => (hP u v).mpr, hcus.imp fun u v => (hC u v).mpr, rfl, rfl⟩
  revert H
  generalize scanBody cs.low wave c cs.sem net steps ⟨i, us, ps, cus, kl0, klp⟩ = x
  generalize scanBody cs.low wave c cs.sem net' steps ⟨i, vs, qs, cvs, kl0, klp⟩ = y
  intro H
  cases H with
  | error e => exact Or.inl ⟨e, rfl, rfl⟩
  | ok hr =>
    rename_i r r'
    obtain ⟨t, preds⟩ := r
    obtain ⟨t', preds'⟩ := r'
    exact Or.inr ⟨t, t', preds, preds', rfl, rfl, hr.2.imp fun u v => (hV u v).mp, hr.1.ps.imp fun u v => (hP u v).mp, hr.1.klQ0, hr.1.klPath⟩

/-- **C116.** The symmetries of the forcing `(sin 8πy, 0)` on the unit square: the half turn has it for every number of elements;
the mirrors of one axis do not, but have it together with a shift by half a wave length when the mesh allows it; the exchange of the
axes does not. -/
theorem C116_forcing (n : ℕ) (hn : 1 ≤ n) :
    (∀ x, wind (fun y => Real.sin (2 * Real.pi * 4 * y)) ((⟨Equiv.refl _, fun _ => true, 0⟩ : Turn 2).point 0 1 n x) =
      (⟨Equiv.refl _, fun _ => true, 0⟩ : Turn 2).vector (wind (fun y => Real.sin (2 * Real.pi * 4 * y)) x)) ∧
    (∀ x, wind (fun y => Real.sin (2 * Real.pi * 4 * y)) ((⟨Equiv.refl _, ![true, false], ![0, n]⟩ : Turn 2).point 0 1 (8 * n) x) =
      (⟨Equiv.refl _, ![true, false], ![0, n]⟩ : Turn 2).vector (wind (fun y => Real.sin (2 * Real.pi * 4 * y)) x)) ∧
    (∀ x, wind (fun y => Real.sin (2 * Real.pi * 4 * y)) ((⟨Equiv.refl _, ![false, true], ![0, n]⟩ : Turn 2).point 0 1 (8 * n) x) =
      (⟨Equiv.refl _, ![false, true], ![0, n]⟩ : Turn 2).vector (wind (fun y => Real.sin (2 * Real.pi * 4 * y)) x)) ∧
    (¬ ∀ x, wind (fun y => Real.sin (2 * Real.pi * 4 * y)) ((⟨Equiv.refl _, ![true, false], 0⟩ : Turn 2).point 0 1 n x) =
      (⟨Equiv.refl _, ![true, false], 0⟩ : Turn 2).vector (wind (fun y => Real.sin (2 * Real.pi * 4 * y)) x)) ∧
    (¬ ∀ x, wind (fun y => Real.sin (2 * Real.pi * 4 * y)) ((⟨Equiv.refl _, ![false, true], 0⟩ : Turn 2).point 0 1 n x) =
      (⟨Equiv.refl _, ![false, true], 0⟩ : Turn 2).vector (wind (fun y => Real.sin (2 * Real.pi * 4 * y)) x)) ∧
    (¬ ∀ x, wind (fun y => Real.sin (2 * Real.pi * 4 * y)) ((⟨Equiv.swap 0 1, fun _ => false, 0⟩ : Turn 2).point 0 1 n x) =
      (⟨Equiv.swap 0 1, fun _ => false, 0⟩ : Turn 2).vector (wind (fun y => Real.sin (2 * Real.pi * 4 * y)) x)) := by
  have per : ∀ y : ℝ, Real.sin (2 * Real.pi * 4 * (1 - y)) = - Real.sin (2 * Real.pi * 4 * y) := by
    intro y
    have h1 := Real.sin_periodic.nat_mul 4 (-(2 * Real.pi * 4 * y))
    rw [Real.sin_neg] at h1
    rw [← h1]
    congr 1
    push_cast
    ring
  have half : ∀ y : ℝ, Real.sin (2 * Real.pi * 4 * (y + 1 / 8)) = - Real.sin (2 * Real.pi * 4 * y) := by
    intro y
    rw [← Real.sin_add_pi]
    congr 1
    ring
  have hn0 : (n : ℝ) ≠ 0 := by exact_mod_cast (by omega : n ≠ 0)
  have h8 : (n : ℝ) * ((1 - 0) / ((8 * n : ℕ) : ℝ)) = 1 / 8 := by push_cast; field_simp; norm_num
  have one : Real.sin (2 * Real.pi * 4 * (1 / 16)) = 1 := by
    rw [show 2 * Real.pi * 4 * (1 / 16) = Real.pi / 2 by ring]; exact Real.sin_pi_div_two
  refine ⟨fun x => ?_, fun x => ?_, fun x => ?_, fun h => ?_, fun h => ?_, fun h => ?_⟩
  · funext k
    fin_cases k
    · simp only [wind, Turn.point, Turn.vector, Turn.sign, Equiv.refl_apply, Equiv.refl_symm]
      simp [per]
    · simp [wind, Turn.vector]
  · funext k
    fin_cases k
    · simp only [wind, Turn.point, Turn.vector, Turn.sign, Equiv.refl_apply, Equiv.refl_symm]
      simp only [Matrix.cons_val_one, Matrix.cons_val_zero, h8]
      simpa using half (x 1)
    · simp [wind, Turn.vector]
  · funext k
    fin_cases k
    · simp only [wind, Turn.point, Turn.vector, Turn.sign, Equiv.refl_apply, Equiv.refl_symm]
      simp only [Matrix.cons_val_one, Matrix.cons_val_zero, h8]
      have h1 := half (1 - x 1)
      rw [per, neg_neg] at h1
      simpa using h1
    · simp [wind, Turn.vector]
  · have h1 := congrFun (h ![0, 1 / 16]) 0
    simp only [wind, Turn.point, Turn.vector, Turn.sign, Equiv.refl_apply, Equiv.refl_symm] at h1
    simp at h1
    rw [show (16 : ℝ)⁻¹ = 1 / 16 by norm_num, one] at h1
    norm_num at h1
  · have h1 := congrFun (h ![0, 1 / 16]) 0
    simp only [wind, Turn.point, Turn.vector, Turn.sign, Equiv.refl_apply, Equiv.refl_symm] at h1
    simp at h1
    rw [show (16 : ℝ)⁻¹ = 1 / 16 by norm_num, per, one] at h1
    norm_num at h1
  · have h1 := congrFun (h ![0, 1 / 16]) 1
    simp only [wind, Turn.point, Turn.vector, Turn.sign] at h1
    simp at h1
    rw [show (16 : ℝ)⁻¹ = 1 / 16 by norm_num, one] at h1
    norm_num at h1

/-- The hypotheses of the rollout hold without closure for the half turn of the periodic square. -/
example : ∃ (cs : CubeStokes 2) (c : SolverConfig ℝ), cubeStokes 4 2 3 2 0 1 [0, 1] [] = .ok cs ∧
    (⟨Equiv.refl _, fun _ => true, 0⟩ : Turn 2).Keeps [0, 1] ∧
    ClosureTurns c cs.vmesh [0, 1] 0 1 4 ⟨Equiv.refl _, fun _ => true, 0⟩ zeroNet zeroNet ∧
    Function.Periodic (fun y : ℝ => Real.sin (2 * Real.pi * 4 * y)) (1 - 0) := by
  obtain ⟨cs, hcs⟩ := C92_create (over := 2) (n := 4) (d := 2) (p := 3) (a := 0) (b := 1) (by norm_num) (by norm_num)
    (by norm_num) (by norm_num) [0, 1] (bcs := []) (Or.inr rfl)
  let c : SolverConfig ℝ := ⟨3, 20000, 1 / 1000, 0, 1 / 25, 0, cs.vmesh.numElements, cs.vmesh.nodesPerElem * 2, false⟩
  refine ⟨cs, c, hcs, ⟨fun _ => by simp, fun _ _ => rfl⟩, ?_, ?_⟩
  · intro i u v _
    obtain ⟨f, r, hf, rfl⟩ := zeroNet_closure (c := c) (mesh := cs.vmesh) rfl ⟨rfl, rfl, by simp [c]⟩ i u
    obtain ⟨g, r', hg, rfl⟩ := zeroNet_closure (c := c) (mesh := cs.vmesh) rfl ⟨rfl, rfl, by simp [c]⟩ i v
    obtain rfl := zeroNet_kl hf
    obtain rfl := zeroNet_kl hg
    refine Or.inr ⟨0, 0, _, hf, hg, fun i _ j _ _ => ?_⟩
    funext k
    simp [Turn.vector]
  · intro y
    dsimp only
    have := Real.sin_periodic.nat_mul 4 (2 * Real.pi * 4 * y)
    rw [← this]
    congr 1
    push_cast
    ring

end Verif.Niles
