import Verif.Lemmas.CubeSym
import Verif.Lemmas.RolloutSym
import Verif.Props.C104Violated

/-!
# C111: the solver does not single out a place of the periodic domain

Moving all data of a step by a whole number of elements along periodic axes moves the result, with the same numbers of
iterations; so does moving the data of a rollout when the forcing is invariant and the nodal closure forces correspond.
-/

namespace Verif.NS

open Verif.Core Verif.Spec SemSym

variable {n d p over : ℕ} {a b mu dt alpha tol atol : ℝ} {per : List ℕ} {bcs : List (String × BCType)} {cs : CubeStokes d} {timeOrder : ℕ}
  {us vs : List (Vel ℝ d)} {ps qs : List (ℕ → ℝ)} {f g : Vel ℝ d} {s : Fin d → ℕ}

/-- The values of the velocity `u` at points moved by `w` are the values of `v`. -/
def ShiftedVel (mesh : Mesh ℝ d) (per : List ℕ) (L : ℝ) (w : Fin d → ℝ) (u v : Vel ℝ d) : Prop :=
  ∀ k, Shifted mesh per L w (fun j => u j k) (fun j => v j k)

/-- Nodal forces: shared nodes hold partial sums, which are added before they are compared. -/
def ShiftedForce (mesh : Mesh ℝ d) (per : List ℕ) (L : ℝ) (w : Fin d → ℝ) (f g : Vel ℝ d) : Prop :=
  ∀ k, Shifted mesh per L w (mesh.exchange fun j => f j k) (mesh.exchange fun j => g j k)

theorem symVel_iff {vnode pnode : ℕ → ℕ → ℕ} {l : List ℝ} (h : CubeSEM n d p a b per bcs cs vnode pnode l) (hn : 1 ≤ n) (hab : a < b)
    (hs : ∀ k : Fin d, (k : ℕ) ∉ per → s k = 0) (u v : Vel ℝ d) :
    SymVel cs.sem (shiftElem n d s) u v ↔ ShiftedVel cs.vmesh per (b - a) (fun k => s k * ((b - a) / n)) u v := by
  refine forall_congr' fun k => ?_
  rw [FESpace.build_mesh h.vbuild, h.field_iff hn hab hs]

theorem symCovel_iff {vnode pnode : ℕ → ℕ → ℕ} {l : List ℝ} (h : CubeSEM n d p a b per bcs cs vnode pnode l) (hn : 1 ≤ n) (hab : a < b)
    (hs : ∀ k : Fin d, (k : ℕ) ∉ per → s k = 0) (u v : Vel ℝ d) :
    SymCovel cs.sem (shiftElem n d s) u v ↔ ShiftedForce cs.vmesh per (b - a) (fun k => s k * ((b - a) / n)) u v := by
  refine forall_congr' fun k => ?_
  unfold SymDual
  rw [FESpace.build_mesh h.vbuild, h.field_iff hn hab hs]

theorem symPressure_iff {vnode pnode : ℕ → ℕ → ℕ} {l : List ℝ} (h : CubeSEM n d p a b per bcs cs vnode pnode l) (hn : 1 ≤ n)
    (hp : 3 ≤ p) (hab : a < b) (hcs : cubeStokes n d p over a b per bcs = .ok cs)
    (hs : ∀ k : Fin d, (k : ℕ) ∉ per → s k = 0) (u v : ℕ → ℝ) :
    SymField cs.sem.pspace.mesh (shiftElem n d s) u v ↔ Shifted cs.pmesh per (b - a) (fun k => s k * ((b - a) / n)) u v := by
  rw [FESpace.build_mesh h.pbuild, h.pfield_iff hn hp hab hcs hs]

/-- **C111.** `stokes_one_step` with an absolute tolerance on a partly periodic cube: when the velocities and pressures of the
history and the force are those of another call, moved by `s k` elements along each periodic axis `k`, then both calls fail with
the same error or the returned velocities and pressures are moved in the same way, and the residuals and the numbers of
iterations are equal. -/
theorem C111_step (hn : 1 ≤ n) (hd : 1 ≤ d) (hp : 3 ≤ p) (hab : a < b) (hb : CubeBCs d per bcs)
    (hcs : cubeStokes n d p over a b per bcs = .ok cs) (hs : ∀ k : Fin d, (k : ℕ) ∉ per → s k = 0)
    (hus : List.Forall₂ (ShiftedVel cs.vmesh per (b - a) fun k => s k * ((b - a) / n)) us vs)
    (hps : List.Forall₂ (Shifted cs.pmesh per (b - a) fun k => s k * ((b - a) / n)) ps qs)
    (hf : ShiftedForce cs.vmesh per (b - a) (fun k => s k * ((b - a) / n)) f g) :
    (∃ e, cs.sem.oneStep cs.low us ps f mu dt timeOrder alpha none none true 0 atol = .error e ∧
      cs.sem.oneStep cs.low vs qs g mu dt timeOrder alpha none none true 0 atol = .error e) ∨
    ∃ st st', cs.sem.oneStep cs.low us ps f mu dt timeOrder alpha none none true 0 atol = .ok st ∧
      cs.sem.oneStep cs.low vs qs g mu dt timeOrder alpha none none true 0 atol = .ok st' ∧
      ShiftedVel cs.vmesh per (b - a) (fun k => s k * ((b - a) / n)) st.u st'.u ∧
      Shifted cs.pmesh per (b - a) (fun k => s k * ((b - a) / n)) st.p st'.p ∧
      st.uResidual = st'.uResidual ∧ st.uIterations = st'.uIterations ∧
      st.pResidual = st'.pResidual ∧ st.pIterations = st'.pIterations := by
  obtain ⟨vnode, pnode, l, h⟩ := cubeStokes_of hn hd hp hab hb hcs
  have H := (h.semSym hn hp hab hb hs).oneStep (us := us) (vs := vs) (ps := ps) (qs := qs)
    (hus.imp fun u v huv => (symVel_iff h hn hab hs u v).mpr huv)
    (hps.imp fun u v huv => (symPressure_iff h hn hp hab hcs hs u v).mpr huv)
    ((symCovel_iff h hn hab hs f g).mpr hf) mu dt timeOrder alpha 0 atol (Or.inl rfl)
  revert H
  generalize cs.sem.oneStep cs.low us ps f mu dt timeOrder alpha none none true 0 atol = x
  generalize cs.sem.oneStep cs.low vs qs g mu dt timeOrder alpha none none true 0 atol = y
  intro H
  cases H with
  | error e => exact Or.inl ⟨e, rfl, rfl⟩
  | ok hr =>
    exact Or.inr ⟨_, _, rfl, rfl, (symVel_iff h hn hab hs _ _).mp hr.u, (symPressure_iff h hn hp hab hcs hs _ _).mp hr.p,
      hr.uResidual, hr.uIterations, hr.pResidual, hr.pIterations⟩

/-- **C111.** Data that are unchanged by a shift stay unchanged, whatever the tolerances: a flow that repeats in space keeps
repeating. -/
theorem C111_invariant (hn : 1 ≤ n) (hd : 1 ≤ d) (hp : 3 ≤ p) (hab : a < b) (hb : CubeBCs d per bcs)
    (hcs : cubeStokes n d p over a b per bcs = .ok cs) (hs : ∀ k : Fin d, (k : ℕ) ∉ per → s k = 0)
    (hus : ∀ u ∈ us, ShiftedVel cs.vmesh per (b - a) (fun k => s k * ((b - a) / n)) u u)
    (hps : ∀ q ∈ ps, Shifted cs.pmesh per (b - a) (fun k => s k * ((b - a) / n)) q q)
    (hf : ShiftedForce cs.vmesh per (b - a) (fun k => s k * ((b - a) / n)) f f) {st : StokesSEM.Step ℝ d}
    (hst : cs.sem.oneStep cs.low us ps f mu dt timeOrder alpha none none true tol atol = .ok st) :
    ShiftedVel cs.vmesh per (b - a) (fun k => s k * ((b - a) / n)) st.u st.u ∧
      Shifted cs.pmesh per (b - a) (fun k => s k * ((b - a) / n)) st.p st.p := by
  obtain ⟨vnode, pnode, l, h⟩ := cubeStokes_of hn hd hp hab hb hcs
  have H := (h.semSym hn hp hab hb hs).oneStep (us := us) (vs := us) (ps := ps) (qs := ps)
    (List.forall₂_same.mpr fun u hu => (symVel_iff h hn hab hs u u).mpr (hus u hu))
    (List.forall₂_same.mpr fun q hq => (symPressure_iff h hn hp hab hcs hs q q).mpr (hps q hq))
    ((symCovel_iff h hn hab hs f f).mpr hf) mu dt timeOrder alpha tol atol (Or.inr ⟨rfl, rfl, rfl⟩)
  rw [hst] at H
  cases H with
  | ok hr => exact ⟨(symVel_iff h hn hab hs _ _).mp hr.u, (symPressure_iff h hn hp hab hcs hs _ _).mp hr.p⟩

/-- **C111.** The advection term and the assembled viscous and pressure terms of moved data are moved. -/
theorem C111_operators (hn : 1 ≤ n) (hd : 1 ≤ d) (hp : 3 ≤ p) (hab : a < b) (hb : CubeBCs d per bcs)
    (hcs : cubeStokes n d p over a b per bcs = .ok cs) (hs : ∀ k : Fin d, (k : ℕ) ∉ per → s k = 0) {u v : Vel ℝ d} {q r : ℕ → ℝ}
    (huv : ShiftedVel cs.vmesh per (b - a) (fun k => s k * ((b - a) / n)) u v)
    (hqr : Shifted cs.pmesh per (b - a) (fun k => s k * ((b - a) / n)) q r) :
    ShiftedForce cs.vmesh per (b - a) (fun k => s k * ((b - a) / n)) (cs.sem.C u) (cs.sem.C v) ∧
      ShiftedForce cs.vmesh per (b - a) (fun k => s k * ((b - a) / n)) (cs.sem.A u) (cs.sem.A v) ∧
      ShiftedForce cs.vmesh per (b - a) (fun k => s k * ((b - a) / n)) (cs.sem.B u) (cs.sem.B v) ∧
      ShiftedForce cs.vmesh per (b - a) (fun k => s k * ((b - a) / n)) (cs.sem.Dt q) (cs.sem.Dt r) := by
  obtain ⟨vnode, pnode, l, h⟩ := cubeStokes_of hn hd hp hab hb hcs
  have H := h.semSym hn hp hab hb hs
  have h1 := (symVel_iff h hn hab hs u v).mpr huv
  have h2 := (symPressure_iff h hn hp hab hcs hs q r).mpr hqr
  exact ⟨(symCovel_iff h hn hab hs _ _).mp (H.C h1), (symCovel_iff h hn hab hs _ _).mp (H.A h1), (symCovel_iff h hn hab hs _ _).mp (H.B h1),
    (symCovel_iff h hn hab hs _ _).mp (H.Dt h2)⟩

/-- Fields sampled from a function on the periodic domain meet the hypotheses: the function and its translate. -/
example (mesh : Mesh ℝ d) (L : ℝ) (w : Fin d → ℝ) (φ : (Fin d → ℝ) → ℝ) (hφ : ∀ x y, TorusPoint per L x y → φ x = φ y) :
    Shifted mesh per L w (fun j => φ (mesh.coords j)) (fun j => φ (fun k => mesh.coords j k + w k)) :=
  fun _ _ _ _ hpt => hφ _ _ hpt

end Verif.NS

namespace Verif.Niles

open Verif.Core Verif.NS Verif.NS.SemSym Verif.Spec

variable {n p over : ℕ} {a b : ℝ} {per : List ℕ} {bcs : List (String × BCType)} {cs : CubeStokes 2} {s : Fin 2 → ℕ} {wave : ℝ → ℝ}
  {c : SolverConfig ℝ} {net net' : Closure ℝ}

/-- Two closures whose nodal forces (as `body_fn` adds them to the forcing) are moved when the velocity is. -/
def ClosureShifts (c : SolverConfig ℝ) (mesh : Mesh ℝ 2) (per : List ℕ) (L : ℝ) (w : Fin 2 → ℝ) (net net' : Closure ℝ) : Prop :=
  ∀ i u v, ShiftedVel mesh per L w u v →
    (∃ e, closureTerm c mesh net i u = .error e ∧ closureTerm c mesh net' i v = .error e) ∨
    ∃ f g kl, closureTerm c mesh net i u = .ok (f, kl) ∧ closureTerm c mesh net' i v = .ok (g, kl) ∧ ShiftedVel mesh per L w f g

theorem wave_sym {d p n : ℕ} {cs : CubeStokes d} {s : Fin d → ℕ} {k : Fin d} {vnode pnode : ℕ → ℕ → ℕ} {l : List ℝ} (h : CubeSEM n d p a b per bcs cs vnode pnode l) (hn : 1 ≤ n) (hab : a < b)
    (hs : ∀ k : Fin d, (k : ℕ) ∉ per → s k = 0) (hw : (k : ℕ) ∈ per → Function.Periodic wave (b - a))
    (hws : Function.Periodic wave (s k * ((b - a) / n))) :
    SymField cs.sem.vspace.mesh (shiftElem n d s) (fun j => wave (cs.sem.vspace.mesh.coords j k))
      (fun j => wave (cs.sem.vspace.mesh.coords j k)) := by
  rw [FESpace.build_mesh h.vbuild, h.field_iff hn hab hs]
  intro i hi j hj hpt
  dsimp only
  rcases hpt k with h1 | ⟨h0, z, h1⟩
  · rw [h1]; exact hws _
  · rw [h1]
    have := (hw h0).int_mul z (cs.vmesh.coords i k + s k * ((b - a) / n))
    rw [this]
    exact hws _

/-- **C111.** Any number of steps of `body_fn` (train.py 227-279): when the forcing has the period of the domain and is unchanged
by the shift, and the nodal closure forces correspond, moving the history moves every velocity of the rollout, and the KL terms
are the same. -/
theorem C111_rollout (hn : 1 ≤ n) (hp : 3 ≤ p) (hab : a < b) (hb : CubeBCs 2 per bcs) (hcs : cubeStokes n 2 p over a b per bcs = .ok cs)
    (hs : ∀ k : Fin 2, (k : ℕ) ∉ per → s k = 0) (hw : 1 ∈ per → Function.Periodic wave (b - a))
    (hws : Function.Periodic wave (s 1 * ((b - a) / n)))
    (hnet : ClosureShifts c cs.vmesh per (b - a) (fun k => s k * ((b - a) / n)) net net') (i : ℕ) {us vs cus cvs : List (Vel ℝ 2)}
    {ps qs : List (ℕ → ℝ)} (kl0 klp : ℝ)
    (hus : List.Forall₂ (ShiftedVel cs.vmesh per (b - a) fun k => s k * ((b - a) / n)) us vs)
    (hps : List.Forall₂ (Shifted cs.pmesh per (b - a) fun k => s k * ((b - a) / n)) ps qs)
    (hcus : List.Forall₂ (ShiftedForce cs.vmesh per (b - a) fun k => s k * ((b - a) / n)) cus cvs) (steps : ℕ) :
    (∃ e, scanBody cs.low wave c cs.sem net steps ⟨i, us, ps, cus, kl0, klp⟩ = .error e ∧
      scanBody cs.low wave c cs.sem net' steps ⟨i, vs, qs, cvs, kl0, klp⟩ = .error e) ∨
    ∃ t t' preds preds', scanBody cs.low wave c cs.sem net steps ⟨i, us, ps, cus, kl0, klp⟩ = .ok (t, preds) ∧
      scanBody cs.low wave c cs.sem net' steps ⟨i, vs, qs, cvs, kl0, klp⟩ = .ok (t', preds') ∧
      List.Forall₂ (ShiftedVel cs.vmesh per (b - a) fun k => s k * ((b - a) / n)) preds preds' ∧
      List.Forall₂ (Shifted cs.pmesh per (b - a) fun k => s k * ((b - a) / n)) t.ps t'.ps ∧
      t.klQ0 = t'.klQ0 ∧ t.klPath = t'.klPath := by
  obtain ⟨vnode, pnode, l, h⟩ := cubeStokes_of hn (by norm_num) hp hab hb hcs
  have hvm := FESpace.build_mesh h.vbuild
  have hV := symVel_iff h hn hab hs
  have hP := symPressure_iff h hn hp hab hcs hs
  have hC := symCovel_iff h hn hab hs
  have hnet' : SymClosure cs.sem (shiftElem n 2 s) c net net' := by
    intro i u v huv
    rw [hvm]
    rcases hnet i u v ((hV u v).mp huv) with ⟨e, h1, h2⟩ | ⟨f, g, kl, h1, h2, h3⟩
    · rw [h1, h2]; exact .error e
    · rw [h1, h2]; exact .ok ⟨(hV f g).mpr h3, rfl⟩
  have H := scanBody_sym (h.semSym hn hp hab hb hs) (wave_sym (k := 1) h hn hab hs (fun h1 => hw h1) hws) hnet' steps
    (s := ⟨i, us, ps, cus, kl0, klp⟩) (t := ⟨i, vs, qs, cvs, kl0, klp⟩)
    ⟨rfl, hus.imp fun u v => (hV u v).mpr, hps.imp fun u v => (hP u v).mpr, hcus.imp fun u v => (hC u v).mpr, rfl, rfl⟩
  revert H
  generalize scanBody cs.low wave c cs.sem net steps ⟨i, us, ps, cus, kl0, klp⟩ = x
  generalize scanBody cs.low wave c cs.sem net' steps ⟨i, vs, qs, cvs, kl0, klp⟩ = y
  intro H
  cases H with
  | error e => exact Or.inl ⟨e, rfl, rfl⟩
  | ok hr =>
    rename_i r r'
    obtain ⟨t, preds⟩ := r
    obtain ⟨t', preds'⟩ := r'
    exact Or.inr ⟨t, t', preds, preds', rfl, rfl, hr.2.imp fun u v => (hV u v).mp, hr.1.ps.imp fun u v => (hP u v).mp, hr.1.klQ0, hr.1.klPath⟩

theorem zeroNet_kl {mesh : Mesh ℝ 2} {i : ℕ} {u f : Vel ℝ 2} {r : ℝ × ℝ} (h : closureTerm c mesh zeroNet i u = .ok (f, r)) : r = (0, 0) := by
  unfold closureTerm at h
  split at h
  · exact absurd h (by simp)
  · split at h
    · exact absurd h (by simp)
    · dsimp only at h
      split at h
      · exact absurd h (by simp)
      · split at h
        · exact absurd h (by simp)
        · simp only [Except.ok.injEq, Prod.mk.injEq, zeroNet] at h
          exact h.2.symm

/-- The hypotheses hold without closure, for example for a shift by one element along the flow of the forcing. -/
example : ∃ (cs : CubeStokes 2) (c : SolverConfig ℝ), cubeStokes 4 2 3 2 0 1 [0, 1] [] = .ok cs ∧
    ClosureShifts c cs.vmesh [0, 1] (1 - 0) (fun k => ((![1, 0] : Fin 2 → ℕ) k : ℝ) * ((1 - 0) / (4 : ℕ))) zeroNet zeroNet ∧
    Function.Periodic (fun y : ℝ => Real.sin (2 * Real.pi * 4 * y)) (1 - 0) ∧
    Function.Periodic (fun y : ℝ => Real.sin (2 * Real.pi * 4 * y)) (((![1, 0] : Fin 2 → ℕ) 1 : ℝ) * ((1 - 0) / (4 : ℕ))) := by
  obtain ⟨cs, hcs⟩ := C92_create (over := 2) (n := 4) (d := 2) (p := 3) (a := 0) (b := 1) (by norm_num) (by norm_num)
    (by norm_num) (by norm_num) [0, 1] (bcs := []) (Or.inr rfl)
  let c : SolverConfig ℝ := ⟨3, 20000, 1 / 1000, 0, 1 / 25, 0, cs.vmesh.numElements, cs.vmesh.nodesPerElem * 2, false⟩
  refine ⟨cs, c, hcs, ?_, ?_, ?_⟩
  · intro i u v _
    obtain ⟨f, r, hf, rfl⟩ := zeroNet_closure (c := c) (mesh := cs.vmesh) rfl ⟨rfl, rfl, by simp [c]⟩ i u
    obtain ⟨g, r', hg, rfl⟩ := zeroNet_closure (c := c) (mesh := cs.vmesh) rfl ⟨rfl, rfl, by simp [c]⟩ i v
    obtain rfl := zeroNet_kl hf
    obtain rfl := zeroNet_kl hg
    exact Or.inr ⟨0, 0, _, hf, hg, fun k i _ j _ _ => rfl⟩
  · intro y
    dsimp only
    have := Real.sin_periodic.nat_mul 4 (2 * Real.pi * 4 * y)
    rw [← this]
    congr 1
    push_cast
    ring
  · simp [Function.Periodic]

end Verif.Niles
