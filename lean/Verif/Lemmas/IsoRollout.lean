import Verif.Lemmas.IsoStokes
import Verif.Lemmas.RolloutSym

/-!
Steps and rollouts of the training code commute with symmetries of the mesh that turn and mirror elements, when the forcing does.
-/

namespace Verif.Niles

open Verif.Core Verif.NS Verif.NS.IsoSem Verif.NS.SemSym Finset

variable {K : Type*} [Field K] [LinearOrder K] [IsStrictOrderedRing K] {T : IsoMaps K 2} {low : Nodes1D K} {sem : StokesSEM K 2}

theorem isoCovelZero (h : IsoSem sem low T) : IsoCovel sem T 0 0 := by
  intro k
  refine (IsoField.zero : IsoField sem.vspace.mesh T.elem T.vloc (T.sign k) 0 0).congr h.v.sym ?_ ?_ <;>
  · intro i hi
    rw [exchange_sum _ _ i hi]
    simp

theorem isoCovelSum (h : IsoSem sem low T) {ι : Type*} [DecidableEq ι] (s : Finset ι) (c : ι → K) (f g : ι → Vel K 2) (H : ∀ i ∈ s, IsoCovel sem T (f i) (g i)) :
    IsoCovel sem T (fun p k => ∑ i ∈ s, c i * f i p k) (fun p k => ∑ i ∈ s, c i * g i p k) := by
  induction s using Finset.induction_on with
  | empty => simp only [sum_empty]; exact isoCovelZero h
  | insert i s hi ih =>
    have := h.covel₂ (H i (mem_insert_self i s)) (ih fun j hj => H j (mem_insert_of_mem hj)) (c i) 1
    simp only [one_mul] at this
    simp only [sum_insert hi]
    exact this

theorem extAdvection_iso (h : IsoSem sem low T) (k : ℕ) {cus cvs : List (Vel K 2)} (H : List.Forall₂ (IsoCovel sem T) cus cvs) :
    ExRel (IsoCovel sem T) (extAdvection k cus) (extAdvection k cvs) := by
  unfold extAdvection
  cases (extkCoeffs k : Option (Fin (k + 1) → K)) with
  | none => exact .error _
  | some c =>
    dsimp only
    rw [← H.length_eq]
    split
    · exact .error _
    · rename_i hlen
      refine .ok (isoCovelSum h univ (fun i => c (Fin.rev i)) (fun i => cus.reverse.getD i 0) (fun i => cvs.reverse.getD i 0) fun i _ => ?_)
      have hr := List.rel_reverse H
      have h1 : (i : ℕ) < cus.reverse.length := by rw [List.length_reverse]; omega
      have h2 : (i : ℕ) < cvs.reverse.length := by rw [List.length_reverse, ← H.length_eq]; omega
      rw [List.getD_eq_getElem _ _ h1, List.getD_eq_getElem _ _ h2]
      exact hr.get h1 h2

/-- Corresponding results of a step of the training code. -/
structure IsoResult (sem : StokesSEM K 2) (T : IsoMaps K 2) (r s : Vel K 2 × (ℕ → K) × Vel K 2) : Prop where
  u : IsoVel sem T r.1 s.1
  p : IsoPres sem T r.2.1 s.2.1
  cu : IsoCovel sem T r.2.2 s.2.2

theorem solveStep_iso (h : IsoSem sem low T) {wave : K → K}
    (hwave : IsoVel sem T (fun j k => if k = 0 then wave (sem.vspace.mesh.coords j 1) else 0)
      (fun j k => if k = 0 then wave (sem.vspace.mesh.coords j 1) else 0))
    (c : SolverConfig K) {us vs : List (Vel K 2)} {ps qs : List (ℕ → K)} {cus cvs : List (Vel K 2)} {f g : Vel K 2}
    (hus : List.Forall₂ (IsoVel sem T) us vs) (hps : List.Forall₂ (IsoPres sem T) ps qs)
    (hcus : List.Forall₂ (IsoCovel sem T) cus cvs) (hf : IsoVel sem T f g) :
    ExRel (IsoResult sem T) (solveStep low wave c sem us ps cus f) (solveStep low wave c sem vs qs cvs g) := by
  unfold solveStep
  have hext := extAdvection_iso h (c.timeOrder - 1) hcus
  revert hext
  generalize extAdvection (c.timeOrder - 1) cus = x
  generalize extAdvection (c.timeOrder - 1) cvs = y
  intro hext
  cases hext with
  | error e => exact .error e
  | ok hcu =>
    rename_i cu cv
    dsimp only
    have hlast := getLast?_sym hus
    cases h1 : us.getLast? <;> cases h2 : vs.getLast?
    · exact .error _
    · rw [h1, h2] at hlast; cases hlast
    · rw [h1, h2] at hlast; cases hlast
    rename_i ul vl
    rw [h1, h2] at hlast
    have hul : IsoVel sem T ul vl := by cases hlast with | some h => exact h
    dsimp only
    split
    · exact .error _
    · have hk : IsoVel sem T (fun p k => f p k + kolmogorov wave c.drag (sem.vspace.mesh.coords p) (ul p) k)
          (fun p k => g p k + kolmogorov wave c.drag (sem.vspace.mesh.coords p) (vl p) k) := by
        intro k
        have h3 := (hf k).lin ((hwave k).lin (hul k) 1 (-c.drag)) 1 1
        have e : ∀ (f ul : Vel K 2) (k : Fin 2), (fun j => 1 * f j k + 1 * (1 * (if k = 0 then wave (sem.vspace.mesh.coords j 1) else 0) +
            -c.drag * ul j k)) = fun p => f p k + kolmogorov wave c.drag (sem.vspace.mesh.coords p) (ul p) k := by
          intro f ul k
          funext p
          unfold kolmogorov
          ring
        rwa [e, e] at h3
      have hf2 : IsoCovel sem T
          (fun p k => -cu p k + sem.B (fun p k => f p k + kolmogorov wave c.drag (sem.vspace.mesh.coords p) (ul p) k) p k)
          (fun p k => -cv p k + sem.B (fun p k => g p k + kolmogorov wave c.drag (sem.vspace.mesh.coords p) (vl p) k) p k) := by
        have := h.covel₂ hcu (h.B hk) (-1) 1
        simpa only [neg_mul, one_mul] using this
      have hstep := h.oneStep hus hps hf2 (1 / c.reynolds) c.dt c.timeOrder c.alpha 0 c.atol (Or.inl rfl)
      revert hstep
      generalize sem.oneStep low us ps _ (1 / c.reynolds) c.dt c.timeOrder c.alpha none none true 0 c.atol = x
      generalize sem.oneStep low vs qs _ (1 / c.reynolds) c.dt c.timeOrder c.alpha none none true 0 c.atol = y
      intro hstep
      cases hstep with
      | error e => exact .error e
      | ok hst => exact .ok ⟨hst.u, hst.p, h.C hst.u⟩

/-- Corresponding states of the scan. -/
structure IsoCarry (sem : StokesSEM K 2) (T : IsoMaps K 2) (s t : Carry K) : Prop where
  i : s.i = t.i
  us : List.Forall₂ (IsoVel sem T) s.us t.us
  ps : List.Forall₂ (IsoPres sem T) s.ps t.ps
  cus : List.Forall₂ (IsoCovel sem T) s.cus t.cus
  klQ0 : s.klQ0 = t.klQ0
  klPath : s.klPath = t.klPath

/-- Two closures whose nodal forces correspond to each other. -/
def IsoClosure (sem : StokesSEM K 2) (T : IsoMaps K 2) (c : SolverConfig K) (net net' : Closure K) : Prop :=
  ∀ i u v, IsoVel sem T u v →
    ExRel (fun r s => IsoVel sem T r.1 s.1 ∧ r.2 = s.2) (closureTerm c sem.vspace.mesh net i u) (closureTerm c sem.vspace.mesh net' i v)

theorem bodyFn_iso (h : IsoSem sem low T) {wave : K → K}
    (hwave : IsoVel sem T (fun j k => if k = 0 then wave (sem.vspace.mesh.coords j 1) else 0)
      (fun j k => if k = 0 then wave (sem.vspace.mesh.coords j 1) else 0))
    {c : SolverConfig K} {net net' : Closure K} (hnet : IsoClosure sem T c net net') {s t : Carry K} (hs : IsoCarry sem T s t) :
    ExRel (fun r r' => IsoCarry sem T r.1 r'.1 ∧ IsoVel sem T r.2 r'.2) (bodyFn low wave c sem net s) (bodyFn low wave c sem net' t) := by
  unfold bodyFn
  have hlast := getLast?_sym hs.us
  cases h1 : s.us.getLast? <;> cases h2 : t.us.getLast?
  · exact .error _
  · rw [h1, h2] at hlast; cases hlast
  · rw [h1, h2] at hlast; cases hlast
  rename_i ul vl
  rw [h1, h2] at hlast
  have hul : IsoVel sem T ul vl := by cases hlast with | some h => exact h
  dsimp only
  have hc := hnet s.i ul vl hul
  rw [← hs.i]
  revert hc
  generalize closureTerm c sem.vspace.mesh net s.i ul = x
  generalize closureTerm c sem.vspace.mesh net' s.i vl = y
  intro hc
  cases hc with
  | error e => exact .error e
  | ok hr =>
    rename_i a b
    obtain ⟨f, kl0, klp⟩ := a
    obtain ⟨g, kl0', klp'⟩ := b
    obtain ⟨hfg, hkl⟩ := hr
    simp only [Prod.mk.injEq] at hkl
    dsimp only
    have hsol := solveStep_iso h hwave c hs.us hs.ps hs.cus hfg
    revert hsol
    generalize solveStep low wave c sem s.us s.ps s.cus f = x
    generalize solveStep low wave c sem t.us t.ps t.cus g = y
    intro hsol
    cases hsol with
    | error e => exact .error e
    | ok hr =>
      rename_i a b
      obtain ⟨u, p, cu⟩ := a
      obtain ⟨v, q, cv⟩ := b
      refine .ok ⟨⟨rfl, ?_, ?_, ?_, ?_, ?_⟩, hr.u⟩
      · exact List.rel_append (List.forall₂_drop 1 hs.us) (.cons hr.u .nil)
      · exact List.rel_append (List.forall₂_drop 1 hs.ps) (.cons hr.p .nil)
      · exact List.rel_append (List.forall₂_drop 1 hs.cus) (.cons hr.cu .nil)
      · dsimp only; rw [hkl.1, hs.klQ0]
      · dsimp only; rw [hkl.2, hs.klPath]

theorem scanBody_iso (h : IsoSem sem low T) {wave : K → K}
    (hwave : IsoVel sem T (fun j k => if k = 0 then wave (sem.vspace.mesh.coords j 1) else 0)
      (fun j k => if k = 0 then wave (sem.vspace.mesh.coords j 1) else 0))
    {c : SolverConfig K} {net net' : Closure K} (hnet : IsoClosure sem T c net net') (n : ℕ) :
    ∀ {s t : Carry K}, IsoCarry sem T s t →
    ExRel (fun r r' => IsoCarry sem T r.1 r'.1 ∧ List.Forall₂ (IsoVel sem T) r.2 r'.2)
      (scanBody low wave c sem net n s) (scanBody low wave c sem net' n t) := by
  induction n with
  | zero => intro s t hs; exact .ok ⟨hs, .nil⟩
  | succ n ih =>
    intro s t hs
    unfold scanBody
    have hb := bodyFn_iso h hwave hnet hs
    revert hb
    generalize bodyFn low wave c sem net s = x
    generalize bodyFn low wave c sem net' t = y
    intro hb
    cases hb with
    | error e => exact .error e
    | ok hr =>
      rename_i a b
      obtain ⟨s', u⟩ := a
      obtain ⟨t', v⟩ := b
      dsimp only
      have hrec := ih hr.1
      revert hrec
      generalize scanBody low wave c sem net n s' = x
      generalize scanBody low wave c sem net' n t' = y
      intro hrec
      cases hrec with
      | error e => exact .error e
      | ok hr' => exact .ok ⟨hr'.1, .cons hr.2 hr'.2⟩

end Verif.Niles
