import Verif.Lemmas.StokesSym
import Verif.Model.Rollout

/-!
Steps and rollouts of the training code commute with symmetries of the mesh.
-/

namespace Verif.Niles

open Verif.Core Verif.NS Verif.NS.SemSym Finset

variable {K : Type*} [Field K] [LinearOrder K] [IsStrictOrderedRing K] {τ : ℕ → ℕ} {low : Nodes1D K} {sem : StokesSEM K 2}

theorem covelZero (h : SemSym sem low τ) : SymCovel sem τ 0 0 := by
  have := h.covelSub (h.massDiag) (h.massDiag)
  simpa using this

theorem covelSum (h : SemSym sem low τ) {ι : Type*} [DecidableEq ι] (s : Finset ι) (c : ι → K) (f g : ι → Vel K 2) (H : ∀ i ∈ s, SymCovel sem τ (f i) (g i)) :
    SymCovel sem τ (fun p k => ∑ i ∈ s, c i * f i p k) (fun p k => ∑ i ∈ s, c i * g i p k) := by
  induction s using Finset.induction_on with
  | empty => simp only [sum_empty]; exact covelZero h
  | insert i s hi ih =>
    have := h.covel₂ (H i (mem_insert_self i s)) (ih fun j hj => H j (mem_insert_of_mem hj)) (c i) 1
    simp only [one_mul] at this
    simp only [sum_insert hi]
    exact this

theorem extAdvection_sym (h : SemSym sem low τ) (k : ℕ) {cus cvs : List (Vel K 2)} (H : List.Forall₂ (SymCovel sem τ) cus cvs) :
    ExRel (SymCovel sem τ) (extAdvection k cus) (extAdvection k cvs) := by
  unfold extAdvection
  cases (extkCoeffs k : Option (Fin (k + 1) → K)) with
  | none => exact .error _
  | some c =>
    dsimp only
    rw [← H.length_eq]
    split
    · exact .error _
    · rename_i hlen
      refine .ok (covelSum h univ (fun i => c (Fin.rev i)) (fun i => cus.reverse.getD i 0) (fun i => cvs.reverse.getD i 0) fun i _ => ?_)
      have hr := List.rel_reverse H
      have h1 : (i : ℕ) < cus.reverse.length := by rw [List.length_reverse]; omega
      have h2 : (i : ℕ) < cvs.reverse.length := by rw [List.length_reverse, ← H.length_eq]; omega
      rw [List.getD_eq_getElem _ _ h1, List.getD_eq_getElem _ _ h2]
      exact hr.get h1 h2

/-- Corresponding results of a step of the training code. -/
structure SymResult (sem : StokesSEM K 2) (τ : ℕ → ℕ) (r s : Vel K 2 × (ℕ → K) × Vel K 2) : Prop where
  u : SymVel sem τ r.1 s.1
  p : SymField sem.pspace.mesh τ r.2.1 s.2.1
  cu : SymCovel sem τ r.2.2 s.2.2

theorem getLast?_sym {α β : Type*} {R : α → β → Prop} {l : List α} {l' : List β} (H : List.Forall₂ R l l') :
    Option.Rel R l.getLast? l'.getLast? := by
  have hr := List.rel_reverse H
  rw [← List.head?_reverse, ← List.head?_reverse]
  revert hr
  generalize l.reverse = x
  generalize l'.reverse = y
  intro hr
  cases hr with
  | nil => exact .none
  | cons h _ => exact .some h

theorem solveStep_sym (h : SemSym sem low τ) {wave : K → K}
    (hwave : SymField sem.vspace.mesh τ (fun j => wave (sem.vspace.mesh.coords j 1)) (fun j => wave (sem.vspace.mesh.coords j 1)))
    (c : SolverConfig K) {us vs : List (Vel K 2)} {ps qs : List (ℕ → K)} {cus cvs : List (Vel K 2)} {f g : Vel K 2}
    (hus : List.Forall₂ (SymVel sem τ) us vs) (hps : List.Forall₂ (SymField sem.pspace.mesh τ) ps qs)
    (hcus : List.Forall₂ (SymCovel sem τ) cus cvs) (hf : SymVel sem τ f g) :
    ExRel (SymResult sem τ) (solveStep low wave c sem us ps cus f) (solveStep low wave c sem vs qs cvs g) := by
  unfold solveStep
  have hext := extAdvection_sym h (c.timeOrder - 1) hcus
  revert hext
  generalize extAdvection (c.timeOrder - 1) cus = x
  generalize extAdvection (c.timeOrder - 1) cvs = y
  intro hext
  cases hext with
  | error e => exact .error e
  | ok hcu =>
    rename_i cu cv
    dsimp only
    have hlast := getLast?_sym hus
    cases h1 : us.getLast? <;> cases h2 : vs.getLast?
    · exact .error _
    · rw [h1, h2] at hlast; cases hlast
    · rw [h1, h2] at hlast; cases hlast
    rename_i ul vl
    rw [h1, h2] at hlast
    have hul : SymVel sem τ ul vl := by cases hlast with | some h => exact h
    dsimp only
    split
    · exact .error _
    · have hk : SymVel sem τ (fun p k => f p k + kolmogorov wave c.drag (sem.vspace.mesh.coords p) (ul p) k)
          (fun p k => g p k + kolmogorov wave c.drag (sem.vspace.mesh.coords p) (vl p) k) := by
        intro k
        have h3 := (hwave.map₂ (hul k) fun x y => (if k = 0 then x else 0) - c.drag * y)
        exact (hf k).map₂ h3 fun x y => x + y
      have hf2 : SymCovel sem τ
          (fun p k => -cu p k + sem.B (fun p k => f p k + kolmogorov wave c.drag (sem.vspace.mesh.coords p) (ul p) k) p k)
          (fun p k => -cv p k + sem.B (fun p k => g p k + kolmogorov wave c.drag (sem.vspace.mesh.coords p) (vl p) k) p k) := by
        have := h.covel₂ hcu (h.B hk) (-1) 1
        simpa only [neg_mul, one_mul] using this
      have hstep := h.oneStep hus hps hf2 (1 / c.reynolds) c.dt c.timeOrder c.alpha 0 c.atol (Or.inl rfl)
      revert hstep
      generalize sem.oneStep low us ps _ (1 / c.reynolds) c.dt c.timeOrder c.alpha none none true 0 c.atol = x
      generalize sem.oneStep low vs qs _ (1 / c.reynolds) c.dt c.timeOrder c.alpha none none true 0 c.atol = y
      intro hstep
      cases hstep with
      | error e => exact .error e
      | ok hst => exact .ok ⟨hst.u, hst.p, h.C hst.u⟩

/-- Corresponding states of the scan. -/
structure SymCarry (sem : StokesSEM K 2) (τ : ℕ → ℕ) (s t : Carry K) : Prop where
  i : s.i = t.i
  us : List.Forall₂ (SymVel sem τ) s.us t.us
  ps : List.Forall₂ (SymField sem.pspace.mesh τ) s.ps t.ps
  cus : List.Forall₂ (SymCovel sem τ) s.cus t.cus
  klQ0 : s.klQ0 = t.klQ0
  klPath : s.klPath = t.klPath

/-- Two closures whose nodal forces correspond to each other. -/
def SymClosure (sem : StokesSEM K 2) (τ : ℕ → ℕ) (c : SolverConfig K) (net net' : Closure K) : Prop :=
  ∀ i u v, SymVel sem τ u v →
    ExRel (fun r s => SymVel sem τ r.1 s.1 ∧ r.2 = s.2) (closureTerm c sem.vspace.mesh net i u) (closureTerm c sem.vspace.mesh net' i v)

theorem bodyFn_sym (h : SemSym sem low τ) {wave : K → K}
    (hwave : SymField sem.vspace.mesh τ (fun j => wave (sem.vspace.mesh.coords j 1)) (fun j => wave (sem.vspace.mesh.coords j 1)))
    {c : SolverConfig K} {net net' : Closure K} (hnet : SymClosure sem τ c net net') {s t : Carry K} (hs : SymCarry sem τ s t) :
    ExRel (fun r r' => SymCarry sem τ r.1 r'.1 ∧ SymVel sem τ r.2 r'.2) (bodyFn low wave c sem net s) (bodyFn low wave c sem net' t) := by
  unfold bodyFn
  have hlast := getLast?_sym hs.us
  cases h1 : s.us.getLast? <;> cases h2 : t.us.getLast?
  · exact .error _
  · rw [h1, h2] at hlast; cases hlast
  · rw [h1, h2] at hlast; cases hlast
  rename_i ul vl
  rw [h1, h2] at hlast
  have hul : SymVel sem τ ul vl := by cases hlast with | some h => exact h
  dsimp only
  have hc := hnet s.i ul vl hul
  rw [← hs.i]
  revert hc
  generalize closureTerm c sem.vspace.mesh net s.i ul = x
  generalize closureTerm c sem.vspace.mesh net' s.i vl = y
  intro hc
  cases hc with
  | error e => exact .error e
  | ok hr =>
    rename_i a b
    obtain ⟨f, kl0, klp⟩ := a
    obtain ⟨g, kl0', klp'⟩ := b
    obtain ⟨hfg, hkl⟩ := hr
    simp only [Prod.mk.injEq] at hkl
    dsimp only
    have hsol := solveStep_sym h hwave c hs.us hs.ps hs.cus hfg
    revert hsol
    generalize solveStep low wave c sem s.us s.ps s.cus f = x
    generalize solveStep low wave c sem t.us t.ps t.cus g = y
    intro hsol
    cases hsol with
    | error e => exact .error e
    | ok hr =>
      rename_i a b
      obtain ⟨u, p, cu⟩ := a
      obtain ⟨v, q, cv⟩ := b
      refine .ok ⟨⟨rfl, ?_, ?_, ?_, ?_, ?_⟩, hr.u⟩
      · exact List.rel_append (List.forall₂_drop 1 hs.us) (.cons hr.u .nil)
      · exact List.rel_append (List.forall₂_drop 1 hs.ps) (.cons hr.p .nil)
      · exact List.rel_append (List.forall₂_drop 1 hs.cus) (.cons hr.cu .nil)
      · dsimp only; rw [hkl.1, hs.klQ0]
      · dsimp only; rw [hkl.2, hs.klPath]

theorem scanBody_sym (h : SemSym sem low τ) {wave : K → K}
    (hwave : SymField sem.vspace.mesh τ (fun j => wave (sem.vspace.mesh.coords j 1)) (fun j => wave (sem.vspace.mesh.coords j 1)))
    {c : SolverConfig K} {net net' : Closure K} (hnet : SymClosure sem τ c net net') (n : ℕ) :
    ∀ {s t : Carry K}, SymCarry sem τ s t →
    ExRel (fun r r' => SymCarry sem τ r.1 r'.1 ∧ List.Forall₂ (SymVel sem τ) r.2 r'.2)
      (scanBody low wave c sem net n s) (scanBody low wave c sem net' n t) := by
  induction n with
  | zero => intro s t hs; exact .ok ⟨hs, .nil⟩
  | succ n ih =>
    intro s t hs
    unfold scanBody
    have hb := bodyFn_sym h hwave hnet hs
    revert hb
    generalize bodyFn low wave c sem net s = x
    generalize bodyFn low wave c sem net' t = y
    intro hb
    cases hb with
    | error e => exact .error e
    | ok hr =>
      rename_i a b
      obtain ⟨s', u⟩ := a
      obtain ⟨t', v⟩ := b
      dsimp only
      have hrec := ih hr.1
      revert hrec
      generalize scanBody low wave c sem net n s' = x
      generalize scanBody low wave c sem net' n t' = y
      intro hrec
      cases hrec with
      | error e => exact .error e
      | ok hr' => exact .ok ⟨hr'.1, .cons hr.2 hr'.2⟩

end Verif.Niles
