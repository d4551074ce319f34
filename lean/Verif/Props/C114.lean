import Verif.Props.C113
import Verif.Props.C104Violated
import Verif.Lemmas.StokesTime

/-!
# C114: the data generator and the training code integrate the same equations

With equal parameters a cycle of the generator and a rollout without closure are the same computation. The parameters of the
code are not equal: the generator uses the drag 0.1 (datagen.py 54), the configuration of the training 0.04
(config/niles.py), so that one step from the same history gives different velocities.
-/

set_option linter.unusedSectionVars false

namespace Verif.NS

open Verif.Core Verif.Linalg Verif.Spec

variable {d : ℕ} {sem : StokesSEM ℝ d} {vmesh pmesh : Mesh ℝ d} {quad overQuad : Quadrature1D ℝ} {masks : List (String × (ℕ → Bool))}
  {bcs : List (String × BCType)} {low : Nodes1D ℝ} {mu dt ε : ℝ} {timeOrder : ℕ} {us : List (Vel ℝ d)} {ps : List (ℕ → ℝ)} {f f' w : Vel ℝ d}

/-- What one exact step says about the tentative velocity. -/
theorem step_residual (S : StepSetup vmesh pmesh quad overQuad masks bcs sem low 0 true) (hf : f ∈ VSpace sem) (hmu : 0 ≤ mu) (hdt : 0 < dt)
    (htime : 1 ≤ timeOrder) {st : StokesSEM.Step ℝ d} (hst : sem.oneStep low us ps f mu dt timeOrder 0 none none true 0 0 = .ok st)
    {b : Fin (timeOrder + 1) → ℝ} (hb : bdfkCoeffs timeOrder = some b) {c : Fin 2 → ℝ} (hc : extkCoeffs 1 = some c) {pExt : ℕ → ℝ}
    (hp : StokesSEM.extrapolate c ps = some pExt) :
    st.uStar ∈ TSpace sem ∧ (∃ dp, st.u = st.uStar + sem.Q dt (b (Fin.last timeOrder)) (sem.Dt dp)) ∧
      ∀ x ∈ TSpace sem, sem.vDot x (stepRhs sem us pExt f mu dt timeOrder b none - sem.H mu dt (b (Fin.last timeOrder)) st.uStar) = 0 := by
  have H := S.setup
  have hv := H.valid
  obtain ⟨_, _, hvm, _, _, _, _⟩ := H.fields
  obtain ⟨c', pExt', b', us0, dp, hc', hp', hb', _, hcg, hfil, hcg2, hu, hpst⟩ := oneStep_ok hst
  rw [hb, Option.some.injEq] at hb'
  subst hb'
  rw [hc, Option.some.injEq] at hc'
  subst hc'
  rw [hp, Option.some.injEq] at hp'
  subst hp'
  have hbeta := (C37_leading timeOrder b hb).2
  obtain ⟨us0', res, n, hcg', hmem, _, hres, hle⟩ := velocity_solve hv H.massOutside H.massPos' H.stiff mu dt
    (b (Fin.last timeOrder)) hmu hdt hbeta _ (stepRhs_mem (us := us) (mu := mu) (dt := dt) H.massOutside hf pExt b none) 0 0
  rw [hcg, Option.some.injEq, Prod.mk.injEq, Prod.mk.injEq] at hcg'
  obtain ⟨rfl, rfl, rfl⟩ := hcg'
  rw [lift, filter_zero (by rw [hvm]; exact S.filter), Option.some.injEq] at hfil
  subst hfil
  rw [hres] at hle
  have hzero := exchange_form_zero (sem := sem) (hle.trans_eq (by simp))
  exact ⟨hmem, ⟨dp, hu⟩, fun x hx => vDot_exchange_zero hx hzero⟩

/-- Two exact steps whose forces differ by a multiple of the mass times a discretely divergence free velocity have different
velocities. -/
theorem same_velocity (S : StepSetup vmesh pmesh quad overQuad masks bcs sem low 0 true) (hf : f ∈ VSpace sem) (hf' : f' ∈ VSpace sem)
    (hmu : 0 ≤ mu) (hdt : 0 < dt) (htime : 1 ≤ timeOrder) {st st' : StokesSEM.Step ℝ d}
    (hst : sem.oneStep low us ps f mu dt timeOrder 0 none none true 0 0 = .ok st)
    (hst' : sem.oneStep low us ps f' mu dt timeOrder 0 none none true 0 0 = .ok st') (hw : w ∈ TSpace sem) (hwD : sem.D w = 0)
    (hff : f = f' + ε • sem.B w) (hε : ε ≠ 0) (hu : st.u = st'.u) : w = 0 := by
  have H := S.setup
  have hv := H.valid
  obtain ⟨c, pExt, b, _, _, hc, hp, hb, _⟩ := oneStep_ok hst
  have hbeta := (C37_leading timeOrder b hb).2
  obtain ⟨h1, ⟨dp, h2⟩, h3⟩ := step_residual S hf hmu hdt htime hst hb hc hp
  obtain ⟨h1', ⟨dp', h2'⟩, h3'⟩ := step_residual S hf' hmu hdt htime hst' hb hc hp
  obtain ⟨y, hy⟩ : ∃ y, y = st.uStar - st'.uStar := ⟨_, rfl⟩
  have hyT : y ∈ TSpace sem := by rw [hy]; exact (TSpace sem).sub_mem h1 h1'
  have hHy : sem.H mu dt (b (Fin.last timeOrder)) y = sem.H mu dt (b (Fin.last timeOrder)) st.uStar - sem.H mu dt (b (Fin.last timeOrder)) st'.uStar := by
    rw [hy, ← HLin_apply sem hv.vwf, ← HLin_apply sem hv.vwf, ← HLin_apply sem hv.vwf, map_sub]
  -- the difference of the two equations
  have key : ∀ x ∈ TSpace sem, sem.vDot x (sem.H mu dt (b (Fin.last timeOrder)) y) = ε * sem.vDot x (sem.B w) := by
    intro x hx
    have e1 := h3 x hx
    have e2 := h3' x hx
    have hs : ∀ a c : Vel ℝ d, sem.vDot x (a - c) = sem.vDot x a - sem.vDot x c := fun a c => by
      simp [StokesSEM.vDot, mul_sub, Finset.sum_sub_distrib]
    have e3 : stepRhs sem us pExt f mu dt timeOrder b none = stepRhs sem us pExt f' mu dt timeOrder b none + ε • sem.B w := by
      unfold stepRhs
      rw [hff]
      funext p k
      simp only [Pi.add_apply, Pi.sub_apply, Pi.smul_apply]
      ring
    have ha : ∀ a c : Vel ℝ d, sem.vDot x (a + ε • c) = sem.vDot x a + ε * sem.vDot x c := fun a c => by
      simp [StokesSEM.vDot, mul_add, Finset.sum_add_distrib, Finset.mul_sum]
      refine Finset.sum_congr rfl fun _ _ => Finset.sum_congr rfl fun _ _ => by ring
    rw [hs, e3, ha] at e1
    rw [hs] at e2
    rw [hHy, hs]
    linarith
  have hyQ : y = sem.Q dt (b (Fin.last timeOrder)) (sem.Dt (dp' - dp)) := by
    have e1 : sem.Dt (dp' - dp) = sem.Dt dp' - sem.Dt dp := map_sub (DtLin sem hv.pwf) dp' dp
    have e2 : sem.Q dt (b (Fin.last timeOrder)) (sem.Dt dp' - sem.Dt dp) = sem.Q dt (b (Fin.last timeOrder)) (sem.Dt dp') -
      sem.Q dt (b (Fin.last timeOrder)) (sem.Dt dp) := map_sub (QLin sem dt (b (Fin.last timeOrder))) _ _
    rw [e1, e2, hy]
    rw [h2, h2'] at hu
    rw [sub_eq_sub_iff_add_eq_add, hu, add_comm]
  have hwM := VSpace_masked hw.1
  have hyM := VSpace_masked hyT.1
  have hBw : sem.vDot y (sem.B w) = 0 := by
    have e1 : sem.vDot y (sem.B w) = sem.vDot w (sem.B y) := by
      rw [B_dot hv hyM, B_dot hv hwM]
      exact Finset.sum_congr rfl fun _ _ => Finset.sum_congr rfl fun _ _ => by ring
    have hQ := BQ_dot hv hdt.ne' hbeta.ne' hw (sem.Dt (dp' - dp))
    rw [← hyQ, ← B_dot hv hwM, ← D_Dt_adjoint hv w hwM, hwD] at hQ
    have hz : nodeDot sem.numP (dp' - dp) (0 : ℕ → ℝ) = 0 := by simp [nodeDot]
    rw [hz] at hQ
    rw [e1]
    exact (mul_eq_zero.mp hQ).resolve_left (div_pos hbeta hdt).ne'
  have hy0 : y = 0 := by
    have e1 := key y hyT
    rw [hBw, mul_zero, H_dot hv hyM, ← B_dot hv hyM] at e1
    have e2 := H.stiff (vGather sem.vspace.mesh y)
    have e3 : 0 ≤ mu * vStiffForm sem.vspace (vGather sem.vspace.mesh y) (vGather sem.vspace.mesh y) := mul_nonneg hmu e2
    have e4 : 0 ≤ sem.vDot y (sem.B y) := by
      rw [← massCoord_inner H.massPos' hyT.1 H.mask01]
      exact real_inner_self_nonneg
    have e5 := mul_nonneg (div_pos hbeta hdt).le e4
    have e6 : b (Fin.last timeOrder) / dt * sem.vDot y (sem.B y) = 0 := by linarith
    exact eq_zero_of_mass H hyT ((mul_eq_zero.mp e6).resolve_left (div_pos hbeta hdt).ne')
  have hw0 := key w hw
  have hH0 : sem.H mu dt (b (Fin.last timeOrder)) (0 : Vel ℝ d) = 0 := by rw [← HLin_apply sem hv.vwf, map_zero]
  rw [hy0, hH0] at hw0
  have e5 : sem.vDot w (0 : Vel ℝ d) = 0 := by simp [StokesSEM.vDot]
  rw [e5] at hw0
  have e6 := (mul_eq_zero.mp hw0.symm).resolve_left hε
  exact eq_zero_of_mass H hw e6

end Verif.NS

namespace Verif.Niles

open Verif.Core Verif.NS Verif.Spec

variable {sem : StokesSEM ℝ 2} {low : Nodes1D ℝ} {g : GenConsts} {c : SolverConfig ℝ}

/-- The forcing of both programs, as a function of the second coordinate. -/
noncomputable def kolWave (y : ℝ) : ℝ := Real.sin (2 * Real.pi * 4 * y)

/-- The constants of the generator are those of the training configuration. -/
structure SameConsts (g : GenConsts) (c : SolverConfig ℝ) : Prop where
  timeOrder : g.timeOrder = c.timeOrder
  reynolds : g.reynolds = c.reynolds
  dt : g.dt = c.dt
  drag : g.drag = c.drag
  alpha : g.alpha = c.alpha
  tol : g.tol = 0
  atol : g.atol = c.atol

/-- With the same constants, the step of the generator is the step of the training code without closure. -/
theorem genStep_eq (h : SameConsts g c) (hRe : c.reynolds ≠ 0) (us : List (Vel ℝ 2)) (ps : List (ℕ → ℝ)) (cus : List (Vel ℝ 2)) :
    genStep g low sem us ps cus = (solveStep low kolWave c sem us ps cus 0).mapError GenError.solver := by
  have hf : ∀ ul : Vel ℝ 2, (fun p k => genForcing g.drag (sem.vspace.mesh.coords p) (ul p) k) =
      fun p k => (0 : Vel ℝ 2) p k + kolmogorov kolWave c.drag (sem.vspace.mesh.coords p) (ul p) k := by
    intro ul
    funext p k
    rw [h.drag]
    fin_cases k <;> simp [genForcing, kolmogorov, kolWave]
  unfold genStep solveStep
  rw [h.timeOrder]
  cases extAdvection (c.timeOrder - 1) cus with
  | error e => rfl
  | ok cu =>
    cases us.getLast? with
    | none => rfl
    | some ul =>
      dsimp only
      rw [if_neg hRe, hf, h.reynolds, h.dt, h.alpha, h.tol, h.atol]
      cases sem.oneStep low us ps _ (1 / c.reynolds) c.dt c.timeOrder c.alpha none none true 0 c.atol with
      | error e => rfl
      | ok st => rfl

/-- Every tenth of the entries that are numbered from `i`. -/
def everyTenth {α : Type*} (i : ℕ) : List α → List α
  | [] => []
  | x :: xs => if i % 10 = 0 then x :: everyTenth (i + 1) xs else everyTenth (i + 1) xs

theorem everyTenth_append {α : Type*} : ∀ (xs ys : List α) (i : ℕ), everyTenth i (xs ++ ys) = everyTenth i xs ++ everyTenth (i + xs.length) ys
  | [], ys, i => by simp [everyTenth]
  | x :: xs, ys, i => by
    simp only [List.cons_append, everyTenth, List.length_cons]
    rw [everyTenth_append xs ys (i + 1), show i + 1 + xs.length = i + (xs.length + 1) by omega]
    split_ifs <;> rfl

theorem everyTenth_eq {α : Type*} (a : α) (xs : List α) :
    everyTenth 1 xs = (List.range (xs.length / 10)).map fun i => xs.getD (10 * i + 9) a := by
  induction xs using List.reverseRecOn with
  | nil => simp [everyTenth]
  | append_singleton xs x ih =>
    have hold : ∀ i ∈ List.range (xs.length / 10), xs.getD (10 * i + 9) a = (xs ++ [x]).getD (10 * i + 9) a := by
      intro i hi
      have := List.mem_range.mp hi
      simp only [List.getD_eq_getElem?_getD]
      rw [List.getElem?_append_left (by omega)]
    rw [everyTenth_append, ih, List.length_append, List.length_singleton, List.map_congr_left hold]
    simp only [everyTenth]
    by_cases h : (1 + xs.length) % 10 = 0
    · rw [if_pos h, show (xs.length + 1) / 10 = xs.length / 10 + 1 by omega, List.range_succ, List.map_append]
      have e : 10 * (xs.length / 10) + 9 = xs.length := by omega
      simp [e]
    · rw [if_neg h, show (xs.length + 1) / 10 = xs.length / 10 by omega, List.append_nil]

theorem takeIdx_mem {α : Type*} {x y : List α} : ∀ {idx : List ℕ}, takeIdx x idx = some y → ∀ t ∈ y, t ∈ x := by
  intro idx h t ht
  unfold takeIdx at h
  induction idx generalizing y with
  | nil =>
    simp only [List.mapM_nil, Option.pure_def, Option.some.injEq] at h
    subst h
    cases ht
  | cons i idx ih =>
    simp only [List.mapM_cons, Option.bind_eq_bind, Option.bind_eq_some_iff, Option.pure_def, Option.some.injEq] at h
    obtain ⟨a, ha, z, hz, rfl⟩ := h
    rcases List.mem_cons.mp ht with rfl | ht
    · exact List.mem_of_getElem? ha
    · exact ih hz ht

theorem permuteIf_mem {b : Bool} {idx : List ℕ} {ts ts' : List (List ℝ)} (h : permuteIf b idx ts = .ok ts') : ∀ t ∈ ts', t ∈ ts := by
  unfold permuteIf at h
  split at h
  · split at h
    · rename_i y hy
      rw [Except.ok.injEq] at h
      subst h
      exact takeIdx_mem hy
    · cases h
  · rw [Except.ok.injEq] at h
    subst h
    exact fun t => id

/-- The closure that returns zero tokens adds no force, with the permutation of the elements or without it. -/
theorem zeroNet_zero {mesh : Mesh ℝ 2} (hc : SizesMatch c mesh) (i : ℕ) (v : Vel ℝ 2) : closureTerm c mesh zeroNet i v = .ok (0, 0, 0) := by
  obtain ⟨⟨f, r⟩, hr⟩ := closureTerm_ok hc zeroNet_shape i v
  obtain rfl := zeroNet_kl hr
  rw [hr]
  suffices f = 0 by rw [this]
  unfold closureTerm at hr
  split at hr
  · cases hr
  · rename_i inputs _
    split at hr
    · cases hr
    · dsimp only at hr
      split at hr
      · cases hr
      · rename_i ts hts
        unfold untokens at hr
        split at hr
        · cases hr
        · rename_i fl hfl
          split at hfl
          · simp only [Except.ok.injEq] at hfl
            simp only [Except.ok.injEq, Prod.mk.injEq] at hr
            rw [← hr.1]
            have hz : fl = fun _ _ _ => 0 := by
              rw [← hfl]
              funext m n k
              have hall : ∀ x ∈ ts.getD m [], x = 0 := by
                intro x hx
                by_cases hm : m < ts.length
                · rw [List.getD_eq_getElem _ _ hm] at hx
                  obtain ⟨t', _, ht⟩ := List.mem_map.mp (permuteIf_mem hts _ (List.getElem_mem hm))
                  rw [← ht] at hx
                  obtain ⟨_, _, rfl⟩ := List.mem_map.mp hx
                  rfl
                · rw [List.getD_eq_default _ _ (by omega)] at hx
                  cases hx
              by_cases hn : n * 2 + (k : ℕ) < (ts.getD m []).length
              · rw [List.getD_eq_getElem _ _ hn]
                exact hall _ (List.getElem_mem hn)
              · rw [List.getD_eq_default _ _ (by omega)]
            rw [hz]
            funext j k
            have := congrFun (congrFun (vScatter_smul mesh 0 (fun _ _ _ => (0 : ℝ))) j) k
            rw [zero_smul, zero_smul] at this
            exact this
          · cases hfl

theorem bodyFn_zeroNet (hsize : SizesMatch c sem.vspace.mesh) (wave : ℝ → ℝ) (i : ℕ) (us : List (Vel ℝ 2))
    (ps : List (ℕ → ℝ)) (cus : List (Vel ℝ 2)) (kl kl' : ℝ) :
    bodyFn low wave c sem zeroNet ⟨i, us, ps, cus, kl, kl'⟩ = match us.getLast? with
      | none => .error "IndexError"
      | some _ => (solveStep low wave c sem us ps cus 0).map fun r =>
        (⟨i + 1, us.drop 1 ++ [r.1], ps.drop 1 ++ [r.2.1], cus.drop 1 ++ [r.2.2], kl, kl'⟩, r.1) := by
  unfold bodyFn
  cases hl : us.getLast? with
  | none => rfl
  | some ul =>
    simp only [zeroNet_zero hsize i ul, zero_add]
    cases solveStep low wave c sem us ps cus 0 with
    | error e => rfl
    | ok r => rfl

/-- The loop of the generator and the scan of the training code. -/
theorem cycleLoop_scan (h : SameConsts g c) (hRe : c.reynolds ≠ 0) (hsize : SizesMatch c sem.vspace.mesh) :
    ∀ (n stepIdx i : ℕ) (v : GenVars ℝ (Vel ℝ 2) (ℕ → ℝ) (Vel ℝ 2)), v.us ≠ [] →
      match cycleLoop g.dt (genStep g low sem) n stepIdx v, scanBody low kolWave c sem zeroNet n ⟨i, v.us, v.ps, v.cus, 0, 0⟩ with
      | .error e, .error e' => e = .solver e'
      | .ok w, .ok (t, preds) => w.us = t.us ∧ w.ps = t.ps ∧ w.du = v.du ++ everyTenth stepIdx preds ∧ preds.length = n ∧ t.klQ0 = 0 ∧ t.klPath = 0
      | _, _ => False
  | 0, stepIdx, i, v, _ => by simp [cycleLoop, scanBody, everyTenth]
  | n + 1, stepIdx, i, v, hv => by
    obtain ⟨ul, hul⟩ : ∃ ul, v.us.getLast? = some ul := ⟨_, List.getLast?_eq_some_getLast hv⟩
    have hb := bodyFn_zeroNet (low := low) hsize kolWave i v.us v.ps v.cus 0 0
    rw [hul] at hb
    dsimp only at hb
    have hg := genStep_eq (low := low) (sem := sem) h hRe v.us v.ps v.cus
    unfold cycleLoop scanBody cycleBody
    rw [hb, hg]
    cases solveStep low kolWave c sem v.us v.ps v.cus 0 with
    | error e => rfl
    | ok r =>
      obtain ⟨u, p, cu⟩ := r
      simp only [Except.mapError, Except.map]
      obtain ⟨v', hv', hus', hps', hcus', hdu'⟩ : ∃ v' : GenVars ℝ (Vel ℝ 2) (ℕ → ℝ) (Vel ℝ 2),
          (if stepIdx % 10 = 0 then (.ok ⟨v.t + g.dt, v.us.drop 1 ++ [u], v.ps.drop 1 ++ [p], v.cus.drop 1 ++ [cu], v.dt ++ [v.t + g.dt], v.du ++ [u], v.dp ++ [p]⟩ : Except GenError _)
            else .ok ⟨v.t + g.dt, v.us.drop 1 ++ [u], v.ps.drop 1 ++ [p], v.cus.drop 1 ++ [cu], v.dt, v.du, v.dp⟩) = .ok v' ∧
          v'.us = v.us.drop 1 ++ [u] ∧ v'.ps = v.ps.drop 1 ++ [p] ∧ v'.cus = v.cus.drop 1 ++ [cu] ∧ v'.du = v.du ++ if stepIdx % 10 = 0 then [u] else [] := by
        by_cases hz : stepIdx % 10 = 0
        · simp only [hz, if_true]
          exact ⟨_, rfl, rfl, rfl, rfl, rfl⟩
        · simp only [hz, if_false]
          exact ⟨_, rfl, rfl, rfl, rfl, by simp⟩
      rw [hv']
      have ih := cycleLoop_scan h hRe hsize n (stepIdx + 1) (i + 1) v' (by rw [hus']; simp)
      rw [hus', hps', hcus'] at ih
      dsimp only
      revert ih
      cases cycleLoop g.dt (genStep g low sem) n (stepIdx + 1) v' with
      | error e =>
        cases scanBody low kolWave c sem zeroNet n _ with
        | error e' => exact id
        | ok t => exact False.elim
      | ok w =>
        cases scanBody low kolWave c sem zeroNet n _ with
        | error e' => exact False.elim
        | ok t =>
          obtain ⟨t, preds⟩ := t
          rintro ⟨h1, h2, h3, h4, h5⟩
          refine ⟨h1, h2, ?_, by simp [h4], h5⟩
          rw [h3, hdu', everyTenth, List.append_assoc]
          split_ifs <;> rfl

/-- **C114 (partial).** When the constants agree, a cycle of the generator is a rollout of the training code without closure: it
fails when the rollout fails, and otherwise the histories after both are the same and the velocities of the file are the last one
before the cycle and every tenth prediction. Missing: the constants of the code do not agree (`C114_violated`). -/
theorem C114_partial (h : SameConsts g c) (hRe : c.reynolds ≠ 0) (hsize : SizesMatch c sem.vspace.mesh)
    (start n : ℕ) {us : List (Vel ℝ 2)} (hus : us ≠ []) (ps : List (ℕ → ℝ)) (dir : List (GenFile ℝ (Vel ℝ 2) (ℕ → ℝ))) :
    (∃ e, scanBody low kolWave c sem zeroNet n ⟨0, us, ps, us.map sem.C, 0, 0⟩ = .error e ∧
      oneCycle g.dt sem.C (genStep g low sem) start n us ps dir = (dir, .error (.solver e))) ∨
    ∃ t preds file, scanBody low kolWave c sem zeroNet n ⟨0, us, ps, us.map sem.C, 0, 0⟩ = .ok (t, preds) ∧
      oneCycle g.dt sem.C (genStep g low sem) start n us ps dir = (dir ++ [file], .ok (t.us, t.ps)) ∧ preds.length = n ∧
      file.u = us.getLast hus :: (List.range (n / 10)).map fun i => preds.getD (10 * i + 9) 0 := by
  have key := cycleLoop_scan (low := low) h hRe hsize n 1 0
    ⟨(start : ℝ) * g.dt, us, ps, us.map sem.C, [(start : ℝ) * g.dt], lastSlice us, lastSlice ps⟩ hus
  unfold oneCycle
  revert key
  dsimp only
  cases cycleLoop g.dt (genStep g low sem) n 1 _ with
  | error e =>
    cases scanBody low kolWave c sem zeroNet n _ with
    | error e' => rintro rfl; exact Or.inl ⟨e', rfl, rfl⟩
    | ok t => exact False.elim
  | ok w =>
    cases scanBody low kolWave c sem zeroNet n _ with
    | error e' => exact False.elim
    | ok t =>
      obtain ⟨t, preds⟩ := t
      rintro ⟨h1, h2, h3, h4, _⟩
      refine Or.inr ⟨t, preds, _, rfl, by rw [← h1, ← h2], h4, ?_⟩
      dsimp only
      rw [h3, everyTenth_eq 0, h4]
      have : lastSlice us = [us.getLast hus] := by
        unfold lastSlice
        exact List.drop_length_sub_one hus
      rw [this]
      rfl

variable {vmesh pmesh : Mesh ℝ 2} {quad overQuad : Quadrature1D ℝ} {masks : List (String × (ℕ → Bool))} {bcs : List (String × BCType)}

theorem extAdvection_mem (H : StokesSetup vmesh pmesh quad overQuad masks bcs sem) {k : ℕ} {us : List (Vel ℝ 2)} {cu : Vel ℝ 2}
    (h : extAdvection k (us.map sem.C) = .ok cu) : cu ∈ VSpace sem := by
  have hC : ∀ w, sem.C w ∈ VSpace sem := fun w => by
    obtain ⟨_, _, hvm, _⟩ := H.fields
    refine (H.mem_VSpace _).mpr ⟨fun j hD => (C71_weak H w).2 j hD, fun j hj => ?_⟩
    funext x
    unfold StokesSEM.C StokesSEM.masked
    rw [vScatter_outside _ _ _ (by rw [hvm]; exact hj), mul_zero]
    rfl
  unfold extAdvection at h
  split at h
  · cases h
  · rename_i e he
    split at h
    · cases h
    · rename_i hlen
      rw [Except.ok.injEq] at h
      have hsum : cu = ∑ i : Fin (k + 1), e (Fin.rev i) • (us.map sem.C).reverse.getD i 0 := by
        rw [← h]
        funext p j
        simp [Finset.sum_apply]
      rw [hsum]
      refine Submodule.sum_mem _ fun i _ => Submodule.smul_mem _ _ ?_
      have h1 : (i : ℕ) < (us.map sem.C).reverse.length := by
        rw [List.length_reverse]; omega
      rw [List.getD_eq_getElem _ _ h1]
      obtain ⟨w, _, hw⟩ := List.mem_map.mp (List.mem_reverse.mp (List.getElem_mem h1))
      rw [← hw]
      exact hC w

theorem B_mem (H : StokesSetup vmesh pmesh quad overQuad masks bcs sem) (w : Vel ℝ 2) : sem.B w ∈ VSpace sem := by
  obtain ⟨_, _, hvm, _, hmask, _, _⟩ := H.fields
  refine (H.mem_VSpace _).mpr ⟨fun j hD => ?_, fun j hj => ?_⟩
  · funext k
    simp [StokesSEM.B, (hmask j).1 hD]
  · funext k
    have := H.massOutside j (by unfold StokesSEM.numV; rw [hvm]; exact hj) k
    simp [StokesSEM.B, this]

/-- Two steps of the training code that differ in the drag. -/
theorem drag_matters (S : StepSetup vmesh pmesh quad overQuad masks bcs sem low 0 true) {wave : ℝ → ℝ} {drag : ℝ} (hne : drag ≠ c.drag)
    (halpha : c.alpha = 0) (hatol : c.atol = 0) (hRe : 0 < c.reynolds) (hdt : 0 < c.dt) (htime : 2 ≤ c.timeOrder) {us : List (Vel ℝ 2)}
    {ps : List (ℕ → ℝ)} (hul : us.length = c.timeOrder) (hpl : 2 ≤ ps.length) {ul : Vel ℝ 2} (hlast : us.getLast? = some ul)
    (hb : HasBoundary vmesh masks bcs none ul) (hdiv : ∀ j, sem.D ul j = 0) (h0 : ul ≠ 0) :
    ∃ u p u' p', solveStep low wave {c with drag := drag} sem us ps (us.map sem.C) 0 = .ok (u, p, sem.C u) ∧
      solveStep low wave c sem us ps (us.map sem.C) 0 = .ok (u', p', sem.C u') ∧ u ≠ u' := by
  have H := S.setup
  obtain ⟨k, hk⟩ : ∃ k, c.timeOrder = k + 1 := ⟨c.timeOrder - 1, by omega⟩
  obtain ⟨e, he, _⟩ := extk_exists (K := ℝ) k (by omega)
  obtain ⟨β, hβ, _⟩ := bdfk_exists (K := ℝ) (k + 1) (by omega)
  have hofn := ofFn_window us _ (hul.trans hk)
  have hcus : us.map sem.C = List.ofFn (fun i : Fin (k + 1) => sem.C (us.getD i 0)) := by
    conv_lhs => rw [hofn]
    rw [List.map_ofFn]
    rfl
  obtain ⟨u, q, _, hso, _⟩ := C72_step S wave {c with drag := drag} k hk (by omega) hRe hdt halpha hatol (fun i => us.getD i 0) ps hpl 0 β e hβ he
  obtain ⟨u', q', _, hso', _⟩ := C72_step S wave c k hk (by omega) hRe hdt halpha hatol (fun i => us.getD i 0) ps hpl 0 β e hβ he
  rw [← hofn, ← hcus] at hso hso'
  refine ⟨u, q, u', q', hso, hso', fun huu => h0 ?_⟩
  have hmem := fun cu => extAdvection_mem (cu := cu) (k := c.timeOrder - 1) (us := us) H
  unfold solveStep at hso hso'
  dsimp only at hso
  generalize extAdvection (c.timeOrder - 1) (us.map sem.C) = X at hso hso' hmem
  cases X with
  | error e => cases hso
  | ok cu =>
    have hcu := hmem cu rfl
    dsimp only at hso hso'
    rw [hlast] at hso hso'
    dsimp only at hso hso'
    rw [if_neg hRe.ne'] at hso hso'
    split at hso
    · cases hso
    rename_i st hst
    split at hso'
    · cases hso'
    rename_i st' hst'
    simp only [Except.ok.injEq, Prod.mk.injEq] at hso hso'
    rw [halpha, hatol] at hst hst'
    have hf : ∀ w, (fun p k => -cu p k + sem.B w p k) ∈ VSpace sem := fun w => by
      have := (VSpace sem).add_mem ((VSpace sem).neg_mem hcu) (B_mem H w)
      exact this
    refine same_velocity (ε := c.drag - drag) S (hf _) (hf _) (by positivity) hdt (by omega) hst hst' ((mem_TSpace_iff H ul).mpr hb) (funext hdiv) ?_
      (sub_ne_zero.mpr (Ne.symm hne)) (by rw [hso.1, hso'.1, huu])
    funext p k
    simp only [Pi.add_apply, Pi.smul_apply, StokesSEM.B, kolmogorov, smul_eq_mul]
    ring

/-- **C114 (violated).** The drags differ and everything else agrees (exact solves, no filter): from every common history whose last
velocity has no divergence and is not zero, the generator and the training code without closure get different velocities. -/
theorem C114_violated (S : StepSetup vmesh pmesh quad overQuad masks bcs sem low 0 true) (hg : SameConsts {g with drag := c.drag} c)
    (hne : g.drag ≠ c.drag) (halpha : c.alpha = 0) (hatol : c.atol = 0) (hRe : 0 < c.reynolds) (hdt : 0 < c.dt) (htime : 2 ≤ c.timeOrder)
    {us : List (Vel ℝ 2)} {ps : List (ℕ → ℝ)} (hul : us.length = c.timeOrder) (hpl : 2 ≤ ps.length) {ul : Vel ℝ 2}
    (hlast : us.getLast? = some ul) (hb : HasBoundary vmesh masks bcs none ul) (hdiv : ∀ j, sem.D ul j = 0) (h0 : ul ≠ 0) :
    ∃ u p u' p', genStep g low sem us ps (us.map sem.C) = .ok (u, p, sem.C u) ∧
      solveStep low kolWave c sem us ps (us.map sem.C) 0 = .ok (u', p', sem.C u') ∧ u ≠ u' := by
  obtain ⟨u, p, u', p', h1, h2, h3⟩ := drag_matters (wave := kolWave) S hne halpha hatol hRe hdt htime hul hpl hlast hb hdiv h0
  refine ⟨u, p, u', p', ?_, h2, h3⟩
  rw [genStep_eq (g := g) (c := {c with drag := g.drag}) ⟨hg.timeOrder, hg.reynolds, hg.dt, rfl, hg.alpha, hg.tol, hg.atol⟩ hRe.ne', h1]
  rfl

/-- The hypotheses hold with the drags of the code, from a uniform flow on the periodic unit square. -/
example : ∃ (cs : CubeStokes 2) (g : GenConsts) (c : SolverConfig ℝ) (ul u u' : Vel ℝ 2) (p p' : ℕ → ℝ),
    cubeStokes 2 2 3 2 0 1 [0, 1] [] = .ok cs ∧ g.drag = genConsts.drag ∧ c.drag = 4 / 100 ∧
    genStep g cs.low cs.sem (List.replicate 3 ul) (List.replicate 3 0) ((List.replicate 3 ul).map cs.sem.C) = .ok (u, p, cs.sem.C u) ∧
    solveStep cs.low kolWave c cs.sem (List.replicate 3 ul) (List.replicate 3 0) ((List.replicate 3 ul).map cs.sem.C) 0 = .ok (u', p', cs.sem.C u') ∧
    u ≠ u' := by
  obtain ⟨cs, hcs⟩ := C92_create (over := 2) (n := 2) (d := 2) (p := 3) (a := 0) (b := 1) (by norm_num) (by norm_num)
    (by norm_num) (by norm_num) [0, 1] (bcs := []) (Or.inr rfl)
  let c : SolverConfig ℝ := ⟨3, 20000, 1 / 1000, 0, 4 / 100, 0, cs.vmesh.numElements, cs.vmesh.nodesPerElem * 2, false⟩
  let g : GenConsts := ⟨3, 20000, 1 / 1000, 1 / 10, 0, 0, 0⟩
  obtain ⟨S, hflow⟩ := decay_flow hcs c 1
  obtain ⟨u, p, u', p', h1, h2, h3⟩ := C114_violated (g := g) (c := c) (ps := List.replicate 3 0)
    (us := List.replicate 3 (nodal cs.vmesh (fun _ : Fin 2 => MvPolynomial.C (Real.exp (-c.drag * 0))))) S
    ⟨rfl, rfl, rfl, rfl, rfl, rfl, rfl⟩ (by norm_num [g, c]) rfl rfl (by norm_num [c]) (by norm_num [c]) (by norm_num [c]) (by simp [c]) (by simp)
    (by simp) (hflow.1 0 (by simp)) (fun j => hflow.2 0 (by simp) j) (fun h => by
      obtain ⟨vnode, pnode, l, hc⟩ := cubeStokes_of (n := 2) (d := 2) (p := 3) (by norm_num) (by norm_num) le_rfl one_pos (Or.inr rfl) hcs
      have hj : 0 < cs.vmesh.numNodes := by
        have := hc.vcube.cells.lt 0 (Nat.pow_pos (by norm_num)) 0 (by unfold Mesh.nodesPerElem; exact Nat.pow_pos hc.vcube.cells.numPos)
        omega
      have := congrFun (congrFun h 0) 0
      simp [nodal, hj] at this)
  exact ⟨cs, g, c, _, u, u', p, p', hcs, by norm_num [g, genConsts], rfl, h1, h2, h3⟩

/-- The hypotheses of `C114_partial` hold, with the mesh and the constants of the training configuration. -/
example : ∃ (cs : CubeStokes 2) (g : GenConsts) (c : SolverConfig ℝ), cubeStokes 12 2 4 2 0 1 [0, 1] [] = .ok cs ∧ SameConsts g c ∧
    c.reynolds ≠ 0 ∧ c.permuteElements = true ∧ SizesMatch c cs.sem.vspace.mesh := by
  obtain ⟨cs, hcs⟩ := C92_create (over := 2) (n := 12) (d := 2) (p := 4) (a := 0) (b := 1) (by norm_num) (by norm_num)
    (by norm_num) (by norm_num) [0, 1] (bcs := []) (Or.inr rfl)
  obtain ⟨vnode, pnode, l, h⟩ := cubeStokes_of (n := 12) (d := 2) (p := 4) (by norm_num) (by norm_num) (by norm_num) one_pos (Or.inr rfl) hcs
  have hvm : cs.sem.vspace.mesh = cs.vmesh := FESpace.build_mesh h.vbuild
  let c : SolverConfig ℝ := ⟨3, 20000, 1 / 1000, 0, 4 / 100, 1 / 10000000, cs.sem.vspace.mesh.numElements, cs.sem.vspace.mesh.nodesPerElem * 2, true⟩
  exact ⟨cs, ⟨3, 20000, 1 / 1000, 4 / 100, 0, 0, 1 / 10000000⟩, c, hcs, ⟨rfl, rfl, rfl, rfl, rfl, rfl, rfl⟩, by norm_num [c], rfl, rfl, rfl,
    fun _ => by rw [hvm, h.vcube.cells.num]; norm_num⟩

end Verif.Niles
