import Verif.Lemmas.CubeSeam
import Verif.Props.C111

/-!
# C112: the closure force depends on where the periodic domain is cut

`body_fn` scatters the element forces of the closure to the nodes (train.py 264): a node holds the sum over the elements that
share it, but the copies of a node on opposite sides of the periodic domain are not summed. `sem.B` (train.py 169) then multiplies
with the assembled mass. The force on a face between two elements is therefore twice the force on the same face at the
periodic boundary, and a rollout is not invariant although the velocity, the forcing and the closure are.
-/

set_option linter.unusedSectionVars false

namespace Verif.NS

open Verif.Core Verif.Linalg Verif.Spec SemSym

variable {d : ℕ} {sem : StokesSEM ℝ d} {vmesh pmesh : Mesh ℝ d} {quad overQuad : Quadrature1D ℝ} {masks : List (String × (ℕ → Bool))}
  {bcs : List (String × BCType)} {low : Nodes1D ℝ} {mu dt : ℝ} {timeOrder : ℕ} {us : List (Vel ℝ d)} {ps : List (ℕ → ℝ)} {f : Vel ℝ d} {τ : ℕ → ℕ}

/-- A step with exact solves: when the history and the result have a symmetry, the assembled force has it. -/
theorem force_sym (h : SemSym sem low τ) (S : StepSetup vmesh pmesh quad overQuad masks bcs sem low 0 true)
    (hf : ∀ j, DirichletNode masks bcs j → f j = 0) (hf' : ∀ j, vmesh.numNodes ≤ j → f j = 0) (hmu : 0 ≤ mu) (hdt : 0 < dt)
    {st : StokesSEM.Step ℝ d} (hst : sem.oneStep low us ps f mu dt timeOrder 0 none none true 0 0 = .ok st) (htime : 1 ≤ timeOrder)
    (hus : List.Forall₂ (SymVel sem τ) us us) (hps : List.Forall₂ (SymField sem.pspace.mesh τ) ps ps)
    (hu : SymVel sem τ st.u st.u) (hp : SymField sem.pspace.mesh τ st.p st.p) : SymCovel sem τ f f := by
  have H := S.setup
  have hv := H.valid
  obtain ⟨_, _, hvm, _, _, _, _⟩ := H.fields
  obtain ⟨c, pExt, b, us0, dp, hc, hpe, hb, _, hcg, hfil, _, hust, hpst⟩ := oneStep_ok hst
  have hbeta := (C37_leading timeOrder b hb).2
  have hfm := (H.mem_VSpace f).mpr ⟨hf, hf'⟩
  obtain ⟨us0', res, n, hcg', _, _, hres, hle⟩ := velocity_solve hv H.massOutside H.massPos' H.stiff mu dt
    (b (Fin.last timeOrder)) hmu hdt hbeta _ (stepRhs_mem (us := us) (mu := mu) (dt := dt) H.massOutside hfm pExt b none) 0 0
  rw [hcg, Option.some.injEq, Prod.mk.injEq, Prod.mk.injEq] at hcg'
  obtain ⟨rfl, rfl, rfl⟩ := hcg'
  rw [lift, filter_zero (by rw [hvm]; exact S.filter), Option.some.injEq] at hfil
  subst hfil
  rw [hres] at hle
  have hzero := exchange_form_zero (sem := sem) (hle.trans_eq (by simp))
  have hpE : SymField sem.pspace.mesh τ pExt pExt := by
    have := extrapolate (sem := sem) (τ := τ) c hps
    rw [hpe] at this
    cases this with | some h => exact h
  have hdp : SymField sem.pspace.mesh τ dp dp := by
    have := hp.map₂ hpE fun x y => x - y
    rw [hpst] at this
    simpa using this
  have huStar : SymVel sem τ st.uStar st.uStar := by
    intro k
    have := (hu k).map₂ (h.Q dt (b (Fin.last timeOrder)) (h.Dt hdp) k) fun x y => x - y
    rw [hust] at this
    simpa using this
  have hres : SymCovel sem τ (stepRhs sem us pExt f mu dt timeOrder b none - sem.H mu dt (b (Fin.last timeOrder)) st.uStar)
      (stepRhs sem us pExt f mu dt timeOrder b none - sem.H mu dt (b (Fin.last timeOrder)) st.uStar) := fun k =>
    SymField.congr h.v.sym (SymField.const 0) (fun i hi => hzero i hi k) (fun i hi => hzero i hi k)
  have h1 := h.covelAdd hres (h.H mu dt (b (Fin.last timeOrder)) huStar)
  rw [sub_add_cancel] at h1
  have hhist : SymVel sem τ (fun p k => (1 / dt) * StokesSEM.history (List.ofFn (fun i : Fin timeOrder => b i.castSucc)) us p k)
      (fun p k => (1 / dt) * StokesSEM.history (List.ofFn (fun i : Fin timeOrder => b i.castSucc)) us p k) := fun k =>
    (history _ hus k).map fun x => 1 / dt * x
  have h2 := h.covelSub (h.covelAdd h1 (h.B hhist)) (h.Dt hpE)
  unfold stepRhs at h2
  rw [sub_add_cancel, add_sub_cancel_right] at h2
  exact h2

end Verif.NS

namespace Verif.Niles

open Verif.Core Verif.NS Verif.NS.SemSym Verif.Spec

variable {n p over : ℕ} {a b : ℝ} {per : List ℕ} {bcs : List (String × BCType)} {cs : CubeStokes 2} {s : Fin 2 → ℕ} {wave : ℝ → ℝ}
  {c : SolverConfig ℝ}

/-- A closure that acts on all elements alike: its output is 1 everywhere. -/
def oneNet : Closure ℝ := fun _ ts => (ts.map (fun t => t.map (fun _ => 1)), 0, 0)

theorem oneNet_closure {mesh : Mesh ℝ 2} (hperm : c.permuteElements = false) (hc : SizesMatch c mesh) (i : ℕ) (v : Vel ℝ 2) :
    ∃ r, closureTerm c mesh oneNet i v = .ok (fun j _ => mesh.scatter (fun _ _ => 1) j, r) := by
  have hshape : KeepsShape oneNet := by
    intro i M L ts h1 h2
    refine ⟨by simp [oneNet, h1], fun t ht => ?_⟩
    obtain ⟨t', ht', rfl⟩ := List.mem_map.mp ht
    simp [h2 t' ht']
  obtain ⟨⟨f, r⟩, hr⟩ := closureTerm_ok hc hshape i v
  refine ⟨r, ?_⟩
  rw [hr]
  obtain ⟨ht1, ht2⟩ := tokens_shape mesh v
  unfold closureTerm permuteIf at hr
  simp only [hperm] at hr
  rw [if_neg (by simp)] at hr
  simp only at hr
  split at hr
  · cases hr
  · rw [if_neg (by simp)] at hr
    simp only at hr
    unfold untokens at hr
    split at hr
    · cases hr
    · rename_i fl hfl
      split at hfl
      · simp only [Except.ok.injEq] at hfl
        simp only [Except.ok.injEq, Prod.mk.injEq] at hr
        rw [← hr.1]
        have hone : ∀ m < mesh.numElements, ∀ n < mesh.nodesPerElem, ∀ k : Fin 2, fl m n k = 1 := by
          intro m hm n hn k
          rw [← hfl]
          have hk := k.2
          simp only [oneNet]
          have h1 : m < ((tokens mesh v).map (fun t => t.map (fun _ => (1 : ℝ)))).length := by simpa [ht1] using hm
          rw [List.getD_eq_getElem _ _ h1, List.getElem_map]
          have h3 : ((tokens mesh v)[m]'(by simpa using h1)).length = mesh.nodesPerElem * 2 := ht2 _ (List.getElem_mem _)
          have h2 : n * 2 + (k : ℕ) < (((tokens mesh v)[m]'(by simpa using h1)).map (fun _ => (1 : ℝ))).length := by
            rw [List.length_map, h3]; omega
          rw [List.getD_eq_getElem _ _ h2, List.getElem_map]
        have hsc : vScatter mesh fl = fun j _ => mesh.scatter (fun _ _ => 1) j := by
          funext j k
          unfold vScatter
          rw [Mesh.scatter_apply, Mesh.scatter_apply]
          refine Finset.sum_congr rfl fun m hm => Finset.sum_congr rfl fun n hn => ?_
          rw [hone m (Finset.mem_range.mp hm) n (Finset.mem_range.mp hn) k]
        rw [hsc]
      · cases hfl

/-- **C112 (violated).** Whatever the history is that is unchanged when the periodic square is moved by one element along the
first axis: a step of `body_fn` with a closure that returns the same value everywhere does not keep it unchanged. (Exact solves,
no filter.) -/
theorem C112_violated (hn : 2 ≤ n) (hp : 3 ≤ p) (hab : a < b) (hcs : cubeStokes n 2 p over a b [0, 1] [] = .ok cs)
    (hw : Function.Periodic wave (b - a)) (halpha : c.alpha = 0) (hatol : c.atol = 0) (hRe : 0 < c.reynolds) (hdt : 0 < c.dt)
    (htime : 2 ≤ c.timeOrder) (hperm : c.permuteElements = false) (hsize : SizesMatch c cs.vmesh) {us : List (Vel ℝ 2)} {ps : List (ℕ → ℝ)}
    (hul : us.length = c.timeOrder) (hpl : 2 ≤ ps.length)
    (hus : ∀ u ∈ us, ShiftedVel cs.vmesh [0, 1] (b - a) ![(b - a) / n, 0] u u)
    (hps : ∀ q ∈ ps, Shifted cs.pmesh [0, 1] (b - a) ![(b - a) / n, 0] q q) (i : ℕ) :
    ∃ t u q, bodyFn cs.low wave c cs.sem oneNet ⟨i, us, ps, us.map cs.sem.C, 0, 0⟩ = .ok (t, u) ∧ t.ps.getLast? = some q ∧
      ¬ (ShiftedVel cs.vmesh [0, 1] (b - a) ![(b - a) / n, 0] u u ∧ Shifted cs.pmesh [0, 1] (b - a) ![(b - a) / n, 0] q q) := by
  have hn1 : 1 ≤ n := by omega
  have hbc : CubeBCs 2 [0, 1] [] := Or.inr rfl
  obtain ⟨vnode, pnode, l, h⟩ := cubeStokes_of hn1 (by norm_num) hp hab hbc hcs
  have hs : ∀ k : Fin 2, (k : ℕ) ∉ [0, 1] → (![1, 0] : Fin 2 → ℕ) k = 0 := by
    intro k hk
    fin_cases k <;> simp at hk
  have hshift : (![(b - a) / n, 0] : Fin 2 → ℝ) = fun k => ((![1, 0] : Fin 2 → ℕ) k : ℝ) * ((b - a) / n) := by
    funext k
    fin_cases k <;> simp
  rw [hshift] at hus hps ⊢
  have hV := symVel_iff h hn1 hab hs
  have hP := symPressure_iff h hn1 hp hab hcs hs
  have hC := symCovel_iff h hn1 hab hs
  have hvm := FESpace.build_mesh h.vbuild
  have hsem := h.semSym hn1 hp hab hbc hs
  have S := h.stepSetup hn1 hp hab hbc 0 true (fun _ => Or.inr fun k => by fin_cases k <;> simp)
  obtain ⟨k, hk⟩ : ∃ k, c.timeOrder = k + 1 := ⟨c.timeOrder - 1, by omega⟩
  obtain ⟨e, he, _⟩ := extk_exists (K := ℝ) k (by omega)
  obtain ⟨β, hβ, _⟩ := bdfk_exists (K := ℝ) (k + 1) (by omega)
  have hofn := ofFn_window us _ (hul.trans hk)
  obtain ⟨ul, hlast⟩ : ∃ ul, us.getLast? = some ul := by
    rw [List.getLast?_eq_getElem?]
    exact ⟨_, List.getElem?_eq_getElem (by omega)⟩
  obtain ⟨r, hr⟩ := oneNet_closure (c := c) (mesh := cs.vmesh) hperm hsize i ul
  obtain ⟨F, hF⟩ : ∃ F : Vel ℝ 2, F = fun j _ => cs.vmesh.scatter (fun _ _ => 1) j := ⟨_, rfl⟩
  rw [← hF] at hr
  obtain ⟨u, q, uStar, hso, _⟩ := C72_step S wave c k hk (by omega) hRe hdt halpha hatol (fun i => us.getD i 0) ps hpl F β e hβ he
  have hcus : us.map cs.sem.C = List.ofFn (fun i : Fin (k + 1) => cs.sem.C (us.getD i 0)) := by
    conv_lhs => rw [hofn]
    rw [List.map_ofFn]
    rfl
  rw [← hofn, ← hcus] at hso
  refine ⟨⟨i + 1, us.drop 1 ++ [u], ps.drop 1 ++ [q], (us.map cs.sem.C).drop 1 ++ [cs.sem.C u], r.1 + 0, r.2 + 0⟩, u, q, ?_, by simp, ?_⟩
  · unfold bodyFn
    simp only [hlast, hvm, hr, hso]
  rintro ⟨hu, hq⟩
  -- the assembled force would be invariant
  unfold solveStep at hso
  have hus' : List.Forall₂ (SymVel cs.sem (shiftElem n 2 ![1, 0])) us us := List.forall₂_same.mpr fun v hv => (hV v v).mpr (hus v hv)
  have hcus' : List.Forall₂ (SymCovel cs.sem (shiftElem n 2 ![1, 0])) (us.map cs.sem.C) (us.map cs.sem.C) :=
    List.forall₂_same.mpr fun v hv => by
      obtain ⟨w, hw, rfl⟩ := List.mem_map.mp hv
      exact hsem.C ((hV w w).mpr (hus w hw))
  have hps' := List.forall₂_same.mpr fun v hv => (hP v v).mpr (hps v hv)
  have hext := extAdvection_sym hsem (c.timeOrder - 1) hcus'
  have hmem : ∀ cu, extAdvection (c.timeOrder - 1) (us.map cs.sem.C) = .ok cu → ∀ j, cs.vmesh.numNodes ≤ j → cu j = 0 := by
    intro cu hcu j hj
    unfold extAdvection at hcu
    split at hcu
    · cases hcu
    · split at hcu
      · cases hcu
      · rename_i hlen
        rw [Except.ok.injEq] at hcu
        rw [← hcu]
        funext x
        refine Finset.sum_eq_zero fun y _ => ?_
        have h1 : (y : ℕ) < (us.map cs.sem.C).reverse.length := by
          rw [List.length_reverse]; omega
        rw [List.getD_eq_getElem _ _ h1]
        obtain ⟨w, _, hw⟩ := List.mem_map.mp (List.mem_reverse.mp (List.getElem_mem h1))
        rw [← hw]
        have : cs.sem.C w j x = 0 := by
          unfold StokesSEM.C StokesSEM.masked
          rw [vScatter_outside _ _ _ (by rw [hvm]; exact hj), mul_zero]
        rw [this, mul_zero]
  generalize extAdvection (c.timeOrder - 1) (us.map cs.sem.C) = X at hext hso hmem
  cases hext with
  | error e => cases hso
  | ok hcu =>
    rename_i cu
    dsimp only at hso
    rw [hlast] at hso
    dsimp only at hso
    rw [if_neg hRe.ne'] at hso
    split at hso
    · cases hso
    rename_i st hst
    simp only [Except.ok.injEq, Prod.mk.injEq] at hso
    obtain ⟨rfl, rfl, _⟩ := hso
    rw [halpha, hatol] at hst
    have H := S.setup
    have hf := force_sym (mu := 1 / c.reynolds) hsem S (fun j hD => by simp [DirichletNode] at hD) (fun j hj => by
      funext x
      have := H.massOutside j (by unfold StokesSEM.numV; rw [hvm]; exact hj) x
      simp [hmem cu rfl j hj, StokesSEM.B, this]) (by positivity) hdt hst (by omega) hus' hps' ((hV _ _).mpr hu) ((hP _ _).mpr hq)
    have hulS : SymVel cs.sem (shiftElem n 2 ![1, 0]) ul ul := (hV _ _).mpr (hus ul (List.mem_of_getLast? hlast))
    have hwS := wave_sym (wave := wave) (k := 1) h hn1 hab hs (fun _ => hw) (by simp [Function.Periodic])
    have hkol : SymVel cs.sem (shiftElem n 2 ![1, 0]) (fun p k => kolmogorov wave c.drag (cs.sem.vspace.mesh.coords p) (ul p) k)
        (fun p k => kolmogorov wave c.drag (cs.sem.vspace.mesh.coords p) (ul p) k) := fun k =>
      hwS.map₂ (hulS k) fun x y => (if k = 0 then x else 0) - c.drag * y
    have hBF := hsem.covelSub (hsem.covelAdd hf hcu) (hsem.B hkol)
    have hmask : ∀ j, cs.sem.mask j = 1 := fun j => by
      obtain ⟨_, _, _, _, hm, _, _⟩ := H.fields
      exact (hm j).2 (by simp [DirichletNode])
    have h0 := hBF 0
    rw [hvm] at h0
    have hms := hsem.massDiag 0
    rw [hvm] at hms
    refine h.seam_not_sym hn hp hab hbc (by simp) (fun j => cs.sem.massDiag j 0) (fun j hj => H.massPos j hj 0) hms ?_
    have e1 : (fun j => cs.vmesh.scatter (fun _ _ => (1 : ℝ)) j * cs.sem.massDiag j 0) = fun j =>
        ((fun p k => -cu p k + cs.sem.B (fun p k => F p k + kolmogorov wave c.drag (cs.sem.vspace.mesh.coords p) (ul p) k) p k) + cu -
          cs.sem.B fun p k => kolmogorov wave c.drag (cs.sem.vspace.mesh.coords p) (ul p) k) j 0 := by
      funext j
      simp only [Pi.add_apply, Pi.sub_apply, StokesSEM.B, hmask, hF]
      ring
    rw [hvm] at e1
    rw [e1]
    exact h0

/-- **C112 (violated), with everything concrete:** the fluid at rest on the unit square, without forcing. -/
theorem C112_at_rest (hn : 2 ≤ n) (hp : 3 ≤ p) : ∃ (cs : CubeStokes 2) (c : SolverConfig ℝ) (t : Carry ℝ) (u : Vel ℝ 2) (q : ℕ → ℝ),
    cubeStokes n 2 p over 0 1 [0, 1] [] = .ok cs ∧
    bodyFn cs.low (fun _ => 0) c cs.sem oneNet ⟨0, List.replicate 3 0, List.replicate 3 0, List.replicate 3 (cs.sem.C 0), 0, 0⟩ = .ok (t, u) ∧
    t.ps.getLast? = some q ∧
    ¬ (ShiftedVel cs.vmesh [0, 1] 1 ![1 / n, 0] u u ∧ Shifted cs.pmesh [0, 1] 1 ![1 / n, 0] q q) := by
  obtain ⟨cs, hcs⟩ := C92_create (over := over) (n := n) (d := 2) (p := p) (a := 0) (b := 1) (by omega) (by norm_num)
    hp (by norm_num) [0, 1] (bcs := []) (Or.inr rfl)
  let c : SolverConfig ℝ := ⟨3, 20000, 1 / 1000, 0, 1 / 25, 0, cs.vmesh.numElements, cs.vmesh.nodesPerElem * 2, false⟩
  obtain ⟨t, u, q, h1, h2, h3⟩ := C112_violated (wave := fun _ => 0) (c := c) (us := List.replicate 3 0) (ps := List.replicate 3 0) hn hp
    one_pos hcs (fun _ => rfl) rfl rfl (by norm_num [c]) (by norm_num [c]) (by norm_num [c]) rfl ⟨rfl, rfl, by simp [c]⟩ rfl (by simp)
    (fun u hu => by obtain rfl := List.eq_of_mem_replicate hu; exact fun _ _ _ _ _ _ => rfl)
    (fun q hq => by obtain rfl := List.eq_of_mem_replicate hq; exact fun _ _ _ _ _ => rfl) 0
  refine ⟨cs, c, t, u, q, hcs, ?_, h2, ?_⟩
  · simpa using h1
  · simpa using h3

/-- Element forces that correspond and vanish on the surfaces of the elements give nodal forces that correspond. -/
theorem interior_shifted (hn : 1 ≤ n) (hp : 3 ≤ p) (hab : a < b) (hb : CubeBCs 2 per bcs) (hcs : cubeStokes n 2 p over a b per bcs = .ok cs)
    (hs : ∀ k : Fin 2, (k : ℕ) ∉ per → s k = 0) {F G : ℕ → ℕ → Fin 2 → ℝ}
    (hFG : ∀ e < cs.vmesh.numElements, ∀ i < cs.vmesh.nodesPerElem, ∀ k, F (shiftElem n 2 s e) i k = G e i k)
    (h0 : ∀ e < cs.vmesh.numElements, ∀ i < cs.vmesh.nodesPerElem, ∀ κ < 2, digit (p + 1) 2 κ i = 0 ∨ digit (p + 1) 2 κ i = p →
      ∀ k, F e i k = 0 ∧ G e i k = 0) :
    ShiftedVel cs.vmesh per (b - a) (fun k => s k * ((b - a) / n)) (vScatter cs.vmesh F) (vScatter cs.vmesh G) := by
  obtain ⟨vnode, pnode, l, h⟩ := cubeStokes_of hn (by norm_num) hp hab hb hcs
  have hC := h.vcube.cells
  have hnpe : cs.vmesh.nodesPerElem = (p + 1) ^ 2 := by unfold Mesh.nodesPerElem; rw [hC.points]
  rw [hC.num] at hFG h0
  -- the nodal value is the value of the element
  have hval : ∀ (F : ℕ → ℕ → Fin 2 → ℝ), (∀ e < n ^ 2, ∀ i < cs.vmesh.nodesPerElem, ∀ κ < 2, digit (p + 1) 2 κ i = 0 ∨ digit (p + 1) 2 κ i = p →
      ∀ k, F e i k = 0) → ∀ e < n ^ 2, ∀ i < cs.vmesh.nodesPerElem, ∀ j < cs.vmesh.numNodes, SameNode cs.vmesh (vnode e i) j → ∀ k,
      vScatter cs.vmesh F j k = F e i k := by
    intro F hF e he i hi j hj hsame k
    unfold vScatter
    by_cases hin : ∃ κ < 2, digit (p + 1) 2 κ i = 0 ∨ digit (p + 1) 2 κ i = p
    · obtain ⟨κ, hκ, hd⟩ := hin
      rw [hF e he i hi κ hκ hd, h.scatter_nodes]
      refine Finset.sum_eq_zero fun e' he' => Finset.sum_eq_zero fun i' hi' => ?_
      rw [Finset.mem_range] at he' hi'
      split_ifs with hv
      · rw [← hv] at hsame
        refine hF e' he' i' hi' κ hκ ?_ k
        rcases h.same_digits hn hab he hi he' hi' hsame ⟨κ, hκ⟩ with ⟨_, h1⟩ | ⟨_, h1⟩
        · have h2 : digit (p + 1) 2 κ i = digit (p + 1) 2 κ i' := h1
          rw [← h2]; exact hd
        · exact h1
      · rfl
    · have huniq : ∀ e' < n ^ 2, ∀ i' < cs.vmesh.nodesPerElem, SameNode cs.vmesh (vnode e i) (vnode e' i') → e' = e ∧ i' = i := by
        intro e' he' i' hi' hs'
        have hd : ∀ κ < 2, digit n 2 κ e = digit n 2 κ e' ∧ digit (p + 1) 2 κ i = digit (p + 1) 2 κ i' := by
          intro κ hκ
          rcases h.same_digits hn hab he hi he' hi' hs' ⟨κ, hκ⟩ with h1 | ⟨h1, _⟩
          · exact h1
          · exact absurd ⟨κ, hκ, h1⟩ hin
        exact ⟨digit_ext he' he fun κ hκ => (hd κ hκ).1.symm,
          digit_ext (by rw [← hnpe]; exact hi') (by rw [← hnpe]; exact hi) fun κ hκ => (hd κ hκ).2.symm⟩
      obtain ⟨e1, he1, i1, hi1, rfl⟩ := hC.onto j hj
      obtain ⟨rfl, rfl⟩ := huniq e1 he1 i1 hi1 hsame
      exact h.scatter_unique (fun m n => F m n k) he1 hi1 fun e' he' i' hi' hv => huniq e' he' i' hi' (by rw [hv]; exact SameNode.refl _ _)
  have hF := hval F fun e he i hi κ hκ hd k => (h0 e he i hi κ hκ hd k).1
  have hG := hval G fun e he i hi κ hκ hd k => (h0 e he i hi κ hκ hd k).2
  intro k
  rw [← h.field_iff hn hab hs]
  refine ⟨fun i hi j hj hij => ?_, fun i hi j hj hij => ?_, fun m hm i hi => ?_⟩
  · obtain ⟨e, he, m, hm, rfl⟩ := hC.onto i hi
    rw [hF e he m hm _ hi (SameNode.refl _ _), hF e he m hm _ hj hij]
  · obtain ⟨e, he, m, hm, rfl⟩ := hC.onto i hi
    rw [hG e he m hm _ hi (SameNode.refl _ _), hG e he m hm _ hj hij]
  · rw [hC.num] at hm
    have hl := shiftElem_lt hn s m
    rw [h.vnodeAt hl hi, h.vnodeAt hm hi]
    rw [hF _ hl i hi _ (hC.lt _ hl i hi) (SameNode.refl _ _), hG _ hm i hi _ (hC.lt _ hm i hi) (SameNode.refl _ _), hFG m hm i hi k]

/-- **C112 (partial).** Rollouts commute with shifts by whole elements for closures whose element forces are moved with the
velocity and vanish on the surfaces of the elements. Missing: forces on the surfaces (`C112_violated`). -/
theorem C112_partial {net net' : Closure ℝ} (hn : 1 ≤ n) (hp : 3 ≤ p) (hab : a < b) (hb : CubeBCs 2 per bcs)
    (hcs : cubeStokes n 2 p over a b per bcs = .ok cs) (hs : ∀ k : Fin 2, (k : ℕ) ∉ per → s k = 0)
    (hw : 1 ∈ per → Function.Periodic wave (b - a)) (hws : Function.Periodic wave (s 1 * ((b - a) / n)))
    (hnet : ∀ i u v, ShiftedVel cs.vmesh per (b - a) (fun k => s k * ((b - a) / n)) u v → ∃ F G kl,
      closureTerm c cs.vmesh net i u = .ok (vScatter cs.vmesh F, kl) ∧ closureTerm c cs.vmesh net' i v = .ok (vScatter cs.vmesh G, kl) ∧
      (∀ e < cs.vmesh.numElements, ∀ i < cs.vmesh.nodesPerElem, ∀ k, F (shiftElem n 2 s e) i k = G e i k) ∧
      ∀ e < cs.vmesh.numElements, ∀ i < cs.vmesh.nodesPerElem, ∀ κ < 2, digit (p + 1) 2 κ i = 0 ∨ digit (p + 1) 2 κ i = p →
        ∀ k, F e i k = 0 ∧ G e i k = 0)
    (i : ℕ) {us vs : List (Vel ℝ 2)} {ps qs : List (ℕ → ℝ)} (kl0 klp : ℝ)
    (hus : List.Forall₂ (ShiftedVel cs.vmesh per (b - a) fun k => s k * ((b - a) / n)) us vs)
    (hps : List.Forall₂ (Shifted cs.pmesh per (b - a) fun k => s k * ((b - a) / n)) ps qs) (steps : ℕ) :
    (∃ e, scanBody cs.low wave c cs.sem net steps ⟨i, us, ps, us.map cs.sem.C, kl0, klp⟩ = .error e ∧
      scanBody cs.low wave c cs.sem net' steps ⟨i, vs, qs, vs.map cs.sem.C, kl0, klp⟩ = .error e) ∨
    ∃ t t' preds preds', scanBody cs.low wave c cs.sem net steps ⟨i, us, ps, us.map cs.sem.C, kl0, klp⟩ = .ok (t, preds) ∧
      scanBody cs.low wave c cs.sem net' steps ⟨i, vs, qs, vs.map cs.sem.C, kl0, klp⟩ = .ok (t', preds') ∧
      List.Forall₂ (ShiftedVel cs.vmesh per (b - a) fun k => s k * ((b - a) / n)) preds preds' := by
  have hcl : ClosureShifts c cs.vmesh per (b - a) (fun k => s k * ((b - a) / n)) net net' := by
    intro i u v huv
    obtain ⟨F, G, kl, h1, h2, h3, h4⟩ := hnet i u v huv
    exact Or.inr ⟨_, _, kl, h1, h2, interior_shifted hn hp hab hb hcs hs h3 h4⟩
  have hC : List.Forall₂ (ShiftedForce cs.vmesh per (b - a) fun k => s k * ((b - a) / n)) (us.map cs.sem.C) (vs.map cs.sem.C) := by
    rw [List.forall₂_map_left_iff, List.forall₂_map_right_iff]
    exact hus.imp fun u v huv => (C111_operators hn (by norm_num) hp hab hb hcs hs huv
      (q := fun _ => 0) (r := fun _ => 0) (fun _ _ _ _ _ => rfl)).1
  rcases C111_rollout hn hp hab hb hcs hs hw hws hcl i kl0 klp hus hps hC steps with h1 | ⟨t, t', preds, preds', h1, h2, h3, _⟩
  · exact Or.inl h1
  · exact Or.inr ⟨t, t', preds, preds', h1, h2, h3⟩

/-- **C112, the average instead of the sum:** when every node takes the mean of the element forces over all elements that share
it or one of its copies, the nodal forces are moved with the element forces. -/
theorem C112_averaged (hn : 1 ≤ n) (hp : 3 ≤ p) (hab : a < b) (hb : CubeBCs 2 per bcs) (hcs : cubeStokes n 2 p over a b per bcs = .ok cs)
    (hs : ∀ k : Fin 2, (k : ℕ) ∉ per → s k = 0) {F G : ℕ → ℕ → Fin 2 → ℝ}
    (hFG : ∀ e < cs.vmesh.numElements, ∀ i < cs.vmesh.nodesPerElem, ∀ k, F (shiftElem n 2 s e) i k = G e i k) :
    ShiftedVel cs.vmesh per (b - a) (fun k => s k * ((b - a) / n))
      (fun j k => vExchange cs.vmesh (vScatter cs.vmesh F) j k / cs.vmesh.exchange (cs.vmesh.scatter fun _ _ => 1) j)
      (fun j k => vExchange cs.vmesh (vScatter cs.vmesh G) j k / cs.vmesh.exchange (cs.vmesh.scatter fun _ _ => 1) j) := by
  obtain ⟨vnode, pnode, l, h⟩ := cubeStokes_of hn (by norm_num) hp hab hb hcs
  have hsym := h.vMeshSym hn hab hs
  intro k
  rw [← h.field_iff hn hab hs]
  have h1 := SymDual.scatter hsym (a := fun m n => F m n k) (b := fun m n => G m n k) fun m hm i hi => hFG m hm i hi k
  have h2 := SymDual.scatter hsym (a := fun _ _ => (1 : ℝ)) (b := fun _ _ => 1) fun _ _ _ _ => rfl
  exact SymField.map₂ h1 h2 fun x y => x / y

/-- The hypotheses of `C112_partial` hold for the closure that returns zero. -/
example : ∃ (cs : CubeStokes 2) (c : SolverConfig ℝ), cubeStokes 4 2 3 2 0 1 [0, 1] [] = .ok cs ∧
    ∀ i u v, ∃ F G kl, closureTerm c cs.vmesh zeroNet i u = .ok (vScatter cs.vmesh F, kl) ∧
      closureTerm c cs.vmesh zeroNet i v = .ok (vScatter cs.vmesh G, kl) ∧ F = 0 ∧ G = 0 := by
  obtain ⟨cs, hcs⟩ := C92_create (over := 2) (n := 4) (d := 2) (p := 3) (a := 0) (b := 1) (by norm_num) (by norm_num)
    (by norm_num) (by norm_num) [0, 1] (bcs := []) (Or.inr rfl)
  let c : SolverConfig ℝ := ⟨3, 20000, 1 / 1000, 0, 1 / 25, 0, cs.vmesh.numElements, cs.vmesh.nodesPerElem * 2, false⟩
  have hz : vScatter cs.vmesh (0 : ℕ → ℕ → Fin 2 → ℝ) = 0 := by
    funext j k
    unfold vScatter
    rw [Mesh.scatter_apply]
    refine Finset.sum_eq_zero fun m _ => Finset.sum_eq_zero fun n _ => ?_
    simp
  refine ⟨cs, c, hcs, fun i u v => ?_⟩
  obtain ⟨f, r, hf, rfl⟩ := zeroNet_closure (c := c) (mesh := cs.vmesh) rfl ⟨rfl, rfl, by simp [c]⟩ i u
  obtain ⟨g, r', hg, rfl⟩ := zeroNet_closure (c := c) (mesh := cs.vmesh) rfl ⟨rfl, rfl, by simp [c]⟩ i v
  obtain rfl := zeroNet_kl hf
  obtain rfl := zeroNet_kl hg
  exact ⟨0, 0, _, by rw [hz]; exact hf, by rw [hz]; exact hg, rfl, rfl⟩

end Verif.Niles
