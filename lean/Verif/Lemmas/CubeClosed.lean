import Verif.Lemmas.CubeStokes

/-!
# No net flux through the boundary of the cube
-/

namespace Verif.NS

open Verif.Core Verif.Spec MeasureTheory MvPolynomial

variable {n d p : ℕ} {a b c : ℝ} {per : List ℕ} {bcs : List (String × BCType)}

/-- The fluxes of `V` through the faces across axis `k` cancel when they agree on opposite faces of the cube. -/
theorem flux_cyclic (hc : 0 < c) (hn : 1 ≤ n) (k : Fin d) (V : ℕ → MvPolynomial (Fin d) ℝ)
    (hmatch : ∀ e < n ^ d, ∀ e' < n ^ d, digit n d k e' = (digit n d k e + 1) % n →
      (∀ j : Fin d, j ≠ k → digit n d j e' = digit n d j e) →
      faceSub k (centre n d a c e k + c) (V e) = faceSub k (centre n d a c e' k - c) (V e')) :
    ∑ e ∈ Finset.range (n ^ d), ∫ x in CubeCells.cell n d a c e, eval x (pderiv k (V e)) = 0 := by
  have hle : ∀ e, ∀ j : Fin d, centre n d a c e j - c ≤ centre n d a c e j + c := fun e j => by linarith
  have hftc : ∀ e, 2 * c * ∫ x in CubeCells.cell n d a c e, eval x (pderiv k (V e)) =
      (∫ x in CubeCells.cell n d a c e, eval x (faceSub k (centre n d a c e k + c) (V e))) -
        ∫ x in CubeCells.cell n d a c e, eval x (faceSub k (centre n d a c e k - c) (V e)) := by
    intro e
    have := integral_pderiv_box (hle e) k (V e)
    rw [show centre n d a c e k + c - (centre n d a c e k - c) = 2 * c by ring] at this
    exact this
  have hsum : 2 * c * ∑ e ∈ Finset.range (n ^ d), ∫ x in CubeCells.cell n d a c e, eval x (pderiv k (V e)) = 0 := by
    rw [Finset.mul_sum, Finset.sum_congr rfl fun e _ => hftc e, Finset.sum_sub_distrib, sub_eq_zero]
    have hnext : ∀ e, ∃ e' < n ^ d, ∀ j : Fin d, digit n d j e' =
        if j = k then (digit n d k e + 1) % n else digit n d j e := fun e => digit_update hn k e (Nat.mod_lt _ hn)
    have hprev : ∀ e, ∃ e' < n ^ d, ∀ j : Fin d, digit n d j e' =
        if j = k then (digit n d k e + (n - 1)) % n else digit n d j e := fun e => digit_update hn k e (Nat.mod_lt _ hn)
    choose nxt hnxt using hnext
    choose prv hprv using hprev
    refine Finset.sum_nbij' nxt prv ?_ ?_ ?_ ?_ ?_
    · intro e _
      exact Finset.mem_range.mpr (hnxt e).1
    · intro e _
      exact Finset.mem_range.mpr (hprv e).1
    · intro e he
      rw [Finset.mem_range] at he
      apply digit_ext (hprv _).1 he
      intro j hj
      have g2 := (hprv (nxt e)).2 ⟨j, hj⟩
      have g1 := (hnxt e).2 ⟨j, hj⟩
      have g0 := (hnxt e).2 k
      rw [if_pos rfl] at g0
      simp only at g1 g2
      rw [g2]
      split
      · next hjk =>
        subst hjk
        have hlt : digit n d j e < n := Verif.Common.digit_lt _ _ _ _ hn
        simp only at g0 ⊢
        rw [g0, Nat.mod_add_mod, show digit n d j e + 1 + (n - 1) = digit n d j e + n by omega, Nat.add_mod_right,
          Nat.mod_eq_of_lt hlt]
      · next hjk => rw [g1, if_neg hjk]
    · intro e he
      rw [Finset.mem_range] at he
      apply digit_ext (hnxt _).1 he
      intro j hj
      have g2 := (hnxt (prv e)).2 ⟨j, hj⟩
      have g1 := (hprv e).2 ⟨j, hj⟩
      have g0 := (hprv e).2 k
      rw [if_pos rfl] at g0
      simp only at g1 g2
      rw [g2]
      split
      · next hjk =>
        subst hjk
        have hlt : digit n d j e < n := Verif.Common.digit_lt _ _ _ _ hn
        simp only at g0 ⊢
        rw [g0, Nat.mod_add_mod, show digit n d j e + (n - 1) + 1 = digit n d j e + n by omega, Nat.add_mod_right,
          Nat.mod_eq_of_lt hlt]
      · next hjk => rw [g1, if_neg hjk]
    · intro e he
      rw [Finset.mem_range] at he
      have h1 := hnxt e
      have hk' := h1.2 k
      rw [if_pos rfl] at hk'
      have ho : ∀ j : Fin d, j ≠ k → digit n d j (nxt e) = digit n d j e := fun j hj => by rw [h1.2 j, if_neg hj]
      have hco : ∀ j, j ≠ k → centre n d a c (nxt e) j = centre n d a c e j := by
        intro j hj; unfold centre; rw [ho j hj]
      rw [← hmatch e he (nxt e) h1.1 hk' ho]
      unfold CubeCells.cell
      exact integral_faceSub_congr (hle e) (hle (nxt e)) k (fun j hj => by rw [hco j hj]) (fun j hj => by rw [hco j hj])
        (by ring) _ _
  rcases mul_eq_zero.mp hsum with h0 | h0
  · exact absurd h0 (by positivity)
  · exact h0

namespace CubeSEM

variable {cs : CubeStokes d} {vnode pnode : ℕ → ℕ → ℕ} {l : List ℝ}

/-- Opposite faces of the cube. -/
theorem face_wrap (h : CubeSEM n d p a b per bcs cs vnode pnode l) (hn : 1 ≤ n) (hb : CubeBCs d per bcs)
    {v : ℕ → ℝ} {V : ℕ → MvPolynomial (Fin d) ℝ}
    (hV : CellField cs.vmesh p v V) (hcont : Verif.NS.Continuous cs.vmesh v)
    (hz : ∀ j < cs.vmesh.numNodes, DirichletNode cs.masks bcs j → v j = 0) (k : Fin d)
    (hcl : bcs ≠ [] ∨ (k : ℕ) ∈ per) {e e' : ℕ} (he : e < n ^ d)
    (he' : e' < n ^ d) (hk : digit n d k e + 1 = n) (hk' : digit n d k e' = 0)
    (ho : ∀ j : Fin d, j ≠ k → digit n d j e' = digit n d j e) :
    faceSub k b (V e) = faceSub k a (V e') := by
  have hC := h.vcube.cells
  have hu := upper (a := a) (b := b) hn
  set c := (b - a) / (2 * (n : ℝ)) with hc
  have hE : e < cs.vmesh.numElements := by rw [hC.num]; exact he
  have hE' : e' < cs.vmesh.numElements := by rw [hC.num]; exact he'
  have hb1 : centre n d a c e k + c = b := by
    have : (n : ℝ) = (digit n d k e : ℝ) + 1 := by exact_mod_cast hk.symm
    unfold centre
    rw [hu, this]; ring
  have hb0 : centre n d a c e' k - c = a := by
    unfold centre
    rw [hk']; push_cast; ring
  by_cases hper : (k : ℕ) ∈ per
  · apply hC.toAffCells.eq_of_nodes (fun j => le_trans (degreeOf_faceSub k _ _ j) ((hV e hE).1 j))
      (fun j => le_trans (degreeOf_faceSub k _ _ j) ((hV e' hE').1 j)) (centre n d a c e)
    intro i hi
    obtain ⟨i1, h1, h2, h3⟩ := hC.face_node he i k (show p < p + 1 by omega)
    obtain ⟨i2, h4, h5, h6⟩ := hC.face_node he' i k (show 0 < p + 1 by omega)
    rw [hC.last, mul_one, add_comm c, hb1] at h3
    rw [hC.first, show c * -1 + centre n d a c e' k = centre n d a c e' k - c by ring, hb0] at h6
    have hco : ∀ j, j ≠ k → centre n d a c e' j = centre n d a c e j := by
      intro j hj; unfold centre; rw [ho j hj]
    have h6' : cs.vmesh.coords (vnode e' i2) =
        Function.update (fun j => c * gridPoint d cs.vmesh.grid.value i j + centre n d a c e j) k a := by
      rw [h6]
      funext j
      by_cases hj : j = k
      · subst hj; simp
      · rw [Function.update_of_ne hj, Function.update_of_ne hj, hco j hj]
    rw [eval_faceSub, eval_faceSub, ← h3, ← h6', (hV e hE).2 i1 h1 _ (hC.elem e he i1 h1),
      (hV e' hE').2 i2 h4 _ (hC.elem e' he' i2 h4)]
    apply hcont _ (hC.lt e he i1 h1) _ (hC.lt e' he' i2 h4)
    rw [h.same_iff (hC.lt e he i1 h1) (hC.lt e' he' i2 h4), h3, h6']
    intro j
    by_cases hj : j = k
    · subst hj
      exact Or.inr ⟨hper, Or.inr ⟨by simp, by simp⟩⟩
    · left
      rw [Function.update_of_ne hj, Function.update_of_ne hj]
  · have hne : bcs ≠ [] := by
      rcases hcl with h1 | h1
      · exact h1
      · exact absurd h1 hper
    have z : ∀ t, t = a ∨ t = b → ∀ j < cs.vmesh.numNodes, cs.vmesh.coords j k = t → v j = 0 := by
      intro t ht j hj hco
      refine hz j hj ((h.dirichlet_iff hb hj).mpr ⟨hne, k, hper, ?_⟩)
      rw [hco]; exact ht
    rw [hC.face_zero hV k he (Or.inr hb1.symm) (z b (Or.inr rfl)), hC.face_zero hV k he' (Or.inl hb0.symm) (z a (Or.inl rfl))]

/-- The divergence of a velocity in the space has zero mean. -/
theorem div_mean (h : CubeSEM n d p a b per bcs cs vnode pnode l) (hn : 1 ≤ n) (hb : CubeBCs d per bcs)
    (hcl : bcs ≠ [] ∨ ∀ k : Fin d, (k : ℕ) ∈ per) {u : Vel ℝ d} {U : Fin d → ℕ → MvPolynomial (Fin d) ℝ}
    (hU : ∀ k, CellField cs.vmesh p (fun j => u j k) (U k)) (hcont : ∀ k, Verif.NS.Continuous cs.vmesh (fun j => u j k))
    (hz : ∀ j < cs.vmesh.numNodes, DirichletNode cs.masks bcs j → u j = 0) :
    ∑ e ∈ Finset.range (n ^ d), ∫ x in CubeCells.cell n d a ((b - a) / (2 * n)) e, eval x (∑ k, pderiv k (U k e)) = 0 := by
  have hC := h.vcube.cells
  have hu := upper (a := a) (b := b) hn
  have hint : ∀ e (P : MvPolynomial (Fin d) ℝ), IntegrableOn (fun x => eval x P)
    (CubeCells.cell n d a ((b - a) / (2 * n)) e) := fun e P => integrableOn_eval _ _ P
  simp only [map_sum]
  rw [Finset.sum_congr rfl fun e _ => integral_finsetSum _ (fun k _ => hint e _), Finset.sum_comm]
  refine Finset.sum_eq_zero fun k _ => flux_cyclic hC.width hn k (U k) ?_
  intro e he e' he' hk ho
  have hlt : digit n d k e < n := Verif.Common.digit_lt _ _ _ _ hn
  by_cases hlast : digit n d k e + 1 = n
  · rw [hlast, Nat.mod_self] at hk
    have := h.face_wrap hn hb (hU k) (hcont k) (fun j hj hD => by rw [hz j hj hD]; rfl) k (hcl.imp id (fun g => g k)) he he' hlast hk ho
    have hb1 : centre n d a ((b - a) / (2 * n)) e k + (b - a) / (2 * n) = b := by
      have : (n : ℝ) = (digit n d k e : ℝ) + 1 := by exact_mod_cast hlast.symm
      unfold centre
      conv_rhs => rw [hu]
      set c := (b - a) / (2 * (n : ℝ))
      rw [this]; ring
    have hb0 : centre n d a ((b - a) / (2 * n)) e' k - (b - a) / (2 * n) = a := by
      unfold centre
      rw [hk]; push_cast; ring
    rw [hb1, hb0]
    exact this
  · rw [Nat.mod_eq_of_lt (by omega)] at hk
    have := hC.face_match (hU k) k he he' hk ho
    have ht : centre n d a ((b - a) / (2 * n)) e' k - (b - a) / (2 * n) =
        centre n d a ((b - a) / (2 * n)) e k + (b - a) / (2 * n) := by
      unfold centre; rw [hk]; push_cast; ring
    rw [ht]
    exact this

theorem closed (h : CubeSEM n d p a b per bcs cs vnode pnode l) (hn : 1 ≤ n) (hp : 3 ≤ p) (hb : CubeBCs d per bcs)
    (hcl : bcs ≠ [] ∨ ∀ k : Fin d, (k : ℕ) ∈ per) : cs.sem.Closed := by
  classical
  have hC := h.vcube.cells
  have H := h.setup hn hb
  have hv := H.valid
  obtain ⟨_, _, hvm, hpm, hmask, _, _⟩ := H.fields
  have hnv : cs.sem.numV = cs.vmesh.numNodes := by unfold StokesSEM.numV; rw [hvm]
  -- against every velocity of the space
  have hdot : ∀ u ∈ TSpace cs.sem, cs.sem.vDot u (cs.sem.Dt (fun _ => 1)) = 0 := by
    intro u hu
    rw [← D_Dt_adjoint hv u (VSpace_masked hu.1), D_dot hv.pwf hv.prange]
    have hU := fun k => hC.toAffCells.exists_field (fun j => u j k)
    choose U hU using hU
    have hQ : CellField cs.pmesh (p - 2) (fun _ => 1) (fun _ => (1 : MvPolynomial (Fin d) ℝ)) := by
      intro e he
      refine ⟨fun k => ?_, fun i hi v hv => by simp⟩
      rw [degreeOf_one]; exact Nat.zero_le _
    rw [h.div_integral hp hU hQ]
    simp only [mul_one]
    refine h.div_mean hn hb hcl hU (fun k => ?_) (fun j hj hD => hu.1 j (Or.inr ((hmask j).1 hD)))
    have := hu.2 k
    rw [hvm] at this
    exact this
  intro j hj k
  by_cases hm : cs.sem.mask j = 0
  · exact vExchange_masked hv _ (VSpace_masked (Dt_mem _)) j hj hm k
  have hjn : j < cs.vmesh.numNodes := by rw [← hnv]; exact hj
  have hnD : ¬ DirichletNode cs.masks bcs j := fun hD => hm ((hmask j).1 hD)
  let u : Vel ℝ d := fun i κ => if i < cs.vmesh.numNodes ∧ SameNode cs.vmesh j i ∧ κ = k then 1 else 0
  have huT : u ∈ TSpace cs.sem := by
    refine ⟨fun i hi => ?_, fun κ i hi i' hi' hs => ?_⟩
    · funext κ
      change (if _ then _ else _) = _
      rw [if_neg]
      · rfl
      rintro ⟨h1, h2, _⟩
      rcases hi with hi | hi
      · omega
      · have : ¬ DirichletNode cs.masks bcs i := fun hD => hnD (H.copies i h1 j hjn h2.symm hD)
        rw [(hmask i).2 this] at hi
        exact one_ne_zero hi
    · change (if _ then _ else _) = (if _ then _ else _)
      rw [hvm] at hi hi' hs
      congr 1
      apply propext
      constructor
      · rintro ⟨_, h2, h3⟩
        exact ⟨hi', h2.trans hs, h3⟩
      · rintro ⟨_, h2, h3⟩
        exact ⟨hi, h2.trans hs.symm, h3⟩
  have h0 := hdot u huT
  unfold StokesSEM.vDot at h0
  unfold vExchange
  rw [hvm, exchange_sum cs.vmesh _ j hjn]
  rw [hnv] at h0
  refine Eq.trans ?_ h0
  refine Finset.sum_congr rfl fun i hi => ?_
  rw [Finset.mem_range] at hi
  rw [Finset.sum_eq_single k]
  · change _ = (if _ then (1 : ℝ) else 0) * _
    by_cases hs : SameNode cs.vmesh j i
    · rw [if_pos hs, if_pos ⟨hi, hs, rfl⟩, one_mul]
    · simp [hs]
  · intro κ _ hκ
    change (if _ then (1 : ℝ) else 0) * _ = 0
    rw [if_neg (fun h => hκ h.2.2), zero_mul]
  · intro hk; exact absurd (Finset.mem_univ k) hk

theorem stepSetup (h : CubeSEM n d p a b per bcs cs vnode pnode l) (hn : 1 ≤ n) (hp : 3 ≤ p) (hab : a < b)
    (hb : CubeBCs d per bcs) (alpha : ℝ) (project : Bool) (hpr : project = true → bcs ≠ [] ∨ ∀ k : Fin d, (k : ℕ) ∈ per) :
    StepSetup cs.vmesh cs.pmesh cs.quad cs.overQuad cs.masks bcs cs.sem cs.low alpha project :=
  ⟨h.setup hn hb, h.filterSetup hp, Or.inr ⟨h.faceClosed hn hab hb, h.aligned hn hab⟩,
    fun hpr' => ⟨h.pressureSetup hn, h.closed hn hp hb (hpr hpr')⟩⟩

end CubeSEM

end Verif.NS
