import Verif.Model.DatagenSim
import Verif.Props.C112

/-!
# C113: the data generator only produces flows that repeat eight times

The initial state (datagen.py 57-63) and the forcing (66-73) do not change when the unit square is moved by (1/2, 0), (0, 1/2)
or (1/4, 1/4). The solver keeps such a symmetry (C111), with any tolerances and for any number of steps: in exact
arithmetic every snapshot of every file consists of eight copies of the same flow. In the code only rounding errors can
break the symmetry.
-/

set_option linter.unusedSectionVars false

namespace Verif.Niles

open Verif.Core Verif.NS Verif.NS.SemSym Verif.Spec

section Invariants

variable {K U P C : Type*} [Ring K] {PU : U → Prop} {PP : P → Prop} {PC : C → Prop} {T : ℕ}

/-- The solver succeeds and keeps properties of velocities, pressures and advection terms. -/
def KeepsInvariant (T : ℕ) (conv : U → C) (solve : List U → List P → List C → Except GenError (U × P × C)) (PU : U → Prop)
    (PP : P → Prop) (PC : C → Prop) : Prop :=
  (∀ u, PU u → PC (conv u)) ∧ ∀ us ps cus, us.length = T → ps.length = T → cus.length = T → (∀ u ∈ us, PU u) → (∀ p ∈ ps, PP p) →
    (∀ c ∈ cus, PC c) → ∃ u p c, solve us ps cus = .ok (u, p, c) ∧ PU u ∧ PP p ∧ PC c

variable {conv : U → C} {solve : List U → List P → List C → Except GenError (U × P × C)}

/-- Several invariants at once. -/
theorem KeepsInvariant.all {ι : Type*} [Nonempty ι] {conv : U → C} {solve : List U → List P → List C → Except GenError (U × P × C)}
    {PU : ι → U → Prop} {PP : ι → P → Prop} {PC : ι → C → Prop} (H : ∀ i, KeepsInvariant T conv solve (PU i) (PP i) (PC i)) :
    KeepsInvariant T conv solve (fun u => ∀ i, PU i u) (fun p => ∀ i, PP i p) (fun c => ∀ i, PC i c) := by
  refine ⟨fun u hu i => (H i).1 u (hu i), fun us ps cus h1 h2 h3 h4 h5 h6 => ?_⟩
  have key := fun i => (H i).2 us ps cus h1 h2 h3 (fun u hu => h4 u hu i) (fun p hp => h5 p hp i) (fun c hc => h6 c hc i)
  obtain ⟨u, p, c, hs, _⟩ := key (Classical.arbitrary ι)
  refine ⟨u, p, c, hs, ?_⟩
  have h7 : ∀ i, PU i u ∧ PP i p ∧ PC i c := fun i => by
    obtain ⟨u', p', c', hs', h8⟩ := key i
    rw [hs, Except.ok.injEq, Prod.mk.injEq, Prod.mk.injEq] at hs'
    obtain ⟨rfl, rfl, rfl⟩ := hs'
    exact h8
  exact ⟨fun i => (h7 i).1, fun i => (h7 i).2.1, fun i => (h7 i).2.2⟩

theorem mem_shift {α : Type*} {Q : α → Prop} {l : List α} {x : α} (h : ∀ y ∈ l, Q y) (hx : Q x) : ∀ y ∈ l.drop 1 ++ [x], Q y := by
  intro y hy
  rcases List.mem_append.mp hy with h1 | h1
  · exact h y (List.mem_of_mem_drop h1)
  · rw [List.mem_singleton.mp h1]; exact hx

theorem length_shift {α : Type*} (hT : 1 ≤ T) {l : List α} (x : α) (h : l.length = T) : (l.drop 1 ++ [x]).length = T := by
  simp; omega

theorem mem_snoc {α : Type*} {Q : α → Prop} {l : List α} {x : α} (h : ∀ y ∈ l, Q y) (hx : Q x) : ∀ y ∈ l ++ [x], Q y := by
  intro y hy
  rcases List.mem_append.mp hy with h1 | h1
  · exact h y h1
  · rw [List.mem_singleton.mp h1]; exact hx

theorem cycleLoop_inv (hT : 1 ≤ T) (H : KeepsInvariant T conv solve PU PP PC) (DT : K) (n : ℕ) : ∀ (i : ℕ) (v : GenVars K U P C),
    v.us.length = T → v.ps.length = T → v.cus.length = T → (∀ u ∈ v.us, PU u) → (∀ p ∈ v.ps, PP p) → (∀ c ∈ v.cus, PC c) →
    (∀ u ∈ v.du, PU u) → (∀ p ∈ v.dp, PP p) → ∃ w, cycleLoop DT solve n i v = .ok w ∧ w.us.length = T ∧ w.ps.length = T ∧
      (∀ u ∈ w.us, PU u) ∧ (∀ p ∈ w.ps, PP p) ∧ (∀ u ∈ w.du, PU u) ∧ (∀ p ∈ w.dp, PP p) := by
  induction n with
  | zero => intro i v h1 h2 h3 h4 h5 h6 h7 h8; exact ⟨v, rfl, h1, h2, h4, h5, h7, h8⟩
  | succ n ih =>
    intro i v h1 h2 h3 h4 h5 h6 h7 h8
    obtain ⟨u, p, c, hs, hu, hp, hc⟩ := H.2 _ _ _ h1 h2 h3 h4 h5 h6
    have l1 := length_shift hT u h1
    have l2 := length_shift hT p h2
    have l3 := length_shift hT c h3
    have e1 := mem_shift h4 hu
    have e2 := mem_shift h5 hp
    have e3 := mem_shift h6 hc
    rw [cycleLoop]
    simp only [cycleBody, hs]
    by_cases h10 : i % 10 = 0
    · rw [if_pos h10]
      exact ih (i + 1) _ l1 l2 l3 e1 e2 e3 (mem_snoc h7 hu) (mem_snoc h8 hp)
    · rw [if_neg h10]
      exact ih (i + 1) _ l1 l2 l3 e1 e2 e3 h7 h8

theorem simLoop_inv (hT : 1 ≤ T) (H : KeepsInvariant T conv solve PU PP PC) (DT : K) (s n : ℕ) : ∀ (i : ℕ) (us : List U) (ps : List P)
    (dir : List (GenFile K U P)), us.length = T → ps.length = T → (∀ u ∈ us, PU u) → (∀ p ∈ ps, PP p) →
    (∀ f ∈ dir, (∀ u ∈ f.u, PU u) ∧ ∀ p ∈ f.p, PP p) → ∃ files us' ps', simLoop DT T s conv solve n i us ps dir = (files, .ok (us', ps')) ∧
      files.length = dir.length + n ∧ ∀ f ∈ files, (∀ u ∈ f.u, PU u) ∧ ∀ p ∈ f.p, PP p := by
  induction n with
  | zero => intro i us ps dir h1 h2 h3 h4 h5; exact ⟨dir, us, ps, rfl, rfl, h5⟩
  | succ n ih =>
    intro i us ps dir h1 h2 h3 h4 h5
    obtain ⟨w, hw, w1, w2, w3, w4, w5, w6⟩ := cycleLoop_inv hT H DT s 1
      ⟨((i * s : ℕ) : K) * DT, us, ps, us.map conv, [((i * s : ℕ) : K) * DT], lastSlice us, lastSlice ps⟩ h1 h2 (by simpa using h1) h3 h4
      (fun c hc => by obtain ⟨u, hu, rfl⟩ := List.mem_map.mp hc; exact H.1 u (h3 u hu))
      (fun u hu => h3 u (List.mem_of_mem_drop hu)) (fun p hp => h4 p (List.mem_of_mem_drop hp))
    rw [simLoop, if_neg (by omega)]
    simp only [oneCycle, hw]
    obtain ⟨files, us', ps', h6, h7, h8⟩ := ih (i + 1) w.us w.ps (dir ++ [⟨i * s, i * s + s, w.dt, w.du, w.dp⟩]) w1 w2 w3 w4
      (mem_snoc h5 ⟨w5, w6⟩)
    exact ⟨files, us', ps', h6, by rw [h7]; simp; omega, h8⟩

/-- What every step keeps holds for everything that is written. -/
theorem runSimulation_inv (hT : 1 ≤ T) (H : KeepsInvariant T conv solve PU PP PC) (DT : K) (c s : ℕ) {u0 : U} {p0 : P} (hu : PU u0)
    (hp : PP p0) : ∃ files us ps, runSimulation DT T c s conv solve u0 p0 = (files, .ok (us, ps)) ∧ files.length = c ∧
      ∀ f ∈ files, (∀ u ∈ f.u, PU u) ∧ ∀ p ∈ f.p, PP p := by
  obtain ⟨files, us, ps, h1, h2, h3⟩ := simLoop_inv hT H DT s c 0 (List.replicate T u0) (List.replicate T p0) [] (by simp) (by simp)
    (fun u h => by rw [List.eq_of_mem_replicate h]; exact hu) (fun p h => by rw [List.eq_of_mem_replicate h]; exact hp) (by simp)
  exact ⟨files, us, ps, h1, by simpa using h2, h3⟩

theorem cycleLoop_prefix (DT : K) (n : ℕ) : ∀ (i : ℕ) (v w : GenVars K U P C), cycleLoop DT solve n i v = .ok w → ∃ t, w.du = v.du ++ t := by
  induction n with
  | zero => intro i v w h; cases h; exact ⟨[], by simp⟩
  | succ n ih =>
    intro i v w h
    rw [cycleLoop] at h
    split at h
    · cases h
    · rename_i v' hv'
      obtain ⟨t, ht⟩ := ih _ _ _ h
      unfold cycleBody at hv'
      split at hv'
      · cases hv'
      · dsimp only at hv'
        split at hv' <;> simp only [Except.ok.injEq] at hv' <;> subst hv'
        · rename_i u _ _ _ _
          exact ⟨[u] ++ t, by rw [ht]; simp⟩
        · exact ⟨t, ht⟩

theorem simLoop_prefix (DT : K) (s n : ℕ) : ∀ (i : ℕ) (us : List U) (ps : List P) (dir : List (GenFile K U P)),
    ∃ t, (simLoop DT T s conv solve n i us ps dir).1 = dir ++ t := by
  induction n with
  | zero => intro i us ps dir; exact ⟨[], by simp [simLoop]⟩
  | succ n ih =>
    intro i us ps dir
    rw [simLoop]
    split
    · exact ⟨[], by simp⟩
    · split
      · rename_i dir' e h
        unfold oneCycle at h
        dsimp only at h
        split at h
        · simp only [Prod.mk.injEq] at h
          exact ⟨[], by simp [h.1]⟩
        · simp at h
      · rename_i dir' us' ps' h
        unfold oneCycle at h
        dsimp only at h
        split at h
        · simp at h
        · simp only [Prod.mk.injEq] at h
          obtain ⟨t, ht⟩ := ih (i + 1) us' ps' dir'
          rw [ht, ← h.1]
          exact ⟨_, List.append_assoc _ _ _⟩

/-- The first file starts with the initial state. -/
theorem runSimulation_first (hT : 1 ≤ T) (DT : K) {c s : ℕ} (hc : 1 ≤ c) {u0 : U} {p0 : P} {files : List (GenFile K U P)} {r : List U × List P}
    (h : runSimulation DT T c s conv solve u0 p0 = (files, .ok r)) : ∃ f, files.head? = some f ∧ f.u.head? = some u0 := by
  obtain ⟨c, rfl⟩ : ∃ c', c = c' + 1 := ⟨c - 1, by omega⟩
  unfold runSimulation at h
  rw [simLoop, if_neg (by simp)] at h
  unfold oneCycle at h
  dsimp only at h
  split at h
  · simp at h
  · rename_i dir' us' ps' h'
    split at h'
    · simp at h'
    · rename_i w hw
      simp only [Prod.mk.injEq] at h'
      obtain ⟨t, ht⟩ := simLoop_prefix (T := T) (conv := conv) (solve := solve) DT s c (0 + 1) us' ps' dir'
      rw [h, ← h'.1] at ht
      obtain ⟨t', ht'⟩ := cycleLoop_prefix DT s 1 _ w hw
      refine ⟨_, by rw [show files = _ from ht]; rfl, ?_⟩
      dsimp only at ht' ⊢
      have : lastSlice (List.replicate T u0) = [u0] := by
        unfold lastSlice
        rw [List.drop_replicate, List.length_replicate, show T - (T - 1) = 1 by omega]
        rfl
      rw [ht', this]
      rfl

end Invariants

end Verif.Niles

namespace Verif.Niles

open Verif.Core Verif.NS Verif.NS.SemSym Verif.Spec

variable {n p over : ℕ} {g : GenConsts} {cs : CubeStokes 2} {s : Fin 2 → ℕ}

/-- Shifts of the unit square that change neither the initial state nor the forcing: by a half along one axis or by a quarter along
both, and all sums of these. -/
def TilingShift (w : Fin 2 → ℝ) : Prop :=
  (∃ i j : ℤ, w 0 = i / 2 ∧ w 1 = j / 2) ∨ ∃ i j : ℤ, w 0 = 1 / 4 + i / 2 ∧ w 1 = 1 / 4 + j / 2

theorem uInitFn_tiling {w : Fin 2 → ℝ} (hw : TilingShift w) (x : Fin 2 → ℝ) : uInitFn (fun k => x k + w k) = uInitFn x := by
  have hs : ∀ (y : ℝ) (i : ℤ), Real.sin (y + i * (2 * Real.pi)) = Real.sin y := fun y i => Real.sin_add_int_mul_two_pi y i
  have hc : ∀ (y : ℝ) (i : ℤ), Real.cos (y + i * (2 * Real.pi)) = Real.cos y := fun y i => Real.cos_add_int_mul_two_pi y i
  rcases hw with ⟨i, j, h0, h1⟩ | ⟨i, j, h0, h1⟩
  · have e0 : 2 * 2 * Real.pi * (x 0 + w 0) = 2 * 2 * Real.pi * x 0 + i * (2 * Real.pi) := by rw [h0]; ring
    have e1 : 2 * 2 * Real.pi * (x 1 + w 1) = 2 * 2 * Real.pi * x 1 + j * (2 * Real.pi) := by rw [h1]; ring
    simp only [uInitFn, e0, e1, hs, hc]
  · have e0 : 2 * 2 * Real.pi * (x 0 + w 0) = (2 * 2 * Real.pi * x 0 + i * (2 * Real.pi)) + Real.pi := by rw [h0]; ring
    have e1 : 2 * 2 * Real.pi * (x 1 + w 1) = (2 * 2 * Real.pi * x 1 + j * (2 * Real.pi)) + Real.pi := by rw [h1]; ring
    simp only [uInitFn, e0, e1, Real.sin_add_pi, Real.cos_add_pi, hs, hc]
    simp

theorem forcing_tiling {w : Fin 2 → ℝ} (hw : TilingShift w) : Function.Periodic (fun y : ℝ => Real.sin (2 * Real.pi * 4 * y)) (w 1) := by
  intro y
  obtain ⟨z, hz⟩ : ∃ z : ℤ, w 1 = z / 4 := by
    rcases hw with ⟨i, j, h0, h1⟩ | ⟨i, j, h0, h1⟩
    · exact ⟨2 * j, by rw [h1]; push_cast; ring⟩
    · exact ⟨1 + 2 * j, by rw [h1]; push_cast; ring⟩
  have e : 2 * Real.pi * 4 * (y + w 1) = 2 * Real.pi * 4 * y + z * (2 * Real.pi) := by rw [hz]; ring
  simp only [e, Real.sin_add_int_mul_two_pi]

theorem uInitFn_torus {x y : Fin 2 → ℝ} (h : TorusPoint [0, 1] (1 - 0) x y) : uInitFn x = uInitFn y := by
  have key : ∀ k : Fin 2, ∃ z : ℤ, x k = y k + z := fun k => by
    rcases h k with h1 | ⟨_, z, h1⟩
    · exact ⟨0, by simp [h1]⟩
    · exact ⟨z, by simpa using h1⟩
  obtain ⟨i, hi⟩ := key 0
  obtain ⟨j, hj⟩ := key 1
  have e : x = fun k => y k + (![(i : ℝ), (j : ℝ)] : Fin 2 → ℝ) k := by
    funext k
    fin_cases k
    · exact hi
    · exact hj
  rw [e]
  exact uInitFn_tiling (Or.inl ⟨2 * i, 2 * j, by simp, by simp⟩) y

/-- The initial velocity is invariant. -/
theorem uInit_shifted {w : Fin 2 → ℝ} (hw : TilingShift w) (mesh : Mesh ℝ 2) :
    ShiftedVel mesh [0, 1] (1 - 0) w (fun j => uInitFn (mesh.coords j)) (fun j => uInitFn (mesh.coords j)) := by
  intro k i _ j _ hpt
  dsimp only
  rw [uInitFn_torus hpt, uInitFn_tiling hw]

/-- One step keeps the symmetry, and does not fail. -/
theorem genStep_keeps (hn : 1 ≤ n) (hp : 3 ≤ p) (hcs : cubeStokes n 2 p over 0 1 [0, 1] [] = .ok cs) (htime : 2 ≤ g.timeOrder)
    (hRe : 0 < g.reynolds) (hdt : 0 < g.dt) {w : Fin 2 → ℝ} (hw : TilingShift w) (hs : w = fun k => s k * ((1 - 0) / (n : ℝ))) :
    KeepsInvariant g.timeOrder cs.sem.C (genStep g cs.low cs.sem) (fun u => ShiftedVel cs.vmesh [0, 1] (1 - 0) w u u)
      (fun q => Shifted cs.pmesh [0, 1] (1 - 0) w q q)
      (fun c => ShiftedForce cs.vmesh [0, 1] (1 - 0) w c c ∧ ∀ j, cs.vmesh.numNodes ≤ j → c j = 0) := by
  have hbc : CubeBCs 2 [0, 1] [] := Or.inr rfl
  have hab : (0 : ℝ) < 1 := one_pos
  obtain ⟨vnode, pnode, l, h⟩ := cubeStokes_of hn (by norm_num) hp hab hbc hcs
  have hs0 : ∀ k : Fin 2, (k : ℕ) ∉ [0, 1] → s k = 0 := by
    intro k hk
    fin_cases k <;> simp at hk
  have hwp := forcing_tiling hw
  subst hs
  have hV := symVel_iff h hn hab hs0
  have hP := symPressure_iff h hn hp hab hcs hs0
  have hC := symCovel_iff h hn hab hs0
  have hvm := FESpace.build_mesh h.vbuild
  have hsem := h.semSym hn hp hab hbc hs0
  have S := h.stepSetup hn hp hab hbc g.alpha true (fun _ => Or.inr fun k => by fin_cases k <;> simp)
  have hCout : ∀ v : Vel ℝ 2, ∀ j, cs.vmesh.numNodes ≤ j → cs.sem.C v j = 0 := by
    intro v j hj
    funext x
    unfold StokesSEM.C StokesSEM.masked
    rw [vScatter_outside _ _ _ (by rw [hvm]; exact hj), mul_zero]
    rfl
  refine ⟨fun u hu => ⟨(hC _ _).mp (hsem.C ((hV u u).mpr hu)), hCout u⟩, fun us ps cus hul hpl hcl hus hps hcus => ?_⟩
  have hus' : List.Forall₂ (SymVel cs.sem (shiftElem n 2 s)) us us := List.forall₂_same.mpr fun v hv => (hV v v).mpr (hus v hv)
  have hps' := List.forall₂_same.mpr fun v hv => (hP v v).mpr (hps v hv)
  have hcus' : List.Forall₂ (SymCovel cs.sem (shiftElem n 2 s)) cus cus := List.forall₂_same.mpr fun v hv => (hC v v).mpr (hcus v hv).1
  obtain ⟨k, hk⟩ : ∃ k, g.timeOrder = k + 1 := ⟨g.timeOrder - 1, by omega⟩
  obtain ⟨e, he, _⟩ := extk_exists (K := ℝ) (g.timeOrder - 1) (by omega)
  obtain ⟨ul, hlast⟩ : ∃ ul, us.getLast? = some ul := by
    rw [List.getLast?_eq_getElem?]
    exact ⟨_, List.getElem?_eq_getElem (by omega)⟩
  obtain ⟨cu, hcu, hcu0⟩ : ∃ cu, extAdvection (g.timeOrder - 1) cus = .ok cu ∧ ∀ j, cs.vmesh.numNodes ≤ j → cu j = 0 := by
    unfold extAdvection
    rw [he]
    dsimp only
    rw [if_neg (by omega)]
    refine ⟨_, rfl, fun j hj => ?_⟩
    funext x
    refine Finset.sum_eq_zero fun y _ => ?_
    have h1 : (y : ℕ) < cus.reverse.length := by rw [List.length_reverse]; omega
    rw [List.getD_eq_getElem _ _ h1]
    rw [(hcus _ (List.mem_reverse.mp (List.getElem_mem h1))).2 j hj]
    simp
  have hext := extAdvection_sym hsem (g.timeOrder - 1) hcus'
  rw [hcu] at hext
  have hcuS : SymCovel cs.sem (shiftElem n 2 s) cu cu := by cases hext with | ok h => exact h
  have hulS : SymVel cs.sem (shiftElem n 2 s) ul ul := (hV _ _).mpr (hus ul (List.mem_of_getLast? hlast))
  have hwS := wave_sym (wave := fun y : ℝ => Real.sin (2 * Real.pi * 4 * y)) (k := 1) h hn hab hs0
    (fun _ => by simpa using forcing_tiling (w := fun _ => 1) (Or.inl ⟨2, 2, by norm_num, by norm_num⟩)) hwp
  have hfS : SymVel cs.sem (shiftElem n 2 s) (fun p k => genForcing g.drag (cs.sem.vspace.mesh.coords p) (ul p) k)
      (fun p k => genForcing g.drag (cs.sem.vspace.mesh.coords p) (ul p) k) := fun k => by
    have := hwS.map₂ (hulS k) fun x y => (![x, 0] : Fin 2 → ℝ) k - g.drag * y
    exact this
  have hF : SymCovel cs.sem (shiftElem n 2 s)
      (fun p k => -cu p k + cs.sem.B (fun p k => genForcing g.drag (cs.sem.vspace.mesh.coords p) (ul p) k) p k)
      (fun p k => -cu p k + cs.sem.B (fun p k => genForcing g.drag (cs.sem.vspace.mesh.coords p) (ul p) k) p k) := by
    have := hsem.covel₂ hcuS (hsem.B hfS) (-1) 1
    simpa using this
  have H := S.setup
  obtain ⟨st, hst, _⟩ := C42_step (us := us) (ps := ps) (mu := 1 / g.reynolds) (dt := g.dt) (timeOrder := g.timeOrder) (tol := g.tol)
    (atol := g.atol) (f := fun p k => -cu p k + cs.sem.B (fun p k => genForcing g.drag (cs.sem.vspace.mesh.coords p) (ul p) k) p k) S
    (fun j hD => by simp [DirichletNode] at hD) (fun j hj => by
      funext x
      have := H.massOutside j (by unfold StokesSEM.numV; rw [hvm]; exact hj) x
      simp [hcu0 j hj, StokesSEM.B, this]) (by positivity) hdt (by omega) (by omega)
  obtain ⟨r1, r2⟩ := C111_invariant hn (by norm_num) hp hab hbc hcs hs0 hus hps ((hC _ _).mp hF) hst
  refine ⟨st.u, st.p, cs.sem.C st.u, ?_, r1, r2, (hC _ _).mp (hsem.C ((hV _ _).mpr r1)), hCout _⟩
  unfold genStep
  simp only [hcu, hlast, hst]

theorem torus_shift {x y w v : Fin 2 → ℝ} (hv : ∀ k, ∃ z : ℤ, w k = v k + z) (h : TorusPoint [0, 1] 1 x (fun k => y k + w k)) :
    TorusPoint [0, 1] 1 x (fun k => y k + v k) := by
  intro k
  obtain ⟨z, hz⟩ := hv k
  refine Or.inr ⟨by fin_cases k <;> simp, ?_⟩
  rcases h k with h1 | ⟨_, m, h1⟩
  · exact ⟨z, by rw [h1]; dsimp only; rw [hz]; ring⟩
  · exact ⟨z + m, by rw [h1]; dsimp only; rw [hz]; push_cast; ring⟩

/-- Shifts by whole elements, up to periods. -/
theorem tiling_elements (hn : 1 ≤ n) (h4 : 4 ∣ n) {w : Fin 2 → ℝ} (hw : TilingShift w) :
    ∃ s : Fin 2 → ℕ, TilingShift (fun k => s k * (1 / (n : ℝ))) ∧ ∀ k, ∃ z : ℤ, w k = s k * (1 / (n : ℝ)) + z := by
  obtain ⟨m, rfl⟩ := h4
  have hm : (m : ℝ) ≠ 0 := by
    have : m ≠ 0 := by omega
    exact_mod_cast this
  have key : ∀ i : ℤ, ∃ (t : ℕ) (z : ℤ), (i : ℝ) / 2 = t / 2 + z ∧ t < 2 := fun i => by
    refine ⟨(i % 2).toNat, i / 2, ?_, ?_⟩
    · have h1 : ((i % 2).toNat : ℤ) = i % 2 := Int.toNat_of_nonneg (Int.emod_nonneg i (by norm_num))
      have h2 := Int.emod_add_mul_ediv i 2
      have h3 : ((i % 2).toNat : ℝ) = ((i % 2 : ℤ) : ℝ) := by exact_mod_cast h1
      have h4 : (i : ℝ) = ((i % 2 : ℤ) : ℝ) + 2 * ((i / 2 : ℤ) : ℝ) := by exact_mod_cast h2.symm
      rw [h3, h4]
      ring
    · have := Int.emod_lt_of_pos i (b := 2) (by norm_num)
      omega
  rcases hw with ⟨i, j, h0, h1⟩ | ⟨i, j, h0, h1⟩
  · obtain ⟨t, z, ht, _⟩ := key i
    obtain ⟨t', z', ht', _⟩ := key j
    have e : ∀ t : ℕ, ((2 * m * t : ℕ) : ℝ) * (1 / ((4 * m : ℕ) : ℝ)) = t / 2 := fun t => by push_cast; field_simp; ring
    refine ⟨![2 * m * t, 2 * m * t'], Or.inl ⟨t, t', ?_, ?_⟩, fun k => ?_⟩
    · simpa using e t
    · simpa using e t'
    · fin_cases k
      · exact ⟨z, by simp only [Fin.zero_eta, Matrix.cons_val_zero]; rw [e, h0, ht]⟩
      · exact ⟨z', by simp only [Fin.mk_one, Matrix.cons_val_one, Matrix.cons_val_fin_one]; rw [e, h1, ht']⟩
  · obtain ⟨t, z, ht, _⟩ := key i
    obtain ⟨t', z', ht', _⟩ := key j
    have e : ∀ t : ℕ, ((m + 2 * m * t : ℕ) : ℝ) * (1 / ((4 * m : ℕ) : ℝ)) = 1 / 4 + t / 2 := fun t => by push_cast; field_simp; ring
    refine ⟨![m + 2 * m * t, m + 2 * m * t'], Or.inr ⟨t, t', ?_, ?_⟩, fun k => ?_⟩
    · simpa using e t
    · simpa using e t'
    · fin_cases k
      · exact ⟨z, by simp only [Fin.zero_eta, Matrix.cons_val_zero]; rw [e, h0, ht]; ring⟩
      · exact ⟨z', by simp only [Fin.mk_one, Matrix.cons_val_one, Matrix.cons_val_fin_one]; rw [e, h1, ht']; ring⟩

/-- **C113 (violated).** `run_simulation` with any constants on the unit square, divided into a number of elements that is a
multiple of four: all cycles run, and every velocity and pressure that is written is unchanged by every shift that leaves the
initial state and the forcing unchanged: by (1/2, 0), (0, 1/2), (1/4, 1/4) and their sums. -/
theorem C113_violated (hn : 1 ≤ n) (h4 : 4 ∣ n) (hp : 3 ≤ p) (hcs : cubeStokes n 2 p over 0 1 [0, 1] [] = .ok cs)
    (htime : 2 ≤ g.timeOrder) (hRe : 0 < g.reynolds) (hdt : 0 < g.dt) (numCycles stepsPerCycle : ℕ) :
    ∃ files us ps, generate g numCycles stepsPerCycle cs.low cs.sem = (files, .ok (us, ps)) ∧ files.length = numCycles ∧
      ∀ f ∈ files, (∀ u ∈ f.u, ∀ w, TilingShift w → ShiftedVel cs.vmesh [0, 1] 1 w u u) ∧
        ∀ q ∈ f.p, ∀ w, TilingShift w → Shifted cs.pmesh [0, 1] 1 w q q := by
  let ι := {s : Fin 2 → ℕ // TilingShift fun k => s k * (1 / (n : ℝ))}
  have : Nonempty ι := ⟨⟨0, Or.inl ⟨0, 0, by simp, by simp⟩⟩⟩
  have H := KeepsInvariant.all (ι := ι) fun i => genStep_keeps (g := g) hn hp hcs htime hRe hdt i.2 (by norm_num : _ = fun k => i.1 k * ((1 - 0) / (n : ℝ)))
  obtain ⟨files, us, ps, h1, h2, h3⟩ := runSimulation_inv (by omega) H g.dt numCycles stepsPerCycle
    (u0 := fun j => uInitFn (cs.vmesh.coords j)) (p0 := fun _ => 0) (fun i => uInit_shifted i.2 _) (fun i _ _ _ _ _ => rfl)
  have hvm : cs.sem.vspace.mesh = cs.vmesh := by
    obtain ⟨vnode, pnode, l, h⟩ := cubeStokes_of hn (by norm_num) hp one_pos (Or.inr rfl : CubeBCs 2 [0, 1] []) hcs
    exact FESpace.build_mesh h.vbuild
  refine ⟨files, us, ps, by unfold generate; rw [hvm]; exact h1, h2, fun f hf => ?_⟩
  obtain ⟨h4u, h4p⟩ := h3 f hf
  refine ⟨fun u hu w hw k i hi j hj hpt => ?_, fun q hq w hw i hi j hj hpt => ?_⟩
  · obtain ⟨s, hs, hz⟩ := tiling_elements hn h4 hw
    have := h4u u hu ⟨s, hs⟩ k i hi j hj
    rw [sub_zero] at this
    exact this (torus_shift hz hpt)
  · obtain ⟨s, hs, hz⟩ := tiling_elements hn h4 hw
    have := h4p q hq ⟨s, hs⟩ i hi j hj
    rw [sub_zero] at this
    exact this (torus_shift hz hpt)

/-- The corners of the elements are nodes. -/
theorem corner_coords {vnode pnode : ℕ → ℕ → ℕ} {l : List ℝ} {per : List ℕ} {bcs : List (String × BCType)}
    (h : CubeSEM n 2 p 0 1 per bcs cs vnode pnode l) (hn : 1 ≤ n) {e : ℕ} (he : e < n ^ 2) (k : Fin 2) :
    cs.vmesh.coords (vnode e 0) k = digit n 2 k e / n := by
  have hC := h.vcube.cells
  have hn0 : (n : ℝ) ≠ 0 := by
    have : n ≠ 0 := by omega
    exact_mod_cast this
  have h0 : 0 < cs.vmesh.nodesPerElem := by unfold Mesh.nodesPerElem; rw [hC.points]; positivity
  obtain ⟨x, hx, _, _, hx3⟩ := h.axis hn he h0 k
  have hd : digit (p + 1) 2 k 0 = 0 := by simp [digit]
  rw [hd, hC.first] at hx
  rw [hx3, hx]
  field_simp
  ring

/-- A velocity that a shift by whole elements leaves unchanged, when it is the initial velocity. -/
theorem uInit_only (h8 : 8 ∣ n) (hn : 1 ≤ n) (hp : 3 ≤ p) (hcs : cubeStokes n 2 p over 0 1 [0, 1] [] = .ok cs) (s : Fin 2 → ℕ)
    (H : ShiftedVel cs.vmesh [0, 1] 1 (fun k => s k / n) (fun j => uInitFn (cs.vmesh.coords j)) (fun j => uInitFn (cs.vmesh.coords j))) :
    TilingShift (fun k => s k / n) := by
  obtain ⟨vnode, pnode, l, h⟩ := cubeStokes_of hn (by norm_num) hp one_pos (Or.inr rfl : CubeBCs 2 [0, 1] []) hcs
  have hC := h.vcube.cells
  have hn0 : (n : ℝ) ≠ 0 := by
    have : n ≠ 0 := by omega
    exact_mod_cast this
  have h0 : 0 < cs.vmesh.nodesPerElem := by unfold Mesh.nodesPerElem; rw [hC.points]; positivity
  obtain ⟨m, hm⟩ := h8
  have hm0 : (m : ℝ) ≠ 0 := by
    have : m ≠ 0 := by omega
    exact_mod_cast this
  obtain ⟨e, he, hd⟩ := digit_surj (fun k : Fin 2 => if k = 0 then (⟨0, by omega⟩ : Fin n) else ⟨m, by omega⟩)
  have hd0 : digit n 2 ((0 : Fin 2) : ℕ) e = 0 := by simpa using hd 0
  have hd1 : digit n 2 ((1 : Fin 2) : ℕ) e = m := by simpa using hd 1
  have hx0 := corner_coords h hn he 0
  have hx1 := corner_coords h hn he 1
  rw [hd0] at hx0
  rw [hd1, hm] at hx1
  have hx0' : cs.vmesh.coords (vnode e 0) 0 = 0 := by rw [hx0]; simp
  have hx1' : cs.vmesh.coords (vnode e 0) 1 = 1 / 8 := by rw [hx1]; push_cast; field_simp
  have hpt : TorusPoint [0, 1] 1 (cs.vmesh.coords (vnode (shiftElem n 2 s e) 0)) (fun k => cs.vmesh.coords (vnode e 0) k + s k / n) := by
    have := hC.toAffCells.shift (per := [0, 1]) hn (s := s) (fun k hk => by fin_cases k <;> simp at hk) he h0
    have e1 : 2 * ((1 - 0) / (2 * (n : ℝ))) * n = 1 := by field_simp; ring
    have e2 : 2 * ((1 - 0) / (2 * (n : ℝ))) = 1 / n := by field_simp; ring
    rw [e1, e2] at this
    simpa [div_eq_mul_inv] using this
  have hval := H 0 _ (hC.lt e he 0 h0) _ (hC.lt _ (shiftElem_lt hn s e) 0 h0) hpt
  dsimp only at hval
  rw [uInitFn_torus (by simpa using hpt)] at hval
  simp only [uInitFn, Matrix.cons_val_zero, hx0', hx1'] at hval
  have hs1 : (2 * 2 * Real.pi * (1 / 8 + (s 1 : ℝ) / n)) = 2 * 2 * Real.pi * ((s 1 : ℝ) / n) + Real.pi / 2 := by ring
  have hs2 : (2 * 2 * Real.pi * (1 / 8 : ℝ)) = Real.pi / 2 := by ring
  rw [hs1, hs2, Real.sin_add_pi_div_two, Real.sin_pi_div_two] at hval
  simp only [mul_zero, Real.cos_zero, one_mul, zero_add] at hval
  have hpi := Real.pi_pos
  have a1 := Real.cos_le_one (2 * 2 * Real.pi * ((s 0 : ℝ) / n))
  have a2 := Real.neg_one_le_cos (2 * 2 * Real.pi * ((s 0 : ℝ) / n))
  have b1 := Real.cos_le_one (2 * 2 * Real.pi * ((s 1 : ℝ) / n))
  have b2 := Real.neg_one_le_cos (2 * 2 * Real.pi * ((s 1 : ℝ) / n))
  have hone : ∀ y : ℝ, Real.cos (2 * 2 * Real.pi * y) = 1 → ∃ i : ℤ, y = i / 2 := fun y hy => by
    obtain ⟨i, hi⟩ := (Real.cos_eq_one_iff _).mp hy
    refine ⟨i, ?_⟩
    have : Real.pi * (i - 2 * y) = 0 := by linarith
    have := (mul_eq_zero.mp this).resolve_left hpi.ne'
    linarith
  have hneg : ∀ y : ℝ, Real.cos (2 * 2 * Real.pi * y) = -1 → ∃ i : ℤ, y = 1 / 4 + i / 2 := fun y hy => by
    obtain ⟨i, hi⟩ := hone (y - 1 / 4) (by
      rw [show 2 * 2 * Real.pi * (y - 1 / 4) = 2 * 2 * Real.pi * y - Real.pi by ring, Real.cos_sub_pi, hy, neg_neg])
    exact ⟨i, by linarith⟩
  rcases le_total 0 (Real.cos (2 * 2 * Real.pi * ((s 0 : ℝ) / n))) with hc | hc
  · have c1 : Real.cos (2 * 2 * Real.pi * ((s 0 : ℝ) / n)) = 1 := by nlinarith
    have c2 : Real.cos (2 * 2 * Real.pi * ((s 1 : ℝ) / n)) = 1 := by nlinarith
    obtain ⟨i, hi⟩ := hone _ c1
    obtain ⟨j, hj⟩ := hone _ c2
    exact Or.inl ⟨i, j, hi, hj⟩
  · have c1 : Real.cos (2 * 2 * Real.pi * ((s 0 : ℝ) / n)) = -1 := by nlinarith
    have c2 : Real.cos (2 * 2 * Real.pi * ((s 1 : ℝ) / n)) = -1 := by nlinarith
    obtain ⟨i, hi⟩ := hneg _ c1
    obtain ⟨j, hj⟩ := hneg _ c2
    exact Or.inr ⟨i, j, hi, hj⟩

/-- **C113 (partial).** On a number of elements that is a multiple of eight, the first velocity of the first file repeats
under no other shifts by whole elements than those of `C113_violated`: it does not consist of more than eight copies.
Missing: that later flows do not repeat, which is false by `C113_violated`. -/
theorem C113_partial (h8 : 8 ∣ n) (hn : 1 ≤ n) (hp : 3 ≤ p) (hcs : cubeStokes n 2 p over 0 1 [0, 1] [] = .ok cs)
    (htime : 2 ≤ g.timeOrder) (hRe : 0 < g.reynolds) (hdt : 0 < g.dt) {numCycles : ℕ} (hc : 1 ≤ numCycles) (stepsPerCycle : ℕ) :
    ∃ f u, (generate g numCycles stepsPerCycle cs.low cs.sem).1.head? = some f ∧ f.u.head? = some u ∧ ∀ s : Fin 2 → ℕ,
      ShiftedVel cs.vmesh [0, 1] 1 (fun k => s k / n) u u ↔ TilingShift (fun k => s k / n) := by
  obtain ⟨files, us, ps, hg, _, _⟩ := C113_violated (g := g) hn (Dvd.dvd.trans (by norm_num) h8) hp hcs htime hRe hdt numCycles stepsPerCycle
  have hvm : cs.sem.vspace.mesh = cs.vmesh := by
    obtain ⟨vnode, pnode, l, h⟩ := cubeStokes_of hn (by norm_num) hp one_pos (Or.inr rfl : CubeBCs 2 [0, 1] []) hcs
    exact FESpace.build_mesh h.vbuild
  obtain ⟨f, hf, hu⟩ := runSimulation_first (T := g.timeOrder) (by omega) g.dt hc hg
  refine ⟨f, _, by rw [hg]; exact hf, hu, fun s => ?_⟩
  rw [hvm]
  exact ⟨uInit_only h8 hn hp hcs s, fun hs => by simpa using uInit_shifted hs cs.vmesh⟩

/-- The constants of the code (lines 47-54) meet the hypotheses. -/
example : ∃ cs, cubeStokes 64 2 8 2 0 1 [0, 1] [] = .ok cs ∧ ∃ files us ps, generate genConsts 500 500 cs.low cs.sem = (files, .ok (us, ps)) ∧
    files.length = 500 ∧ ∀ f ∈ files, ∀ u ∈ f.u, ShiftedVel cs.vmesh [0, 1] 1 ![1 / 4, 1 / 4] u u := by
  obtain ⟨cs, hcs⟩ := C92_create (over := 2) (n := 64) (d := 2) (p := 8) (a := 0) (b := 1) (by norm_num) (by norm_num)
    (by norm_num) (by norm_num) [0, 1] (bcs := []) (Or.inr rfl)
  obtain ⟨files, us, ps, h1, h2, h3⟩ := C113_violated (g := genConsts) (by norm_num) (by norm_num) (by norm_num) hcs (by norm_num [genConsts])
    (by norm_num [genConsts]) (by norm_num [genConsts]) 500 500
  exact ⟨cs, hcs, files, us, ps, h1, h2, fun f hf u hu => (h3 f hf).1 u hu _ (Or.inr ⟨0, 0, by simp, by simp⟩)⟩

end Verif.Niles
