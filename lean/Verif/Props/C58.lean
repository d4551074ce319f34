import Verif.Prelude
import Verif.Model.Datagen

/-!
# C58: the simulation cycles of the data generator

`traj k` is the simulation as one uninterrupted sequence of time steps. With a solver that succeeds, the cycles write
exactly this sequence, cut into files, whatever the length of a cycle; with the `_solve_one_step` of the code every
cycle raises an exception and no file is written.
-/

namespace Verif.Niles

variable {K U P C : Type*} [Ring K]

/-- The histories (velocities and pressures) after `k` time steps of the solver `f`. -/
def traj (f : List U → List P → List C → U × P) (conv : U → C) (us : List U) (ps : List P) : ℕ → List U × List P
  | 0 => (us, ps)
  | k + 1 =>
    let h := traj f conv us ps k
    let r := f h.1 h.2 (h.1.map conv)
    (h.1.tail ++ [r.1], h.2.tail ++ [r.2])

/-- The solver that never fails and returns the convection term of the new velocity (the contract of lines 91-102). -/
def goodSolve (f : List U → List P → List C → U × P) (conv : U → C) (us : List U) (ps : List P) (cus : List C) :
    Except GenError (U × P × C) := .ok ((f us ps cus).1, (f us ps cus).2, conv (f us ps cus).1)

theorem traj_length (f : List U → List P → List C → U × P) (conv : U → C) (us : List U) (ps : List P)
    (hu : us ≠ []) (hp : ps ≠ []) (k : ℕ) :
    (traj f conv us ps k).1.length = us.length ∧ (traj f conv us ps k).2.length = ps.length := by
  have h1 := List.length_pos_of_ne_nil hu
  have h2 := List.length_pos_of_ne_nil hp
  induction k with
  | zero => exact ⟨rfl, rfl⟩
  | succ k ih => simp [traj]; omega

theorem cycleLoop_good (DT : K) (f : List U → List P → List C → U × P) (conv : U → C) (us : List U) (ps : List P)
    (n : ℕ) : ∀ (j s : ℕ) (dt : List K) (du : List U) (dp : List P),
    cycleLoop DT (goodSolve f conv) n (j + 1)
      ⟨((s + j : ℕ) : K) * DT, (traj f conv us ps (s + j)).1, (traj f conv us ps (s + j)).2,
        (traj f conv us ps (s + j)).1.map conv, dt, du, dp⟩ =
    .ok ⟨((s + j + n : ℕ) : K) * DT, (traj f conv us ps (s + j + n)).1, (traj f conv us ps (s + j + n)).2,
        (traj f conv us ps (s + j + n)).1.map conv,
        dt ++ ((List.range' (j + 1) n).filter (· % 10 = 0)).map (fun i => ((s + i : ℕ) : K) * DT),
        du ++ ((List.range' (j + 1) n).filter (· % 10 = 0)).flatMap (fun i => (traj f conv us ps (s + i)).1.getLast?.toList),
        dp ++ ((List.range' (j + 1) n).filter (· % 10 = 0)).flatMap
          (fun i => (traj f conv us ps (s + i)).2.getLast?.toList)⟩ := by
  induction n with
  | zero => intro j s dt du dp; simp [cycleLoop]
  | succ n ih =>
    intro j s dt du dp
    have ht : ((s + j : ℕ) : K) * DT + DT = ((s + (j + 1) : ℕ) : K) * DT := by
      rw [← Nat.add_assoc, Nat.cast_add _ 1, Nat.cast_one, add_mul, one_mul]
    have hbody : ∀ h : List U × List P, h = traj f conv us ps (s + j) →
        traj f conv us ps (s + (j + 1)) =
          (h.1.tail ++ [(f h.1 h.2 (h.1.map conv)).1], h.2.tail ++ [(f h.1 h.2 (h.1.map conv)).2]) := by
      intro h e; rw [e]; rfl
    have hb := hbody _ rfl
    have hi := ih (j + 1) s
    rw [cycleLoop]
    simp only [cycleBody, goodSolve, List.drop_one, ht]
    have e1 : (traj f conv us ps (s + j)).1.tail ++ [(f (traj f conv us ps (s + j)).1 (traj f conv us ps (s + j)).2
        ((traj f conv us ps (s + j)).1.map conv)).1] = (traj f conv us ps (s + (j + 1))).1 := by rw [hb]
    have e2 : (traj f conv us ps (s + j)).2.tail ++ [(f (traj f conv us ps (s + j)).1 (traj f conv us ps (s + j)).2
        ((traj f conv us ps (s + j)).1.map conv)).2] = (traj f conv us ps (s + (j + 1))).2 := by rw [hb]
    have e3 : (List.map conv (traj f conv us ps (s + j)).1).tail ++ [conv (f (traj f conv us ps (s + j)).1
        (traj f conv us ps (s + j)).2 ((traj f conv us ps (s + j)).1.map conv)).1] =
        (traj f conv us ps (s + (j + 1))).1.map conv := by rw [← e1]; simp
    have l1 : (traj f conv us ps (s + (j + 1))).1.getLast?.toList = [(f (traj f conv us ps (s + j)).1
        (traj f conv us ps (s + j)).2 ((traj f conv us ps (s + j)).1.map conv)).1] := by rw [← e1]; simp
    have l2 : (traj f conv us ps (s + (j + 1))).2.getLast?.toList = [(f (traj f conv us ps (s + j)).1
        (traj f conv us ps (s + j)).2 ((traj f conv us ps (s + j)).1.map conv)).2] := by rw [← e2]; simp
    have hcount : s + j + (n + 1) = s + (j + 1) + n := by omega
    rw [e1, e2, e3, hcount]
    by_cases h10 : (j + 1) % 10 = 0
    · rw [if_pos h10]
      simp only
      rw [hi]
      simp [List.range'_succ, h10, l1, l2]
    · rw [if_neg h10]
      simp only
      rw [hi]
      simp [List.range'_succ, h10]

theorem filter_ten (n : ℕ) : (List.range' 1 n).filter (· % 10 = 0) = (List.range (n / 10)).map (fun i => 10 * (i + 1)) := by
  induction n with
  | zero => rfl
  | succ n ih =>
    rw [List.range'_concat, List.filter_append, ih]
    by_cases h : (n + 1) % 10 = 0
    · have h1 : (n + 1) / 10 = n / 10 + 1 := by omega
      have h2 : 10 * (n / 10 + 1) = 1 + n := by omega
      rw [h1, List.range_succ, List.map_append]
      have h3 : (1 + n) % 10 = 0 := by omega
      simp [h2, h3]
    · have h1 : (n + 1) / 10 = n / 10 := by omega
      have h3 : ¬ (1 + n) % 10 = 0 := by omega
      rw [h1]
      simp [h3]

theorem saved_steps (n : ℕ) : 0 :: (List.range' 1 n).filter (· % 10 = 0) = (List.range (n / 10 + 1)).map (fun i => 10 * i) := by
  rw [filter_ten, List.range_succ_eq_map]
  simp [Function.comp_def]

theorem flatMap_getLast {α ι : Type*} (l : List ι) (g : ι → List α) (d : α) (h : ∀ i, g i ≠ []) :
    l.flatMap (fun i => (g i).getLast?.toList) = l.map (fun i => (g i).getLastD d) := by
  induction l with
  | nil => rfl
  | cons a l ih =>
    rw [List.flatMap_cons, List.map_cons, ih, List.getLast?_eq_getLast_of_ne_nil (h a)]
    rw [List.getLastD_eq_getLast?, List.getLast?_eq_getLast_of_ne_nil (h a)]
    rfl

theorem lastSlice_eq {α : Type*} (l : List α) : lastSlice l = l.getLast?.toList := by
  rcases List.eq_nil_or_concat l with h | ⟨l', x, h⟩
  · rw [h]; rfl
  · rw [h]; simp [lastSlice]

/-- The file of the cycle that starts at step `start`. -/
def expectedFile (DT : K) (u : ℕ → U) (p : ℕ → P) (start s : ℕ) : GenFile K U P :=
  let steps := (List.range (s / 10 + 1)).map (fun i => start + 10 * i)
  ⟨start, start + s, steps.map (fun k : ℕ => (k : K) * DT), steps.map u, steps.map p⟩

/-- **C58** for every solver that succeeds: any number of cycles of any length write the uninterrupted simulation `traj`,
cut into files. File `j` covers the steps `j * s` to `j * s + s`, starts with the state at `j * s` (in which the previous
cycle ended) and contains every tenth step after it, with the right times; the histories that are returned are those of the last
step and have `timeOrder` states. The full statement, with the solver of the code, is false: `C58_violated`. -/
theorem C58_partial (DT : K) (timeOrder c s : ℕ) (hT : 0 < timeOrder) (conv : U → C)
    (f : List U → List P → List C → U × P) (uInit : U) (pInit : P) :
    let h := traj f conv (List.replicate timeOrder uInit) (List.replicate timeOrder pInit)
    runSimulation DT timeOrder c s conv (goodSolve f conv) uInit pInit =
      ((List.range c).map (fun j => expectedFile DT (fun k => (h k).1.getLastD uInit) (fun k => (h k).2.getLastD pInit)
        (j * s) s), .ok (h (c * s))) ∧
    ∀ k, (h k).1.length = timeOrder ∧ (h k).2.length = timeOrder := by
  intro h
  have hne : List.replicate timeOrder uInit ≠ [] := by simp; omega
  have hne' : List.replicate timeOrder pInit ≠ [] := by simp; omega
  have hlen : ∀ k, (h k).1.length = timeOrder ∧ (h k).2.length = timeOrder := by
    intro k
    have := traj_length f conv _ _ hne hne' k
    simpa using this
  have hn1 : ∀ k, (h k).1 ≠ [] := fun k e => by have := (hlen k).1; rw [e] at this; simp at this; omega
  have hn2 : ∀ k, (h k).2 ≠ [] := fun k e => by have := (hlen k).2; rw [e] at this; simp at this; omega
  refine ⟨?_, hlen⟩
  have hcycle : ∀ (start : ℕ) (dir : List (GenFile K U P)),
      oneCycle DT conv (goodSolve f conv) start s (h start).1 (h start).2 dir =
        (dir ++ [expectedFile DT (fun k => (h k).1.getLastD uInit) (fun k => (h k).2.getLastD pInit) start s],
          .ok (h (start + s))) := by
    intro start dir
    have hl := cycleLoop_good DT f conv (List.replicate timeOrder uInit) (List.replicate timeOrder pInit) s 0 start
      [(start : K) * DT] (lastSlice (h start).1) (lastSlice (h start).2)
    simp only [Nat.add_zero, Nat.zero_add] at hl
    unfold oneCycle
    simp only
    rw [hl]
    have hsteps : (List.range (s / 10 + 1)).map (fun i => start + 10 * i) =
        start :: ((List.range' 1 s).filter (· % 10 = 0)).map (fun i => start + i) := by
      have := congrArg (List.map (fun i => start + i)) (saved_steps s)
      rw [List.map_map] at this
      exact this.symm
    have hu := flatMap_getLast ((List.range' 1 s).filter (· % 10 = 0)) (fun i => (h (start + i)).1) uInit
      (fun i => hn1 (start + i))
    have hp := flatMap_getLast ((List.range' 1 s).filter (· % 10 = 0)) (fun i => (h (start + i)).2) pInit
      (fun i => hn2 (start + i))
    have hu0 : lastSlice (h start).1 = [(h start).1.getLastD uInit] := by
      rw [lastSlice_eq, List.getLastD_eq_getLast?, List.getLast?_eq_getLast_of_ne_nil (hn1 start)]; rfl
    have hp0 : lastSlice (h start).2 = [(h start).2.getLastD pInit] := by
      rw [lastSlice_eq, List.getLastD_eq_getLast?, List.getLast?_eq_getLast_of_ne_nil (hn2 start)]; rfl
    have e : expectedFile DT (fun k => (h k).1.getLastD uInit) (fun k => (h k).2.getLastD pInit) start s =
        ⟨start, start + s,
          [(start : K) * DT] ++ ((List.range' 1 s).filter (· % 10 = 0)).map (fun i => ((start + i : ℕ) : K) * DT),
          lastSlice (h start).1 ++ ((List.range' 1 s).filter (· % 10 = 0)).flatMap (fun i => (h (start + i)).1.getLast?.toList),
          lastSlice (h start).2 ++ ((List.range' 1 s).filter (· % 10 = 0)).flatMap
            (fun i => (h (start + i)).2.getLast?.toList)⟩ := by
      rw [hu, hp, hu0, hp0]
      simp only [expectedFile, hsteps, List.map_cons, List.map_map]
      rfl
    rw [e]
  have key : ∀ (n idx : ℕ) (dir : List (GenFile K U P)),
      simLoop DT timeOrder s conv (goodSolve f conv) n idx (h (idx * s)).1 (h (idx * s)).2 dir =
        (dir ++ (List.range' idx n).map (fun j => expectedFile DT (fun k => (h k).1.getLastD uInit)
          (fun k => (h k).2.getLastD pInit) (j * s) s), .ok (h ((idx + n) * s))) := by
    intro n
    induction n with
    | zero => intro idx dir; simp [simLoop]
    | succ n ih =>
      intro idx dir
      have hl := hlen (idx * s)
      rw [simLoop, if_neg (by omega), hcycle]
      simp only
      have e : idx * s + s = (idx + 1) * s := by rw [Nat.add_mul, Nat.one_mul]
      rw [e, ih]
      have e2 : idx + 1 + n = idx + (n + 1) := by omega
      rw [e2]
      simp [List.range'_succ]
  have := key c 0 []
  simp only [Nat.zero_mul, Nat.zero_add, List.nil_append] at this
  rw [List.range_eq_range']
  exact this

/-- Two cycles of 25 steps of the "solver" that adds 1 to the newest velocity: the second file starts with step 25. -/
example : (runSimulation (1 : ℤ) 3 2 25 id (goodSolve (fun us ps (_ : List ℤ) => (us.getLastD 0 + 1, ps.getLastD 0)) id)
    (0 : ℤ) (7 : ℤ)).1 = [⟨0, 25, [0, 10, 20], [0, 10, 20], [7, 7, 7]⟩, ⟨25, 50, [25, 35, 45], [25, 35, 45], [7, 7, 7]⟩] := by
  decide +kernel

/-- When the cycle length is a multiple of ten (500 in the code), the last state of a file is the first of the next: the
states at the cycle boundaries occur twice in the data set. -/
theorem C58_boundary_twice (DT : K) (u : ℕ → U) (p : ℕ → P) (j s : ℕ) (hs : s % 10 = 0) :
    (expectedFile DT u p (j * s) s).u.getLast? = (expectedFile DT u p ((j + 1) * s) s).u.head? := by
  have h1 : 10 * (s / 10) = s := by omega
  have h2 : j * s + s = (j + 1) * s := by rw [Nat.add_mul, Nat.one_mul]
  have e1 : (expectedFile DT u p (j * s) s).u.getLast? = some (u ((j + 1) * s)) := by
    simp [expectedFile, List.range_succ, h1, h2]
  have e2 : (expectedFile DT u p ((j + 1) * s) s).u.head? = some (u ((j + 1) * s)) := by
    simp [expectedFile, List.range_succ_eq_map]
  rw [e1, e2]

example : (500 : ℕ) % 10 = 0 := rfl

/-- **C58** is false of the code: `_solve_one_step` assigns the three values of `stokes_one_step` to two variables, so that
for every flow, time order, and positive number of cycles and steps the run stops with `ValueError` and writes no file. -/
theorem C58_violated (DT : K) (timeOrder c s : ℕ) (hc : 0 < c) (hs : 0 < s) (conv : U → C)
    (stokes : List U → List P → List C → U × P) (uInit : U) (pInit : P) :
    runSimulation DT timeOrder c s conv (solveOneStep stokes conv) uInit pInit = ([], .error .unpack) := by
  obtain ⟨c, rfl⟩ := Nat.exists_eq_succ_of_ne_zero hc.ne'
  obtain ⟨s, rfl⟩ := Nat.exists_eq_succ_of_ne_zero hs.ne'
  simp [runSimulation, simLoop, oneCycle, cycleLoop, cycleBody, solveOneStep, stokesTuple, unpackTwo]

end Verif.Niles
