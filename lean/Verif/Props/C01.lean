import Verif.Model.SemiTraced

/-!
# C01: the host view and the traced value of a `SemiTracedScalar` never disagree
-/

namespace Verif.Comm

/-- Specification: the mathematical meaning of a program on device `i` of `P` devices, with no
notion of local or global view. -/
def Expr.meaning (P : Nat) (i : Nat) : Expr → Int
  | .index => i
  | .size => P
  | .const c => c
  | .op f x y => f (x.meaning P i) (y.meaning P i)
  | .rop f x y => f (y.meaning P i) (x.meaning P i)
  | .opConst f x c => f (x.meaning P i) c
  | .ropConst f x c => f c (x.meaning P i)
  | .where_ c x y => if c.meaning P i ≠ 0 then x.meaning P i else y.meaning P i

private theorem zipWith_map_range {α β γ : Type} (f : α → β → γ) (g : Nat → α) (h : Nat → β) (P : Nat) :
    List.zipWith f ((List.range P).map g) ((List.range P).map h)
      = (List.range P).map (fun i => f (g i) (h i)) := by
  rw [List.zipWith_map, List.zipWith_self]

/-- C01. For every program, every axis size `P` and every device `i` the traced value is the meaning
of the program on device `i` and the host view lists its meanings on the devices `0, ..., P-1`. -/
theorem C01_views_agree (e : Expr) (P i : Nat) :
    (e.run P i).loc = e.meaning P i ∧
      (e.run P i).glob = (List.range P).map (fun j => e.meaning P j) := by
  induction e with
  | index => exact ⟨rfl, rfl⟩
  | size => exact ⟨rfl, by simp [Expr.run, axisSize, Expr.meaning, List.map_const']⟩
  | const c => exact ⟨rfl, by simp [Expr.run, constant, Expr.meaning, List.map_const']⟩
  | op f x y hx hy =>
    simp only [Expr.run, liftOps, liftOp, Expr.meaning, hx.1, hy.1, hx.2, hy.2, true_and]
    exact zipWith_map_range _ _ _ _
  | rop f x y hx hy =>
    simp only [Expr.run, liftOps, liftOp, Expr.meaning, hx.1, hy.1, hx.2, hy.2, true_and]
    exact zipWith_map_range _ _ _ _
  | opConst f x c hx =>
    simp [Expr.run, liftOpsConst, liftOpConst, Expr.meaning, hx.1, hx.2, Function.comp_def]
  | ropConst f x c hx =>
    simp [Expr.run, liftOpsConst, liftOpConst, Expr.meaning, hx.1, hx.2, Function.comp_def]
  | where_ c x y hc hx hy =>
    simp only [Expr.run, SemiTraced.where_, Expr.meaning, hc.1, hx.1, hy.1, hc.2, hx.2, hy.2, true_and]
    rw [List.zip, zipWith_map_range, zipWith_map_range]

/-- C01, in the form used by the callers: entry `i` of the host view is the traced value of device
`i`, and there is one entry per device. -/
theorem C01_global_at_index (e : Expr) (P i : Nat) (hi : i < P) :
    (e.run P i).glob.length = P ∧ (e.run P i).glob[i]? = some (e.run P i).loc := by
  obtain ⟨h1, h2⟩ := C01_views_agree e P i
  rw [h1, h2]
  simp [hi]

/-- The host view does not depend on the device on which the program is traced. -/
theorem C01_global_uniform (e : Expr) (P i j : Nat) : (e.run P i).glob = (e.run P j).glob := by
  rw [(C01_views_agree e P i).2, (C01_views_agree e P j).2]

/-- `where(idx < n // 2, 2 * idx, n - 1 - idx)` on 5 devices. -/
private def sample : Expr :=
  .where_ (.op (fun a b => if a < b then 1 else 0) .index (.opConst (· / ·) .size 2))
    (.ropConst (· * ·) .index 2) (.op (· - ·) (.opConst (· - ·) .size 1) .index)

example : (3 : Nat) < 5 ∧ (sample.run 5 3).glob = [0, 2, 2, 1, 0] ∧ (sample.run 5 3).loc = 1 := by
  decide

end Verif.Comm
