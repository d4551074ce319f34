import Verif.Lemmas.NetBatch
import Verif.Lemmas.Processor

/-! The features before the output layer are those of a normalisation. -/

namespace Verif.Niles

open Finset

/-- The entries are bounded by the weights of a normalisation. -/
def NormBound (w : NormW) (y : Tensor) : Prop :=
  ∀ b t c, c < y.shape.chan → |y.val b t c| ≤ y.shape.chan * |w.scale c| + |w.bias c|

theorem normBound_layerNorm (w : NormW) (x : Tensor) : NormBound w (layerNorm w x) := by
  intro b t c hc
  have h := normToken_le x.shape.chan (x.val b t) hc
  change |normToken x.shape.chan (x.val b t) c * w.scale c + w.bias c| ≤ x.shape.chan * |w.scale c| + |w.bias c|
  refine (abs_add_le _ _).trans (add_le_add ?_ le_rfl)
  rw [abs_mul]
  exact mul_le_mul_of_nonneg_right h (abs_nonneg _)

theorem normBound_decodeT {act : ℝ → ℝ} {w : ℕ → BlockW} {norm : NormW} {c : MSConfig} {skips : List (ℕ × Tensor)} {x y : Tensor}
    (h : decodeT act w norm c skips x = .ok y) : NormBound norm y := by
  unfold decodeT at h
  split at h
  · simp at h
  · simp only [Except.ok.injEq] at h
    rw [← h]
    exact normBound_layerNorm _ _

theorem samplesT_mem {f : ℕ → Except Err Tensor} {n : ℕ} {l : List Tensor} (h : samplesT f n = .ok l) :
    ∀ y ∈ l, ∃ i, f i = .ok y := by
  induction n generalizing l with
  | zero => simp only [samplesT, Except.ok.injEq] at h; subst h; simp
  | succ n ih =>
    unfold samplesT at h
    cases h1 : samplesT f n with
    | error e => rw [h1] at h; simp at h
    | ok l1 =>
      rw [h1] at h
      cases h2 : f n with
      | error e => rw [h2] at h; simp at h
      | ok y1 =>
        rw [h2] at h
        simp only [Except.ok.injEq] at h
        subst h
        intro y hy
        rw [List.mem_append, List.mem_singleton] at hy
        rcases hy with hy | hy
        · exact ih h1 y hy
        · exact ⟨n, hy ▸ h2⟩

theorem abs_mean_le (l : List ℝ) (hl : l ≠ []) (M : ℝ) (h : ∀ x ∈ l, |x| ≤ M) : |l.sum / l.length| ≤ M := by
  have hs : |l.sum| ≤ l.length * M := by
    clear hl
    induction l with
    | nil => simp
    | cons a l ih =>
      have h1 := h a (by simp)
      have h2 := ih fun x hx => h x (by simp [hx])
      rw [List.sum_cons, List.length_cons]
      push_cast
      exact (abs_add_le _ _).trans (by linarith)
  have hn : (0 : ℝ) < l.length := by exact_mod_cast List.length_pos_iff.2 hl
  rw [abs_div, abs_of_pos hn, div_le_iff₀ hn]
  linarith

theorem normBound_processT {act : ℝ → ℝ} {w : ℕ → BlockW} {norm : NormW} {c : MSConfig} {skips : List (ℕ × Tensor)}
    {proc : Processor} {p : ProcConfig} {m : Bool} {x y : Tensor}
    (h : processT (decodeT act w norm c skips) proc p m x = .ok y) : NormBound norm y := by
  unfold processT at h
  split at h
  · split at h
    · simp at h
    · rename_i b n s ch _
      unfold decodeSamples at h
      split at h
      · split at h
        · simp at h
        · rename_i l hl
          split at h
          · simp at h
          · rename_i y0 l'
            simp only [Except.ok.injEq] at h
            obtain ⟨i0, hi0⟩ := samplesT_mem hl y0 (by simp)
            have hd := decodeT_shape act w norm c skips
            have hshape : ∀ z ∈ y0 :: l', z.shape = y0.shape := by
              intro z hz
              obtain ⟨i, hi⟩ := samplesT_mem hl z hz
              have e0 := hd (⟨⟨b, s, ch⟩, fun b => proc b i0 (tokensOf x b)⟩ : Tensor)
              have e1 := hd (⟨⟨b, s, ch⟩, fun b => proc b i (tokensOf x b)⟩ : Tensor)
              rw [hi0] at e0
              rw [hi] at e1
              rw [← e0] at e1
              simpa [shapeE] using e1
            rw [← h]
            intro b' t c' hc
            change |((y0 :: l').map fun z => z.val b' t c').sum / ((y0 :: l').length : ℝ)| ≤ _
            have := abs_mean_le ((y0 :: l').map fun z => z.val b' t c') (by simp)
              ((meanT y0.shape (y0 :: l')).shape.chan * |norm.scale c'| + |norm.bias c'|) (by
                intro v hv
                obtain ⟨z, hz, rfl⟩ := List.mem_map.1 hv
                obtain ⟨i, hi⟩ := samplesT_mem hl z hz
                have h1 := normBound_decodeT hi b' t c' (by rw [hshape z hz]; exact hc)
                rw [hshape z hz] at h1
                exact h1)
            rwa [List.length_map] at this
      · exact normBound_decodeT h
    · simp at h
  · split at h
    · simp at h
    · exact normBound_decodeT h

theorem addShape_ok_chan {x y s : Shape} (h : addShape x y = .ok s) (hx : x.chan ≠ 1) :
    s.chan = x.chan ∧ (y.chan = x.chan ∨ y.chan = 1) := by
  unfold addShape at h
  split at h
  · rename_i b t c h1 h2 h3
    simp only [Except.ok.injEq] at h
    unfold bcastDim at h3
    rw [← h]
    split_ifs at h3 with g1 g2
    · simp only [Option.some.injEq] at h3
      exact ⟨h3.symm, Or.inl g1.symm⟩
    · simp only [Option.some.injEq] at h3
      exact ⟨h3.symm, Or.inr g2⟩
  · simp at h

end Verif.Niles
