import Verif.Lemmas.NetBatch

/-!
# Tiled sequences stay tiled
-/

namespace Verif.Niles

open Finset

/-- `x` repeats the `n` tokens of `y`. -/
structure TiledOf (n : ℕ) (x y : Tensor) : Prop where
  batch : x.shape.batch = y.shape.batch
  seq : y.shape.seq = n
  dvd : n ∣ x.shape.seq
  chan : x.shape.chan = y.shape.chan
  val : ∀ b < y.shape.batch, ∀ t < x.shape.seq, ∀ c < y.shape.chan, x.val b t c = y.val b (t % n) c

/-- The same with split channels. -/
structure TiledHOf (n : ℕ) (x y : HTensor) : Prop where
  batch : x.shape.batch = y.shape.batch
  seq : y.shape.seq = n
  dvd : n ∣ x.shape.seq
  heads : x.shape.heads = y.shape.heads
  dim : x.shape.dim = y.shape.dim
  val : ∀ b < y.shape.batch, ∀ t < x.shape.seq, ∀ h < y.shape.heads, ∀ i < y.shape.dim, x.val b t h i = y.val b (t % n) h i

section

variable {n : ℕ}

theorem TiledOf.refl (x : Tensor) : TiledOf x.shape.seq x x :=
  ⟨rfl, rfl, dvd_refl _, rfl, fun b _ t ht c _ => by rw [Nat.mod_eq_of_lt ht]⟩

theorem TiledOf.mod_lt {x y : Tensor} (h : TiledOf n x y) {t : ℕ} (ht : t < x.shape.seq) : t % n < n := by
  refine Nat.mod_lt _ (Nat.pos_of_ne_zero fun h0 => ?_)
  have := h.dvd
  rw [h0, zero_dvd_iff] at this
  omega

theorem TiledOf.dense {x y : Tensor} (h : TiledOf n x y) (w : DenseW) (out : ℕ) :
    TiledOf n (dense w out x) (dense w out y) := by
  refine ⟨h.batch, h.seq, h.dvd, rfl, fun b hb t ht o _ => ?_⟩
  simp only [Niles.dense] at ht hb ⊢
  rw [h.chan]
  congr 1
  exact sum_congr rfl fun c hc => by rw [h.val b hb t ht c (mem_range.1 hc)]

theorem TiledOf.layerNorm {x y : Tensor} (h : TiledOf n x y) (w : NormW) :
    TiledOf n (layerNorm w x) (layerNorm w y) := by
  refine ⟨h.batch, h.seq, h.dvd, h.chan, fun b hb t ht c hc => ?_⟩
  simp only [Niles.layerNorm] at ht hb hc ⊢
  rw [h.chan, normToken_congr (h.val b hb t ht) hc]

theorem TiledOf.map {x y : Tensor} (h : TiledOf n x y) (f : ℝ → ℝ) :
    TiledOf n ⟨x.shape, fun b t c => f (x.val b t c)⟩ ⟨y.shape, fun b t c => f (y.val b t c)⟩ :=
  ⟨h.batch, h.seq, h.dvd, h.chan, fun b hb t ht c hc => by simp only at *; rw [h.val b hb t ht c hc]⟩

theorem addShape_self (s : Shape) : addShape s s = .ok s := by
  unfold addShape
  simp only [bcastDim_self]

/-- The sum of two arrays of the same shape. -/
theorem addT_same {x y : Tensor} (h : x.shape = y.shape) :
    ∃ z, addT x y = .ok z ∧ z.shape = y.shape ∧ ∀ b < y.shape.batch, ∀ t < y.shape.seq, ∀ c < y.shape.chan,
      z.val b t c = x.val b t c + y.val b t c := by
  unfold addT
  rw [h, addShape_self]
  refine ⟨_, rfl, rfl, fun b hb t ht c hc => ?_⟩
  simp only
  rw [bcastIdx_self hb, bcastIdx_self ht, bcastIdx_self hc]

theorem TiledOf.add {x y u v : Tensor} (h : TiledOf n x y) (g : TiledOf n u v) (hs : x.shape = u.shape) (hs' : y.shape = v.shape) :
    RelE (TiledOf n) (addT x u) (addT y v) := by
  obtain ⟨z, e, hz, vz⟩ := addT_same hs
  obtain ⟨z', e', hz', vz'⟩ := addT_same hs'
  rw [e, e']
  have hb0 := g.batch
  have hc0 := g.chan
  refine ⟨by rw [hz, hz', g.batch], by rw [hz', g.seq], by rw [hz]; exact g.dvd, by rw [hz, hz', g.chan], fun b hb t ht c hc => ?_⟩
  rw [hz'] at hb hc
  rw [hz] at ht
  rw [vz b (hb0 ▸ hb) t ht c (hc0 ▸ hc), vz' b hb _ (by rw [g.seq]; exact g.mod_lt ht) c hc,
    h.val b (by rw [hs']; exact hb) t (by rw [hs]; exact ht) c (by rw [hs']; exact hc), g.val b hb t ht c hc]

theorem TiledOf.splitHeads {x y : Tensor} (h : TiledOf n x y) (k : ℕ) :
    RelE (TiledHOf n) (splitHeadsT x k) (splitHeadsT y k) := by
  unfold splitHeadsT Niles.splitHeads
  rw [h.chan]
  by_cases h0 : k = 0
  · simp [h0, RelE]
  · by_cases h1 : k * (y.shape.chan / k) = y.shape.chan
    · simp only [if_neg h0, if_pos h1, RelE]
      refine ⟨h.batch, h.seq, h.dvd, rfl, rfl, fun b hb t ht j hj i hi => ?_⟩
      simp only at hb ht hj hi ⊢
      refine h.val b hb t ht _ ?_
      calc j * (y.shape.chan / k) + i < j * (y.shape.chan / k) + y.shape.chan / k := by omega
        _ = (j + 1) * (y.shape.chan / k) := by ring
        _ ≤ k * (y.shape.chan / k) := Nat.mul_le_mul_right _ hj
        _ = y.shape.chan := h1
    · simp [h0, h1, RelE]

/-- A sum over a repeated sequence. -/
theorem sum_mod (n r : ℕ) (f : ℕ → ℝ) : ∑ j ∈ range (n * r), f (j % n) = r * ∑ j ∈ range n, f j := by
  induction r with
  | zero => simp
  | succ r ih =>
    rw [Nat.mul_succ, sum_range_add, ih]
    have : ∑ x ∈ range n, f ((n * r + x) % n) = ∑ x ∈ range n, f x :=
      sum_congr rfl fun x hx => by rw [Nat.mul_add_mod, Nat.mod_eq_of_lt (mem_range.1 hx)]
    rw [this]
    push_cast
    ring

/-- Repeating keys and values does not change the average. -/
theorem TiledHOf.attention {q q' k k' v v' : HTensor} (hq : TiledHOf n q q') (hk : TiledHOf n k k')
    (hv : TiledHOf n v v') (hqk : q.shape.seq = k.shape.seq) (hkv : k.shape.seq = v.shape.seq) :
    RelE (TiledHOf n) (attentionT q k v) (attentionT q' k' v') := by
  unfold attentionT Niles.attention
  rw [hq.batch, hk.batch, hv.batch, hq.heads, hk.heads, hv.heads, hq.dim, hk.dim, hv.dim, hkv, hk.seq, hv.seq]
  simp only [true_and]
  by_cases hc : q'.shape.batch = k'.shape.batch ∧ k'.shape.batch = v'.shape.batch ∧ q'.shape.heads = k'.shape.heads ∧
      k'.shape.heads = v'.shape.heads ∧ q'.shape.dim = k'.shape.dim
  · obtain ⟨h1, h2, h3, h4, h5⟩ := hc
    rw [if_pos ⟨h1, h2, h3, h4, h5⟩, if_pos ⟨h1, h2, h3, h4, h5⟩]
    simp only [RelE]
    refine ⟨rfl, hq.seq, hq.dvd, rfl, rfl, fun b hb t ht h hh i hi => ?_⟩
    simp only at hb ht hh hi ⊢
    obtain ⟨r, hr⟩ := hv.dvd
    have hks : k.shape.seq = n * r := by rw [hkv, hr]
    have hr0 : (r : ℝ) ≠ 0 := by
      intro h0
      have h0 : r = 0 := by exact_mod_cast h0
      rw [hqk, hks, h0] at ht
      simp at ht
    have e : ∀ j < n * r, Real.exp (score q'.shape.dim (q.val b t h) (k.val b j h)) =
        Real.exp (score q'.shape.dim (q'.val b (t % n) h) (k'.val b (j % n) h)) := by
      intro j hj
      congr 1
      unfold score
      refine sum_congr rfl fun l hl => ?_
      have hl := mem_range.1 hl
      rw [hq.val b hb t ht h hh l hl, hk.val b (h1 ▸ hb) j (hks ▸ hj) h (h3 ▸ hh) l (h5 ▸ hl)]
    have s1 : ∑ j ∈ range (n * r), Real.exp (score q'.shape.dim (q.val b t h) (k.val b j h)) =
        r * ∑ j ∈ range n, Real.exp (score q'.shape.dim (q'.val b (t % n) h) (k'.val b j h)) := by
      rw [← sum_mod n r fun j => Real.exp (score q'.shape.dim (q'.val b (t % n) h) (k'.val b j h))]
      exact sum_congr rfl fun j hj => e j (mem_range.1 hj)
    have s2 : ∑ j ∈ range (n * r), Real.exp (score q'.shape.dim (q.val b t h) (k.val b j h)) * v.val b j h i =
        r * ∑ j ∈ range n, Real.exp (score q'.shape.dim (q'.val b (t % n) h) (k'.val b j h)) * v'.val b j h i := by
      rw [← sum_mod n r fun j => Real.exp (score q'.shape.dim (q'.val b (t % n) h) (k'.val b j h)) * v'.val b j h i]
      refine sum_congr rfl fun j hj => ?_
      rw [e j (mem_range.1 hj), hv.val b (h2 ▸ h1 ▸ hb) j (hr ▸ mem_range.1 hj) h (h4 ▸ h3 ▸ hh) i hi]
    rw [hr, s1, s2, mul_div_mul_left _ _ hr0]
  · rw [if_neg hc, if_neg hc]
    rfl

theorem TiledHOf.addHeads {x y q r : HTensor} (h : TiledHOf n x y) (g : TiledHOf n q r) (hs : x.shape.seq = q.shape.seq)
    (hs' : y.shape = r.shape) : TiledHOf n (addHeads x q) (addHeads y r) := by
  refine ⟨h.batch, h.seq, h.dvd, h.heads, h.dim, fun b hb t ht k hk i hi => ?_⟩
  simp only [Niles.addHeads] at hb ht hk hi ⊢
  rw [h.val b hb t ht k hk i hi, g.val b (hs' ▸ hb) t (hs ▸ ht) k (hs' ▸ hk) i (hs' ▸ hi)]

theorem TiledHOf.denseHeads {x y : HTensor} (h : TiledHOf n x y) (w : DenseW) (out : ℕ) :
    TiledOf n (denseHeads w out x) (denseHeads w out y) := by
  refine ⟨h.batch, h.seq, h.dvd, rfl, fun b hb t ht o _ => ?_⟩
  simp only [Niles.denseHeads] at hb ht ⊢
  rw [h.heads, h.dim]
  congr 1
  refine sum_congr rfl fun k hk => ?_
  exact sum_congr rfl fun i hi => by rw [h.val b hb t ht k (mem_range.1 hk) i (mem_range.1 hi)]

theorem TiledOf.tile {x y : Tensor} (h : TiledOf n x y) (s : ℕ) : TiledOf n (tileT (s, 1) x) (tileT (1, 1) y) := by
  refine ⟨h.batch, by simp [tileT, h.seq], by simpa [tileT] using Dvd.dvd.mul_right h.dvd s, by simp [tileT, h.chan],
    fun b hb t ht c hc => ?_⟩
  simp only [tileT, mul_one] at hb ht hc ⊢
  rw [h.chan, Nat.mod_eq_of_lt hc, h.seq]
  have hp : 0 < x.shape.seq := Nat.pos_of_ne_zero fun h0 => by simp [h0] at ht
  rw [h.val b hb _ (Nat.mod_lt _ hp) c hc, Nat.mod_mod_of_dvd _ h.dvd, Nat.mod_mod]

theorem splitHeadsT_seq {x : Tensor} {k : ℕ} {q : HTensor} (h : splitHeadsT x k = .ok q) :
    q.shape = ⟨x.shape.batch, x.shape.seq, k, x.shape.chan / k⟩ := by
  unfold splitHeadsT Niles.splitHeads at h
  split_ifs at h <;> simp at h
  subst h
  rfl

theorem TiledOf.upSample {x y : Tensor} (h : TiledOf n x y) (w : AttnW) (k s : ℕ) :
    RelE (fun a b => TiledOf n a b ∧ a.shape = ⟨x.shape.batch, x.shape.seq * s, x.shape.chan⟩ ∧ b.shape = y.shape)
      (upSampleT w x k (s, 1)) (upSampleT w y k (1, 1)) := by
  unfold upSampleT
  dsimp only
  rw [h.chan]
  split_ifs with h0
  · rfl
  rcases (((h.dense w.query y.shape.chan).tile s).splitHeads k).cases with ⟨q, q', e, e', hq⟩ | ⟨e, he, he'⟩
  swap
  · rw [he, he']; rfl
  have dq := splitHeadsT_seq e
  have dq' := splitHeadsT_seq e'
  rw [e, e']
  rcases (((h.dense w.key y.shape.chan).tile s).splitHeads k).cases with ⟨k, k', e, e', hk⟩ | ⟨e, he, he'⟩
  swap
  · rw [he, he']; rfl
  have dk := splitHeadsT_seq e
  rw [e, e']
  rcases (((h.dense w.value y.shape.chan).tile s).splitHeads _).cases with ⟨v, v', e, e', hv⟩ | ⟨e, he, he'⟩
  swap
  · rw [he, he']; rfl
  have dv := splitHeadsT_seq e
  have dv' := splitHeadsT_seq e'
  rw [e, e']
  dsimp only
  rcases (hq.attention hk hv (by rw [dq, dk]; rfl) (by rw [dk, dv]; rfl)).cases with ⟨z, z', e, e', hz⟩ | ⟨e, he, he'⟩
  swap
  · rw [he, he']; rfl
  rw [e, e']
  have sz := attentionT_ok e
  have sz' := attentionT_ok e'
  refine ⟨(hz.addHeads hq (by rw [sz]) (by rw [sz', dv', dq']; rfl)).denseHeads w.out y.shape.chan, ?_, ?_⟩
  · simp [Niles.denseHeads, Niles.addHeads, sz, dq, tileT, Niles.dense]
  · simp [Niles.denseHeads, Niles.addHeads, sz', dq', tileT, Niles.dense]

theorem TiledOf.mlpPart {x y : Tensor} (h : TiledOf n x y) (act : ℝ → ℝ) (w : BlockW) (o : ℕ) :
    RelE (TiledOf n) (mlpPart act w x.shape.chan o x) (mlpPart act w y.shape.chan o y) := by
  unfold Niles.mlpPart
  dsimp only
  rw [h.chan]
  have hm : TiledOf n (Niles.mlpBlock act w.mlp (y.shape.chan * 4) o (Niles.layerNorm w.norm2 x))
      (Niles.mlpBlock act w.mlp (y.shape.chan * 4) o (Niles.layerNorm w.norm2 y)) :=
    (((h.layerNorm w.norm2).dense w.mlp.first (y.shape.chan * 4)).map act).dense w.mlp.second o
  split_ifs with ho
  · subst ho
    refine hm.add h ?_ ?_
    · rw [← h.chan]; rfl
    · rfl
  · exact hm.add ((h.layerNorm w.norm2).dense w.proj o) rfl rfl

/-- An upsampling decoder block repeats the tokens of the block without upsampling. -/
theorem TiledOf.decoderBlock {x y : Tensor} (h : TiledOf n x y) (act : ℝ → ℝ) (w : BlockW) (o k : ℕ) {s : ℕ} (hs : 0 < s) :
    RelE (TiledOf n) (decoderBlockT act w x o k (s, 1)) (decoderBlockT act w y o k (1, 1)) := by
  unfold decoderBlockT
  dsimp only
  rcases ((h.layerNorm w.norm1).upSample w.attn k s).cases with ⟨z, z', e, e', hz, sz, sz'⟩ | ⟨e, he, he'⟩
  swap
  · rw [he, he']; rfl
  rw [e, e']
  have sz : z.shape = ⟨x.shape.batch, x.shape.seq * s, x.shape.chan⟩ := sz
  have sz' : z'.shape = y.shape := sz'
  have hr : ∃ u, (if s * 1 > 1 then tileT (s, 1) x else x) = u ∧ TiledOf n u y ∧ u.shape = z.shape := by
    refine ⟨_, rfl, ?_, ?_⟩
    · split_ifs with h1
      · have := h.tile s
        refine ⟨this.batch, h.seq, this.dvd, this.chan.trans (by simp [tileT]), fun b hb t ht c hc => ?_⟩
        rw [this.val b hb t ht c (by simpa [tileT] using hc)]
        simp only [tileT]
        rw [h.seq, Nat.mod_mod, Nat.mod_eq_of_lt hc]
      · exact h
    · split_ifs with h1
      · rw [sz]; simp [tileT]
      · have : s = 1 := by omega
        rw [sz, this, mul_one]
  obtain ⟨u, hu, tu, su⟩ := hr
  rw [hu]
  dsimp only
  rw [if_neg (by decide)]
  have ok1 := addT_same su.symm
  have ok2 := addT_same sz'
  obtain ⟨a, ea, sa, -⟩ := ok1
  obtain ⟨a', ea', sa', -⟩ := ok2
  have := hz.add tu su.symm sz'
  rw [ea, ea'] at this
  rw [ea, ea']
  have this : TiledOf n a a' := this
  have e1 : a.shape.chan = x.shape.chan := by rw [sa, su, sz]
  have e2 : a'.shape.chan = y.shape.chan := by rw [sa']
  dsimp only
  rw [← e1, ← e2]
  exact this.mlpPart act w o

theorem TiledOf.decodeLayer {x y : Tensor} (h : TiledOf n x y) (act : ℝ → ℝ) (w : ℕ → BlockW) {c : MSConfig}
    (hu : c.useResiduals = false) {s : ℕ} (hs : 0 < s) (ht : c.tileReps = (s, 1)) (skips : List (ℕ × Tensor)) (l : ℕ) :
    RelE (TiledOf n) (decodeLayerT act w c skips l x) (decodeLayerT act w { c with tileReps := (1, 1) } skips l y) := by
  unfold decodeLayerT
  simp only [hu, Bool.false_eq_true, and_false, if_false, h.chan, ht]
  split_ifs with h0 h1 h2 h2
  · rfl
  all_goals
    first
    | rcases (h.decoderBlock act (w l) (y.shape.chan / 2) (y.shape.chan / c.width) hs).cases with
        ⟨z, z', e, e', hz⟩ | ⟨e, he, he'⟩
      · rw [e, e']; exact hz
      · rw [he, he']; rfl
    | rcases (h.decoderBlock act (w l) (y.shape.chan) (y.shape.chan / c.width) hs).cases with
        ⟨z, z', e, e', hz⟩ | ⟨e, he, he'⟩
      · rw [e, e']; exact hz
      · rw [he, he']; rfl
    | rcases (h.decoderBlock act (w l) (y.shape.chan / 2) (y.shape.chan / c.width) one_pos).cases with
        ⟨z, z', e, e', hz⟩ | ⟨e, he, he'⟩
      · rw [e, e']; exact hz
      · rw [he, he']; rfl
    | rcases (h.decoderBlock act (w l) (y.shape.chan) (y.shape.chan / c.width) one_pos).cases with
        ⟨z, z', e, e', hz⟩ | ⟨e, he, he'⟩
      · rw [e, e']; exact hz
      · rw [he, he']; rfl

theorem TiledOf.decodeLayers (act : ℝ → ℝ) (w : ℕ → BlockW) {c : MSConfig}
    (hu : c.useResiduals = false) {s : ℕ} (hs : 0 < s) (ht : c.tileReps = (s, 1)) (skips : List (ℕ × Tensor)) (ls : List ℕ)
    {x y : Tensor} (h : TiledOf n x y) :
    RelE (TiledOf n) (decodeLayersT act w c skips ls x) (decodeLayersT act w { c with tileReps := (1, 1) } skips ls y) := by
  induction ls generalizing x y with
  | nil => exact h
  | cons l ls ih =>
    unfold decodeLayersT
    rcases (h.decodeLayer act w hu hs ht skips l).cases with ⟨z, z', e, e', hz⟩ | ⟨e, he, he'⟩
    · rw [e, e']; exact ih hz
    · rw [he, he']; rfl

theorem TiledOf.decode (act : ℝ → ℝ) (w : ℕ → BlockW) (norm : NormW) {c : MSConfig}
    (hu : c.useResiduals = false) {s : ℕ} (hs : 0 < s) (ht : c.tileReps = (s, 1)) (skips : List (ℕ × Tensor)) (x : Tensor) :
    RelE (TiledOf x.shape.seq) (decodeT act w norm c skips x) (decodeT act w norm { c with tileReps := (1, 1) } skips x) := by
  unfold decodeT
  rcases (TiledOf.decodeLayers act w hu hs ht skips (List.range c.depth).reverse (TiledOf.refl x)).cases with
    ⟨z, z', e, e', hz⟩ | ⟨e, he, he'⟩
  · simp only [e, e']; exact hz.layerNorm norm
  · simp only [he, he']; rfl

end

end Verif.Niles
