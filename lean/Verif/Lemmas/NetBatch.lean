import Verif.Lemmas.Network

/-!
# An example of a batch is computed from that example
-/

namespace Verif.Niles

open Finset

/-- Two computations raise the same exception or have related results. -/
def RelE {α : Type*} (R : α → α → Prop) : Except Err α → Except Err α → Prop
  | .ok x, .ok y => R x y
  | .error e, .error e' => e = e'
  | _, _ => False

theorem RelE.cases {α : Type*} {R : α → α → Prop} {r r' : Except Err α} (h : RelE R r r') :
    (∃ x y, r = .ok x ∧ r' = .ok y ∧ R x y) ∨ ∃ e, r = .error e ∧ r' = .error e := by
  cases r <;> cases r' <;> simp_all [RelE]

/-- Example `b` of a batch of `B` is example `b'` of a batch of `B'`. -/
structure SameEx (B B' b b' : ℕ) (x y : Tensor) : Prop where
  batch : x.shape.batch = B
  batch' : y.shape.batch = B'
  seq : y.shape.seq = x.shape.seq
  chan : y.shape.chan = x.shape.chan
  val : ∀ t < x.shape.seq, ∀ c < x.shape.chan, x.val b t c = y.val b' t c

/-- The same with split channels. -/
structure SameHEx (B B' b b' : ℕ) (x y : HTensor) : Prop where
  batch : x.shape.batch = B
  batch' : y.shape.batch = B'
  seq : y.shape.seq = x.shape.seq
  heads : y.shape.heads = x.shape.heads
  dim : y.shape.dim = x.shape.dim
  val : ∀ t < x.shape.seq, ∀ h < x.shape.heads, ∀ i < x.shape.dim, x.val b t h i = y.val b' t h i

section

variable {B B' b b' : ℕ}

theorem SameEx.dense {x y : Tensor} (h : SameEx B B' b b' x y) (w : DenseW) (out : ℕ) :
    SameEx B B' b b' (dense w out x) (dense w out y) := by
  refine ⟨h.batch, h.batch', h.seq, rfl, fun t ht o _ => ?_⟩
  simp only [Niles.dense]
  rw [h.chan]
  congr 1
  exact sum_congr rfl fun c hc => by rw [h.val t ht c (mem_range.1 hc)]

theorem normToken_congr {n : ℕ} {u v : ℕ → ℝ} (h : ∀ c < n, u c = v c) {c : ℕ} (hc : c < n) :
    normToken n u c = normToken n v c := by
  have hs : ∑ i ∈ range n, u i = ∑ i ∈ range n, v i := sum_congr rfl fun i hi => h i (mem_range.1 hi)
  unfold normToken
  dsimp only
  have hv : ∀ m : ℝ, ∑ i ∈ range n, (u i - m) ^ 2 = ∑ i ∈ range n, (v i - m) ^ 2 :=
    fun m => sum_congr rfl fun i hi => by rw [h i (mem_range.1 hi)]
  rw [hs, h c hc, hv]

theorem SameEx.layerNorm {x y : Tensor} (h : SameEx B B' b b' x y) (w : NormW) :
    SameEx B B' b b' (layerNorm w x) (layerNorm w y) := by
  refine ⟨h.batch, h.batch', h.seq, h.chan, fun t ht c hc => ?_⟩
  simp only [Niles.layerNorm]
  rw [h.chan, normToken_congr (h.val t ht) hc]

theorem SameEx.map {x y : Tensor} (h : SameEx B B' b b' x y) (f : ℝ → ℝ) :
    SameEx B B' b b' ⟨x.shape, fun b t c => f (x.val b t c)⟩ ⟨y.shape, fun b t c => f (y.val b t c)⟩ :=
  ⟨h.batch, h.batch', h.seq, h.chan, fun t ht c hc => by simp only; rw [h.val t ht c hc]⟩

theorem bcastIdx_lt {m n k i : ℕ} (h : bcastDim m n = some k) (hi : i < k) : bcastIdx m i < m ∧ bcastIdx n i < n := by
  unfold bcastDim at h
  unfold bcastIdx
  split_ifs at h ⊢ <;> simp at h <;> omega

theorem bcastIdx_self {n i : ℕ} (h : i < n) : bcastIdx n i = i := by
  unfold bcastIdx
  split_ifs <;> omega

theorem bcastDim_self (n : ℕ) : bcastDim n n = some n := by simp [bcastDim]

theorem SameEx.add (hb : b < B) (hb' : b' < B') {x y u v : Tensor} (h : SameEx B B' b b' x y) (g : SameEx B B' b b' u v) :
    RelE (SameEx B B' b b') (addT x u) (addT y v) := by
  unfold addT addShape
  rw [h.batch, g.batch, h.batch', g.batch', h.seq, h.chan, g.seq, g.chan, bcastDim_self, bcastDim_self]
  cases hs : bcastDim x.shape.seq u.shape.seq with
  | none => simp [RelE]
  | some s =>
    cases hc : bcastDim x.shape.chan u.shape.chan with
    | none => simp [RelE]
    | some c =>
      simp only [RelE]
      refine ⟨rfl, rfl, rfl, rfl, fun t ht i hi => ?_⟩
      simp only at ht hi ⊢
      rw [bcastIdx_self hb, bcastIdx_self hb', h.val _ (bcastIdx_lt hs ht).1 _ (bcastIdx_lt hc hi).1,
        g.val _ (bcastIdx_lt hs ht).2 _ (bcastIdx_lt hc hi).2]

theorem SameEx.splitHeads {x y : Tensor} (h : SameEx B B' b b' x y) (n : ℕ) :
    RelE (SameHEx B B' b b') (splitHeadsT x n) (splitHeadsT y n) := by
  unfold splitHeadsT Niles.splitHeads
  rw [h.chan, h.seq]
  by_cases h0 : n = 0
  · simp [h0, RelE]
  · by_cases h1 : n * (x.shape.chan / n) = x.shape.chan
    · simp only [if_neg h0, if_pos h1, RelE]
      refine ⟨h.batch, h.batch', rfl, rfl, rfl, fun t ht k hk i hi => ?_⟩
      simp only at ht hk hi ⊢
      refine h.val t ht _ ?_
      calc k * (x.shape.chan / n) + i < k * (x.shape.chan / n) + x.shape.chan / n := by omega
        _ = (k + 1) * (x.shape.chan / n) := by ring
        _ ≤ n * (x.shape.chan / n) := Nat.mul_le_mul_right _ hk
        _ = x.shape.chan := h1
    · simp [h0, h1, RelE]

theorem poolWindow_one {n i : ℕ} (h : i < n) : poolWindow n 1 1 i = [i] := by
  have hp : padLow n 1 1 = 0 := by unfold padLow sameLen; simp; omega
  unfold poolWindow
  rw [hp]
  have : (List.range n).filter (fun j => decide (i * 1 ≤ j + 0 ∧ j + 0 < i * 1 + 1)) =
      (List.range n).filter (fun j => j == i) := by
    apply List.filter_congr
    intro j _
    by_cases hj : j = i
    · subst hj; simp
    · have hd : ¬ (i * 1 ≤ j + 0 ∧ j + 0 < i * 1 + 1) := by omega
      rw [decide_eq_false hd]
      simp [hj]
  rw [this, List.filter_beq]
  rw [List.count_eq_one_of_mem List.nodup_range (List.mem_range.2 h)]
  rfl

theorem poolWindow_lt {n w s i j : ℕ} (h : j ∈ poolWindow n w s i) : j < n :=
  List.mem_range.1 (List.mem_of_mem_filter h)

theorem sameLen_one (n : ℕ) : sameLen n 1 = n := by simp [sameLen]

theorem SameEx.pool (hb : b < B) (hb' : b' < B') {x y : Tensor} (h : SameEx B B' b b' x y) (m : PoolMode) (w s : ℕ × ℕ)
    (hw : w.1 = 1) (hs : s.1 = 1) : SameEx B B' b b' (poolT m w s x) (poolT m w s y) := by
  refine ⟨by simp [poolT, hs, sameLen_one, h.batch], by simp [poolT, hs, sameLen_one, h.batch'],
    by simp [poolT, h.seq], h.chan, fun t ht c hc => ?_⟩
  have hl : ((poolWindow x.shape.batch w.1 s.1 b).flatMap fun b' => (poolWindow x.shape.seq w.2 s.2 t).map fun t' => x.val b' t' c) =
      ((poolWindow y.shape.batch w.1 s.1 b').flatMap fun b' => (poolWindow y.shape.seq w.2 s.2 t).map fun t' => y.val b' t' c) := by
    rw [hw, hs, h.batch, h.batch', poolWindow_one hb, poolWindow_one hb', h.seq]
    simp only [List.flatMap_cons, List.flatMap_nil, List.append_nil]
    exact List.map_congr_left fun t' ht' => h.val t' (poolWindow_lt ht') c hc
  simp only [poolT]
  rw [hl]

theorem SameEx.attentionPooling (hb : b < B) (hb' : b' < B') {x y : Tensor} (h : SameEx B B' b b' x y) (m : PoolMode)
    (w s : ℕ × ℕ) (hw : w.1 = 1) (hs : s.1 = 1) (n : ℕ) :
    RelE (SameHEx B B' b b') (attentionPoolingT m x w s n) (attentionPoolingT m y w s n) := by
  unfold attentionPoolingT
  split_ifs
  · rfl
  · exact h.splitHeads n
  · rfl
  · exact (h.pool hb hb' m w s hw hs).splitHeads n

theorem SameHEx.attention {q q' k k' v v' : HTensor} (hq : SameHEx B B' b b' q q') (hk : SameHEx B B' b b' k k')
    (hv : SameHEx B B' b b' v v') : RelE (SameHEx B B' b b') (attentionT q k v) (attentionT q' k' v') := by
  unfold attentionT Niles.attention
  rw [hq.batch, hk.batch, hv.batch, hq.batch', hk.batch', hv.batch', hq.seq, hk.seq, hv.seq, hq.heads, hk.heads, hv.heads,
    hq.dim, hk.dim, hv.dim]
  by_cases hc : k.shape.seq = v.shape.seq ∧ q.shape.heads = k.shape.heads ∧ k.shape.heads = v.shape.heads ∧
      q.shape.dim = k.shape.dim
  · obtain ⟨h1, h2, h3, h4⟩ := hc
    simp only [true_and]
    rw [if_pos ⟨h1, h2, h3, h4⟩, if_pos ⟨h1, h2, h3, h4⟩]
    simp only [RelE]
    refine ⟨rfl, rfl, rfl, rfl, rfl, fun t ht h hh i hi => ?_⟩
    simp only at ht hh hi ⊢
    have e : ∀ j ∈ range k.shape.seq, Real.exp (score q.shape.dim (q.val b t h) (k.val b j h)) =
        Real.exp (score q.shape.dim (q'.val b' t h) (k'.val b' j h)) := by
      intro j hj
      congr 1
      unfold score
      refine sum_congr rfl fun l hl => ?_
      have hl := mem_range.1 hl
      rw [hq.val t ht h hh l hl, hk.val j (mem_range.1 hj) h (h2 ▸ hh) l (h4 ▸ hl)]
    rw [sum_congr rfl e]
    congr 1
    refine sum_congr rfl fun j hj => ?_
    rw [e j hj, hv.val j (h1 ▸ mem_range.1 hj) h (h3 ▸ h2 ▸ hh) i hi]
  · simp only [true_and]
    rw [if_neg hc, if_neg hc]
    rfl

theorem SameHEx.addHeads {x y q r : HTensor} (h : SameHEx B B' b b' x y) (g : SameHEx B B' b b' q r)
    (hs : x.shape = q.shape) : SameHEx B B' b b' (addHeads x q) (addHeads y r) := by
  refine ⟨h.batch, h.batch', h.seq, h.heads, h.dim, fun t ht k hk i hi => ?_⟩
  simp only [Niles.addHeads]
  rw [h.val t ht k hk i hi, g.val t (hs ▸ ht) k (hs ▸ hk) i (hs ▸ hi)]

theorem SameHEx.denseHeads {x y : HTensor} (h : SameHEx B B' b b' x y) (w : DenseW) (out : ℕ) :
    SameEx B B' b b' (denseHeads w out x) (denseHeads w out y) := by
  refine ⟨h.batch, h.batch', h.seq, rfl, fun t ht o _ => ?_⟩
  simp only [Niles.denseHeads]
  rw [h.heads, h.dim]
  congr 1
  refine sum_congr rfl fun k hk => ?_
  exact sum_congr rfl fun i hi => by rw [h.val t ht k (mem_range.1 hk) i (mem_range.1 hi)]

theorem splitHeadsT_dim {x : Tensor} {n : ℕ} {q : HTensor} (h : splitHeadsT x n = .ok q) : q.shape.dim = x.shape.chan / n := by
  unfold splitHeadsT Niles.splitHeads at h
  split_ifs at h <;> simp at h
  subst h
  rfl

theorem attentionPoolingT_dim {m : PoolMode} {x : Tensor} {w s : ℕ × ℕ} {n : ℕ} {q : HTensor}
    (h : attentionPoolingT m x w s n = .ok q) : q.shape.dim = x.shape.chan / n := by
  unfold attentionPoolingT at h
  split_ifs at h <;> try simp at h
  · exact splitHeadsT_dim h
  · exact (splitHeadsT_dim h).trans rfl

theorem attentionT_ok {q k v y : HTensor} (h : attentionT q k v = .ok y) :
    y.shape = ⟨q.shape.batch, q.shape.seq, q.shape.heads, v.shape.dim⟩ := by
  unfold attentionT Niles.attention at h
  split_ifs at h <;> simp at h
  subst h
  rfl

theorem SameEx.downSample (hb : b < B) (hb' : b' < B') {x y : Tensor} (h : SameEx B B' b b' x y) (w : AttnW) (n : ℕ)
    (pq pk sq sk : ℕ × ℕ) (h1 : pq.1 = 1) (h2 : pk.1 = 1) (h3 : sq.1 = 1) (h4 : sk.1 = 1) :
    RelE (SameEx B B' b b') (downSampleT w x n pq pk sq sk) (downSampleT w y n pq pk sq sk) := by
  unfold downSampleT
  dsimp only
  rw [h.chan]
  have hd : ∀ d : DenseW, (Niles.dense d x.shape.chan x).shape.chan = x.shape.chan := fun d => rfl
  rcases ((h.dense w.query x.shape.chan).attentionPooling hb hb' .avg pq sq h1 h3 n).cases with
    ⟨q, q', e, e', hq⟩ | ⟨e, he, he'⟩
  swap
  · rw [he, he']; rfl
  have dq := attentionPoolingT_dim e
  rw [e, e']
  rcases ((h.dense w.key x.shape.chan).attentionPooling hb hb' .avg pk sk h2 h4 n).cases with
    ⟨k, k', e, e', hk⟩ | ⟨e, he, he'⟩
  swap
  · rw [he, he']; rfl
  rw [e, e']
  rcases ((h.dense w.value x.shape.chan).attentionPooling hb hb' .avg pk sk h2 h4 n).cases with
    ⟨v, v', e, e', hv⟩ | ⟨e, he, he'⟩
  swap
  · rw [he, he']; rfl
  have dv := attentionPoolingT_dim e
  rw [e, e']
  dsimp only
  rcases (hq.attention hk hv).cases with ⟨z, z', e, e', hz⟩ | ⟨e, he, he'⟩
  swap
  · rw [he, he']; rfl
  rw [e, e']
  refine (hz.addHeads hq ?_).denseHeads w.out x.shape.chan
  rw [attentionT_ok e, dv, hd, ← hd w.query, ← dq]

theorem SameEx.mlpBlock {x y : Tensor} (h : SameEx B B' b b' x y) (act : ℝ → ℝ) (w : MlpW) (k o : ℕ) :
    SameEx B B' b b' (mlpBlock act w k o x) (mlpBlock act w k o y) :=
  ((h.dense w.first k).map act).dense w.second o

theorem SameEx.mlpPart (hb : b < B) (hb' : b' < B') {x y : Tensor} (h : SameEx B B' b b' x y) (act : ℝ → ℝ) (w : BlockW)
    (n o : ℕ) : RelE (SameEx B B' b b') (mlpPart act w n o x) (mlpPart act w n o y) := by
  unfold Niles.mlpPart
  dsimp only
  refine ((h.layerNorm w.norm2).mlpBlock act w.mlp (n * 4) o).add hb hb' ?_
  split_ifs
  · exact h
  · exact (h.layerNorm w.norm2).dense w.proj o

theorem SameHEx.joinHeads {x y : HTensor} (h : SameHEx B B' b b' x y) : SameEx B B' b b' (joinHeads x) (joinHeads y) := by
  refine ⟨h.batch, h.batch', h.seq, by simp [Niles.joinHeads, h.heads, h.dim], fun t ht c hc => ?_⟩
  simp only [Niles.joinHeads] at hc ⊢
  rw [h.dim]
  have hp : 0 < x.shape.dim := Nat.pos_of_ne_zero fun h0 => by simp [h0] at hc
  exact h.val t ht _ (Nat.div_lt_of_lt_mul (by rwa [mul_comm] at hc)) _ (Nat.mod_lt _ hp)

theorem SameEx.encoderBlock (hb : b < B) (hb' : b' < B') {x y : Tensor} (h : SameEx B B' b b' x y) (act : ℝ → ℝ)
    (w : BlockW) (o n : ℕ) (pq pk sq sk : ℕ × ℕ) (h1 : pq.1 = 1) (h2 : pk.1 = 1) (h3 : sq.1 = 1) (h4 : sk.1 = 1) :
    RelE (SameEx B B' b b') (encoderBlockT act w x o n pq pk sq sk) (encoderBlockT act w y o n pq pk sq sk) := by
  unfold encoderBlockT
  dsimp only
  rcases ((h.layerNorm w.norm1).downSample hb hb' w.attn n pq pk sq sk h1 h2 h3 h4).cases with
    ⟨z, z', e, e', hz⟩ | ⟨e, he, he'⟩
  swap
  · rw [he, he']; rfl
  rw [e, e', h.chan]
  dsimp only
  have fin : ∀ {r r'}, SameEx B B' b b' r r' → RelE (SameEx B B' b b')
      (match addT z r with
        | .error e => .error e
        | .ok z => Niles.mlpPart act w x.shape.chan o z)
      (match addT z' r' with
        | .error e => .error e
        | .ok z => Niles.mlpPart act w x.shape.chan o z) := by
    intro r r' hr
    rcases (hz.add hb hb' hr).cases with ⟨u, u', e, e', hu⟩ | ⟨e, he, he'⟩
    · rw [e, e']; exact hu.mlpPart hb hb' act w _ _
    · rw [he, he']; rfl
  by_cases hs : sq.1 * sq.2 > 1
  · rw [if_pos hs, if_pos hs]
    rcases (h.attentionPooling hb hb' .max (resWindow sq.1, resWindow sq.2) sq (by simp [resWindow, h3]) h3 n).cases with
      ⟨u, u', e, e', hu⟩ | ⟨e, he, he'⟩
    · rw [e, e']; exact fin hu.joinHeads
    · rw [he, he']; rfl
  · rw [if_neg hs, if_neg hs]
    exact fin h

/-- The same skip connections. -/
def SameSkips (B B' b b' : ℕ) : List (ℕ × Tensor) → List (ℕ × Tensor) → Prop :=
  List.Forall₂ fun p q => p.1 = q.1 ∧ SameEx B B' b b' p.2 q.2

/-- The same state of the encoder loop. -/
structure SameState (B B' b b' : ℕ) (s t : EncStateT) : Prop where
  x : SameEx B B' b b' s.x t.x
  heads : t.heads = s.heads
  stride : t.strideKv = s.strideKv
  one : s.strideKv.1 = 1
  skips : SameSkips B B' b b' s.skips t.skips

theorem SameState.layer (hb : b < B) (hb' : b' < B') {s t : EncStateT} (h : SameState B B' b b' s t) (act : ℝ → ℝ)
    (w : ℕ → BlockW) (c : MSConfig) (hk : c.poolingKernel.1 = 1) (hq : c.poolingStridesQ.1 = 1) (l : ℕ) :
    RelE (SameState B B' b b') (encodeLayerT act w c l s) (encodeLayerT act w c l t) := by
  unfold encodeLayerT
  dsimp only
  rw [h.heads, h.stride, h.x.chan]
  have h1 : (if l ∈ c.poolingLayers ∨ c.poolQEveryLayer = true then c.poolingKernel else (1, 1)).1 = 1 := by
    split_ifs <;> simp [hk]
  have h3 : (if l ∈ c.poolingLayers then c.poolingStridesQ else (1, 1)).1 = 1 := by
    split_ifs <;> simp [hq]
  have h4 : (if l ∈ c.poolingLayers then (halveStride s.strideKv.1, halveStride s.strideKv.2) else s.strideKv).1 = 1 := by
    split_ifs
    · simp [h.one, halveStride]
    · exact h.one
  rcases (h.x.encoderBlock hb hb' act (w l) (if l + 1 ∈ c.poolingLayers then s.x.shape.chan * 2 else s.x.shape.chan)
    (if l ∈ c.poolingLayers then s.heads * 2 else s.heads) _ c.poolingKernel _ _ h1 hk h3 h4).cases with
    ⟨z, z', e, e', hz⟩ | ⟨e, he, he'⟩
  · rw [e, e']
    refine ⟨hz, rfl, rfl, h4, ?_⟩
    dsimp only
    split_ifs
    · exact List.rel_append h.skips (List.Forall₂.cons ⟨rfl, h.x⟩ List.Forall₂.nil)
    · exact h.skips
  · rw [he, he']; rfl

theorem SameState.layers (hb : b < B) (hb' : b' < B') (act : ℝ → ℝ)
    (w : ℕ → BlockW) (c : MSConfig) (hk : c.poolingKernel.1 = 1) (hq : c.poolingStridesQ.1 = 1) (ls : List ℕ)
    {s t : EncStateT} (h : SameState B B' b b' s t) :
    RelE (SameState B B' b b') (encodeLayersT act w c ls s) (encodeLayersT act w c ls t) := by
  induction ls generalizing s t with
  | nil => exact h
  | cons l ls ih =>
    unfold encodeLayersT
    rcases (h.layer hb hb' act w c hk hq l).cases with ⟨z, z', e, e', hz⟩ | ⟨e, he, he'⟩
    · rw [e, e']; exact ih hz
    · rw [he, he']; rfl

theorem SameEx.encode (hb : b < B) (hb' : b' < B') {x y : Tensor} (h : SameEx B B' b b' x y) (act : ℝ → ℝ)
    (w : ℕ → BlockW) (norm : NormW) (c : MSConfig) (hk : c.poolingKernel.1 = 1) (hq : c.poolingStridesQ.1 = 1)
    (hi : c.initialKvStrides.1 = 1) :
    RelE (fun p q => SameEx B B' b b' p.1 q.1 ∧ SameSkips B B' b b' p.2 q.2) (encodeT act w norm c x)
      (encodeT act w norm c y) := by
  unfold encodeT
  have hs : SameState B B' b b' ⟨x, c.numInitialHeads, c.initialKvStrides, []⟩ ⟨y, c.numInitialHeads, c.initialKvStrides, []⟩ :=
    ⟨h, rfl, rfl, hi, List.Forall₂.nil⟩
  rcases (SameState.layers hb hb' act w c hk hq (List.range c.depth) hs).cases with ⟨z, z', e, e', hz⟩ | ⟨e, he, he'⟩
  · rw [e, e']; exact ⟨hz.x.layerNorm norm, hz.skips⟩
  · rw [he, he']; rfl

theorem SameEx.tile {x y : Tensor} (h : SameEx B B' b b' x y) (reps : ℕ × ℕ) :
    SameEx B B' b b' (tileT reps x) (tileT reps y) := by
  refine ⟨h.batch, h.batch', by simp [tileT, h.seq], by simp [tileT, h.chan], fun t ht c hc => ?_⟩
  simp only [tileT] at ht hc ⊢
  rw [h.seq, h.chan]
  have h1 : 0 < x.shape.seq := Nat.pos_of_ne_zero fun h0 => by simp [h0] at ht
  have h2 : 0 < x.shape.chan := Nat.pos_of_ne_zero fun h0 => by simp [h0] at hc
  exact h.val _ (Nat.mod_lt _ h1) _ (Nat.mod_lt _ h2)

theorem SameEx.upSample {x y : Tensor} (h : SameEx B B' b b' x y) (w : AttnW) (n : ℕ)
    (reps : ℕ × ℕ) : RelE (SameEx B B' b b') (upSampleT w x n reps) (upSampleT w y n reps) := by
  unfold upSampleT
  dsimp only
  rw [h.chan]
  split_ifs with h0
  · rfl
  rcases (((h.dense w.query x.shape.chan).tile reps).splitHeads n).cases with ⟨q, q', e, e', hq⟩ | ⟨e, he, he'⟩
  swap
  · rw [he, he']; rfl
  have dq := splitHeadsT_dim e
  rw [e, e']
  rcases (((h.dense w.key x.shape.chan).tile reps).splitHeads n).cases with ⟨k, k', e, e', hk⟩ | ⟨e, he, he'⟩
  swap
  · rw [he, he']; rfl
  rw [e, e']
  rcases (((h.dense w.value x.shape.chan).tile reps).splitHeads n).cases with ⟨v, v', e, e', hv⟩ | ⟨e, he, he'⟩
  swap
  · rw [he, he']; rfl
  have dv := splitHeadsT_dim e
  rw [e, e']
  dsimp only
  rcases (hq.attention hk hv).cases with ⟨z, z', e, e', hz⟩ | ⟨e, he, he'⟩
  swap
  · rw [he, he']; rfl
  rw [e, e']
  refine (hz.addHeads hq ?_).denseHeads w.out x.shape.chan
  rw [attentionT_ok e, dv]
  have : (tileT reps (Niles.dense w.value x.shape.chan x)).shape.chan =
    (tileT reps (Niles.dense w.query x.shape.chan x)).shape.chan := rfl
  rw [this, ← dq]

theorem SameEx.decoderBlock (hb : b < B) (hb' : b' < B') {x y : Tensor} (h : SameEx B B' b b' x y) (act : ℝ → ℝ)
    (w : BlockW) (o n : ℕ) (reps : ℕ × ℕ) :
    RelE (SameEx B B' b b') (decoderBlockT act w x o n reps) (decoderBlockT act w y o n reps) := by
  unfold decoderBlockT
  rw [h.chan]
  rcases ((h.layerNorm w.norm1).upSample w.attn n reps).cases with ⟨z, z', e, e', hz⟩ | ⟨e, he, he'⟩
  swap
  · rw [he, he']; rfl
  rw [e, e']
  have hr : SameEx B B' b b' (if reps.1 * reps.2 > 1 then tileT reps x else x) (if reps.1 * reps.2 > 1 then tileT reps y else y) := by
    split_ifs
    · exact h.tile reps
    · exact h
  dsimp only
  rcases (hz.add hb hb' hr).cases with ⟨u, u', e, e', hu⟩ | ⟨e, he, he'⟩
  · rw [e, e']; exact hu.mlpPart hb hb' act w _ _
  · rw [he, he']; rfl

theorem SameSkips.lookup {s t : List (ℕ × Tensor)} (h : SameSkips B B' b b' s t) (l : ℕ) :
    (s.lookup l = none ∧ t.lookup l = none) ∨ ∃ x y, s.lookup l = some x ∧ t.lookup l = some y ∧ SameEx B B' b b' x y := by
  induction h with
  | nil => exact Or.inl ⟨rfl, rfl⟩
  | @cons p q s t hp hs ih =>
    obtain ⟨i, x⟩ := p
    obtain ⟨j, y⟩ := q
    obtain ⟨h1, h2⟩ := hp
    simp only at h1 h2
    subst h1
    simp only [List.lookup_cons]
    cases l == i
    · exact ih
    · exact Or.inr ⟨x, y, rfl, rfl, h2⟩

theorem SameEx.decodeLayer (hb : b < B) (hb' : b' < B') {x y : Tensor} (h : SameEx B B' b b' x y) (act : ℝ → ℝ)
    (w : ℕ → BlockW) (c : MSConfig) {s t : List (ℕ × Tensor)} (hs : SameSkips B B' b b' s t) (l : ℕ) :
    RelE (SameEx B B' b b') (decodeLayerT act w c s l x) (decodeLayerT act w c t l y) := by
  unfold decodeLayerT
  dsimp only
  rw [h.chan]
  by_cases h0 : c.width = 0
  · rw [if_pos h0, if_pos h0]; rfl
  rw [if_neg h0, if_neg h0]
  rcases (h.decoderBlock hb hb' act (w l) (if l + 1 ∈ c.poolingLayers then x.shape.chan / 2 else x.shape.chan)
    (x.shape.chan / c.width) (if l ∈ c.poolingLayers then c.tileReps else (1, 1))).cases with
    ⟨z, z', e, e', hz⟩ | ⟨e, he, he'⟩
  swap
  · rw [he, he']; rfl
  rw [e, e']
  dsimp only
  by_cases h1 : l ∈ c.poolingLayers ∧ c.useResiduals = true
  swap
  · rw [if_neg h1, if_neg h1]; exact hz
  rw [if_pos h1, if_pos h1]
  rcases hs.lookup l with ⟨e, e'⟩ | ⟨u, v, e, e', hu⟩
  · rw [e, e']; rfl
  rw [e, e']
  dsimp only
  rcases (hz.add hb hb' hu).cases with ⟨a, a', e, e', ha⟩ | ⟨e, he, he'⟩
  swap
  · rw [he, he']; rfl
  rw [e, e']
  dsimp only
  have hsh : a.shape = u.shape ↔ a'.shape = v.shape := by
    have e1 : a.shape = ⟨B, a.shape.seq, a.shape.chan⟩ := by rw [← ha.batch]
    have e2 : u.shape = ⟨B, u.shape.seq, u.shape.chan⟩ := by rw [← hu.batch]
    have e3 : a'.shape = ⟨B', a.shape.seq, a.shape.chan⟩ := by rw [← ha.batch', ← ha.seq, ← ha.chan]
    have e4 : v.shape = ⟨B', u.shape.seq, u.shape.chan⟩ := by rw [← hu.batch', ← hu.seq, ← hu.chan]
    rw [e3, e4, e1, e2]
    simp
  by_cases hh : a.shape = u.shape
  · rw [if_pos hh, if_pos (hsh.1 hh)]; exact ha
  · rw [if_neg hh, if_neg (fun k => hh (hsh.2 k))]; rfl

theorem SameEx.decodeLayers (hb : b < B) (hb' : b' < B') (act : ℝ → ℝ)
    (w : ℕ → BlockW) (c : MSConfig) {s t : List (ℕ × Tensor)} (hs : SameSkips B B' b b' s t) (ls : List ℕ)
    {x y : Tensor} (h : SameEx B B' b b' x y) :
    RelE (SameEx B B' b b') (decodeLayersT act w c s ls x) (decodeLayersT act w c t ls y) := by
  induction ls generalizing x y with
  | nil => exact h
  | cons l ls ih =>
    unfold decodeLayersT
    rcases (h.decodeLayer hb hb' act w c hs l).cases with ⟨z, z', e, e', hz⟩ | ⟨e, he, he'⟩
    · rw [e, e']; exact ih hz
    · rw [he, he']; rfl

theorem SameEx.decode (hb : b < B) (hb' : b' < B') {x y : Tensor} (h : SameEx B B' b b' x y) (act : ℝ → ℝ)
    (w : ℕ → BlockW) (norm : NormW) (c : MSConfig) {s t : List (ℕ × Tensor)} (hs : SameSkips B B' b b' s t) :
    RelE (SameEx B B' b b') (decodeT act w norm c s x) (decodeT act w norm c t y) := by
  unfold decodeT
  rcases (SameEx.decodeLayers hb hb' act w c hs (List.range c.depth).reverse h).cases with ⟨z, z', e, e', hz⟩ | ⟨e, he, he'⟩
  · rw [e, e']; exact hz.layerNorm norm
  · rw [he, he']; rfl

theorem samplesT_rel {R : Tensor → Tensor → Prop} {f g : ℕ → Except Err Tensor} (h : ∀ i, RelE R (f i) (g i)) (n : ℕ) :
    RelE (List.Forall₂ R) (samplesT f n) (samplesT g n) := by
  induction n with
  | zero => exact List.Forall₂.nil
  | succ n ih =>
    unfold samplesT
    rcases ih.cases with ⟨l, l', e, e', hl⟩ | ⟨e, he, he'⟩
    swap
    · rw [he, he']; rfl
    rw [e, e']
    rcases (h n).cases with ⟨z, z', e, e', hz⟩ | ⟨e, he, he'⟩
    · rw [e, e']; exact List.rel_append hl (List.Forall₂.cons hz List.Forall₂.nil)
    · rw [he, he']; rfl

theorem sum_rel {S : Shape} {l l' : List Tensor} (h : List.Forall₂ (SameEx B B' b b') l l') (hl : ∀ y ∈ l, y.shape = S)
    {t c : ℕ} (ht : t < S.seq) (hc : c < S.chan) :
    (l.map fun y => y.val b t c).sum = (l'.map fun y => y.val b' t c).sum := by
  induction h with
  | nil => rfl
  | @cons x y l l' hx h ih =>
    have := hl x (by simp)
    simp only [List.map_cons, List.sum_cons]
    rw [hx.val t (this ▸ ht) c (this ▸ hc), ih fun y hy => hl y (by simp [hy])]

theorem SameEx.mean {S S' : Shape} {l l' : List Tensor} (h : List.Forall₂ (SameEx B B' b b') l l')
    (hl : ∀ y ∈ l, y.shape = S) (hS : S.batch = B) (hS' : S' = ⟨B', S.seq, S.chan⟩) :
    SameEx B B' b b' (meanT S l) (meanT S' l') := by
  subst hS'
  refine ⟨hS, rfl, rfl, rfl, fun t ht c hc => ?_⟩
  simp only [meanT]
  rw [sum_rel h hl ht hc, h.length_eq]

theorem samplesT_shapes {f : ℕ → Except Err Tensor} {S : Shape} (hf : ∀ i y, f i = .ok y → y.shape = S) {n : ℕ} {l : List Tensor}
    (h : samplesT f n = .ok l) : ∀ y ∈ l, y.shape = S := by
  induction n generalizing l with
  | zero => simp only [samplesT] at h; simp at h; subst h; simp
  | succ n ih =>
    unfold samplesT at h
    cases h1 : samplesT f n with
    | error e => rw [h1] at h; simp at h
    | ok l1 =>
      rw [h1] at h
      cases h2 : f n with
      | error e => rw [h2] at h; simp at h
      | ok y1 =>
        rw [h2] at h
        simp at h
        subst h
        intro y hy
        rw [List.mem_append, List.mem_singleton] at hy
        rcases hy with hy | hy
        · exact ih h1 y hy
        · subst hy; exact hf n _ h2

theorem decodeSamples_rel {dec dec' : Tensor → Except Err Tensor} {d : Shape → Except Err Shape}
    (hd : ∀ x y, SameEx B B' b b' x y → RelE (SameEx B B' b b') (dec x) (dec' y)) (hsh : ∀ x, shapeE (dec x) = d x.shape)
    (m : Bool) (n : ℕ) {sample sample' : ℕ → Tensor} {S : Shape} (hs : ∀ i, SameEx B B' b b' (sample i) (sample' i))
    (hS : ∀ i, (sample i).shape = S) :
    RelE (SameEx B B' b b') (decodeSamples dec m n sample) (decodeSamples dec' m n sample') := by
  unfold decodeSamples
  cases m with
  | false =>
    simp only [Bool.false_eq_true, if_false]
    refine hd _ _ (SameEx.mean ?_ (S := (sample 0).shape) ?_ (hs 0).batch ?_)
    · generalize List.range n = ls
      induction ls with
      | nil => exact List.Forall₂.nil
      | cons i ls ih => exact List.Forall₂.cons (hs i) ih
    · intro y hy
      obtain ⟨i, -, rfl⟩ := List.mem_map.1 hy
      rw [hS, hS]
    · rw [← (hs 0).batch', ← (hs 0).seq, ← (hs 0).chan]
  | true =>
    simp only [if_true]
    rcases (samplesT_rel (fun i => hd _ _ (hs i)) n).cases with ⟨l, l', e, e', hl⟩ | ⟨e, he, he'⟩
    swap
    · rw [he, he']; rfl
    rw [e, e']
    cases hl with
    | nil => rfl
    | @cons z z' l l' hz hl =>
      refine SameEx.mean (List.Forall₂.cons hz hl) ?_ hz.batch ?_
      · cases hd0 : d S with
        | error err =>
          obtain ⟨k, rfl⟩ : ∃ k, n = k + 1 := by
            cases n with
            | zero => simp [samplesT] at e
            | succ k => exact ⟨k, rfl⟩
          have hf : ∀ i, shapeE (dec (sample i)) = .error err := fun i => by rw [hsh, hS, hd0]
          rcases samplesT_shape hf k with ⟨e1, -, h⟩ | ⟨z1, l1, hz1, -⟩
          · rw [h] at e; simp at e
          · simp at hz1
        | ok Z =>
          have h1 : ∀ i y, dec (sample i) = .ok y → y.shape = Z := by
            intro i y hy
            have := hsh (sample i)
            rw [hy, hS, hd0] at this
            simpa [shapeE] using this
          have h2 := samplesT_shapes h1 e
          intro y hy
          rw [h2 y hy, h2 z (by simp)]
      · rw [← hz.batch', ← hz.seq, ← hz.chan]

theorem tokensOf_congr {x y : Tensor} (h : SameEx B B' b b' x y) : tokensOf x b = tokensOf y b' := by
  funext t c
  unfold tokensOf
  rw [h.seq, h.chan]
  by_cases hc : t < x.shape.seq ∧ c < x.shape.chan
  · rw [if_pos hc, if_pos hc, h.val t hc.1 c hc.2]
  · rw [if_neg hc, if_neg hc]

end

end Verif.Niles
