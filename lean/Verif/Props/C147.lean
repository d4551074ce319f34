import Verif.Model.ModuleAttrs
import Mathlib.Tactic.SplitIfs

/-!
# C147: the network can be initialised and applied

Claim: `Model.init` returns parameters and `Model.apply` a prediction, for every configuration whose layers accept their
inputs; in particular `MlpBlock(mlp_dim, …)(x)` is `dense₂(gelu(dense₁(x)))` with the kernels drawn by `kernel_init` and the
biases by `bias_init`, and the three functions can be replaced by arguments of the constructor.

This is false of the code: the three attributes have no annotation (transformer.py 72-74), so they are methods of the class
and receive the module as their first argument. Every call of `MlpBlock` raises a `TypeError` (`C147_violated`), in `init`
and in `apply`, and with it every network that has a block (`C147_network_violated`). With annotations, as `MLP` and
`AddPosEmbs` have them, the claim holds (`C147_annotated_partial`, `C147_network_partial`, `C147_override_partial`).
-/

namespace Verif.Niles.Attrs

variable {A : Type}

/-- Every call of `MlpBlock` raises a `TypeError`, with or without existing parameters and whatever is passed to the
constructor. -/
theorem C147_violated (ops : Ops A) (newer : Bool) (kwargs : List (Name × PyFn A)) (p₁ p₂ : DenseParams A)
    (k mlpDim : Nat) (outDim : Option Nat) (useBias : Bool) (x : A) :
    mlpBlock ops (mlpBlockBody ops newer) kwargs p₁ p₂ k mlpDim outDim useBias x = .error .typeError := by
  cases kwargs with
  | nil =>
    simp [mlpBlock, construct, storeFields, mlpBlockBody, mlpBlockCall, getAttr, lookup, findDecl, dense, param, initializer]
  | cons q rest =>
    have : isField (mlpBlockBody ops newer) q.1 = false := by
      unfold isField mlpBlockBody
      simp only [findDecl]
      split_ifs <;> rfl
    simp [mlpBlock, construct, this]

/-- Every block of the network raises, whatever its other layers do. -/
theorem C147_block_violated (ops : Ops A) (newer : Bool) (b : BlockParts A) (x : A) :
    ∃ e, block ops (mlpBlockBody ops newer) b x = .error e := by
  unfold block
  cases b.attention x with
  | error e => exact ⟨e, rfl⟩
  | ok y =>
    simp only
    cases b.norm y with
    | error e => exact ⟨e, rfl⟩
    | ok z => exact ⟨.typeError, by simp only [C147_violated]⟩

/-- Every network with at least one block raises: neither `init` (no parameter exists) nor `apply` returns. -/
theorem C147_network_violated (ops : Ops A) (n : NetParts A) (newer : Bool) (hn : n.encoder ≠ []) (x : A) :
    ∃ e, network ops (mlpBlockBody ops newer) n x = .error e := by
  unfold network
  split
  · exact ⟨_, rfl⟩
  · split
    · exact ⟨_, rfl⟩
    · rename_i encoded _
      rw [if_neg (by simpa using hn)]
      obtain ⟨b, rest, hb⟩ := List.exists_cons_of_ne_nil hn
      obtain ⟨e, he⟩ := C147_block_violated ops newer b encoded
      exact ⟨e, by simp only [hb, blocks, he]⟩

/-- If the layers around it do not raise, then the exception is the `TypeError` of the first block. -/
theorem C147_network_type_error (ops : Ops A) (n : NetParts A) (newer : Bool) (b : BlockParts A) (rest : List (BlockParts A))
    (hn : n.encoder = b :: rest) (hemb : n.embedding = ⟨none, none⟩) (hpos : n.posEmb = none)
    (hatt : ∀ y, ∃ z, b.attention y = .ok z) (hnorm : ∀ y, ∃ z, b.norm y = .ok z) (x : A) :
    network ops (mlpBlockBody ops newer) n x = .error .typeError := by
  have hblock : ∀ y, block ops (mlpBlockBody ops newer) b y = .error .typeError := by
    intro y
    obtain ⟨z, hz⟩ := hatt y
    obtain ⟨w, hw⟩ := hnorm z
    simp only [block, hz, hw, C147_violated]
  simp [network, dense, param, initializer, hemb, hpos, addPosEmbs, construct, isField, findDecl, addPosEmbsBody, storeFields,
    lookup, getAttr, hn, blocks, hblock]

/-- Without blocks the network returns: the fault shows only with `depth ≥ 1`. -/
theorem C147_depth_zero (ops : Ops A) (body : ClassBody A) (n : NetParts A) (hn : n.encoder = [])
    (hemb : n.embedding = ⟨none, none⟩) (hpos : n.posEmb = none) (x : A) :
    network ops body n x =
      n.output (ops.add (ops.dense (ops.draw 3 0 [lastDim ops x, n.width]) (some (ops.draw 4 1 [n.width])) x)
        (ops.draw 2 2 (1 :: (ops.shape
          (ops.dense (ops.draw 3 0 [lastDim ops x, n.width]) (some (ops.draw 4 1 [n.width])) x)).drop 1))) := by
  simp [network, dense, param, initializer, hemb, hpos, addPosEmbs, construct, isField, findDecl, addPosEmbsBody, storeFields,
    lookup, getAttr, hn]

/-- A `Dense` layer on existing parameters of the right shapes, or on none, with an initialiser that is called as such. -/
private theorem dense_ok (ops : Ops A) (newer : Bool) (d₁ d₂ : Nat) (p : DenseParams A) (k features : Nat) (useBias : Bool)
    (x : A) (hk : ∀ v, p.kernel = some v → ops.shape v = ops.shape (ops.draw d₁ k [lastDim ops x, features]))
    (hb : ∀ v, p.bias = some v → ops.shape v = ops.shape (ops.draw d₂ (k + 1) [features])) :
    dense ops p k features useBias (initializer ops newer d₁) (initializer ops newer d₂) x =
      .ok (ops.dense (p.kernel.getD (ops.draw d₁ k [lastDim ops x, features]))
        (if useBias then some (p.bias.getD (ops.draw d₂ (k + 1) [features])) else none) x) := by
  obtain ⟨pk, pb⟩ := p
  simp only at hk hb
  cases pk with
  | none =>
    cases useBias with
    | false => simp [dense, param, initializer]
    | true =>
      cases pb with
      | none => simp [dense, param, initializer]
      | some w => simp [dense, param, initializer, hb w rfl]
  | some v =>
    cases useBias with
    | false => simp [dense, param, initializer, hk v rfl]
    | true =>
      cases pb with
      | none => simp [dense, param, initializer, hk v rfl]
      | some w => simp [dense, param, initializer, hk v rfl, hb w rfl]

/-- With annotations `MlpBlock` is the two layers with `gelu` between them: in `init` with the kernels of `kernel_init` and
the biases of `bias_init`, and in `apply` with the existing parameters. Missing for the full claim: the code has no
annotations. -/
theorem C147_annotated_partial (ops : Ops A) (newer : Bool) (hshape : ∀ d k s, ops.shape (ops.draw d k s) = s)
    (p₁ p₂ : DenseParams A) (k mlpDim : Nat) (outDim : Option Nat) (useBias : Bool) (x h : A) (out : Nat)
    (hout : out = outDim.getD (lastDim ops x))
    (hp₁ : (∀ v, p₁.kernel = some v → ops.shape v = [lastDim ops x, mlpDim]) ∧
      ∀ v, p₁.bias = some v → ops.shape v = [mlpDim])
    (hh : h = ops.gelu (ops.dense (p₁.kernel.getD (ops.draw 0 k [lastDim ops x, mlpDim]))
      (if useBias then some (p₁.bias.getD (ops.draw 1 (k + 1) [mlpDim])) else none) x))
    (hp₂ : (∀ v, p₂.kernel = some v → ops.shape v = [lastDim ops h, out]) ∧
      ∀ v, p₂.bias = some v → ops.shape v = [out]) :
    mlpBlock ops (annotate (mlpBlockBody ops newer)) [] p₁ p₂ k mlpDim outDim useBias x =
      .ok (ops.dense (p₂.kernel.getD (ops.draw 0 (k + 2) [lastDim ops h, out]))
        (if useBias then some (p₂.bias.getD (ops.draw 1 (k + 3) [out])) else none) h) := by
  have h1 := dense_ok ops newer 0 1 p₁ k mlpDim useBias x (by simpa [hshape] using hp₁.1) (by simpa [hshape] using hp₁.2)
  have h2 := dense_ok ops newer 0 1 p₂ (k + 2) out useBias h (by simpa [hshape] using hp₂.1)
    (by simpa [hshape] using hp₂.2)
  subst hout
  simp [mlpBlock, annotate, mlpBlockBody, construct, storeFields, lookup, mlpBlockCall, getAttr, h1, callArray, gelu, ← hh, h2]

/-- A python function of one array. -/
def ofFun (f : A → A) : PyFn A
  | [.array a] => .ok (.array (f a))
  | _ => .error .typeError

/-- With annotations a function passed to the constructor replaces the default: here the activation. The class of the code
raises (`C147_violated` for all arguments). -/
theorem C147_override_partial (ops : Ops A) (newer : Bool) (f : A → A) (k mlpDim : Nat) (x : A) :
    mlpBlock ops (annotate (mlpBlockBody ops newer))
        [(.activationFn, ofFun f)] ⟨none, none⟩ ⟨none, none⟩ k mlpDim none false x =
      .ok (ops.dense (ops.draw 0 (k + 2)
          [lastDim ops (f (ops.dense (ops.draw 0 k [lastDim ops x, mlpDim]) none x)), lastDim ops x]) none
        (f (ops.dense (ops.draw 0 k [lastDim ops x, mlpDim]) none x))) := by
  simp [mlpBlock, annotate, mlpBlockBody, construct, storeFields, lookup, isField, findDecl, mlpBlockCall, getAttr, dense,
    param, initializer, callArray, ofFun]

/-- A block whose other layers do not raise. -/
def BlockTotal (b : BlockParts A) : Prop :=
  (∀ x, ∃ y, b.attention x = .ok y) ∧ (∀ x, ∃ y, b.norm x = .ok y) ∧ (∀ u v w, ∃ y, b.join u v w = .ok y) ∧
    b.p₁ = ⟨none, none⟩ ∧ b.p₂ = ⟨none, none⟩

private theorem blocks_ok (ops : Ops A) (newer : Bool) (hshape : ∀ d k s, ops.shape (ops.draw d k s) = s) :
    ∀ (bs : List (BlockParts A)) (_ : ∀ b ∈ bs, BlockTotal b) (x : A),
      ∃ y, blocks ops (annotate (mlpBlockBody ops newer)) bs x = .ok y := by
  intro bs
  induction bs with
  | nil => intro _ x; exact ⟨x, rfl⟩
  | cons b rest ih =>
    intro hb x
    obtain ⟨h1, h2, h3, h4, h5⟩ := hb b List.mem_cons_self
    obtain ⟨a, ha⟩ := h1 x
    obtain ⟨c, hc⟩ := h2 a
    have hm := C147_annotated_partial ops newer hshape b.p₁ b.p₂ b.key (b.mlpDim x) b.outDim b.useBias c _ _ rfl
      (by simp [h4]) rfl (by simp [h5])
    obtain ⟨m, hm⟩ : ∃ m, mlpBlock ops (annotate (mlpBlockBody ops newer)) [] b.p₁ b.p₂ b.key (b.mlpDim x) b.outDim
      b.useBias c = .ok m := ⟨_, hm⟩
    obtain ⟨j, hj⟩ := h3 m a c
    obtain ⟨y, hy⟩ := ih (fun b' hb' => hb b' (List.mem_cons_of_mem _ hb')) j
    exact ⟨y, by simp only [blocks, block, ha, hc, hm, hj, hy]⟩

/-- With annotations `init` returns for every network whose other layers do not raise, for any number of blocks. Missing for
the full claim: the code has no annotations, see `C147_network_violated`. -/
theorem C147_network_partial (ops : Ops A) (newer : Bool) (hshape : ∀ d k s, ops.shape (ops.draw d k s) = s) (n : NetParts A)
    (hemb : n.embedding = ⟨none, none⟩) (hpos : n.posEmb = none) (henc : ∀ b ∈ n.encoder, BlockTotal b)
    (hdec : ∀ b ∈ n.decoder, BlockTotal b) (hproc : ∀ x, ∃ y, n.processor x = .ok y) (hout : ∀ x, ∃ y, n.output x = .ok y)
    (x : A) : ∃ y, network ops (annotate (mlpBlockBody ops newer)) n x = .ok y := by
  by_cases hn : n.encoder = []
  · rw [C147_depth_zero ops _ n hn hemb hpos]
    exact hout _
  · have hl : n.encoder.length ≠ 0 := by simpa using hn
    obtain ⟨e, he⟩ : ∃ e, e = ops.add (ops.dense (ops.draw 3 0 [lastDim ops x, n.width]) (some (ops.draw 4 1 [n.width])) x)
        (ops.draw 2 2 (1 :: (ops.shape
          (ops.dense (ops.draw 3 0 [lastDim ops x, n.width]) (some (ops.draw 4 1 [n.width])) x)).drop 1)) := ⟨_, rfl⟩
    obtain ⟨y, hy⟩ := blocks_ok ops newer hshape n.encoder henc e
    obtain ⟨z, hz⟩ := hproc y
    obtain ⟨w, hw⟩ := blocks_ok ops newer hshape n.decoder hdec z
    obtain ⟨o, ho⟩ := hout w
    refine ⟨o, ?_⟩
    simp only [List.drop_one] at he
    simp [network, dense, param, initializer, hemb, hpos, addPosEmbs, construct, isField, findDecl, addPosEmbsBody,
      storeFields, lookup, getAttr, hn, ← he, hy, hz, hw, ho]

/-- The hidden layers of `MLP` as a function, with the parameters of `init`. -/
def hiddenLayers (ops : Ops A) : List Nat → Nat → A → A
  | [], _, x => x
  | feat :: rest, k, x =>
    hiddenLayers ops rest (k + 2)
      (ops.gelu (ops.dense (ops.draw 5 k [lastDim ops x, feat]) (some (ops.draw 6 (k + 1) [feat])) x))

private theorem mlpHidden_ok (ops : Ops A) (newer : Bool) : ∀ (feats : List Nat) (k : Nat) (x : A),
    mlpHidden ops newer (gelu ops) (feats.map fun f => (f, ⟨none, none⟩)) k x = .ok (hiddenLayers ops feats k x) := by
  intro feats
  induction feats with
  | nil => intro k x; rfl
  | cons f rest ih =>
    intro k x
    simp [mlpHidden, dense, param, initializer, callArray, gelu, ih, hiddenLayers]

/-- `MLP`, whose functions are annotated, works as it is in the code: any number of layers, `gelu` between them, and the
final activation that is passed to the constructor. -/
theorem C147_mlp (ops : Ops A) (newer : Bool) (fin : A → A) (feats : List Nat) (last : Nat) (x : A) :
    mlp ops newer (mlpBody ops)
        [(.finalActivationFn, ofFun fin)] (feats.map fun f => (f, ⟨none, none⟩)) (last, ⟨none, none⟩) x =
      .ok (fin (ops.dense (ops.draw 5 (2 * feats.length) [lastDim ops (hiddenLayers ops feats 0 x), last])
        (some (ops.draw 6 (2 * feats.length + 1) [last])) (hiddenLayers ops feats 0 x))) := by
  have hm := mlpHidden_ok ops newer feats 0 x
  obtain ⟨h, hh⟩ : ∃ h, h = hiddenLayers ops feats 0 x := ⟨_, rfl⟩
  rw [← hh] at hm ⊢
  obtain ⟨hs, hhs⟩ : ∃ hs : List (Nat × DenseParams A), hs = feats.map fun f => (f, ⟨none, none⟩) := ⟨_, rfl⟩
  have hlen : hs.length = feats.length := by simp [hhs]
  rw [← hhs] at hm ⊢
  have hd := dense_ok ops newer 5 6 ⟨none, none⟩ (2 * hs.length) last true h (by simp) (by simp)
  obtain ⟨inst, hi⟩ : ∃ inst : Instance A, inst = ⟨mlpBody ops, [(.activationFn, gelu ops),
    (.finalActivationFn, ofFun fin)]⟩ := ⟨_, rfl⟩
  have h1 : construct (mlpBody ops) [(.finalActivationFn, ofFun fin)] = .ok inst := by
    simp [construct, mlpBody, isField, findDecl, storeFields, lookup, hi]
  have h2 : getAttr inst .activationFn = .ok (gelu ops) := by simp [getAttr, lookup, hi]
  have h3 : getAttr inst .finalActivationFn = .ok (ofFun fin) := by simp [getAttr, lookup, hi]
  have h4 : ∀ y, callArray (ofFun fin) y = .ok (fin y) := fun y => rfl
  rw [hlen] at hd
  simp only [mlp, h1, h2, h3, hm, hlen, hd, h4]
  rfl

/-! The hypotheses can be met: arrays as shapes with a number. -/

/-- Arrays as a shape and an entry, with operations that respect the shapes. -/
def exOps : Ops (List Nat × Int) where
  shape a := a.1
  dense k b x := (x.1.dropLast ++ [k.1.getLastD 0], k.2 * x.2 + (b.map Prod.snd).getD 0)
  gelu a := (a.1, max a.2 0)
  add a b := (a.1, a.2 + b.2)
  draw d k s := (s, 10 * d + k + 1)

/-- A block of one normalisation, attention by doubling, a residual. -/
def exBlock : BlockParts (List Nat × Int) where
  attention x := .ok (x.1, 2 * x.2)
  norm x := .ok x
  join y x _ := .ok (x.1, y.2 + x.2)
  p₁ := ⟨none, none⟩
  p₂ := ⟨none, none⟩
  key := 7
  mlpDim x := 4 * x.1.getLastD 0
  outDim := none
  useBias := false

def exNet : NetParts (List Nat × Int) where
  newer := true
  embedding := ⟨none, none⟩
  posEmb := none
  encoder := [exBlock, exBlock]
  processor x := .ok x
  decoder := [exBlock, exBlock]
  output x := .ok x
  width := 6

example : (∀ d k s, exOps.shape (exOps.draw d k s) = s) ∧ (∀ b ∈ exNet.encoder, BlockTotal b) ∧ exNet.encoder ≠ [] := by
  refine ⟨fun _ _ _ => rfl, ?_, by simp [exNet]⟩
  intro b hb
  have : b = exBlock := by simpa [exNet] using hb
  subst this
  exact ⟨fun x => ⟨_, rfl⟩, fun x => ⟨_, rfl⟩, fun _ _ _ => ⟨_, rfl⟩, rfl, rfl⟩

example : network exOps (mlpBlockBody exOps true) exNet ([2, 3, 5], 1) = .error .typeError :=
  C147_network_type_error exOps exNet true exBlock [exBlock] rfl rfl rfl (fun _ => ⟨_, rfl⟩) (fun _ => ⟨_, rfl⟩) _

example : ∃ y, network exOps (annotate (mlpBlockBody exOps true)) exNet ([2, 3, 5], 1) = .ok y := by
  have h : ∀ b ∈ exNet.encoder, BlockTotal b := by
    intro b hb
    have : b = exBlock := by simpa [exNet] using hb
    subst this
    exact ⟨fun x => ⟨_, rfl⟩, fun x => ⟨_, rfl⟩, fun _ _ _ => ⟨_, rfl⟩, rfl, rfl⟩
  exact C147_network_partial exOps true (fun _ _ _ => rfl) exNet rfl rfl h h (fun x => ⟨_, rfl⟩) (fun x => ⟨_, rfl⟩) _

end Verif.Niles.Attrs
