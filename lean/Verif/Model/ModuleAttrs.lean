/-!
# Attributes of flax modules: fields and class attributes

Model of the attributes of the modules of niles/transformer.py, in particular of `MlpBlock` (66-97), `MLP` (576-607) and
`AddPosEmbs` (431-451), and of the blocks and of the network that call `MlpBlock` (206-567, 1012-1050).

A flax module is a dataclass: the names with a type annotation in the body of the class are the fields, the constructor takes
exactly these and stores their values in the instance. A name without an annotation stays an attribute of the class. If its
value is a function, then python hands it out through an instance as a bound method, so that the instance is the first
argument of every call.

Simplifications: arrays are values of a type `A` with the operations of `Ops`; a call has positional arguments only; the
layers other than `Dense` and `MlpBlock` (normalisation, attention, pooling, the latent SDE) are functions that may raise;
random keys are numbers. An initialiser of jax takes a key, a shape and optionally a data type; since jax 0.7 a sharding may
follow. Both versions are modelled (`newer`). Flax calls the initialiser of a parameter also when the parameter exists, to
compare the shapes (flax `Scope.param`).
-/

namespace Verif.Niles.Attrs

/-- Names of attributes. -/
inductive Name
  | kernelInit
  | biasInit
  | activationFn
  | finalActivationFn
  | posembInit
  | other (s : String)
  deriving DecidableEq

/-- What a call raises. -/
inductive PyErr
  | typeError
  | attributeError
  | shapeError
  | other (code : Nat)
  deriving DecidableEq

/-- Arguments and results of the functions at stake. -/
inductive PyVal (A : Type)
  | self
  | key (k : Nat)
  | shape (s : List Nat)
  | dtype
  | none
  | bool (b : Bool)
  | array (a : A)

/-- A python function, on its positional arguments. -/
abbrev PyFn (A : Type) := List (PyVal A) → Except PyErr (PyVal A)

/-- The operations on arrays that the modules use: the shape, the product with a kernel and the sum with a bias in
`nn.Dense`, `nn.gelu`, the sum, and the numbers that an initialiser draws with a key (the first argument names it). -/
structure Ops (A : Type) where
  shape : A → List Nat
  dense : A → Option A → A → A
  gelu : A → A
  add : A → A → A
  draw : Nat → Nat → List Nat → A

/-- `inputs.shape[-1]`. -/
def lastDim {A : Type} (ops : Ops A) (a : A) : Nat := ((ops.shape a).getLast?).getD 0

/-- The function that `nn.initializers.xavier_uniform()` or `nn.initializers.normal(stddev=…)` returns (transformer.py 72,
73, 440): `init(key, shape, dtype=…)`, in newer versions `init(key, shape, dtype=…, out_sharding=None)`. Too many arguments
and arguments of the wrong kind raise a `TypeError`. -/
def initializer {A : Type} (ops : Ops A) (newer : Bool) (dist : Nat) : PyFn A
  | [.key k, .shape s] => .ok (.array (ops.draw dist k s))
  | [.key k, .shape s, .dtype] => .ok (.array (ops.draw dist k s))
  | [.key k, .shape s, .dtype, .none] => if newer then .ok (.array (ops.draw dist k s)) else .error .typeError
  | _ => .error .typeError

/-- `nn.gelu(x, approximate=True)` (transformer.py 74, 579). -/
def gelu {A : Type} (ops : Ops A) : PyFn A
  | [.array a] => .ok (.array (ops.gelu a))
  | [.array a, .bool _] => .ok (.array (ops.gelu a))
  | _ => .error .typeError

/-- A line `name: annotation = value` or `name = value` of the body of a class, for functions. `value = none` is a field
without a default. -/
structure AttrDecl (A : Type) where
  name : Name
  annotated : Bool
  value : Option (PyFn A)

/-- A class, by the attributes whose values are functions. -/
abbrev ClassBody (A : Type) := List (AttrDecl A)

/-- An instance: the class, and the values of the fields that the constructor stored. -/
structure Instance (A : Type) where
  body : ClassBody A
  fields : List (Name × PyFn A)

/-- The value of a name in a list of keyword arguments. -/
def lookup {A : Type} : List (Name × PyFn A) → Name → Option (PyFn A)
  | [], _ => none
  | (n, f) :: rest, name => if n = name then some f else lookup rest name

/-- The declaration of a name in the body of a class. -/
def findDecl {A : Type} : ClassBody A → Name → Option (AttrDecl A)
  | [], _ => none
  | d :: rest, name => if d.name = name then some d else findDecl rest name

/-- Does the constructor know the keyword? -/
def isField {A : Type} (body : ClassBody A) (name : Name) : Bool :=
  match findDecl body name with
  | some d => d.annotated
  | none => false

/-- The values that the constructor of a dataclass stores: of each annotated name the argument, or else the default. -/
def storeFields {A : Type} (kwargs : List (Name × PyFn A)) : ClassBody A → Except PyErr (List (Name × PyFn A))
  | [] => .ok []
  | d :: rest =>
    match storeFields kwargs rest with
    | .error e => .error e
    | .ok fs =>
      if d.annotated then
        match lookup kwargs d.name with
        | some f => .ok ((d.name, f) :: fs)
        | none =>
          match d.value with
          | some f => .ok ((d.name, f) :: fs)
          | none => .error .typeError
      else .ok fs

/-- The constructor: unknown keywords raise a `TypeError`. -/
def construct {A : Type} (body : ClassBody A) (kwargs : List (Name × PyFn A)) : Except PyErr (Instance A) :=
  if kwargs.all (fun p => isField body p.1) then
    match storeFields kwargs body with
    | .ok fs => .ok ⟨body, fs⟩
    | .error e => .error e
  else .error .typeError

/-- `self.name`, as a function to be called: the stored value of a field as it is, a function of the class bound to the
instance. -/
def getAttr {A : Type} (inst : Instance A) (name : Name) : Except PyErr (PyFn A) :=
  match lookup inst.fields name with
  | some f => .ok f
  | none =>
    match findDecl inst.body name with
    | some d =>
      match d.value with
      | some f => .ok (fun args => f (.self :: args))
      | none => .error .attributeError
    | none => .error .attributeError

/-- `self.param(name, init, shape, dtype)` of flax, with the value of the parameter if there is one (in `apply`), and the
key to draw it with: the initialiser is called in both cases. -/
def param {A : Type} (ops : Ops A) (stored : Option A) (k : Nat) (init : PyFn A) (s : List Nat) : Except PyErr A :=
  match init [.key k, .shape s, .dtype] with
  | .error e => .error e
  | .ok (.array fresh) =>
    match stored with
    | none => .ok fresh
    | some v => if ops.shape v = ops.shape fresh then .ok v else .error .shapeError
  | .ok _ => .error .typeError

/-- The parameters of a `Dense` layer that exist already. -/
structure DenseParams (A : Type) where
  kernel : Option A
  bias : Option A

/-- `nn.Dense(features, use_bias, kernel_init, bias_init)(x)`. -/
def dense {A : Type} (ops : Ops A) (p : DenseParams A) (k : Nat) (features : Nat) (useBias : Bool) (kernelInit biasInit : PyFn A)
    (x : A) : Except PyErr A :=
  match param ops p.kernel k kernelInit [lastDim ops x, features] with
  | .error e => .error e
  | .ok kernel =>
    if useBias then
      match param ops p.bias (k + 1) biasInit [features] with
      | .error e => .error e
      | .ok bias => .ok (ops.dense kernel (some bias) x)
    else .ok (ops.dense kernel none x)

/-- A call `self.activation_fn(x)` whose result is used as an array. -/
def callArray {A : Type} (f : PyFn A) (x : A) : Except PyErr A :=
  match f [.array x] with
  | .ok (.array y) => .ok y
  | .ok _ => .error .typeError
  | .error e => .error e

/-- The body of `MlpBlock` as it is in the file (transformer.py 72-74): three functions, no annotation. -/
def mlpBlockBody {A : Type} (ops : Ops A) (newer : Bool) : ClassBody A :=
  [⟨.kernelInit, false, some (initializer ops newer 0)⟩,
   ⟨.biasInit, false, some (initializer ops newer 1)⟩,
   ⟨.activationFn, false, some (gelu ops)⟩]

/-- The same class with annotations. -/
def annotate {A : Type} (body : ClassBody A) : ClassBody A := body.map (fun d => { d with annotated := true })

/-- The body of `MLP`, by its functions (transformer.py 579-580), with the annotations of the file. -/
def mlpBody {A : Type} (ops : Ops A) : ClassBody A :=
  [⟨.activationFn, true, some (gelu ops)⟩,
   ⟨.finalActivationFn, true, some (fun args =>
      match args with
      | [x] => .ok x
      | _ => .error .typeError)⟩]

/-- The body of `AddPosEmbs` (transformer.py 440). -/
def addPosEmbsBody {A : Type} (ops : Ops A) (newer : Bool) : ClassBody A :=
  [⟨.posembInit, true, some (initializer ops newer 2)⟩]

/-- `MlpBlock.__call__` (transformer.py 79-97) of an instance. -/
def mlpBlockCall {A : Type} (ops : Ops A) (inst : Instance A) (p₁ p₂ : DenseParams A) (k mlpDim : Nat) (outDim : Option Nat)
    (useBias : Bool) (x : A) : Except PyErr A :=
  let actualOut := outDim.getD (lastDim ops x)
  match getAttr inst .kernelInit, getAttr inst .biasInit with
  | .ok kernelInit, .ok biasInit =>
    match dense ops p₁ k mlpDim useBias kernelInit biasInit x with
    | .error e => .error e
    | .ok h =>
      match getAttr inst .activationFn with
      | .error e => .error e
      | .ok act =>
        match callArray act h with
        | .error e => .error e
        | .ok h' => dense ops p₂ (k + 2) actualOut useBias kernelInit biasInit h'
  | _, _ => .error .attributeError

/-- `MlpBlock(mlp_dim=…, …)(x)`: the constructor and the call. -/
def mlpBlock {A : Type} (ops : Ops A) (body : ClassBody A) (kwargs : List (Name × PyFn A)) (p₁ p₂ : DenseParams A)
    (k mlpDim : Nat) (outDim : Option Nat) (useBias : Bool) (x : A) : Except PyErr A :=
  match construct body kwargs with
  | .error e => .error e
  | .ok inst => mlpBlockCall ops inst p₁ p₂ k mlpDim outDim useBias x

/-- The layers around `MlpBlock` in a block: the first normalisation and the attention with its residual (transformer.py
228-251, 284-296, 1040-1045), the second normalisation (254, 299, 1048), and the final sum with the projection of the skip
connection (262-271, 307-316, 1050). Any of them may raise. -/
structure BlockParts (A : Type) where
  attention : A → Except PyErr A
  norm : A → Except PyErr A
  join : A → A → A → Except PyErr A
  p₁ : DenseParams A
  p₂ : DenseParams A
  key : Nat
  mlpDim : A → Nat
  outDim : Option Nat
  useBias : Bool

/-- `EncoderBlock.__call__` (transformer.py 219-271), `DecoderBlock.__call__` (283-316) and `Encoder1DBlock.__call__`
(1029-1050). -/
def block {A : Type} (ops : Ops A) (body : ClassBody A) (b : BlockParts A) (inputs : A) : Except PyErr A :=
  match b.attention inputs with
  | .error e => .error e
  | .ok x =>
    match b.norm x with
    | .error e => .error e
    | .ok xNorm =>
      match mlpBlock ops body [] b.p₁ b.p₂ b.key (b.mlpDim inputs) b.outDim b.useBias xNorm with
      | .error e => .error e
      | .ok y => b.join y x xNorm

/-- A sequence of blocks (transformer.py 337-365, 393-424). -/
def blocks {A : Type} (ops : Ops A) (body : ClassBody A) : List (BlockParts A) → A → Except PyErr A
  | [], x => .ok x
  | b :: rest, x =>
    match block ops body b x with
    | .error e => .error e
    | .ok y => blocks ops body rest y

/-- `AddPosEmbs(posemb_init=…)(x)` (transformer.py 431-451, 492-494). -/
def addPosEmbs {A : Type} (ops : Ops A) (body : ClassBody A) (kwargs : List (Name × PyFn A)) (stored : Option A) (k : Nat)
    (x : A) : Except PyErr A :=
  match construct body kwargs with
  | .error e => .error e
  | .ok inst =>
    match getAttr inst .posembInit with
    | .error e => .error e
    | .ok init =>
      match param ops stored k init (1 :: (ops.shape x).drop 1) with
      | .error e => .error e
      | .ok emb => .ok (ops.add x emb)

/-- The parts of the network (transformer.py 454-567) other than the blocks. -/
structure NetParts (A : Type) where
  newer : Bool
  embedding : DenseParams A
  posEmb : Option A
  encoder : List (BlockParts A)
  processor : A → Except PyErr A
  decoder : List (BlockParts A)
  output : A → Except PyErr A
  width : Nat

/-- `Model.__call__` (transformer.py 476-567); the multiscale part is entered if there are blocks (`self.depth > 0`, 501). The
initialisers of `Dense` and of the positional embedding are passed as values (489, 493), not through the class. -/
def network {A : Type} (ops : Ops A) (body : ClassBody A) (n : NetParts A) (inputs : A) : Except PyErr A :=
  match dense ops n.embedding 0 n.width true (initializer ops n.newer 3) (initializer ops n.newer 4) inputs with
  | .error e => .error e
  | .ok x =>
    match addPosEmbs ops (addPosEmbsBody ops n.newer) [(.posembInit, initializer ops n.newer 2)] n.posEmb 2 x with
    | .error e => .error e
    | .ok encoded =>
      if n.encoder.length = 0 then n.output encoded
      else
        match blocks ops body n.encoder encoded with
        | .error e => .error e
        | .ok y =>
          match n.processor y with
          | .error e => .error e
          | .ok z =>
            match blocks ops body n.decoder z with
            | .error e => .error e
            | .ok w => n.output w

/-- The hidden layers of `MLP.__call__` (transformer.py 586-593). -/
def mlpHidden {A : Type} (ops : Ops A) (newer : Bool) (act : PyFn A) : List (Nat × DenseParams A) → Nat → A → Except PyErr A
  | [], _, x => .ok x
  | (feat, p) :: rest, k, x =>
    match dense ops p k feat true (initializer ops newer 5) (initializer ops newer 6) x with
    | .error e => .error e
    | .ok h =>
      match callArray act h with
      | .error e => .error e
      | .ok h' => mlpHidden ops newer act rest (k + 2) h'

/-- `MLP(features, …)(x)` (transformer.py 576-607): the hidden layers, the last layer, the final activation. -/
def mlp {A : Type} (ops : Ops A) (newer : Bool) (body : ClassBody A) (kwargs : List (Name × PyFn A))
    (hidden : List (Nat × DenseParams A)) (last : Nat × DenseParams A) (x : A) : Except PyErr A :=
  match construct body kwargs with
  | .error e => .error e
  | .ok inst =>
    match getAttr inst .activationFn, getAttr inst .finalActivationFn with
    | .ok act, .ok fin =>
      match mlpHidden ops newer act hidden 0 x with
      | .error e => .error e
      | .ok h =>
        match dense ops last.2 (2 * hidden.length) last.1 true (initializer ops newer 5) (initializer ops newer 6) h with
        | .error e => .error e
        | .ok y => callArray fin y
    | _, _ => .error .attributeError

end Verif.Niles.Attrs
