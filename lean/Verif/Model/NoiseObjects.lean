import Verif.Model.DensityMatrix

/-!
# Model of `graphix/utils.py` (descriptors that validate) and of noise objects

The attribute `prob` of a noise can be assigned again: `Probability` validates each assignment. Floats have here the values that a comparison can see
(`nan`, the infinities), because the validator only compares.
-/

namespace Graphix

/-- A Python float: a number, an infinity, or `nan`. -/
inductive PyFloat
  | nan | negInf | posInf | real (x : ℝ)

/-- `a < b` for Python floats: false when one of them is `nan`. -/
def PyFloat.lt : PyFloat → PyFloat → Prop
  | .nan, _ => False
  | _, .nan => False
  | .posInf, _ => False
  | _, .negInf => False
  | .negInf, _ => True
  | _, .posInf => True
  | .real a, .real b => a < b

/-- `utils.py:127-136` `BoundedFloat(minvalue, maxvalue)`. -/
structure BoundedFloat where
  minvalue : Option PyFloat
  maxvalue : Option PyFloat

open scoped Classical in
/-- `utils.py:138-143` `BoundedFloat.validate`. -/
noncomputable def BoundedFloat.validate (b : BoundedFloat) (value : PyFloat) : Except PyErr Unit :=
  if ∃ m ∈ b.minvalue, value.lt m then .error .valueError
  else if ∃ m ∈ b.maxvalue, m.lt value then .error .valueError
  else .ok ()

/-- `utils.py:146-150` `Probability`. -/
noncomputable def probability : BoundedFloat := ⟨some (.real 0), some (.real 1)⟩

/-- The noise classes of the library (`depolarising.py:25-76`, `amplitude_damping.py:29-80`). -/
inductive NoiseClass
  | depolarising | twoQubitDepolarising | amplitudeDamping | twoQubitAmplitudeDamping

/-- The noise of a class with a probability. -/
def NoiseClass.noise : NoiseClass → ℝ → Noise
  | .depolarising => .depolarising
  | .twoQubitDepolarising => .twoQubitDepolarising
  | .amplitudeDamping => .amplitudeDamping
  | .twoQubitAmplitudeDamping => .twoQubitAmplitudeDamping

/-- A noise object: its class and its private field `_prob` (`utils.py:98-100`). -/
structure NoiseObj where
  cls : NoiseClass
  prob : PyFloat

namespace NoiseObj

/-- `utils.py:117-120` `Validator.__set__`: `obj.prob = value`. -/
noncomputable def set (o : NoiseObj) (value : PyFloat) : Except PyErr NoiseObj := do
  probability.validate value
  return { o with prob := value }

/-- `depolarising.py:30-38, 57-65`, `amplitude_damping.py:34-42, 61-69`: `__init__` assigns `self.prob`. -/
noncomputable def new (cls : NoiseClass) (value : PyFloat) : Except PyErr NoiseObj := do
  probability.validate value
  return ⟨cls, value⟩

/-- Assignments `obj.prob = value` one after the other, the caller catching the errors: `__set__` raises before it changes the object. -/
noncomputable def assignAll (o : NoiseObj) : List PyFloat → NoiseObj
  | [] => o
  | v :: vs =>
    match o.set v with
    | .ok o' => assignAll o' vs
    | .error _ => assignAll o vs

/-- `to_krauschannel` (`depolarising.py:46-49, 73-76`, `amplitude_damping.py:50-53, 77-80`). With a probability that is not a number the coefficients
are `nan`, and the check of completeness (`channels.py:133-134`) raises. -/
noncomputable def toKraus (user : ℕ → Except PyErr NpChannel) (o : NoiseObj) : Except PyErr NpChannel :=
  match o.prob with
  | .real x => (o.cls.noise x).toKrausChannel user
  | _ => .error .valueError

end NoiseObj

namespace NoiseModel

/-- `depolarising.py:109-149`, `amplitude_damping.py:113-155` `command`, with the validation by the constructors of the noises (`Model/Noise.lean`
leaves it out: there the parameters are probabilities). -/
noncomputable def checkedCommand (one two : NoiseClass) (p : Params) : CmdOrNoise → Except PyErr (List CmdOrNoise)
  | .cmd (.N n s) => do
    let _ ← NoiseObj.new one (.real p.prepareErrorProb)
    return [.cmd (.N n s), .noise ⟨one.noise p.prepareErrorProb, [n], none⟩]
  | .cmd (.E u v) => do
    let _ ← NoiseObj.new two (.real p.entanglementErrorProb)
    return [.cmd (.E u v), .noise ⟨two.noise p.entanglementErrorProb, [u, v], none⟩]
  | .cmd (.M n m s t) => do
    let _ ← NoiseObj.new one (.real p.measureChannelProb)
    return [.noise ⟨one.noise p.measureChannelProb, [n], none⟩, .cmd (.M n m s t)]
  | .cmd (.X n d) => do
    let _ ← NoiseObj.new one (.real p.xErrorProb)
    return [.cmd (.X n d), .noise ⟨one.noise p.xErrorProb, [n], some d⟩]
  | .cmd (.Z n d) => do
    let _ ← NoiseObj.new one (.real p.zErrorProb)
    return [.cmd (.Z n d), .noise ⟨one.noise p.zErrorProb, [n], some d⟩]
  | .cmd (.C n c) => .ok [.cmd (.C n c)]
  | .cmd .T => .ok [.cmd .T]
  | .noise a => .ok [.noise a]
  | .cmd (.S _ _) => .error .valueError

end NoiseModel

end Graphix
