import Verif.Model.Pattern

/-!
# Model of `graphix/noise_models/*` and of `graphix/branch_selector.py`
-/

namespace Graphix

/-- `noise_model.py:32-42` `Noise` and its subclasses (`depolarising.py:25-76`, `amplitude_damping.py:29-80`);
`other` is any user-defined noise. -/
inductive Noise
  | depolarising (prob : ℝ)
  | twoQubitDepolarising (prob : ℝ)
  | amplitudeDamping (prob : ℝ)
  | twoQubitAmplitudeDamping (prob : ℝ)
  | other (id nqubits : ℕ)

/-- `nqubits` (`depolarising.py:40-44, 67-71`, `amplitude_damping.py:44-48, 71-75`). -/
def Noise.nqubits : Noise → ℕ
  | .depolarising _ => 1
  | .twoQubitDepolarising _ => 2
  | .amplitudeDamping _ => 1
  | .twoQubitAmplitudeDamping _ => 2
  | .other _ n => n

/-- `noise_model.py:45-68` `ApplyNoise(noise, nodes, domain)`. -/
structure ApplyNoise where
  noise : Noise
  nodes : List ℕ
  domain : Option (Finset ℕ)

/-- `noise_model.py:72` `CommandOrNoise`. -/
inductive CmdOrNoise
  | cmd (c : Command)
  | noise (a : ApplyNoise)

/-- `noise_model.py:75-114` `NoiseModel`: `input_nodes`, `command`, `confuse_result`. The successive results of
`rng.uniform()` are `draw 0, draw 1, …`; `confuse_result` takes the number of draws made so far and returns the
new number. -/
structure NoiseModel where
  inputNodes : List ℕ → Except PyErr (List CmdOrNoise)
  command : CmdOrNoise → Except PyErr (List CmdOrNoise)
  confuseResult : (ℕ → ℝ) → ℕ → Bool → Bool × ℕ

namespace NoiseModel

/-- `noise_model.py:110-114` `transpile`. -/
def transpile (m : NoiseModel) : List CmdOrNoise → Except PyErr (List CmdOrNoise)
  | [] => .ok []
  | c :: l => do
    let out ← m.command c
    let rest ← transpile m l
    return out ++ rest

/-- `noise_model.py:117-139` `NoiselessNoiseModel`. -/
def noiseless : NoiseModel where
  inputNodes := fun _ => .ok []
  command := fun c => .ok [c]
  confuseResult := fun _ k r => (r, k)

/-- Parameters of `DepolarisingNoiseModel` and `AmplitudeDampingNoiseModel` (`depolarising.py:86-100`,
`amplitude_damping.py:90-104`). -/
structure Params where
  prepareErrorProb : ℝ
  xErrorProb : ℝ
  zErrorProb : ℝ
  entanglementErrorProb : ℝ
  measureChannelProb : ℝ
  measureErrorProb : ℝ

open scoped Classical in
/-- `depolarising.py:102-149` and `amplitude_damping.py:106-155`: the two models only differ by the kind of noise
on one and two qubits. -/
noncomputable def ofKind (one two : ℝ → Noise) (p : Params) : NoiseModel where
  inputNodes := fun nodes => .ok (nodes.map fun n => .noise ⟨one p.prepareErrorProb, [n], none⟩)
  command := fun
    | .cmd (.N n s) => .ok [.cmd (.N n s), .noise ⟨one p.prepareErrorProb, [n], none⟩]
    | .cmd (.E u v) => .ok [.cmd (.E u v), .noise ⟨two p.entanglementErrorProb, [u, v], none⟩]
    | .cmd (.M n m s t) => .ok [.noise ⟨one p.measureChannelProb, [n], none⟩, .cmd (.M n m s t)]
    | .cmd (.X n d) => .ok [.cmd (.X n d), .noise ⟨one p.xErrorProb, [n], some d⟩]
    | .cmd (.Z n d) => .ok [.cmd (.Z n d), .noise ⟨one p.zErrorProb, [n], some d⟩]
    | .cmd (.C n c) => .ok [.cmd (.C n c)]
    | .cmd .T => .ok [.cmd .T]
    | .noise a => .ok [.noise a]
    | .cmd (.S _ _) => .error .valueError
  confuseResult := fun draw k r => (if draw k < p.measureErrorProb then !r else r, k + 1)

/-- `depolarising.py:79-149` `DepolarisingNoiseModel`. -/
noncomputable def depolarising (p : Params) : NoiseModel := ofKind .depolarising .twoQubitDepolarising p

/-- `amplitude_damping.py:83-155` `AmplitudeDampingNoiseModel`. -/
noncomputable def amplitudeDamping (p : Params) : NoiseModel := ofKind .amplitudeDamping .twoQubitAmplitudeDamping p

/-- `noise_model.py:148-153` `ComposeNoiseModel.input_nodes`. -/
def composeInputNodes (nodes : List ℕ) : List NoiseModel → Except PyErr (List CmdOrNoise)
  | [] => .ok []
  | m :: ms => do
    let out ← m.inputNodes nodes
    let rest ← composeInputNodes nodes ms
    return out ++ rest

/-- `noise_model.py:155-163` `ComposeNoiseModel.command`: the loop over the models. -/
def composeCommand (sequence : List CmdOrNoise) : List NoiseModel → Except PyErr (List CmdOrNoise)
  | [] => .ok sequence
  | m :: ms => do
    let sequence ← m.transpile sequence
    composeCommand sequence ms

/-- `noise_model.py:165-172` `ComposeNoiseModel.confuse_result`. -/
def composeConfuse (draw : ℕ → ℝ) (k : ℕ) (result : Bool) : List NoiseModel → Bool × ℕ
  | [] => (result, k)
  | m :: ms =>
    let (result, k) := m.confuseResult draw k result
    composeConfuse draw k result ms

/-- `noise_model.py:142-172` `ComposeNoiseModel`. -/
def compose (models : List NoiseModel) : NoiseModel where
  inputNodes := fun nodes => composeInputNodes nodes models
  command := fun c => composeCommand [c] models
  confuseResult := fun draw k r => composeConfuse draw k r models

end NoiseModel

/-! ### Branch selectors -/

/-- `branch_selector.py:61-157`: `RandomBranchSelector(pr_calc)`, `FixedBranchSelector(results, default)`,
`ConstBranchSelector(result)`. -/
inductive Selector
  | random (prCalc : Bool)
  | fixed (results : PyDict ℕ Bool) (default : Option Selector)
  | const (result : Bool)

namespace Selector

open scoped Classical in
/-- `branch_selector.py` `measure` (75-91, 120-135, 152-157); `rand` is the result of `rng.random()`, `coin` that of
`rng.choice([0, 1])`. -/
noncomputable def measure (qubit : ℕ) (prob0 : ℝ) (rand : ℝ) (coin : Bool) : Selector → Except PyErr Bool
  | .random true => .ok (decide (rand > prob0))
  | .random false => .ok coin
  | .const r => .ok r
  | .fixed results none =>
    match results.get? qubit with
    | none => .error .valueError
    | some r => .ok r
  | .fixed results (some d) =>
    match results.get? qubit with
    | none => measure qubit prob0 rand coin d
    | some r => .ok r

end Selector
end Graphix
