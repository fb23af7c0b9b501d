import Verif.Model.Pattern
import Mathlib.LinearAlgebra.Matrix.Kronecker
import Mathlib.LinearAlgebra.Matrix.ConjTranspose

/-!
# Model of `graphix/channels.py`

An `n`-qubit operator is a matrix indexed by `ι` (`Bool` for one qubit, `Bool × Bool` for two);
`np.kron` is the Kronecker product. Arithmetic is exact, so that `np.allclose` is equality.
-/

namespace Graphix

open scoped Kronecker

/-- `channels.py:39-77` `KrausData(coef, operator)`. -/
structure KrausData (ι : Type) where
  coef : ℂ
  operator : Matrix ι ι ℂ

namespace KrausData

/-- `data.coef * data.operator` (`channels.py:131`). -/
def mat {ι : Type} (k : KrausData ι) : Matrix ι ι ℂ := k.coef • k.operator

end KrausData

/-- `channels.py:80-134` `KrausChannel(kraus_data)`: a non-empty list of Kraus operators. -/
structure KrausChannel (ι : Type) where
  data : List (KrausData ι)

namespace KrausChannel

variable {ι : Type} [Fintype ι] [DecidableEq ι]

/-- `channels.py:128-132`: `work = Σ m† m`. -/
noncomputable def work (data : List (KrausData ι)) : Matrix ι ι ℂ :=
  (data.map fun k => k.mat.conjTranspose * k.mat).sum

open scoped Classical in
/-- `channels.py:103-134` `KrausChannel.__init__` (the operators have the same shape, by typing; `nqubit` is the
logarithm of the size). -/
noncomputable def make (nqubit : ℕ) (data : List (KrausData ι)) : Except PyErr (KrausChannel ι) :=
  if data = [] then .error .valueError
  else if 4 ^ nqubit < data.length then .error .valueError
  else if work data ≠ 1 then .error .valueError
  else .ok ⟨data⟩

end KrausChannel

/-- `np.sqrt` of a float as a coefficient. -/
noncomputable def csqrt (x : ℝ) : ℂ := (Real.sqrt x : ℂ)

/-- `channels.py:160-178` `dephasing_channel`. -/
noncomputable def dephasingChannel (prob : ℝ) : Except PyErr (KrausChannel Bool) :=
  KrausChannel.make 1 [⟨csqrt (1 - prob), Ops.I⟩, ⟨csqrt prob, Ops.Z⟩]

/-- `channels.py:181-200` `depolarising_channel`. -/
noncomputable def depolarisingChannel (prob : ℝ) : Except PyErr (KrausChannel Bool) :=
  KrausChannel.make 1 [⟨csqrt (1 - prob), Ops.I⟩, ⟨csqrt (prob / 3), Ops.X⟩, ⟨csqrt (prob / 3), Ops.Y⟩,
    ⟨csqrt (prob / 3), Ops.Z⟩]

open scoped Classical in
/-- `channels.py:203-220` `pauli_channel`. -/
noncomputable def pauliChannel (px py pz : ℝ) : Except PyErr (KrausChannel Bool) :=
  if 1 < px + py + pz then .error .valueError
  else
    let p_i := 1 - px - py - pz
    KrausChannel.make 1 [⟨csqrt (1 - p_i), Ops.I⟩, ⟨csqrt (px / 3), Ops.X⟩, ⟨csqrt (py / 3), Ops.Y⟩,
      ⟨csqrt (pz / 3), Ops.Z⟩]

/-- `channels.py:223-258` `two_qubit_depolarising_channel`. -/
noncomputable def twoQubitDepolarisingChannel (prob : ℝ) : Except PyErr (KrausChannel (Bool × Bool)) :=
  let c := csqrt (prob / 15)
  KrausChannel.make 2 [
    ⟨csqrt (1 - prob), Ops.I ⊗ₖ Ops.I⟩,
    ⟨c, Ops.X ⊗ₖ Ops.X⟩, ⟨c, Ops.Z ⊗ₖ Ops.Z⟩, ⟨c, Ops.X ⊗ₖ Ops.I⟩, ⟨c, Ops.Y ⊗ₖ Ops.Y⟩, ⟨c, Ops.Y ⊗ₖ Ops.I⟩,
    ⟨c, Ops.Z ⊗ₖ Ops.I⟩, ⟨c, Ops.I ⊗ₖ Ops.X⟩, ⟨c, Ops.I ⊗ₖ Ops.Y⟩, ⟨c, Ops.I ⊗ₖ Ops.Z⟩, ⟨c, Ops.X ⊗ₖ Ops.Y⟩,
    ⟨c, Ops.X ⊗ₖ Ops.Z⟩, ⟨c, Ops.Y ⊗ₖ Ops.X⟩, ⟨c, Ops.Y ⊗ₖ Ops.Z⟩, ⟨c, Ops.Z ⊗ₖ Ops.Y⟩, ⟨c, Ops.Z ⊗ₖ Ops.X⟩]

/-- `channels.py:261-298` `two_qubit_depolarising_tensor_channel`. -/
noncomputable def twoQubitDepolarisingTensorChannel (prob : ℝ) : Except PyErr (KrausChannel (Bool × Bool)) :=
  let c := csqrt (1 - prob) * csqrt (prob / 3)
  KrausChannel.make 2 [
    ⟨1 - prob, Ops.I ⊗ₖ Ops.I⟩,
    ⟨prob / 3, Ops.X ⊗ₖ Ops.X⟩, ⟨prob / 3, Ops.Y ⊗ₖ Ops.Y⟩, ⟨prob / 3, Ops.Z ⊗ₖ Ops.Z⟩,
    ⟨c, Ops.X ⊗ₖ Ops.I⟩, ⟨c, Ops.Y ⊗ₖ Ops.I⟩, ⟨c, Ops.Z ⊗ₖ Ops.I⟩,
    ⟨c, Ops.I ⊗ₖ Ops.X⟩, ⟨c, Ops.I ⊗ₖ Ops.Y⟩, ⟨c, Ops.I ⊗ₖ Ops.Z⟩,
    ⟨prob / 3, Ops.X ⊗ₖ Ops.Y⟩, ⟨prob / 3, Ops.X ⊗ₖ Ops.Z⟩, ⟨prob / 3, Ops.Y ⊗ₖ Ops.X⟩,
    ⟨prob / 3, Ops.Y ⊗ₖ Ops.Z⟩, ⟨prob / 3, Ops.Z ⊗ₖ Ops.X⟩, ⟨prob / 3, Ops.Z ⊗ₖ Ops.Y⟩]

/-- `channels.py:301-305` `_amplitude_damping_kraus`. -/
noncomputable def amplitudeDampingKraus (prob : ℝ) : List Mat2 :=
  [mat2 1 0 0 (csqrt (1 - prob)), mat2 0 (csqrt prob) 0 0]

/-- `channels.py:308-331` `amplitude_damping_channel`. -/
noncomputable def amplitudeDampingChannel (prob : ℝ) : Except PyErr (KrausChannel Bool) :=
  KrausChannel.make 1 ((amplitudeDampingKraus prob).map fun k => ⟨1, k⟩)

/-- `channels.py:334-352` `two_qubit_amplitude_damping_channel`. -/
noncomputable def twoQubitAmplitudeDampingChannel (prob : ℝ) : Except PyErr (KrausChannel (Bool × Bool)) :=
  let operators := amplitudeDampingKraus prob
  KrausChannel.make 2 (operators.flatMap fun left => operators.map fun right => ⟨1, left ⊗ₖ right⟩)

end Graphix
