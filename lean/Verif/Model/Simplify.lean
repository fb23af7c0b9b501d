import Verif.Model.Pattern

/-!
# Model of `remove_useless_domains` and `single_qubit_domains` (`graphix/optimization.py`)
-/

namespace Graphix

/-- `optimization.py:560-570`: the command added for `cmd`. -/
def uselessDomainsCmd : Command → Command
  | .M n (.pauli ⟨.X, .plus⟩) _ t => .M n (.pauli ⟨.X, .plus⟩) ∅ t
  | .M n (.pauli ⟨.Z, .plus⟩) s _ => .M n (.pauli ⟨.Z, .plus⟩) s ∅
  | c => c

/-- `optimization.py:554-572` `remove_useless_domains`. -/
def removeUselessDomains (p : Pattern) : Except PyErr Pattern :=
  ((Pattern.empty p.inputs).extend (p.seq.map uselessDomainsCmd)).reorderOutputNodes p.outputs

/-- `optimization.py:581-588` `decompose_domain`: the commands added, or `none` when it returns
`False`.  `order` is the order in which Python iterates over the set `domain`. -/
def decomposeDomain (mk : ℕ → Finset ℕ → Command) (node : ℕ) (domain : Finset ℕ) (order : List ℕ) :
    Option (List Command) :=
  if domain.card ≤ 1 then none else some (order.map (fun src => mk node {src}))

/-- `optimization.py:591-607`: the commands added for `cmd`.  `so`, `tO` are the orders in which Python
iterates over the (first and second) domain of `cmd`. -/
def singleQubitDomainsCmd (so tO : List ℕ) (cmd : Command) : List Command :=
  match cmd with
  | .M n m s t =>
    let replacedS := decomposeDomain .X n s so
    let replacedT := decomposeDomain .Z n t tO
    if replacedS.isSome ∨ replacedT.isSome then
      replacedS.getD [] ++ replacedT.getD [] ++
        [.M n m (if replacedS.isSome then ∅ else s) (if replacedT.isSome then ∅ else t)]
    else [cmd]
  | .X n d => (decomposeDomain .X n d so).getD [cmd]
  | .Z n d => (decomposeDomain .Z n d so).getD [cmd]
  | _ => [cmd]

/-- `optimization.py:590-607`, the loop, with the iteration orders of the domains of each command. -/
def singleQubitDomainsCmds (orders : ℕ → List ℕ × List ℕ) : ℕ → List Command → List Command
  | _, [] => []
  | i, cmd :: l =>
    singleQubitDomainsCmd (orders i).1 (orders i).2 cmd ++ singleQubitDomainsCmds orders (i + 1) l

/-- `optimization.py:575-610` `single_qubit_domains`. -/
def singleQubitDomains (orders : ℕ → List ℕ × List ℕ) (p : Pattern) : Except PyErr Pattern :=
  ((Pattern.empty p.inputs).extend (singleQubitDomainsCmds orders 0 p.seq)).reorderOutputNodes p.outputs

end Graphix
