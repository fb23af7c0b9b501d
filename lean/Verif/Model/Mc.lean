import Verif.Model.Pattern

/-!
# Model of `Pattern.shift_signals(method="mc")`: `graphix/pattern.py:659-680, 740-765, 836-933, 1009-1030`

The code modifies the commands in place (and so also in the patterns that share them); the model is by value. The loop
`while target is not None` is given a bound on its number of turns.
-/

namespace Graphix
namespace Pattern

open scoped symmDiff

/-- `pattern.py:740-765` `_find_op_to_be_moved`. -/
def findOp (k : Kind) (l : List Command) (rev : Bool) (skipnum : ℕ) : Option ℕ :=
  let idx := if rev then (List.range l.length).reverse else List.range l.length
  (idx.filter fun i => (l[i]?).any fun c => decide (kindOf c = k))[skipnum]?

/-- `pattern.py:1014-1030`: the loop of `signals`. The signals found are added to `sig`; the new sequence. -/
noncomputable def signalsLoop (sig : SignalDict) : List Command → SignalDict × List Command
  | [] => (sig, [])
  | .M n m s t :: l =>
    let (s', t', signal) := extractSignal m.toBloch.plane s t
    let r := signalsLoop (sig.set n signal) l
    if signal ≠ ∅ then (r.1, .M n m s' t' :: .S n signal :: r.2) else (r.1, .M n m s t :: r.2)
  | c :: l =>
    let r := signalsLoop sig l
    (r.1, c :: r.2)

/-- `pattern.py:906-918` `_commute_with_following`. -/
def commuteWithFollowing (l : List Command) (target : ℕ) : List Command :=
  match l[target + 1]? with
  | none => l
  | some a => (l.eraseIdx (target + 1)).insertIdx target a

/-- `if s.node in domain: domain ^= s.domain`. -/
def shiftDomain (n : ℕ) (d e : Finset ℕ) : Finset ℕ := if n ∈ e then e ∆ d else e

/-- `pattern.py:836-904` `_commute_xs`, `_commute_zs`, `_commute_ms`, `_commute_ss`: the new value of the command that follows
`S(n, d)`. -/
def shiftCommand (n : ℕ) (d : Finset ℕ) : Command → Command
  | .X k e => .X k (shiftDomain n d e)
  | .Z k e => .Z k (shiftDomain n d e)
  | .M k m s t => .M k m (shiftDomain n d s) (shiftDomain n d t)
  | .S k e => .S k (shiftDomain n d e)
  | c => c

/-- `pattern.py:668-679`: one turn of the loop when `target` is not the last index; the command at `target` is an `S`. -/
def commuteS (l : List Command) (target : ℕ) : List Command :=
  match l[target]?, l[target + 1]? with
  | some (.S n d), some c => commuteWithFollowing (l.set (target + 1) (shiftCommand n d c)) target
  | _, _ => l

/-- `pattern.py:662-680`: the loop, with a bound on its number of turns. -/
def mcLoop : ℕ → List Command → Option ℕ → Option (List Command)
  | _, l, none => some l
  | 0, _, some _ => none
  | fuel + 1, l, some target =>
    if target + 1 = l.length then
      let l := l.eraseIdx target
      mcLoop fuel l (findOp .S l true 0)
    else mcLoop fuel (commuteS l target) (some (target + 1))

/-- `pattern.py:659-681` `shift_signals(method="mc")`, after `check_runnability`. -/
noncomputable def shiftSignalsMc (fuel : ℕ) (p : Pattern) : Option (Pattern × SignalDict) := do
  let r := signalsLoop [] p.seq
  let l ← mcLoop fuel r.2 (findOp .S r.2 true 0)
  return ({ p with seq := l }, r.1)

end Pattern
end Graphix
