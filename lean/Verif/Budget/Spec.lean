import Verif.Budget.Model

/-!
# Specification vocabulary for budget accounting (independent of the accountant's internals)
-/

namespace PDP.Budget

/-- The mechanism requests of a history that were accepted (returned a spec), in order, each with
its type and its count. -/
def accepted : List Op → List Out → List (MechType × ℤ)
  | op :: ops, o :: outs =>
    match op, o with
    | .request t _ _ c _, .spec _ => (t, c) :: accepted ops outs
    | _, _ => accepted ops outs
  | _, _ => []

/-- All weights passed by the client are positive, and so are the counts. -/
def Op.Positive : Op → Prop
  | .request _ _ w c _ => 0 < w ∧ 0 < c
  | .enter w => 0 < w
  | _ => True

/-- All weights passed by the client are non-negative, and so are the counts. -/
def Op.NonNeg : Op → Prop
  | .request _ _ w c _ => 0 ≤ w ∧ 0 ≤ c
  | .enter w => 0 ≤ w
  | _ => True

/-- What `specs[j].eps` gives to the client. -/
def seesEps (s : State) (j : Nat) (q : ℚ) : Prop := (step s (.readEps j)).2 = .value q

/-- What `specs[j].delta` gives to the client. -/
def seesDelta (s : State) (j : Nat) (q : ℚ) : Prop := (step s (.readDelta j)).2 = .value q

/-- Total consumption of a list of granted values: each one is used `count` times. -/
def spent (rs : List (MechType × ℤ)) (qs : List ℚ) : ℚ :=
  (List.zipWith (fun r q => (r.2 : ℚ) * q) rs qs).sum

end PDP.Budget
