import Verif.Spec.Annealing
/-
What training an annealing model means: a sequence of calls, each followed by an update of the parameters.
-/
namespace Verif.Spec
variable {L : Lang} {Θ : Type}

/-- A sequence of calls that return and updates that do not raise: the parameters each call was made with and its result. `call θ w o w'`: calling the program
with parameters `θ` in world `w` can give `o` and leave `w'`. -/
inductive Rounds (call : Θ → World L → Out L → World L → Prop) (update : Θ → Out L → Except Err Θ) :
    Θ → World L → List (Θ × Out L) → Θ → World L → Prop
  | done (θ w) : Rounds call update θ w [] θ w
  | step {θ w o w₁ θ₁ l θ' w'} : call θ w o w₁ → update θ o = .ok θ₁ → Rounds call update θ₁ w₁ l θ' w' →
      Rounds call update θ w ((θ, o) :: l) θ' w'

/-- Training on chains: draw a chain of the current model, update the parameters, and so on. The result has the final parameters and for each iteration
the parameters and the chain. -/
def trainChains (M : Θ → AnnealModel L) (K : Nat) (update : Θ → (Nat → L.V) → Except Err Θ) :
    Nat → Θ → Comp L (Except Err (Θ × List (Θ × (Nat → L.V))))
  | 0, θ => .ret (.ok (θ, []))
  | n + 1, θ => ((M θ).chain K).bind fun z =>
    match update θ z with
    | .error e => .ret (.error e)
    | .ok θ' => (trainChains M K update n θ').bind fun r =>
      match r with
      | .error e => .ret (.error e)
      | .ok s => .ret (.ok (s.1, (θ, z) :: s.2))

end Verif.Spec
