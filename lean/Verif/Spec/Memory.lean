import Verif.Nx.Graph

/-! Specification vocabulary about functions with memory: consulting one on a list of items. -/
namespace Pelote
variable {α σ : Type}

/-- Consulted once on each item, in order, from the state `s`, the function `f` answers `bs` and ends in the state `s'`. -/
inductive Consulted (f : α → σ → Py Bool × σ) : List α → σ → List Bool → σ → Prop
  | nil (s : σ) : Consulted f [] s [] s
  | cons {x : α} {xs : List α} {s s₁ s₂ : σ} {b : Bool} {bs : List Bool} :
    f x s = (.ok b, s₁) → Consulted f xs s₁ bs s₂ → Consulted f (x :: xs) s (b :: bs) s₂

/-- The items answered `True`. -/
def kept (xs : List α) (bs : List Bool) : List α := ((xs.zip bs).filter (fun p => p.2)).map Prod.fst

/-- A function without memory, noting what it is asked. -/
def noting (p : α → Py Bool) : α → List α → Py Bool × List α := fun x asked => (p x, asked ++ [x])

end Pelote
