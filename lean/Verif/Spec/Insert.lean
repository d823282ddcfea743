import Verif.Nx.Graph

/-! Specification vocabulary: nodes and edges inserted one after the other. -/
namespace Pelote
namespace Graph
variable {V A : Type} [DecidableEq V]

/-- The attributes resulting from successive updates. -/
def merged (L : List (Attrs A)) (d : Attrs A) : Attrs A := L.foldl (fun d a => d.update a) d

/-- The edges `(source, target, key, attributes)` of a list between two given nodes. -/
def between (directed : Bool) (x y : V) (E : List (V × V × Option PyKey × Attrs A)) :
    List (V × V × Option PyKey × Attrs A) := E.filter (fun e => samePair directed e.1 e.2.1 x y)

end Graph
end Pelote
