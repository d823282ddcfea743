import Verif.Nx.Graph

/-! Specification vocabulary: renaming the nodes of a graph. -/
namespace Pelote
namespace Graph
variable {V W A : Type}

/-- The graph whose nodes are renamed by `f`. -/
def mapNodes (f : V → W) (g : Graph V A) : Graph W A :=
  { directed := g.directed, multi := g.multi, attrs := g.attrs
    node := g.node.map (fun p => (f p.1, p.2))
    links := g.links.map (fun l => ⟨f l.u, f l.v, l.data⟩) }

end Graph
end Pelote
