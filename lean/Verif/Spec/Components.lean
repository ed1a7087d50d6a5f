import Verif.Spec.Core
/-! # Specification vocabulary: connected components -/
namespace Verif
namespace SGraph

open Classical in
/-- The connected component of `u`: all vertices joined to `u` by a walk. -/
noncomputable def comp (S : SGraph) (u : ℕ) : Finset ℕ := S.V.filter (fun v => Conn S.Adj u v)

open Classical in
/-- The set of connected components. -/
noncomputable def comps (S : SGraph) : Finset (Finset ℕ) := S.V.image S.comp

end SGraph
end Verif
