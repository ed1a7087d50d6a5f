import Verif.Props.EditGraph
import Verif.Props.Generators
import Verif.Props.EditOps
import Verif.Props.Operations
import Verif.Props.IO
import Verif.Props.Maps
import Verif.Props.EditDigraph
import Verif.Props.Algorithms
import Verif.Props.Linear
import Verif.Props.Reach
import Verif.Props.ReachGraph
import Verif.Props.LinearAlg2
import Verif.Props.DomsetSize
import Verif.Props.OrdSwap
import Verif.Props.ReachNav
import Verif.Props.ReachNest
import Verif.Props.TraceOracle
import Verif.Props.DTFGraph
import Verif.Props.DTFDomset
import Verif.Props.Traits
import Verif.Props.Files
import Verif.Props.IOErrors
import Verif.Props.DegenColour
import Verif.Props.IndexOf
import Verif.Props.Colourings
import Verif.Lemmas.DegenBuilder
import Verif.Props.Builders
import Verif.Props.ReachBuilders
import Verif.Spec.Components
import Verif.Lemmas.SubdivDist
import Verif.Lemmas.CompCount
import Verif.Lemmas.Products
import Verif.Props.Compose
import Verif.Props.Balls
import Verif.Props.TraceSums
import Verif.Props.Products
import Verif.Props.GenAnalyses
import Verif.Spec.Greedy
import Verif.Lemmas.Greedy
import Verif.Spec.DomRule
import Verif.Lemmas.DomRule
import Verif.Lemmas.StableSort
import Verif.Props.DomRule
import Verif.Props.DTFExact
import Verif.Spec.Witness
import Verif.Props.Witness
import Verif.Spec.Scatter
import Verif.Lemmas.ScatterRule
import Verif.Props.Scatter
import Verif.Props.LoopPeel
import Verif.Props.AnyOrder
import Verif.Props.NonVertex
import Verif.Props.Degenerate
import Verif.Props.OpsLimits
import Verif.Props.TraceLimits
import Verif.Props.TraceRepeat
import Verif.Props.ScatterLimits
import Verif.Props.ReachEq
import Verif.Props.ReachAlg
import Verif.Props.ShatterBound
import Verif.Props.TraceNumber
import Verif.Props.ReachSizes
import Verif.Props.Lattice
import Verif.Props.Invariance
import Verif.Model.DTFView
import Verif.Props.Cliques
import Verif.Props.DTFView
import Verif.Spec.Width
import Verif.Lemmas.Width
import Verif.Props.Width
import Verif.Props.EditLaws
import Verif.Props.Minors
import Verif.Props.Pipeline
import Verif.Lemmas.DegenOps
import Verif.Props.DegeneracyOps
import Verif.Lemmas.GenWidths
import Verif.Props.GenWidths
import Verif.Props.GenColours
import Verif.Props.Distances
import Verif.Props.GenDomsets
import Verif.Props.GenDomsets2
import Verif.Props.DomsetSizes
import Verif.Props.GenKpartite
import Verif.Props.GenKpartite2
import Verif.Props.GenCounts
import Verif.Props.GenRelations
import Verif.Props.DigraphRelations
import Verif.Props.UnionOffsets
import Verif.Props.ReachFails
