import Mathlib.Data.Finset.Powerset
import Verif.Lemmas.History
import Verif.Lemmas.Build
import Verif.Spec.Core
/-!
# Concrete graphs to which theorems are applied in examples
-/
namespace Verif
open EditGraph

/-- A triangle `0, 1, 2` with a pendant vertex `3` at `2`. -/
def caseS : SGraph := SGraph.empty.addEdges [(0, 1), (1, 2), (0, 2), (2, 3)]

/-- The same graph, built through the API. -/
def caseG : EditGraph := match EditGraph.new.addEdges [(0, 1), (1, 2), (0, 2), (2, 3)] with
  | .ok r => r.1
  | .error _ => EditGraph.new

theorem caseG_abs : Abs caseG caseS := by
  obtain ⟨⟨g, k⟩, h, A, -⟩ := EditGraph.abs_new.addEdges [(0, 1), (1, 2), (0, 2), (2, 3)]
  unfold caseG
  rw [h]
  exact A

theorem caseG_reachable : Reachable caseG := caseG_abs.reachable
theorem caseG_rep : caseG.view.Rep caseS := caseG_abs.rep
theorem caseS_V : caseS.V = {0, 1, 2, 3} := by decide

theorem caseS_mem {u : ℕ} : u ∈ caseS.V ↔ u < 4 := by
  rw [caseS_V]
  simp only [Finset.mem_insert, Finset.mem_singleton]
  omega

theorem caseG_contains {u : ℕ} : caseG.contains u = true ↔ u < 4 := by
  rw [caseG_abs.contains, decide_eq_true_eq, caseS_mem]

theorem caseS_loopless : caseS.Loopless := fun u h => by
  have key : ∀ u ∈ caseS.V, ¬ caseS.Adj u u := by decide
  exact key u h.left h

theorem caseS_card : caseS.V.card ≤ 2 ^ 31 := by decide

theorem caseS_degeneracy : caseS.IsDegeneracy 2 := by
  refine ⟨fun W hW hne => ?_, fun k' hk' => ?_⟩
  · have key : ∀ W ∈ caseS.V.powerset, W.Nonempty → ∃ w ∈ W, caseS.degIn W w ≤ 2 := by decide
    exact key W (Finset.mem_powerset.2 hW) hne
  · obtain ⟨w, hw, hle⟩ := hk' {0, 1, 2} (by decide) ⟨0, by decide⟩
    have key : ∀ w ∈ ({0, 1, 2} : Finset ℕ), 2 ≤ caseS.degIn {0, 1, 2} w := by decide
    exact (key w hw).trans hle

/-- A path `0, 1, 2` with a loop at `1` and an isolated vertex `5`. -/
def loopS : SGraph := (SGraph.empty.addEdges [(0, 1), (1, 1), (1, 2)]).addVertex 5

/-- The same graph, built through the API. -/
def loopG : EditGraph := match EditGraph.new.addEdges [(0, 1), (1, 1), (1, 2)] with
  | .ok r => (r.1.addVertex 5).1
  | .error _ => EditGraph.new

theorem loopG_abs : Abs loopG loopS := by
  obtain ⟨⟨g, k⟩, h, A, -⟩ := EditGraph.abs_new.addEdges [(0, 1), (1, 1), (1, 2)]
  unfold loopG
  rw [h]
  exact (A.addVertex 5).1

theorem loopG_reachable : Reachable loopG := loopG_abs.reachable
theorem loopG_rep : loopG.view.Rep loopS := loopG_abs.rep
theorem loopS_V : loopS.V = {0, 1, 2, 5} := by decide

theorem loopS_mem {u : ℕ} : u ∈ loopS.V ↔ u < 3 ∨ u = 5 := by
  rw [loopS_V]
  simp only [Finset.mem_insert, Finset.mem_singleton]
  omega

theorem loopG_contains {u : ℕ} : loopG.contains u = true ↔ u < 3 ∨ u = 5 := by
  rw [loopG_abs.contains, decide_eq_true_eq, loopS_mem]

end Verif
