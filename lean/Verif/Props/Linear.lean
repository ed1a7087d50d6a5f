import Verif.Lemmas.OrdSwap
import Verif.Lemmas.DegenGraph
import Verif.Props.Operations
import Verif.Props.Algorithms
/-!
# C43 – C48, C61: `OrdGraph`, `DegenGraph` and the default methods of `LinearGraph`
-/
namespace Verif
open EditGraph

/-! ## C43 -/

/-- `g` answers all queries as the loopless graph `S` with the vertex ordering `ord`. -/
structure OrdGraph.Represents (g : OrdGraph) (S : SGraph) (ord : List ℕ) : Prop where
  lin : g.lin.LRep S ord
  index : ∀ u ∈ S.V, g.indexOf u = .ok (ord.idxOf u)
  rights : ∀ u ∈ S.V, ∃ l, g.rightNeighbours u = .ok l ∧ l.Pairwise (fun a b => ord.idxOf a < ord.idxOf b) ∧
    ∀ w, w ∈ l ↔ S.Adj u w ∧ ord.idxOf u < ord.idxOf w
  missing : ∀ u, u ∉ S.V → g.indexOf u = .error .panic ∧ g.degree u = .ok 0 ∧ g.rightDegree u = .ok 0 ∧
    g.lin.leftDegree u = .ok 0 ∧ g.neighbours u = .ok []

/-- `g'` holds the same data as `g`, with a different layout of the hash tables. -/
def OrdGraph.Relayout (g g' : OrdGraph) : Prop :=
  (∀ u, g'.indices.get? u = g.indices.get? u) ∧ g'.m = g.m ∧ g'.nodes.length = g.nodes.length ∧
  ∀ (i : ℕ) n n', g.nodes[i]? = some n → g'.nodes[i]? = some n' →
    n'.v = n.v ∧ (∀ w, w ∈ n'.left ↔ w ∈ n.left) ∧ ∀ w, w ∈ n'.right ↔ w ∈ n.right

namespace OrdGraph

theorem Inv.relayout {g g' : OrdGraph} {S : SGraph} {ord : List ℕ} (H : Inv g S ord) (h : Relayout g g') :
    Inv g' S ord := by
  obtain ⟨h1, h2, h3, h4⟩ := h
  refine ⟨H.ordering, H.loopless, fun u i => by rw [h1]; exact H.idx u i, ⟨h3.trans H.nodes.len, ?_⟩, h2.trans H.m⟩
  intro i x hx
  obtain ⟨n, k1, k2, k3, k4⟩ := H.nodes.node i x hx
  have hlt : i < g'.nodes.length := by rw [h3]; exact (List.getElem?_eq_some_iff.1 k1).1
  obtain ⟨e1, e2, e3⟩ := h4 i n _ k1 (List.getElem?_eq_getElem hlt)
  exact ⟨_, List.getElem?_eq_getElem hlt, e1.trans k2, fun w => (e2 w).trans (k3 w), fun w => (e3 w).trans (k4 w)⟩

theorem Inv.represents {g : OrdGraph} {S : SGraph} {ord : List ℕ} (H : Inv g S ord) : Represents g S ord := by
  refine ⟨H.lrep, fun u hu => ?_, fun u hu => H.rightNeighbours hu, fun u hu => ?_⟩
  · unfold indexOf; rw [H.get hu]; rfl
  · have h := H.get_none hu
    refine ⟨?_, ?_, ?_, ?_, ?_⟩
    · unfold indexOf; rw [h]; rfl
    · unfold degree; rw [h]
    · unfold rightDegree; rw [h]
    · show LinGraph.defaultLeftDegree _ _ u = _
      unfold LinGraph.defaultLeftDegree
      rw [if_neg]
      simp [HMap.contains, h]
    · unfold neighbours; rw [h]

end OrdGraph

/-- **C43.** For a loopless graph and an ordering of its vertices `with_ordering` succeeds, and the result (in
any layout of its hash tables) represents the graph with this ordering. -/
theorem C43_with_ordering {G : Graph} {S : SGraph} {ord : List ℕ} (hG : G.Rep S) (hl : S.Loopless)
    (hn : ord.Nodup) (hV : ∀ u, u ∈ ord ↔ u ∈ S.V) :
    ∃ g, OrdGraph.withOrdering G ord = .ok g ∧ ∀ g', OrdGraph.Relayout g g' → g'.Represents S ord := by
  obtain ⟨g, h, I⟩ := OrdGraph.withOrdering_inv hG hl ⟨hn, hV⟩
  exact ⟨g, h, fun g' hr => (I.relayout hr).represents⟩

theorem OrdGraph.Relayout.refl (g : OrdGraph) : Relayout g g :=
  ⟨fun _ => rfl, rfl, rfl, fun i n n' h h' => by rw [h] at h'; cases h'; exact ⟨rfl, fun _ => Iff.rfl, fun _ => Iff.rfl⟩⟩

/-- **C43, by_degeneracy.** The ordering found by `degeneracy` is used: every vertex has at most `bucketTop upper`
left neighbours. -/
theorem C43_by_degeneracy {G : Graph} {S : SGraph} (hG : G.Rep S) (hl : S.Loopless) (hn : S.V.card ≤ 2 ^ 31)
    (σ : ℕ → Shuffle Vertex) :
    ∃ g lo up ord core, OrdGraph.byDegeneracy σ G = .ok g ∧ G.degeneracy σ = .ok (lo, up, ord, core) ∧
      g.Represents S ord ∧ ∀ u ∈ S.V, ∃ d, g.lin.leftDegree u = .ok d ∧ d ≤ bucketTop up := by
  obtain ⟨lo, up, ord, core, h1, h2, h3, -, h5⟩ := C38_degeneracy_order hG hl hn σ
  obtain ⟨g, h, I⟩ := OrdGraph.withOrdering_inv hG hl ⟨h2, h3⟩
  refine ⟨g, lo, up, ord, core, ?_, h1, I.represents, fun u hu => ⟨_, I.lrep.ldeg u hu, h5 u hu⟩⟩
  unfold OrdGraph.byDegeneracy
  rw [h1]
  exact h

/-- `C43_by_degeneracy` for a triangle with a pendant vertex. -/
example := fun σ => C43_by_degeneracy caseG_rep caseS_loopless caseS_card σ

/-- **C43, by_degeneracy.** If every subgraph has a vertex of degree at most 129, the number of left neighbours never grows by
more than one from a vertex to the next. -/
theorem C43_by_degeneracy_no_jump {G : Graph} {S : SGraph} (hG : G.Rep S) (hl : S.Loopless) (σ : ℕ → Shuffle Vertex) :
    ∃ g ord, OrdGraph.byDegeneracy σ G = .ok g ∧ g.Represents S ord ∧
      ((∀ W, W ⊆ S.V → W.Nonempty → ∃ w ∈ W, S.degIn W w ≤ 129) →
        ∀ pre u v post, ord = pre ++ u :: v :: post → (S.before ord v).card ≤ (S.before ord u).card + 1) := by
  obtain ⟨lo, up, ord, core, h1, h2, h3, -⟩ := C38_smallest_last hG hl σ
  obtain ⟨g, h, I⟩ := OrdGraph.withOrdering_inv hG hl ⟨h2, h3⟩
  refine ⟨g, ord, ?_, I.represents, fun hd => ?_⟩
  · unfold OrdGraph.byDegeneracy
    rw [h1]
    exact h
  · obtain ⟨_, _, _, _, h4, -, -, h5⟩ := C38_no_jump hG hl σ hd
    rw [h1] at h4
    cases h4
    exact h5

/-- The path 0-1-2 with the ordering 2, 0, 1. -/
theorem exOrd : ∃ (G : Graph) (S : SGraph), G.Rep S ∧ S.Loopless ∧ S.Adj 0 1 ∧ S.Adj 1 2 ∧ ¬ S.Adj 0 2 ∧
    [2, 0, 1].Nodup ∧ (∀ u, u ∈ [2, 0, 1] ↔ u ∈ S.V) ∧ 3 * [2, 0, 1].length + S.E.card ≤ 2 ^ 32 ∧ S.V.card ≤ 2 ^ 31 := by
  obtain ⟨⟨g, k⟩, -, A, -⟩ := abs_new.addEdges [(0, 1), (1, 2)]
  refine ⟨g.view, _, A.rep, ?_, by decide, by decide, by decide, by decide, ?_, by decide, by decide⟩
  · intro u h
    have hV : u ∈ ({0, 1, 2} : Finset ℕ) := h.left
    simp only [Finset.mem_insert, Finset.mem_singleton] at hV
    rcases hV with rfl | rfl | rfl <;> exact absurd h (by decide)
  · intro u
    show _ ↔ u ∈ ({0, 1, 2} : Finset ℕ)
    simp only [List.mem_cons, List.not_mem_nil, or_false, Finset.mem_insert, Finset.mem_singleton]
    tauto

/-- Hypotheses of `C43` are met. -/
example : ∃ (G : Graph) (S : SGraph) (ord : List ℕ), G.Rep S ∧ S.Loopless ∧ ord.Nodup ∧ (∀ u, u ∈ ord ↔ u ∈ S.V) ∧
    S.Adj 0 1 ∧ S.V.card ≤ 2 ^ 31 := by
  obtain ⟨G, S, h1, h2, h3, -, -, h4, h5, -, h6⟩ := exOrd
  exact ⟨G, S, _, h1, h2, h4, h5, h3, h6⟩

/-! ## C44 -/

/-- The `OrdGraph`s obtained from `with_ordering` by swapping non-adjacent vertices (in any layout), with their
ordering. -/
inductive OrdGraph.Built (S : SGraph) : OrdGraph → List ℕ → Prop
  | make {G : Graph} {ord : List ℕ} {g : OrdGraph} (hG : G.Rep S) (hl : S.Loopless) (hn : ord.Nodup)
      (hV : ∀ u, u ∈ ord ↔ u ∈ S.V) (h : withOrdering G ord = .ok g) : Built S g ord
  | relayout {g g' : OrdGraph} {ord : List ℕ} (h : Built S g ord) (hr : Relayout g g') : Built S g' ord
  | swap {g g' : OrdGraph} {ord : List ℕ} {u v : ℕ} (h : Built S g ord) (hu : u ∈ S.V) (hv : v ∈ S.V)
      (huv : ¬ S.Adj u v) (hs : g.swap u v = .ok g') : Built S g' (ord.map (exch u v))

theorem OrdGraph.Built.inv {S : SGraph} {g : OrdGraph} {ord : List ℕ} (h : Built S g ord) : Inv g S ord := by
  induction h with
  | make hG hl hn hV h =>
    obtain ⟨g, h', I⟩ := OrdGraph.withOrdering_inv hG hl ⟨hn, hV⟩
    rw [h] at h'; cases h'; exact I
  | relayout _ hr ih => exact ih.relayout hr
  | swap _ hu hv huv hs ih =>
    obtain ⟨g, h', I⟩ := ih.swap hu hv huv
    rw [hs] at h'; cases h'; exact I

/-- **C44, as stated** (one swap after `with_ordering`). -/
def C44_statement : Prop := ∀ (G : Graph) (S : SGraph) (ord : List ℕ) (g g' : OrdGraph) (u v : ℕ),
  G.Rep S → S.Loopless → ord.Nodup → (∀ u, u ∈ ord ↔ u ∈ S.V) → OrdGraph.withOrdering G ord = .ok g →
  u ∈ S.V → v ∈ S.V → g.swap u v = .ok g' → g'.Represents S (ord.map (OrdGraph.exch u v))

/-- **C44, what holds.** After any sequence of swaps of non-adjacent vertices, swapping two further non-adjacent
vertices exchanges them in the ordering; swapping with a missing vertex changes nothing.  Missing: adjacent
vertices (see `C44_refuted`). -/
theorem C44_swap_partial {S : SGraph} {g : OrdGraph} {ord : List ℕ} (h : OrdGraph.Built S g ord) (u v : ℕ) :
    (u ∈ S.V → v ∈ S.V → ¬ S.Adj u v → ∃ g', g.swap u v = .ok g' ∧ g'.Represents S (ord.map (OrdGraph.exch u v))) ∧
    (u ∉ S.V ∨ v ∉ S.V → g.swap u v = .ok g) := by
  refine ⟨fun hu hv huv => ?_, fun huv => ?_⟩
  · obtain ⟨g', h', I⟩ := h.inv.swap hu hv huv
    exact ⟨g', h', I.represents⟩
  · unfold OrdGraph.swap
    split
    · rfl
    · rcases huv with hu | hv
      · rw [h.inv.get_none hu]
      · rw [h.inv.get_none hv]
        cases g.indices.get? u <;> rfl

/-- The single edge 0-1. -/
def edge01 : Res EditGraph := do return (← EditGraph.new.addEdges [(0, 1)]).1

theorem edge01_rep : ∃ g S, edge01 = .ok g ∧ g.view.Rep S ∧ S.Loopless ∧ S.Adj 0 1 ∧ (∀ u, u ∈ [0, 1] ↔ u ∈ S.V) := by
  obtain ⟨⟨g, k⟩, h, A, -⟩ := abs_new.addEdges [(0, 1)]
  refine ⟨g, _, by unfold edge01; rw [h]; rfl, A.rep, ?_, by decide, ?_⟩
  · intro u h
    have hV : u ∈ ({0, 1} : Finset ℕ) := h.left
    simp only [Finset.mem_insert, Finset.mem_singleton] at hV
    rcases hV with rfl | rfl <;> exact absurd h (by decide)
  · intro u
    show _ ↔ u ∈ ({0, 1} : Finset ℕ)
    simp

theorem edge01_swap : (edge01.bind fun g => (OrdGraph.withOrdering g.view [0, 1]).bind fun o => (o.swap 0 1).bind fun o =>
    (o.leftNeighbours 0).map fun l => l) = .ok [] := by decide

/-- **C44 refuted.** Exchanging the ends of the edge 0-1 with ordering 0, 1 leaves 0 without left neighbours. -/
theorem C44_refuted : ¬ C44_statement := by
  intro hC
  obtain ⟨g, S, h, H, hl, h01, hV⟩ := edge01_rep
  have hw := edge01_swap
  rw [h] at hw
  obtain ⟨o, ho, -⟩ := C43_with_ordering H hl (by decide) hV
  simp only [Except.bind, ho] at hw
  cases hs : o.swap 0 1 with
  | error e => rw [hs] at hw; cases hw
  | ok o' =>
    rw [hs] at hw
    have R := hC g.view S [0, 1] o o' 0 1 H hl (by decide) hV ho h01.left h01.right hs
    obtain ⟨l, h1, h2, h3⟩ := R.lin.left 0 h01.left
    have h1 : o'.leftNeighbours 0 = .ok l := h1
    simp only [h1, Except.map, Except.ok.injEq] at hw
    subst hw
    have := (h3 1).2 ⟨h01, by decide⟩
    simp at this

/-- Hypotheses of `C44_swap_partial` are met: 0 and 2 are not adjacent in the path 0-1-2. -/
example : ∃ (S : SGraph) (g : OrdGraph) (ord : List ℕ), OrdGraph.Built S g ord ∧ 0 ∈ S.V ∧ 2 ∈ S.V ∧ ¬ S.Adj 0 2 ∧
    5 ∉ S.V := by
  obtain ⟨G, S, h1, h2, h3, h12, h02, h4, h5, -⟩ := exOrd
  obtain ⟨g, h, -⟩ := C43_with_ordering h1 h2 h4 h5
  exact ⟨S, g, _, .make h1 h2 h4 h5 h, h3.left, h12.right, h02, fun h => absurd ((h5 5).2 h) (by decide)⟩

theorem caseS_order (u : ℕ) : u ∈ [3, 2, 0, 1] ↔ u ∈ caseS.V := by
  rw [caseS_mem]
  simp only [List.mem_cons, List.not_mem_nil, or_false]
  omega

/-- A triangle with a pendant vertex in the order 3, 2, 0, 1. -/
theorem case_ord : ∃ g, OrdGraph.Built caseS g [3, 2, 0, 1] := by
  obtain ⟨g, h, -⟩ := C43_with_ordering caseG_rep caseS_loopless (by decide) caseS_order
  exact ⟨g, .make caseG_rep caseS_loopless (by decide) caseS_order h⟩

/-! ## C45 -/

/-- `g` answers all queries as the loopless graph `S` with the vertex ordering `ord`. -/
structure DegenGraph.Represents (g : DegenGraph) (S : SGraph) (ord : List ℕ) : Prop where
  lin : g.lin.LRep S ord
  first : g.first = ord.head?
  rights : ∀ u ∈ S.V, ∃ R, g.rightNeighbours u = .ok R ∧ ∀ w, w ∈ R ↔ S.Adj u w ∧ ord.idxOf u < ord.idxOf w
  ordered : ∀ u v, g.adjacentOrdered u v = true ↔ S.Adj u v ∧ ord.idxOf u < ord.idxOf v
  missing : ∀ u, u ∉ S.V → g.indexOf u = .error .panic ∧ g.degree u = .ok 0 ∧ g.rightDegree u = 0 ∧
    g.leftDegree u = .ok 0

/-- `g'` holds the same data as `g`, with a different layout of the hash tables. -/
def DegenGraph.Relayout (g g' : DegenGraph) : Prop :=
  (∀ u, g'.indices.get? u = g.indices.get? u) ∧ g'.m = g.m ∧ g'.contents = g.contents ∧
  (∀ u, g'.right.get? u = none ↔ g.right.get? u = none) ∧
  ∀ u R R', g.right.get? u = some R → g'.right.get? u = some R' → ∀ w, w ∈ R' ↔ w ∈ R

namespace DegenGraph

theorem Relayout.refl (g : DegenGraph) : Relayout g g :=
  ⟨fun _ => rfl, rfl, rfl, fun _ => Iff.rfl, fun u R R' h h' w => by rw [h] at h'; cases h'; rfl⟩

theorem Inv.relayout {g g' : DegenGraph} {S : SGraph} {ord : List ℕ} (H : Inv g S ord) (h : Relayout g g') :
    Inv g' S ord := by
  obtain ⟨h1, h2, h3, h4, h5⟩ := h
  refine ⟨H.ordering, H.loopless, h3.trans H.cont, fun u i => by rw [h1]; exact H.idx u i,
    fun u => (h4 u).trans (H.rkeys u), fun u R hR w => ?_, h2.trans H.m⟩
  cases hg : g.right.get? u with
  | none => rw [(h4 u).2 hg] at hR; cases hR
  | some R' => rw [h5 u R' R hg hR w, H.right u R' hg w]

theorem Inv.represents {g : DegenGraph} {S : SGraph} {ord : List ℕ} (H : Inv g S ord) : Represents g S ord := by
  refine ⟨H.lrep, H.first, fun u hu => ?_, H.adjacentOrdered, fun u hu => ?_⟩
  · obtain ⟨R, h1, h2⟩ := H.getR hu
    exact ⟨R, by unfold rightNeighbours; rw [h1]; rfl, h2⟩
  · have h := H.get_none hu
    have hr : g.rightDegree u = 0 := by
      unfold DegenGraph.rightDegree; rw [(H.rkeys u).2 hu]
    have hl : g.leftDegree u = .ok 0 := by unfold DegenGraph.leftDegree; rw [h]
    refine ⟨by unfold indexOf; rw [h]; rfl, ?_, hr, hl⟩
    unfold degree
    rw [hl, hr]; rfl

end DegenGraph

/-- **C45.** For a loopless graph and an ordering of its vertices (with `3n + m ≤ 2^32`, the offsets being `u32`)
`with_ordering` succeeds, and the result (in any layout of its hash tables) represents the graph with this
ordering.  No query reads outside the array (a read outside would be the fault `ub`). -/
theorem C45_with_ordering {G : Graph} {S : SGraph} {ord : List ℕ} (hG : G.Rep S) (hl : S.Loopless)
    (hn : ord.Nodup) (hV : ∀ u, u ∈ ord ↔ u ∈ S.V) (hsz : 3 * ord.length + S.E.card ≤ 2 ^ 32) :
    ∃ g, DegenGraph.withOrdering G ord = .ok g ∧ ∀ g', DegenGraph.Relayout g g' → g'.Represents S ord := by
  obtain ⟨g, h, I⟩ := DegenGraph.withOrdering_inv hG hl ⟨hn, hV⟩ hsz
  exact ⟨g, h, fun g' hr => (I.relayout hr).represents⟩

/-- **C45, from_graph.** -/
theorem C45_from_graph {G : Graph} {S : SGraph} (hG : G.Rep S) (hl : S.Loopless) (hn : S.V.card ≤ 2 ^ 31)
    (hsz : 3 * S.V.card + S.E.card ≤ 2 ^ 32) (σ : ℕ → Shuffle Vertex) :
    ∃ g lo up ord core, DegenGraph.fromGraph σ G = .ok g ∧ G.degeneracy σ = .ok (lo, up, ord, core) ∧
      g.Represents S ord ∧ ∀ u ∈ S.V, ∃ d, g.leftDegree u = .ok d ∧ d ≤ bucketTop up := by
  obtain ⟨lo, up, ord, core, h1, h2, h3, -, h5⟩ := C38_degeneracy_order hG hl hn σ
  have O : S.Ordering ord := ⟨h2, h3⟩
  obtain ⟨g, h, I⟩ := DegenGraph.withOrdering_inv hG hl O (by rw [O.length]; exact hsz)
  refine ⟨g, lo, up, ord, core, ?_, h1, I.represents, fun u hu => ⟨_, I.leftDegree hu, h5 u hu⟩⟩
  unfold DegenGraph.fromGraph
  rw [h1]
  exact h

/-- Hypotheses of `C45` are met. -/
example : ∃ (G : Graph) (S : SGraph) (ord : List ℕ), G.Rep S ∧ S.Loopless ∧ ord.Nodup ∧ (∀ u, u ∈ ord ↔ u ∈ S.V) ∧
    S.Adj 0 1 ∧ 3 * ord.length + S.E.card ≤ 2 ^ 32 := by
  obtain ⟨G, S, h1, h2, h3, -, -, h4, h5, h6, -⟩ := exOrd
  exact ⟨G, S, _, h1, h2, h4, h5, h3, h6⟩

/-! ## C46, C47 -/

/-- The `DegenGraph`s obtained from `with_ordering` or `to_degeneracy_graph` (in any layout) by any number of
normalizations, with the graph and the ordering they represent. -/
inductive DegenGraph.Built : DegenGraph → SGraph → List ℕ → Prop
  | make {G : Graph} {S : SGraph} {ord : List ℕ} {g : DegenGraph} (hG : G.Rep S) (hl : S.Loopless) (hn : ord.Nodup)
      (hV : ∀ u, u ∈ ord ↔ u ∈ S.V) (hsz : 3 * ord.length + S.E.card ≤ 2 ^ 32) (h : withOrdering G ord = .ok g) :
      Built g S ord
  | convert {o : OrdGraph} {S : SGraph} {ord : List ℕ} {g : DegenGraph} (ho : OrdGraph.Built S o ord)
      (hsz : 3 * ord.length + S.E.card ≤ 2 ^ 32) (h : o.toDegeneracyGraph = .ok g) : Built g S ord
  | relayout {g g' : DegenGraph} {S : SGraph} {ord : List ℕ} (h : Built g S ord) (hr : Relayout g g') : Built g' S ord
  | normalize {g g' : DegenGraph} {n2o : HMap ℕ ℕ} {S : SGraph} {ord : List ℕ} (h : Built g S ord) (hne : ord ≠ [])
      (σ : Shuffle (ℕ × HSet ℕ)) (τ : Shuffle (ℕ × ℕ)) (ρ : ℕ → Shuffle ℕ) (hs : g.normalize σ τ ρ = .ok (g', n2o)) :
      Built g' (S.rename (fun x => ord.idxOf x)) (List.range ord.length)

theorem DegenGraph.Built.inv {g : DegenGraph} {S : SGraph} {ord : List ℕ} (h : Built g S ord) : Inv g S ord := by
  induction h with
  | make hG hl hn hV hsz h =>
    obtain ⟨g, h', I⟩ := withOrdering_inv hG hl ⟨hn, hV⟩ hsz
    rw [h] at h'; cases h'; exact I
  | convert ho hsz h =>
    obtain ⟨g, h', I⟩ := ho.inv.toDegeneracyGraph hsz
    rw [h] at h'; cases h'; exact I
  | relayout _ hr ih => exact ih.relayout hr
  | normalize _ hne σ τ ρ hs ih =>
    obtain ⟨g, h', I⟩ := ih.normalize hne σ τ ρ
    rw [hs] at h'; cases h'; exact I.1

theorem case_degen : ∃ g : DegenGraph, g.Built caseS [3, 2, 0, 1] := by
  obtain ⟨g, h, -⟩ := C45_with_ordering caseG_rep caseS_loopless (by decide) caseS_order (by decide)
  exact ⟨g, .make caseG_rep caseS_loopless (by decide) caseS_order (by decide) h⟩

/-- **C46, as stated.** `normalize` never fails. -/
def C46_statement : Prop := ∀ (g : DegenGraph) (S : SGraph) (ord : List ℕ), g.Built S ord →
  ∀ (σ : Shuffle (ℕ × HSet ℕ)) (τ : Shuffle (ℕ × ℕ)) (ρ : ℕ → Shuffle ℕ), ∃ g' n2o, g.normalize σ τ ρ = .ok (g', n2o) ∧
    (∀ (i w : ℕ), n2o.get? i = some w ↔ ord[i]? = some w) ∧
    g'.Represents (S.rename (fun x => ord.idxOf x)) (List.range ord.length)

/-- **C46, what holds.** On a non-empty graph `normalize` never reads outside the array; it relabels the `i`-th
vertex of the order to `i`, returns the map new → old, and the result represents the relabelled graph with the
order `0, 1, …`; in particular left neighbourhoods are sorted.  Missing: the empty graph (see `C46_refuted`). -/
theorem C46_normalize_partial {g : DegenGraph} {S : SGraph} {ord : List ℕ} (h : g.Built S ord) (hne : ord ≠ [])
    (σ : Shuffle (ℕ × HSet ℕ)) (τ : Shuffle (ℕ × ℕ)) (ρ : ℕ → Shuffle ℕ) :
    ∃ g' n2o, g.normalize σ τ ρ = .ok (g', n2o) ∧
    (∀ (i w : ℕ), n2o.get? i = some w ↔ ord[i]? = some w) ∧
    g'.Represents (S.rename (fun x => ord.idxOf x)) (List.range ord.length) ∧
    (∀ a b (i j : ℕ), ord[i]? = some a → ord[j]? = some b → g'.adjacent i j = .ok (decide (S.Adj a b))) ∧
    (∀ i < ord.length, ∃ l, g'.leftSlice i = .ok l ∧ l.Pairwise (· < ·)) := by
  have O := h.inv.ordering
  obtain ⟨⟨g', n2o⟩, h', I, hm⟩ := h.inv.normalize hne σ τ ρ
  refine ⟨g', n2o, h', hm, I.represents, fun a b i j hi hj => ?_, fun i hi => ⟨_, I.leftSlice ?_, ?_⟩⟩
  · rw [I.adjacent, ← O.idxOf_eq hi, ← O.idxOf_eq hj]
    congr 1
    exact decide_eq_decide.2 (O.rename_adj_idx (O.mem_of hi) (O.mem_of hj))
  · rw [← O.range.mem, List.mem_range]; exact hi
  · refine I.ordering.lefts_pairwise.imp_of_mem ?_
    intro a b ha hb hab
    have h1 := (O.range.mem a).2 (O.range.mem_lefts.1 ha).1.right
    have h2 := (O.range.mem b).2 (O.range.mem_lefts.1 hb).1.right
    rw [List.mem_range] at h1 h2
    rwa [SGraph.Ordering.idxOf_range h1, SGraph.Ordering.idxOf_range h2] at hab

/-- `C46_normalize_partial` for a triangle with a pendant vertex. -/
example := fun σ τ ρ => C46_normalize_partial case_degen.choose_spec (by decide) σ τ ρ

theorem empty_normalize : ((DegenGraph.withOrdering EditGraph.new.view []).bind fun g =>
    (g.normalize Shuffle.id Shuffle.id (fun _ => Shuffle.id)).map fun _ => ()) = .error .ub := by decide

/-- **C46 refuted.** `normalize` of the empty graph reads outside the (empty) array. -/
theorem C46_refuted : ¬ C46_statement := by
  intro hC
  have hl : SGraph.empty.Loopless := by
    intro u h
    have hV : u ∈ (∅ : Finset ℕ) := h.left
    simp at hV
  have hV : ∀ u, u ∈ ([] : List ℕ) ↔ u ∈ SGraph.empty.V := fun u => by
    show _ ↔ u ∈ (∅ : Finset ℕ)
    simp
  obtain ⟨g, h, -⟩ := C45_with_ordering abs_new.rep hl List.nodup_nil hV (by decide)
  have hw := empty_normalize
  simp only [Except.bind, h] at hw
  obtain ⟨g', n2o, h', -⟩ := hC g _ [] (.make abs_new.rep hl List.nodup_nil hV (by decide) h) Shuffle.id Shuffle.id
    (fun _ => Shuffle.id)
  rw [h'] at hw
  cases hw

theorem exBuilt : ∃ (g : DegenGraph) (S : SGraph), g.Built S [2, 0, 1] ∧ S.Adj 0 1 := by
  obtain ⟨G, S, h1, h2, h3, -, -, h4, h5, h6, -⟩ := exOrd
  obtain ⟨g, h, -⟩ := C45_with_ordering h1 h2 h4 h5 h6
  exact ⟨g, S, .make h1 h2 h4 h5 h6 h, h3⟩

/-- Hypotheses of `C46_normalize_partial` are met. -/
example : ∃ (g : DegenGraph) (S : SGraph) (ord : List ℕ), g.Built S ord ∧ ord ≠ [] ∧ S.Adj 0 1 := by
  obtain ⟨g, S, h1, h2⟩ := exBuilt
  exact ⟨g, S, _, h1, by decide, h2⟩

/-- **C47.** `vertices()` yields the vertices in order, each once, and `iter()` yields each vertex once, in order,
together with its left neighbourhood in order; both terminate without reading outside the array. -/
theorem C47_iterators {g : DegenGraph} {S : SGraph} {ord : List ℕ} (h : g.Built S ord) :
    Drains g.orderIterNext g.orderIterNew ord ∧ ord.Nodup ∧ (∀ u, u ∈ ord ↔ u ∈ S.V) ∧
    ∃ l, Drains g.iterNext g.iterNew l ∧ l.map Prod.fst = ord ∧
      ∀ u N, (u, N) ∈ l → N.Pairwise (fun a b => ord.idxOf a < ord.idxOf b) ∧
        ∀ w, w ∈ N ↔ S.Adj u w ∧ ord.idxOf w < ord.idxOf u := by
  have I := h.inv
  refine ⟨I.orderIter, I.ordering.nodup, I.ordering.mem, _, I.iter, ?_, ?_⟩
  · rw [List.map_map]
    exact List.map_id ord
  · intro u N hN
    obtain ⟨x, hx, he⟩ := List.mem_map.1 hN
    cases he
    exact ⟨I.ordering.lefts_pairwise, fun w => I.ordering.mem_lefts⟩

/-- Hypotheses of `C47_iterators` are met. -/
example : ∃ (g : DegenGraph) (S : SGraph) (ord : List ℕ), g.Built S ord ∧ S.Adj 0 1 := by
  obtain ⟨g, S, h1, h2⟩ := exBuilt
  exact ⟨g, S, _, h1, h2⟩

/-! ## C48 -/

/-- **C48.** `to_degeneracy_graph` represents the same graph with the same ordering. -/
theorem C48_to_degeneracy_graph {S : SGraph} {o : OrdGraph} {ord : List ℕ} (h : OrdGraph.Built S o ord)
    (hsz : 3 * ord.length + S.E.card ≤ 2 ^ 32) :
    ∃ g, o.toDegeneracyGraph = .ok g ∧ g.Represents S ord ∧ o.Represents S ord ∧
      ∀ u ∈ S.V, g.leftSlice u = o.leftNeighbours u := by
  obtain ⟨g, h', I⟩ := h.inv.toDegeneracyGraph hsz
  refine ⟨g, h', I.represents, h.inv.represents, fun u hu => ?_⟩
  obtain ⟨l, h1, h2, h3⟩ := h.inv.leftNeighbours hu
  rw [h1, I.leftSlice hu, I.ordering.eq_lefts h2 h3]

/-- Hypotheses of `C48_to_degeneracy_graph` are met. -/
example : ∃ (S : SGraph) (o : OrdGraph) (ord : List ℕ), OrdGraph.Built S o ord ∧
    3 * ord.length + S.E.card ≤ 2 ^ 32 ∧ S.Adj 0 1 := by
  obtain ⟨G, S, h1, h2, h3, -, -, h4, h5, h6, -⟩ := exOrd
  obtain ⟨g, h, -⟩ := C43_with_ordering h1 h2 h4 h5
  exact ⟨S, g, _, .make h1 h2 h4 h5 h, h6, h3⟩

/-! ## C61 -/

theorem minByKey_spec {l : List (ℕ × ℕ)} : (minByKey l = none ↔ l = []) ∧
    ∀ p, minByKey l = some p → p ∈ l ∧ ∀ x ∈ l, p.1 ≤ x.1 := by
  cases l with
  | nil => exact ⟨by simp [minByKey], fun p h => by cases h⟩
  | cons a l =>
    refine ⟨by simp [minByKey], fun p h => ?_⟩
    have key : ∀ (l : List (ℕ × ℕ)) (a : ℕ × ℕ), let p := l.foldl (fun best x => if x.1 < best.1 then x else best) a
        (p = a ∨ p ∈ l) ∧ p.1 ≤ a.1 ∧ ∀ x ∈ l, p.1 ≤ x.1 := by
      intro l
      induction l with
      | nil => intro a; simp
      | cons b l ih =>
        intro a
        simp only [List.foldl_cons]
        obtain ⟨h1, h2, h3⟩ := ih (if b.1 < a.1 then b else a)
        generalize l.foldl _ (if b.1 < a.1 then b else a) = p at h1 h2 h3 ⊢
        refine ⟨?_, ?_, ?_⟩
        · rcases h1 with h1 | h1
          · split at h1
            · exact Or.inr (by rw [h1]; simp)
            · exact Or.inl h1
          · exact Or.inr (List.mem_cons_of_mem _ h1)
        · split at h2 <;> omega
        · intro x hx
          rcases List.mem_cons.1 hx with rfl | hx
          · split at h2 <;> omega
          · exact h3 x hx
    cases h
    obtain ⟨h1, h2, h3⟩ := key l a
    refine ⟨List.mem_cons.2 h1, fun x hx => ?_⟩
    rcases List.mem_cons.1 hx with rfl | hx
    · exact h2
    · exact h3 x hx

theorem maxByKey_spec {l : List (ℕ × ℕ)} : (maxByKey l = none ↔ l = []) ∧
    ∀ p, maxByKey l = some p → p ∈ l ∧ ∀ x ∈ l, x.1 ≤ p.1 := by
  cases l with
  | nil => exact ⟨by simp [maxByKey], fun p h => by cases h⟩
  | cons a l =>
    refine ⟨by simp [maxByKey], fun p h => ?_⟩
    have key : ∀ (l : List (ℕ × ℕ)) (a : ℕ × ℕ), let p := l.foldl (fun best x => if best.1 ≤ x.1 then x else best) a
        (p = a ∨ p ∈ l) ∧ a.1 ≤ p.1 ∧ ∀ x ∈ l, x.1 ≤ p.1 := by
      intro l
      induction l with
      | nil => intro a; simp
      | cons b l ih =>
        intro a
        simp only [List.foldl_cons]
        obtain ⟨h1, h2, h3⟩ := ih (if a.1 ≤ b.1 then b else a)
        generalize l.foldl _ (if a.1 ≤ b.1 then b else a) = p at h1 h2 h3 ⊢
        refine ⟨?_, ?_, ?_⟩
        · rcases h1 with h1 | h1
          · split at h1
            · exact Or.inr (by rw [h1]; simp)
            · exact Or.inl h1
          · exact Or.inr (List.mem_cons_of_mem _ h1)
        · split at h2 <;> omega
        · intro x hx
          rcases List.mem_cons.1 hx with rfl | hx
          · split at h2 <;> omega
          · exact h3 x hx
    cases h
    obtain ⟨h1, h2, h3⟩ := key l a
    refine ⟨List.mem_cons.2 h1, fun x hx => ?_⟩
    rcases List.mem_cons.1 hx with rfl | hx
    · exact h2
    · exact h3 x hx

theorem LinGraph.LRep.keyed {L : LinGraph} {S : SGraph} {ord : List ℕ} (H : L.LRep S ord) {us : List ℕ}
    (hus : ∀ u ∈ us, u ∈ S.V) : ∃ f : ℕ → ℕ, L.keyed us = .ok (us.map fun u => (f u, u)) ∧
      ∀ u ∈ us, ∀ v ∈ us, (f u < f v ↔ ord.idxOf u < ord.idxOf v) := by
  have hex : ∀ u, ∃ i, u ∈ S.V → L.indexOf u = .ok i := by
    intro u
    by_cases hu : u ∈ S.V
    · obtain ⟨i, hi⟩ := H.index u hu
      exact ⟨i, fun _ => hi⟩
    · exact ⟨0, fun h => absurd h hu⟩
  choose f hf using hex
  refine ⟨f, ?_, fun u hu v hv => H.index_lt u v _ _ (hus u hu) (hus v hv) (hf u (hus u hu)) (hf v (hus v hv))⟩
  unfold LinGraph.keyed
  exact EditGraph.mapM_ok fun u hu => by rw [hf u (hus u hu)]; rfl

/-- **C61, leftmost and rightmost.** -/
theorem C61_leftmost_rightmost {L : LinGraph} {S : SGraph} {ord : List ℕ} (H : L.LRep S ord) {us : List ℕ}
    (hus : ∀ u ∈ us, u ∈ S.V) :
    (us = [] → L.leftmost us = .ok none ∧ L.rightmost us = .ok none) ∧
    (us ≠ [] → ∃ a ∈ us, ∃ b ∈ us, L.leftmost us = .ok (some a) ∧ L.rightmost us = .ok (some b) ∧
      ∀ u ∈ us, ord.idxOf a ≤ ord.idxOf u ∧ ord.idxOf u ≤ ord.idxOf b) := by
  refine ⟨fun h => by subst h; exact ⟨rfl, rfl⟩, fun hne => ?_⟩
  obtain ⟨f, h1, h2⟩ := H.keyed hus
  unfold LinGraph.leftmost LinGraph.rightmost
  rw [h1]
  simp only [bind_ok, pure_eq_ok, Except.ok.injEq]
  have hm := minByKey_spec (l := us.map fun u => (f u, u))
  have hM := maxByKey_spec (l := us.map fun u => (f u, u))
  cases hmin : minByKey (us.map fun u => (f u, u)) with
  | none => exact absurd (List.map_eq_nil_iff.1 (hm.1.1 hmin)) hne
  | some p =>
    cases hmax : maxByKey (us.map fun u => (f u, u)) with
    | none => exact absurd (List.map_eq_nil_iff.1 (hM.1.1 hmax)) hne
    | some q =>
      obtain ⟨p1, p2⟩ := hm.2 p hmin
      obtain ⟨q1, q2⟩ := hM.2 q hmax
      obtain ⟨a, ha, rfl⟩ := List.mem_map.1 p1
      obtain ⟨b, hb, rfl⟩ := List.mem_map.1 q1
      refine ⟨a, ha, b, hb, rfl, rfl, fun u hu => ⟨?_, ?_⟩⟩
      · have := p2 (f u, u) (List.mem_map.2 ⟨u, hu, rfl⟩)
        by_contra hlt
        have := (h2 u hu a ha).2 (by omega)
        simp only at *
        omega
      · have := q2 (f u, u) (List.mem_map.2 ⟨u, hu, rfl⟩)
        by_contra hlt
        have := (h2 b hb u hu).2 (by omega)
        simp only at *
        omega

/-- `C61_leftmost_rightmost` for a triangle with a pendant vertex. -/
example := C61_leftmost_rightmost case_ord.choose_spec.inv.lrep (us := [1, 2]) (by decide)

theorem LinGraph.LRep.degMap {L : LinGraph} {S : SGraph} {ord : List ℕ} (H : L.LRep S ord) {f : ℕ → Res ℕ} {d : ℕ → ℕ}
    (hf : ∀ u ∈ S.V, f u = .ok (d u)) : Ok (L.vertices.foldlM (fun (res : HMap ℕ ℕ) u => do
      let d ← f u
      return res.insert u d) ∅) (fun m => ∀ u x, m.get? u = some x ↔ u ∈ S.V ∧ x = d u) := by
  rw [H.verts]
  refine Ok.mono (Ok.foldlM (fun pre (m : HMap ℕ ℕ) => ∀ u x, m.get? u = some x ↔ u ∈ pre ∧ x = d u) ?_ ?_) ?_
  · simp
  · intro pre a post m hs ih
    rw [hf a ((H.ordering.mem a).1 (by rw [hs]; simp))]
    simp only [bind_ok]
    refine Ok.pure fun u x => ?_
    rw [HMap.get?_insert]
    by_cases hu : u = a
    · subst hu; simp [eq_comm]
    · rw [if_neg hu, ih]; simp [hu]
  · intro m hm u x
    rw [hm, H.ordering.mem]

theorem getD_max?_eq {l : List ℕ} {f : ℕ → ℕ} : (l.map f).max?.getD 0 = l.toFinset.sup f := by
  cases h : (l.map f).max? with
  | none =>
    rw [List.max?_eq_none_iff, List.map_eq_nil_iff] at h
    subst h; rfl
  | some x =>
    obtain ⟨h1, h2⟩ := List.max?_eq_some_iff.1 h
    obtain ⟨a, ha, rfl⟩ := List.mem_map.1 h1
    refine le_antisymm (Finset.le_sup (f := f) (List.mem_toFinset.2 ha)) (Finset.sup_le fun b hb => ?_)
    exact h2 _ (List.mem_map.2 ⟨b, List.mem_toFinset.1 hb, rfl⟩)

/-- **C61, degrees.** Left and right degree of a vertex add up to its degree, the left degrees sum to the number
of edges; the maps and maxima are those of the number of earlier/later neighbours; `left_neighbourhoods` lists the
vertices in order with their left neighbourhoods. -/
theorem C61_degrees {L : LinGraph} {S : SGraph} {ord : List ℕ} (H : L.LRep S ord) :
    (∀ u ∈ S.V, ∃ l r, L.leftDegree u = .ok l ∧ L.rightDegree u = .ok r ∧ L.degree u = .ok (l + r)) ∧
    (∃ ls, L.vertices.mapM L.leftDegree = .ok ls ∧ ls.sum = L.numEdges) ∧
    (∃ m, L.leftDegrees = .ok m ∧ ∀ u x, m.get? u = some x ↔ u ∈ S.V ∧ x = (S.before ord u).card) ∧
    (∃ m, L.rightDegrees = .ok m ∧ ∀ u x, m.get? u = some x ↔ u ∈ S.V ∧ x = (S.after ord u).card) ∧
    L.maxLeftDegree = .ok (S.V.sup fun u => (S.before ord u).card) ∧
    L.maxRightDegree = .ok (S.V.sup fun u => (S.after ord u).card) ∧
    (∃ l, L.leftNeighbourhoods = .ok l ∧ l.map Prod.fst = ord ∧
      ∀ u N, (u, N) ∈ l → N.Pairwise (fun a b => ord.idxOf a < ord.idxOf b) ∧
        ∀ w, w ∈ N ↔ S.Adj u w ∧ ord.idxOf w < ord.idxOf u) := by
  have O := H.ordering
  have hV : ∀ u ∈ L.vertices, u ∈ S.V := fun u hu => (H.rep.vmem u).1 hu
  have hfin : L.vertices.toFinset = S.V := by ext u; rw [List.mem_toFinset, H.rep.vmem]
  have hml : L.vertices.mapM L.leftDegree = .ok (L.vertices.map fun u => (S.before ord u).card) :=
    EditGraph.mapM_ok fun u hu => H.ldeg u (hV u hu)
  have hmr : L.vertices.mapM L.rightDegree = .ok (L.vertices.map fun u => (S.after ord u).card) :=
    EditGraph.mapM_ok fun u hu => H.rdeg u (hV u hu)
  refine ⟨fun u hu => ⟨_, _, H.ldeg u hu, H.rdeg u hu, ?_⟩, ⟨_, hml, ?_⟩, ?_, ?_, ?_, ?_, ?_⟩
  · rw [H.rep.degree u hu, ← O.card_add H.loopless u]
  · rw [H.rep.ne, ← O.sum_before H.loopless, ← hfin, List.sum_toFinset _ H.rep.vnodup]
  · obtain ⟨m, h1, h2⟩ := H.degMap H.ldeg
    exact ⟨m, h1, h2⟩
  · obtain ⟨m, h1, h2⟩ := H.degMap H.rdeg
    exact ⟨m, h1, h2⟩
  · unfold LinGraph.maxLeftDegree
    rw [hml]
    simp only [bind_ok, pure_eq_ok]
    rw [getD_max?_eq, hfin]
  · unfold LinGraph.maxRightDegree
    rw [hmr]
    simp only [bind_ok, pure_eq_ok]
    rw [getD_max?_eq, hfin]
  · refine ⟨L.vertices.map fun u => (u, S.lefts ord u), ?_, ?_, ?_⟩
    · unfold LinGraph.leftNeighbourhoods
      refine EditGraph.mapM_ok fun u hu => ?_
      obtain ⟨l, h1, h2, h3⟩ := H.left u (hV u hu)
      rw [h1, O.eq_lefts h2 h3]
      rfl
    · rw [List.map_map, H.verts]
      exact List.map_id ord
    · intro u N hN
      obtain ⟨x, hx, he⟩ := List.mem_map.1 hN
      cases he
      exact ⟨O.lefts_pairwise, fun w => O.mem_lefts⟩

/-- Hypotheses of `C61` are met by an `OrdGraph` and a `DegenGraph` of the path 0-1-2. -/
example : ∃ (S : SGraph) (o : OrdGraph) (d : DegenGraph), o.lin.LRep S [2, 0, 1] ∧ d.lin.LRep S [2, 0, 1] ∧ S.Adj 0 1 ∧
    ∀ u ∈ [1, 0, 1], u ∈ S.V := by
  obtain ⟨G, S, h1, h2, h3, -, -, h4, h5, h6, -⟩ := exOrd
  obtain ⟨o, -, ho⟩ := C43_with_ordering h1 h2 h4 h5
  obtain ⟨d, -, hd⟩ := C45_with_ordering h1 h2 h4 h5 h6
  refine ⟨S, o, d, (ho o (.refl o)).lin, (hd d (.refl d)).lin, h3, ?_⟩
  intro u hu
  exact (h5 u).1 (by revert hu; revert u; decide)

end Verif
