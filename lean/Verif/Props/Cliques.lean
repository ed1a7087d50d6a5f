import Mathlib.Data.Finset.NAry
import Verif.Props.LinearAlg2
import Verif.Props.Compose
/-!
# C125: how far `count_max_cliques` can be off, and where it is right
-/
namespace Verif
open SGraph

/-! ## Too few -/

/-- The edges of a graph with eight maximal cliques of which `count_max_cliques` misses one more than it invents. -/
def fewEdges : List (ℕ × ℕ) :=
  [(0, 2), (0, 3), (0, 4), (0, 5), (0, 6), (1, 2), (1, 3), (1, 4), (1, 6), (2, 4), (2, 6), (3, 4), (3, 5), (3, 6), (4, 5), (5, 6)]

def few : SGraph := SGraph.empty.addEdges fewEdges

theorem few_cliques : ((builtOrd fewEdges [0, 1, 2, 3, 4, 5, 6]).bind fun o => o.lin.countMaxCliques) = .ok 7 := by
  decide +kernel

theorem isMaxClique_of {S : SGraph} {K : Finset ℕ} (hne : K.Nonempty) (hV : K ⊆ S.V)
    (hc : ∀ a ∈ K, ∀ b ∈ K, a ≠ b → S.Adj a b) (hm : ∀ x ∈ S.V, x ∉ K → ∃ y ∈ K, ¬ S.Adj x y) : S.IsMaxClique K := by
  refine ⟨hne, ⟨hV, hc⟩, fun K' h hs => Finset.Subset.antisymm (fun x hx => ?_) hs⟩
  by_contra hn
  obtain ⟨y, hy, ha⟩ := hm x (h.1 hx) hn
  exact ha (h.2 x hx y (hs hy) (by rintro rfl; exact hn hy))

theorem few_numMaxCliques : 8 ≤ few.numMaxCliques := by
  classical
  unfold numMaxCliques
  have h : ({{1, 2, 4}, {1, 3, 6}, {0, 2, 6}, {0, 3, 5, 6}, {0, 2, 4}, {0, 3, 4, 5}, {1, 2, 6}, {1, 3, 4}} : Finset (Finset ℕ)) ⊆
      few.V.powerset.filter few.IsMaxClique := by
    intro K hK
    have key : K ∈ ({{1, 2, 4}, {1, 3, 6}, {0, 2, 6}, {0, 3, 5, 6}, {0, 2, 4}, {0, 3, 4, 5}, {1, 2, 6}, {1, 3, 4}} : Finset (Finset ℕ)) →
      K.Nonempty ∧ K ⊆ few.V ∧ (∀ a ∈ K, ∀ b ∈ K, a ≠ b → few.Adj a b) ∧ ∀ x ∈ few.V, x ∉ K → ∃ y ∈ K, ¬ few.Adj x y := by
      revert K
      have : ∀ K ∈ ({{1, 2, 4}, {1, 3, 6}, {0, 2, 6}, {0, 3, 5, 6}, {0, 2, 4}, {0, 3, 4, 5}, {1, 2, 6}, {1, 3, 4}} : Finset (Finset ℕ)),
        K.Nonempty ∧ K ⊆ few.V ∧ (∀ a ∈ K, ∀ b ∈ K, a ≠ b → few.Adj a b) ∧
          ∀ x ∈ few.V, x ∉ K → ∃ y ∈ K, ¬ few.Adj x y := by decide +kernel
      exact fun K _ hK => this K hK
    obtain ⟨h1, h2, h3, h4⟩ := key hK
    exact Finset.mem_filter.2 ⟨Finset.mem_powerset.2 h2, isMaxClique_of h1 h2 h3 h4⟩
  exact le_trans (by decide +kernel) (Finset.card_le_card h)

/-- **C125, too few.** The number returned can also be smaller than the number of maximal cliques. -/
theorem C125_too_few : ∃ (L : LinGraph) (S : SGraph) (ord : List ℕ), L.LRep S ord ∧
    ∃ c, L.countMaxCliques = .ok c ∧ c < S.numMaxCliques := by
  obtain ⟨o, ho, H⟩ := builtOrd_lin fewEdges [0, 1, 2, 3, 4, 5, 6] (by decide) (by decide) (by decide)
  have h1 := few_cliques
  rw [ho] at h1
  exact ⟨o.lin, few, _, H, 7, h1, few_numMaxCliques⟩

/-! ## An upper bound -/

theorem cube_le (s : ℕ) : s ^ 3 ≤ 3 ^ s := by
  match s with
  | 0 | 1 | 2 => decide
  | n + 3 =>
    induction n with
    | zero => decide
    | succ n ih =>
      have h1 : (n + 1 + 3) ^ 3 ≤ 3 * (n + 3) ^ 3 := by
        have e1 : (n + 1 + 3) ^ 3 = n * n * n + 12 * (n * n) + 48 * n + 64 := by ring
        have e2 : 3 * (n + 3) ^ 3 = 3 * (n * n * n) + 27 * (n * n) + 81 * n + 81 := by ring
        rw [e1, e2]
        generalize n * n * n = a
        generalize n * n = b
        omega
      calc (n + 1 + 3) ^ 3 ≤ 3 * (n + 3) ^ 3 := h1
        _ ≤ 3 * 3 ^ (n + 3) := Nat.mul_le_mul_left _ ih
        _ = 3 ^ (n + 1 + 3) := by rw [← pow_succ']

/-- The number of selections from the layers of a list is at most the third root of `3 ^ length`. -/
theorem picks_bound (S : SGraph) : ∀ (n : ℕ) (l : List ℕ), l.length ≤ n →
    ∃ T : Finset (Finset ℕ), (∀ K, S.Picks l K → K ∈ T) ∧ T.card ^ 3 ≤ 3 ^ l.length := by
  classical
  intro n
  induction n with
  | zero =>
    intro l hl
    have : l = [] := List.length_eq_zero_iff.1 (by omega)
    subst this
    exact ⟨{∅}, fun K h => by simp [Clique.picks_nil.1 h], by simp⟩
  | succ n ih =>
    intro l hl
    rcases List.eq_nil_or_concat' l with rfl | ⟨l', u, rfl⟩
    · exact ⟨{∅}, fun K h => by simp [Clique.picks_nil.1 h], by simp⟩
    · rw [List.length_append, List.length_singleton] at hl
      obtain ⟨T, hT, hc⟩ := ih (l'.filter (fun x => decide (S.Adj u x))) ((List.length_filter_le _ _).trans (by omega))
      refine ⟨Finset.image₂ insert ((l'.filter (fun x => !decide (S.Adj u x))) ++ [u]).toFinset T, fun K hK => ?_, ?_⟩
      · obtain ⟨w, hw, hn, K', h, rfl⟩ := Clique.picks_concat.1 hK
        refine Finset.mem_image₂.2 ⟨w, ?_, K', hT K' h, rfl⟩
        rw [List.mem_toFinset]
        rcases List.mem_append.1 hw with h | h
        · exact List.mem_append_left _ (List.mem_filter.2 ⟨h, by simpa using hn⟩)
        · exact List.mem_append_right _ h
      · have h1 := Finset.card_image₂_le (insert : ℕ → Finset ℕ → Finset ℕ)
          ((l'.filter (fun x => !decide (S.Adj u x))) ++ [u]).toFinset T
        have h2 := List.toFinset_card_le ((l'.filter (fun x => !decide (S.Adj u x))) ++ [u])
        have h3 := List.length_eq_length_filter_add (l := l') (fun x => decide (S.Adj u x))
        set s := ((l'.filter (fun x => !decide (S.Adj u x))) ++ [u]).length with hs
        have hs' : s = (l'.filter (fun x => !decide (S.Adj u x))).length + 1 := by
          rw [hs, List.length_append, List.length_singleton]
        have h4 := h1.trans (Nat.mul_le_mul_right _ h2)
        calc _ ≤ (s * T.card) ^ 3 := Nat.pow_le_pow_left h4 3
          _ = s ^ 3 * T.card ^ 3 := Nat.mul_pow _ _ _
          _ ≤ 3 ^ s * 3 ^ (l'.filter (fun x => decide (S.Adj u x))).length := Nat.mul_le_mul (cube_le s) hc
          _ = 3 ^ (l' ++ [u]).length := by
            rw [← pow_add]
            congr 1
            rw [List.length_append, List.length_singleton]
            omega

/-- **C125, upper bound.** Whatever the ordering, the number returned is at most the sum over all vertices `v` of the third root of
`3 ^ left_degree(v)`. -/
theorem C125_bound {L : LinGraph} {S : SGraph} {ord : List ℕ} (H : L.LRep S ord) {k : ℕ → ℕ}
    (hk : ∀ v ∈ S.V, ∃ d, L.leftDegree v = .ok d ∧ 3 ^ d ≤ k v ^ 3) :
    ∃ c, L.countMaxCliques = .ok c ∧ c ≤ (L.vertices.map k).sum := by
  classical
  refine ⟨_, C54_exact_partial H, ?_⟩
  have hT : ∀ v, ∃ T : Finset (Finset ℕ), (∀ K, S.Picks (S.leftList ord v) K → K ∈ T) ∧
      T.card ^ 3 ≤ 3 ^ (S.leftList ord v).length := fun v => picks_bound S _ _ le_rfl
  choose T hT hc using hT
  have hsum : (L.vertices.map k).sum = ∑ v ∈ S.V, k v := by
    have : S.V = L.vertices.toFinset := by ext v; rw [List.mem_toFinset]; exact (H.rep.vmem v).symm
    rw [this, List.sum_toFinset _ H.rep.vnodup]
  rw [hsum]
  unfold numPicked
  refine (Finset.card_le_card (t := S.V.biUnion fun v => (T v).image (insert v)) fun F hF => ?_).trans
    (Finset.card_biUnion_le.trans (Finset.sum_le_sum fun v hv => Finset.card_image_le.trans ?_))
  · obtain ⟨-, ⟨v, hv, K, hK, rfl⟩, -⟩ := Finset.mem_filter.1 hF
    exact Finset.mem_biUnion.2 ⟨v, hv, Finset.mem_image_of_mem _ (hT v K hK)⟩
  · obtain ⟨d, hd, hle⟩ := hk v hv
    have hlen : (S.leftList ord v).length = d := by
      rw [H.ldeg v hv] at hd
      rw [← Except.ok.inj hd]
      unfold SGraph.leftList
      rw [← List.toFinset_card_of_nodup ((H.ordering.nodup).filter _)]
      congr 1
      ext w
      rw [List.mem_toFinset, List.mem_filter, decide_eq_true_eq]
      exact ⟨fun h => h.2, fun h => ⟨(H.ordering.mem w).2 (mem_before.1 h).1.right, h⟩⟩
    have := hc v
    rw [hlen] at this
    exact (Nat.pow_le_pow_iff_left (by decide : 3 ≠ 0)).1 (this.trans hle)

/-- Hypotheses of `C125_bound` are met: on a triangle with a pendant vertex one selection per vertex is too low a bound only for the
vertex with two left neighbours, for which three is enough. -/
example : ∃ (L : LinGraph), L.LRep pan [3, 0, 1, 2] ∧
    ∀ v ∈ pan.V, ∃ d, L.leftDegree v = .ok d ∧ 3 ^ d ≤ (if v = 3 then 1 else if v = 1 then 3 else 2) ^ 3 := by
  obtain ⟨o, -, H⟩ := builtOrd_lin [(0, 1), (3, 0), (3, 1), (3, 2)] [3, 0, 1, 2] (by decide) (by decide) (by decide)
  have key : ∀ v ∈ pan.V, 3 ^ (pan.before [3, 0, 1, 2] v).card ≤ (if v = 3 then 1 else if v = 1 then 3 else 2) ^ 3 := by decide
  exact ⟨o.lin, H, fun v hv => ⟨_, H.ldeg v hv, key v hv⟩⟩

/-- In particular, with left degrees at most `3 * d` it is at most `3 ^ d` per vertex. -/
theorem C125_bound_degenerate {L : LinGraph} {S : SGraph} {ord : List ℕ} (H : L.LRep S ord) {d : ℕ}
    (hd : ∀ v ∈ S.V, ∃ k ≤ 3 * d, L.leftDegree v = .ok k) :
    ∃ c, L.countMaxCliques = .ok c ∧ c ≤ L.numVertices * 3 ^ d := by
  obtain ⟨c, hc, hle⟩ := C125_bound H (k := fun _ => 3 ^ d) fun v hv => by
    obtain ⟨k, hk, e⟩ := hd v hv
    exact ⟨k, e, by rw [← pow_mul, Nat.mul_comm d 3]; exact Nat.pow_le_pow_right (by decide) hk⟩
  refine ⟨c, hc, hle.trans (le_of_eq ?_)⟩
  rw [List.map_const', List.sum_replicate, smul_eq_mul, H.rep.nv, ← List.toFinset_card_of_nodup H.rep.vnodup]
  congr 2
  ext v
  rw [List.mem_toFinset]
  exact H.rep.vmem v

/-- Hypotheses of `C125_bound_degenerate` are met. -/
example : ∃ (L : LinGraph), L.LRep pan [3, 0, 1, 2] ∧ ∀ v ∈ pan.V, ∃ k ≤ 3 * 1, L.leftDegree v = .ok k := by
  obtain ⟨o, -, H⟩ := builtOrd_lin [(0, 1), (3, 0), (3, 1), (3, 2)] [3, 0, 1, 2] (by decide) (by decide) (by decide)
  have key : ∀ v ∈ pan.V, (pan.before [3, 0, 1, 2] v).card ≤ 3 * 1 := by decide
  exact ⟨o.lin, H, fun v hv => ⟨_, key v hv, H.ldeg v hv⟩⟩

/-! ## Exact values -/

/-- **C125, triangle-free graphs.** If there is no triangle, the number returned is the number of edges plus the number of isolated
vertices, for every ordering. -/
theorem C125_triangle_free {L : LinGraph} {S : SGraph} {ord : List ℕ} (H : L.LRep S ord)
    (ht : ∀ a b c, S.Adj a b → S.Adj b c → ¬ S.Adj a c) :
    L.countMaxCliques = .ok (L.numEdges + (L.vertices.filter (fun u => decide (L.degree u = .ok 0))).length) := by
  classical
  rw [C54_count_max_cliques_partial H fun v a b c ha _ hc _ _ h =>
    ht a v c (mem_before.1 ha).1.symm (mem_before.1 hc).1 h]
  congr 1
  have hl := H.loopless
  have hiso : ∀ u ∈ S.V, L.degree u = .ok 0 ↔ ∀ v, ¬ S.Adj u v := by
    intro u hu
    rw [H.rep.degree u hu]
    have h1 : S.deg u = (S.nbrs u).card := by rw [deg_eq, if_neg (hl u), Nat.add_zero]
    rw [h1]
    constructor
    · intro h v hv
      have := Finset.card_eq_zero.1 (Except.ok.inj h)
      exact absurd (mem_nbrs.2 hv) (by rw [this]; simp)
    · intro h
      have : S.nbrs u = ∅ := Finset.eq_empty_of_forall_notMem fun v hv => h v (mem_nbrs.1 hv)
      rw [this, Finset.card_empty]
  have hpair : ∀ a b, S.Adj a b → S.IsMaxClique {a, b} := by
    intro a b h
    refine isMaxClique_of ⟨a, by simp⟩ ?_ ?_ ?_
    · intro x hx
      rcases Finset.mem_insert.1 hx with rfl | hx
      · exact h.left
      · rw [Finset.mem_singleton.1 hx]; exact h.right
    · intro x hx y hy hne
      simp only [Finset.mem_insert, Finset.mem_singleton] at hx hy
      rcases hx with hx | hx <;> rcases hy with hy | hy <;> rw [hx, hy]
      · exact absurd (hx.trans hy.symm) hne
      · exact h
      · exact h.symm
      · exact absurd (hx.trans hy.symm) hne
    · intro x hx hn
      by_contra hc
      push Not at hc
      exact ht a b x h (hc b (by simp)).symm (hc a (by simp)).symm
  have hset : S.V.powerset.filter S.IsMaxClique =
      S.E.image Sym2.toFinset ∪ (S.V.filter (fun u => ∀ v, ¬ S.Adj u v)).image singleton := by
    ext K
    rw [Finset.mem_filter, Finset.mem_powerset, Finset.mem_union, Finset.mem_image, Finset.mem_image]
    constructor
    · rintro ⟨hV, ⟨a, ha⟩, hK, hm⟩
      by_cases hb : ∃ b, S.Adj a b ∧ b ∈ K
      · obtain ⟨b, hab, hb⟩ := hb
        refine Or.inl ⟨s(a, b), hab, ?_⟩
        rw [Sym2.toFinset_mk_eq]
        exact ((hpair a b hab).2.2 K hK fun x hx => by
          rcases Finset.mem_insert.1 hx with rfl | hx
          · exact ha
          · rw [Finset.mem_singleton.1 hx]; exact hb).symm
      · push Not at hb
        have hKa : K = {a} := by
          refine Finset.eq_singleton_iff_unique_mem.2 ⟨ha, fun x hx => ?_⟩
          by_contra hn
          exact hb x (hK.2 a ha x hx (Ne.symm hn)) hx
        subst hKa
        refine Or.inr ⟨a, Finset.mem_filter.2 ⟨hV ha, fun v hv => ?_⟩, rfl⟩
        have := hm {a, v} (hpair a v hv).2.1 (by simp)
        exact hb v hv (by rw [← this]; simp)
    · rintro (⟨e, he, rfl⟩ | ⟨u, hu, rfl⟩)
      · induction e using Sym2.ind with
        | _ a b =>
          have := hpair a b he
          rw [Sym2.toFinset_mk_eq]
          exact ⟨this.2.1.1, this⟩
      · obtain ⟨huV, hu⟩ := Finset.mem_filter.1 hu
        refine ⟨by simpa using huV, isMaxClique_of ⟨u, by simp⟩ (by simpa using huV) ?_ ?_⟩
        · intro a ha b hb hne
          rw [Finset.mem_singleton.1 ha, Finset.mem_singleton.1 hb] at hne
          exact absurd rfl hne
        · intro x _ _
          exact ⟨u, by simp, fun h => hu x h.symm⟩
  unfold numMaxCliques
  rw [hset, Finset.card_union_of_disjoint, Finset.card_image_of_injOn, Finset.card_image_of_injOn, H.rep.ne]
  · congr 1
    rw [← List.toFinset_card_of_nodup (H.rep.vnodup.filter _)]
    congr 1
    ext u
    rw [List.mem_toFinset, List.mem_filter, Finset.mem_filter, decide_eq_true_eq, H.rep.vmem]
    exact ⟨fun h => ⟨h.1, (hiso u h.1).2 h.2⟩, fun h => ⟨h.1, (hiso u h.1).1 h.2⟩⟩
  · intro a _ b _ h
    exact Finset.singleton_injective h
  · intro e _ f _ h
    refine Sym2.ext fun x => ?_
    rw [← Sym2.mem_toFinset, ← Sym2.mem_toFinset]
    have : e.toFinset = f.toFinset := h
    rw [this]
  · refine Finset.disjoint_left.2 fun K h1 h2 => ?_
    obtain ⟨e, he, rfl⟩ := Finset.mem_image.1 h1
    obtain ⟨u, -, hu⟩ := Finset.mem_image.1 h2
    induction e using Sym2.ind with
    | _ a b =>
      rw [Sym2.toFinset_mk_eq] at hu
      have ha : a ∈ ({u} : Finset ℕ) := by rw [hu]; simp
      have hb : b ∈ ({u} : Finset ℕ) := by rw [hu]; simp
      rw [Finset.mem_singleton.1 ha, Finset.mem_singleton.1 hb] at he
      exact hl u he

/-- Hypotheses of `C125_triangle_free` are met by a four-cycle. -/
example : ∃ (L : LinGraph) (S : SGraph), L.LRep S [2, 0, 3, 1] ∧ S.Adj 0 1 ∧ S.Adj 3 0 ∧ ∀ a b c, S.Adj a b → S.Adj b c → ¬ S.Adj a c := by
  obtain ⟨o, -, H⟩ := builtOrd_lin [(0, 1), (1, 2), (2, 3), (3, 0)] [2, 0, 3, 1] (by decide) (by decide) (by decide)
  refine ⟨o.lin, _, H, by decide, by decide, fun a b c h1 h2 => ?_⟩
  have key : ∀ a ∈ (SGraph.empty.addEdges [(0, 1), (1, 2), (2, 3), (3, 0)]).V,
    ∀ b ∈ (SGraph.empty.addEdges [(0, 1), (1, 2), (2, 3), (3, 0)]).V,
    ∀ c ∈ (SGraph.empty.addEdges [(0, 1), (1, 2), (2, 3), (3, 0)]).V,
    (SGraph.empty.addEdges [(0, 1), (1, 2), (2, 3), (3, 0)]).Adj a b →
    (SGraph.empty.addEdges [(0, 1), (1, 2), (2, 3), (3, 0)]).Adj b c →
    ¬ (SGraph.empty.addEdges [(0, 1), (1, 2), (2, 3), (3, 0)]).Adj a c := by decide
  exact key a h1.left b h1.right c h2.right h1 h2

/-- **C125, left neighbourhoods that are cliques.** Then the number returned is the number of vertices `v` such that no `w` has `v` and
all left neighbours of `v` among its own left neighbours; in particular it is at most the number of vertices. -/
theorem C125_chordal {L : LinGraph} {S : SGraph} {ord : List ℕ} (H : L.LRep S ord)
    (hch : ∀ v a b, a ∈ S.before ord v → b ∈ S.before ord v → a ≠ b → S.Adj a b) :
    L.countMaxCliques = .ok (S.V.filter (fun v => ∀ w ∈ S.V, ¬ (v ∈ S.before ord w ∧ S.before ord v ⊆ S.before ord w))).card := by
  classical
  rw [C54_count_max_cliques_partial H fun v a b c ha hb hc hab hbc => ?_]
  · congr 1
    have O := H.ordering
    have hcl : ∀ v ∈ S.V, S.IsClique (insert v (S.before ord v)) := by
      intro v hv
      refine ⟨fun x hx => ?_, fun a ha b hb hne => ?_⟩
      · rcases Finset.mem_insert.1 hx with rfl | hx
        · exact hv
        · exact (mem_before.1 hx).1.right
      · rcases Finset.mem_insert.1 ha with rfl | ha <;> rcases Finset.mem_insert.1 hb with rfl | hb
        · exact absurd rfl hne
        · exact (mem_before.1 hb).1
        · exact (mem_before.1 ha).1.symm
        · exact hch v a b ha hb hne
    have hlast : ∀ K, K.Nonempty → S.IsClique K → ∃ v ∈ K, K ⊆ insert v (S.before ord v) := by
      intro K hne hK
      obtain ⟨v, hv, hm⟩ := Finset.exists_max_image K ord.idxOf hne
      refine ⟨v, hv, fun x hx => ?_⟩
      by_cases h : x = v
      · exact Finset.mem_insert.2 (Or.inl h)
      · refine Finset.mem_insert.2 (Or.inr (mem_before.2 ⟨hK.2 v hv x hx (Ne.symm h), ?_⟩))
        have h1 := hm x hx
        have h2 : ord.idxOf x ≠ ord.idxOf v := fun e => h (O.idxOf_inj (hK.1 hx) e)
        omega
    unfold numMaxCliques
    symm
    refine Finset.card_bij (fun v _ => insert v (S.before ord v)) ?_ ?_ ?_
    · intro v hv
      obtain ⟨hv, hn⟩ := Finset.mem_filter.1 hv
      refine Finset.mem_filter.2 ⟨Finset.mem_powerset.2 (hcl v hv).1, ⟨v, by simp⟩, hcl v hv, fun K' hK' hs => ?_⟩
      obtain ⟨w, hw, hsub⟩ := hlast K' ⟨v, hs (by simp)⟩ hK'
      have hvw := hsub (hs (Finset.mem_insert_self v _))
      rcases Finset.mem_insert.1 hvw with rfl | hvw
      · exact Finset.Subset.antisymm hsub hs
      · refine absurd ⟨hvw, fun x hx => ?_⟩ (hn w (hK'.1 hw))
        rcases Finset.mem_insert.1 (hsub (hs (Finset.mem_insert_of_mem hx))) with rfl | h
        · have h1 := (mem_before.1 hx).2
          have h2 := (mem_before.1 hvw).2
          omega
        · exact h
    · intro v hv w hw he
      have hv := (Finset.mem_filter.1 hv).1
      have hw := (Finset.mem_filter.1 hw).1
      by_contra hne
      have h1 : v ∈ insert w (S.before ord w) := he ▸ Finset.mem_insert_self v _
      have h2 : w ∈ insert v (S.before ord v) := he ▸ Finset.mem_insert_self w _
      have h3 := (mem_before.1 ((Finset.mem_insert.1 h1).resolve_left hne)).2
      have h4 := (mem_before.1 ((Finset.mem_insert.1 h2).resolve_left (Ne.symm hne))).2
      omega
    · intro K hK
      obtain ⟨-, hne, hK, hm⟩ := Finset.mem_filter.1 hK
      obtain ⟨v, hv, hsub⟩ := hlast K hne hK
      have hKe := hm _ (hcl v (hK.1 hv)) hsub
      refine ⟨v, Finset.mem_filter.2 ⟨hK.1 hv, fun w hw ⟨h1, h2⟩ => ?_⟩, hKe⟩
      have h3 := hm (insert w (S.before ord w)) (hcl w hw) fun x hx => by
        rcases Finset.mem_insert.1 (hsub hx) with rfl | h
        · exact Finset.mem_insert_of_mem h1
        · exact Finset.mem_insert_of_mem (h2 h)
      have h4 : w ∈ insert v (S.before ord v) := by rw [hKe, ← h3]; simp
      have h5 := (mem_before.1 h1).2
      rcases Finset.mem_insert.1 h4 with rfl | h4
      · omega
      · have := (mem_before.1 h4).2
        omega
  · intro hac
    by_cases h : a = b
    · subst h; exact hbc hac
    · exact hab (hch v a b ha hb h)

/-- Hypotheses of `C125_chordal` are met by a triangle with a pendant vertex. -/
example : ∃ (L : LinGraph), L.LRep pan [3, 0, 1, 2] ∧ ∀ v a b, a ∈ pan.before [3, 0, 1, 2] v → b ∈ pan.before [3, 0, 1, 2] v →
    a ≠ b → pan.Adj a b := by
  obtain ⟨o, -, H⟩ := builtOrd_lin [(0, 1), (3, 0), (3, 1), (3, 2)] [3, 0, 1, 2] (by decide) (by decide) (by decide)
  refine ⟨o.lin, H, fun v a b ha hb => ?_⟩
  have key : ∀ v ∈ pan.V, ∀ a ∈ pan.before [3, 0, 1, 2] v, ∀ b ∈ pan.before [3, 0, 1, 2] v, a ≠ b → pan.Adj a b := by decide
  exact key v (mem_before.1 ha).1.left a ha b hb

end Verif
