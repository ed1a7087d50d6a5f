import Verif.Spec.LoopPeel
import Verif.Lemmas.DegenBuilder
import Verif.Lemmas.DTFOrient
/-!
# Graphs with loops and arbitrary orderings: `OrdGraph::with_ordering`, `DegenGraph::with_ordering`, `orient`
-/
namespace Verif

/-- A loop whose steps succeed or panic, one of them always panicking, panics. -/
theorem foldlM_panics {α β : Type} {f : β → α → Res β} {l : List α} (I : List α → β → Prop) :
    ∀ (post pre : List α) (b : β), l = pre ++ post → I pre b →
    (∀ pre a post b, l = pre ++ a :: post → I pre b → f b a = .error .panic ∨ Ok (f b a) (I (pre ++ [a]))) →
    (∃ a ∈ post, ∀ b, f b a = .error .panic) → post.foldlM f b = .error .panic := by
  intro post
  induction post with
  | nil => rintro _ _ _ _ _ ⟨a, ha, -⟩; simp at ha
  | cons a l ih =>
    intro pre b hl hb hf hbad
    rw [List.foldlM_cons]
    rcases hf pre a l b hl hb with h | ⟨b', h, hb'⟩
    · rw [h]; rfl
    · rw [h, bind_ok]
      obtain ⟨c, hc, hcp⟩ := hbad
      rcases List.mem_cons.1 hc with rfl | hc
      · rw [hcp b] at h; cases h
      · exact ih (pre ++ [a]) b' (by rw [hl]; simp) hb' hf ⟨c, hc, hcp⟩

theorem lastIdx_snoc {l : List ℕ} {u v : ℕ} (hu : u ∈ l ++ [v]) :
    lastIdx (l ++ [v]) u = if u = v then l.length else lastIdx l u := by
  unfold lastIdx
  rw [List.reverse_append, List.reverse_singleton, List.singleton_append, List.length_append, List.length_singleton]
  by_cases h : u = v
  · subst h; rw [List.idxOf_cons_self, if_pos rfl]; omega
  · rw [List.idxOf_cons_ne _ (fun h' => h h'.symm), if_neg h]
    have : u ∈ l.reverse := by simpa [h] using hu
    have := List.idxOf_lt_length_of_mem this
    rw [List.length_reverse] at this
    omega

theorem get?_positions_last (l : List ℕ) (u : ℕ) :
    (HMap.ofList l.zipIdx : HMap ℕ ℕ).get? u = if u ∈ l then some (lastIdx l u) else none := by
  induction l using List.reverseRecOn with
  | nil => rfl
  | append_singleton l v ih =>
    have e : (HMap.ofList (l ++ [v]).zipIdx : HMap ℕ ℕ) = (HMap.ofList l.zipIdx).insert v l.length := by
      rw [List.zipIdx_append]
      show List.foldl _ _ _ = _
      rw [List.foldl_append]
      simp [HMap.ofList]
    rw [e, HMap.get?_insert, ih]
    by_cases h : u = v
    · subst h
      rw [if_pos rfl, if_pos (by simp), lastIdx_snoc (by simp), if_pos rfl]
    · rw [if_neg h]
      by_cases hm : u ∈ l
      · rw [if_pos hm, if_pos (by simp [hm]), lastIdx_snoc (by simp [hm]), if_neg h]
      · rw [if_neg hm, if_neg (by simp [hm, h])]

theorem lastIdx_get {l : List ℕ} {u : ℕ} (hu : u ∈ l) : l[lastIdx l u]? = some u := by
  unfold lastIdx
  have h := List.idxOf_lt_length_of_mem (List.mem_reverse.2 hu)
  have e := List.getElem_idxOf h
  rw [List.getElem_reverse] at e
  rw [List.getElem?_eq_some_iff]
  rw [List.length_reverse] at h
  exact ⟨by omega, e⟩

theorem lastIdx_inj {l : List ℕ} {u v : ℕ} (hu : u ∈ l) (hv : v ∈ l) (h : lastIdx l u = lastIdx l v) : u = v := by
  have h1 := lastIdx_get hu
  rw [h, lastIdx_get hv] at h1
  exact (Option.some.inj h1).symm

theorem lastIdx_nodup {l : List ℕ} (hl : l.Nodup) {u : ℕ} (hu : u ∈ l) : lastIdx l u = l.idxOf u := by
  have h1 := lastIdx_get hu
  have h2 : l[l.idxOf u]? = some u := by
    rw [List.getElem?_eq_getElem (List.idxOf_lt_length_of_mem hu), List.getElem_idxOf]
  have h3 := (List.getElem?_eq_some_iff.1 h1).1
  exact (List.getElem?_inj h3 hl).1 (h1.trans h2.symm)

namespace OrdGraph

/-- As `Nodes`, but a loop is on both sides. -/
structure LNodes (ord : List ℕ) (A : ℕ → ℕ → Prop) (nodes : List OrdNode) : Prop where
  len : nodes.length = ord.length
  node : ∀ (i x : ℕ), ord[i]? = some x → ∃ n : OrdNode, nodes[i]? = some n ∧ n.v = x ∧
    (∀ w, w ∈ n.left ↔ A x w ∧ ord.idxOf w ≤ ord.idxOf x) ∧ ∀ w, w ∈ n.right ↔ A x w ∧ ord.idxOf x ≤ ord.idxOf w

theorem idxOf_of {ord : List ℕ} (hn : ord.Nodup) {i x : ℕ} (h : ord[i]? = some x) : ord.idxOf x = i := by
  obtain ⟨h1, rfl⟩ := List.getElem?_eq_some_iff.1 h
  exact hn.idxOf_getElem i h1

theorem left_insLeft {p : Prop} [Decidable p] {a : ℕ} {n : OrdNode} {w : ℕ} :
    w ∈ ((if p then insLeft a else id) n).left ↔ (p ∧ w = a) ∨ w ∈ n.left := by
  by_cases h : p
  · rw [if_pos h]; show w ∈ n.left.insert a ↔ _; rw [HSet.mem_insert]; simp [h]
  · rw [if_neg h]; simp [h]

theorem right_insRight {p : Prop} [Decidable p] {a : ℕ} {n : OrdNode} {w : ℕ} :
    w ∈ ((if p then insRight a else id) n).right ↔ (p ∧ w = a) ∨ w ∈ n.right := by
  by_cases h : p
  · rw [if_pos h]; show w ∈ n.right.insert a ↔ _; rw [HSet.mem_insert]; simp [h]
  · rw [if_neg h]; simp [h]

theorem left_insRight {p : Prop} [Decidable p] {a : ℕ} {n : OrdNode} : ((if p then insRight a else id) n).left = n.left := by
  split <;> rfl

theorem right_insLeft {p : Prop} [Decidable p] {a : ℕ} {n : OrdNode} : ((if p then insLeft a else id) n).right = n.right := by
  split <;> rfl

theorem insertPair_le {ord : List ℕ} (hn : ord.Nodup) {nodes : List OrdNode} {A : ℕ → ℕ → Prop} (H : LNodes ord A nodes)
    {a b : ℕ} (ha : a ∈ ord) (hb : b ∈ ord) (hab : ord.idxOf a ≤ ord.idxOf b) :
    Ok (do let nodes ← modify nodes (ord.idxOf a) (insRight b); modify nodes (ord.idxOf b) (insLeft a))
      (LNodes ord (fun x w => A x w ∨ (x = a ∧ w = b) ∨ (x = b ∧ w = a))) := by
  have hla := List.idxOf_lt_length_of_mem ha
  have hlb := List.idxOf_lt_length_of_mem hb
  refine Ok.bind (modify_spec (by rw [H.len]; exact hla)) fun n1 ⟨l1, g1⟩ => ?_
  refine Ok.mono (modify_spec (by rw [l1, H.len]; exact hlb)) fun n2 ⟨l2, g2⟩ => ⟨by rw [l2, l1, H.len], ?_⟩
  intro i x hx
  obtain ⟨n, h1, h2, h3, h4⟩ := H.node i x hx
  have hix := idxOf_of hn hx
  have hxm := List.mem_of_getElem? hx
  have key : ∀ {y z}, y ∈ ord → ord.idxOf y = ord.idxOf z → y = z := fun hy h => (List.idxOf_inj hy).1 h
  rw [g2, g1, h1]
  have e1 : i = ord.idxOf b ↔ x = b := ⟨fun h => key hxm (hix.trans h), fun h => by rw [← h, hix]⟩
  have e2 : i = ord.idxOf a ↔ x = a := ⟨fun h => key hxm (hix.trans h), fun h => by rw [← h, hix]⟩
  have back : ord.idxOf b ≤ ord.idxOf a → a = b := fun h => key ha (le_antisymm hab h)
  refine ⟨(if x = b then insLeft a else id) ((if x = a then insRight b else id) n), ?_, ?_, fun w => ?_, fun w => ?_⟩
  · simp only [e1, e2]
    split <;> split <;> rfl
  · split <;> split <;> exact h2
  · rw [left_insLeft, left_insRight, h3]
    constructor
    · rintro (⟨rfl, rfl⟩ | ⟨h, h'⟩)
      · exact ⟨.inr (.inr ⟨rfl, rfl⟩), hab⟩
      · exact ⟨.inl h, h'⟩
    · rintro ⟨h | ⟨rfl, rfl⟩ | ⟨rfl, rfl⟩, h'⟩
      · exact .inr ⟨h, h'⟩
      · have := back h'
        exact .inl ⟨this, this.symm⟩
      · exact .inl ⟨rfl, rfl⟩
  · rw [right_insLeft, right_insRight, h4]
    constructor
    · rintro (⟨rfl, rfl⟩ | ⟨h, h'⟩)
      · exact ⟨.inr (.inl ⟨rfl, rfl⟩), hab⟩
      · exact ⟨.inl h, h'⟩
    · rintro ⟨h | ⟨rfl, rfl⟩ | ⟨rfl, rfl⟩, h'⟩
      · exact .inr ⟨h, h'⟩
      · exact .inl ⟨rfl, rfl⟩
      · have := back h'
        exact .inl ⟨this.symm, this⟩

/-- Representation invariant for graphs with loops and arbitrary vertex lists. -/
structure LInv (g : OrdGraph) (S : SGraph) (ord : List ℕ) : Prop where
  nodup : ord.Nodup
  within : ∀ u v, S.Adj u v → u ∈ ord
  idx : ∀ (u i : ℕ), g.indices.get? u = some i ↔ ord[i]? = some u
  nodes : LNodes ord S.Adj g.nodes
  m : g.m = S.E.card

theorem contains_ofList (ord : List ℕ) (u : ℕ) : (HMap.ofList ord.zipIdx : HMap ℕ ℕ).contains u = decide (u ∈ ord) := by
  unfold HMap.contains
  rw [get?_positions_last]
  by_cases h : u ∈ ord <;> simp [h]

theorem addEdge_le {ord : List ℕ} (hn : ord.Nodup) {nodes : List OrdNode} {A : ℕ → ℕ → Prop} (H : LNodes ord A nodes)
    {e : ℕ × ℕ} (ha : e.1 ∈ ord) (hb : e.2 ∈ ord) : Ok (addEdge (HMap.ofList ord.zipIdx) nodes e)
      (LNodes ord (fun x w => A x w ∨ (x = e.1 ∧ w = e.2) ∨ (x = e.2 ∧ w = e.1))) := by
  unfold addEdge
  rw [contains_ofList, contains_ofList, get?_positions_last, get?_positions_last, if_pos ha, if_pos hb, lastIdx_nodup hn ha,
    lastIdx_nodup hn hb]
  simp only [ha, hb, decide_true, assertR, if_true, bind_ok, unwrap_some]
  by_cases hlt : ord.idxOf e.1 < ord.idxOf e.2
  · rw [if_pos hlt]
    exact insertPair_le hn H ha hb hlt.le
  · rw [if_neg hlt]
    refine Ok.mono (insertPair_le hn H hb ha (by omega)) fun r hr => ⟨hr.len, fun i x hx => ?_⟩
    obtain ⟨n, h1, h2, h3, h4⟩ := hr.node i x hx
    refine ⟨n, h1, h2, fun w => (h3 w).trans (and_congr_left fun _ => or_congr_right Or.comm),
      fun w => (h4 w).trans (and_congr_left fun _ => or_congr_right Or.comm)⟩

theorem addEdge_missing {ord : List ℕ} {nodes : List OrdNode} {e : ℕ × ℕ} (h : ¬ (e.1 ∈ ord ∧ e.2 ∈ ord)) :
    addEdge (HMap.ofList ord.zipIdx) nodes e = .error .panic := by
  unfold addEdge
  rw [contains_ofList, contains_ofList]
  by_cases h1 : e.1 ∈ ord
  · have h2 : e.2 ∉ ord := fun h2 => h ⟨h1, h2⟩
    simp only [h1, h2, decide_true, decide_false, assertR, if_true, bind_ok, Bool.false_eq_true, if_false]
    rfl
  · simp only [h1, decide_false, assertR, Bool.false_eq_true, if_false]
    rfl

/-- The first loop of `with_ordering`. -/
def place (ord : List ℕ) (nodes : List OrdNode) (v : ℕ) : Res (List OrdNode) := do
  let nodes := nodes ++ [OrdNode.new v]
  let i ← unwrap ((HMap.ofList ord.zipIdx : HMap ℕ ℕ).get? v)
  assertR (i == nodes.length - 1)
  return nodes

theorem place_eq {ord : List ℕ} {nodes : List OrdNode} {v : ℕ} (hv : v ∈ ord) :
    place ord nodes v = if lastIdx ord v = nodes.length then .ok (nodes ++ [OrdNode.new v]) else .error .panic := by
  unfold place
  simp only [get?_positions_last, if_pos hv, unwrap_some, bind_ok, List.length_append, List.length_singleton,
    Nat.add_sub_cancel, assertR, beq_iff_eq]
  split <;> rfl

theorem place_all {ord : List ℕ} : ∀ (post pre : List ℕ) (nodes : List OrdNode), ord = pre ++ post → nodes.length = pre.length →
    post.foldlM (place ord) nodes ≠ .error .panic → ∀ a x b, post = a ++ x :: b → lastIdx ord x = pre.length + a.length := by
  intro post
  induction post with
  | nil => intro _ _ _ _ _ a x b h; simp at h
  | cons y post ih =>
    intro pre nodes ho hl hne a x b hab
    have hy : y ∈ ord := by rw [ho]; simp
    rw [List.foldlM_cons, place_eq hy] at hne
    by_cases hi : lastIdx ord y = nodes.length
    · rw [if_pos hi, bind_ok] at hne
      cases a with
      | nil =>
        have hab : y :: post = x :: b := hab
        obtain ⟨rfl, -⟩ := List.cons.inj hab
        rw [hi, hl]; simp
      | cons z a =>
        rw [List.cons_append] at hab
        have hab := (List.cons.inj hab).2
        have := ih (pre ++ [y]) (nodes ++ [OrdNode.new y]) (by rw [ho]; simp) (by simp [hl]) hne a x b hab
        rw [this]; simp; omega
    · rw [if_neg hi] at hne
      exact absurd rfl hne

theorem place_ok {ord : List ℕ} (hn : ord.Nodup) : ord.foldlM (place ord) [] = .ok (ord.map OrdNode.new) := by
  obtain ⟨r, hr, hr'⟩ := Ok.foldlM (f := place ord) (l := ord) (b := []) (fun pre nodes => nodes = pre.map OrdNode.new) rfl (by
    intro pre a post b hsplit hb
    have ha : a ∈ ord := by rw [hsplit]; simp
    have : lastIdx ord a = pre.length := by
      rw [lastIdx_nodup hn ha]
      exact idxOf_of hn (by rw [hsplit]; simp)
    rw [place_eq ha, this, hb, if_pos (by simp)]
    exact ⟨_, rfl, by simp⟩)
  rw [hr, hr']

theorem place_dup {ord : List ℕ} (hn : ¬ ord.Nodup) : ord.foldlM (place ord) [] = .error .panic := by
  by_contra hc
  apply hn
  have all := place_all ord [] [] rfl rfl hc
  rw [List.nodup_iff_injective_getElem]
  intro i j hij
  have h1 := all (ord.take i) (ord[i.1]) (ord.drop (i + 1)) (by
    rw [← List.drop_eq_getElem_cons i.2, List.take_append_drop])
  have h2 := all (ord.take j) (ord[j.1]) (ord.drop (j + 1)) (by
    rw [← List.drop_eq_getElem_cons j.2, List.take_append_drop])
  have hij : ord[i.1] = ord[j.1] := hij
  rw [hij, h2] at h1
  simp only [List.length_take] at h1
  have := i.2
  have := j.2
  apply Fin.ext
  omega

/-- `with_ordering` for every graph and every list. -/
theorem withOrdering_all {G : Graph} {S : SGraph} (hG : G.Rep S) (ord : List ℕ) :
    ((¬ ord.Nodup ∨ ∃ u v, S.Adj u v ∧ u ∉ ord) → withOrdering G ord = .error .panic) ∧
    (ord.Nodup → (∀ u v, S.Adj u v → u ∈ ord) → Ok (withOrdering G ord) (fun g => LInv g S ord)) := by
  have unf : withOrdering G ord = (do
      let nodes ← ord.foldlM (place ord) []
      let es ← G.edges
      let nodes ← es.foldlM (addEdge (HMap.ofList ord.zipIdx)) nodes
      return ⟨HMap.ofList ord.zipIdx, nodes, G.numEdges⟩) := rfl
  rw [unf]
  obtain ⟨es, hes, henum, -⟩ := hG.edges
  constructor
  · intro hbad
    by_cases hn : ord.Nodup
    · rw [place_ok hn, bind_ok, hes, bind_ok]
      obtain ⟨u, v, huv, hu⟩ := hbad.resolve_left (fun h => h hn)
      have : es.foldlM (addEdge (HMap.ofList ord.zipIdx)) (ord.map OrdNode.new) = .error .panic := by
        refine foldlM_panics (fun _ nodes => ∃ A, LNodes ord A nodes) es [] _ rfl ⟨fun _ _ => False, ?_⟩ ?_ ?_
        · refine ⟨by simp, fun i x hx => ⟨OrdNode.new x, by simp [hx], rfl, fun w => ?_, fun w => ?_⟩⟩
          · show w ∈ (∅ : HSet ℕ) ↔ _; simp
          · show w ∈ (∅ : HSet ℕ) ↔ _; simp
        · rintro _ e _ nodes - ⟨A, hA⟩
          by_cases he : e.1 ∈ ord ∧ e.2 ∈ ord
          · exact .inr (Ok.mono (addEdge_le hn hA he.1 he.2) fun r hr => ⟨_, hr⟩)
          · exact .inl (addEdge_missing he)
        · rcases Nat.le_total u v with h | h
          · exact ⟨(u, v), (henum.mem u v).2 ⟨h, huv⟩, fun nodes => addEdge_missing (fun h' => hu h'.1)⟩
          · exact ⟨(v, u), (henum.mem v u).2 ⟨h, huv.symm⟩, fun nodes => addEdge_missing (fun h' => hu h'.2)⟩
      rw [this]
      rfl
    · rw [place_dup hn]
      rfl
  · intro hn hin
    rw [place_ok hn, bind_ok, hes, bind_ok]
    refine Ok.bind (P := LNodes ord S.Adj) ?_ fun nodes hN => Ok.pure ⟨hn, hin, fun u i => get?_positions hn, hN, hG.ne⟩
    refine Ok.mono (Ok.foldlM (fun pre nodes => LNodes ord (fun x w => (x, w) ∈ pre ∨ (w, x) ∈ pre) nodes) ?_ ?_) ?_
    · refine ⟨by simp, fun i x hx => ⟨OrdNode.new x, by simp [hx], rfl, fun w => ?_, fun w => ?_⟩⟩
      · show w ∈ (∅ : HSet ℕ) ↔ _; simp
      · show w ∈ (∅ : HSet ℕ) ↔ _; simp
    · intro pre e post nodes hsplit hN
      have he : e ∈ es := by rw [hsplit]; simp
      have hadj := henum.adj he
      refine Ok.mono (addEdge_le hn hN (hin _ _ hadj) (hin _ _ hadj.symm)) fun r hr => ⟨hr.len, fun i x hx => ?_⟩
      obtain ⟨n, h1, h2, h3, h4⟩ := hr.node i x hx
      have : ∀ w, (((x, w) ∈ pre ∨ (w, x) ∈ pre) ∨ (x = e.1 ∧ w = e.2) ∨ (x = e.2 ∧ w = e.1)) ↔
          (x, w) ∈ pre ++ [e] ∨ (w, x) ∈ pre ++ [e] := by
        intro w
        simp only [List.mem_append, List.mem_singleton, Prod.ext_iff]
        tauto
      exact ⟨n, h1, h2, fun w => (h3 w).trans (and_congr_left fun _ => this w),
        fun w => (h4 w).trans (and_congr_left fun _ => this w)⟩
    · intro nodes hN
      refine ⟨hN.len, fun i x hx => ?_⟩
      obtain ⟨n, h1, h2, h3, h4⟩ := hN.node i x hx
      have : ∀ w, ((x, w) ∈ es ∨ (w, x) ∈ es) ↔ S.Adj x w := by
        intro w
        rw [henum.mem, henum.mem]
        constructor
        · rintro (h | h)
          · exact h.2
          · exact h.2.symm
        · intro h
          rcases Nat.le_total x w with hab | hab
          · exact Or.inl ⟨hab, h⟩
          · exact Or.inr ⟨hab, h.symm⟩
      exact ⟨n, h1, h2, fun w => (h3 w).trans (and_congr_left fun _ => this w),
        fun w => (h4 w).trans (and_congr_left fun _ => this w)⟩

namespace LInv
variable {g : OrdGraph} {S : SGraph} {ord : List ℕ}

theorem get (H : LInv g S ord) {u : ℕ} (hu : u ∈ ord) : g.indices.get? u = some (ord.idxOf u) :=
  (H.idx u _).2 (by rw [List.getElem?_eq_getElem (List.idxOf_lt_length_of_mem hu), List.getElem_idxOf])

theorem get_none (H : LInv g S ord) {u : ℕ} (hu : u ∉ ord) : g.indices.get? u = none := by
  cases h : g.indices.get? u with
  | none => rfl
  | some i => exact absurd (List.mem_of_getElem? ((H.idx u i).1 h)) hu

theorem contains (H : LInv g S ord) (u : ℕ) : g.indices.contains u = true ↔ u ∈ ord := by
  by_cases hu : u ∈ ord
  · simp [HMap.contains, H.get hu, hu]
  · simp [HMap.contains, H.get_none hu, hu]

theorem node (H : LInv g S ord) {u : ℕ} (hu : u ∈ ord) : ∃ n, g.nodes[ord.idxOf u]? = some n ∧ n.v = u ∧
    (∀ w, w ∈ n.left ↔ S.Adj u w ∧ ord.idxOf w ≤ ord.idxOf u) ∧
    (∀ w, w ∈ n.right ↔ S.Adj u w ∧ ord.idxOf u ≤ ord.idxOf w) :=
  H.nodes.node _ u ((H.idx u _).1 (H.get hu))

theorem vertices (H : LInv g S ord) : g.nodes.map OrdNode.v = ord := by
  apply List.ext_getElem?
  intro i
  rw [List.getElem?_map]
  cases h : ord[i]? with
  | some x =>
    obtain ⟨n, h1, h2, -⟩ := H.nodes.node i x h
    rw [h1, Option.map_some, h2]
  | none =>
    rw [List.getElem?_eq_none_iff, ← H.nodes.len, ← List.getElem?_eq_none_iff] at h
    rw [h]; rfl

theorem sortByIndex (H : LInv g S ord) {l : List ℕ} (hn : l.Nodup) (hl : ∀ a ∈ l, a ∈ ord) :
    ∃ r, g.sortByIndex l = .ok r ∧ r.Pairwise (fun a b => ord.idxOf a < ord.idxOf b) ∧ ∀ w, w ∈ r ↔ w ∈ l := by
  unfold OrdGraph.sortByIndex
  rw [EditGraph.mapM_ok (h := fun v => (ord.idxOf v, v)) (fun a ha => by rw [H.get (hl a ha)]; rfl)]
  obtain ⟨h1, h2⟩ := sortBy_spec (f := fun v => ord.idxOf v) hn
    (fun a ha b hb he => (List.idxOf_inj (hl a ha)).1 he)
  exact ⟨_, rfl, h1, h2⟩

theorem leftNeighbours (H : LInv g S ord) {u : ℕ} (hu : u ∈ ord) : ∃ l, g.leftNeighbours u = .ok l ∧
    l.Pairwise (fun a b => ord.idxOf a < ord.idxOf b) ∧ ∀ w, w ∈ l ↔ S.Adj u w ∧ ord.idxOf w ≤ ord.idxOf u := by
  obtain ⟨n, h1, -, h3, -⟩ := H.node hu
  obtain ⟨r, h5, h6, h7⟩ := H.sortByIndex n.left.nodup (fun a ha => H.within _ _ ((h3 a).1 ha).1.symm)
  refine ⟨r, ?_, h6, fun w => by rw [h7]; exact h3 w⟩
  unfold OrdGraph.leftNeighbours OrdGraph.indexOf
  rw [H.get hu]
  simp only [unwrap_some, bind_ok, h1, h5]

theorem rightNeighbours (H : LInv g S ord) {u : ℕ} (hu : u ∈ ord) : ∃ l, g.rightNeighbours u = .ok l ∧
    l.Pairwise (fun a b => ord.idxOf a < ord.idxOf b) ∧ ∀ w, w ∈ l ↔ S.Adj u w ∧ ord.idxOf u ≤ ord.idxOf w := by
  obtain ⟨n, h1, -, -, h3⟩ := H.node hu
  obtain ⟨r, h5, h6, h7⟩ := H.sortByIndex n.right.nodup (fun a ha => H.within _ _ ((h3 a).1 ha).1.symm)
  refine ⟨r, ?_, h6, fun w => by rw [h7]; exact h3 w⟩
  unfold OrdGraph.rightNeighbours
  rw [H.get hu]
  simp only [unwrap_some, bind_ok, h1, h5]

theorem adjacent (H : LInv g S ord) (u v : ℕ) : g.adjacent u v = .ok (decide (S.Adj u v)) := by
  unfold OrdGraph.adjacent
  by_cases hu : u ∈ ord
  · obtain ⟨n, h1, -, h3, h4⟩ := H.node hu
    rw [H.get hu]
    simp only [h1, unwrap_some, bind_ok, pure_eq_ok, Except.ok.injEq]
    rw [HSet.contains_eq, HSet.contains_eq, ← Bool.decide_or]
    refine decide_eq_decide.2 ?_
    rw [h3, h4, ← and_or_left]
    exact ⟨And.left, fun h => ⟨h, Nat.le_total _ _⟩⟩
  · rw [H.get_none hu]
    simp only [Except.ok.injEq]
    exact (decide_eq_false fun h => hu (H.within _ _ h)).symm

theorem neighbours (H : LInv g S ord) {u : ℕ} (hu : u ∈ ord) : ∃ l, g.neighbours u = .ok l ∧
    ∀ w, l.count w = if S.Adj u w then (if w = u then 2 else 1) else 0 := by
  obtain ⟨n, h1, -, h3, h4⟩ := H.node hu
  refine ⟨n.neighbours, ?_, fun w => ?_⟩
  · unfold OrdGraph.neighbours
    rw [H.get hu]
    simp only [h1, unwrap_some, bind_ok, pure_eq_ok]
  · unfold OrdNode.neighbours
    rw [List.count_append, n.left.nodup.count, n.right.nodup.count]
    simp only [HSet.mem_toList, h3, h4]
    by_cases hw : S.Adj u w
    · by_cases he : w = u
      · subst he; simp [hw]
      · have hne : ord.idxOf w ≠ ord.idxOf u := fun h => he ((List.idxOf_inj (H.within _ _ hw.symm)).1 h)
        rw [if_pos hw, if_neg he]
        by_cases hlt : ord.idxOf w ≤ ord.idxOf u
        · rw [if_pos ⟨hw, hlt⟩, if_neg (fun h => by have := h.2; omega)]
        · rw [if_neg (fun h => hlt h.2), if_pos ⟨hw, by omega⟩]
    · simp [hw]

theorem degree (H : LInv g S ord) {u : ℕ} (hu : u ∈ ord) : g.degree u = .ok (S.deg u) := by
  obtain ⟨n, h1, -, h3, h4⟩ := H.node hu
  have e1 : n.left.len = ((S.nbrs u).filter (fun w => ord.idxOf w ≤ ord.idxOf u)).card :=
    HSet.len_of_mem_iff fun a => by rw [h3, Finset.mem_filter, SGraph.mem_nbrs]
  have e2 : n.right.len = ((S.nbrs u).filter (fun w => ¬ ord.idxOf w ≤ ord.idxOf u)).card + if S.Adj u u then 1 else 0 := by
    rw [HSet.len_of_mem_iff (s := n.right) (T := (S.nbrs u).filter (fun w => ord.idxOf u ≤ ord.idxOf w))
      (fun a => by rw [h4, Finset.mem_filter, SGraph.mem_nbrs])]
    have hs : (S.nbrs u).filter (fun w => ord.idxOf u ≤ ord.idxOf w) =
        (S.nbrs u).filter (fun w => ¬ ord.idxOf w ≤ ord.idxOf u) ∪ if S.Adj u u then {u} else ∅ := by
      ext w
      rw [Finset.mem_union, Finset.mem_filter, Finset.mem_filter, SGraph.mem_nbrs]
      constructor
      · rintro ⟨hw, hle⟩
        by_cases he : ord.idxOf w ≤ ord.idxOf u
        · have : u = w := (List.idxOf_inj hu).1 (le_antisymm hle he)
          subst this
          rw [if_pos hw]; simp
        · exact .inl ⟨hw, he⟩
      · rintro (⟨hw, hlt⟩ | hw)
        · exact ⟨hw, by omega⟩
        · split at hw
          · rw [Finset.mem_singleton] at hw
            subst hw
            exact ⟨by assumption, le_rfl⟩
          · simp at hw
    rw [hs, Finset.card_union_of_disjoint]
    · congr 1
      split <;> simp
    · rw [Finset.disjoint_left]
      intro w hw hw'
      split at hw'
      · rw [Finset.mem_singleton] at hw'
        subst hw'
        exact (Finset.mem_filter.1 hw).2 le_rfl
      · simp at hw'
  unfold OrdGraph.degree
  rw [H.get hu]
  simp only [h1, unwrap_some, bind_ok, pure_eq_ok]
  have := Finset.card_filter_add_card_filter_not (s := S.nbrs u) (fun w => ord.idxOf w ≤ ord.idxOf u)
  rw [SGraph.deg_eq, e1, e2]
  congr 1
  omega

end LInv
end OrdGraph

namespace DegenGraph
variable {G : Graph} {S : SGraph} {ord : List ℕ}

/-- Body of the loop of `with_ordering`. -/
def orderStep (G : Graph) (ord : List ℕ) (b : DegenBuilder) (u : ℕ) : Res DegenBuilder := do
  let iu ← unwrap ((HMap.ofList ord.zipIdx : HMap ℕ ℕ).get? u)
  let N ← G.neighbours u
  let L ← leftPairs (HMap.ofList ord.zipIdx) iu N
  b.append u ((L.insertionSort pairLe).map Prod.snd)

/-- Neighbours of `u` with smaller last position, sorted by last position. -/
def IsEarlier (S : SGraph) (ord : List ℕ) (u : ℕ) (l : List ℕ) : Prop :=
  l.Pairwise (fun a b => lastIdx ord a < lastIdx ord b) ∧ ∀ w, w ∈ l ↔ S.Adj u w ∧ lastIdx ord w < lastIdx ord u

theorem IsEarlier.length {u : ℕ} {l : List ℕ} (h : IsEarlier S ord u l) : l.length ≤ (S.nbrs u).card := by
  have hn : l.Nodup := h.1.imp fun h he => absurd h (by rw [he]; omega)
  rw [← List.toFinset_card_of_nodup hn]
  refine Finset.card_le_card fun w hw => ?_
  rw [SGraph.mem_nbrs]
  exact ((h.2 w).1 (List.mem_toFinset.1 hw)).1

theorem orderStep_ok (hG : G.Rep S) {u : ℕ} (hu : u ∈ ord) (huV : u ∈ S.V) (hN : ∀ v, S.Adj u v → v ∈ ord) :
    ∃ l, IsEarlier S ord u l ∧ ∀ b, orderStep G ord b u = b.append u l := by
  obtain ⟨N, h1, h2, h3⟩ := hG.nbrs u huV
  have hn := h2.filter (fun v => decide (lastIdx ord v < lastIdx ord u))
  have hmem : ∀ v, v ∈ N.filter (fun v => decide (lastIdx ord v < lastIdx ord u)) ↔
      S.Adj u v ∧ lastIdx ord v < lastIdx ord u := by
    intro v; rw [List.mem_filter, h3, decide_eq_true_eq]
  have hstep : ∀ b, orderStep G ord b u = b.append u ((((N.filter (fun v => decide (lastIdx ord v < lastIdx ord u))).map
      (fun v => (lastIdx ord v, v))).insertionSort pairLe).map Prod.snd) := by
    intro b
    unfold orderStep
    rw [get?_positions_last, if_pos hu, h1]
    simp only [unwrap_some, bind_ok]
    rw [leftPairs_spec (f := lastIdx ord) (fun v hv => by
      rw [get?_positions_last, if_pos (hN v ((h3 v).1 hv))])]
    rfl
  refine ⟨_, ?_, hstep⟩
  generalize N.filter (fun v => decide (lastIdx ord v < lastIdx ord u)) = l at hn hmem
  have hp := List.perm_insertionSort pairLe (l.map (fun v => (lastIdx ord v, v)))
  have i1 : Std.Total pairLe := ⟨fun a b => by unfold pairLe; omega⟩
  have i2 : IsTrans (ℕ × ℕ) pairLe := ⟨fun a b c => by unfold pairLe; omega⟩
  have hs := List.pairwise_insertionSort pairLe (l.map (fun v => (lastIdx ord v, v)))
  generalize (l.map (fun v => (lastIdx ord v, v))).insertionSort pairLe = r at hp hs
  have hr : ∀ p ∈ r, p.1 = lastIdx ord p.2 ∧ p.2 ∈ l := by
    intro p hpr
    have := hp.mem_iff.1 hpr
    rw [List.mem_map] at this
    obtain ⟨v, hv, rfl⟩ := this
    exact ⟨rfl, hv⟩
  have hp2 : (r.map Prod.snd).Perm l := by
    have := hp.map Prod.snd
    rwa [List.map_map, show (Prod.snd ∘ fun v => (lastIdx ord v, v)) = id from rfl, List.map_id] at this
  refine ⟨?_, fun w => hp2.mem_iff.trans (hmem w)⟩
  have hnd : (r.map Prod.snd).Nodup := hp2.nodup_iff.2 hn
  rw [List.pairwise_map]
  unfold List.Nodup at hnd
  rw [List.pairwise_map] at hnd
  refine (hs.and hnd).imp_of_mem ?_
  rintro a b ha hb ⟨h1, h2⟩
  unfold pairLe at h1
  rw [(hr a ha).1, (hr b hb).1] at h1
  have : lastIdx ord a.2 ≠ lastIdx ord b.2 := fun h =>
    h2 (lastIdx_inj (hN _ ((hmem _).1 (hr a ha).2).1) (hN _ ((hmem _).1 (hr b hb).2).1) h)
  omega

theorem orderStep_bad (hG : G.Rep S) (hmiss : ∀ u, u ∉ S.V → G.neighbours u = .error .panic) {u : ℕ} (hu : u ∈ ord)
    (h : u ∉ S.V ∨ ∃ v, S.Adj u v ∧ v ∉ ord) (b : DegenBuilder) : orderStep G ord b u = .error .panic := by
  unfold orderStep
  rw [get?_positions_last, if_pos hu, unwrap_some, bind_ok]
  by_cases huV : u ∈ S.V
  · obtain ⟨v, huv, hv⟩ := h.resolve_left (fun h => h huV)
    obtain ⟨N, h1, h2, h3⟩ := hG.nbrs u huV
    rw [h1, bind_ok]
    have : leftPairs (HMap.ofList ord.zipIdx) (lastIdx ord u) N = .error .panic := by
      unfold leftPairs
      refine foldlM_panics (fun _ _ => True) N [] [] rfl trivial ?_ ⟨v, (h3 v).2 huv, fun L => ?_⟩
      · rintro _ w _ L - -
        rw [get?_positions_last]
        by_cases hw : w ∈ ord
        · right
          rw [if_pos hw, unwrap_some, bind_ok]
          split <;> exact ⟨_, rfl, trivial⟩
        · left; rw [if_neg hw]; rfl
      · rw [get?_positions_last, if_neg hv]; rfl
    rw [this]; rfl
  · rw [hmiss u huV]; rfl

/-- `with_ordering` for every graph and every list. -/
theorem withOrdering_all (hG : G.Rep S) (hmiss : ∀ u, u ∉ S.V → G.neighbours u = .error .panic)
    (hsz : 3 * ord.length + (ord.map (fun u => (S.nbrs u).card)).sum ≤ 2 ^ 32) :
    ((∃ u ∈ ord, u ∉ S.V ∨ ∃ v, S.Adj u v ∧ v ∉ ord) → withOrdering G ord = .error .panic) ∧
    ((∀ u ∈ ord, u ∈ S.V ∧ ∀ v, S.Adj u v → v ∈ ord) → Ok (withOrdering G ord) (fun g => ∃ bs l, RInv ⟨l, g⟩ bs ∧
      bs.map Prod.fst = ord ∧ ∀ e ∈ bs, IsEarlier S ord e.1 e.2)) := by
  have unf : withOrdering G ord = (do let b ← ord.foldlM (orderStep G ord) DegenBuilder.new; return b.build) := rfl
  rw [unf]
  have size : ∀ (bs : List (ℕ × List ℕ)) (post : List ℕ), ord = bs.map Prod.fst ++ post → (∀ e ∈ bs, IsEarlier S ord e.1 e.2) →
      off bs ≤ 2 ^ 32 := by
    intro bs post ho he
    have : off bs ≤ 3 * (bs.map Prod.fst).length + ((bs.map Prod.fst).map (fun u => (S.nbrs u).card)).sum := by
      clear ho
      induction bs with
      | nil => simp [off]
      | cons e bs ih =>
        have := ih (fun e' h => he e' (List.mem_cons_of_mem _ h))
        have h2 := (he e (by simp)).length
        rw [off_cons, bsize]
        simp only [List.map_cons, List.length_cons, List.sum_cons]
        omega
    rw [ho, List.map_append, List.sum_append, List.length_append] at hsz
    omega
  have step : ∀ pre u post b, ord = pre ++ u :: post → u ∈ S.V → (∀ v, S.Adj u v → v ∈ ord) →
      (∃ bs, RInv b bs ∧ bs.map Prod.fst = pre ∧ ∀ e ∈ bs, IsEarlier S ord e.1 e.2) →
      Ok (orderStep G ord b u) (fun b => ∃ bs, RInv b bs ∧ bs.map Prod.fst = pre ++ [u] ∧ ∀ e ∈ bs, IsEarlier S ord e.1 e.2) := by
    rintro pre u post b ho hu hv ⟨bs, I, h1, h2⟩
    obtain ⟨l, h3, h4⟩ := orderStep_ok hG (ord := ord) (by rw [ho]; simp) hu hv
    have h5 : ∀ e ∈ bs ++ [(u, l)], IsEarlier S ord e.1 e.2 := by
      intro e he
      rcases List.mem_append.1 he with he | he
      · exact h2 e he
      · rw [List.mem_singleton] at he; subst he; exact h3
    have h6 : (bs ++ [(u, l)]).map Prod.fst = pre ++ [u] := by simp [h1]
    rw [h4]
    exact (I.append (size _ post (by rw [h6, ho]; simp) h5)).mono fun b' hb' => ⟨_, hb', h6, h5⟩
  constructor
  · rintro ⟨u, hu, hbad⟩
    have : ord.foldlM (orderStep G ord) DegenBuilder.new = .error .panic := by
      refine foldlM_panics (fun pre b => ∃ bs, RInv b bs ∧ bs.map Prod.fst = pre ∧ ∀ e ∈ bs, IsEarlier S ord e.1 e.2)
        ord [] _ rfl ⟨[], RInv.new, rfl, by simp⟩ ?_ ⟨u, hu, orderStep_bad hG hmiss hu hbad⟩
      intro pre a post b ho hb
      have ho : ord = pre ++ a :: post := ho
      by_cases ha : a ∉ S.V ∨ ∃ v, S.Adj a v ∧ v ∉ ord
      · exact .inl (orderStep_bad hG hmiss (by rw [ho]; simp) ha b)
      · push Not at ha
        exact .inr (step pre a post b ho ha.1 ha.2 hb)
    rw [this]; rfl
  · intro hin
    refine Ok.bind (Ok.foldlM (fun pre b => ∃ bs, RInv b bs ∧ bs.map Prod.fst = pre ∧ ∀ e ∈ bs, IsEarlier S ord e.1 e.2)
      ⟨[], RInv.new, rfl, by simp⟩ ?_) ?_
    · intro pre a post b ho hb
      have := hin a (by rw [ho]; simp)
      exact step pre a post b ho this.1 this.2 hb
    · rintro b ⟨bs, h1, h2, h3⟩
      exact Ok.pure ⟨bs, b.lastIndex, h1, h2, h3⟩

end DegenGraph

namespace DTFGraph

/-- `D` is the orientation of `S` along the order `ord`, with the loops. -/
def LOriented (S : SGraph) (ord : List ℕ) (A : Arcs) : Prop :=
  ∀ u v w, (u, v, w) ∈ A ↔ w = 1 ∧ S.Adj u v ∧ ord.idxOf u ≤ ord.idxOf v

theorem orientArc_any {indices : HMap ℕ ℕ} {V : Finset ℕ} {A : Arcs} {H : DTFGraph} (ha : Abs H V A) {u v iv : ℕ} :
    (indices.get? u = none → orientArc indices v iv H u = .error .panic) ∧
    ∀ iu, indices.get? u = some iu → Ok (orientArc indices v iv H u) (fun H' => Abs H' (insert u (insert v V))
      (insert (if iu < iv then (u, v, 1) else (v, u, 1)) A) ∧ H'.depth = 1) := by
  unfold orientArc
  constructor
  · intro h; rw [h]; rfl
  · intro iu h
    rw [h, unwrap_some, bind_ok]
    split
    · exact ha.addArc (le_refl 1) (by omega) u v
    · rw [Finset.insert_comm]
      exact ha.addArc (le_refl 1) (by omega) v u

theorem orient_missing {G : Graph} {S : SGraph} (hG : G.Rep S) {σ : ℕ → Shuffle ℕ} {lo up : ℕ} {ord : List ℕ} {core : HMap ℕ ℕ}
    (h : G.degeneracy σ = .ok (lo, up, ord, core)) (hv : ∃ v ∈ S.V, v ∉ ord) : orient σ G = .error .panic := by
  unfold orient
  rw [h, bind_ok]
  show G.vertices.foldlM (orientVertex G (HMap.ofList ord.zipIdx)) new = _
  obtain ⟨N, hN, hNn, hNm⟩ := hG.exists_nbrs
  have hnone : ∀ {v}, v ∉ ord → (HMap.ofList ord.zipIdx : HMap ℕ ℕ).get? v = none := fun hv => by
    rw [get?_positions_last, if_neg hv]
  obtain ⟨v, hvV, hv⟩ := hv
  refine foldlM_panics (fun pre D => (∀ x ∈ pre, x ∈ ord) ∧ ∃ V A, Abs D V A) G.vertices [] _ rfl ⟨by simp, ∅, ∅, abs_new⟩ ?_
    ⟨v, (hG.vmem v).2 hvV, fun D => ?_⟩
  · rintro pre x post D hs ⟨hpre, V, A, hA⟩
    have hs : G.vertices = pre ++ x :: post := hs
    have hx : x ∈ S.V := (hG.vmem x).1 (by rw [hs]; simp)
    unfold orientVertex
    rw [hN x hx, bind_ok, get?_positions_last]
    by_cases hxo : x ∈ ord
    · rw [if_pos hxo, unwrap_some, bind_ok]
      by_cases hall : ∀ w ∈ N x, w ∈ ord
      · right
        refine (Ok.foldlM (fun _ D' => ∃ V A, Abs D' V A) ⟨_, A, hA.addVertex x⟩ ?_).mono fun D' h' => ⟨?_, h'⟩
        · rintro pre' w post' D' hs' ⟨V', A', hA'⟩
          refine ((orientArc_any hA').2 _ (by rw [get?_positions_last, if_pos (hall w (by rw [hs']; simp))])).mono ?_
          exact fun D'' h'' => ⟨_, _, h''.1⟩
        · intro y hy
          rcases List.mem_append.1 hy with hy | hy
          · exact hpre y hy
          · rw [List.mem_singleton] at hy; exact hy ▸ hxo
      · left
        push Not at hall
        obtain ⟨w, hw, hwo⟩ := hall
        refine foldlM_panics (fun _ D' => ∃ V A, Abs D' V A) (N x) [] _ rfl ⟨_, A, hA.addVertex x⟩ ?_ ⟨w, hw, fun D' => ?_⟩
        · rintro pre' y post' D' hs' ⟨V', A', hA'⟩
          by_cases hy : y ∈ ord
          · exact .inr (((orientArc_any hA').2 _ (by rw [get?_positions_last, if_pos hy])).mono fun D'' h'' => ⟨_, _, h''.1⟩)
          · exact .inl ((orientArc_any hA').1 (hnone hy))
        · unfold orientArc; rw [hnone hwo]; rfl
    · left; rw [if_neg hxo]; rfl
  · unfold orientVertex
    rw [hN v hvV, bind_ok, hnone hv]; rfl

theorem orient_loops {G : Graph} {S : SGraph} (hG : G.Rep S) {σ : ℕ → Shuffle ℕ} {lo up : ℕ} {ord : List ℕ} {core : HMap ℕ ℕ}
    (h : G.degeneracy σ = .ok (lo, up, ord, core)) (hn : ord.Nodup) (hm : ∀ u, u ∈ ord ↔ u ∈ S.V) :
    ∃ D A, orient σ G = .ok D ∧ Abs D S.V A ∧ D.depth = 1 ∧ LOriented S ord A := by
  obtain ⟨N, hN, hNn, hNm⟩ := hG.exists_nbrs
  have hget : ∀ {v}, v ∈ S.V → (HMap.ofList ord.zipIdx : HMap ℕ ℕ).get? v = some (ord.idxOf v) := fun {v} hv => by
    have hv := (hm v).2 hv
    rw [get?_positions_last, if_pos hv, lastIdx_nodup hn hv]
  have main : Ok (G.vertices.foldlM (orientVertex G (HMap.ofList ord.zipIdx)) new) (fun D => ∃ V A, Abs D V A ∧ D.depth = 1 ∧
      V ⊆ S.V ∧ (∀ e ∈ A, e.2.2 = 1 ∧ S.Adj e.1 e.2.1 ∧ ord.idxOf e.1 ≤ ord.idxOf e.2.1) ∧ (∀ v ∈ G.vertices, v ∈ V ∧
        ∀ u, S.Adj v u → ((u, v, 1) ∈ A ∨ (v, u, 1) ∈ A))) := by
    refine Ok.foldlM (fun (pre : List ℕ) (D : DTFGraph) => ∃ V A, Abs D V A ∧ D.depth = 1 ∧
      V ⊆ S.V ∧ (∀ e ∈ A, e.2.2 = 1 ∧ S.Adj e.1 e.2.1 ∧ ord.idxOf e.1 ≤ ord.idxOf e.2.1) ∧ (∀ v ∈ pre, v ∈ V ∧
        ∀ u, S.Adj v u → ((u, v, 1) ∈ A ∨ (v, u, 1) ∈ A))) ?_ ?_
    · exact ⟨∅, ∅, abs_new, rfl, by simp, by simp, by simp⟩
    · rintro pre v post D hsp ⟨V, A, ha, hd, hV, hs', hp⟩
      have hvS : v ∈ S.V := (hG.vmem v).1 (by rw [hsp]; simp)
      unfold orientVertex
      rw [hN v hvS, bind_ok, hget hvS, unwrap_some, bind_ok]
      have inner := Ok.foldlM (f := orientArc (HMap.ofList ord.zipIdx) v (ord.idxOf v)) (l := N v) (b := D.addVertex v)
        (fun (pre' : List ℕ) (D' : DTFGraph) => ∃ V' A', Abs D' V' A' ∧ D'.depth = 1 ∧ V' ⊆ S.V ∧ v ∈ V' ∧ V ⊆ V' ∧ A ⊆ A' ∧
          (∀ e ∈ A', e.2.2 = 1 ∧ S.Adj e.1 e.2.1 ∧ ord.idxOf e.1 ≤ ord.idxOf e.2.1) ∧
          (∀ u ∈ pre', (u, v, 1) ∈ A' ∨ (v, u, 1) ∈ A')) ?_ ?_
      · refine inner.mono ?_
        rintro D' ⟨V', A', h1, h2, h3, h4, h5, h6, h7, h8⟩
        refine ⟨V', A', h1, h2, h3, h7, fun x hx => ?_⟩
        rw [List.mem_append, List.mem_singleton] at hx
        rcases hx with hx | rfl
        · refine ⟨h5 (hp x hx).1, fun u hu => ?_⟩
          rcases (hp x hx).2 u hu with h | h
          · exact Or.inl (h6 h)
          · exact Or.inr (h6 h)
        · exact ⟨h4, fun u hu => h8 u ((hNm x hvS u).2 hu)⟩
      · refine ⟨_, A, ha.addVertex v, by rw [Abs.addVertex_depth]; exact hd, ?_, Finset.mem_insert_self _ _,
          Finset.subset_insert _ _, Finset.Subset.refl _, hs', by simp⟩
        intro x hx
        rcases Finset.mem_insert.1 hx with rfl | hx
        · exact hvS
        · exact hV hx
      · rintro pre' u post' D' hsp' ⟨V', A', h1, h2, h3, h4, h5, h6, h7, h8⟩
        have hu : S.Adj v u := (hNm v hvS u).1 (by rw [hsp']; simp)
        refine ((orientArc_any h1).2 _ (hget hu.right)).mono ?_
        rintro D'' ⟨k1, k2⟩
        refine ⟨_, _, k1, k2, ?_, by simp [h4], fun x hx => ?_, fun x hx => Finset.mem_insert_of_mem (h6 hx), ?_, fun x hx => ?_⟩
        · intro x hx
          simp only [Finset.mem_insert] at hx
          rcases hx with rfl | rfl | hx
          · exact hu.right
          · exact hvS
          · exact h3 hx
        · exact Finset.mem_insert_of_mem (Finset.mem_insert_of_mem (h5 hx))
        · intro e he
          rcases Finset.mem_insert.1 he with rfl | he
          · by_cases hlt : ord.idxOf u < ord.idxOf v
            · rw [if_pos hlt]; exact ⟨rfl, hu.symm, hlt.le⟩
            · rw [if_neg hlt]; exact ⟨rfl, hu, by simp only; omega⟩
          · exact h7 e he
        · rw [List.mem_append, List.mem_singleton] at hx
          rcases hx with hx | rfl
          · rcases h8 x hx with h | h
            · exact Or.inl (Finset.mem_insert_of_mem h)
            · exact Or.inr (Finset.mem_insert_of_mem h)
          · by_cases hlt : ord.idxOf x < ord.idxOf v
            · rw [if_pos hlt]; exact Or.inl (Finset.mem_insert_self _ _)
            · rw [if_neg hlt]; exact Or.inr (Finset.mem_insert_self _ _)
  obtain ⟨D, hD, V, A, ha, hd, hV, hs', hp⟩ := main
  have hVe : V = S.V := Finset.Subset.antisymm hV fun x hx => (hp x ((hG.vmem x).2 hx)).1
  subst hVe
  refine ⟨D, A, ?_, ha, hd, fun u v w => ⟨fun h => hs' _ h, ?_⟩⟩
  · unfold orient
    rw [h, bind_ok]
    exact hD
  · rintro ⟨rfl, hadj, hle⟩
    rcases (hp u ((hG.vmem u).2 hadj.left)).2 v hadj with h | h
    · have h2 := (hs' _ h).2.2
      simp only at h2
      have : u = v := (List.idxOf_inj ((hm u).2 hadj.left)).1 (le_antisymm hle h2)
      subst this
      exact h
    · exact h

end DTFGraph
end Verif
