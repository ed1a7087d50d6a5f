import Verif.Lemmas.Operations
import Verif.Spec.Subdivision
/-! # Lemmas about `subdivide` -/
namespace Verif
open EditGraph

theorem pathPos_succ {u v s n j : ℕ} : pathPos u v s (n + 1) (j + 1) = pathPos s v (s + 1) n j := by
  unfold pathPos
  by_cases h0 : j = 0
  · subst h0; simp
  · by_cases h1 : j ≤ n
    · simp [h0, h1]; omega
    · simp [h0, h1]

@[simp] theorem pathPos_zero {u v s n : ℕ} : pathPos u v s n 0 = u := rfl

/-- Edges along a path. -/
def PathAdj (u v s n a c : ℕ) : Prop := ∃ j ≤ n, (a = pathPos u v s n j ∧ c = pathPos u v s n (j + 1)) ∨
  (a = pathPos u v s n (j + 1) ∧ c = pathPos u v s n j)

theorem pathAdj_zero {u v s a c : ℕ} : PathAdj u v s 0 a c ↔ (a = u ∧ c = v) ∨ (a = v ∧ c = u) := by
  unfold PathAdj
  constructor
  · rintro ⟨j, hj, h⟩
    obtain rfl : j = 0 := by omega
    simpa [pathPos] using h
  · intro h
    exact ⟨0, le_refl _, by simpa [pathPos] using h⟩

theorem pathAdj_succ {u v s n a c : ℕ} : PathAdj u v s (n + 1) a c ↔
    ((a = u ∧ c = s) ∨ (a = s ∧ c = u)) ∨ PathAdj s v (s + 1) n a c := by
  unfold PathAdj
  constructor
  · rintro ⟨j, hj, h⟩
    cases j with
    | zero => left; simpa [pathPos] using h
    | succ j =>
      right
      rw [pathPos_succ, pathPos_succ] at h
      exact ⟨j, by omega, h⟩
  · rintro (h | ⟨j, hj, h⟩)
    · exact ⟨0, by omega, by simpa [pathPos] using h⟩
    · exact ⟨j + 1, by omega, by rw [pathPos_succ, pathPos_succ]; exact h⟩

namespace Graph.Rep
variable {G : Graph} {S : SGraph}

theorem subdivideEdge (v : ℕ) (n : ℕ) : ∀ (last s : ℕ) (res : EditGraph) (S₀ : SGraph),
    (∀ k < n, G.contains (s + k) = false) → Abs res S₀ → Ok (G.subdivideEdge v n last s res) (fun r =>
      ∃ S', Abs r S' ∧ (∀ w, w ∈ S'.V ↔ w ∈ S₀.V ∨ w = last ∨ w = v ∨ (s ≤ w ∧ w < s + n)) ∧
      (∀ a c, S'.Adj a c ↔ S₀.Adj a c ∨ PathAdj last v s n a c) ∧
      (last ∈ S₀.V → v ∈ S₀.V → (∀ k < n, s + k ∉ S₀.V) → (n = 0 → ¬ S₀.Adj last v) → (n = 1 → last ≠ v) →
        S'.E.card = S₀.E.card + (n + 1))) := by
  induction n with
  | zero =>
    intro last s res S₀ _ H
    unfold Graph.subdivideEdge
    refine Ok.bind (H.addEdge last v) fun r hr => Ok.pure ⟨_, hr.1, fun w => ?_, fun a c => ?_, ?_⟩
    · simp only [SGraph.addEdge_V, Finset.mem_insert]
      constructor
      · rintro (h | h | h) <;> simp [h]
      · rintro (h | h | h | h)
        · exact Or.inr (Or.inr h)
        · exact Or.inl h
        · exact Or.inr (Or.inl h)
        · omega
    · rw [SGraph.addEdge_adj, pathAdj_zero, or_comm]
    · intro _ _ _ h _
      rw [SGraph.card_addEdge (h rfl)]
  | succ n ih =>
    intro last s res S₀ hs H
    unfold Graph.subdivideEdge
    have h0 : G.contains s = false := by simpa using hs 0 (by omega)
    simp only [assertR, h0, Bool.not_false, if_true, bind_ok]
    refine Ok.bind (H.addEdge last s) fun r hr => ?_
    refine Ok.mono (ih s (s + 1) r.1 _ (fun k hk => ?_) hr.1) ?_
    · have := hs (k + 1) (by omega)
      rwa [show s + (k + 1) = s + 1 + k by omega] at this
    · rintro r' ⟨S', H', hV, hA, hC⟩
      refine ⟨S', H', fun w => ?_, fun a c => ?_, ?_⟩
      · rw [hV]
        simp only [SGraph.addEdge_V, Finset.mem_insert]
        constructor
        · rintro ((h | h | h) | h | h | h)
          · exact Or.inr (Or.inl h)
          · exact Or.inr (Or.inr (Or.inr (by omega)))
          · exact Or.inl h
          · exact Or.inr (Or.inr (Or.inr (by omega)))
          · exact Or.inr (Or.inr (Or.inl h))
          · exact Or.inr (Or.inr (Or.inr (by omega)))
        · rintro (h | h | h | h)
          · exact Or.inl (Or.inr (Or.inr h))
          · exact Or.inl (Or.inl h)
          · exact Or.inr (Or.inr (Or.inl h))
          · by_cases hw : w = s
            · exact Or.inl (Or.inr (Or.inl hw))
            · exact Or.inr (Or.inr (Or.inr (by omega)))
      · rw [hA, SGraph.addEdge_adj, pathAdj_succ]
        constructor
        · rintro ((h | h) | h)
          · exact Or.inr (Or.inl h)
          · exact Or.inl h
          · exact Or.inr (Or.inr h)
        · rintro (h | h | h)
          · exact Or.inl (Or.inr h)
          · exact Or.inl (Or.inl h)
          · exact Or.inr h
      · intro hl hv hf _ h1
        have hs0 : s ∉ S₀.V := by simpa using hf 0 (by omega)
        have hvs : v ≠ s := fun h => hs0 (h ▸ hv)
        have hls : last ≠ s := fun h => hs0 (h ▸ hl)
        have hna : ¬ S₀.Adj last s := fun h => hs0 h.right
        have hc := SGraph.card_addEdge hna
        rw [hC (by simp) (by simp [hv]) ?_ ?_ ?_, hc]
        · omega
        · intro k hk
          have := hf (k + 1) (by omega)
          rw [show s + (k + 1) = s + 1 + k by omega] at this
          simp only [SGraph.addEdge_V, Finset.mem_insert, not_or]
          refine ⟨fun h => ?_, by omega, this⟩
          rw [h] at this; exact this hl
        · intro hn hadj
          rw [SGraph.addEdge_adj] at hadj
          rcases hadj with (⟨h, -⟩ | ⟨-, h⟩) | h
          · exact hls h.symm
          · exact h1 (by omega) h.symm
          · exact hs0 h.left
        · intro _ h; exact hvs h.symm

theorem subdivide_init (hG : G.Rep S) : ∃ r k,
    G.vertices.foldl (fun (s : EditGraph × Vertex) u => ((s.1.addVertex u).1, max s.2 u)) (EditGraph.new, 0) = (r, k) ∧
      Is r (· ∈ S.V) (fun _ _ => False) ∧ (∀ v ∈ S.V, v ≤ k) ∧ (k ∈ S.V ∨ S.V = ∅ ∧ k = 0) := by
  have key : ∀ (l : List Vertex) (r : EditGraph) (k : ℕ) (P : ℕ → Prop), Is r P (fun _ _ => False) →
      ∃ r' k', l.foldl (fun (s : EditGraph × Vertex) u => ((s.1.addVertex u).1, max s.2 u)) (r, k) = (r', k') ∧
        Is r' (fun w => P w ∨ w ∈ l) (fun _ _ => False) ∧ (∀ v : ℕ, v ∈ l → v ≤ k') ∧ k ≤ k' ∧ (k' ∈ l ∨ k' = k) := by
    intro l
    induction l with
    | nil => intro r k P h; exact ⟨r, k, rfl, h.congr (by simp) (by simp), by simp, le_refl _, Or.inr rfl⟩
    | cons a l ih =>
      intro r k P h
      obtain ⟨r', k', h1, h2, h3, h4, h5⟩ := ih _ (max k a) _ (h.addVertex a)
      refine ⟨r', k', h1, h2.congr (fun w => ?_) (by simp), ?_, le_trans (le_max_left k a) h4, ?_⟩
      · simp only [List.mem_cons, or_assoc]
      · intro v hv
        rcases List.mem_cons.1 hv with rfl | hv
        · exact le_trans (le_max_right k v) h4
        · exact h3 v hv
      · rcases h5 with h5 | h5
        · exact Or.inl (by simp [h5])
        · rcases le_total k a with hk | hk
          · rw [max_eq_right hk] at h5; exact Or.inl (by simp [h5])
          · rw [max_eq_left hk] at h5; exact Or.inr h5
  obtain ⟨r', k', h1, h2, h3, -, h5⟩ := key G.vertices EditGraph.new 0 _ Is.new
  refine ⟨r', k', h1, h2.congr (fun w => by simp [hG.vmem]) (by simp), fun v hv => h3 v ((hG.vmem v).2 hv), ?_⟩
  rcases h5 with h5 | h5
  · exact Or.inl ((hG.vmem _).1 h5)
  · rcases S.V.eq_empty_or_nonempty with he | ⟨v, hv⟩
    · exact Or.inr ⟨he, h5⟩
    · have := h3 v ((hG.vmem v).2 hv)
      rw [h5] at this
      have hv0 : v = 0 := Nat.le_zero.1 this
      rw [h5, ← hv0]; exact Or.inl hv

theorem subdivide (hG : G.Rep S) (t : ℕ) (ht : ∀ v ∈ S.V, v + 1 + t * S.E.card < 2 ^ 32) :
    Ok (G.subdivide t) (fun h => ∃ S' es b, Abs h S' ∧ EdgeEnum es S ∧ (∀ v ∈ S.V, v < b) ∧
      (∀ w, w ∈ S'.V ↔ w ∈ S.V ∨ (b ≤ w ∧ w < b + t * S.E.card)) ∧
      (∀ a c, S'.Adj a c ↔ ∃ i < es.length, ∃ j ≤ t,
        (a = subdivVertex es b t i j ∧ c = subdivVertex es b t i (j + 1)) ∨
        (a = subdivVertex es b t i (j + 1) ∧ c = subdivVertex es b t i j)) ∧
      (S.Loopless ∨ t ≠ 1 → S'.E.card = S.E.card * (t + 1))) := by
  unfold Graph.subdivide
  obtain ⟨r₀, k, h1, ⟨S₀, A₀, hV₀, hA₀⟩, hle, hk⟩ := hG.subdivide_init
  rw [h1]
  simp only
  have hk1 : k + 1 + t * S.E.card < 2 ^ 32 := by
    rcases hk with hk | ⟨he, rfl⟩
    · exact ht k hk
    · have : S.E = ∅ := by
        rw [Finset.eq_empty_iff_forall_notMem]
        intro e hee
        have := S.wf e hee
        induction e using Sym2.ind with
        | _ a c => have := this a (Sym2.mem_mk_left a c); rw [he] at this; simp at this
      rw [this]; simp
  rw [add32_ok (by omega)]
  obtain ⟨es, hes, he, -⟩ := hG.edges
  simp only [bind_ok, hes]
  have hlen := he.length
  generalize hb : k + 1 = b at hk1
  have hlt : ∀ v ∈ S.V, v < b := fun v hv => by have := hle v hv; omega
  have hE0 : S₀.E.card = 0 := by
    rw [Finset.card_eq_zero, Finset.eq_empty_iff_forall_notMem]
    intro e
    induction e using Sym2.ind with
    | _ a c => exact fun h => (hA₀ a c).1 h
  refine Ok.bind (Ok.foldlM (fun pre (s : EditGraph × Vertex) => s.2 = b + pre.length * t ∧ ∃ S', Abs s.1 S' ∧
      (∀ w, w ∈ S'.V ↔ w ∈ S.V ∨ (b ≤ w ∧ w < b + pre.length * t)) ∧
      (∀ a c, S'.Adj a c ↔ ∃ i < pre.length, ∃ j ≤ t,
        (a = subdivVertex es b t i j ∧ c = subdivVertex es b t i (j + 1)) ∨
        (a = subdivVertex es b t i (j + 1) ∧ c = subdivVertex es b t i j)) ∧
      (S.Loopless ∨ t ≠ 1 → S'.E.card = pre.length * (t + 1))) ?_ ?_) ?_
  · refine ⟨by simp, S₀, A₀, fun w => ?_, fun a c => ?_, fun _ => by simp [hE0]⟩
    · rw [hV₀]
      simp only [List.length_nil, Nat.zero_mul]
      constructor
      · exact Or.inl
      · rintro (h | h)
        · exact h
        · omega
    · rw [hA₀]; simp
  · rintro pre ⟨u, v⟩ post ⟨res, free⟩ hes' ⟨hf, S', A, hV, hA, hC⟩
    simp only at hf
    subst hf
    have hmem : (u, v) ∈ es := by rw [hes']; simp
    have hget : es[pre.length]? = some (u, v) := by rw [hes']; simp
    have hplen : pre.length + 1 ≤ es.length := by rw [hes']; simp
    have hbound : b + pre.length * t + t < 2 ^ 32 := by
      have : (pre.length + 1) * t ≤ S.E.card * t := Nat.mul_le_mul_right t (hlen ▸ hplen)
      rw [Nat.add_mul, Nat.one_mul] at this
      rw [Nat.mul_comm t] at hk1; omega
    simp only [add32_ok hbound, bind_ok]
    have hu : u ∈ S.V := he.left_mem hmem
    have hv : v ∈ S.V := he.right_mem hmem
    have hnot : ∀ m : ℕ, b + pre.length * t + m ∉ S.V := fun m hm => by have := hlt _ hm; omega
    refine Ok.bind (subdivideEdge v t u (b + pre.length * t) res S' (fun m _ => ?_) A) ?_
    · have := (hG.contains (b + pre.length * t + m)).not.2 (hnot m)
      simpa using this
    · rintro r ⟨S'', A'', hV'', hA'', hC''⟩
      refine Ok.pure ⟨by simp [Nat.add_mul, Nat.add_assoc], S'', A'', fun w => ?_, fun a c => ?_, fun hcond => ?_⟩
      · rw [hV'', hV]
        simp only [List.length_append, List.length_singleton, Nat.add_mul, Nat.one_mul]
        constructor
        · rintro ((h | h) | rfl | rfl | h)
          · exact Or.inl h
          · exact Or.inr (by omega)
          · exact Or.inl hu
          · exact Or.inl hv
          · exact Or.inr (by omega)
        · rintro (h | h)
          · exact Or.inl (Or.inl h)
          · by_cases hw : w < b + pre.length * t
            · exact Or.inl (Or.inr (by omega))
            · exact Or.inr (Or.inr (Or.inr (by omega)))
      · rw [hA'', hA]
        have hsv : ∀ j, subdivVertex es b t pre.length j = pathPos u v (b + pre.length * t) t j := by
          intro j; unfold subdivVertex; rw [hget]
        constructor
        · rintro (⟨i, hi, h⟩ | ⟨j, hj, h⟩)
          · exact ⟨i, by simp; omega, h⟩
          · exact ⟨pre.length, by simp, j, hj, by rw [hsv, hsv]; exact h⟩
        · rintro ⟨i, hi, j, hj, h⟩
          by_cases hip : i = pre.length
          · subst hip
            rw [hsv, hsv] at h
            exact Or.inr ⟨j, hj, h⟩
          · refine Or.inl ⟨i, ?_, j, hj, h⟩
            simp at hi; omega
      · rw [hC'' ?_ ?_ ?_ ?_ ?_, hC hcond]
        · simp [Nat.add_mul]
        · exact (hV u).2 (Or.inl hu)
        · exact (hV v).2 (Or.inl hv)
        · intro m hm h
          rcases (hV _).1 h with h | h
          · exact hnot m h
          · omega
        · intro ht0 hadj
          subst ht0
          obtain ⟨i, hi, j, hj, h⟩ := (hA u v).1 hadj
          obtain rfl : j = 0 := by omega
          obtain ⟨⟨a, c⟩, hac⟩ : ∃ e, es[i]? = some e := by
            rw [hes', List.getElem?_append_left hi]; exact ⟨_, List.getElem?_eq_getElem hi⟩
          have hpre : (a, c) ∈ pre := by
            rw [hes', List.getElem?_append_left hi] at hac
            exact List.mem_of_getElem? hac
          have hnd := he.nodup
          rw [hes', List.nodup_append] at hnd
          simp only [subdivVertex, hac, pathPos, if_true, Nat.zero_add, Nat.one_ne_zero, if_false] at h
          have hacm : (a, c) ∈ es := by rw [hes']; simp [hpre]
          have e1 := ((he.mem a c).1 hacm).1
          have e2 := ((he.mem u v).1 hmem).1
          have : (u, v) = (a, c) := by
            rcases h with ⟨rfl, rfl⟩ | ⟨rfl, rfl⟩
            · rfl
            · rw [Prod.mk.injEq]
              constructor
              · exact le_antisymm e2 e1
              · exact le_antisymm e1 e2
          exact hnd.2.2 (a, c) hpre (u, v) (by simp) this.symm
        · intro ht1 huv
          subst huv
          rcases hcond with hcond | hcond
          · exact hcond u (he.adj hmem)
          · exact hcond ht1
  · rintro ⟨r, f⟩ ⟨-, S', A, hV, hA, hC⟩
    refine Ok.pure ⟨S', es, b, A, he, hlt, ?_, hA, ?_⟩
    · intro w; rw [hV, hlen, Nat.mul_comm t]
    · intro h; rw [hC h, hlen]

end Graph.Rep
end Verif
