import Verif.Proof.Compact
/-! `remap_inputs` renames the sources of the select lines. -/
namespace Spf.Mux
open Spf.Spec Graph

/-- redirect one node -/
def redir1 (o d : Nat) (g : MGraph) : Option MGraph :=
  match copyEdges d (g.outEdges o) g with
  | none => none
  | some g => some (g.removeNode o)

def redirPairs : List (Nat × Nat) → MGraph → Option MGraph
  | [], g => some g
  | p :: ps, g => match redir1 p.1 p.2 g with | none => none | some g => redirPairs ps g

theorem redirPairs_append (a b : List (Nat × Nat)) (g : MGraph) :
    redirPairs (a ++ b) g = (redirPairs a g).bind (redirPairs b) := by
  induction a generalizing g with
  | nil => rfl
  | cons p ps ih =>
    simp only [List.cons_append, redirPairs]
    cases redir1 p.1 p.2 g with
    | none => rfl
    | some g => exact ih g

theorem redirect_eq (d : Nat) : ∀ (os : List Nat) (g : MGraph), redirect d os g = redirPairs (os.map (·, d)) g
  | [], g => rfl
  | o :: os, g => by
    simp only [redirect, List.map_cons, redirPairs, redir1]
    cases copyEdges d (g.outEdges o) g with
    | none => rfl
    | some g => exact redirect_eq d os _

theorem redirectAll_eq (base : Nat) (enc inputs : List Nat) : ∀ (is : List Nat) (g : MGraph),
    redirectAll base enc inputs is g = redirPairs (is.flatMap fun i => (inputMap enc inputs i).map (·, base + i)) g
  | [], g => rfl
  | i :: is, g => by
    simp only [redirectAll, List.flatMap_cons, redirPairs_append, redirect_eq]
    cases redirPairs ((inputMap enc inputs i).map (·, base + i)) g with
    | none => rfl
    | some g => exact redirectAll_eq base enc inputs is g

theorem copyEdges_spec (d : Nat) : ∀ (es : List (Nat × Nat × MuxEdge)) (g : MGraph), (g.weight d).isSome →
    (∀ e ∈ es, (g.weight e.2.1).isSome) → ∃ g', copyEdges d es g = some g' ∧ g'.nodes = g.nodes ∧
      g'.edges = (es.map fun e => (d, e.2.1, e.2.2)).reverse ++ g.edges
  | [], g, _, _ => ⟨g, rfl, rfl, rfl⟩
  | e :: es, g, hd, he => by
    have h1 : g.addEdge d e.2.1 e.2.2 = some { g with edges := (d, e.2.1, e.2.2) :: g.edges } := by
      unfold addEdge; rw [if_pos ⟨hd, he e List.mem_cons_self⟩]
    obtain ⟨g', h2, h3, h4⟩ := copyEdges_spec d es { g with edges := (d, e.2.1, e.2.2) :: g.edges } hd
      (fun e' h' => he e' (List.mem_cons_of_mem _ h'))
    refine ⟨g', ?_, h3, ?_⟩
    · simp only [copyEdges, h1]; exact h2
    · rw [h4]; simp

/-- rename the source of an edge -/
def ren (o d : Nat) (e : Nat × Nat × MuxEdge) : Nat × Nat × MuxEdge := (if e.1 = o then d else e.1, e.2.1, e.2.2)

theorem filter_ren (o d : Nat) (hod : o ≠ d) : ∀ l : List (Nat × Nat × MuxEdge), (∀ e ∈ l, e.2.1 ≠ o) →
    (l.filter (fun e => !(e.1 == o) && !(e.2.1 == o)) ++ (l.filter (fun e => e.1 == o)).map (fun e => (d, e.2.1, e.2.2))).Perm
      (l.map (ren o d))
  | [], _ => .refl _
  | e :: l, h => by
    have ih := filter_ren o d hod l (fun e' h' => h e' (List.mem_cons_of_mem _ h'))
    have he := h e List.mem_cons_self
    by_cases h1 : e.1 = o
    · simp only [List.filter_cons, h1, beq_self_eq_true, Bool.not_true, Bool.false_and, Bool.false_eq_true, if_false,
        if_true, List.map_cons, ren]
      exact List.perm_middle.trans (ih.cons _)
    · simp only [List.filter_cons, h1, he, beq_iff_eq, ite_false, Bool.and_eq_true, Bool.not_eq_true',
        beq_eq_false_iff_ne, ne_eq, not_false_eq_true, and_self, ite_true, List.map_cons, ren, List.cons_append]
      exact ih.cons _

theorem redir1_spec {g : MGraph} (h : WF g) {o d i j} (ho : g.weight o = some (.variable i))
    (hd : g.weight d = some (.variable j)) (hod : o ≠ d) :
    ∃ g', redir1 o d g = some g' ∧ WF g' ∧ (∀ n, g'.weight n = if n = o then none else g.weight n) ∧
      ∀ (α : Type) (v : Nat → α) w, EdgeOK g v w → v o = v d → EdgeOK g' v w := by
  have noin : ∀ x y, g.weight x = some (.variable y) → ∀ e ∈ g.edges, e.2.1 ≠ x := by
    intro x y hx e he hc
    have := h.kind e he (.variable y) (by rw [hc]; exact hx)
    cases hk : e.2.2 <;> rw [hk] at this <;> exact this
  obtain ⟨g1, c1, c2, c3⟩ := copyEdges_spec d (g.outEdges o) g (by rw [hd]; rfl) (by
    intro e he
    simp only [outEdges, List.mem_filter] at he
    exact (h.live e he.1).2)
  have hred : redir1 o d g = some (g1.removeNode o) := by unfold redir1; rw [c1]
  have hw : ∀ n, (g1.removeNode o).weight n = if n = o then none else g.weight n := by
    intro n; rw [weight_removeNode, weight_congr c2]
  have hperm : (g1.removeNode o).edges.Perm (g.edges.map (ren o d)) := by
    refine List.Perm.trans ?_ (filter_ren o d hod g.edges (noin o i ho))
    unfold removeNode
    simp only [c3, List.filter_append]
    refine List.perm_append_comm.trans (List.Perm.append_left _ ?_)
    rw [List.filter_eq_self.2]
    · exact (List.reverse_perm _)
    · intro e he
      simp only [List.mem_reverse, List.mem_map, outEdges, List.mem_filter] at he
      obtain ⟨e', ⟨he', _⟩, rfl⟩ := he
      have := noin o i ho e' he'
      simp [this, Ne.symm hod]
  generalize hG : g1.removeNode o = g' at hw hperm
  have hm : ∀ a b k, (a, b, k) ∈ g'.edges ↔ ∃ a', (a', b, k) ∈ g.edges ∧ a = if a' = o then d else a' := by
    intro a b k
    rw [hperm.mem_iff, List.mem_map]
    constructor
    · rintro ⟨⟨a', b', k'⟩, h1, h2⟩
      simp only [ren, Prod.mk.injEq] at h2
      obtain ⟨rfl, rfl, rfl⟩ := h2
      exact ⟨a', h1, rfl⟩
    · rintro ⟨a', h1, rfl⟩
      exact ⟨_, h1, rfl⟩
  have hin : ∀ n, (g'.inEdges n).Perm ((g.inEdges n).map (ren o d)) := by
    intro n
    unfold inEdges
    refine (hperm.filter _).trans ?_
    rw [List.filter_map]
    exact .refl _
  have hlv : ∀ n, n ≠ o → ((g.weight n).isSome → (g'.weight n).isSome) := by
    intro n hn h; rw [hw, if_neg hn]; exact h
  have hsub : ∀ n op, g'.weight n = some op → g.weight n = some op := by
    intro n op hn; rw [hw] at hn; split at hn
    · cases hn
    · exact hn
  refine ⟨g', by rw [hred, hG], ?_, hw, ?_⟩
  · refine ⟨⟨?_, ?_, ?_, ?_, ?_, ?_⟩, ?_, ?_⟩
    · rintro ⟨a, b, k⟩ he
      obtain ⟨a', h1, h2⟩ := (hm _ _ _).1 he
      have hl := h.live _ h1
      refine ⟨?_, hlv b (noin o i ho _ h1) hl.2⟩
      simp only [h2]
      split
      · exact hlv d (Ne.symm hod) (by rw [hd]; rfl)
      · exact hlv a' (by assumption) hl.1
    · rintro ⟨a, b, k⟩ he op hop
      obtain ⟨a', h1, h2⟩ := (hm _ _ _).1 he
      exact h.kind _ h1 op (hsub _ _ hop)
    · intro n hn
      obtain ⟨⟨s, hs⟩, ⟨l, hl⟩, ⟨hh, hhh⟩⟩ := h.mux n (hsub _ _ hn)
      exact ⟨⟨_, (hm _ _ _).2 ⟨s, hs, rfl⟩⟩, ⟨_, (hm _ _ _).2 ⟨l, hl, rfl⟩⟩, ⟨_, (hm _ _ _).2 ⟨hh, hhh, rfl⟩⟩⟩
    · intro n i hn
      obtain ⟨s, hs⟩ := h.out n i (hsub _ _ hn)
      exact ⟨_, (hm _ _ _).2 ⟨s, hs, rfl⟩⟩
    · rintro ⟨a, b, k⟩ he i' hi'
      obtain ⟨a', h1, h2⟩ := (hm _ _ _).1 he
      have hi' := hsub _ _ hi'
      simp only [h2] at hi'
      split at hi'
      · rw [hd] at hi'; cases hi'
      · exact h.sink _ h1 i' hi'
    · obtain ⟨rank, hr⟩ := h.acyclic
      refine ⟨fun n => if n = d then 0 else rank n + 1, ?_⟩
      rintro ⟨a, b, k⟩ he
      obtain ⟨a', h1, h2⟩ := (hm _ _ _).1 he
      have hb := noin d j hd _ h1
      have := hr _ h1
      simp only at hb this
      simp only [hb, if_false]
      split <;> rename_i hc
      · omega
      · rw [h2] at hc ⊢
        split at hc
        · exact absurd rfl hc
        · rename_i hao; rw [if_neg hao]; omega
    · intro n hn
      obtain ⟨s, l, hh, hp⟩ := h.mux1 n (hsub _ _ hn)
      exact ⟨_, _, _, (hin n).trans (hp.map _)⟩
    · intro n i hn
      obtain ⟨s, hp⟩ := h.out1 n i (hsub _ _ hn)
      have := hin n
      rw [hp] at this
      exact ⟨_, this.eq_singleton⟩
  · intro α v w hE hv
    rintro ⟨a, b, k⟩ he
    obtain ⟨a', h1, h2⟩ := (hm _ _ _).1 he
    have := hE _ h1
    simp only at this
    simp only [h2, ← this]
    split
    · rename_i hc; rw [hc, hv]
    · rfl

theorem redirPairs_spec : ∀ (ps : List (Nat × Nat)) (g : MGraph), WF g →
    (∀ p ∈ ps, ∃ i j, g.weight p.1 = some (.variable i) ∧ g.weight p.2 = some (.variable j)) →
    (ps.map (·.1)).Nodup → (∀ p ∈ ps, ∀ q ∈ ps, p.1 ≠ q.2) →
    ∃ g', redirPairs ps g = some g' ∧ WF g' ∧ (∀ n, g'.weight n = if n ∈ ps.map (·.1) then none else g.weight n) ∧
      ∀ (α : Type) (v : Nat → α) w, EdgeOK g v w → (∀ p ∈ ps, v p.1 = v p.2) → EdgeOK g' v w
  | [], g, h, _, _, _ => ⟨g, rfl, h, by simp, fun _ _ _ h _ => h⟩
  | p :: ps, g, h, hv, hnd, hdis => by
    obtain ⟨i, j, h1, h2⟩ := hv p List.mem_cons_self
    obtain ⟨g1, a1, a2, a3, a4⟩ := redir1_spec h h1 h2 (hdis p List.mem_cons_self p List.mem_cons_self)
    simp only [List.map_cons, List.nodup_cons] at hnd
    obtain ⟨g', b1, b2, b3, b4⟩ := redirPairs_spec ps g1 a2 (by
        intro q hq
        obtain ⟨i', j', q1, q2⟩ := hv q (List.mem_cons_of_mem _ hq)
        refine ⟨i', j', ?_, ?_⟩
        · rw [a3, if_neg, q1]
          intro hc; exact hnd.1 (hc ▸ List.mem_map_of_mem hq)
        · rw [a3, if_neg, q2]
          exact (hdis p List.mem_cons_self q (List.mem_cons_of_mem _ hq)).symm)
      hnd.2 (fun q hq r hr => hdis q (List.mem_cons_of_mem _ hq) r (List.mem_cons_of_mem _ hr))
    refine ⟨g', by simp only [redirPairs, a1, b1], b2, ?_, ?_⟩
    · intro n
      rw [b3, a3]
      simp only [List.map_cons, List.mem_cons]
      by_cases c1 : n = p.1 <;> by_cases c2 : n ∈ ps.map (·.1) <;> simp [c1, c2]
    · intro α v w hE hvv
      exact b4 α v w (a4 α v w hE (hvv p List.mem_cons_self)) (fun q hq => hvv q (List.mem_cons_of_mem _ hq))

/-! ### adding the new variables -/

theorem addVars_nodes (g : MGraph) : ∀ k, (addVars g k).nodes = g.nodes ++ (List.range k).map (fun i => some (.variable i)) ∧
    (addVars g k).edges = g.edges
  | 0 => by simp [addVars]
  | k + 1 => by
    obtain ⟨h1, h2⟩ := addVars_nodes g k
    simp only [addVars, addNode, h1, h2, List.range_succ, List.map_append, List.map_cons, List.map_nil,
      List.append_assoc, and_self]

theorem addVars_weight_lt (g : MGraph) (k n : Nat) (h : n < g.nodes.length) : (addVars g k).weight n = g.weight n := by
  unfold weight
  rw [(addVars_nodes g k).1, List.getD_eq_getElem?_getD, List.getElem?_append_left h, ← List.getD_eq_getElem?_getD]

theorem addVars_weight_new (g : MGraph) (k i : Nat) (h : i < k) :
    (addVars g k).weight (g.nodes.length + i) = some (.variable i) := by
  rw [weight_some, (addVars_nodes g k).1, List.getElem?_append_right (by omega)]
  rw [Nat.add_sub_cancel_left, List.getElem?_map, List.getElem?_range h]; rfl

theorem addVars_weight_ge (g : MGraph) (k i : Nat) (h : ¬ i < k) :
    (addVars g k).weight (g.nodes.length + i) = none := by
  unfold weight
  rw [(addVars_nodes g k).1, List.getD_eq_getElem?_getD, List.getElem?_append_right (by omega)]
  rw [Nat.add_sub_cancel_left, List.getElem?_eq_none (by simpa using h)]; rfl

theorem addVars_inEdges (g : MGraph) (k n : Nat) : (addVars g k).inEdges n = g.inEdges n := by
  unfold inEdges; rw [(addVars_nodes g k).2]

/-- weights of the extended graph -/
theorem addVars_weight (g : MGraph) (k n op) : (addVars g k).weight n = some op ↔
    g.weight n = some op ∨ ∃ i, i < k ∧ n = g.nodes.length + i ∧ op = .variable i := by
  by_cases hn : n < g.nodes.length
  · rw [addVars_weight_lt g k n hn]
    constructor
    · exact Or.inl
    · rintro (h | ⟨i, _, h, _⟩)
      · exact h
      · omega
  · obtain ⟨i, rfl⟩ : ∃ i, n = g.nodes.length + i := ⟨n - g.nodes.length, by omega⟩
    have hnone : g.weight (g.nodes.length + i) = none := by
      cases hc : g.weight (g.nodes.length + i) with
      | none => rfl
      | some x => exact absurd (lt_of_weight (by rw [hc]; rfl)) hn
    rw [hnone]
    by_cases hi : i < k
    · rw [addVars_weight_new g k i hi]
      constructor
      · intro h; cases h; exact Or.inr ⟨i, hi, rfl, rfl⟩
      · rintro (h | ⟨j, _, h, rfl⟩)
        · cases h
        · have : i = j := by omega
          rw [this]
    · rw [addVars_weight_ge g k i hi]
      constructor
      · intro h; cases h
      · rintro (h | ⟨j, hj, h, rfl⟩)
        · cases h
        · omega

theorem addVars_wf {g : MGraph} (h : WF g) (k : Nat) : WF (addVars g k) := by
  have he := (addVars_nodes g k).2
  have hl : ∀ n, (g.weight n).isSome → (addVars g k).weight n = g.weight n := by
    intro n hn
    rw [addVars_weight_lt g k n (lt_of_weight hn)]
  have hk : ∀ n op, (∀ i, op ≠ .variable i) → (addVars g k).weight n = some op → g.weight n = some op := by
    intro n op hop hn
    rcases (addVars_weight g k n op).1 hn with h | ⟨i, _, _, h⟩
    · exact h
    · exact absurd h (hop i)
  refine ⟨⟨?_, ?_, ?_, ?_, ?_, ?_⟩, ?_, ?_⟩
  · rw [he]; intro e hm
    have := h.live e hm
    rw [hl _ this.1, hl _ this.2]; exact this
  · rw [he]; intro e hm op hop
    rw [hl _ (h.live e hm).2] at hop
    exact h.kind e hm op hop
  · rw [he]; intro n hn; exact h.mux n (hk _ _ (by simp) hn)
  · rw [he]; intro n i hn; exact h.out n i (hk _ _ (by simp) hn)
  · rw [he]; intro e hm i hi
    rw [hl _ (h.live e hm).1] at hi
    exact h.sink e hm i hi
  · rw [he]; exact h.acyclic
  · intro n hn; rw [addVars_inEdges]; exact h.mux1 n (hk _ _ (by simp) hn)
  · intro n i hn; rw [addVars_inEdges]; exact h.out1 n i (hk _ _ (by simp) hn)

theorem mem_inputMap {enc inputs : List Nat} {i o} : o ∈ inputMap enc inputs i ↔
    ∃ k : Nat, enc[k]? = some i ∧ inputs[k]? = some o := by
  unfold inputMap
  simp only [List.mem_map, List.mem_filter, beq_iff_eq]
  constructor
  · rintro ⟨⟨a, b⟩, ⟨hm, rfl⟩, rfl⟩
    obtain ⟨k, hk⟩ := List.mem_iff_getElem?.1 hm
    exact ⟨k, List.getElem?_zip_eq_some.1 hk⟩
  · rintro ⟨k, h1, h2⟩
    exact ⟨(i, o), ⟨List.mem_of_getElem? (List.getElem?_zip_eq_some.2 ⟨h1, h2⟩), rfl⟩, rfl⟩

theorem zip_snd_prefix : ∀ a b : List Nat, ((a.zip b).map (·.2)) <+: b
  | [], b => by simp
  | _ :: _, [] => by simp
  | x :: a, y :: b => by
    simp only [List.zip_cons_cons, List.map_cons]
    exact (List.prefix_cons_inj y).2 (zip_snd_prefix a b)

theorem inputMap_nodup {enc inputs : List Nat} (h : inputs.Nodup) (i : Nat) : (inputMap enc inputs i).Nodup := by
  unfold inputMap
  have h1 : ((enc.zip inputs).filter fun p => p.1 == i).Nodup := by
    apply List.Nodup.filter
    apply List.Nodup.of_map (·.2)
    exact (zip_snd_prefix enc inputs).sublist.nodup h
  rw [List.nodup_map_iff_inj_on h1]
  rintro ⟨a, b⟩ ha ⟨a', b'⟩ ha' (rfl : b = b')
  simp only [List.mem_filter, beq_iff_eq] at ha ha'
  rw [ha.2, ha'.2]

/-- `remap_inputs` of a well-formed circuit, with an acceptable renaming. -/
theorem remap_computes {c : MuxCircuit} {n count : Nat} {enc : List Nat} {outs} (hw : WF c.graph) (h : Computes c n outs)
    (hlen : enc.length = n) (hlt : ∀ i ∈ enc, i < count) (hsurj : ∀ i, i < count → i ∈ enc) :
    ∃ c', remapInputs c count enc = some c' ∧ WF c'.graph ∧
      Computes c' count (outs.map fun f w => f (fun k => w (enc.getD k 0))) := by
  obtain ⟨hv1, hv2, hv3⟩ := computes_vars h
  have hin : ∀ (k : Nat) o, c.inputs[k]? = some o → c.graph.weight o = some (.variable k) := by
    intro k o hk
    have : k < c.inputs.length := (List.getElem?_eq_some_iff.1 hk).1
    exact (h.inputs o k).2 ⟨by rw [← h.nInputs]; exact this, hk⟩
  have hnd : c.inputs.Nodup := by
    rw [List.nodup_iff_getElem?_ne_getElem?]
    intro i j hij hj heq
    have hi : c.inputs[i]? = some c.inputs[i] := by simp
    have hjj : c.inputs[j]? = some c.inputs[j] := by simp
    have h1 := hin i _ hi
    rw [hi, hjj] at heq
    have h2 := hin j _ hjj
    rw [← Option.some.inj heq, h1] at h2
    have := MuxOp.variable.inj (Option.some.inj h2)
    omega
  generalize hps : ((List.range count).flatMap fun i => (inputMap enc c.inputs i).map (·, c.graph.nodes.length + i)) = ps
  have hmem : ∀ o d, (o, d) ∈ ps ↔ ∃ (k i : Nat), enc[k]? = some i ∧ c.inputs[k]? = some o ∧ d = c.graph.nodes.length + i ∧ i < count := by
    intro o d
    rw [← hps, List.mem_flatMap]
    constructor
    · rintro ⟨i, hi, hm⟩
      rw [List.mem_map] at hm
      obtain ⟨a, ha, heq⟩ := hm
      cases heq
      obtain ⟨k, h1, h2⟩ := mem_inputMap.1 ha
      exact ⟨k, i, h1, h2, rfl, List.mem_range.1 hi⟩
    · rintro ⟨k, i, h1, h2, rfl, hi⟩
      exact ⟨i, List.mem_range.2 hi, List.mem_map.2 ⟨o, mem_inputMap.2 ⟨k, h1, h2⟩, rfl⟩⟩
  have hfst : ∀ o, o ∈ ps.map (·.1) ↔ o ∈ c.inputs := by
    intro o
    rw [List.mem_map]
    constructor
    · rintro ⟨⟨a, d⟩, hm, rfl⟩
      obtain ⟨k, i, _, h2, _⟩ := (hmem _ _).1 hm
      exact List.mem_of_getElem? h2
    · intro ho
      obtain ⟨k, hk⟩ := List.mem_iff_getElem?.1 ho
      have hkl : k < enc.length := by rw [hlen, ← h.nInputs]; exact (List.getElem?_eq_some_iff.1 hk).1
      have hke : enc[k]? = some enc[k] := by simp [hkl]
      exact ⟨(o, c.graph.nodes.length + enc[k]), (hmem _ _).2 ⟨k, _, hke, hk, rfl, hlt _ (List.mem_of_getElem? hke)⟩, rfl⟩
  have hpsnd : (ps.map (·.1)).Nodup := by
    rw [← hps, List.map_flatMap, List.nodup_flatMap]
    constructor
    · intro i _
      rw [List.map_map]
      have : ((fun x : Nat × Nat => x.1) ∘ fun x => (x, c.graph.nodes.length + i)) = id := rfl
      rw [this, List.map_id]
      exact inputMap_nodup hnd i
    · apply List.Pairwise.imp _ List.nodup_range
      intro i j hij
      simp only [Function.onFun, List.map_map]
      have : ∀ i, ((fun x : Nat × Nat => x.1) ∘ fun x => (x, c.graph.nodes.length + i)) = id := fun _ => rfl
      rw [this, this, List.map_id, List.map_id]
      intro o h1 h2
      obtain ⟨k, a1, a2⟩ := mem_inputMap.1 h1
      obtain ⟨k', b1, b2⟩ := mem_inputMap.1 h2
      have e1 := hin _ _ a2
      rw [hin _ _ b2] at e1
      cases e1
      rw [a1] at b1
      exact hij (Option.some.inj b1)
  have hbig : ∀ o ∈ c.inputs, o < c.graph.nodes.length := by
    intro o ho
    obtain ⟨k, hk⟩ := List.mem_iff_getElem?.1 ho
    exact lt_of_weight (by rw [hin k o hk]; rfl)
  have hwA := addVars_wf hw count
  obtain ⟨g', r1, r2, r3, r4⟩ := redirPairs_spec ps (addVars c.graph count) hwA (by
      rintro ⟨o, d⟩ hp
      obtain ⟨k, i, h1, h2, rfl, hi⟩ := (hmem _ _).1 hp
      refine ⟨k, i, ?_, addVars_weight_new _ _ _ hi⟩
      simp only
      rw [addVars_weight_lt _ _ _ (hbig o (List.mem_of_getElem? h2))]
      exact hin k o h2) hpsnd (by
      rintro ⟨o, d⟩ hp ⟨o', d'⟩ hp'
      obtain ⟨k, i, h1, h2, rfl, hi⟩ := (hmem _ _).1 hp
      obtain ⟨k', i', h1', h2', rfl, hi'⟩ := (hmem _ _).1 hp'
      have := hbig o (List.mem_of_getElem? h2)
      simp only
      omega)
  have hrun : remapInputs c count enc = some (compactIndices g') := by
    unfold remapInputs
    rw [if_neg (by rw [h.nInputs, hlen]; simp), if_neg (by simp only [not_not]; exact ⟨hlt, fun i hi => hsurj i (List.mem_range.1 hi)⟩)]
    simp only [redirectAll_eq, hps, r1]
  refine ⟨_, hrun, compact_wf r2, ?_⟩
  -- weights of the result before compaction
  have hW : ∀ m op, g'.weight m = some op ↔ (c.graph.weight m = some op ∧ m ∉ c.inputs) ∨
      ∃ i, i < count ∧ m = c.graph.nodes.length + i ∧ op = .variable i := by
    intro m op
    rw [r3]
    by_cases hm : m ∈ c.inputs
    · rw [if_pos ((hfst m).2 hm)]
      constructor
      · intro h; cases h
      · rintro (⟨_, h⟩ | ⟨i, _, h, _⟩)
        · exact absurd hm h
        · have := hbig m hm; omega
    · rw [if_neg (fun hc => hm ((hfst m).1 hc)), addVars_weight]
      simp [hm]
  have hvar : ∀ m i, g'.weight m = some (.variable i) ↔ i < count ∧ m = c.graph.nodes.length + i := by
    intro m i
    rw [hW]
    constructor
    · rintro (⟨h1, h2⟩ | ⟨j, h1, h2, h3⟩)
      · exact absurd (List.mem_of_getElem? ((h.inputs m i).1 h1).2) h2
      · cases h3; exact ⟨h1, h2⟩
    · rintro ⟨h1, h2⟩; exact Or.inr ⟨i, h1, h2, rfl⟩
  have hout : ∀ m op, (∀ i, op ≠ .variable i) → (g'.weight m = some op ↔ c.graph.weight m = some op) := by
    intro m op hop
    rw [hW]
    constructor
    · rintro (⟨h1, _⟩ | ⟨j, _, _, h3⟩)
      · exact h1
      · exact absurd h3 (hop j)
    · intro h1
      refine Or.inl ⟨h1, fun hc => ?_⟩
      obtain ⟨k, hk⟩ := List.mem_iff_getElem?.1 hc
      rw [hin k m hk] at h1
      exact hop k (Option.some.inj h1).symm
  apply compact_computes r2.live
  · intro i hi; exact ⟨_, (hvar _ _).2 ⟨hi, rfl⟩⟩
  · intro m i hm; exact ((hvar _ _).1 hm).1
  · intro m m' i h1 h2; rw [((hvar _ _).1 h1).2, ((hvar _ _).1 h2).2]
  · intro m m' i h1 h2
    exact h.outUnique m m' i ((hout _ _ (by simp)).1 h1) ((hout _ _ (by simp)).1 h2)
  · intro i
    rw [List.length_map, ← h.outIdx]
    exact ⟨fun ⟨m, hm⟩ => ⟨m, (hout _ _ (by simp)).1 hm⟩, fun ⟨m, hm⟩ => ⟨m, (hout _ _ (by simp)).2 hm⟩⟩
  · intro m i f hm hf env b
    rw [List.getElem?_map, Option.map_eq_some_iff] at hf
    obtain ⟨f0, hf0, rfl⟩ := hf
    have hm0 := (hout _ _ (by simp)).1 hm
    rw [← h.value m i f0 hm0 hf0 (fun k => env (enc.getD k 0)) b]
    obtain ⟨v, w, hE, hN⟩ := exists_val boolAlg (fun k => env (enc.getD k 0)) hw
    -- extend the valuation to the new nodes
    let v' : Nat → Bool := fun x => if x < c.graph.nodes.length then v x else env (x - c.graph.nodes.length)
    have hv' : ∀ x, x < c.graph.nodes.length → v' x = v x := fun x hx => if_pos hx
    have hE1 : EdgeOK (addVars c.graph count) v' w := by
      intro e he
      rw [(addVars_nodes c.graph count).2] at he
      rw [hv' _ (lt_of_weight (hw.live e he).1)]
      exact hE e he
    have hE2 : EdgeOK g' v' w := by
      apply r4 _ _ _ hE1
      rintro ⟨o, d⟩ hp
      obtain ⟨k, i, h1, h2, rfl, hi⟩ := (hmem _ _).1 hp
      simp only
      rw [hv' o (hbig o (List.mem_of_getElem? h2))]
      have hno := hN _ _ (hin k o h2)
      simp only [NodeOK] at hno
      rw [hno]
      simp only [v']
      rw [if_neg (by omega), Nat.add_sub_cancel_left, List.getD_eq_getElem?_getD, h1]; rfl
    have hN2 : NodesOK boolAlg env g' v' w := by
      intro x op hx
      rcases (hW _ _).1 hx with ⟨h1, h2⟩ | ⟨i, h1, h2, h3⟩
      · have := hN _ _ h1
        have hlt' := lt_of_weight (g := c.graph) (n := x) (by rw [h1]; rfl)
        cases op with
        | «variable» i => exact absurd (List.mem_of_getElem? ((h.inputs x i).1 h1).2) h2
        | _ => simp only [NodeOK] at this ⊢; rw [hv' x hlt']; exact this
      · subst h2 h3
        simp only [NodeOK, v']
        rw [if_neg (by omega), Nat.add_sub_cancel_left]
    have hmlt := lt_of_weight (g := c.graph) (n := m) (by rw [hm0]; rfl)
    rw [eval_iff r2.toComplete hE2 hN2 m (by rw [hm]; rfl), eval_iff hw.toComplete hE hN m (by rw [hm0]; rfl), hv' m hmlt]

end Spf.Mux
