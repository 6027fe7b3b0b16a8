import Verif.Proof.MuxNoise
import Verif.Proof.FluentRun
import Verif.Props.FluentMul
import Verif.Spec.FluentMulProg
/-! Pruning keeps the noise analysis of a circuit. -/
namespace Spf.Fluent
open Spf.Spec Spf.Fhe Spf.Mux Spf.Mul Spf.Props Spf.CtExec Graph

variable {W : Nat} {P : EvalParams} {ν : NoiseLevels} {nz : CtType → Nat → Nat}

theorem pickN_some {ins : List (Nat × FheEdge)} {k v} (h : pickNoise ins k = some v) : (v, k) ∈ ins := by
  unfold pickNoise at h
  cases hf : ins.find? (fun p => p.2 == k) with
  | none => rw [hf] at h; cases h
  | some p =>
    rw [hf] at h
    cases h
    have := List.find?_some hf
    simp only [beq_iff_eq] at this
    rw [← this]; exact List.mem_of_find?_eq_some hf

theorem pickN_perm {ins ins' : List (Nat × FheEdge)} (hp : ins.Perm ins') (hn : (ins.map (·.2)).Nodup) {k v} (h : pickNoise ins k = some v) :
    pickNoise ins' k = some v := by
  have hm := hp.mem_iff.1 (pickN_some h)
  have hn' : (ins'.map (·.2)).Nodup := (hp.map _).nodup_iff.1 hn
  cases hp' : pickNoise ins' k with
  | none =>
    unfold pickNoise at hp'
    rw [Option.map_eq_none_iff, List.find?_eq_none] at hp'
    have := hp' _ hm
    simp at this
  | some v' =>
    have := pickN_some hp'
    have := List.inj_on_of_nodup_map hn' hm this rfl
    simp only [Prod.mk.injEq] at this
    rw [this.1]

theorem pickN_nodup {ins : List (Nat × FheEdge)} {ks : List FheEdge} (hk : ks.Nodup) (h : ∀ k ∈ ks, (pickNoise ins k).isSome)
    (hlen : ins.length = ks.length) : (ins.map (·.2)).Nodup := by
  have hs : ks ⊆ ins.map (·.2) := by
    intro k hk
    obtain ⟨v, hv⟩ := Option.isSome_iff_exists.1 (h k hk)
    exact List.mem_map.2 ⟨_, pickN_some hv, rfl⟩
  have hp := (List.subperm_of_subset hk hs).perm_of_length_le (by simp [hlen])
  exact hp.nodup_iff.1 hk

theorem noiseOp_perm {op : FheOp} {ins ins' : List (Nat × FheEdge)} {v : Nat} (hp : ins.Perm ins') (h : noiseOp W P ν nz op ins = some v) :
    noiseOp W P ν nz op ins' = some v := by
  have h2 : ∀ a b k1 k2 v1 v2, ins = [a, b] → k1 ≠ k2 → pickNoise ins k1 = some v1 → pickNoise ins k2 = some v2 →
      (∃ a' b', ins' = [a', b']) ∧ pickNoise ins' k1 = some v1 ∧ pickNoise ins' k2 = some v2 := by
    intro a b k1 k2 v1 v2 hl hne p1 p2
    have hn := pickN_nodup (ins := ins) (ks := [k1, k2]) (by simp [hne]) (by simp [p1, p2]) (by rw [hl]; rfl)
    exact ⟨len2 hp hl, pickN_perm hp hn p1, pickN_perm hp hn p2⟩
  have h3 : ∀ a b c k1 k2 k3 v1 v2 v3, ins = [a, b, c] → k1 ≠ k2 → k1 ≠ k3 → k2 ≠ k3 → pickNoise ins k1 = some v1 → pickNoise ins k2 = some v2 →
      pickNoise ins k3 = some v3 →
      (∃ a' b' c', ins' = [a', b', c']) ∧ pickNoise ins' k1 = some v1 ∧ pickNoise ins' k2 = some v2 ∧ pickNoise ins' k3 = some v3 := by
    intro a b c k1 k2 k3 v1 v2 v3 hl n1 n2 n3 p1 p2 p3
    have hn := pickN_nodup (ins := ins) (ks := [k1, k2, k3]) (by simp [n1, n2, n3]) (by simp [p1, p2, p3]) (by rw [hl]; rfl)
    exact ⟨len3 hp hl, pickN_perm hp hn p1, pickN_perm hp hn p2, pickN_perm hp hn p3⟩
  unfold noiseOp at h
  split at h
  all_goals first
    | (rw [List.nil_perm] at hp; subst hp; exact h)
    | (rw [List.singleton_perm] at hp; subst hp; exact h)
    | cases h
    | skip
  all_goals
    split at h
    · rename_i p1 p2
      first
        | (obtain ⟨⟨a', b', rfl⟩, q1, q2⟩ := h2 _ _ _ _ _ _ rfl (by decide) p1 p2
           simp only [noiseOp, q1, q2]; exact h)
        | (rename_i p0
           obtain ⟨⟨a', b', c', rfl⟩, q1, q2, q3⟩ := h3 _ _ _ _ _ _ _ _ _ rfl (by decide) (by decide) (by decide) p0 p1 p2
           simp only [noiseOp, q1, q2, q3]; exact h)
    · cases h

/-- A node of the pruned circuit has the noise of the node it is a copy of. -/
theorem prune_neval {V : Type} {ex : FheOp → List (V × FheEdge) → Option V} (hex : ∀ op ins ins' v, ins.Perm ins' → ex op ins = some v → ex op ins' = some v) {g out : FGraph} {ks : List Nat}
    (hcl : ∀ n ∈ ks, ∀ e ∈ g.inEdges n, e.1 ∈ ks) (hnodes : out.nodes = ks.map g.weight) (hin : ∀ n ∈ ks, out.inEdges (ks.idxOf n) = ((g.inEdges n).map (rkE ks)).reverse)
    {n : Nat} {v : V} (hn : n ∈ ks) (h : NodeEval ex g n v) : NodeEval ex out (ks.idxOf n) v := by
  have hw : ∀ n ∈ ks, out.weight (ks.idxOf n) = g.weight n := by
    intro n hn
    unfold weight
    rw [hnodes, List.getD_eq_getElem?_getD, List.getElem?_map, idxOf_get hn]
    rfl
  have hinj : ∀ n ∈ ks, ∀ i, ks.idxOf n = i → ks.getD i 0 = n := by
    intro n hn i hi
    rw [← hi, List.getD_eq_getElem?_getD, idxOf_get hn]; rfl
  induction h with
  | @op n op v f hwt hf hx ih =>
    refine .op (fun i => f (ks.getD i 0)) ((hw n hn).trans hwt) ?_ ?_
    · rw [hin n hn]
      intro e he
      rw [List.mem_reverse] at he
      obtain ⟨e', he', rfl⟩ := List.mem_map.1 he
      have hk := hcl n hn e' he'
      simp only [rkE]
      rw [hinj e'.1 hk _ rfl]
      exact ih e' he' hk
    · rw [hin n hn]
      refine hex _ _ _ _ ?_ hx
      refine List.Perm.symm ((List.Perm.map _ (List.reverse_perm _)).trans ?_)
      rw [List.map_map]
      apply List.Perm.of_eq
      apply List.map_congr_left
      intro e he
      simp only [Function.comp, rkE]
      rw [hinj e.1 (hcl n hn e he) _ rfl]

/-- What pruning keeps of a circuit, to run it. -/
theorem prune_run {deg : Nat} {io : FheOp → Prop} {Q : FheOp → Nat → Prop} {cells : CtType → Nat → Val} {U : List (CtType × Nat)} {g : FGraph} (hl : Live g) (hg : Good deg (fun _ => io) g)
    (ha : AllN (noiseOp W P ν nz) Q g) (hu : OutsIn g U) {nodes : List Nat} (hnodes : ∀ n ∈ nodes, (g.weight n).isSome) {order : List Nat → List Nat} (ho : ∀ l, (order l).Perm l) :
    ∃ out ren, prune g nodes order = some (out, ren) ∧ Live out ∧ Good deg (fun _ => io) out ∧ AllN (noiseOp W P ν nz) Q out ∧ OutsIn out U ∧
      ∀ n ∈ nodes, ∀ t c v, g.weight n = some (.output t c) → FEval deg cells g n v → Writes deg cells out t c v := by
  obtain ⟨out, ks, h1, h2, h3, h4, h5, h6, _⟩ := prune_ok hl hnodes ho
  obtain ⟨out', ren, q1, q2, q3, q4, q5, q6⟩ := C14_prune hl hnodes ho
  rw [h1] at q1
  cases q1
  have hwt : ∀ n ∈ ks, out.weight (ks.idxOf n) = g.weight n := by
    intro n hn
    unfold Graph.weight
    rw [h4]
    have := List.idxOf_lt_length_iff.2 hn
    simp [List.getD, List.getElem?_eq_getElem this, Graph.weight]
  have hcl : ∀ n ∈ ks, ∀ e ∈ g.inEdges n, e.1 ∈ ks := by
    intro n hn e he
    obtain ⟨r, r1, r2⟩ := (h3 _).1 hn
    refine (h3 _).2 ⟨r, r1, ?_⟩
    obtain ⟨e3, e4⟩ := mem_in.1 he
    rw [← e4] at r2
    exact .step (k := e.2.2) e3 r2
  have him : ∀ m op, out.weight m = some op → ∃ n ∈ ks, ks.idxOf n = m ∧ g.weight n = some op := by
    intro m op hm
    have hlt : m < ks.length := by
      have := lt_of_weight hm
      rwa [h4, List.length_map] at this
    refine ⟨ks[m], List.getElem_mem hlt, h2.idxOf_getElem _ hlt, ?_⟩
    rw [← hwt _ (List.getElem_mem hlt), h2.idxOf_getElem _ hlt]; exact hm
  refine ⟨out, _, h1, prune_live h1, prune_good hl hg hnodes ho h1, fun m op hm => ?_, ⟨fun m t c hm => ?_, fun m m' t c hm hm' => ?_⟩, fun n hn t c v hw hv => ?_⟩
  · obtain ⟨n, n1, rfl, n2⟩ := him m op hm
    obtain ⟨B, b1, b2⟩ := ha n op n2
    exact ⟨B, prune_neval (ex := noiseOp W P ν nz) (fun _ _ _ _ => noiseOp_perm) hcl h4 h6 n1 b1, b2⟩
  · obtain ⟨n, n1, rfl, n2⟩ := him m _ hm
    exact hu.1 n t c n2
  · obtain ⟨n, n1, rfl, n2⟩ := him m _ hm
    obtain ⟨n', n1', rfl, n2'⟩ := him m' _ hm'
    rw [hu.2 n n' t c n2 n2']
  · obtain ⟨m, hm⟩ := Option.isSome_iff_exists.1 ((q2 n).2 ⟨n, hn, .refl⟩)
    exact ⟨m, by rw [q5 n m hm]; exact hw, (q6 deg cells n m hm v).2 hv⟩

end Spf.Fluent
