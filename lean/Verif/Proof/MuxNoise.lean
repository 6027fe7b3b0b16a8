import Verif.Proof.InsertMux
import Verif.Proof.NoiseGraph
/-! The noise of an inserted multiplexer circuit. -/
namespace Spf.Fluent
open Spf.Spec Spf.Fhe Spf.Mux Graph

theorem pick_mem {ins : List (Nat × FheEdge)} {B : Nat} {k : FheEdge} (hnd : (ins.map Prod.snd).Nodup) (hm : (B, k) ∈ ins) : pickNoise ins k = some B := by
  induction ins with
  | nil => cases hm
  | cons p ps ih =>
    rw [List.map_cons, List.nodup_cons] at hnd
    rcases List.mem_cons.1 hm with rfl | hm
    · simp [pickNoise]
    · have hne : p.2 ≠ k := fun h => hnd.1 (List.mem_map.2 ⟨_, hm, h.symm⟩)
      have := ih hnd.2 hm
      unfold pickNoise at this ⊢
      rw [List.find?_cons_of_neg (by simpa using hne)]
      exact this

theorem noiseOp_mux {W P ν nz} (mode : MuxMode) {ins : List (Nat × FheEdge)} {s l h : Nat} (hp : ins.Perm [(s, .sel), (l, .low), (h, .high)]) :
    noiseOp W P ν nz mode.mux ins = some (max l h + muxNoise W P ν s) := by
  have hnd : (ins.map Prod.snd).Nodup := (hp.map Prod.snd).nodup_iff.2 (by simp)
  have h1 := pick_mem hnd (hp.mem_iff.2 (by simp) : (s, FheEdge.sel) ∈ ins)
  have h2 := pick_mem hnd (hp.mem_iff.2 (by simp) : (l, FheEdge.low) ∈ ins)
  have h3 := pick_mem hnd (hp.mem_iff.2 (by simp) : (h, FheEdge.high) ∈ ins)
  have hl := hp.length_eq
  match ins, hl with
  | [a, b, c], _ => cases mode <;> simp only [MuxMode.mux, noiseOp, h1, h2, h3]

/-- the level of a node: multiplexers have one, constants are at 0 -/
def levOf (g : MGraph) (lev : Nat → Nat) (n : Nat) : Nat := if g.weight n = some .mux then lev n else 0

theorem copied_noise {W P ν nz} {g g' : FGraph} {c : MuxCircuit} {nodes res : List Nat} {mode : MuxMode} {ψ : Nat → Nat} (hw : WF c.graph) (ht : SelectorsOnly c.graph)
    (hc : Copied g c nodes mode g' res ψ) (he : FExt g g') (hvar : ∀ n j, c.graph.weight n = some (.variable j) → j < nodes.length) {E : Nat}
    (hn : ∀ m ∈ nodes, NodeEval (noiseOp W P ν nz) g m E) {lev : Nat → Nat} (h1 : ∀ n, c.graph.weight n = some .mux → 1 ≤ lev n)
    (h2 : ∀ m n k, (m, n, k) ∈ c.graph.edges → k ≠ MuxEdge.select → c.graph.weight m = some .mux → c.graph.weight n = some .mux → lev m < lev n) :
    ∀ n, innerB mode c.graph n = true → ∃ B, NodeEval (noiseOp W P ν nz) g' (ψ n) B ∧ B ≤ levOf c.graph lev n * muxNoise W P ν E := by
  obtain ⟨rank, hrank⟩ := hw.acyclic
  suffices H : ∀ r n, rank n = r → innerB mode c.graph n = true → ∃ B, NodeEval (noiseOp W P ν nz) g' (ψ n) B ∧ B ≤ levOf c.graph lev n * muxNoise W P ν E from
    fun n => H _ n rfl
  intro r
  induction r using Nat.strongRecOn with
  | ind r ih =>
    intro n hr hn'
    have hwt := hc.op n hn'
    have hin := hc.ins n hn'
    have hnil : ∀ op, c.graph.weight n = some op → (op = .zero ∨ op = .one) → g'.inEdges (ψ n) = [] := by
      intro op h hop
      have : c.graph.inEdges n = [] := by
        apply List.eq_nil_iff_forall_not_mem.2
        intro e he
        obtain ⟨h1, h2⟩ := mem_inEdges'.1 he
        have := hw.kind e h1 op (by rw [h2]; exact h)
        rcases hop with rfl | rfl <;> exact this
      rw [this] at hin
      exact hin.eq_nil
    rcases innerB_iff.1 hn' with h | h | h
    · obtain ⟨s, l, hh, hperm⟩ := hw.mux1 n h
      have e1 : (s, n, MuxEdge.select) ∈ c.graph.edges := mem_inEdges.1 (hperm.mem_iff.2 (by simp))
      have e2 : (l, n, MuxEdge.low) ∈ c.graph.edges := mem_inEdges.1 (hperm.mem_iff.2 (by simp))
      have e3 : (hh, n, MuxEdge.high) ∈ c.graph.edges := mem_inEdges.1 (hperm.mem_iff.2 (by simp))
      have inner : ∀ m k, (m, n, k) ∈ c.graph.edges → k ≠ MuxEdge.select → innerB mode c.graph m = true := by
        intro m k he hk
        obtain ⟨op, hop⟩ := Option.isSome_iff_exists.1 (hw.live _ he).1
        rw [innerB_iff]
        cases op with
        | output j => exact absurd hop (hw.sink _ he j)
        | «variable» j => exact absurd ((ht _ he).2 ⟨j, hop⟩) hk
        | mux => exact Or.inl hop
        | zero => exact Or.inr (Or.inl hop)
        | one => exact Or.inr (Or.inr hop)
      have lower : ∀ m k, (m, n, k) ∈ c.graph.edges → k ≠ MuxEdge.select → levOf c.graph lev m + 1 ≤ lev n := by
        intro m k he hk
        unfold levOf
        split
        · exact h2 m n k he hk (by assumption) h
        · exact h1 n h
      obtain ⟨j, hj⟩ := (ht _ e1).1 rfl
      have hjl := hvar s j hj
      have hs : NodeEval (noiseOp W P ν nz) g' (ψ s) E := by
        rw [hc.var s j _ hj (List.getElem?_eq_getElem hjl)]
        exact FExt_neval he (hn _ (List.getElem_mem _))
      obtain ⟨Bl, hl1, hl2⟩ := ih _ (by rw [← hr]; exact hrank _ e2) l rfl (inner l _ e2 (by decide))
      obtain ⟨Bh, hh1, hh2⟩ := ih _ (by rw [← hr]; exact hrank _ e3) hh rfl (inner hh _ e3 (by decide))
      have hmul : ∀ m k B, (m, n, k) ∈ c.graph.edges → k ≠ MuxEdge.select → B ≤ levOf c.graph lev m * muxNoise W P ν E → B + muxNoise W P ν E ≤ lev n * muxNoise W P ν E := by
        intro m k B he hk hB
        calc B + muxNoise W P ν E ≤ (levOf c.graph lev m + 1) * muxNoise W P ν E := by rw [Nat.succ_mul]; omega
          _ ≤ _ := Nat.mul_le_mul_right _ (lower m k he hk)
      refine ⟨max Bl Bh + muxNoise W P ν E, ?_, ?_⟩
      · classical
        let f : Nat → Nat := fun m => if hx : ∃ v, NodeEval (noiseOp W P ν nz) g' m v then hx.choose else 0
        have hf : ∀ m v, NodeEval (noiseOp W P ν nz) g' m v → f m = v := by
          intro m v hv
          have hx : ∃ v, NodeEval (noiseOp W P ν nz) g' m v := ⟨v, hv⟩
          have : f m = hx.choose := dif_pos hx
          rw [this]; exact SchedG.NodeEval.unique hx.choose_spec hv
        have hp := hin.trans (hperm.map _)
        simp only [List.map_cons, List.map_nil] at hp
        rw [h] at hwt
        refine .op f hwt ?_ ?_
        · intro e he
          have := hp.mem_iff.1 he
          simp only [List.mem_cons, List.not_mem_nil, or_false] at this
          rcases this with rfl | rfl | rfl
          · rw [hf _ _ hs]; exact hs
          · rw [hf _ _ hl1]; exact hl1
          · rw [hf _ _ hh1]; exact hh1
        · refine noiseOp_mux mode ?_
          have := hp.map fun e => (f e.1, e.2.2)
          simpa [hf _ _ hs, hf _ _ hl1, hf _ _ hh1, mapE] using this
      · rw [levOf, if_pos h]
        have a1 := hmul l _ Bl e2 (by decide) hl2
        have a2 := hmul hh _ Bh e3 (by decide) hh2
        omega
    · have hi := hnil _ h (Or.inl rfl)
      rw [h] at hwt
      refine ⟨0, .op (fun _ => 0) hwt (by rw [hi]; simp) ?_, Nat.zero_le _⟩
      rw [hi]
      cases mode <;> rfl
    · have hi := hnil _ h (Or.inr rfl)
      rw [h] at hwt
      refine ⟨0, .op (fun _ => 0) hwt (by rw [hi]; simp) ?_, Nat.zero_le _⟩
      rw [hi]
      cases mode <;> rfl

/-- Inserting a circuit of depth `D` on selectors with noise `E` adds nodes with noise at most `D` times that of a multiplexer. -/
theorem insertMux_noise {W P ν nz} {Q : FheOp → Nat → Prop} (hQ : ∀ op B, (∀ t c, op ≠ .output t c) → Q op B) {g : FGraph} {c : MuxCircuit} {nIn : Nat} {outs} {nodes : List Nat}
    {mode : MuxMode} (hl : Live g) (hw : WF c.graph) (hc : Computes c nIn outs) (ht : SelectorsOnly c.graph) (hlen : nodes.length = nIn)
    (hacc : ∀ n ∈ nodes, ∃ op, g.weight n = some op ∧ acceptsMux op = true) {D : Nat} (hd : DepthAtMost c.graph D) {E : Nat}
    (hn : ∀ m ∈ nodes, NodeEval (noiseOp W P ν nz) g m E) {g' res} (h : insertMuxCircuit g c nodes mode = some (g', res)) :
    NGrow (noiseOp W P ν nz) Q g g' ∧ ∀ r ∈ res, ∃ B, NodeEval (noiseOp W P ν nz) g' r B ∧ B ≤ D * muxNoise W P ν E := by
  obtain ⟨g1, res1, i1, i2, i3, i4, i5, i6, ⟨ψ, hψ⟩, -⟩ := insertMux_struct (mode := mode) hl hw hc ht hlen hacc
  rw [h] at i1; cases i1
  obtain ⟨lev, l1, l2⟩ := hd
  have key := copied_noise (W := W) (P := P) (ν := ν) (nz := nz) hw ht hψ i3 (fun n j hj => by rw [hlen]; exact ((hc.inputs n j).1 hj).1) hn (fun n h => (l1 n h).1) l2
  have hle : ∀ n, levOf c.graph lev n ≤ D := by
    intro n
    unfold levOf
    split
    · exact (l1 n (by assumption)).2
    · exact Nat.zero_le _
  refine ⟨⟨⟨i2, i3⟩, fun hg => hg.ext i3 ?_⟩, ?_⟩
  · intro a op h0 ha
    obtain ⟨n, n1, rfl⟩ := hψ.new a h0 (by rw [ha]; rfl)
    obtain ⟨B, b1, b2⟩ := key n n1
    refine ⟨B, b1, hQ _ _ ?_⟩
    intro t x hop
    subst hop
    have := hψ.op n n1
    rw [ha] at this
    cases hw' : c.graph.weight n with
    | none => rw [hw'] at this; cases this
    | some o =>
      rw [hw'] at this
      cases o <;> cases mode <;> simp [mapOp, MuxMode.mux, MuxMode.zero, MuxMode.one] at this
  · intro r hr
    obtain ⟨i, hi⟩ := List.getElem?_of_mem hr
    have hil : i < outs.length := by rw [← i4]; exact (List.getElem?_eq_some_iff.1 hi).1
    obtain ⟨n, hn'⟩ := (hc.outIdx i).2 hil
    obtain ⟨s, s1, s2, s3⟩ := hψ.out n i hn'
    rw [hi] at s3; cases s3
    obtain ⟨B, b1, b2⟩ := key s s2
    exact ⟨B, b1, b2.trans (Nat.mul_le_mul_right _ (hle s))⟩

/-- An ordered circuit is no deeper than it has inputs. -/
theorem depth_of_ordered {c : MuxCircuit} {nIn : Nat} {outs} (hw : WF c.graph) (hc : Computes c nIn outs) (ht : SelectorsOnly c.graph) (ho : Ordered c.graph) :
    DepthAtMost c.graph nIn := by
  have hsel : ∀ n, c.graph.weight n = some .mux → ∃ s i, (s, n, MuxEdge.select) ∈ c.graph.edges ∧ c.graph.weight s = some (.variable i) ∧ i < nIn := by
    intro n hn
    obtain ⟨s, l, h, hp⟩ := hw.mux1 n hn
    have e1 : (s, n, MuxEdge.select) ∈ c.graph.edges := mem_inEdges.1 (hp.mem_iff.2 (by simp))
    obtain ⟨i, hi⟩ := (ht _ e1).1 rfl
    exact ⟨s, i, e1, hi, ((hc.inputs s i).1 hi).1⟩
  classical
  let sel : Nat → Nat := fun n => if h : ∃ s i, (s, n, MuxEdge.select) ∈ c.graph.edges ∧ c.graph.weight s = some (.variable i) ∧ i < nIn then h.choose_spec.choose else 0
  have spec : ∀ n, c.graph.weight n = some .mux → ∃ s, (s, n, MuxEdge.select) ∈ c.graph.edges ∧ c.graph.weight s = some (.variable (sel n)) ∧ sel n < nIn := by
    intro n hn
    have hx := hsel n hn
    have : sel n = hx.choose_spec.choose := dif_pos hx
    rw [this]
    exact ⟨hx.choose, hx.choose_spec.choose_spec⟩
  refine ⟨fun n => nIn - sel n, fun n hn => ?_, fun m n k he hk hm hn => ?_⟩
  · obtain ⟨s, -, -, h⟩ := spec n hn
    show 1 ≤ nIn - sel n ∧ nIn - sel n ≤ nIn
    omega
  · obtain ⟨s, a1, a2, a3⟩ := spec m hm
    obtain ⟨s', b1, b2, b3⟩ := spec n hn
    have := ho m n k s' s _ _ he hk hm b1 b2 a1 a2
    show nIn - sel m < nIn - sel n
    omega

end Spf.Fluent
