import Verif.Proof.MuxNoise
import Verif.Proof.FluentMul
import Verif.Proof.Prune
/-! The noise of product circuits. -/
namespace Spf.Fluent
open Spf.Spec Spf.Fhe Spf.Mux Spf.Mul Spf.Props Spf.CtExec Graph

variable {W : Nat} {P : EvalParams} {ν : NoiseLevels} {nz : CtType → Nat → Nat} {Q : FheOp → Nat → Prop}

theorem insertLib_noise (hQ : ∀ op B, (∀ t c, op ≠ .output t c) → Q op B) {lib : CircLib} (hdep : CircDepthOk lib) {g : FGraph} (hl : Live g) {fs : List BddFn} {nv : Nat} (hc : CircOk lib nv fs)
    {nodes : List Nat} {mode : MuxMode} (hlen : nodes.length = nv) (hk : AreNodes g .ggsw1 nodes) {E : Nat} (hn : ∀ m ∈ nodes, NodeEval (noiseOp W P ν nz) g m E) {g' res}
    (h : insertLib lib nv (some fs) nodes mode g = some (g', res)) :
    NGrow (noiseOp W P ν nz) Q g g' ∧ ∀ r ∈ res, ∃ B, NodeEval (noiseOp W P ν nz) g' r B ∧ B ≤ nv * muxNoise W P ν E := by
  obtain ⟨c, fs', h1, h2, h3, h4, h5, h6⟩ := hc
  have hacc : ∀ n ∈ nodes, ∃ op, g.weight n = some op ∧ acceptsMux op = true := by
    intro n hn
    obtain ⟨op, b1, b2⟩ := hk n hn
    exact ⟨op, b1, accepts_of_type b2⟩
  unfold insertLib at h
  simp only [h1] at h
  exact insertMux_noise hQ hl h2 h4 h3 hlen hacc (hdep _ _ _ h1) hn h

theorem convert_boot_noise (hQ : ∀ op B, (∀ t c, op ≠ .output t c) → Q op B) {g : FGraph} (hl : Live g) {n B : Nat} (hn : NodeEval (noiseOp W P ν nz) g n B)
    (hB : B + ksNoise W P ν < bootLimit W P ν) {g' m} (h : convert 5 g n .glwe1 .ggsw1 = some (g', m)) :
    NGrow (noiseOp W P ν nz) Q g g' ∧ NodeEval (noiseOp W P ν nz) g' m (bootNoise W P ν) := by
  obtain ⟨s0, v0⟩ := ext1_ngrow (ex := noiseOp W P ν nz) (Q := Q) hl (op := .sampleExtract 0) (es := [(n, .unary)]) (fun _ => B) (v := B)
    (by simpa using hn) (by simp [noiseOp]) (hQ _ _ (by intro _ _ h; cases h))
  have he0 := addEdge_ext1 (op := .sampleExtract 0) (es := []) (k := FheEdge.unary) (neval_live hn)
  generalize hg0 : ext1 g (.sampleExtract 0) [(n, .unary)] = g0 at *
  generalize hn0 : g.nodes.length = n0 at *
  obtain ⟨s1, v1⟩ := ext1_ngrow (ex := noiseOp W P ν nz) (Q := Q) s0.live (op := .keyswitchL1toL0) (es := [(n0, .unary)]) (fun _ => B) (v := B + ksNoise W P ν)
    (by simpa using v0) (by simp [noiseOp]) (hQ _ _ (by intro _ _ h; cases h))
  have he1 := addEdge_ext1 (op := .keyswitchL1toL0) (es := []) (k := FheEdge.unary) (neval_live v0)
  generalize hg1 : ext1 g0 .keyswitchL1toL0 [(n0, .unary)] = g1 at *
  generalize hn1 : g0.nodes.length = n1 at *
  obtain ⟨s2, v2⟩ := ext1_ngrow (ex := noiseOp W P ν nz) (Q := Q) s1.live (op := .circuitBootstrap) (es := [(n1, .unary)]) (fun _ => B + ksNoise W P ν)
    (v := bootNoise W P ν) (by simpa using v1) (by simp [noiseOp, hB]) (hQ _ _ (by intro _ _ h; cases h))
  have he2 := addEdge_ext1 (op := .circuitBootstrap) (es := []) (k := FheEdge.unary) (neval_live v1)
  generalize hg2 : ext1 g1 .circuitBootstrap [(n1, .unary)] = g2 at *
  generalize hn2 : g1.nodes.length = n2 at *
  have h5 : convert 5 g n .glwe1 .ggsw1 = some (g2, n2) := by
    show (if (CtType.glwe1 = CtType.ggsw1) then _ else _) = _
    rw [if_neg (by decide)]
    simp only [addNode_ext1, hn0, he0]
    show (if (CtType.lwe1 = CtType.ggsw1) then _ else _) = _
    rw [if_neg (by decide)]
    simp only [addNode_ext1, hn1, he1]
    show (if (CtType.lwe0 = CtType.ggsw1) then _ else _) = _
    rw [if_neg (by decide)]
    simp only [addNode_ext1, hn2, he2]
    rfl
  rw [h5] at h
  cases h
  exact ⟨(s0.trans s1).trans s2, v2⟩

theorem convertAll_boot_noise (hQ : ∀ op B, (∀ t c, op ≠ .output t c) → Q op B) {N : Nat} (hN : N + ksNoise W P ν < bootLimit W P ν) : ∀ (ns : List Nat) (g : FGraph), Live g →
    (∀ n ∈ ns, ∃ B, NodeEval (noiseOp W P ν nz) g n B ∧ B ≤ N) → ∀ g' ms, convertAll .glwe1 .ggsw1 ns g = some (g', ms) →
    NGrow (noiseOp W P ν nz) Q g g' ∧ ∀ m ∈ ms, NodeEval (noiseOp W P ν nz) g' m (bootNoise W P ν)
  | [], g, hl, hb, g', ms, h => by cases h; exact ⟨NGrow.refl hl, by simp⟩
  | n :: ns, g, hl, hb, g', ms, h => by
    simp only [convertAll] at h
    cases h3 : convert 5 g n .glwe1 .ggsw1 with
    | none => rw [h3] at h; cases h
    | some r =>
      obtain ⟨g1, m⟩ := r
      rw [h3] at h
      simp only at h
      obtain ⟨B, b1, b2⟩ := hb n (by simp)
      obtain ⟨s1, v1⟩ := convert_boot_noise (Q := Q) hQ hl b1 (by omega) h3
      cases h4 : convertAll .glwe1 .ggsw1 ns g1 with
      | none => rw [h4] at h; cases h
      | some r =>
        obtain ⟨g2, ms'⟩ := r
        rw [h4] at h
        cases h
        obtain ⟨s2, v2⟩ := convertAll_boot_noise hQ hN ns g1 s1.live (fun n' hn' => by
          obtain ⟨B', c1, c2⟩ := hb n' (by simp [hn'])
          exact ⟨B', FExt_neval s1.ext c1, c2⟩) _ _ h4
        refine ⟨s1.trans s2, fun x hx => ?_⟩
        rcases List.mem_cons.1 hx with rfl | hx
        · exact FExt_neval s2.ext v1
        · exact v2 x hx

/-- what the noise of a product circuit is -/
def MulNoisy (W : Nat) (P : EvalParams) (ν : NoiseLevels) (nz : CtType → Nat → Nat) (Q : FheOp → Nat → Prop) (lib : CircLib) (N : Nat) (a b : List Nat) (g : FGraph) : Prop :=
  ∀ g' r, mulNodes lib .glwe a b g = some (g', r) → NGrow (noiseOp W P ν nz) Q g g' ∧ ∀ x ∈ r, ∃ B, NodeEval (noiseOp W P ν nz) g' x B ∧ B ≤ N

theorem mulNodes_noise (hQ : ∀ op B, (∀ t c, op ≠ .output t c) → Q op B) {lib : CircLib} (hlib : CircLibOk lib) (hdep : CircDepthOk lib) {N : Nat} (hN : N + ksNoise W P ν < bootLimit W P ν)
    {deg : Nat} (hdeg : 0 < deg) {n m : Nat} (hw : MulWidths n m) : 2 * (n + m) * muxNoise W P ν (bootNoise W P ν) ≤ N → ∀ (a b : List Nat) (g : FGraph), a.length = n → b.length = m → Live g →
      AreNodes g .ggsw1 a → AreNodes g .ggsw1 b → (∀ x ∈ a ++ b, NodeEval (noiseOp W P ν nz) g x (bootNoise W P ν)) → MulNoisy W P ν nz Q lib N a b g := by
  induction hw with
  | @base n m h1 h2 h3 h4 =>
    intro hb a b g la lb hl ha hb' hx
    subst la lb
    -- the operands in order
    have main : ∀ a b : List Nat, b.length ≤ a.length → a.length ≤ 16 → 1 ≤ b.length → 2 * (a.length + b.length) * muxNoise W P ν (bootNoise W P ν) ≤ N → AreNodes g .ggsw1 a → AreNodes g .ggsw1 b →
        (∀ x ∈ a ++ b, NodeEval (noiseOp W P ν nz) g x (bootNoise W P ν)) → MulNoisy W P ν nz Q lib N a b g := by
      intro a b hab h2 h1 hb ha hb' hx g' r h
      have hln : longerN a b = a := by unfold longerN; rw [if_neg (by omega)]
      have hsn : shorterN a b = b := by unfold shorterN; rw [if_neg (by omega)]
      have hmul : 2 * a.length * b.length ≤ 2 * 16 * 16 := Nat.mul_le_mul (Nat.mul_le_mul_left 2 h2) (by omega)
      obtain ⟨outs, o1, o2, _⟩ := C09_multiplier (List.replicate a.length false) (List.replicate b.length false)
        (by simp; omega) (by simp; omega) (by simp only [List.length_replicate, maxVars]; omega) (by simp; omega)
      simp only [List.length_replicate] at o1 o2
      rw [mulNodes] at h
      simp only [hln, hsn] at h
      rw [partition_small _ (by simpa [circuitCutoff] using h2), partition_small _ (by simp only [circuitCutoff]; omega), if_pos ⟨rfl, rfl⟩, o1] at h
      obtain ⟨s, v⟩ := insertLib_noise (Q := Q) hQ hdep hl (hlib.mul _ _ _ o1 (by intro h; rw [h] at o2; simp at o2; omega)) (nodes := a ++ b) (by simp) (AreNodes.append ha hb') hx h
      refine ⟨s, fun x hxr => ?_⟩
      obtain ⟨B, b1, b2⟩ := v x hxr
      refine ⟨B, b1, Nat.le_trans b2 (Nat.le_trans (Nat.mul_le_mul_right _ (by omega)) hb)⟩
    by_cases h : b.length ≤ a.length
    · exact main a b h h2 h3 hb ha hb' hx
    · intro g' r hr
      rw [mulNodes_swap (by omega)] at hr
      exact main b a (by omega) h4 h1 (by rw [Nat.add_comm b.length]; exact hb) hb' ha (fun x hx' => hx x (by simpa [or_comm] using hx')) g' r hr
  | @swap n m h _ ih =>
    intro hb a b g la lb hl ha hb' hx g' r hr
    rw [mulNodes_swap (by omega)] at hr
    exact ih (by rw [Nat.add_comm m]; exact hb) b a g lb la hl hb' ha (fun x hx' => hx x (by simpa [or_comm] using hx')) g' r hr
  | @split n m h1 h2 h3 h4 w1 w2 w3 w4 i1 i2 i3 i4 =>
    intro hb a b g la lb hl ha hb' hx g' r h
    subst la lb
    have hln : longerN a b = a := by unfold longerN; rw [if_neg (by omega)]
    have hsn : shorterN a b = b := by unfold shorterN; rw [if_neg (by omega)]
    have pa := partition_big a.length (by simp only [circuitCutoff]; omega)
    have pb := partition_big b.length (by simp only [circuitCutoff]; omega)
    obtain ⟨m1, m2⟩ := partition_mono a.length b.length (by simp only [circuitCutoff]; omega) h3
    have bound : ∀ x y : Nat, x ≤ a.length → y ≤ b.length → 2 * (x + y) * muxNoise W P ν (bootNoise W P ν) ≤ N := fun x y hx hy =>
      Nat.le_trans (Nat.mul_le_mul_right _ (by omega)) hb
    have e1 : (a.take ((a.length + 1) / 2)).length = (a.length + 1) / 2 := by rw [List.length_take]; omega
    have e2 : (b.take ((b.length + 1) / 2)).length = (b.length + 1) / 2 := by rw [List.length_take]; omega
    have e3 : (a.drop ((a.length + 1) / 2)).length = a.length / 2 := by rw [List.length_drop]; omega
    have e4 : (b.drop ((b.length + 1) / 2)).length = b.length / 2 := by rw [List.length_drop]; omega
    have tk : ∀ {g : FGraph} {x : List Nat} (_ : AreNodes g .ggsw1 x) k, AreNodes g .ggsw1 (x.take k) := fun h k =>
      AreNodes.sub h fun _ hn => List.mem_of_mem_take hn
    have dr : ∀ {g : FGraph} {x : List Nat} (_ : AreNodes g .ggsw1 x) k, AreNodes g .ggsw1 (x.drop k) := fun h k =>
      AreNodes.sub h fun _ hn => List.mem_of_mem_drop hn
    rw [mulNodes] at h
    simp only [hln, hsn] at h
    rw [pa, pb] at h
    simp only at h
    rw [if_neg (by omega), if_neg (by omega), dif_neg (by simp only [circuitCutoff]; omega)] at h
    obtain ⟨g1, p00, a1, s1, n1, l1, -⟩ := mulNodes_ok (io := fun _ _ => True) hlib hdeg w1 .glwe (a.take ((a.length + 1) / 2)) (b.take ((b.length + 1) / 2)) g (Or.inl rfl) e1 e2 hl (tk ha _) (tk hb' _)
    obtain ⟨t1, v1⟩ := i1 (bound _ _ (by omega) (by omega)) _ _ g e1 e2 hl (tk ha _) (tk hb' _) (fun x hx' => hx x (by
      rcases List.mem_append.1 hx' with h | h
      · exact List.mem_append_left _ (List.mem_of_mem_take h)
      · exact List.mem_append_right _ (List.mem_of_mem_take h))) g1 p00 a1
    have ha1 := nodes_ext s1.ext ha
    have hb1 := nodes_ext s1.ext hb'
    have hx1 := fun x hx' => FExt_neval t1.ext (hx x hx')
    obtain ⟨g2, p01, a2, s2, n2, l2, -⟩ := mulNodes_ok (io := fun _ _ => True) hlib hdeg w2 .glwe (a.take ((a.length + 1) / 2)) (b.drop ((b.length + 1) / 2)) g1 (Or.inl rfl) e1 e4 s1.live (tk ha1 _) (dr hb1 _)
    obtain ⟨t2, v2⟩ := i2 (bound _ _ (by omega) (by omega)) _ _ g1 e1 e4 s1.live (tk ha1 _) (dr hb1 _) (fun x hx' => hx1 x (by
      rcases List.mem_append.1 hx' with h | h
      · exact List.mem_append_left _ (List.mem_of_mem_take h)
      · exact List.mem_append_right _ (List.mem_of_mem_drop h))) g2 p01 a2
    have ha2 := nodes_ext s2.ext ha1
    have hb2 := nodes_ext s2.ext hb1
    have hx2 := fun x hx' => FExt_neval t2.ext (hx1 x hx')
    obtain ⟨g3, p10, a3, s3, n3, l3, -⟩ := mulNodes_ok (io := fun _ _ => True) hlib hdeg w3 .glwe (a.drop ((a.length + 1) / 2)) (b.take ((b.length + 1) / 2)) g2 (Or.inl rfl) e3 e2 s2.live (dr ha2 _) (tk hb2 _)
    obtain ⟨t3, v3⟩ := i3 (bound _ _ (by omega) (by omega)) _ _ g2 e3 e2 s2.live (dr ha2 _) (tk hb2 _) (fun x hx' => hx2 x (by
      rcases List.mem_append.1 hx' with h | h
      · exact List.mem_append_left _ (List.mem_of_mem_drop h)
      · exact List.mem_append_right _ (List.mem_of_mem_take h))) g3 p10 a3
    have ha3 := nodes_ext s3.ext ha2
    have hb3 := nodes_ext s3.ext hb2
    have hx3 := fun x hx' => FExt_neval t3.ext (hx2 x hx')
    obtain ⟨g4, p11, a4, s4, n4, l4, -⟩ := mulNodes_ok (io := fun _ _ => True) hlib hdeg w4 .glwe (a.drop ((a.length + 1) / 2)) (b.drop ((b.length + 1) / 2)) g3 (Or.inl rfl) e3 e4 s3.live (dr ha3 _) (dr hb3 _)
    obtain ⟨t4, v4⟩ := i4 (bound _ _ (by omega) (by omega)) _ _ g3 e3 e4 s3.live (dr ha3 _) (dr hb3 _) (fun x hx' => hx3 x (by
      rcases List.mem_append.1 hx' with h | h
      · exact List.mem_append_left _ (List.mem_of_mem_drop h)
      · exact List.mem_append_right _ (List.mem_of_mem_drop h))) g4 p11 a4
    simp only [a1, a2, a3, a4] at h
    cases he : encodeGradeschoolReduction 0 a.length b.length p00 p01 p10 p11 with
    | none => rw [he] at h; cases h
    | some enc =>
      rw [he] at h
      simp only at h
      simp only [e1, e2, e3, e4] at l1 l2 l3 l4
      have hne : p00 ≠ [] := by intro h; rw [h] at l1; simp at l1; omega
      have lift : ∀ {p : List Nat} {g g' : FGraph}, NGrow (noiseOp W P ν nz) Q g g' → (∀ x ∈ p, ∃ B, NodeEval (noiseOp W P ν nz) g x B ∧ B ≤ N) → ∀ x ∈ p, ∃ B, NodeEval (noiseOp W P ν nz) g' x B ∧ B ≤ N := by
        intro p g g' hg hp x hxp
        obtain ⟨B, b1, b2⟩ := hp x hxp
        exact ⟨B, FExt_neval hg.ext b1, b2⟩
      have vv1 := lift (t2.trans (t3.trans t4)) v1
      have vv2 := lift (t3.trans t4) v2
      have vv3 := lift t4 v3
      have nn1 := nodes_ext (s2.trans (s3.trans s4)).ext n1
      have nn2 := nodes_ext (s3.trans s4).ext n2
      have nn3 := nodes_ext s4.ext n3
      have ed := encode_dflt 0 (p00.head hne) a.length b.length p00 p01 p10 p11
      rw [he] at ed
      have hencV := encode_mem (P := fun x => ∃ B, NodeEval (noiseOp W P ν nz) g4 x B ∧ B ≤ N) ed.symm (vv1 _ (List.head_mem hne)) vv1 vv2 vv3 v4
      have hencN : AreNodes g4 .glwe1 enc := fun x hxe =>
        encode_mem (P := fun n => ∃ op, g4.weight n = some op ∧ opType op = some .glwe1) ed.symm (nn1 _ (List.head_mem hne)) nn1 nn2 nn3 n4 x hxe
      obtain ⟨g5, enc', c1, s5, n5, l5, -⟩ := convertAll_ok (io := fun _ _ => True) hdeg .glwe1 .ggsw1 enc g4 s4.live hencN
      obtain ⟨t5, v5⟩ := convertAll_boot_noise (Q := Q) hQ hN enc g4 s4.live hencV g5 enc' c1
      simp only [c1] at h
      have red := C10_reduction a.length b.length h3 h4 m1 m2 (List.replicate p00.length false) (List.replicate p01.length false)
        (List.replicate p10.length false) (List.replicate p11.length false)
      rw [pa, pb] at red
      obtain ⟨e, outs, r1, r2, r3, r4, _⟩ := red (by simpa using l1) (by simpa using l2) (by simpa using l3) (by simpa using l4)
      obtain ⟨enc2, he2, hel⟩ := encode_some ⟨e, r1, r2⟩
      rw [he] at he2; cases he2
      rw [r3] at h
      obtain ⟨t6, v6⟩ := insertLib_noise (Q := Q) hQ hdep s5.live (hlib.red _ _ _ r3 (by intro h; rw [h] at r4; simp at r4; omega)) (nodes := enc') (by omega) n5 v5 h
      refine ⟨t1.trans (t2.trans (t3.trans (t4.trans (t5.trans t6)))), fun x hxr => ?_⟩
      obtain ⟨B, b1, b2⟩ := v6 x hxr
      exact ⟨B, b1, Nat.le_trans b2 (by rw [Nat.add_comm b.length]; exact hb)⟩

end Spf.Fluent
