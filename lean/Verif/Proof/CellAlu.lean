import Verif.Spec.CellAlu
import Verif.Proof.MuxNoise
import Verif.Proof.MulNoise
import Verif.Proof.PruneNoise
import Verif.Proof.CellSim
import Verif.Proof.FluentRun
import Verif.Props.FluentRun
import Verif.Spec.FluentMulProg
import Verif.Props.MuxReduced
/-! The circuits that instructions on ciphertexts spawn: they are built without panicking, compute the right bits and have bounded noise. -/
namespace Spf.Cells
open Spf.Spec Spf.Fhe Spf.Fluent Spf.Mux Spf.Props Graph

/-- a step of a builder that adds no output node -/
structure BStep (d : Nat) (io : Nat → FheOp → Prop) (ex : FheOp → List (Nat × FheEdge) → Option Nat) (Q : FheOp → Nat → Prop) (g g' : FGraph) : Prop extends Step d io g g' where
  all : AllN ex Q g → AllN ex Q g'
  noOut : ∀ n t c, g'.weight n = some (.output t c) → g.weight n = some (.output t c)

variable {d : Nat} {io : Nat → FheOp → Prop} {ex : FheOp → List (Nat × FheEdge) → Option Nat} {Q : FheOp → Nat → Prop} {cells : CtType → Nat → Val}

theorem BStep.refl {g : FGraph} (h : Live g) : BStep d io ex Q g g := ⟨Step.refl h, id, fun _ _ _ h => h⟩
theorem BStep.trans {a b c : FGraph} (h : BStep d io ex Q a b) (h' : BStep d io ex Q b c) : BStep d io ex Q a c :=
  ⟨h.toStep.trans h'.toStep, fun x => h'.all (h.all x), fun n t x hn => h.noOut _ _ _ (h'.noOut _ _ _ hn)⟩

/-- node `n` produces ciphertexts of kind `t`; it has the value `v` and the noise `B` -/
structure NodeIs (d : Nat) (cells : CtType → Nat → Val) (ex : FheOp → List (Nat × FheEdge) → Option Nat) (g : FGraph) (n : Nat) (t : CtType) (v : Val) (B : Nat) : Prop where
  op : ∃ op, g.weight n = some op ∧ opType op = some t
  val : FEval d cells g n v
  noise : NodeEval ex g n B

theorem NodeIs.ext {g g' : FGraph} {n t v B} (h : NodeIs d cells ex g n t v B) (hx : FExt g g') : NodeIs d cells ex g' n t v B := by
  obtain ⟨op, h1, h2⟩ := h.op
  exact ⟨⟨op, (hx _ _ h1).1, h2⟩, hx.eval h.val, FExt_neval hx h.noise⟩

theorem NodeIs.live {g : FGraph} {n t v B} (h : NodeIs d cells ex g n t v B) : (g.weight n).isSome := neval_live h.noise

/-- adding an inner node; `fv`, `fB` give the values and noise of its operands -/
theorem add_op {g : FGraph} (hl : Live g) (hQ : ∀ op B, (∀ t c, op ≠ .output t c) → Q op B) {op : FheOp} {t : CtType} (ht : opType op = some t) (hno : ∀ t c, op ≠ .output t c)
    (hio : Internal op ∨ ∀ n, io n op) (ty : Nat → CtType) (fv : Nat → Val) (fB : Nat → Nat) {es : List (Nat × FheEdge)}
    (hs : ∀ p ∈ es, NodeIs d cells ex g p.1 (ty p.1) (fv p.1) (fB p.1))
    (hex : ∀ cells (f : Nat → Val), (∀ p ∈ es, (f p.1).type = ty p.1) → (execOp d cells op (es.map fun p => (f p.1, p.2))).isSome)
    {v : Val} (hv : execOp d cells op (es.map fun p => (fv p.1, p.2)) = some v) {B : Nat} (hB : ex op (es.map fun p => (fB p.1, p.2)) = some B) :
    BStep d io ex Q g (ext1 g op es) ∧ NodeIs d cells ex (ext1 g op es) g.nodes.length t v B := by
  obtain ⟨h1, h2⟩ := ext1_ngrow (ex := ex) (Q := Q) hl fB (fun p hp => (hs p hp).noise) hB (hQ _ _ hno)
  refine ⟨⟨⟨h1.toGrow, ext1_good hl hio (fun p hp => ?_) fun cells' f hc hf => hex cells' f fun p hp => ?_⟩, h1.all, ?_⟩, ⟨op, ext1_weight _ _ _, ht⟩,
    ext1_eval hl fv (fun p hp => (hs p hp).val) hv, h2⟩
  · obtain ⟨o, o1, o2⟩ := (hs p hp).op
    exact ⟨o, _, o1, o2⟩
  · obtain ⟨o, o1, o2⟩ := (hs p hp).op
    exact feval_type hc (hf p hp) o1 o2
  · intro n t' c hn
    rcases ext1_weight_cases hn with h | ⟨_, h⟩
    · exact h
    · exact absurd h.symm (hno t' c)

/-- one operand -/
theorem add_op1 {g : FGraph} (hl : Live g) (hQ : ∀ op B, (∀ t c, op ≠ .output t c) → Q op B) {op : FheOp} {t ta : CtType} (ht : opType op = some t) (hno : ∀ t c, op ≠ .output t c)
    (hio : Internal op ∨ ∀ n, io n op) {n : Nat} {k : FheEdge} {va : Val} {Ba : Nat} (ha : NodeIs d cells ex g n ta va Ba)
    (hex : ∀ cells v, v.type = ta → (execOp d cells op [(v, k)]).isSome) {v : Val} (hv : execOp d cells op [(va, k)] = some v) {B : Nat} (hB : ex op [(Ba, k)] = some B) :
    (g.addNode op).1.addEdge n (g.addNode op).2 k = some (ext1 g op [(n, k)]) ∧
    BStep d io ex Q g (ext1 g op [(n, k)]) ∧ NodeIs d cells ex (ext1 g op [(n, k)]) (g.addNode op).2 t v B := by
  refine ⟨addEdge_ext1 (es := []) ha.live, add_op hl hQ ht hno hio (fun _ => ta) (fun _ => va) (fun _ => Ba) (by simpa using ha)
    (fun cells f hf => ?_) hv hB⟩
  exact hex cells _ (by simpa using hf)

variable {W : Nat} {P : CtExec.EvalParams} {ν : NoiseLevels} {nz : CtType → Nat → Nat}

theorem add_input {g : FGraph} (hl : Live g) (hQ : ∀ op B, (∀ t c, op ≠ .output t c) → Q op B) (c : Nat) (hio : ∀ n, io n (.input .glwe1 c)) :
    BStep d io (noiseOp W P ν nz) Q g (g.addNode (.input .glwe1 c)).1 ∧
    NodeIs d cells (noiseOp W P ν nz) (g.addNode (.input .glwe1 c)).1 (g.addNode (.input .glwe1 c)).2 .glwe1 (cells .glwe1 c) (nz .glwe1 c) :=
  add_op hl hQ (es := []) rfl (by intro _ _ h; cases h) (Or.inr hio) (fun _ => .glwe1) (fun _ => .lwe0 false) (fun _ => 0) (by simp) (fun _ _ _ => rfl) rfl rfl

theorem bootInput_ok (hd : 0 < d) (hQ : ∀ op B, (∀ t c, op ≠ .output t c) → Q op B) {c : Nat} (hio : ∀ n, io n (.input .glwe1 c)) {b : Bool} (hc : cells .glwe1 c = ctOf .glwe1 b)
    (hb : nz .glwe1 c + ksNoise W P ν < bootLimit W P ν) {g : FGraph} (hl : Live g) :
    ∃ g' n, bootInput c g = some (g', n) ∧ BStep d io (noiseOp W P ν nz) Q g g' ∧ NodeIs d cells (noiseOp W P ν nz) g' n .ggsw1 (.ggsw1 b) (bootNoise W P ν) := by
  obtain ⟨s1, n1⟩ := add_input (d := d) (io := io) (W := W) (P := P) (ν := ν) (nz := nz) (Q := Q) (cells := cells) hl hQ c hio
  rw [hc] at n1
  have notOut : ∀ {op : FheOp}, opType op ≠ none → ∀ t c, op ≠ .output t c := by intro op h t c he; subst he; exact h rfl
  obtain ⟨e2, s2, n2⟩ := add_op1 (io := io) (Q := Q) (op := .sampleExtract 0) (t := .lwe1) (k := .unary) s1.live hQ rfl (notOut (by simp [opType])) (Or.inl (Internal.of rfl (by intro _ _ h; cases h))) n1
    (fun cells v hv => by obtain ⟨p, rfl⟩ := Val.of_glwe1 hv; simp [execOp, hd]) (v := .lwe1 b) (by simp [execOp, hd, ctOf, constPoly]) (B := nz .glwe1 c) rfl
  generalize hx2 : ext1 (g.addNode (.input .glwe1 c)).1 (.sampleExtract 0) [((g.addNode (.input .glwe1 c)).2, .unary)] = g2 at *
  obtain ⟨e3, s3, n3⟩ := add_op1 (io := io) (Q := Q) (op := .keyswitchL1toL0) (t := .lwe0) (k := .unary) s2.live hQ rfl (notOut (by simp [opType])) (Or.inl (Internal.of rfl (by intro _ _ h; cases h))) n2
    (fun cells v hv => by cases v <;> simp [Val.type] at hv; simp [execOp]) (v := .lwe0 b) (by simp [execOp]) (B := nz .glwe1 c + ksNoise W P ν) rfl
  generalize hx3 : ext1 g2 .keyswitchL1toL0 _ = g3 at *
  obtain ⟨e4, s4, n4⟩ := add_op1 (io := io) (Q := Q) (op := .circuitBootstrap) (t := .ggsw1) (k := .unary) s3.live hQ rfl (notOut (by simp [opType])) (Or.inl (Internal.of rfl (by intro _ _ h; cases h))) n3
    (fun cells v hv => by cases v <;> simp [Val.type] at hv; simp [execOp]) (v := .ggsw1 b) (by simp [execOp]) (B := bootNoise W P ν) (by simp [noiseOp, hb])
  generalize hx4 : ext1 g3 .circuitBootstrap _ = g4 at *
  refine ⟨g4, _, ?_, ((s1.trans s2).trans s3).trans s4, n4⟩
  simp only [bootInput, e2, e3, e4]

theorem bootInputs_ok (hd : 0 < d) (hQ : ∀ op B, (∀ t c, op ≠ .output t c) → Q op B) : ∀ (cs : List Nat) (bs : List Bool) (g : FGraph), Live g → (∀ c ∈ cs, ∀ n, io n (.input .glwe1 c)) →
    List.Forall₂ (fun c b => cells .glwe1 c = ctOf .glwe1 b) cs bs → (∀ c ∈ cs, nz .glwe1 c + ksNoise W P ν < bootLimit W P ν) →
    ∃ g' ns, bootInputs cs g = some (g', ns) ∧ BStep d io (noiseOp W P ν nz) Q g g' ∧
      List.Forall₂ (fun n b => NodeIs d cells (noiseOp W P ν nz) g' n .ggsw1 (.ggsw1 b) (bootNoise W P ν)) ns bs
  | [], _, g, hl, _, .nil, _ => ⟨g, [], rfl, BStep.refl hl, .nil⟩
  | c :: cs, b :: bs, g, hl, hio, .cons h hs, hb => by
    obtain ⟨g1, n1, e1, s1, i1⟩ := bootInput_ok (W := W) (P := P) (ν := ν) (nz := nz) hd hQ (hio c (by simp)) h (hb c (by simp)) hl
    obtain ⟨g2, ns, e2, s2, i2⟩ := bootInputs_ok hd hQ cs bs g1 s1.live (fun c' hc' => hio c' (by simp [hc'])) hs (fun c' hc' => hb c' (by simp [hc']))
    exact ⟨g2, n1 :: ns, by simp only [bootInputs, e1, e2], s1.trans s2, .cons (i1.ext s2.ext) i2⟩

/-! ### the loops over bits -/

theorem perBit_ok {α : Type} {step : α → FGraph → Option (FGraph × Nat)} {V : α → Bool} {B : Nat} (hQo : ∀ c B', B' ≤ B → Q (.output .glwe1 c) B') {g0 : FGraph} (hx : ∀ B' t c, noiseOp W P ν nz (.output t c) [(B', .unary)] = some B') :
    ∀ (xs : List α) (os : List Nat) (g : FGraph) (U : List (CtType × Nat)), (∀ x ∈ xs, ∀ g, FExt g0 g → Live g → ∃ g' n, step x g = some (g', n) ∧ BStep d io (noiseOp W P ν nz) Q g g' ∧
        ∃ B', B' ≤ B ∧ NodeIs d cells (noiseOp W P ν nz) g' n .glwe1 (ctOf .glwe1 (V x)) B') →
      xs.length = os.length → FExt g0 g → Live g → (∀ o ∈ os, ∀ n, io n (.output .glwe1 o)) → OutsIn g U → (U ++ os.map (CtType.glwe1, ·)).Nodup →
      ∃ g', perBit step xs os g = some g' ∧ Step d io g g' ∧ (AllN (noiseOp W P ν nz) Q g → AllN (noiseOp W P ν nz) Q g') ∧ OutsIn g' (U ++ os.map (CtType.glwe1, ·)) ∧
        ∀ (i : Nat) x o, xs[i]? = some x → os[i]? = some o → Writes d cells g' .glwe1 o (ctOf .glwe1 (V x))
  | [], [], g, U, _, _, _, hl, _, hU, _ => ⟨g, rfl, Step.refl hl, id, by simpa using hU, fun i x o h => by simp at h⟩
  | x :: xs, o :: os, g, U, hs, hlen, h0, hl, hio, hU, hnd => by
    obtain ⟨g1, n, e1, s1, B', hB', n1⟩ := hs x (by simp) g h0 hl
    have he := addEdge_ext1 (op := .output .glwe1 o) (es := []) (k := FheEdge.unary) n1.live
    obtain ⟨h1, h2⟩ := ext1_ngrow (ex := noiseOp W P ν nz) (Q := Q) s1.live (op := .output .glwe1 o) (es := [(n, .unary)]) (fun _ => B') (v := B') (by simpa using n1.noise) (hx _ _ _) (hQo o B' hB')
    have hg := fun hg => ext1_good1 (deg := d) (op := .output .glwe1 o) (k := .unary) (t := .glwe1) s1.live (Or.inr (hio o (by simp))) n1.op
      (fun cells v hv => by simp [execOp, hv]) (io := io) hg
    have hv := ext1_eval (op := .output .glwe1 o) (es := [(n, .unary)]) s1.live (fun _ => ctOf .glwe1 (V x)) (deg := d) (cells := cells) (v := ctOf .glwe1 (V x)) (by simpa using n1.val) (by simp [execOp, ctOf_type])
    have hU1 : OutsIn g1 U := ⟨fun n t c hn => hU.1 n t c (s1.noOut n t c hn), fun n n' t c hn hn' => hU.2 n n' t c (s1.noOut _ _ _ hn) (s1.noOut _ _ _ hn')⟩
    rw [List.map_cons, List.append_cons] at hnd ⊢
    have hno : (CtType.glwe1, o) ∉ U := by
      have := (List.nodup_append.1 (List.nodup_append.1 hnd).1).2.2
      intro h; exact this _ h _ (by simp) rfl
    obtain ⟨g2, e2, s2, a2, u2, v2⟩ := perBit_ok hQo hx xs os _ (U ++ [(.glwe1, o)]) (fun y hy => hs y (by simp [hy])) (by simpa using hlen) ((h0.trans s1.ext).trans h1.ext) h1.live
      (fun o' ho' => hio o' (by simp [ho'])) (hU1.ext1 (es := [(n, .unary)]) hno) hnd
    refine ⟨g2, ?_, (s1.toStep.trans ⟨h1.toGrow, hg⟩).trans s2, fun h => a2 (h1.all (s1.all h)), u2, ?_⟩
    · simp only [perBit, e1, addNode_ext1, he, e2]
    · intro i y o' hy ho'
      cases i with
      | zero =>
        cases hy; cases ho'
        exact ⟨_, (s2.ext _ _ (ext1_weight _ _ _)).1, s2.ext.eval hv⟩
      | succ i => exact v2 i y o' hy ho'

theorem noiseOp_add {ins : List (Nat × FheEdge)} {l r : Nat} (hp : ins.Perm [(l, .left), (r, .right)]) : noiseOp W P ν nz .glweAdd ins = some (l + r) := by
  have hnd : (ins.map Prod.snd).Nodup := (hp.map Prod.snd).nodup_iff.2 (by simp)
  have h1 := pick_mem hnd (hp.mem_iff.2 (by simp) : (l, FheEdge.left) ∈ ins)
  have h2 := pick_mem hnd (hp.mem_iff.2 (by simp) : (r, FheEdge.right) ∈ ins)
  have hl := hp.length_eq
  match ins, hl with
  | [a, b], _ => simp only [noiseOp, h1, h2]

theorem not_output {op : FheOp} (h : opType op ≠ none) : ∀ t c, op ≠ .output t c := by intro t c he; subst he; exact h rfl

theorem two_fun {α : Type} {a b : Nat} (h : a ≠ b) (x y : α) : ∃ f : Nat → α, f a = x ∧ f b = y :=
  ⟨fun n => if n = a then x else y, if_pos rfl, if_neg (Ne.symm h)⟩

theorem three_fun {α : Type} {a b c : Nat} (h : a ≠ b) (h1 : a ≠ c) (h2 : b ≠ c) (x y z : α) : ∃ f : Nat → α, f a = x ∧ f b = y ∧ f c = z :=
  ⟨fun n => if n = a then x else if n = b then y else z, if_pos rfl, by simp [Ne.symm h], by simp [Ne.symm h1, Ne.symm h2]⟩

theorem xorBit_ok (hQ : ∀ op B, (∀ t c, op ≠ .output t c) → Q op B) {p : Nat × Nat} (hio : ∀ c, c = p.1 ∨ c = p.2 → ∀ n, io n (.input .glwe1 c)) {x y : Bool}
    (hx : cells .glwe1 p.1 = ctOf .glwe1 x) (hy : cells .glwe1 p.2 = ctOf .glwe1 y) {g : FGraph} (hl : Live g) :
    ∃ g' n, xorBit p g = some (g', n) ∧ BStep d io (noiseOp W P ν nz) Q g g' ∧
      NodeIs d cells (noiseOp W P ν nz) g' n .glwe1 (ctOf .glwe1 (Bool.xor x y)) (nz .glwe1 p.1 + nz .glwe1 p.2) := by
  obtain ⟨s1, n1⟩ := add_input (d := d) (io := io) (W := W) (P := P) (ν := ν) (nz := nz) (Q := Q) (cells := cells) hl hQ p.1 (hio _ (Or.inl rfl))
  obtain ⟨s2, n2⟩ := add_input (d := d) (io := io) (W := W) (P := P) (ν := ν) (nz := nz) (Q := Q) (cells := cells) s1.live hQ p.2 (hio _ (Or.inr rfl))
  have n1 := n1.ext s2.ext
  rw [hx] at n1
  rw [hy] at n2
  have hne : (g.addNode (.input .glwe1 p.1)).2 ≠ ((g.addNode (.input .glwe1 p.1)).1.addNode (.input .glwe1 p.2)).2 := by
    simp [Graph.addNode]
  simp only [xorBit]
  generalize (g.addNode (.input .glwe1 p.1)).2 = a at *
  generalize ((g.addNode (.input .glwe1 p.1)).1.addNode (.input .glwe1 p.2)).2 = b at *
  generalize ((g.addNode (.input .glwe1 p.1)).1.addNode (.input .glwe1 p.2)).1 = g2 at *
  obtain ⟨fv, v1, v2⟩ := two_fun hne (ctOf .glwe1 x) (ctOf .glwe1 y)
  obtain ⟨fB, b1, b2⟩ := two_fun hne (nz .glwe1 p.1) (nz .glwe1 p.2)
  obtain ⟨s3, n3⟩ := add_op (io := io) (Q := Q) (op := .glweAdd) (t := .glwe1) (es := [(b, .right), (a, .left)]) s2.live hQ rfl (not_output (by simp [opType])) (Or.inl (Internal.of rfl (by intro _ _ h; cases h)))
    (fun _ => .glwe1) fv fB (by
      intro q hq
      simp only [List.mem_cons, List.not_mem_nil, or_false] at hq
      rcases hq with rfl | rfl
      · rw [v2, b2]; exact n2
      · rw [v1, b1]; exact n1) (by
      intro cells f hf
      obtain ⟨q1, h1⟩ := Val.of_glwe1 (hf (b, .right) (by simp))
      obtain ⟨q2, h2⟩ := Val.of_glwe1 (hf (a, .left) (by simp))
      simp only at h1 h2
      simp [execOp, pick, h1, h2]) (v := ctOf .glwe1 (Bool.xor x y)) (by
      have : (fun i => Bool.xor (constPoly x i) (constPoly y i)) = constPoly (Bool.xor x y) := by
        funext i; simp only [constPoly]; by_cases hi : i = 0 <;> cases x <;> cases y <;> simp [hi]
      simp [execOp, pick, v1, v2, ctOf, this]) (B := nz .glwe1 p.1 + nz .glwe1 p.2) (noiseOp_add (by
        simp only [List.map_cons, List.map_nil, b1, b2]; exact List.Perm.swap _ _ _))
  refine ⟨_, _, ?_, (s1.trans s2).trans s3, n3⟩
  simp only [addNode_ext1]
  rw [addEdge_ext1 n1.live]
  simp only
  rw [addEdge_ext1 n2.live]

theorem notBit_ok (hQ : ∀ op B, (∀ t c, op ≠ .output t c) → Q op B) {c : Nat} (hio : ∀ n, io n (.input .glwe1 c)) {x : Bool}
    (hx : cells .glwe1 c = ctOf .glwe1 x) {g : FGraph} (hl : Live g) :
    ∃ g' n, notBit c g = some (g', n) ∧ BStep d io (noiseOp W P ν nz) Q g g' ∧ NodeIs d cells (noiseOp W P ν nz) g' n .glwe1 (ctOf .glwe1 (!x)) (nz .glwe1 c) := by
  obtain ⟨s1, n1⟩ := add_input (d := d) (io := io) (W := W) (P := P) (ν := ν) (nz := nz) (Q := Q) (cells := cells) hl hQ c hio
  rw [hx] at n1
  obtain ⟨e2, s2, n2⟩ := add_op1 (io := io) (Q := Q) (op := .not) (t := .glwe1) (k := .unary) s1.live hQ rfl (not_output (by simp [opType])) (Or.inl (Internal.of rfl (by intro _ _ h; cases h))) n1
    (fun cells v hv => by obtain ⟨p, rfl⟩ := Val.of_glwe1 hv; simp [execOp]) (v := ctOf .glwe1 (!x)) (by
      have : (fun i => Bool.xor (constPoly x i) (constPoly true i)) = constPoly (!x) := by
        funext i; simp only [constPoly]; by_cases hi : i = 0 <;> cases x <;> simp [hi]
      simp [execOp, ctOf, this]) (B := nz .glwe1 c) rfl
  refine ⟨_, _, ?_, s1.trans s2, n2⟩
  simp only [notBit, e2]

theorem cmuxBit_ok (hQ : ∀ op B, (∀ t c, op ≠ .output t c) → Q op B) {sel : Nat} {p : Nat × Nat} (hio : ∀ c, c = p.1 ∨ c = p.2 → ∀ n, io n (.input .glwe1 c)) {s x y : Bool} {E : Nat}
    (hx : cells .glwe1 p.1 = ctOf .glwe1 x) (hy : cells .glwe1 p.2 = ctOf .glwe1 y) {g : FGraph} (hl : Live g) (hs : NodeIs d cells (noiseOp W P ν nz) g sel .ggsw1 (.ggsw1 s) E) :
    ∃ g' n, cmuxBit sel p g = some (g', n) ∧ BStep d io (noiseOp W P ν nz) Q g g' ∧
      NodeIs d cells (noiseOp W P ν nz) g' n .glwe1 (ctOf .glwe1 (bif s then x else y)) (max (nz .glwe1 p.2) (nz .glwe1 p.1) + muxNoise W P ν E) := by
  obtain ⟨s1, n1⟩ := add_input (d := d) (io := io) (W := W) (P := P) (ν := ν) (nz := nz) (Q := Q) (cells := cells) hl hQ p.1 (hio _ (Or.inl rfl))
  obtain ⟨s2, n2⟩ := add_input (d := d) (io := io) (W := W) (P := P) (ν := ν) (nz := nz) (Q := Q) (cells := cells) s1.live hQ p.2 (hio _ (Or.inr rfl))
  have n1 := n1.ext s2.ext
  have n0 := (hs.ext s1.ext).ext s2.ext
  rw [hx] at n1
  rw [hy] at n2
  have hne : (g.addNode (.input .glwe1 p.1)).2 ≠ ((g.addNode (.input .glwe1 p.1)).1.addNode (.input .glwe1 p.2)).2 := by
    simp [Graph.addNode]
  obtain ⟨so, hso⟩ := Option.isSome_iff_exists.1 hs.live
  have hsl := lt_of_weight hso
  have hne1 : sel ≠ (g.addNode (.input .glwe1 p.1)).2 := by
    have : (g.addNode (.input .glwe1 p.1)).2 = g.nodes.length := rfl
    omega
  have hne2 : sel ≠ ((g.addNode (.input .glwe1 p.1)).1.addNode (.input .glwe1 p.2)).2 := by
    have : ((g.addNode (.input .glwe1 p.1)).1.addNode (.input .glwe1 p.2)).2 = g.nodes.length + 1 := by simp [Graph.addNode]
    omega
  simp only [cmuxBit]
  generalize (g.addNode (.input .glwe1 p.1)).2 = a at *
  generalize ((g.addNode (.input .glwe1 p.1)).1.addNode (.input .glwe1 p.2)).2 = b at *
  generalize ((g.addNode (.input .glwe1 p.1)).1.addNode (.input .glwe1 p.2)).1 = g2 at *
  obtain ⟨fv, v0, v1, v2⟩ := three_fun hne1 hne2 hne (Val.ggsw1 s) (ctOf .glwe1 x) (ctOf .glwe1 y)
  obtain ⟨fB, b0, b1, b2⟩ := three_fun hne1 hne2 hne E (nz .glwe1 p.1) (nz .glwe1 p.2)
  obtain ⟨ft, t0, t1, t2⟩ := three_fun hne1 hne2 hne CtType.ggsw1 CtType.glwe1 CtType.glwe1
  obtain ⟨s3, n3⟩ := add_op (io := io) (Q := Q) (op := .cmux) (t := .glwe1) (es := [(b, .low), (a, .high), (sel, .sel)]) s2.live hQ rfl (not_output (by simp [opType])) (Or.inl (Internal.of rfl (by intro _ _ h; cases h)))
    ft fv fB (by
      intro q hq
      simp only [List.mem_cons, List.not_mem_nil, or_false] at hq
      rcases hq with rfl | rfl | rfl
      · rw [v2, b2, t2]; exact n2
      · rw [v1, b1, t1]; exact n1
      · rw [v0, b0, t0]; exact n0) (by
      intro cells f hf
      have h1 := hf (b, .low) (by simp)
      have h2 := hf (a, .high) (by simp)
      have h3 := hf (sel, .sel) (by simp)
      simp only [t0, t1, t2] at h1 h2 h3
      obtain ⟨q1, h1⟩ := Val.of_glwe1 h1
      obtain ⟨q2, h2⟩ := Val.of_glwe1 h2
      obtain ⟨q3, h3⟩ := Val.of_ggsw1 h3
      simp [execOp, pick, h1, h2, h3]) (v := ctOf .glwe1 (bif s then x else y)) (by
      cases s <;> simp [execOp, pick, v0, v1, v2, ctOf]) (B := max (nz .glwe1 p.2) (nz .glwe1 p.1) + muxNoise W P ν E) (noiseOp_mux .glwe (by
        simp only [List.map_cons, List.map_nil, b0, b1, b2]
        refine List.perm_iff_count.2 fun q => ?_
        simp only [List.count_cons, List.count_nil]
        omega))
  refine ⟨_, _, ?_, (s1.trans s2).trans s3, n3⟩
  simp only [addNode_ext1]
  rw [addEdge_ext1 n0.live]
  simp only
  rw [addEdge_ext1 n1.live]
  simp only
  rw [addEdge_ext1 n2.live]

/-! ### generated circuits -/

theorem collectOutputs_noise_le {t : CtType} {B : Nat} (hQ : ∀ c B', B' ≤ B → Q (.output t c) B') : ∀ (ns cs : List Nat) (g : FGraph), Live g →
    (∀ n ∈ ns, ∃ B', NodeEval (noiseOp W P ν nz) g n B' ∧ B' ≤ B) → ∀ g' os, collectOutputs t ns cs g = some (g', os) → NGrow (noiseOp W P ν nz) Q g g'
  | [], _, g, hl, _, g', os, h => by simp only [collectOutputs] at h; cases h; exact NGrow.refl hl
  | n :: ns, [], g, hl, _, g', os, h => by simp only [collectOutputs] at h; cases h; exact NGrow.refl hl
  | n :: ns, c :: cs, g, hl, hb, g', os, h => by
    obtain ⟨B', hn, hB'⟩ := hb n (by simp)
    obtain ⟨h1, h2⟩ := ext1_ngrow (ex := noiseOp W P ν nz) (Q := Q) hl (op := .output t c) (es := [(n, .unary)]) (fun _ => B') (v := B') (by simpa using hn) (by simp [noiseOp])
      (hQ c B' hB')
    have he := addEdge_ext1 (op := .output t c) (es := []) (k := FheEdge.unary) (neval_live hn)
    simp only [collectOutputs, addNode_ext1, he] at h
    cases h3 : collectOutputs t ns cs (ext1 g (.output t c) [(n, .unary)]) with
    | none => rw [h3] at h; cases h
    | some r =>
      rw [h3] at h; cases h
      refine h1.trans (collectOutputs_noise_le hQ ns cs _ h1.live (fun m hm => ?_) _ _ h3)
      obtain ⟨B2, b1, b2⟩ := hb m (by simp [hm])
      exact ⟨B2, FExt_neval h1.ext b1, b2⟩

/-- The circuit of a generator, optimised or not. -/
theorem gen_ok {lib : BddLib} (hlib : CanonLibOk lib) (opt : Bool) (nv : Nat) {fs : List BddFn} (hfs : fs ≠ []) :
    ∃ mc fs', (if opt then optCircuitOf lib nv fs else circuitOf lib nv fs) = some mc ∧ WF mc.graph ∧ SelectorsOnly mc.graph ∧ Computes mc nv fs' ∧ fs'.length = fs.length ∧
      (∀ (i : Nat) f f', fs[i]? = some f → fs'[i]? = some f' → ∀ env, (∀ i, nv ≤ i → env i = false) → f' env = f env) ∧ DepthAtMost mc.graph nv := by
  have hr : ∀ b ∈ fs.map (lib.nodes nv), ReducedBdd nv b := by
    intro b hb
    obtain ⟨f, -, rfl⟩ := List.mem_map.1 hb
    exact (hlib nv f).1
  have hne : fs.map (lib.nodes nv) ≠ [] := by simpa using hfs
  have hagree : ∀ (i : Nat) f f', fs[i]? = some f → ((fs.map (lib.nodes nv)).map bddFn)[i]? = some f' → ∀ env, (∀ i, nv ≤ i → env i = false) → f' env = f env := by
    intro i f f' hf hf' env he
    rw [List.getElem?_map, List.getElem?_map, hf] at hf'
    simp only [Option.map_some, Option.some.injEq] at hf'
    rw [← hf']
    exact (hlib nv f).2 env he
  cases opt with
  | false =>
    obtain ⟨c, h1, h2, h3, h4, _, h6⟩ := C11_reduced hr hne
    exact ⟨c, _, h1, h2, h4, h3, by simp, hagree, depth_of_ordered h2 h3 h4 h6⟩
  | true =>
    obtain ⟨c, c', h1, h2, h3, h4, h5, h6⟩ := C12_diagrams hr hne
    refine ⟨c', _, ?_, h3, h4, h5, by simp, hagree, depth_of_ordered h3 h5 h4 h6⟩
    rw [if_pos rfl]; unfold optCircuitOf circuitOf; rw [h1]; exact h2

theorem worst_le {nz : Nat → Nat} : ∀ {cs : List Nat} {c : Nat}, c ∈ cs → nz c ≤ worst nz cs
  | x :: xs, c, h => by
    rcases List.mem_cons.1 h with rfl | h
    · exact Nat.le_max_left _ _
    · exact (worst_le h).trans (Nat.le_max_right _ _)

/-- What is needed of the circuit of a job to run it. -/
structure Built (d : Nat) (ex : FheOp → List (Nat × FheEdge) → Option Nat) (cells : CtType → Nat → Val) (ins outs : List Nat) (bits : List Bool) (B : Nat) (g : FGraph) : Prop where
  live : Live g
  good : Good d (fun _ => ioOf (ins.map (CtType.glwe1, ·)) (outs.map (CtType.glwe1, ·))) g
  outsIn : OutsIn g (outs.map (CtType.glwe1, ·))
  all : AllN ex (fun op B' => ∀ t c, op = .output t c → B' ≤ B) g
  writes : ∀ (i : Nat) o b, outs[i]? = some o → bits[i]? = some b → Writes d cells g .glwe1 o (ctOf .glwe1 b)

theorem live_empty : Live (Graph.empty : FGraph) := by intro e he; cases he
theorem outsIn_empty : OutsIn (Graph.empty : FGraph) [] :=
  ⟨fun n t c h => by simp [Graph.weight, Graph.empty] at h, fun n n' t c h => by simp [Graph.weight, Graph.empty] at h⟩
theorem good_empty (ins outs : List (CtType × Nat)) : Good d (fun _ => ioOf ins outs) (Graph.empty : FGraph) := good_new fun _ _ h => ioOf_internal _ _ h

theorem build_circuit {G : Gens} (hG : GensOk G) (hd : 0 < d) {opt : Bool} {fs : List BddFn} (hfs : fs ≠ []) {ins outs : List Nat} (hlen : outs.length = fs.length) (hnd : outs.Nodup)
    {μ : Nat → Bool} (hc : ∀ c ∈ ins, cells .glwe1 c = ctOf .glwe1 (μ c)) (hb : ∀ c ∈ ins, nz .glwe1 c + ksNoise W P ν < bootLimit W P ν) :
    ∃ g, (Job.circuit opt fs ins).build G outs = some g ∧ Built d (noiseOp W P ν nz) cells ins outs (Job.bits μ (.circuit opt fs ins)) (ins.length * muxNoise W P ν (bootNoise W P ν)) g := by
  generalize hB : ins.length * muxNoise W P ν (bootNoise W P ν) = B
  have hQ : ∀ op B', (∀ t c, op ≠ .output t c) → (fun (op : FheOp) (B' : Nat) => ∀ t c, op = .output t c → B' ≤ B) op B' := fun op B' hne t c he => absurd he (hne t c)
  obtain ⟨mc, fs', e1, h2, h3, h4, h5, h6, h7⟩ := gen_ok hG.lib opt ins.length hfs
  obtain ⟨g1, ns, e2, s1, i1⟩ := bootInputs_ok (cells := cells) (d := d) (io := fun _ => ioOf (ins.map (CtType.glwe1, ·)) []) (W := W) (P := P) (ν := ν) (nz := nz) hd hQ ins (ins.map μ) Graph.empty live_empty
    (fun c hc n => List.mem_map.2 ⟨c, hc, rfl⟩) (by
      rw [List.forall₂_map_right_iff, List.forall₂_same]; exact hc) hb
  have hnl : ns.length = ins.length := by rw [i1.length_eq, List.length_map]
  have hk : AreNodes g1 .ggsw1 ns := by
    intro n hn
    obtain ⟨i, hi, rfl⟩ := List.getElem_of_mem hn
    exact ((List.forall₂_iff_get.1 i1).2 i hi (by rw [List.length_map, ← hnl]; exact hi)).op
  have hacc : ∀ n ∈ ns, ∃ op, g1.weight n = some op ∧ acceptsMux op = true := by
    intro n hn
    obtain ⟨op, b1, b2⟩ := hk n hn
    exact ⟨op, b1, accepts_of_type b2⟩
  obtain ⟨g2, rs, e3, l3, x3, r3, k3, v3⟩ := insertMux_ok (mode := .glwe) s1.live h2 h4 h3 hnl hacc
  have hg1 := s1.good (good_empty _ _)
  have hg2 := insertMux_good s1.live h2 h4 h3 hnl hacc hk e3 hg1
  have hnn : ∀ m ∈ ns, NodeEval (noiseOp W P ν nz) g1 m (bootNoise W P ν) := by
    intro n hn
    obtain ⟨i, hi, rfl⟩ := List.getElem_of_mem hn
    exact ((List.forall₂_iff_get.1 i1).2 i hi (by rw [List.length_map, ← hnl]; exact hi)).noise
  obtain ⟨n3, b3⟩ := insertMux_noise (W := W) (P := P) (ν := ν) (nz := nz) (Q := fun op B' => ∀ t c, op = .output t c → B' ≤ B) hQ s1.live h2 h4 h3 hnl hacc h7 hnn e3
  rw [hB] at b3
  have hkr : AreNodes g2 .glwe1 rs := by
    intro r hr
    obtain ⟨m, op, b1, b2⟩ := k3 r hr
    exact ⟨op, b2, mapOp_type b1⟩
  have hrl : rs.length = outs.length := by rw [r3, h5, hlen]
  obtain ⟨g3, os, e4, s4, l4, q4, w4, v4⟩ := collectOutputs_ok .glwe1 rs outs g2 l3 hrl (fun _ h => AreNodes.live hkr h)
  have n4 := collectOutputs_noise_le (W := W) (P := P) (ν := ν) (nz := nz) (t := .glwe1) (B := B) (Q := fun op B' => ∀ t c, op = .output t c → B' ≤ B) (fun _ _ h _ _ _ => h) rs outs g2 l3 b3 g3 os e4
  refine ⟨g3, ?_, s4.live, q4 d _ (fun c hc n => List.mem_map.2 ⟨c, hc, rfl⟩) hkr (good_mono hg2 fun _ op h => ?_), ?_, n4.all (n3.all (s1.all (all_new _))), ?_⟩
  · simp only [Job.build, e1, e2, e3, e4]
  · cases op <;> first | exact h | (exact absurd h (by simp [ioOf]))
  · have ho : OutsIn g2 [] := ⟨fun n t c hn => hg2.ops n _ hn, fun n n' t c hn _ => by
      have : ((t, c) : CtType × Nat) ∈ ([] : List (CtType × Nat)) := hg2.ops n _ hn
      cases this⟩
    have := collectOutputs_outs .glwe1 rs outs g2 [] _ hrl (fun _ h => AreNodes.live hkr h) e4 ho (by
      simp only [List.nil_append]
      exact hnd.map fun a b h => by simpa using h)
    simpa using this
  · have hval : List.Forall₂ (fun r v => FEval d cells g2 r v ∧ v.type = .glwe1) rs ((Job.bits μ (.circuit opt fs ins)).map (ctOf .glwe1)) := by
      refine List.forall₂_iff_get.2 ⟨by simp [Job.bits, hrl, hlen], fun i hir hib => ?_⟩
      have hif : i < fs.length := by omega
      have hif' : i < fs'.length := by omega
      have hval := v3 d cells (fun i => (ins.map μ).getD i false) (by
        intro j n hn
        have hj := (List.getElem?_eq_some_iff.1 hn).1
        have hj' : j < (ins.map μ).length := by rw [List.length_map, ← hnl]; exact hj
        have := ((List.forall₂_iff_get.1 i1).2 j hj hj').val
        rw [List.get_eq_getElem, List.get_eq_getElem] at this
        rw [List.getElem?_eq_getElem hj] at hn
        rw [Option.some.inj hn] at this
        rw [show (ins.map μ).getD j false = (ins.map μ)[j] by rw [List.getD_eq_getElem?_getD, List.getElem?_eq_getElem hj']; rfl]
        exact this) i fs'[i] rs[i] (List.getElem?_eq_getElem hif') (List.getElem?_eq_getElem hir)
      rw [h6 i fs[i] fs'[i] (List.getElem?_eq_getElem hif) (List.getElem?_eq_getElem hif') _ (fun j hj => by
        rw [List.getD_eq_getElem?_getD, List.getElem?_eq_none (by rw [List.length_map]; exact hj)]; rfl)] at hval
      simp only [Job.bits, List.get_eq_getElem, List.getElem_map]
      exact ⟨hval, ctOf_type _ _⟩
    have h4 := v4 d cells _ hval
    intro i o b ho hbit
    have hiw : i < outs.length := (List.getElem?_eq_some_iff.1 ho).1
    have hib := (List.getElem?_eq_some_iff.1 hbit).1
    have hos : i < os.length := by rw [w4.length_eq]; exact hiw
    have x1 := (List.forall₂_iff_get.1 w4).2 i hos hiw
    have x2 := (List.forall₂_iff_get.1 h4).2 i hos (by rw [List.length_map]; exact hib)
    simp only [List.get_eq_getElem, List.getElem_map] at x1 x2
    rw [(List.getElem?_eq_some_iff.1 ho).2] at x1
    rw [(List.getElem?_eq_some_iff.1 hbit).2] at x2
    exact ⟨_, x1, x2⟩

/-- `insert_ciphertext_conversion` from L1 GLWE to L1 GGSW is what `bootInput` adds after the input. -/
theorem bootInput_convert (c : Nat) (g : FGraph) :
    bootInput c g = Fhe.convert 5 (g.addNode (.input .glwe1 c)).1 (g.addNode (.input .glwe1 c)).2 .glwe1 .ggsw1 := by
  show _ = (if (CtType.glwe1 = CtType.ggsw1) then _ else _)
  rw [if_neg (by decide)]
  simp only [bootInput]
  cases ((g.addNode (.input .glwe1 c)).1.addNode (.sampleExtract 0)).1.addEdge (g.addNode (.input .glwe1 c)).2 ((g.addNode (.input .glwe1 c)).1.addNode (.sampleExtract 0)).2 FheEdge.unary with
  | none => rfl
  | some g1 =>
    show _ = (if (CtType.lwe1 = CtType.ggsw1) then _ else _)
    rw [if_neg (by decide)]
    simp only
    generalize ((g.addNode (.input .glwe1 c)).1.addNode (.sampleExtract 0)).2 = n1
    cases (g1.addNode .keyswitchL1toL0).1.addEdge n1 (g1.addNode .keyswitchL1toL0).2 FheEdge.unary with
    | none => rfl
    | some g2 =>
      show _ = (if (CtType.lwe0 = CtType.ggsw1) then _ else _)
      rw [if_neg (by decide)]
      simp only
      generalize (g1.addNode .keyswitchL1toL0).2 = n2
      cases (g2.addNode .circuitBootstrap).1.addEdge n2 (g2.addNode .circuitBootstrap).2 FheEdge.unary <;> rfl

theorem build_mul {G : Gens} (hG : GensOk G) (hd : 0 < d) {a b : List Nat} (hab : a.length = b.length) (hw : MulWidths a.length a.length) {outs : List Nat} (hlen : outs.length = a.length) (hnd : outs.Nodup)
    {μ : Nat → Bool} (hc : ∀ c ∈ a ++ b, cells .glwe1 c = ctOf .glwe1 (μ c)) (hb : ∀ c ∈ a ++ b, nz .glwe1 c + ksNoise W P ν < bootLimit W P ν) {B : Nat}
    (hB : 4 * a.length * muxNoise W P ν (bootNoise W P ν) = B) (hBl : B + ksNoise W P ν < bootLimit W P ν) :
    ∃ g, (Job.mul a b).build G outs = some g ∧ Built d (noiseOp W P ν nz) cells (a ++ b) outs (Job.bits μ (.mul a b)) B g := by
  have hQ : ∀ op B', (∀ t c, op ≠ .output t c) → (fun (op : FheOp) (B' : Nat) => ∀ t c, op = .output t c → B' ≤ B) op B' := fun op B' hne t c he => absurd he (hne t c)
  obtain ⟨g0, as, e0, s0, i0⟩ := bootInputs_ok (cells := cells) (d := d) (io := fun _ => ioOf ((a ++ b).map (CtType.glwe1, ·)) []) (W := W) (P := P) (ν := ν) (nz := nz) hd hQ a (a.map μ) Graph.empty live_empty
    (fun c hc n => List.mem_map.2 ⟨c, List.mem_append_left _ hc, rfl⟩) (by
      rw [List.forall₂_map_right_iff, List.forall₂_same]; exact fun c h => hc c (List.mem_append_left _ h)) fun c h => hb c (List.mem_append_left _ h)
  obtain ⟨g1, bs, e1, s1, i1⟩ := bootInputs_ok (cells := cells) (d := d) (io := fun _ => ioOf ((a ++ b).map (CtType.glwe1, ·)) []) (W := W) (P := P) (ν := ν) (nz := nz) hd hQ b (b.map μ) g0 s0.live
    (fun c hc n => List.mem_map.2 ⟨c, List.mem_append_right _ hc, rfl⟩) (by
      rw [List.forall₂_map_right_iff, List.forall₂_same]; exact fun c h => hc c (List.mem_append_right _ h)) fun c h => hb c (List.mem_append_right _ h)
  have i0' : List.Forall₂ (fun n b => NodeIs d cells (noiseOp W P ν nz) g1 n .ggsw1 (.ggsw1 b) (bootNoise W P ν)) as (a.map μ) := i0.imp fun _ _ h => h.ext s1.ext
  have la : as.length = a.length := by rw [i0.length_eq, List.length_map]
  have lb : bs.length = b.length := by rw [i1.length_eq, List.length_map]
  have hkof : ∀ {ns : List Nat} {xs : List Bool}, List.Forall₂ (fun n b => NodeIs d cells (noiseOp W P ν nz) g1 n .ggsw1 (.ggsw1 b) (bootNoise W P ν)) ns xs →
      AreNodes g1 .ggsw1 ns ∧ (∀ m ∈ ns, NodeEval (noiseOp W P ν nz) g1 m (bootNoise W P ν)) ∧ Holds d cells g1 .ggsw1 ns xs := by
    intro ns xs h
    refine ⟨?_, ?_, ?_⟩
    · intro n hn
      obtain ⟨i, hi, rfl⟩ := List.getElem_of_mem hn
      exact ((List.forall₂_iff_get.1 h).2 i hi (by rw [← h.length_eq]; exact hi)).op
    · intro n hn
      obtain ⟨i, hi, rfl⟩ := List.getElem_of_mem hn
      exact ((List.forall₂_iff_get.1 h).2 i hi (by rw [← h.length_eq]; exact hi)).noise
    · exact h.imp fun _ _ h => h.val
  obtain ⟨ka, na, va⟩ := hkof i0'
  obtain ⟨kb, nb, vb⟩ := hkof i1
  have hw' : MulWidths as.length bs.length := by rw [la, lb, ← hab]; exact hw
  obtain ⟨g2, lo, hi, m1, m2, m3, m4, m5, m6⟩ := appendUint_ok (io := fun _ => ioOf ((a ++ b).map (CtType.glwe1, ·)) []) hG.circ hd hw' (Or.inl rfl) s1.live ka kb
  have hap : appendUint G.circ .glwe as bs g1 = some (g2, lo, hi) := m1
  have hnoise : NGrow (noiseOp W P ν nz) (fun op B' => ∀ t c, op = .output t c → B' ≤ B) g1 g2 ∧ ∀ x ∈ lo, ∃ B', NodeEval (noiseOp W P ν nz) g2 x B' ∧ B' ≤ B := by
    unfold appendUint at hap
    cases hmn : mulNodes G.circ .glwe as bs g1 with
    | none => rw [hmn] at hap; cases hap
    | some r =>
      obtain ⟨g', r⟩ := r
      rw [hmn] at hap
      simp only at hap
      by_cases hle : as.length ≤ r.length
      · rw [if_pos hle] at hap
        simp only [Option.some.injEq, Prod.mk.injEq] at hap
        obtain ⟨rfl, rfl, _⟩ := hap
        obtain ⟨t1, t2⟩ := mulNodes_noise (W := W) (P := P) (ν := ν) (nz := nz) (Q := fun op B' => ∀ t c, op = .output t c → B' ≤ B) hQ hG.circ hG.depth hBl hd hw' (by
            rw [la, lb, ← hab, ← hB]; exact Nat.mul_le_mul_right _ (by omega)) as bs g1 rfl rfl s1.live ka kb (by
            intro x hx
            rcases List.mem_append.1 hx with h | h
            · exact na x h
            · exact nb x h) g' r hmn
        exact ⟨t1, fun x hx => t2 x (List.mem_of_mem_take hx)⟩
      · rw [if_neg hle] at hap; cases hap
  obtain ⟨n2, b2⟩ := hnoise
  have hg1 := s1.good (s0.good (good_empty _ _))
  have hg2 := m2.good hg1
  have hklo : AreNodes g2 .glwe1 lo := AreNodes.sub m3 fun _ h => List.mem_append_left _ h
  have hrl : lo.length = outs.length := by rw [m4, la, hlen]
  obtain ⟨g3, os, e4, s4, l4, q4, w4, v4⟩ := collectOutputs_ok .glwe1 lo outs g2 m2.live hrl (fun _ h => AreNodes.live hklo h)
  have n4 := collectOutputs_noise_le (W := W) (P := P) (ν := ν) (nz := nz) (t := .glwe1) (B := B) (Q := fun op B' => ∀ t c, op = .output t c → B' ≤ B) (fun _ _ h _ _ _ => h) lo outs g2 m2.live b2 g3 os e4
  have hg3 := q4 d (fun _ => ioOf ((a ++ b).map (CtType.glwe1, ·)) (outs.map (CtType.glwe1, ·))) (fun c hc n => List.mem_map.2 ⟨c, hc, rfl⟩) hklo (good_mono hg2 fun _ op h => by
    cases op <;> first | exact h | (exact absurd h (by simp [ioOf])))
  have ho2 : OutsIn g2 [] := ⟨fun n t c hn => hg2.ops n _ hn, fun n n' t c hn _ => by
      have : ((t, c) : CtType × Nat) ∈ ([] : List (CtType × Nat)) := hg2.ops n _ hn
      cases this⟩
  have ho3 := collectOutputs_outs .glwe1 lo outs g2 [] _ hrl (fun _ h => AreNodes.live hklo h) e4 ho2 (by
      simp only [List.nil_append]
      exact hnd.map fun a b h => by simpa using h)
  rw [List.nil_append] at ho3
  have hos : ∀ n ∈ os, (g3.weight n).isSome := by
    intro n hn
    obtain ⟨i, hi, rfl⟩ := List.getElem_of_mem hn
    have := (List.forall₂_iff_get.1 w4).2 i hi (by rw [← w4.length_eq]; exact hi)
    simp only [List.get_eq_getElem] at this
    rw [this]; rfl
  obtain ⟨g4, ren, p1, p2, p3, p4, p5, p6⟩ := prune_run (cells := cells) s4.live hg3 (n4.all (n2.all (s1.all (s0.all (all_new _))))) ho3 hos hG.order
  refine ⟨g4, ?_, p2, p3, p5, p4, ?_⟩
  · simp only [Job.build, e0, e1, hap, e4, p1]
  · obtain ⟨vl, vh, u1, u2, u3⟩ := m6 cells _ _ va vb
    simp only [intVal] at u3
    have hvl : vl.length = a.length := by rw [← u1.length_eq, m4, la]
    have hbits : vl = Job.bits μ (.mul a b) := by
      simp only [Job.bits]
      rw [← hvl]
      exact low_bits (by exact_mod_cast u3)
    have h4 := v4 d cells (vl.map (ctOf .glwe1)) (by
      rw [List.forall₂_map_right_iff]
      exact u1.imp fun _ _ h => ⟨h, ctOf_type _ _⟩)
    rw [← hbits]
    intro i o bit ho hbit
    have hiw : i < outs.length := (List.getElem?_eq_some_iff.1 ho).1
    have hib := (List.getElem?_eq_some_iff.1 hbit).1
    have hos : i < os.length := by rw [w4.length_eq]; exact hiw
    have x1 := (List.forall₂_iff_get.1 w4).2 i hos hiw
    have x2 := (List.forall₂_iff_get.1 h4).2 i hos (by rw [List.length_map]; exact hib)
    simp only [List.get_eq_getElem, List.getElem_map] at x1 x2
    rw [(List.getElem?_eq_some_iff.1 ho).2] at x1
    rw [(List.getElem?_eq_some_iff.1 hbit).2] at x2
    exact p6 _ (List.getElem_mem hos) _ _ _ x1 x2

/-- the per-bit operators, from a circuit that has no outputs yet -/
theorem build_bits {α : Type} {step : α → FGraph → Option (FGraph × Nat)} {V : α → Bool} {B : Nat} {ins outs : List Nat} {xs : List α} (hlen : xs.length = outs.length) (hnd : outs.Nodup) {g0 : FGraph}
    (h0 : BStep d (fun _ => ioOf (ins.map (CtType.glwe1, ·)) (outs.map (CtType.glwe1, ·))) (noiseOp W P ν nz) (fun op B' => ∀ t c, op = .output t c → B' ≤ B) Graph.empty g0)
    (hs : ∀ x ∈ xs, ∀ g, FExt g0 g → Live g → ∃ g' n, step x g = some (g', n) ∧
      BStep d (fun _ => ioOf (ins.map (CtType.glwe1, ·)) (outs.map (CtType.glwe1, ·))) (noiseOp W P ν nz) (fun op B' => ∀ t c, op = .output t c → B' ≤ B) g g' ∧
        ∃ B', B' ≤ B ∧ NodeIs d cells (noiseOp W P ν nz) g' n .glwe1 (ctOf .glwe1 (V x)) B') :
    ∃ g, perBit step xs outs g0 = some g ∧ Built d (noiseOp W P ν nz) cells ins outs (xs.map V) B g := by
  have hU : OutsIn g0 [] := ⟨fun n t c hn => outsIn_empty.1 n t c (h0.noOut n t c hn), fun n n' t c hn hn' => outsIn_empty.2 n n' t c (h0.noOut _ _ _ hn) (h0.noOut _ _ _ hn')⟩
  obtain ⟨g, e, s, a, u, w⟩ := perBit_ok (Q := fun op B' => ∀ t c, op = .output t c → B' ≤ B) (B := B) (fun _ _ h _ _ _ => h) (fun _ _ _ => by simp [noiseOp]) xs outs g0 [] hs hlen
    (fun _ _ h => ⟨h, rfl⟩) h0.live (fun o ho n => List.mem_map.2 ⟨o, ho, rfl⟩) hU (by
      simp only [List.nil_append]; exact hnd.map fun a b h => by simpa using h)
  refine ⟨g, e, s.live, s.good (h0.good (good_empty _ _)), by simpa using u, a (h0.all (all_new _)), fun i o b ho hb => ?_⟩
  rw [List.getElem?_map] at hb
  obtain ⟨x, hx, rfl⟩ := Option.map_eq_some_iff.1 hb
  exact w i x o hx ho

theorem zipWith_map_bool (μ : Nat → Bool) (f : Bool → Bool → Bool) (a b : List Nat) :
    List.zipWith f (a.map μ) (b.map μ) = (a.zip b).map fun p => f (μ p.1) (μ p.2) := by
  rw [List.zipWith_map]
  induction a generalizing b with
  | nil => simp
  | cons x xs ih => cases b <;> simp [*]

/-- The circuit of a job is built, computes the bits of the job, and its outputs have the noise of the job. -/
theorem build_ok {G : Gens} (hG : GensOk G) (hd : 0 < d) {job : Job} (hok : Job.Ok job) {outs : List Nat} (hlen : outs.length = job.size) (hnd : outs.Nodup)
    {μ : Nat → Bool} (hc : ∀ c ∈ job.ins, cells .glwe1 c = ctOf .glwe1 (μ c)) {B : Nat} (hB : Job.noise W P ν (nz .glwe1) job = some B) :
    ∃ g, job.build G outs = some g ∧ Built d (noiseOp W P ν nz) cells job.ins outs (Job.bits μ job) B g := by
  have hQ : ∀ op B', (∀ t c, op ≠ .output t c) → (fun (op : FheOp) (B' : Nat) => ∀ t c, op = .output t c → B' ≤ B) op B' := fun op B' hne t c he => absurd he (hne t c)
  cases job with
  | circuit opt fs ins =>
    simp only [Job.noise] at hB
    split at hB
    · rename_i hb
      cases hB
      exact build_circuit hG hd hok hlen hnd hc fun c hcc => by
        have := worst_le (nz := nz .glwe1) hcc
        omega
    · cases hB
  | xor a b =>
    simp only [Job.noise, Option.some.injEq] at hB
    have hl : a.length = b.length := hok
    have h := build_bits (cells := cells) (step := xorBit) (V := fun p => Bool.xor (μ p.1) (μ p.2)) (ins := a ++ b) (xs := a.zip b) (W := W) (P := P) (ν := ν) (nz := nz) (d := d) (B := B)
      (by simp only [Job.size] at hlen; simp; omega) hnd (BStep.refl live_empty) (by
        intro p hp g _ hlg
        have h1 : p.1 ∈ a := (List.of_mem_zip hp).1
        have h2 : p.2 ∈ b := (List.of_mem_zip hp).2
        obtain ⟨g', n, e, s, i⟩ := xorBit_ok (cells := cells) (d := d) (io := fun _ => ioOf ((a ++ b).map (CtType.glwe1, ·)) (outs.map (CtType.glwe1, ·))) (W := W) (P := P) (ν := ν) (nz := nz) hQ (p := p)
          (by rintro c (rfl | rfl) n <;> exact List.mem_map.2 ⟨_, by simp [h1, h2], rfl⟩) (hc _ (by simp [Job.ins, h1])) (hc _ (by simp [Job.ins, h2])) hlg
        refine ⟨g', n, e, s, _, ?_, i⟩
        have := worst_le (nz := nz .glwe1) h1
        have := worst_le (nz := nz .glwe1) h2
        omega)
    simp only [Job.bits, zipWith_map_bool]
    exact h
  | not a =>
    simp only [Job.noise, Option.some.injEq] at hB
    exact build_bits (cells := cells) (step := notBit) (V := fun c => !μ c) (ins := a) (xs := a) (W := W) (P := P) (ν := ν) (nz := nz) (d := d) (B := B)
      hlen.symm hnd (BStep.refl live_empty) (by
        intro c hcc g _ hlg
        obtain ⟨g', n, e, s, i⟩ := notBit_ok (cells := cells) (d := d) (io := fun _ => ioOf (a.map (CtType.glwe1, ·)) (outs.map (CtType.glwe1, ·))) (W := W) (P := P) (ν := ν) (nz := nz) hQ
          (fun n => List.mem_map.2 ⟨_, hcc, rfl⟩) (hc _ hcc) hlg
        refine ⟨g', n, e, s, _, ?_, i⟩
        have := worst_le (nz := nz .glwe1) hcc
        omega)
  | cmux sel a b =>
    simp only [Job.noise] at hB
    split at hB
    swap
    · cases hB
    rename_i hsel
    cases hB
    have hl : a.length = b.length := hok
    obtain ⟨g0, n0, e0, s0, i0⟩ := bootInput_ok (cells := cells) (d := d) (io := fun _ => ioOf ((sel :: (a ++ b)).map (CtType.glwe1, ·)) (outs.map (CtType.glwe1, ·))) (W := W) (P := P) (ν := ν) (nz := nz) hd hQ
      (c := sel) (fun n => List.mem_map.2 ⟨_, by simp, rfl⟩) (hc _ (by simp [Job.ins])) hsel live_empty
    have h := build_bits (cells := cells) (step := cmuxBit n0) (V := fun p => bif μ sel then μ p.1 else μ p.2) (ins := sel :: (a ++ b)) (xs := a.zip b) (W := W) (P := P) (ν := ν) (nz := nz) (d := d)
      (by simp only [Job.size] at hlen; simp; omega) hnd s0 (by
        intro p hp g hxg hlg
        have h1 : p.1 ∈ a := (List.of_mem_zip hp).1
        have h2 : p.2 ∈ b := (List.of_mem_zip hp).2
        obtain ⟨g', n, e, s, i⟩ := cmuxBit_ok (cells := cells) (d := d) (io := fun _ => ioOf ((sel :: (a ++ b)).map (CtType.glwe1, ·)) (outs.map (CtType.glwe1, ·))) (W := W) (P := P) (ν := ν) (nz := nz) hQ (p := p)
          (by rintro c (rfl | rfl) n <;> exact List.mem_map.2 ⟨_, by simp [h1, h2], rfl⟩) (hc _ (by simp [Job.ins, h1])) (hc _ (by simp [Job.ins, h2])) hlg (i0.ext hxg)
        refine ⟨g', n, e, s, _, ?_, i⟩
        have := worst_le (nz := nz .glwe1) h1
        have := worst_le (nz := nz .glwe1) h2
        omega)
    simp only [Job.bits, zipWith_map_bool, Job.build, e0]
    exact h
  | mul a b =>
    simp only [Job.noise] at hB
    split at hB
    swap
    · cases hB
    rename_i hbs
    cases hB
    exact build_mul hG hd hok.1 hok.2 hlen hnd hc (fun c hcc => by
      have := worst_le (nz := nz .glwe1) hcc
      omega) rfl hbs.2

end Spf.Cells
