import Verif.Props.FluentRun
import Verif.Props.FluentBad
set_option autoImplicit false
/-! C100 is violated: a program that type-checks in Rust, runs to completion on ciphertexts under every schedule, and decrypts to
something else than it says. -/
namespace Spf.Props
open Spf.Spec Spf.Fhe Spf.Fluent Spf.Tfhe Spf.CtExec Graph Spf.Sched
variable {W : Nat}

/-- the circuit of `exShrink`, its result collected into the cells 4 and 5 -/
def exShrinkG : FGraph := ⟨[some (.input .ggsw1 0), some (.input .ggsw1 1), some (.input .ggsw1 2), some (.input .ggsw1 3),
  some (.output .ggsw1 4), some (.output .ggsw1 5)], [(3, 5, .unary), (0, 4, .unary)]⟩

theorem exShrink_build (lib : BddLib) (deg : Nat) : ∃ ctx hs, exec lib deg exShrink Ctx.new [] = some (ctx, hs) ∧
    collectAll hs [(1, [4, 5])] ctx.circuit = some exShrinkG :=
  ⟨⟨⟨[some (.input .ggsw1 0), some (.input .ggsw1 1), some (.input .ggsw1 2), some (.input .ggsw1 3)], []⟩, Ctx.new.zeroCache, Ctx.new.oneCache⟩,
    [.int .signed .ggsw1 [0, 1, 2, 3], .int .signed .ggsw1 [0, 3]], rfl, rfl⟩

theorem exShrink_topo : TopoOrder exShrinkG [0, 1, 2, 3, 4, 5] :=
  TopoOrder.of_check (by decide) (by decide) (by decide) (by decide)

theorem exShrink_ops {a : Nat} {op : FheOp} (h : exShrinkG.weight a = some op) :
    (a < 4 ∧ op = .input .ggsw1 a) ∨ (a = 4 ∧ op = .output .ggsw1 4) ∨ (a = 5 ∧ op = .output .ggsw1 5) := by
  match a, h with
  | 0, h => cases h; exact .inl ⟨by decide, rfl⟩
  | 1, h => cases h; exact .inl ⟨by decide, rfl⟩
  | 2, h => cases h; exact .inl ⟨by decide, rfl⟩
  | 3, h => cases h; exact .inl ⟨by decide, rfl⟩
  | 4, h => cases h; exact .inr (.inl ⟨rfl, rfl⟩)
  | 5, h => cases h; exact .inr (.inr ⟨rfl, rfl⟩)
  | n + 6, h => cases h

/-- the bits of `-8` -/
theorem shrink_bits {vals : CtType → Nat → Val} {env : Nat → Int} (h0 : env 0 = -8) (hin : InputsOk vals env exShrink) :
    ∀ c, c < 4 → vals .ggsw1 c = ctOf .ggsw1 (c == 3) := by
  obtain ⟨bits, hb, hv⟩ := hin (.input .signed .ggsw1 0 [0, 1, 2, 3]) (by simp [exShrink])
  match bits, hb with
  | [p, q, r, s], .cons h1 (.cons h2 (.cons h3 (.cons h4 .nil))) =>
    rw [h0] at hv
    have : p = false ∧ q = false ∧ r = false ∧ s = true := by
      revert hv
      cases p <;> cases q <;> cases r <;> cases s <;> decide
    obtain ⟨rfl, rfl, rfl, rfl⟩ := this
    intro c hc
    match c, hc with
    | 0, _ => exact h1
    | 1, _ => exact h2
    | 2, _ => exact h3
    | 3, _ => exact h4

/-- **C100 (violated: a wrong result on ciphertexts).** Generate a compute key from any secret keys and run the program that
resizes the signed 4-bit input `-8` to 2 bits on an encryption of that input, collecting the result into the cells 4 and 5. The
program means `0`. The library builds the circuit, the executor accepts it, and under every schedule the completion callback is
called once, without error; but the client decrypts the result to `-2`, and to nothing else. -/
theorem C100_violated {n v : Nat} {P : EvalParams} (hP : ParamsOk W n v P) {ν : NoiseLevels} {s : List Bool} {sk : List (List (BitVec W))} (hs : SecretOk P n ν s sk)
    (checked : Bool) {D : KeyDraws W} (hD : DrawsOk P n ν D) :
    ∃ K, computeKeyGen checked P (bitKey W s) sk D = some K ∧ ∀ err : FheOp → List (Ct W × FheEdge) → OpErr W, (∀ op ins, ErrOk P n ν.fft (err op ins)) →
      ∀ lib : BddLib, ∃ ctx hs g, exec lib P.degree exShrink Ctx.new [] = some (ctx, hs) ∧ collectAll hs [(1, [4, 5])] ctx.circuit = some g ∧
        (∃ ord, TopoOrder g ord) ∧ ∀ ord, TopoOrder g ord → ∃ items, spawnAll [(g, ord)] 0 0 = some items ∧
          ∀ (env : Nat → Int) (vals : CtType → Nat → Val) (nz : CtType → Nat → Nat) (cells : CtType × Nat → Ct W), env 0 = -8 → InputsOk vals env exShrink →
            (∀ i ∈ exShrink, ∀ p ∈ instrCells i, CtEncrypts P (bitKey W s) sk (nz p.1 p.2) (vals p.1 p.2) (cells p)) → NoiseFits W P ν nz g →
            ∀ threads tokens st, Reached (liftExec (execCt P K err)) threads tokens items cells st → Finished items st →
              st.fired 0 = [none] ∧ meaning env exShrink [] = some [.int .signed 4 (-8), .int .signed 2 0] ∧
              ReadsAs P (bitKey W s) sk st.cells [4, 5] (.int .signed .ggsw1 2) (.int .signed 2 (-2)) ∧
              ¬ ReadsAs P (bitKey W s) sk st.cells [4, 5] (.int .signed .ggsw1 2) (.int .signed 2 0) := by
  obtain ⟨K, k1, k2⟩ := C94_end_to_end_partial hP hs checked hD
  refine ⟨K, k1, fun err he lib => ?_⟩
  obtain ⟨ctx, hs', e1, e2⟩ := exShrink_build lib P.degree
  refine ⟨ctx, hs', exShrinkG, e1, e2, ⟨_, exShrink_topo⟩, fun ord ht => ?_⟩
  have hone : ∀ p ∈ [(exShrinkG, ord)], p = (exShrinkG, ord) := fun p hp => List.mem_singleton.1 hp
  obtain ⟨items, i1, _⟩ := C16_spawn (gs := [(exShrinkG, ord)]) (by intro p hp; rw [hone p hp]; exact ht)
  refine ⟨items, i1, fun env vals nz cells h0 hin henc hnz threads tokens st hr hf => ?_⟩
  have hap : Apart [(exShrinkG, ord)] := by
    have one : ∀ (k : Nat) (p : FGraph × List Nat), [(exShrinkG, ord)][k]? = some p → k = 0 ∧ p = (exShrinkG, ord) := by
      intro k p hp
      match k, hp with
      | 0, hp => cases hp; exact ⟨rfl, rfl⟩
    constructor
    · intro k k' p p' a a' t c hk hk' ha ha'
      obtain ⟨rfl, rfl⟩ := one k p hk
      obtain ⟨rfl, rfl⟩ := one k' p' hk'
      refine ⟨rfl, ?_⟩
      rcases exShrink_ops ha with ⟨_, x⟩ | ⟨x1, x⟩ | ⟨x1, x⟩ <;> rcases exShrink_ops ha' with ⟨_, y⟩ | ⟨y1, y⟩ | ⟨y1, y⟩ <;> cases x <;> cases y
      · rw [x1, y1]
      · rw [x1, y1]
    · intro k k' p p' a a' t c hk hk' ha ha'
      obtain ⟨rfl, rfl⟩ := one k p hk
      obtain ⟨rfl, rfl⟩ := one k' p' hk'
      rcases exShrink_ops ha with ⟨x1, x⟩ | ⟨x1, x⟩ | ⟨x1, x⟩ <;> rcases exShrink_ops ha' with ⟨y1, y⟩ | ⟨y1, y⟩ | ⟨y1, y⟩ <;> cases x <;> cases y <;> omega
  have hb := shrink_bits h0 hin
  have ev : ∀ c, c < 4 → FEval P.degree vals exShrinkG c (ctOf .ggsw1 (c == 3)) := by
    intro c hc
    rw [← hb c hc]
    refine .op (fun _ => .lwe0 false) (op := .input .ggsw1 c) ?_ ?_ ?_
    · match c, hc with
      | 0, _ => rfl
      | 1, _ => rfl
      | 2, _ => rfl
      | 3, _ => rfl
    · match c, hc with
      | 0, _ => intro e he; cases he
      | 1, _ => intro e he; cases he
      | 2, _ => intro e he; cases he
      | 3, _ => intro e he; cases he
    · match c, hc with
      | 0, _ => rfl
      | 1, _ => rfl
      | 2, _ => rfl
      | 3, _ => rfl
  have eo : ∀ (a c m : Nat) (b : Bool), exShrinkG.weight a = some (.output .ggsw1 c) → exShrinkG.inEdges a = [(m, a, .unary)] →
      FEval P.degree vals exShrinkG m (ctOf .ggsw1 b) → FEval P.degree vals exShrinkG a (ctOf .ggsw1 b) := by
    intro a c m b hw hi hm
    refine .op (fun _ => ctOf .ggsw1 b) hw ?_ ?_
    · rw [hi]; intro e he; cases List.mem_singleton.1 he; exact hm
    · rw [hi]; rfl
  have e4 := eo 4 4 0 false rfl rfl (ev 0 (by decide))
  have e5 := eo 5 5 3 true rfl rfl (ev 3 (by decide))
  obtain ⟨f1, f2⟩ := k2 err he [(exShrinkG, ord)] cells vals nz (fun p hp => by rw [hone p hp]; exact ht) hap (by
    intro p hp a t c hw
    rw [hone p hp] at hw
    rcases exShrink_ops hw with ⟨x1, x⟩ | ⟨_, x⟩ | ⟨_, x⟩ <;> cases x
    refine henc (.input .signed .ggsw1 0 [0, 1, 2, 3]) (by simp [exShrink]) (.ggsw1, a) ?_
    match a, x1 with
    | 0, _ => simp [instrCells]
    | 1, _ => simp [instrCells]
    | 2, _ => simp [instrCells]
    | 3, _ => simp [instrCells]) items i1 threads tokens st hr hf 0 exShrinkG ord rfl
    ⟨fun a op hw => by
      rcases exShrink_ops hw with ⟨x1, _⟩ | ⟨rfl, _⟩ | ⟨rfl, _⟩
      · exact Or.inr ⟨_, ev a x1⟩
      · exact Or.inr ⟨_, e4⟩
      · exact Or.inr ⟨_, e5⟩, by
      intro e he t c hw
      have : e = (3, 5, .unary) ∨ e = (0, 4, .unary) := by simpa [exShrinkG] using he
      rcases this with rfl | rfl <;> cases hw⟩ (fun a op hw _ => by
      obtain ⟨B, hB, _⟩ := hnz a op hw
      exact ⟨B, hB⟩)
  have dec : ∀ (a c : Nat) (b : Bool), exShrinkG.weight a = some (.output .ggsw1 c) → FEval P.degree vals exShrinkG a (ctOf .ggsw1 b) →
      CtDecrypts P (bitKey W s) sk (st.cells (.ggsw1, c)) (ctOf .ggsw1 b) := by
    intro a c b hw hu
    obtain ⟨B, hB, hlim⟩ := hnz a _ hw
    exact f2 a _ c _ B hw hu hB (hlim _ _ rfl)
  have d4 := dec 4 4 false rfl e4
  have d5 := dec 5 5 true rfl e5
  refine ⟨f1, by simp only [exShrink, meaning, meanI, h0]; rfl, ⟨rfl, rfl, [false, true], rfl, .cons d4 (.cons d5 .nil), by decide⟩, ?_⟩
  have uniq : ∀ (c : Ct W) (b b' : Bool), CtDecrypts P (bitKey W s) sk c (ctOf .ggsw1 b) → CtDecrypts P (bitKey W s) sk c (ctOf .ggsw1 b') → b' = b := by
    intro c b b' h h'
    cases c <;> simp only [ctOf, CtDecrypts] at h h'
    rw [h] at h'
    exact (Option.some.inj h').symm
  rintro ⟨_, _, bits, _, hx, hval⟩
  match bits, hx with
  | [p, q], .cons hp (.cons hq .nil) =>
    have i1 := uniq _ _ _ d4 hp
    have i2 := uniq _ _ _ d5 hq
    subst i1 i2
    revert hval
    decide

/-- Fresh encryptions with the noise 4 meet the conditions. -/
theorem exShrink_fits : fits 64 exCtParams exCtLevels (fun _ _ => 4) 10 exShrinkG = true := by decide +kernel

example : NoiseFits 64 exCtParams exCtLevels (fun _ _ => 4) exShrinkG ∧ (fun _ => -8 : Nat → Int) 0 = -8 ∧
    InputsOk (fun t c => ctOf t (c == 3)) (fun _ => -8) exShrink := by
  refine ⟨fits_ok exShrink_fits, rfl, fun i hi => ?_⟩
  simp only [exShrink, List.mem_cons, List.not_mem_nil, or_false] at hi
  rcases hi with rfl | rfl
  · exact ⟨[false, false, false, true], .cons rfl (.cons rfl (.cons rfl (.cons rfl .nil))), by decide⟩
  · trivial

end Spf.Props
