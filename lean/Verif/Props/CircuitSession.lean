import Verif.Spec.CircuitSession
import Verif.Proof.SchedFrame
import Verif.Props.TrivialInt
/-! C123: sessions of circuits. -/
set_option autoImplicit false
namespace Spf.Props
open Spf.Spec Spf.Fhe Spf.Fluent Spf.Tfhe Spf.CtExec Spf.TrivialInt Spf.Sched
variable {W : Nat}

theorem ctHolds_mono {P : EvalParams} {s : List (BitVec W)} {sk : List (List (BitVec W))} {B B' : Nat} (hB : B ≤ B') {c : Ct W} {u : Val} (h : CtHolds P s sk B c u) : CtHolds P s sk B' c u := by
  have hn : ∀ {p q : List (BitVec W)}, NearPoly B p q → NearPoly B' p q := fun h => h.imp fun _ _ h => Tfhe.Near.mono h hB
  have hg : ∀ {k N : Nat} {r : Radix} {msg : List (BitVec W)} {row : List (Glwe (BitVec W))}, GlevHolds k N r sk B msg row → GlevHolds k N r sk B' msg row := by
    intro k N r msg row h
    refine ⟨h.1, fun t ct ht => ?_⟩
    obtain ⟨h1, y, h2, h3⟩ := h.2 t ct ht
    exact ⟨h1, y, h2, hn h3⟩
  cases c <;> cases u <;> simp only [CtHolds] at h ⊢
  · obtain ⟨x, h1, h2⟩ := h; exact ⟨x, h1, Tfhe.Near.mono h2 hB⟩
  · obtain ⟨x, h1, h2⟩ := h; exact ⟨x, h1, Tfhe.Near.mono h2 hB⟩
  · obtain ⟨h0, x, h1, h2⟩ := h; exact ⟨h0, x, h1, hn h2⟩
  · exact h.imp fun _ _ h => hg h
  · exact hg h

theorem knows_upd {P : EvalParams} {s : List (BitVec W)} {sk : List (List (BitVec W))} {κ : Known} {cells : CtType × Nat → Ct W} (h : Knows P s sk κ cells) {x : CtType × Nat}
    {o : Option (Val × Nat)} {c : Ct W} (ho : ∀ u B, o = some (u, B) → CtHolds P s sk B c u) :
    Knows P s sk (fun y => if y = x then o else κ y) (fun y => if y = x then c else cells y) := by
  intro y u B hy
  by_cases hyx : y = x
  · simp only [hyx, if_true] at hy ⊢
    exact ho u B hy
  · simp only [hyx, if_false] at hy ⊢
    exact h y u B hy

section
variable {n v : Nat} {P : EvalParams} {ν : NoiseLevels} {s : List Bool} {sk : List (List (BitVec W))} {K : EvalKey W}

theorem step_sound (hs : SecretOk P n ν s sk) (hK : Setting W n v P s sk ν K) {st : CStep} {κ κ' : Known} (hk : StepKnown W P ν st κ κ') {cells cells' : CtType × Nat → Ct W}
    {fired : List (List (Option RtErr))} (hc : Knows P (bitKey W s) sk κ cells) (hr : StepRuns P n ν.fft (bitKey W s) sk K st cells cells' fired) :
    Knows P (bitKey W s) sk κ' cells' ∧ ∀ f ∈ fired, f = [none] := by
  have hP := hK.params
  cases hr with
  | put h =>
    cases hk
    exact ⟨knows_upd hc fun u B e => by cases e; exact (holds_iff hP hs.key _ _).2 (encrypts_held hP hs h), by simp⟩
  | @trivial t i b _ C c h =>
    cases hk with
    | trivial ht =>
    refine ⟨knows_upd hc fun u B e => ?_, by simp⟩
    cases e
    obtain ⟨c', c1, c2⟩ := trivialBit_ok hP (C := C) t b
    rw [h] at c1; cases c1
    exact (holds_iff hP hs.key _ _).2 (c2 _ _ 0 (fun h => absurd h ht) (fun _ => rfl))
  | @copy x y =>
    cases hk
    exact ⟨knows_upd hc fun u B e => hc x u B e, by simp⟩
  | @run gs _ err he prog hp threads tokens st hr hf =>
    cases hk with
    | run topo apart reads evals analysis after =>
    have hI := interp_execCt P K err
    have hheld : ∀ p ∈ gs, ∀ a t c, p.1.weight a = some (.input t c) → Held P n (bitKey W s) sk (κ.noise t c) ((fun t c => cells (t, c)) t c) (κ.vals t c) := by
      intro p hp a t c hw
      have := reads p hp a t c hw
      obtain ⟨⟨u, B⟩, hu⟩ := Option.isSome_iff_exists.1 this
      have h := hc _ u B hu
      simp only [Known.noise, Known.vals, hu]
      exact (holds_iff hP hs.key _ _).1 h
    have hfired : ∀ k g ord, gs[k]? = some (g, ord) → st.fired k = [none] := by
      intro k g ord hk
      have hmem := List.mem_of_getElem? hk
      refine (SchedG.sched19_circuits hI topo apart hp hr hf hk).1 ⟨fun a op hw => ?_, (evals _ hmem).sink⟩
      rcases (evals _ hmem).node a op hw with h | ⟨u, hu⟩
      · exact Or.inl h
      · right
        have hne : op ≠ .nop := by
          rintro rfl
          cases hu with
          | op f hw' _ hx => rw [hw] at hw'; cases hw'; simp [execOp] at hx
        obtain ⟨B, hB⟩ := analysis _ hmem a op hw hne
        obtain ⟨c, c1, _⟩ := nodeEval_ok hK he (hheld _ hmem) hu hB
        exact ⟨c, c1⟩
    refine ⟨?_, ?_⟩
    · rintro ⟨t, c⟩ u B hu
      rcases after t c u B hu with ⟨p, hpm, a, B₀, hw, hv, hB, hle⟩ | ⟨hno, B₀, hu0, hle⟩
      · obtain ⟨k, hk⟩ := List.getElem?_of_mem hpm
        obtain ⟨x, x1, x2⟩ := SchedG.sched16_circuits hI topo apart hp hr (g := p.1) (ord := p.2) hk (by rw [hfired k p.1 p.2 hk]; simp) hw
        obtain ⟨y, y1, y2⟩ := nodeEval_ok hK he (hheld p hpm) hv hB
        rw [x2, SchedG.NodeEval.unique x1 y1]
        exact ctHolds_mono hle ((holds_iff hP hs.key _ _).2 y2)
      · rw [SchedG.frame_circuits topo hp hr hno]
        exact ctHolds_mono hle (hc _ u B₀ hu0)
    · intro f hfm
      obtain ⟨k, hk, rfl⟩ := List.mem_map.1 hfm
      have hlt := List.mem_range.1 hk
      exact hfired k gs[k].1 gs[k].2 (List.getElem?_eq_getElem hlt)

theorem session_sound (hs : SecretOk P n ν s sk) (hK : Setting W n v P s sk ν K) {sts : List CStep} {κ κ' : Known} (hk : SessionKnown W P ν sts κ κ') :
    ∀ {cells cells' : CtType × Nat → Ct W} {fired : List (List (Option RtErr))}, Knows P (bitKey W s) sk κ cells → SessionRuns P n ν.fft (bitKey W s) sk K sts cells cells' fired →
      Knows P (bitKey W s) sk κ' cells' ∧ ∀ f ∈ fired, f = [none] := by
  induction hk with
  | nil => intro cells cells' fired hc hr; cases hr; exact ⟨hc, by simp⟩
  | cons h t ih =>
    intro cells cells' fired hc hr
    cases hr with
    | cons h' t' =>
      obtain ⟨a1, a2⟩ := step_sound hs hK h hc h'
      obtain ⟨b1, b2⟩ := ih a1 t'
      exact ⟨b1, fun f hf => (List.mem_append.1 hf).elim (a2 f) (b2 f)⟩

end

/-- **C123, sessions.** Generate a compute key, with any masks and noise within `ν`. Take any session: any number of calls that run circuits, several at a time, on any number of threads and under any schedules, with new
encryptions, trivial encryptions and copies of ciphertexts between them, circuits reading what earlier circuits wrote. If every circuit evaluates on the messages and passes the noise analysis, both carried from call to call, then
no circuit reports an error, every ciphertext holds at the end the message it has in the clear, up to the noise the analysis gives, and decrypts to it whenever that noise is below the limit of decryption. -/
theorem C123_session {n v : Nat} {P : EvalParams} (hP : ParamsOk W n v P) {ν : NoiseLevels} {s : List Bool} {sk : List (List (BitVec W))} (hs : SecretOk P n ν s sk)
    (checked : Bool) {D : KeyDraws W} (hD : DrawsOk P n ν D) :
    ∃ K, computeKeyGen checked P (bitKey W s) sk D = some K ∧
      ∀ (sts : List CStep) (κ κ' : Known), SessionKnown W P ν sts κ κ' → ∀ (cells cells' : CtType × Nat → Ct W) (fired : List (List (Option RtErr))), Knows P (bitKey W s) sk κ cells →
        SessionRuns P n ν.fft (bitKey W s) sk K sts cells cells' fired →
          (∀ f ∈ fired, f = [none]) ∧ ∀ x u B, κ' x = some (u, B) → CtHolds P (bitKey W s) sk B (cells' x) u ∧ (B < decryptLimit W P u → CtDecrypts P (bitKey W s) sk (cells' x) u) := by
  obtain ⟨K, k1, k2⟩ := keygen_ok hP hs checked hD
  refine ⟨K, k1, fun sts κ κ' hk cells cells' fired hc hr => ?_⟩
  obtain ⟨h1, h2⟩ := session_sound hs k2 hk hc hr
  exact ⟨h2, fun x u B hx => ⟨h1 x u B hx, fun hB => held_decrypts hP hs ((holds_iff hP hs.key _ _).1 (h1 x u B hx)) hB⟩⟩

/-- **C123, nothing blocks.** Every session whose fresh encryptions are given can be carried out: with a thread and a token for flow control, for all floating-point errors of the circuits, the run of every circuit ends. -/
theorem C123_completes {n v : Nat} {P : EvalParams} (hP : ParamsOk W n v P) (ν : NoiseLevels) (F : Nat) (s : List (BitVec W)) (sk : List (List (BitVec W))) (K : EvalKey W) (C : Consts W)
    (err : FheOp → List (Ct W × FheEdge) → OpErr W) (he : ∀ op ins, ErrOk P n F (err op ins)) :
    ∀ (sts : List CStep) (κ κ' : Known), SessionKnown W P ν sts κ κ' → (∀ x m E, CStep.put x m E ∈ sts → ∃ c, CtEncrypts P s sk E m c) →
      ∀ cells : CtType × Nat → Ct W, ∃ cells' fired, SessionRuns P n F s sk K sts cells cells' fired := by
  intro sts κ κ' hk
  induction hk with
  | nil => intro _ cells; exact ⟨cells, [], .nil⟩
  | @cons st sts κ κ' κ'' h hrest ih =>
    intro henc cells
    suffices H : ∃ c1 f, StepRuns P n F s sk K st cells c1 f by
      obtain ⟨c1, f, hr⟩ := H
      obtain ⟨c2, fs, ht⟩ := ih (fun x m E hm => henc x m E (List.mem_cons_of_mem _ hm)) c1
      exact ⟨c2, f ++ fs, .cons hr ht⟩
    cases h with
    | put =>
      obtain ⟨c, hc⟩ := henc _ _ _ (List.mem_cons_self ..)
      exact ⟨_, _, .put hc⟩
    | @trivial t i b =>
      obtain ⟨c, hc, _⟩ := trivialBit_ok hP (C := C) t b
      exact ⟨_, _, .trivial C hc⟩
    | copy => exact ⟨_, _, .copy⟩
    | @run gs _ _ topo apart =>
      obtain ⟨prog, hp, _⟩ := C16_spawn topo
      obtain ⟨sched, st, hr, hf⟩ := (SchedG.sched18_circuits (W := 1) (F := 1) (cells := cells) (interp_execCt P K err) topo apart Nat.one_pos Nat.one_pos hp).1 (init 1 cells) ⟨[], rfl⟩
      exact ⟨_, _, .run err he hp 1 1 ⟨sched, hr⟩ hf⟩

/-! ### a session of any length -/

/-- extract, keyswitch and bootstrap the bit in ciphertext `i`, and write its negation to ciphertext `j` -/
def exToggle (i j : Nat) : FGraph := ⟨[some (.input .glwe1 i), some (.sampleExtract 0), some .keyswitchL1toL0, some .circuitBootstrap, some .oneGlwe1, some .zeroGlwe1, some .cmux,
    some (.output .glwe1 j)], [(0, 1, .unary), (1, 2, .unary), (2, 3, .unary), (3, 6, .sel), (4, 6, .low), (5, 6, .high), (6, 7, .unary)]⟩

theorem exToggle_topo {i j : Nat} (h : (i = 0 ∧ j = 1) ∨ (i = 1 ∧ j = 0)) : TopoOrder (exToggle i j) [0, 1, 2, 3, 4, 5, 6, 7] := by
  rcases h with ⟨rfl, rfl⟩ | ⟨rfl, rfl⟩
  · exact TopoOrder.of_check (by decide) (by decide) (by decide) (by decide)
  · exact TopoOrder.of_check (by decide) (by decide) (by decide) (by decide)

theorem exToggle_ops {i j a : Nat} {op : FheOp} (h : (exToggle i j).weight a = some op) :
    a < 8 ∧ (∀ t c, op = .input t c → t = .glwe1 ∧ c = i) ∧ ∀ t c, op = .output t c → a = 7 ∧ t = .glwe1 ∧ c = j := by
  match a, h with
  | 0, h => cases h; exact ⟨by decide, (by intro t c h; cases h; exact ⟨rfl, rfl⟩), (by intro t c h; cases h)⟩
  | 1, h => cases h; exact ⟨by decide, (by intro t c h; cases h), (by intro t c h; cases h)⟩
  | 2, h => cases h; exact ⟨by decide, (by intro t c h; cases h), (by intro t c h; cases h)⟩
  | 3, h => cases h; exact ⟨by decide, (by intro t c h; cases h), (by intro t c h; cases h)⟩
  | 4, h => cases h; exact ⟨by decide, (by intro t c h; cases h), (by intro t c h; cases h)⟩
  | 5, h => cases h; exact ⟨by decide, (by intro t c h; cases h), (by intro t c h; cases h)⟩
  | 6, h => cases h; exact ⟨by decide, (by intro t c h; cases h), (by intro t c h; cases h)⟩
  | 7, h => cases h; exact ⟨by decide, (by intro t c h; cases h), (by intro t c h; cases h; exact ⟨rfl, rfl, rfl⟩)⟩
  | n + 8, h => cases h

/-- the bit `b` is in ciphertext `i`, nothing else is known -/
def exKnown (i : Nat) (b : Bool) : Known := fun x => if x = (.glwe1, i) then some (ctOf .glwe1 b, 2 ^ 52) else none

theorem exToggle_step (i j : Nat) (b : Bool) (h01 : (i = 0 ∧ j = 1) ∨ (i = 1 ∧ j = 0)) (hev : ∀ a < 8, (nodeFuel (execOp 16 (exKnown i b).vals) (exToggle i j) 8 a).isSome)
    (hv : nodeFuel (execOp 16 (exKnown i b).vals) (exToggle i j) 8 7 = some (ctOf .glwe1 (!b)))
    (hn : ∀ a < 8, (nodeFuel (noiseOp 64 exCtParams exCtLevels (exKnown i b).noise) (exToggle i j) 8 a).isSome)
    (hB : ∃ B, nodeFuel (noiseOp 64 exCtParams exCtLevels (exKnown i b).noise) (exToggle i j) 8 7 = some B ∧ B ≤ 2 ^ 52) :
    StepKnown 64 exCtParams exCtLevels (.run [(exToggle i j, [0, 1, 2, 3, 4, 5, 6, 7])]) (exKnown i b) (exKnown j !b) := by
  have hone : ∀ p ∈ [(exToggle i j, [0, 1, 2, 3, 4, 5, 6, 7])], p = (exToggle i j, [0, 1, 2, 3, 4, 5, 6, 7]) := fun p hp => List.mem_singleton.1 hp
  have one : ∀ (k : Nat) (p : FGraph × List Nat), [(exToggle i j, [0, 1, 2, 3, 4, 5, 6, 7])][k]? = some p → k = 0 ∧ p = (exToggle i j, [0, 1, 2, 3, 4, 5, 6, 7]) := by
    intro k p hp
    match k, hp with
    | 0, hp => cases hp; exact ⟨rfl, rfl⟩
  have hij : i ≠ j := by omega
  refine .run (fun p hp => by rw [hone p hp]; exact exToggle_topo h01) ⟨?_, ?_⟩ (fun p hp a t c hw => ?_) (fun p hp => ?_) (fun p hp a op hw _ => ?_) (fun t c u B hu => ?_)
  · intro k k' p p' n n' t c hk hk' hw hw'
    obtain ⟨rfl, rfl⟩ := one k p hk
    obtain ⟨rfl, rfl⟩ := one k' p' hk'
    exact ⟨rfl, ((exToggle_ops hw).2.2 t c rfl).1.trans ((exToggle_ops hw').2.2 t c rfl).1.symm⟩
  · intro k k' p p' n n' t c hk hk' hw hw'
    obtain ⟨rfl, rfl⟩ := one k p hk
    obtain ⟨rfl, rfl⟩ := one k' p' hk'
    exact hij (((exToggle_ops hw).2.1 t c rfl).2.symm.trans ((exToggle_ops hw').2.2 t c rfl).2.2)
  · rw [hone p hp] at hw
    obtain ⟨rfl, rfl⟩ := (exToggle_ops hw).2.1 t c rfl
    simp [exKnown]
  · rw [hone p hp]
    refine ⟨fun a op hw => Or.inr ?_, fun e he t c hw => ?_⟩
    · obtain ⟨u, hu⟩ := Option.isSome_iff_exists.1 (hev a (exToggle_ops hw).1)
      exact ⟨u, nodeEval_feval (nodeFuel_ok hu)⟩
    · have h7 := ((exToggle_ops hw).2.2 t c rfl).1
      have hall : ∀ e ∈ (exToggle i j).edges, e.1 ≠ 7 := by
        show ∀ e ∈ [(0, 1, FheEdge.unary), (1, 2, .unary), (2, 3, .unary), (3, 6, .sel), (4, 6, .low), (5, 6, .high), (6, 7, .unary)], e.1 ≠ 7
        decide
      exact hall e he h7
  · rw [hone p hp] at hw ⊢
    obtain ⟨B, hB⟩ := Option.isSome_iff_exists.1 (hn a (exToggle_ops hw).1)
    exact ⟨B, nodeFuel_ok hB⟩
  · rw [exKnown] at hu
    split at hu
    · rename_i he
      cases he
      cases hu
      obtain ⟨B, h1, h2⟩ := hB
      exact Or.inl ⟨_, List.mem_singleton.2 rfl, 7, B, rfl, nodeEval_feval (nodeFuel_ok hv), nodeFuel_ok h1, h2⟩
    · cases hu

/-- `m` negations, back and forth between two ciphertexts -/
def exSession : Nat → Bool → List CStep
  | 0, _ => []
  | m + 1, false => .run [(exToggle 0 1, [0, 1, 2, 3, 4, 5, 6, 7])] :: exSession m true
  | m + 1, true => .run [(exToggle 1 0, [0, 1, 2, 3, 4, 5, 6, 7])] :: exSession m false

theorem exSession_known : ∀ (m : Nat) (o b : Bool), ∃ i, SessionKnown 64 exCtParams exCtLevels (exSession m o) (exKnown (if o then 1 else 0) b) (exKnown i (Bool.xor b (m % 2 == 1)))
  | 0, o, b => ⟨_, by rw [show Bool.xor b (0 % 2 == 1) = b by cases b <;> rfl]; exact .nil⟩
  | m + 1, o, b => by
    obtain ⟨i, hi⟩ := exSession_known m (!o) (!b)
    have hp : Bool.xor (!b) (m % 2 == 1) = Bool.xor b ((m + 1) % 2 == 1) := by
      rcases Nat.mod_two_eq_zero_or_one m with h | h
      · have h' : (m + 1) % 2 = 1 := by omega
        rw [h, h']; cases b <;> rfl
      · have h' : (m + 1) % 2 = 0 := by omega
        rw [h, h']; cases b <;> rfl
    rw [hp] at hi
    refine ⟨i, ?_⟩
    cases o
    · refine .cons (exToggle_step 0 1 b (by decide) ?_ ?_ ?_ ?_) hi <;> cases b
      · decide +kernel
      · decide +kernel
      · rfl
      · rfl
      · decide +kernel
      · decide +kernel
      · exact ⟨_, by rfl, by decide +kernel⟩
      · exact ⟨_, by rfl, by decide +kernel⟩
    · refine .cons (exToggle_step 1 0 b (by decide) ?_ ?_ ?_ ?_) hi <;> cases b
      · decide +kernel
      · decide +kernel
      · rfl
      · rfl
      · decide +kernel
      · decide +kernel
      · exact ⟨_, by rfl, by decide +kernel⟩
      · exact ⟨_, by rfl, by decide +kernel⟩

/-- Encrypt a bit and negate it `m` times on ciphertexts, each time bootstrapping: for every `m` the client decrypts the bit, negated if `m` is odd. -/
example (m : Nat) (b : Bool) : ∃ K i, computeKeyGen true exCtParams (bitKey 64 [true, true]) exCtSk exCtDraws = some K ∧
    ∀ (cells cells' : CtType × Nat → Ct 64) (fired : List (List (Option RtErr))),
      SessionRuns exCtParams 4 exCtLevels.fft (bitKey 64 [true, true]) exCtSk K (.put (.glwe1, 0) (ctOf .glwe1 b) (2 ^ 52) :: exSession m false) cells cells' fired →
        (∀ f ∈ fired, f = [none]) ∧ CtDecrypts exCtParams (bitKey 64 [true, true]) exCtSk (cells' (.glwe1, i)) (ctOf .glwe1 (Bool.xor b (m % 2 == 1))) := by
  obtain ⟨K, k1, k2⟩ := C123_session exCtParams_ok exCtSecret_ok true exCtDraws_ok
  obtain ⟨i, hi⟩ := exSession_known m false b
  refine ⟨K, i, k1, fun cells cells' fired hr => ?_⟩
  obtain ⟨h1, h2⟩ := k2 _ (fun _ => none) _ (.cons .put hi) cells cells' fired (fun _ _ _ h => by cases h) hr
  exact ⟨h1, (h2 (.glwe1, i) (ctOf .glwe1 (Bool.xor b (m % 2 == 1))) (2 ^ 52) (by rw [exKnown, if_pos rfl])).2 (show 2 ^ 52 < 2 ^ (64 - 2) by decide)⟩

/-- Such sessions exist, whatever the ciphertexts at the start. -/
example (m : Nat) (b : Bool) (K : EvalKey 64) (cells : CtType × Nat → Ct 64) : ∃ cells' fired,
    SessionRuns exCtParams 4 exCtLevels.fft (bitKey 64 [true, true]) exCtSk K (.put (.glwe1, 0) (ctOf .glwe1 b) (2 ^ 52) :: exSession m false) cells cells' fired := by
  obtain ⟨i, hi⟩ := exSession_known m false b
  refine C123_completes exCtParams_ok exCtLevels _ _ _ K ⟨[], []⟩ (fun _ _ => exTrivErr) (fun _ _ => exTrivErr_ok _) _ (fun _ => none) _ (.cons .put hi) (fun x c E hm => ?_) cells
  rcases List.mem_cons.1 hm with h | h
  · cases h
    obtain ⟨c, hc⟩ := (C94_encrypt_succeeds exCtParams_ok exCtSecret_ok b (constPoly b)).2.2.1 [List.replicate 16 3] none 0 ⟨rfl, by simp [exCtParams]⟩ (fun l hl => by cases hl)
    exact ⟨.glwe1 c, [List.replicate 16 3], none, ⟨rfl, by simp [exCtParams]⟩, (fun l hl => by cases hl), hc⟩
  · exfalso
    clear hi hm
    have : ∀ (m : Nat) (o : Bool), CStep.put x c E ∉ exSession m o := by
      intro m
      induction m with
      | zero => intro o h; cases h
      | succ m ih => intro o h; cases o <;> rcases List.mem_cons.1 h with h | h <;> first | cases h | exact ih _ h
    exact this _ _ h

end Spf.Props
