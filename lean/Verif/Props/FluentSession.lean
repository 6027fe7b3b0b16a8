import Verif.Spec.FluentSession
import Verif.Props.CircuitSession
import Verif.Props.FluentRun
/-! C124: sessions of fluent programs. -/
set_option autoImplicit false
namespace Spf.Props
open Spf.Spec Spf.Fhe Spf.Fluent Spf.Tfhe Spf.CtExec Spf.TrivialInt Spf.Sched Graph
variable {W : Nat}

/-- The values of a circuit depend only on the contents of the cells it reads. -/
theorem feval_cells {deg : Nat} {vals vals' : CtType → Nat → Val} {g : FGraph} (h : ∀ a t c, g.weight a = some (.input t c) → vals t c = vals' t c) {n : Nat} {u : Val}
    (hu : FEval deg vals g n u) : FEval deg vals' g n u := by
  induction hu with
  | @op n op v f hw _ hx ih =>
    refine .op f hw ih ?_
    rw [← hx]
    generalize ((g.inEdges n).map fun e => (f e.1, e.2.2)) = L
    unfold execOp
    split <;> first | rfl | skip
    rw [h _ _ _ hw]

theorem knownAs_int_input {κ : Known} {cs : List Nat} {s : Sign} {t : CtType} {w : Nat} {v : Int} (h : KnownAs κ cs (.int s t w) (.int s w v)) :
    (∀ c ∈ cs, (κ (t, c)).isSome) ∧ ∃ bits, List.Forall₂ (fun c b => κ.vals t c = ctOf t b) cs bits ∧ intVal s bits = v := by
  obtain ⟨_, _, bits, _, h2, h3⟩ := h
  refine ⟨fun c hc => ?_, bits, h2.imp fun c b hb => ?_, h3⟩
  · obtain ⟨j, hj, rfl⟩ := List.mem_iff_getElem.1 hc
    have := (List.forall₂_iff_get.1 h2).2 j hj (by rw [← h2.length_eq]; exact hj)
    obtain ⟨B, hB⟩ := this
    rw [List.get_eq_getElem] at hB
    rw [hB]; rfl
  · obtain ⟨B, hB⟩ := hb
    simp only [Known.vals, hB]

theorem readsAs_of_known {P : EvalParams} {s : List (BitVec W)} {sk : List (List (BitVec W))} {κ : Known} {cells : CtType × Nat → Ct W} {cs : List Nat} {ty : Ty} {v : PVal}
    (h : KnownAs κ cs ty v) (hd : ∀ c ∈ cs, ∀ u B, κ (outKind ty, c) = some (u, B) → CtDecrypts P s sk (cells (outKind ty, c)) u) : ReadsAs P s sk cells cs ty v := by
  cases ty <;> cases v <;> simp only [KnownAs, ReadsAs] at h ⊢
  · obtain ⟨h1, h2, bits, h3, h4, h5⟩ := h
    refine ⟨h1, h2, bits, h3, ?_, h5⟩
    clear h3 h5
    induction h4 with
    | nil => exact .nil
    | cons hx _ ih =>
      obtain ⟨B, hB⟩ := hx
      exact .cons (hd _ (by simp) _ _ hB) (ih fun c hc => hd c (by simp [hc]))
  · obtain ⟨c, B, rfl, h2⟩ := h
    exact ⟨c, rfl, hd c (by simp) _ _ h2⟩
  · obtain ⟨h1, h2, c, poly, B, rfl, h3, h4⟩ := h
    exact ⟨h1, h2, c, poly, rfl, hd c (by simp) _ _ h3, h4⟩

/-- **C124, one program.** Take an accepted program over encrypted integers and a choice of its results, on ciphertexts of which it is known that they hold the integers `env`, wherever they come from. If the noise analysis,
started with what is known of the ciphertexts, gives a bound at every node, then running the circuit that the library calls build is a step of a session (C123); afterwards it is known of the output cells that they hold the results of the plaintext
program on `env`, and what is known of all other ciphertexts is unchanged. So the results can be read by the next program, and the theorem applies again. -/
theorem C124_step {n v : Nat} {P : EvalParams} (hP : ParamsOk W n v P) (ν : NoiseLevels) {lib : BddLib} (hlib : BddLibOk lib) {prog : List Instr} {tys : List Ty}
    (hck : check P.degree prog [] = some tys) {outs : List (Nat × List Nat)} (ho : OutsOk prog tys outs) :
    ∃ ctx hs g, exec lib P.degree prog Ctx.new [] = some (ctx, hs) ∧ collectAll hs outs ctx.circuit = some g ∧ (∃ ord, TopoOrder g ord) ∧
      ∀ ord, TopoOrder g ord → ∀ (κ : Known) (env : Nat → Int), KnownInputs κ env prog →
        (∀ a op, g.weight a = some op → ∃ B, NodeEval (noiseOp W P ν κ.noise) g a B) →
          ∃ κ', StepKnown W P ν (.run [(g, ord)]) κ κ' ∧ (∀ x, x ∉ outCells tys outs → κ' x = κ x) ∧
            (∀ t c u B, (t, c) ∈ outCells tys outs → κ' (t, c) = some (u, B) → ∃ a, g.weight a = some (.output t c) ∧ NodeEval (noiseOp W P ν κ.noise) g a B) ∧
            ∃ vs, meaning env prog [] = some vs ∧ ∀ o ∈ outs, ∃ ty v, tys[o.1]? = some ty ∧ vs[o.1]? = some v ∧ KnownAs κ' o.2 ty v := by
  have hdeg : 0 < P.degree := by rw [hP.degree]; exact Nat.two_pow_pos n
  obtain ⟨ctx, hs', g, b1, b2, b3, b4, b5, b6⟩ := build_ok hlib hdeg hck ho
  obtain ⟨ctx', hs'', g', a1, a2, a3, a4, a5, a6, a7⟩ := C100_build_partial hlib hdeg hck ho
  rw [b1] at a1; cases a1
  rw [b2] at a2; cases a2
  refine ⟨ctx, hs', g, b1, b2, a3, fun ord ht κ env hin hnz => ?_⟩
  have hin' := inputs_of_typed hin.holds
  have hct := typed_typed κ.vals
  have hcells : ∀ a t c, g.weight a = some (.input t c) → typed κ.vals t c = κ.vals t c := by
    intro a t c hw
    obtain ⟨i, j1, j2⟩ := a6 a t c hw
    exact typed_eq (inputs_typed hin.holds i j1 (t, c) j2)
  have hsink : ∀ e ∈ g.edges, ∀ t c, g.weight e.1 ≠ some (.output t c) := by
    intro e he' t c hw
    obtain ⟨op, t', w1, w2⟩ := b4.edge e he'
    rw [hw] at w1; cases w1
    simp [opType] at w2
  have hone : ∀ p ∈ [(g, ord)], p = (g, ord) := fun p hp => List.mem_singleton.1 hp
  classical
  let Q : CtType × Nat → Val × Nat → Prop := fun x r => ∃ a, g.weight a = some (.output x.1 x.2) ∧ FEval P.degree κ.vals g a r.1 ∧ NodeEval (noiseOp W P ν κ.noise) g a r.2
  let κ' : Known := fun x => if h : ∃ r, Q x r then some h.choose else κ x
  have hQ : ∀ t c a u, g.weight a = some (.output t c) → FEval P.degree κ.vals g a u → ∃ B, κ' (t, c) = some (u, B) := by
    intro t c a u hw hu
    obtain ⟨B, hB⟩ := hnz a _ hw
    have hex : ∃ r, Q (t, c) r := ⟨(u, B), a, hw, hu, hB⟩
    obtain ⟨a', w', u', n'⟩ := hex.choose_spec
    have := b5.2 a a' t c hw w'
    subst this
    refine ⟨hex.choose.2, ?_⟩
    rw [show κ' (t, c) = some hex.choose from dif_pos hex, FEval.unique hu u']
  have hout : ∀ x u B, κ' x = some (u, B) → (Q x (u, B)) ∨ ((¬ ∃ r, Q x r) ∧ κ x = some (u, B)) := by
    intro x u B hx
    by_cases hex : ∃ r, Q x r
    · left
      rw [show κ' x = some hex.choose from dif_pos hex] at hx
      have := hex.choose_spec
      rwa [Option.some.inj hx] at this
    · right
      rw [show κ' x = κ x from dif_neg hex] at hx
      exact ⟨hex, hx⟩
  have hval : ∀ a op, g.weight a = some op → ∃ u, FEval P.degree κ.vals g a u := by
    intro a op hw
    obtain ⟨u, hu⟩ := b4.runs (typed κ.vals) hct a (by rw [hw]; rfl)
    exact ⟨u, feval_cells hcells hu⟩
  have hnotin : ∀ x, x ∉ outCells tys outs → ¬ ∃ r, Q x r := by
    rintro x hx ⟨r, a, hw, _⟩
    exact hx (b5.1 a _ _ hw)
  obtain ⟨vs, v1, v2⟩ := b6 (typed κ.vals) env hin'
  refine ⟨κ', .run (fun p hp => by rw [hone p hp]; exact ht) (a5 ord ht) ?_ ?_ ?_ ?_, fun x hx => dif_neg (hnotin x hx), ?_, vs, v1, fun o hoo => ?_⟩
  · intro p hp a t c hw
    rw [hone p hp] at hw
    obtain ⟨i, j1, j2⟩ := a6 a t c hw
    exact hin.known i j1 _ j2
  · intro p hp
    rw [hone p hp]
    exact ⟨fun a op hw => Or.inr (hval a op hw), hsink⟩
  · intro p hp a op hw _
    rw [hone p hp] at hw ⊢
    exact hnz a op hw
  · intro t c u B hx
    rcases hout _ _ _ hx with ⟨a, h1, h2, h3⟩ | ⟨h1, h2⟩
    · exact Or.inl ⟨_, List.mem_singleton.2 rfl, a, B, h1, h2, h3, le_refl _⟩
    · refine Or.inr ⟨fun p hp a hw => ?_, B, h2, le_refl _⟩
      rw [hone p hp] at hw
      obtain ⟨u', hu'⟩ := hval a _ hw
      obtain ⟨B', hB'⟩ := hnz a _ hw
      exact h1 ⟨(u', B'), a, hw, hu', hB'⟩
  · intro t c u B hx hk
    rcases hout _ _ _ hk with ⟨a, h1, h2, h3⟩ | ⟨h1, h2⟩
    · exact ⟨a, h1, h3⟩
    · exfalso
      obtain ⟨o, hoo, hx⟩ := List.mem_flatMap.1 hx
      obtain ⟨ty, h, v, t1, _, _, os, t4, _⟩ := v2 o hoo
      simp only [t1] at hx
      obtain ⟨c', hc', he⟩ := List.mem_map.1 hx
      obtain ⟨j, hj, rfl⟩ := List.mem_iff_getElem.1 hc'
      have hw : ∃ a, g.weight a = some (.output (outKind ty) o.2[j]) := ⟨_, (List.forall₂_iff_get.1 t4).2 j (by rw [t4.length_eq]; exact hj) hj⟩
      rw [Prod.mk.injEq] at he
      rw [he.1, he.2] at hw
      obtain ⟨a, hw⟩ := hw
      obtain ⟨u', hu'⟩ := hval _ _ hw
      obtain ⟨B', hB'⟩ := hnz _ _ hw
      exact h1 ⟨(u', B'), _, hw, hu', hB'⟩
  · obtain ⟨ty, h, v, t1, t2, t3, os, t4, t5⟩ := v2 o hoo
    refine ⟨ty, v, t1, t2, ?_⟩
    have all : ∀ us : List Val, List.Forall₂ (fun n u => FEval P.degree (typed κ.vals) ctx.circuit n u ∧ u.type = outKind ty) (handleNodes h).2 us →
        List.Forall₂ (fun c u => ∃ B, κ' (outKind ty, c) = some (u, B)) o.2 us := by
      intro us hu
      have h1 := t5 us hu
      clear hu t5
      revert h1 us
      generalize o.2 = cs at t4
      induction t4 with
      | nil => intro us h1; cases h1; exact .nil
      | cons hx _ ih =>
        intro us h1
        cases h1 with
        | cons hy hys => exact .cons (hQ _ _ _ _ hx (feval_cells hcells hy)) (ih _ hys)
    cases ty with
    | int sg t w =>
      cases h <;> cases v <;> simp only [Decrypts] at t3
      obtain ⟨rfl, rfl, rfl, rfl, bits, u1, u2, u3⟩ := t3
      refine ⟨rfl, rfl, bits, u2, ?_, u3⟩
      exact List.forall₂_map_right_iff.1 (all (bits.map (ctOf _)) (List.forall₂_map_right_iff.2 (u1.imp fun n b hx => ⟨hx, ctOf_type _ b⟩)))
    | bit t =>
      cases h <;> cases v <;> simp only [Decrypts] at t3
      obtain ⟨rfl, u1⟩ := t3
      have := all [_] (.cons ⟨u1, ctOf_type _ _⟩ .nil)
      generalize hq : o.2 = cs at this
      cases this with
      | cons hx hxs => cases hxs; obtain ⟨B, hB⟩ := hx; exact ⟨_, B, rfl, hB⟩
    | packed sg w =>
      cases h <;> cases v <;> simp only [Decrypts] at t3
      obtain ⟨rfl, rfl, rfl, rfl, poly, u1, u2⟩ := t3
      have := all [_] (.cons ⟨u1, rfl⟩ .nil)
      generalize hq : o.2 = cs at this
      cases this with
      | cons hx hxs => cases hxs; obtain ⟨B, hB⟩ := hx; exact ⟨rfl, rfl, _, _, B, rfl, hB, u2⟩

theorem sessionKnown_append {P : EvalParams} {ν : NoiseLevels} {a b : List CStep} {κ κ' κ'' : Known} (h : SessionKnown W P ν a κ κ') (h' : SessionKnown W P ν b κ' κ'') :
    SessionKnown W P ν (a ++ b) κ κ'' := by
  induction h with
  | nil => exact h'
  | cons hs _ ih => exact .cons hs (ih h')

/-- **C124, running programs in sessions.** Generate a compute key, with any masks and noise within `ν`. After any session — fresh encryptions, earlier programs, several circuits at a time, on any threads and schedules — the client knows, from the cleartext,
what the ciphertexts hold. Run an accepted program over encrypted integers on some of them. The session so extended is a session again, in which it is known of the output cells that they hold the results of the plaintext program;
in every run of it no circuit reports an error, and if the bounds of the analysis on the results are below the limit of decryption, then the client decrypts the output cells to the results of the plaintext program.
(The conclusion gives the hypothesis for the next program, so this covers chains of programs of any length, in which the client decrypts nothing in between.) -/
theorem C124_session_partial {n v : Nat} {P : EvalParams} (hP : ParamsOk W n v P) {ν : NoiseLevels} {s : List Bool} {sk : List (List (BitVec W))} (hs : SecretOk P n ν s sk)
    (checked : Bool) {D : KeyDraws W} (hD : DrawsOk P n ν D) :
    ∃ K, computeKeyGen checked P (bitKey W s) sk D = some K ∧
      ∀ (lib : BddLib), BddLibOk lib → ∀ (prog : List Instr) (tys : List Ty) (outs : List (Nat × List Nat)), check P.degree prog [] = some tys → OutsOk prog tys outs →
        ∃ ctx hs g, exec lib P.degree prog Ctx.new [] = some (ctx, hs) ∧ collectAll hs outs ctx.circuit = some g ∧ (∃ ord, TopoOrder g ord) ∧
          ∀ ord, TopoOrder g ord → ∀ (sts : List CStep) (κ₀ κ : Known), SessionKnown W P ν sts κ₀ κ → ∀ env, KnownInputs κ env prog →
            (∀ a op, g.weight a = some op → ∃ B, NodeEval (noiseOp W P ν κ.noise) g a B) →
              ∃ κ', SessionKnown W P ν (sts ++ [.run [(g, ord)]]) κ₀ κ' ∧ (∀ x, x ∉ outCells tys outs → κ' x = κ x) ∧
                ∃ vs, meaning env prog [] = some vs ∧ (∀ o ∈ outs, ∃ ty v, tys[o.1]? = some ty ∧ vs[o.1]? = some v ∧ KnownAs κ' o.2 ty v) ∧
                  ∀ (cells cells' : CtType × Nat → Ct W) (fired : List (List (Option RtErr))), Knows P (bitKey W s) sk κ₀ cells →
                    SessionRuns P n ν.fft (bitKey W s) sk K (sts ++ [.run [(g, ord)]]) cells cells' fired →
                      (∀ f ∈ fired, f = [none]) ∧ (BelowLimit W P κ' (outCells tys outs) →
                        ∀ o ∈ outs, ∃ ty v, tys[o.1]? = some ty ∧ vs[o.1]? = some v ∧ ReadsAs P (bitKey W s) sk cells' o.2 ty v) := by
  obtain ⟨K, k1, k2⟩ := C123_session hP hs checked hD
  refine ⟨K, k1, fun lib hlib prog tys outs hck ho => ?_⟩
  obtain ⟨ctx, hs', g, b1, b2, b3, b4⟩ := C124_step hP ν hlib hck ho
  refine ⟨ctx, hs', g, b1, b2, b3, fun ord ht sts κ₀ κ hsk env hin hnz => ?_⟩
  obtain ⟨κ', c1, c2, _, vs, c3, c4⟩ := b4 ord ht κ env hin hnz
  have hsk' := sessionKnown_append hsk (.cons c1 .nil)
  refine ⟨κ', hsk', c2, vs, c3, c4, fun cells cells' fired hk hr => ?_⟩
  obtain ⟨d1, d2⟩ := k2 _ _ _ hsk' cells cells' fired hk hr
  refine ⟨d1, fun hlim o hoo => ?_⟩
  obtain ⟨ty, v, t1, t2, t3⟩ := c4 o hoo
  refine ⟨ty, v, t1, t2, readsAs_of_known t3 fun c hc u B hu => (d2 _ u B hu).2 (hlim _ ?_ u B hu)⟩
  refine List.mem_flatMap.2 ⟨o, hoo, ?_⟩
  simp only [t1]
  exact List.mem_map.2 ⟨c, hc, rfl⟩


/-! ### a concrete case -/

/-- all ciphertexts hold `true`, except those numbered 2 -/
def exFluentKnown : Known := fun x => some (ctOf x.1 (x.2 != 2), 4)

theorem exFluentKnown_inputs : KnownInputs exFluentKnown (fun x => if x = 0 then 3 else 2) exRunProg where
  known := fun _ _ _ _ => rfl
  holds := by
    intro i hi
    simp only [exRunProg, List.mem_cons, List.not_mem_nil, or_false] at hi
    rcases hi with rfl | rfl | rfl | rfl | rfl | rfl
    · exact ⟨[true, true], .cons rfl (.cons rfl .nil), by decide⟩
    · trivial
    · exact ⟨[false, true], .cons rfl (.cons rfl .nil), by decide⟩
    all_goals trivial

/-- The program of `C100_run_partial`'s example as a step of a session: `x0 = 3`, `x1 = 2` are known of the ciphertexts, all hypotheses hold, and afterwards it is known that the ciphertext 10 holds `3 > 2`, the ciphertexts 11 and 12
hold `3 + 2 = 1` modulo 4, and the packed ciphertext 13 too; the ciphertexts of the operands are as they were, so the next program can read both. -/
example : ∃ g, exRunG = some g ∧ (∃ ord, TopoOrder g ord) ∧ ∀ ord, TopoOrder g ord → ∃ κ', StepKnown 64 exCtParams exCtLevels (.run [(g, ord)]) exFluentKnown κ' ∧
    (∀ c < 4, κ' (.ggsw1, c) = some (ctOf .ggsw1 (c != 2), 4)) ∧ KnownAs κ' [10] (.bit .glwe1) (.bit true) ∧ KnownAs κ' [11, 12] (.int .unsigned .glwe1 2) (.int .unsigned 2 1) ∧
    KnownAs κ' [13] (.packed .unsigned 2) (.int .unsigned 2 1) := by
  obtain ⟨ctx, hs, g, e1, e2, e3, e4⟩ := C124_step exCtParams_ok exCtLevels bddLibOk_shannon exRun_check exRun_outs
  have hg : exRunG = some g := by
    rw [exRunG, show exec shannonLib 16 exRunProg Ctx.new [] = _ from e1]
    exact e2
  have hfit := exRun_fits
  rw [hg] at hfit
  simp only [Bool.and_eq_true] at hfit
  refine ⟨g, hg, e3, fun ord ht => ?_⟩
  have hnz : exFluentKnown.noise = fun _ _ => 4 := rfl
  obtain ⟨κ', c1, c2, _, vs, c3, c4⟩ := e4 ord ht exFluentKnown _ exFluentKnown_inputs (fun a op hw => by
    obtain ⟨B, hB, _⟩ := fits_ok hfit.1 a op hw
    exact ⟨B, by rw [hnz]; exact hB⟩)
  have hm : meaning (fun x => if x = 0 then 3 else 2) exRunProg [] = some
      [.int .unsigned 2 3, .int .unsigned 2 3, .int .unsigned 2 2, .bit true, .int .unsigned 2 1, .int .unsigned 2 1] := by decide
  rw [hm] at c3
  cases c3
  refine ⟨κ', c1, fun c hc => ?_, ?_, ?_, ?_⟩
  · rw [c2 (.ggsw1, c) ?_]
    · rfl
    · show (CtType.ggsw1, c) ∉ [(CtType.glwe1, 10), (.glwe1, 11), (.glwe1, 12), (.glwe1, 13)]
      simp
  · obtain ⟨ty, v, t1, t2, t3⟩ := c4 (3, [10]) (by simp [exRunOuts])
    cases t1; cases t2
    exact t3
  · obtain ⟨ty, v, t1, t2, t3⟩ := c4 (4, [11, 12]) (by simp [exRunOuts])
    cases t1; cases t2
    exact t3
  · obtain ⟨ty, v, t1, t2, t3⟩ := c4 (5, [13]) (by simp [exRunOuts])
    cases t1; cases t2
    exact t3

end Spf.Props
