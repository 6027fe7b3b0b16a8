import Verif.Proof.FluentAnd
/-! C73: a fluent program computes its plaintext meaning. -/
namespace Spf.Props
open Spf.Spec Spf.Fhe Spf.Fluent Graph

/-- The handle refers to nodes of the declared kind and number. -/
def HandleOk (g : FGraph) : Ty → Handle → Prop
  | .int s t w, .int s' t' ns => s' = s ∧ t' = t ∧ ns.length = w ∧ AreNodes g t ns
  | .bit t, .bit t' n => t' = t ∧ AreNodes g t [n]
  | .packed s w, .packed s' p => s' = s ∧ p.bitLen = w ∧ AreNodes g .glwe1 [p.id]
  | _, _ => False

/-- Every handle decrypts to the corresponding plaintext value. -/
def AllDecrypt (deg : Nat) (cells : CtType → Nat → Val) (g : FGraph) (tys : List Ty) (hs : List Handle) (vs : List PVal) : Prop :=
  tys.length = hs.length ∧ vs.length = hs.length ∧
    ∀ (k : Nat) ty h v, tys[k]? = some ty → hs[k]? = some h → vs[k]? = some v → Decrypts deg cells g ty h v

theorem handleOk_ext {g g' : FGraph} (hx : FExt g g') {ty h} (hk : HandleOk g ty h) : HandleOk g' ty h := by
  cases ty <;> cases h <;> first | exact hk.elim | skip
  · exact ⟨hk.1, hk.2.1, hk.2.2.1, nodes_ext hx hk.2.2.2⟩
  · exact ⟨hk.1, nodes_ext hx hk.2⟩
  · exact ⟨hk.1, hk.2.1, nodes_ext hx hk.2.2⟩

theorem decrypts_ext {g g' : FGraph} (hx : FExt g g') {deg cells ty h v} (hk : Decrypts deg cells g ty h v) : Decrypts deg cells g' ty h v := by
  cases ty <;> cases h <;> cases v <;> first | exact hk.elim | skip
  · obtain ⟨a, b, c, d, bits, e, f⟩ := hk
    exact ⟨a, b, c, d, bits, holds_ext hx e, f⟩
  · exact ⟨hk.1, hx.eval hk.2⟩
  · obtain ⟨a, b, c, d, poly, e, f⟩ := hk
    exact ⟨a, b, c, d, poly, hx.eval e, f⟩

/-- Operands: position `i` has type `ty`, hence a handle and (when running) a value. -/
theorem operand {deg : Nat} {g : FGraph} {tys : List Ty} {hs : List Handle} (hst : List.Forall₂ (HandleOk g) tys hs) {i : Nat} {ty : Ty}
    (hi : tys[i]? = some ty) : ∃ h, hs[i]? = some h ∧ HandleOk g ty h ∧
      ∀ cells vs, AllDecrypt deg cells g tys hs vs → ∃ v, vs[i]? = some v ∧ Decrypts deg cells g ty h v := by
  have hl := hst.length_eq
  obtain ⟨hlt, he⟩ := List.getElem?_eq_some_iff.1 hi
  have hlt' : i < hs.length := by omega
  refine ⟨hs[i], List.getElem?_eq_getElem hlt', ?_, ?_⟩
  · have := List.Forall₂.get hst hlt hlt'
    simp only [List.get_eq_getElem, he] at this
    exact this
  · intro cells vs hv
    have hlv : i < vs.length := by rw [hv.2.1]; exact hlt'
    exact ⟨vs[i], List.getElem?_eq_getElem hlv, hv.2.2 i ty _ _ hi (List.getElem?_eq_getElem hlt') (List.getElem?_eq_getElem hlv)⟩

theorem operandInt {deg : Nat} {g : FGraph} {tys : List Ty} {hs : List Handle} (hst : List.Forall₂ (HandleOk g) tys hs) {i : Nat} {s t w}
    (hi : tys[i]? = some (.int s t w)) : ∃ ns, hs[i]? = some (.int s t ns) ∧ ns.length = w ∧ AreNodes g t ns ∧
      ∀ cells vs, AllDecrypt deg cells g tys hs vs → ∃ bits, vs[i]? = some (.int s w (intVal s bits)) ∧ Holds deg cells g t ns bits ∧
        bits.length = w := by
  obtain ⟨h, h1, h2, h3⟩ := operand (deg := deg) hst hi
  cases h with
  | int s' t' ns =>
    obtain ⟨rfl, rfl, e3, e4⟩ := h2
    refine ⟨ns, h1, e3, e4, ?_⟩
    intro cells vs hv
    obtain ⟨v, v1, v2⟩ := h3 cells vs hv
    cases v with
    | int s'' w' x =>
      obtain ⟨_, _, rfl, rfl, bits, b1, b2, rfl⟩ := v2
      exact ⟨bits, v1, b1, b2⟩
    | bit b => exact v2.elim
  | bit => exact h2.elim
  | packed => exact h2.elim

theorem operandBit {deg : Nat} {g : FGraph} {tys : List Ty} {hs : List Handle} (hst : List.Forall₂ (HandleOk g) tys hs) {i : Nat} {t}
    (hi : tys[i]? = some (.bit t)) : ∃ n, hs[i]? = some (.bit t n) ∧ AreNodes g t [n] ∧
      ∀ cells vs, AllDecrypt deg cells g tys hs vs → ∃ b, vs[i]? = some (.bit b) ∧ FEval deg cells g n (ctOf t b) := by
  obtain ⟨h, h1, h2, h3⟩ := operand (deg := deg) hst hi
  cases h with
  | bit t' n =>
    obtain ⟨rfl, e2⟩ := h2
    refine ⟨n, h1, e2, ?_⟩
    intro cells vs hv
    obtain ⟨v, v1, v2⟩ := h3 cells vs hv
    cases v with
    | bit b => exact ⟨b, v1, v2.2⟩
    | int => exact v2.elim
  | int => exact h2.elim
  | packed => exact h2.elim

theorem operandPacked {deg : Nat} {g : FGraph} {tys : List Ty} {hs : List Handle} (hst : List.Forall₂ (HandleOk g) tys hs) {i : Nat} {s w}
    (hi : tys[i]? = some (.packed s w)) : ∃ p, hs[i]? = some (.packed s p) ∧ p.bitLen = w ∧ AreNodes g .glwe1 [p.id] ∧
      ∀ cells vs, AllDecrypt deg cells g tys hs vs → ∃ poly, vs[i]? = some (.int s w (intVal s ((List.range w).map poly))) ∧
        FEval deg cells g p.id (.glwe1 poly) := by
  obtain ⟨h, h1, h2, h3⟩ := operand (deg := deg) hst hi
  cases h with
  | packed s' p =>
    obtain ⟨rfl, e2, e3⟩ := h2
    refine ⟨p, h1, e2, e3, ?_⟩
    intro cells vs hv
    obtain ⟨v, v1, v2⟩ := h3 cells vs hv
    cases v with
    | int s'' w' x =>
      obtain ⟨_, rfl, _, rfl, poly, b1, rfl⟩ := v2
      exact ⟨poly, v1, b1⟩
    | bit => exact v2.elim
  | bit => exact h2.elim
  | int => exact h2.elim

/-- What executing one accepted call achieves. -/
def StepOk (deg : Nat) (io : Nat → FheOp → Prop) (ctx : Ctx) (tys : List Ty) (hs : List Handle) (i : Instr) (ty : Ty) (r : Option (Ctx × Handle)) : Prop :=
  ∃ ctx' h, r = some (ctx', h) ∧ CtxOk ctx' ∧ Step deg io ctx.circuit ctx'.circuit ∧ HandleOk ctx'.circuit ty h ∧
    ∀ cells env vs, InputsOk cells env [i] → AllDecrypt deg cells ctx.circuit tys hs vs →
      ∃ v, meanI env vs i = some v ∧ Decrypts deg cells ctx'.circuit ty h v

theorem arithTy_some {tys : List Ty} {i j : Nat} {mode : MuxMode} {ty : Ty} (h : arithTy tys i j mode = some ty) :
    ∃ s w w', tys[i]? = some (.int s .ggsw1 w) ∧ tys[j]? = some (.int s .ggsw1 w') ∧ w ≤ w' ∧ widthOk w = true ∧
      ty = .int s (modeType mode) w := by
  unfold arithTy at h
  split at h
  · rename_i s w s' w' h1 h2
    split at h
    · rename_i hc
      obtain ⟨rfl, hle, hw⟩ := hc
      cases h
      exact ⟨s, w, w', h1, h2, hle, hw, rfl⟩
    · cases h
  · cases h

theorem cmpTy_some {tys : List Ty} {i j : Nat} {mode : MuxMode} {ty : Ty} (h : cmpTy tys i j mode = some ty) :
    ∃ s w w', tys[i]? = some (.int s .ggsw1 w) ∧ tys[j]? = some (.int s .ggsw1 w') ∧ (s = .signed → w = w') ∧ widthOk (max w w') = true ∧
      ty = .bit (modeType mode) := by
  unfold cmpTy at h
  split at h
  · rename_i s w s' w' h1 h2
    split at h
    · rename_i hc
      obtain ⟨rfl, hle, hw⟩ := hc
      cases h
      exact ⟨s, w, w', h1, h2, hle, hw, rfl⟩
    · cases h
  · cases h

theorem andTy_some {tys : List Ty} {i j : Nat} {mode : MuxMode} {ty : Ty} (h : andTy tys i j mode = some ty) :
    ∃ s w, tys[i]? = some (.int s .ggsw1 w) ∧ tys[j]? = some (.int s .ggsw1 w) ∧ widthOk w = true ∧ ty = .int s (modeType mode) w := by
  unfold andTy at h
  split at h
  · rename_i s w s' w' h1 h2
    split at h
    · rename_i hc
      obtain ⟨rfl, rfl, hw⟩ := hc
      cases h
      exact ⟨s, w, h1, h2, hw, rfl⟩
    · cases h
  · cases h

theorem outType_eq (m : MuxMode) : outType m = modeType m := by cases m <;> rfl

section
variable {io : Nat → FheOp → Prop} {lib : BddLib} (hlib : BddLibOk lib) {deg : Nat} (hdeg : 0 < deg) {ctx : Ctx} (hc : CtxOk ctx) {tys : List Ty} {hs : List Handle}
  (hst : List.Forall₂ (HandleOk ctx.circuit) tys hs)

include hc

theorem step_input (s : Sign) (t : CtType) (x : Nat) (cs : List Nat) (hio : ∀ c ∈ cs, ∀ n, io n (.input t c)) :
    StepOk deg io ctx tys hs (.input s t x cs) (.int s t cs.length) (execI lib deg ctx hs (.input s t x cs)) := by
  obtain ⟨h1, h2, h3, h4⟩ := graphInputs_ok (d := deg) (io := io) t cs ctx.circuit hc.live hio
  refine ⟨_, _, rfl, ctxOk_step hc h1.toGrow, h1, ⟨rfl, rfl, h3, h2⟩, ?_⟩
  intro cells env vs hi _
  obtain ⟨bits, b1, b2⟩ := hi _ (List.mem_singleton.2 rfl)
  refine ⟨_, rfl, rfl, rfl, rfl, rfl, bits, ?_, b1.length_eq.symm, b2⟩
  have := h4 deg cells
  revert b1 this
  generalize (graphInputs t cs ctx.circuit).1 = g
  generalize (graphInputs t cs ctx.circuit).2 = ns
  intro b1 this
  clear b2 h3 h2 h1 h4 hi hio
  induction this generalizing bits with
  | nil => cases b1; exact .nil
  | cons hx _ ih =>
    cases b1 with
    | cons hy hys => rw [hy] at hx; exact .cons hx (ih _ hys)

theorem step_inputBit (t : CtType) (x c : Nat) (hio : ∀ n, io n (.input t c)) :
    StepOk deg io ctx tys hs (.inputBit t x c) (.bit t) (execI lib deg ctx hs (.inputBit t x c)) := by
  have h1 := leaf_step (d := deg) (io := io) hc.live (.input t c) (fun _ => rfl) (Or.inr hio)
  refine ⟨_, _, rfl, ctxOk_step hc h1.toGrow, h1, ⟨rfl, ?_⟩, ?_⟩
  · intro n hn
    rw [List.mem_singleton] at hn
    subst hn
    exact ⟨.input t c, ext1_weight _ _ [], rfl⟩
  · intro cells env vs hi _
    have hi := hi _ (List.mem_singleton.2 rfl)
    refine ⟨_, rfl, rfl, leaf_eval hc.live (?_)⟩
    rw [← show cells t c = _ from hi]
    rfl

theorem step_inputPacked (s : Sign) (w x c : Nat) (hio : ∀ n, io n (.input .glwe1 c)) :
    StepOk deg io ctx tys hs (.inputPacked s w x c) (.packed s w) (execI lib deg ctx hs (.inputPacked s w x c)) := by
  have h1 := leaf_step (d := deg) (io := io) hc.live (.input .glwe1 c) (fun _ => rfl) (Or.inr hio)
  refine ⟨_, _, rfl, ctxOk_step hc h1.toGrow, h1, ⟨rfl, rfl, ?_⟩, ?_⟩
  · intro n hn
    rw [List.mem_singleton] at hn
    subst hn
    exact ⟨.input .glwe1 c, ext1_weight _ _ [], rfl⟩
  · intro cells env vs hi _
    obtain ⟨poly, p1, p2⟩ := hi _ (List.mem_singleton.2 rfl)
    refine ⟨_, rfl, rfl, rfl, rfl, rfl, poly, leaf_eval hc.live (?_), p2⟩
    rw [← p1]
    rfl

theorem step_const (t : CtType) (b : Bool) (ht : t = .lwe0 ∨ t = .glwe1 ∨ t = .ggsw1) :
    StepOk deg io ctx tys hs (.constBit t b) (.bit t) (execI lib deg ctx hs (.constBit t b)) := by
  obtain ⟨ctx', n, e1, e2, e3, e4⟩ : ∃ ctx' n, (if b then one t ctx else zero t ctx) = some (ctx', n) ∧ CtxOk ctx' ∧
      IsConst ctx'.circuit t b n ∧ Extends ctx.circuit ctx'.circuit := by
    cases b with
    | true => obtain ⟨ctx', n, a, b, c, d, _⟩ := C71_one_partial hc ht; exact ⟨ctx', n, a, b, c, d⟩
    | false => obtain ⟨ctx', n, a, b, c, d, _⟩ := C71_zero_partial hc ht; exact ⟨ctx', n, a, b, c, d⟩
  have hst : Step deg io ctx.circuit ctx'.circuit := ⟨⟨e2.live, fun n op hop => ⟨(e4 n op hop).1, (e4 n op hop).2.1⟩⟩, by
    cases b with
    | true => exact one_good hc.live e1
    | false => exact zero_good hc.live e1⟩
  refine ⟨ctx', .bit t n, by simp only [execI]; rw [e1], e2, hst, ⟨rfl, e3.1⟩, ?_⟩
  intro cells env vs _ _
  exact ⟨_, rfl, rfl, e3.2 deg cells⟩

include hst

include hdeg in
theorem step_convert (i : Nat) (t : CtType) {ty : Ty} (h : checkI deg tys (.convert i t) = some ty) :
    StepOk deg io ctx tys hs (.convert i t) ty (execI lib deg ctx hs (.convert i t)) := by
  simp only [checkI] at h
  split at h
  · rename_i s u w hi
    cases h
    obtain ⟨ns, a1, a2, a3, a4⟩ := operandInt (deg := deg) hst hi
    obtain ⟨g', ms, b1, b2, b3, b4, b5⟩ := convertAll_ok hdeg u t ns ctx.circuit hc.live a3
    refine ⟨{ ctx with circuit := g' }, .int s t ms, by simp only [execI, a1, b1, liftInt], ctxOk_step hc b2.toGrow, b2, ⟨rfl, rfl, by omega, b3⟩, ?_⟩
    intro cells env vs _ hv
    obtain ⟨bits, v1, v2, v3⟩ := a4 cells vs hv
    exact ⟨_, v1, rfl, rfl, rfl, rfl, bits, b5 cells bits v2, v3, rfl⟩
  · rename_i u hi
    cases h
    obtain ⟨n, a1, a2, a3⟩ := operandBit (deg := deg) hst hi
    obtain ⟨g', m, b1, b2, b3, b4⟩ := convert1_ok hdeg u t hc.live a2
    refine ⟨{ ctx with circuit := g' }, .bit t m, by simp only [execI, a1, b1, liftBit], ctxOk_step hc b2.toGrow, b2, ⟨rfl, b3⟩, ?_⟩
    intro cells env vs _ hv
    obtain ⟨b, v1, v2⟩ := a3 cells vs hv
    exact ⟨_, v1, rfl, b4 cells b v2⟩
  · cases h

include hlib in
theorem step_add (i j : Nat) (mode : MuxMode) {ty : Ty} (h : arithTy tys i j mode = some ty) :
    StepOk deg io ctx tys hs (.add i j mode) ty (execI lib deg ctx hs (.add i j mode)) := by
  obtain ⟨s, w, w', hi, hj, hle, hw, rfl⟩ := arithTy_some h
  obtain ⟨a, a1, a2, a3, a4⟩ := operandInt (deg := deg) hst hi
  obtain ⟨b, b1, b2, b3, b4⟩ := operandInt (deg := deg) hst hj
  obtain ⟨hw1, hw2⟩ := widthOk_iff.1 hw
  obtain ⟨g', r, c1, c2, c3, c4, c5⟩ := add_ok (d := deg) (io := io) hlib hc.live a3 b3 (by omega) (by omega) (by omega) mode
  refine ⟨{ ctx with circuit := g' }, .int s (outType mode) r, by simp only [execI, withInts, a1, b1, c1, liftInt], ctxOk_step hc c2.toGrow, c2,
    ⟨rfl, outType_eq mode, by omega, c3⟩, ?_⟩
  intro cells env vs _ hv
  obtain ⟨va, v1, v2, v3⟩ := a4 cells vs hv
  obtain ⟨vb, u1, u2, u3⟩ := b4 cells vs hv
  obtain ⟨out, o1, o2⟩ := c5 deg cells va vb v2 u2
  have hol : out.length = w := by rw [← o1.length_eq]; omega
  refine ⟨.int s w (wrap s w (intVal s va + intVal s vb)), by simp only [meanI, v1, u1], rfl, outType_eq mode, rfl, rfl, out, o1, hol, ?_⟩
  have := intVal_of_mod (s := s) (l := out) (x := intVal s va + intVal s vb) (by
    rw [o2, hol, a2]
    push_cast
    rw [Int.emod_emod_of_dvd _ (dvd_refl _), Int.add_emod, Int.add_emod (intVal s va), intVal_mod s va (by omega), intVal_mod s vb (by omega)])
  rwa [hol] at this

include hlib in
theorem step_sub (i j : Nat) (mode : MuxMode) {ty : Ty} (h : arithTy tys i j mode = some ty) :
    StepOk deg io ctx tys hs (.sub i j mode) ty (execI lib deg ctx hs (.sub i j mode)) := by
  obtain ⟨s, w, w', hi, hj, hle, hw, rfl⟩ := arithTy_some h
  obtain ⟨a, a1, a2, a3, a4⟩ := operandInt (deg := deg) hst hi
  obtain ⟨b, b1, b2, b3, b4⟩ := operandInt (deg := deg) hst hj
  obtain ⟨hw1, hw2⟩ := widthOk_iff.1 hw
  obtain ⟨g', r, c1, c2, c3, c4, c5⟩ := sub_ok (d := deg) (io := io) hlib hc.live a3 b3 (by omega) (by omega) (by omega) mode
  refine ⟨{ ctx with circuit := g' }, .int s (outType mode) r, by simp only [execI, withInts, a1, b1, c1, liftInt], ctxOk_step hc c2.toGrow, c2,
    ⟨rfl, outType_eq mode, by omega, c3⟩, ?_⟩
  intro cells env vs _ hv
  obtain ⟨va, v1, v2, v3⟩ := a4 cells vs hv
  obtain ⟨vb, u1, u2, u3⟩ := b4 cells vs hv
  obtain ⟨out, o1, o2⟩ := c5 deg cells va vb v2 u2
  have hol : out.length = w := by rw [← o1.length_eq]; omega
  refine ⟨.int s w (wrap s w (intVal s va - intVal s vb)), by simp only [meanI, v1, u1], rfl, outType_eq mode, rfl, rfl, out, o1, hol, ?_⟩
  have := intVal_of_mod (s := s) (l := out) (x := intVal s va - intVal s vb) (by
    rw [o2, hol, a2]
    rw [Int.emod_emod_of_dvd _ (dvd_refl _), Int.sub_emod, Int.sub_emod (intVal s va), intVal_mod s va (by omega), intVal_mod s vb (by omega)])
  rwa [hol] at this

include hlib in
theorem step_and (i j : Nat) (mode : MuxMode) {ty : Ty} (h : andTy tys i j mode = some ty) :
    StepOk deg io ctx tys hs (.and i j mode) ty (execI lib deg ctx hs (.and i j mode)) := by
  obtain ⟨s, w, hi, hj, hw, rfl⟩ := andTy_some h
  obtain ⟨a, a1, a2, a3, a4⟩ := operandInt (deg := deg) hst hi
  obtain ⟨b, b1, b2, b3, b4⟩ := operandInt (deg := deg) hst hj
  obtain ⟨hw1, hw2⟩ := widthOk_iff.1 hw
  obtain ⟨g', r, c1, c2, c3, c4, c5⟩ := and_ok (d := deg) (io := io) (circLibOk_of hlib) hc.live a3 b3 (by omega) (by omega) (by omega) mode
  refine ⟨{ ctx with circuit := g' }, .int s (outType mode) r, by simp only [execI, withInts, a1, b1, c1, liftInt], ctxOk_step hc c2.toGrow, c2,
    ⟨rfl, outType_eq mode, by omega, c3⟩, ?_⟩
  intro cells env vs _ hv
  obtain ⟨va, v1, v2, v3⟩ := a4 cells vs hv
  obtain ⟨vb, u1, u2, u3⟩ := b4 cells vs hv
  refine ⟨.int s w (bitAnd s w (intVal s va) (intVal s vb)), by simp only [meanI, v1, u1], rfl, outType_eq mode, rfl, rfl, _, c5 deg cells va vb v2 u2,
    by rw [List.length_zipWith]; omega, ?_⟩
  rw [intVal_and s (by omega), v3]

include hlib in
theorem step_cmp (gt e : Bool) (i j : Nat) (mode : MuxMode) {ty : Ty} (h : cmpTy tys i j mode = some ty) :
    StepOk deg io ctx tys hs (.cmp gt e i j mode) ty (execI lib deg ctx hs (.cmp gt e i j mode)) := by
  obtain ⟨s, w, w', hi, hj, hle, hw, rfl⟩ := cmpTy_some h
  obtain ⟨a, a1, a2, a3, a4⟩ := operandInt (deg := deg) hst hi
  obtain ⟨b, b1, b2, b3, b4⟩ := operandInt (deg := deg) hst hj
  obtain ⟨hw1, hw2⟩ := widthOk_iff.1 hw
  obtain ⟨g', r, c1, c2, c3, c4⟩ := cmp_ok (d := deg) (io := io) hlib hc.live a3 b3 (s := s) (by rw [a2, b2]; exact hle) (by omega) (by omega) gt e mode
  refine ⟨{ ctx with circuit := g' }, .bit (outType mode) r, by simp only [execI, withInts, a1, b1, c1, liftBit], ctxOk_step hc c2.toGrow, c2,
    ⟨outType_eq mode, c3⟩, ?_⟩
  intro cells env vs _ hv
  obtain ⟨va, v1, v2, v3⟩ := a4 cells vs hv
  obtain ⟨vb, u1, u2, u3⟩ := b4 cells vs hv
  exact ⟨.bit (cmpInt gt e (intVal s va) (intVal s vb)), by simp only [meanI, v1, u1], outType_eq mode, c4 deg cells va vb v2 u2⟩

include hlib in
theorem step_eq (i j : Nat) (mode : MuxMode) {ty : Ty} (h : cmpTy tys i j mode = some ty) :
    StepOk deg io ctx tys hs (.eq i j mode) ty (execI lib deg ctx hs (.eq i j mode)) := by
  obtain ⟨s, w, w', hi, hj, hle, hw, rfl⟩ := cmpTy_some h
  obtain ⟨a, a1, a2, a3, a4⟩ := operandInt (deg := deg) hst hi
  obtain ⟨b, b1, b2, b3, b4⟩ := operandInt (deg := deg) hst hj
  obtain ⟨hw1, hw2⟩ := widthOk_iff.1 hw
  obtain ⟨g', r, c1, c2, c3, c4⟩ := eq_ok (d := deg) (io := io) hlib hc.live a3 b3 (s := s) (by rw [a2, b2]; exact hle) (by omega) (by omega) mode
  refine ⟨{ ctx with circuit := g' }, .bit (outType mode) r, by simp only [execI, withInts, a1, b1, c1, liftBit], ctxOk_step hc c2.toGrow, c2,
    ⟨outType_eq mode, c3⟩, ?_⟩
  intro cells env vs _ hv
  obtain ⟨va, v1, v2, v3⟩ := a4 cells vs hv
  obtain ⟨vb, u1, u2, u3⟩ := b4 cells vs hv
  exact ⟨.bit (decide (intVal s va = intVal s vb)), by simp only [meanI, v1, u1], outType_eq mode, c4 deg cells va vb v2 u2⟩

include hlib in
theorem step_neq (i j : Nat) (mode : MuxMode) {ty : Ty} (h : cmpTy tys i j mode = some ty) :
    StepOk deg io ctx tys hs (.neq i j mode) ty (execI lib deg ctx hs (.neq i j mode)) := by
  obtain ⟨s, w, w', hi, hj, hle, hw, rfl⟩ := cmpTy_some h
  obtain ⟨a, a1, a2, a3, a4⟩ := operandInt (deg := deg) hst hi
  obtain ⟨b, b1, b2, b3, b4⟩ := operandInt (deg := deg) hst hj
  obtain ⟨hw1, hw2⟩ := widthOk_iff.1 hw
  obtain ⟨g', r, c1, c2, c3, c4⟩ := neq_ok (d := deg) (io := io) hlib hc.live a3 b3 (s := s) (by rw [a2, b2]; exact hle) (by omega) (by omega) mode
  refine ⟨{ ctx with circuit := g' }, .bit (outType mode) r, by simp only [execI, withInts, a1, b1, c1, liftBit], ctxOk_step hc c2.toGrow, c2,
    ⟨outType_eq mode, c3⟩, ?_⟩
  intro cells env vs _ hv
  obtain ⟨va, v1, v2, v3⟩ := a4 cells vs hv
  obtain ⟨vb, u1, u2, u3⟩ := b4 cells vs hv
  exact ⟨.bit (decide (intVal s va ≠ intVal s vb)), by simp only [meanI, v1, u1], outType_eq mode, c4 deg cells va vb v2 u2⟩

theorem areNodes_some {g : FGraph} {t ns} (h : AreNodes g t ns) : ∀ n ∈ ns, (g.weight n).isSome := by
  intro n hn
  obtain ⟨op, h1, _⟩ := h n hn
  rw [h1]; rfl

theorem step_select (c i j : Nat) {ty : Ty} (h : checkI deg tys (.select c i j) = some ty) :
    StepOk deg io ctx tys hs (.select c i j) ty (execI lib deg ctx hs (.select c i j)) := by
  simp only [checkI] at h
  split at h
  · rename_i s w s' w' hci hi hj
    split at h
    · rename_i hcond
      obtain ⟨rfl, rfl⟩ := hcond
      cases h
      obtain ⟨n, n1, n2, n3⟩ := operandBit (deg := deg) hst hci
      obtain ⟨a, a1, a2, a3, a4⟩ := operandInt (deg := deg) hst hi
      obtain ⟨b, b1, b2, b3, b4⟩ := operandInt (deg := deg) hst hj
      obtain ⟨g', ms, c1, c2, c3, c4, hgd, c5⟩ := selectBits_ok deg (sel := n) a b ctx.circuit hc.live (areNodes_some hc hst n2 n (by simp))
        (areNodes_some hc hst a3) (areNodes_some hc hst b3) (by omega)
      refine ⟨{ ctx with circuit := g' }, .int s .glwe1 ms, by simp only [execI, withInts, n1, a1, b1, c1, liftInt], ctxOk_step hc c2, ⟨c2, hgd n2 a3 b3⟩,
        ⟨rfl, rfl, by omega, c3⟩, ?_⟩
      intro cells env vs _ hv
      obtain ⟨cb, w1, w2⟩ := n3 cells vs hv
      obtain ⟨va, v1, v2, v3⟩ := a4 cells vs hv
      obtain ⟨vb, u1, u2, u3⟩ := b4 cells vs hv
      refine ⟨.int s w (bif cb then intVal s va else intVal s vb), by simp only [meanI, w1, v1, u1], rfl, rfl, rfl, rfl, _, c5 cells cb va vb w2 v2 u2, ?_, ?_⟩
      · cases cb
        · exact u3
        · exact v3
      · cases cb <;> rfl
    · cases h
  · cases h

theorem step_resize (i w' : Nat) {ty : Ty} (h : checkI deg tys (.resize i w') = some ty) :
    StepOk deg io ctx tys hs (.resize i w') ty (execI lib deg ctx hs (.resize i w')) := by
  simp only [checkI] at h
  split at h
  · rename_i t w hi
    split at h
    · rename_i hcond
      obtain ⟨ht, h1, h2⟩ := hcond
      cases h
      obtain ⟨a, a1, a2, a3, a4⟩ := operandInt (deg := deg) hst hi
      obtain ⟨ctx', ms, e1, e2, e3, e4, e5, e6⟩ := resize_ok (d := deg) (io := io) hc (sign := .unsigned) (Or.inr ht) a3 (by omega) h2
      refine ⟨ctx', .int .unsigned t ms, by simp only [execI, a1, e1, liftCtx], e2, e3, ⟨rfl, rfl, e5, e4⟩, ?_⟩
      intro cells env vs _ hv
      obtain ⟨va, v1, v2, v3⟩ := a4 cells vs hv
      have hh := e6 deg cells va v2
      refine ⟨.int .unsigned w' (wrap .unsigned w' (intVal .unsigned va)), by simp only [meanI, v1], rfl, rfl, rfl, rfl, _, hh, by rw [← hh.length_eq, e5], ?_⟩
      show ((valLE _ : Nat) : Int) = ((valLE va : Nat) : Int) % 2 ^ w'
      rw [resized_unsigned]
      push_cast; rfl
    · cases h
  · rename_i t w hi
    split at h
    · rename_i hcond
      obtain ⟨h1, h2⟩ := hcond
      cases h
      obtain ⟨a, a1, a2, a3, a4⟩ := operandInt (deg := deg) hst hi
      obtain ⟨ctx', ms, e1, e2, e3, e4, e5, e6⟩ := resize_ok (d := deg) (io := io) hc (sign := .signed) (Or.inl rfl) a3 (by omega) (new := w') (by omega)
      refine ⟨ctx', .int .signed t ms, by simp only [execI, a1, e1, liftCtx], e2, e3, ⟨rfl, rfl, e5, e4⟩, ?_⟩
      intro cells env vs _ hv
      obtain ⟨va, v1, v2, v3⟩ := a4 cells vs hv
      have hh := e6 deg cells va v2
      have hlen : (resizedBits .signed va w').length = w' := by rw [← hh.length_eq, e5]
      have hval : intVal .signed (resizedBits .signed va w') = intVal .signed va := resized_signed_grow va (by omega) (by omega)
      refine ⟨.int .signed w' (wrap .signed w' (intVal .signed va)), by simp only [meanI, v1], rfl, rfl, rfl, rfl, _, hh, hlen, ?_⟩
      have h1 := intVal_wrap .signed (resizedBits .signed va w')
      rw [hlen] at h1
      rw [h1]
      apply wrap_congr
      rw [← hval, intVal_mod .signed _ (by omega)]
    · cases h
  · cases h

theorem step_pack (i : Nat) {ty : Ty} (h : checkI deg tys (.pack i) = some ty) :
    StepOk deg io ctx tys hs (.pack i) ty (execI lib deg ctx hs (.pack i)) := by
  simp only [checkI] at h
  split at h
  · rename_i s w hi
    split at h
    · rename_i hcond
      cases h
      obtain ⟨a, a1, a2, a3, a4⟩ := operandInt (deg := deg) hst hi
      obtain ⟨g', p, e1, e2, e3, e4, e5⟩ := pack_ok hc.live a3 (by omega) (deg := deg) (by omega)
      refine ⟨{ ctx with circuit := g' }, .packed s p, by simp only [execI, a1, e1], ctxOk_step hc e3.toGrow, e3, ⟨rfl, by omega, e4⟩, ?_⟩
      intro cells env vs _ hv
      obtain ⟨va, v1, v2, v3⟩ := a4 cells vs hv
      refine ⟨_, v1, rfl, rfl, by omega, rfl, _, e5 cells va v2, ?_⟩
      congr 1
      apply List.ext_getElem (by simp [v3])
      intro k hk1 hk2
      simp [List.getElem?_eq_getElem hk2]
    · cases h
  · cases h

theorem step_unpack (i : Nat) {ty : Ty} (h : checkI deg tys (.unpack i) = some ty) :
    StepOk deg io ctx tys hs (.unpack i) ty (execI lib deg ctx hs (.unpack i)) := by
  simp only [checkI] at h
  split at h
  · rename_i s w hi
    split at h
    · rename_i hcond
      cases h
      obtain ⟨p, a1, a2, a3, a4⟩ := operandPacked (deg := deg) hst hi
      obtain ⟨g', ms, e1, e2, e3, e4, hgd, e5⟩ := unpackFrom_ok deg p.id p.bitLen 0 ctx.circuit hc.live (areNodes_some hc hst a3 _ (by simp))
      refine ⟨{ ctx with circuit := g' }, .int s .lwe1 ms, by simp only [execI, a1, unpack, e1, liftInt], ctxOk_step hc e2, ⟨e2, hgd (by omega) a3⟩,
        ⟨rfl, rfl, by omega, e3⟩, ?_⟩
      intro cells env vs _ hv
      obtain ⟨poly, v1, v2⟩ := a4 cells vs hv
      have hh := e5 (by omega) cells poly v2
      rw [← List.range_eq_range', a2] at hh
      exact ⟨_, v1, rfl, rfl, rfl, rfl, _, hh, by simp, rfl⟩
    · cases h
  · cases h

include hlib hdeg in
theorem step_ok (i : Instr) {ty : Ty} (h : checkI deg tys i = some ty) (hio : ∀ p ∈ instrCells i, ∀ n, io n (.input p.1 p.2)) : StepOk deg io ctx tys hs i ty (execI lib deg ctx hs i) := by
  cases i with
  | input s t x cs => cases h; exact step_input hc s t x cs (fun c hcs => hio (t, c) (List.mem_map.2 ⟨c, hcs, rfl⟩))
  | inputBit t x c => cases h; exact step_inputBit hc t x c (hio (t, c) (by simp [instrCells]))
  | inputPacked s w x c => cases h; exact step_inputPacked hc s w x c (hio (.glwe1, c) (by simp [instrCells]))
  | constBit t b =>
    simp only [checkI] at h
    split at h
    · rename_i ht; cases h; exact step_const hc t b ht
    · cases h
  | convert i t => exact step_convert hdeg hc hst i t h
  | add i j mode => exact step_add hlib hc hst i j mode h
  | sub i j mode => exact step_sub hlib hc hst i j mode h
  | and i j mode => exact step_and hlib hc hst i j mode h
  | cmp gt e i j mode => exact step_cmp hlib hc hst gt e i j mode h
  | eq i j mode => exact step_eq hlib hc hst i j mode h
  | neq i j mode => exact step_neq hlib hc hst i j mode h
  | select c i j => exact step_select hc hst c i j h
  | resize i w => exact step_resize hc hst i w h
  | pack i => exact step_pack hc hst i h
  | unpack i => exact step_unpack hc hst i h

end

theorem allDecrypt_snoc {deg : Nat} {cells} {g g' : FGraph} (hx : FExt g g') {tys hs vs} (hv : AllDecrypt deg cells g tys hs vs) {ty h v}
    (hd : Decrypts deg cells g' ty h v) : AllDecrypt deg cells g' (tys ++ [ty]) (hs ++ [h]) (vs ++ [v]) := by
  obtain ⟨l1, l2, hk⟩ := hv
  refine ⟨by simp [l1], by simp [l2], ?_⟩
  intro k ty' h' v' k1 k2 k3
  by_cases hlt : k < hs.length
  · rw [List.getElem?_append_left (by omega)] at k1 k2 k3
    exact decrypts_ext hx (hk k _ _ _ k1 k2 k3)
  · rw [List.getElem?_append_right (by omega)] at k1 k2 k3
    have hz : k - hs.length = 0 := by
      have := (List.getElem?_eq_some_iff.1 k2).1
      simp at this; omega
    rw [l1, hz] at k1
    rw [hz] at k2
    rw [l2, hz] at k3
    cases k1; cases k2; cases k3
    exact hd

theorem exec_ok {io : Nat → FheOp → Prop} {lib : BddLib} (hlib : BddLibOk lib) {deg : Nat} (hdeg : 0 < deg) : ∀ (prog : List Instr) (ctx : Ctx) (tys : List Ty) (hs : List Handle)
    {tys' : List Ty}, CtxOk ctx → List.Forall₂ (HandleOk ctx.circuit) tys hs → check deg prog tys = some tys' → (∀ i ∈ prog, ∀ p ∈ instrCells i, ∀ n, io n (.input p.1 p.2)) →
    ∃ ctx' hs', exec lib deg prog ctx hs = some (ctx', hs') ∧ CtxOk ctx' ∧ Step deg io ctx.circuit ctx'.circuit ∧
      List.Forall₂ (HandleOk ctx'.circuit) tys' hs' ∧
      ∀ cells env vs, InputsOk cells env prog → AllDecrypt deg cells ctx.circuit tys hs vs →
        ∃ vs', meaning env prog vs = some vs' ∧ AllDecrypt deg cells ctx'.circuit tys' hs' vs'
  | [], ctx, tys, hs, tys', hc, hst, h, hio => by
    cases h
    exact ⟨ctx, hs, rfl, hc, Step.refl hc.live, hst, fun cells env vs _ hv => ⟨vs, rfl, hv⟩⟩
  | i :: is, ctx, tys, hs, tys', hc, hst, h, hio => by
    simp only [check] at h
    cases hck : checkI deg tys i with
    | none => rw [hck] at h; cases h
    | some ty =>
      rw [hck] at h
      obtain ⟨ctx1, h1, e1, e2, e3, e4, e5⟩ := step_ok hlib hdeg hc hst i hck (hio i (by simp))
      have hst1 : List.Forall₂ (HandleOk ctx1.circuit) (tys ++ [ty]) (hs ++ [h1]) :=
        List.rel_append (hst.imp fun _ _ hk => handleOk_ext e3.ext hk) (.cons e4 .nil)
      obtain ⟨ctx2, hs2, f1, f2, f3, f4, f5⟩ := exec_ok hlib hdeg is ctx1 _ _ e2 hst1 h (fun j hj => hio j (by simp [hj]))
      refine ⟨ctx2, hs2, by simp only [exec, e1, f1], f2, e3.trans f3, f4, ?_⟩
      intro cells env vs hi hv
      obtain ⟨v, v1, v2⟩ := e5 cells env vs (fun k hk => hi k (by rw [List.mem_singleton.1 hk]; simp)) hv
      obtain ⟨vs', w1, w2⟩ := f5 cells env (vs ++ [v]) (fun k hk => hi k (by simp [hk])) (allDecrypt_snoc e3.ext hv v2)
      exact ⟨vs', by simp only [meaning, v1, w1], w2⟩

/-- **C73 (programs).** Every accepted straight-line program over encrypted integers — inputs (bitwise and packed), constants,
conversions, addition, subtraction, bitwise conjunction, comparisons, selection, resizing, packing, unpacking, in any combination and length —
builds a circuit without panicking; and whenever its input cells encrypt the integers `env`, the plaintext program has a
meaning and every handle of the circuit, at the end of the construction, decrypts to the corresponding plaintext value.
(Partial: for multiplication see `C73_mul_partial`; the calls refuted in `C22_signed_violated`,
`C23_signed_violated` and `C71_violated` are not accepted.) -/
theorem C73_programs_partial {lib : BddLib} (hlib : BddLibOk lib) {deg : Nat} (hdeg : 0 < deg) (prog : List Instr) {tys : List Ty}
    (hck : check deg prog [] = some tys) :
    ∃ ctx hs, exec lib deg prog Ctx.new [] = some (ctx, hs) ∧ CtxOk ctx ∧ hs.length = tys.length ∧
      ∀ cells env, InputsOk cells env prog → ∃ vs, meaning env prog [] = some vs ∧ vs.length = hs.length ∧
        ∀ (k : Nat) ty h v, tys[k]? = some ty → hs[k]? = some h → vs[k]? = some v → Decrypts deg cells ctx.circuit ty h v := by
  obtain ⟨ctx, hs, h1, h2, _, h4, h5⟩ := exec_ok (io := fun _ _ => True) hlib hdeg prog Ctx.new [] [] ctxOk_new .nil hck (fun _ _ _ _ _ => trivial)
  refine ⟨ctx, hs, h1, h2, h4.length_eq.symm, ?_⟩
  intro cells env hi
  obtain ⟨vs, v1, _, v3, v4⟩ := h5 cells env [] hi ⟨rfl, rfl, by intro k _ _ _ hk; cases hk⟩
  exact ⟨vs, v1, v3, v4⟩

/-- **C73 (outputs).** Collecting an integer result of the program: one output node is added per bit, node `j` writes the
`j`-th output cell, and it writes an encryption of bit `j` of the plaintext result; everything built before keeps its
meaning. -/
theorem C73_outputs_partial {lib : BddLib} (hlib : BddLibOk lib) {deg : Nat} (hdeg : 0 < deg) (prog : List Instr) {tys : List Ty}
    (hck : check deg prog [] = some tys) {k : Nat} {s : Sign} {t : CtType} {w : Nat} (hk : tys[k]? = some (.int s t w))
    {cs : List Nat} (hcs : cs.length = w) :
    ∃ ctx hs ns, exec lib deg prog Ctx.new [] = some (ctx, hs) ∧ hs[k]? = some (.int s t ns) ∧
      ∃ g outs, collectOutputs t ns cs ctx.circuit = some (g, outs) ∧ Extends ctx.circuit g ∧
        List.Forall₂ (fun o c => g.weight o = some (.output t c)) outs cs ∧
        ∀ cells env, InputsOk cells env prog → ∃ vs bits, meaning env prog [] = some vs ∧ vs[k]? = some (.int s w (intVal s bits)) ∧
          Holds deg cells g t outs bits := by
  obtain ⟨ctx, hs, h1, h2, _, h4, h5⟩ := exec_ok (io := fun _ _ => True) hlib hdeg prog Ctx.new [] [] ctxOk_new .nil hck (fun _ _ _ _ _ => trivial)
  obtain ⟨ns, a1, a2, a3, a4⟩ := operandInt (deg := deg) h4 hk
  obtain ⟨g, outs, b1, b2, b3, _, b4, b5⟩ := collectOutputs_ok t ns cs ctx.circuit h2.live (by omega) (areNodes_some h2 h4 a3)
  refine ⟨ctx, hs, ns, h1, a1, g, outs, b1, extends_of b2.ext h2.live, b4, ?_⟩
  intro cells env hi
  obtain ⟨vs, v1, v2⟩ := h5 cells env [] hi ⟨rfl, rfl, by intro k _ _ _ hk; cases hk⟩
  obtain ⟨bits, w1, w2, w3⟩ := a4 cells vs v2
  refine ⟨vs, bits, v1, w1, ?_⟩
  have h1 := b5 deg cells (bits.map (ctOf t)) (List.forall₂_map_right_iff.2 (w2.imp fun n b h => ⟨h, ctOf_type t b⟩))
  exact (List.forall₂_map_right_iff.1 h1)

/-- `max(x0, x1) - 3`-like program on 4-bit unsigned integers: two inputs as GGSW bits, one given packed, a comparison, its
conversion to a selector, conversions of the operands, a selection, packing and unpacking, and a subtraction. -/
def exProg : List Instr :=
  [.input .unsigned .ggsw1 0 [0, 1, 2, 3], .inputPacked .unsigned 4 1 9, .unpack 1, .convert 2 .ggsw1, .cmp true false 0 3 .glwe,
   .convert 4 .ggsw1, .convert 0 .glwe1, .convert 3 .glwe1, .select 5 6 7, .convert 8 .ggsw1, .sub 9 0 .glwe, .pack 10, .resize 8 6]

theorem exProg_check : check 8 exProg [] = some
    [.int .unsigned .ggsw1 4, .packed .unsigned 4, .int .unsigned .lwe1 4, .int .unsigned .ggsw1 4, .bit .glwe1, .bit .ggsw1,
     .int .unsigned .glwe1 4, .int .unsigned .glwe1 4, .int .unsigned .glwe1 4, .int .unsigned .ggsw1 4, .int .unsigned .glwe1 4,
     .packed .unsigned 4, .int .unsigned .glwe1 6] := by decide

/-- its meaning on `x0 = 5`, `x1 = 12`: the maximum is 12, the difference 7 -/
example : meaning (fun x => if x = 0 then 5 else 12) exProg [] = some
    [.int .unsigned 4 5, .int .unsigned 4 12, .int .unsigned 4 12, .int .unsigned 4 12, .bit false, .bit false, .int .unsigned 4 5,
     .int .unsigned 4 12, .int .unsigned 4 12, .int .unsigned 4 12, .int .unsigned 4 7, .int .unsigned 4 7, .int .unsigned 6 12] := by decide

/-- cells encrypting those inputs -/
example : InputsOk (fun t c => match t with | .glwe1 => .glwe1 (fun j => j == 2 || j == 3) | t => ctOf t (c == 0 || c == 2))
    (fun x => if x = 0 then 5 else 12) exProg := by
  intro i hi
  simp only [exProg, List.mem_cons, List.not_mem_nil, or_false] at hi
  rcases hi with rfl | rfl | rfl | rfl | rfl | rfl | rfl | rfl | rfl | rfl | rfl | rfl | rfl
  · exact ⟨[true, false, true, false], .cons rfl (.cons rfl (.cons rfl (.cons rfl .nil))), by decide⟩
  · exact ⟨_, rfl, by decide⟩
  all_goals trivial

example : ∃ ctx hs, exec shannonLib 8 exProg Ctx.new [] = some (ctx, hs) ∧ hs.length = 13 := by
  obtain ⟨ctx, hs, h1, _, h3, _⟩ := C73_programs_partial bddLibOk_shannon (by decide) exProg exProg_check
  exact ⟨ctx, hs, h1, h3⟩

end Spf.Props
