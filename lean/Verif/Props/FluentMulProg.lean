import Verif.Spec.FluentMulProg
import Verif.Props.FluentMul
import Verif.Props.FluentRun
/-! Fluent programs with multiplication and interleaved outputs: C73 and C100 for the whole language. -/
namespace Spf.Props
open Spf.Spec Spf.Fhe Spf.Fluent Spf.Tfhe Spf.CtExec Spf.Sched Graph

/-! ### accepted widths -/

theorem mulWidths_sym {n m : Nat} (h : MulWidths n m) : MulWidths m n := by
  by_cases hlt : m < n
  · exact .swap hlt h
  · cases h with
    | base a b c d => exact .base c d a b
    | split h1 h2 h3 h4 q1 q2 q3 q4 =>
      have : n = m := by omega
      subst this
      exact .split h1 h2 h3 h4 q1 q2 q3 q4
    | swap h1 h2 => exact h2

theorem mulWidthOk_sound : ∀ (fuel n m : Nat), mulWidthOk fuel n m = true → MulWidths n m
  | 0, _, _, h => by cases h
  | fuel + 1, n, m, h => by
    simp only [mulWidthOk] at h
    split at h
    · rename_i hc
      have := of_decide_eq_true h
      exact .base this.1 hc.1 this.2 hc.2
    · simp only [Bool.and_eq_true, decide_eq_true_eq] at h
      obtain ⟨⟨⟨⟨⟨h1, h2, h3⟩, q1⟩, q2⟩, q3⟩, q4⟩ := h
      have r1 := mulWidthOk_sound fuel _ _ q1
      have r2 := mulWidthOk_sound fuel _ _ q2
      have r3 := mulWidthOk_sound fuel _ _ q3
      have r4 := mulWidthOk_sound fuel _ _ q4
      by_cases hle : m ≤ n
      · exact .split h1 h2 hle h3 r1 r2 r3 r4
      · exact .swap (by omega) (.split h2 h1 (by omega) (by omega) (mulWidths_sym r1) (mulWidths_sym r3) (mulWidths_sym r2) (mulWidths_sym r4))

theorem mulTy_some {tys : List Ty} {i j : Nat} {mode : MuxMode} {ty : Ty} (h : mulTy tys i j mode = some ty) :
    ∃ s w w', tys[i]? = some (.int s .ggsw1 w) ∧ tys[j]? = some (.int s .ggsw1 w') ∧ MulWidths w w' ∧ (s = .signed ∨ mode = .glwe ∨ w ≤ 16 ∧ w' ≤ 16) ∧
      ty = .int s (modeType mode) w := by
  unfold mulTy at h
  split at h
  · rename_i s w s' w' h1 h2
    split at h
    · rename_i hc
      obtain ⟨rfl, hw, hm⟩ := hc
      cases h
      exact ⟨s, w, w', h1, h2, mulWidthOk_sound _ _ _ hw, hm, rfl⟩
    · cases h
  · cases h

/-! ### cached constants -/

/-- The context with empty caches. -/
def bare (g : FGraph) : Ctx := { Ctx.new with circuit := g }

theorem ctxOk_bare {g : FGraph} (hl : Live g) : CtxOk (bare g) :=
  ⟨hl, rfl, rfl, (by intro t n h; cases t <;> cases h), by intro t n h; cases t <;> cases h⟩

/-- What is known about the caches. -/
def CachesOk (ctx : Ctx) : Caches → Prop
  | .unused => ctx.oneCache = Ctx.new.oneCache ∧ ctx.zeroCache = Ctx.new.zeroCache
  | .valid => CtxOk ctx
  | .stale => True

/-- A call that asks for no constant neither reads nor changes the caches. -/
theorem execI_bare {lib : BddLib} {deg : Nat} {ctx : Ctx} {tys : List Ty} {hs : List Handle} (hst : List.Forall₂ (HandleOk ctx.circuit) tys hs) {i : Instr}
    {ty : Ty} (hck : checkI deg tys i = some ty) (hw : wantsConst tys i = false) {c : Ctx} {h : Handle} (he : execI lib deg (bare ctx.circuit) hs i = some (c, h)) :
    execI lib deg ctx hs i = some ({ ctx with circuit := c.circuit }, h) := by
  have hint : ∀ s t (r : Option (FGraph × List Nat)), liftInt (bare ctx.circuit) s t r = some (c, h) → liftInt ctx s t r = some ({ ctx with circuit := c.circuit }, h) := by
    intro s t r hr
    cases r with
    | none => cases hr
    | some r => cases hr; rfl
  have hbit : ∀ t (r : Option (FGraph × Nat)), liftBit (bare ctx.circuit) t r = some (c, h) → liftBit ctx t r = some ({ ctx with circuit := c.circuit }, h) := by
    intro t r hr
    cases r with
    | none => cases hr
    | some r => cases hr; rfl
  have hints : ∀ i j (k k' : Sign → List Nat → List Nat → Option (Ctx × Handle)), (∀ s a b, k s a b = some (c, h) → k' s a b = some ({ ctx with circuit := c.circuit }, h)) →
      withInts hs i j k = some (c, h) → withInts hs i j k' = some ({ ctx with circuit := c.circuit }, h) := by
    intro i j k k' hk hr
    unfold withInts at hr ⊢
    split at hr
    · exact hk _ _ _ hr
    · cases hr
  cases i with
  | input s t x cs => cases he; rfl
  | inputBit t x cl => cases he; rfl
  | inputPacked s w x cl => cases he; rfl
  | constBit t b => cases hw
  | convert i t =>
    simp only [execI] at he ⊢
    cases hh : hs[i]? with
    | none => rw [hh] at he; cases he
    | some hd =>
      rw [hh] at he
      cases hd with
      | int s u ns => exact hint _ _ _ he
      | bit u n => exact hbit _ _ he
      | packed s p => cases he
  | add i j mode => exact hints i j _ _ (fun _ _ _ => hint _ _ _) he
  | sub i j mode => exact hints i j _ _ (fun _ _ _ => hint _ _ _) he
  | and i j mode => exact hints i j _ _ (fun _ _ _ => hint _ _ _) he
  | cmp gt e i j mode => exact hints i j _ _ (fun _ _ _ => hbit _ _) he
  | eq i j mode => exact hints i j _ _ (fun _ _ _ => hbit _ _) he
  | neq i j mode => exact hints i j _ _ (fun _ _ _ => hbit _ _) he
  | select cc i j =>
    simp only [execI] at he ⊢
    cases hh : hs[cc]? with
    | none => rw [hh] at he; cases he
    | some hd =>
      rw [hh] at he
      cases hd with
      | bit u n => exact hints i j _ _ (fun _ _ _ => hint _ _ _) he
      | int => cases he
      | packed => cases he
  | resize i w =>
    simp only [wantsConst] at hw
    cases ht : tys[i]? with
    | none => rw [ht] at hw; cases hw
    | some t0 =>
      rw [ht] at hw
      cases t0 with
      | bit => cases hw
      | packed => cases hw
      | int s t w0 =>
        cases s with
        | unsigned => cases hw
        | signed =>
          obtain ⟨ns, a1, _⟩ := operandInt (deg := deg) hst ht
          simp only [execI, a1, resize, resizeConfig] at he ⊢
          by_cases hz : min w ns.length = 0
          · simp only [if_pos hz] at he; cases he
          · simp only [if_neg hz, if_true] at he ⊢
            cases hl : ns.getLast? with
            | none => rw [hl] at he; cases he
            | some b => rw [hl] at he; cases he; rfl
  | pack i =>
    simp only [execI] at he ⊢
    cases hh : hs[i]? with
    | none => rw [hh] at he; cases he
    | some hd =>
      rw [hh] at he
      cases hd with
      | int s u ns =>
        simp only at he ⊢
        change (match pack deg ns ctx.circuit with
          | none => none
          | some (g, p) => some ({ bare ctx.circuit with circuit := g }, Handle.packed s p)) = _ at he
        cases hp : pack deg ns ctx.circuit with
        | none => rw [hp] at he; cases he
        | some r => rw [hp] at he; cases he; rfl
      | bit => cases he
      | packed => cases he
  | unpack i =>
    simp only [execI] at he ⊢
    cases hh : hs[i]? with
    | none => rw [hh] at he; cases he
    | some hd =>
      rw [hh] at he
      cases hd with
      | packed s p => exact hint _ _ _ he
      | int => cases he
      | bit => cases he

/-- One accepted call, whatever the state of the caches. -/
theorem call_ok {lib : BddLib} (hlib : BddLibOk lib) {deg : Nat} (hdeg : 0 < deg) {io : Nat → FheOp → Prop} {ctx : Ctx} {tys : List Ty} {hs : List Handle} {c : Caches}
    (hl : Live ctx.circuit) (hc : CachesOk ctx c) (hst : List.Forall₂ (HandleOk ctx.circuit) tys hs) {i : Instr} {ty : Ty} (hck : checkI deg tys i = some ty)
    (hio : ∀ p ∈ instrCells i, ∀ n, io n (.input p.1 p.2)) (hs' : wantsConst tys i = true → c ≠ .stale) :
    ∃ ctx' h, execI lib deg ctx hs i = some (ctx', h) ∧ CachesOk ctx' (if wantsConst tys i = true then .valid else c) ∧ Step deg io ctx.circuit ctx'.circuit ∧
      HandleOk ctx'.circuit ty h ∧ ∀ cells env vs, InputsOk cells env [i] → AllDecrypt deg cells ctx.circuit tys hs vs →
        ∃ v, meanI env vs i = some v ∧ Decrypts deg cells ctx'.circuit ty h v := by
  by_cases hw : wantsConst tys i = true
  · have hok : CtxOk ctx := by
      cases c with
      | unused =>
        have := ctxOk_bare hl
        have he : bare ctx.circuit = ctx := by
          cases ctx
          obtain ⟨h1, h2⟩ := hc
          simp only at h1 h2
          subst h1; subst h2; rfl
        rwa [he] at this
      | valid => exact hc
      | stale => exact absurd rfl (hs' hw)
    obtain ⟨ctx', h, e1, e2, e3, e4, e5⟩ := step_ok hlib hdeg hok hst i hck hio
    exact ⟨ctx', h, e1, by rw [if_pos hw]; exact e2, e3, e4, e5⟩
  · obtain ⟨ctx', h, e1, e2, e3, e4, e5⟩ := step_ok (ctx := bare ctx.circuit) hlib hdeg (ctxOk_bare hl) hst i hck hio
    refine ⟨{ ctx with circuit := ctx'.circuit }, h, execI_bare hst hck (by simpa using hw) e1, ?_, e3, e4, e5⟩
    rw [if_neg hw]
    cases c with
    | unused => exact hc
    | valid => exact ctxOk_step hc e3.toGrow
    | stale => trivial

/-! ### programs -/

theorem callsOf_calls (i : Instr) (is : List MInstr) : callsOf (.call i :: is) = i :: callsOf is := rfl

theorem writes_ext {deg : Nat} {cells} {g g' : FGraph} (hx : FExt g g') {t c u} (h : Writes deg cells g t c u) : Writes deg cells g' t c u := by
  obtain ⟨n, h1, h2⟩ := h
  exact ⟨n, (hx _ _ h1).1, hx.eval h2⟩

theorem writesAs_mono {deg : Nat} {cells} {g g' : FGraph} (hx : ∀ t c u, Writes deg cells g t c u → Writes deg cells g' t c u) {cs ty v}
    (h : WritesAs deg cells g cs ty v) : WritesAs deg cells g' cs ty v := by
  cases ty <;> cases v <;> first | exact h.elim | skip
  · obtain ⟨a, b, bits, d, e, f⟩ := h
    exact ⟨a, b, bits, d, e.imp fun _ _ hh => hx _ _ _ hh, f⟩
  · obtain ⟨c, a, b⟩ := h
    exact ⟨c, a, hx _ _ _ b⟩
  · obtain ⟨a, b, c, p, d, e, f⟩ := h
    exact ⟨a, b, c, p, d, hx _ _ _ e, f⟩

/-- the output nodes of an extended circuit are the old ones, if the new ones are not outputs -/
theorem outsIn_step {deg : Nat} {io : FheOp → Prop} {g g' : FGraph} (hg : Good deg (fun _ => io) g)
    (hs : ∀ io' : Nat → FheOp → Prop, (∀ n op, (∀ t c, op ≠ .output t c) → io op → io' n op) → Step deg io' g g') {U} (hU : OutsIn g U) : OutsIn g' U := by
  have h := (hs (fun n op => match op with | .output t c => g.weight n = some (.output t c) | _ => io op) (by
    intro n op h1 h2
    cases op <;> first | exact h2 | exact absurd rfl (h1 _ _))).good ⟨by
      intro n op ho
      have := hg.internal n op ho
      cases op <;> first | exact this | skip
      obtain ⟨⟨t, h1⟩, _⟩ := ho
      simp [opType] at h1, hg.edge, hg.runs, by
      intro n op hn
      have := hg.ops n op hn
      cases op <;> first | exact this | exact hn⟩
  have key : ∀ n t c, g'.weight n = some (.output t c) → g.weight n = some (.output t c) := fun n t c hn => h.ops n _ hn
  exact ⟨fun n t c hn => hU.1 n t c (key n t c hn), fun n n' t c hn hn' => hU.2 n n' t c (key _ _ _ hn) (key _ _ _ hn')⟩

/-- what is collected is written -/
theorem collect_writes {deg : Nat} {cells} {g g' : FGraph} {ty : Ty} {h : Handle} {v : PVal} {cs os : List Nat}
    (h1 : List.Forall₂ (fun n c => g'.weight n = some (.output (outKind ty) c)) os cs)
    (h2 : ∀ us, List.Forall₂ (fun n u => FEval deg cells g n u ∧ u.type = outKind ty) (handleNodes h).2 us → List.Forall₂ (FEval deg cells g') os us)
    (hd : Decrypts deg cells g ty h v) : WritesAs deg cells g' cs ty v := by
  have all : ∀ us : List Val, List.Forall₂ (fun n u => FEval deg cells g n u ∧ u.type = outKind ty) (handleNodes h).2 us →
      List.Forall₂ (fun c u => Writes deg cells g' (outKind ty) c u) cs us := by
    intro us hu
    have hv := h2 us hu
    clear h2 hu
    induction h1 generalizing us with
    | nil => cases hv; exact .nil
    | cons hx _ ih =>
      cases hv with
      | cons hy hys => exact .cons ⟨_, hx, hy⟩ (ih _ hys)
  cases ty with
  | int sg t w =>
    cases h <;> cases v <;> simp only [Decrypts] at hd
    obtain ⟨rfl, rfl, rfl, rfl, bits, u1, u2, u3⟩ := hd
    refine ⟨rfl, rfl, bits, u2, ?_, u3⟩
    exact List.forall₂_map_right_iff.1 (all (bits.map (ctOf _)) (List.forall₂_map_right_iff.2 (u1.imp fun n b hx => ⟨hx, ctOf_type _ b⟩)))
  | bit t =>
    cases h <;> cases v <;> simp only [Decrypts] at hd
    obtain ⟨rfl, u1⟩ := hd
    have := all [_] (.cons ⟨u1, ctOf_type _ _⟩ .nil)
    cases this with
    | cons hx hxs => cases hxs; exact ⟨_, rfl, hx⟩
  | packed sg w =>
    cases h <;> cases v <;> simp only [Decrypts] at hd
    obtain ⟨rfl, rfl, rfl, rfl, poly, u1, u2⟩ := hd
    have := all [_] (.cons ⟨u1, rfl⟩ .nil)
    cases this with
    | cons hx hxs => cases hxs; exact ⟨rfl, rfl, _, _, rfl, hx, u2⟩

theorem allDecrypt_one {deg : Nat} {cells} {g : FGraph} {ty h v} (hd : Decrypts deg cells g ty h v) : AllDecrypt deg cells g [ty] [h] [v] := by
  refine ⟨rfl, rfl, ?_⟩
  intro k ty' h' v' k1 k2 k3
  match k, k1, k2, k3 with
  | 0, k1, k2, k3 => cases k1; cases k2; cases k3; exact hd

/-- Building an accepted program, from any state. -/
theorem execM_ok {lib : BddLib} (hlib : BddLibOk lib) {deg : Nat} (hdeg : 0 < deg) {orders : Nat → List Nat → List Nat} (hor : ∀ k l, (orders k l).Perm l)
    {ins outs : List (CtType × Nat)} : ∀ (prog : List MInstr) (ctx : Ctx) (c : Caches) (tys : List Ty) (hs : List Handle) (os : List (Ty × List Nat))
      (U : List (CtType × Nat)), checkM deg prog c tys = some os → Live ctx.circuit → CachesOk ctx c → List.Forall₂ (HandleOk ctx.circuit) tys hs →
      Good deg (fun _ => ioOf ins outs) ctx.circuit → OutsIn ctx.circuit U → (U ++ collectedCells os).Nodup → (∀ p ∈ collectedCells os, p ∈ outs) →
      (∀ i ∈ callsOf prog, ∀ p ∈ instrCells i, p ∈ ins) →
      ∃ ctx' hs', execM lib deg orders prog ctx hs = some (ctx', hs') ∧ Live ctx'.circuit ∧ Good deg (fun _ => ioOf ins outs) ctx'.circuit ∧
        OutsIn ctx'.circuit (U ++ collectedCells os) ∧ (∀ cells t k u, Writes deg cells ctx.circuit t k u → Writes deg cells ctx'.circuit t k u) ∧
        ∀ cells env vs, InputsOk cells env (callsOf prog) → AllDecrypt deg cells ctx.circuit tys hs vs →
          ∃ rs, meaningM env prog vs = some rs ∧ List.Forall₂ (fun o v => WritesAs deg cells ctx'.circuit o.2 o.1 v) os rs
  | [], ctx, c, tys, hs, os, U, h, hl, hc, hst, hg, hU, hnd, _, _ => by
    cases h
    exact ⟨ctx, hs, rfl, hl, hg, by simpa [collectedCells] using hU, fun _ _ _ _ h => h, fun cells env vs _ _ => ⟨[], rfl, .nil⟩⟩
  | .call i :: is, ctx, c, tys, hs, os, U, h, hl, hc, hst, hg, hU, hnd, hout, hin => by
    simp only [checkM] at h
    cases hck : checkI deg tys i with
    | none => rw [hck] at h; cases h
    | some ty =>
      rw [hck] at h
      simp only at h
      have hstale : wantsConst tys i = true → c ≠ .stale := by
        intro hw hcs
        rw [if_pos hw, if_pos hcs] at h
        cases h
      have h' : checkM deg is (if wantsConst tys i = true then .valid else c) (tys ++ [ty]) = some os := by
        by_cases hw : wantsConst tys i = true
        · rw [if_pos hw, if_neg (hstale hw)] at h
          rw [if_pos hw]; exact h
        · rw [if_neg hw] at h ⊢; exact h
      obtain ⟨ctx1, h1, e1, e2, e3, e4, e5⟩ := call_ok (io := fun _ => ioOf ins outs) hlib hdeg hl hc hst hck
        (fun p hp _ => hin i (by simp [callsOf]) p hp) hstale
      have hst1 : List.Forall₂ (HandleOk ctx1.circuit) (tys ++ [ty]) (hs ++ [h1]) :=
        List.rel_append (hst.imp fun _ _ hk => handleOk_ext e3.ext hk) (.cons e4 .nil)
      have hU1 : OutsIn ctx1.circuit U := outsIn_step hg (fun io' hio' => by
        obtain ⟨ctx1', h1', e1', _, e3', _⟩ := call_ok (io := io') hlib hdeg hl hc hst hck
          (fun p hp n => hio' n _ (by intro t c h; cases h) (hin i (by simp [callsOf]) p hp)) hstale
        rw [e1] at e1'
        cases e1'
        exact e3') hU
      obtain ⟨ctx2, hs2, f1, f2, f3, f4, f5, f6⟩ := execM_ok hlib hdeg hor is ctx1 _ _ _ os U h' e3.live e2 hst1 (e3.good hg) hU1 hnd hout
        (fun j hj => hin j (by simp [callsOf, hj]))
      refine ⟨ctx2, hs2, by simp only [execM, e1, f1], f2, f3, f4, fun cells t k u hw => f5 cells t k u (writes_ext e3.ext hw), ?_⟩
      intro cells env vs hi hv
      obtain ⟨v, v1, v2⟩ := e5 cells env vs (fun k hk => hi k (by rw [List.mem_singleton.1 hk]; simp [callsOf])) hv
      obtain ⟨rs, w1, w2⟩ := f6 cells env (vs ++ [v]) (fun k hk => hi k (by simp [callsOf, hk])) (allDecrypt_snoc e3.ext hv v2)
      exact ⟨rs, by simp only [meaningM, v1, w1], w2⟩
  | .mul i j mode :: is, ctx, c, tys, hs, os, U, h, hl, hc, hst, hg, hU, hnd, hout, hin => by
    simp only [checkM] at h
    cases hm : mulTy tys i j mode with
    | none => rw [hm] at h; cases h
    | some ty =>
      rw [hm] at h
      simp only at h
      obtain ⟨s, w, w', t1, t2, hw, hmode, rfl⟩ := mulTy_some hm
      obtain ⟨a, a1, a2, a3, a4⟩ := operandInt (deg := deg) hst t1
      obtain ⟨b, b1, b2, b3, b4⟩ := operandInt (deg := deg) hst t2
      obtain ⟨ctx1, lo, m1, m2, m3, m4, m5, m6, m7, m8, m9⟩ := mul_ok (circLibOk_of hlib) hdeg (ioOf ins outs) (sign := s) (mode := mode) (order := orders is.length)
        (ctx := ctx) (hor _) (by rw [a2, b2]; exact hw) (by rw [a2, b2]; exact hmode) hl a3 b3
      obtain ⟨g1, f, f1, f2⟩ := m9 hg
      have hty : outType mode = modeType mode := by cases mode <;> rfl
      have hU1 : OutsIn ctx1.circuit U := by
        refine ⟨fun n t c hn => hU.1 _ _ _ (f2 n t c hn), fun n n' t c hn hn' => f1 n n' (by rw [hn]; rfl) (by rw [hn']; rfl) ?_⟩
        exact hU.2 _ _ _ _ (f2 n t c hn) (f2 n' t c hn')
      have hwr : ∀ cells t k u, Writes deg cells ctx.circuit t k u → Writes deg cells ctx1.circuit t k u := by
        rintro cells t k u ⟨n, w1, w2⟩
        obtain ⟨n', q1, q2⟩ := m6 n t k w1 (by
          rintro e he rfl
          obtain ⟨op, t', x1, x2⟩ := hg.edge e he
          rw [w1] at x1
          cases x1
          simp [opType] at x2)
        exact ⟨n', q1, (q2 cells u).2 w2⟩
      obtain ⟨ctx2, hs2, g2, g3, g4, g5, g6, g7⟩ := execM_ok hlib hdeg hor is ctx1 _ [.int s (modeType mode) w] [.int s (modeType mode) lo] os U h m2 (by
          cases c with
          | unused => exact ⟨by rw [m7]; exact hc.1, by rw [m8]; exact hc.2⟩
          | valid => exact trivial
          | stale => exact trivial) (.cons ⟨rfl, rfl, by omega, m3⟩ .nil) g1 hU1 hnd hout hin
      refine ⟨ctx2, hs2, ?_, g3, g4, g5, fun cells t k u hw => g6 cells t k u (hwr cells t k u hw), ?_⟩
      · simp only [execM, withInts, a1, b1, m1, liftCtx, hty]
        exact g2
      · intro cells env vs hi hv
        obtain ⟨va, u1, u2, u3⟩ := a4 cells vs hv
        obtain ⟨vb, v1, v2, v3⟩ := b4 cells vs hv
        obtain ⟨out, o1, o2⟩ := m5 cells va vb u2 v2
        rw [a2] at o2
        obtain ⟨rs, r1, r2⟩ := g7 cells env [.int s w (wrap s w (intVal s va * intVal s vb))] hi (allDecrypt_one
          ⟨rfl, rfl, rfl, rfl, out, o1, by rw [← o1.length_eq, m4, a2], o2⟩)
        exact ⟨rs, by simp only [meaningM, u1, v1, r1], r2⟩
  | .collect k cs :: is, ctx, c, tys, hs, os, U, h, hl, hc, hst, hg, hU, hnd, hout, hin => by
    simp only [checkM] at h
    cases ht : tys[k]? with
    | none => rw [ht] at h; cases h
    | some ty =>
      rw [ht] at h
      simp only at h
      by_cases hlen : cs.length = outWidth ty
      · rw [if_pos hlen] at h
        cases hr : checkM deg is c tys with
        | none => rw [hr] at h; cases h
        | some os' =>
          rw [hr] at h
          cases h
          have hcell : outCells tys [(k, cs)] = cs.map (outKind ty, ·) := by simp [outCells, ht]
          have hcc : collectedCells ((ty, cs) :: os') = cs.map (outKind ty, ·) ++ collectedCells os' := by simp [collectedCells]
          rw [hcc, ← List.append_assoc] at hnd
          rw [hcc] at hout
          obtain ⟨g, c1, c2, c3, c4, c5⟩ := collectAll_ok [(k, cs)] ctx.circuit hl hst (by
            intro o ho
            rw [List.mem_singleton.1 ho]
            exact ⟨ty, ht, hlen⟩)
          rw [hcell] at c3 c4
          obtain ⟨ctx2, hs2, g2, g3, g4, g5, g6, g7⟩ := execM_ok hlib hdeg hor is { ctx with circuit := g } c tys hs os' (U ++ cs.map (outKind ty, ·)) hr c2.live (by
              cases c with
              | unused => exact hc
              | valid => exact ctxOk_step hc c2
              | stale => trivial) (hst.imp fun _ _ hk => handleOk_ext c2.ext hk)
            (c3 deg _ (fun p hp _ => hout p (List.mem_append_left _ hp)) hg) (c4 U hU (List.nodup_append.1 hnd).1) hnd
            (fun p hp => hout p (List.mem_append_right _ hp)) hin
          refine ⟨ctx2, hs2, by simp only [execM, c1, g2], g3, g4, by rw [hcc, ← List.append_assoc]; exact g5, fun cells t k u hw => g6 cells t k u (writes_ext c2.ext hw), ?_⟩
          intro cells env vs hi hv
          obtain ⟨hd, d1, d2, d3⟩ := operand (deg := deg) hst ht
          obtain ⟨v, v1, v2⟩ := d3 cells vs hv
          obtain ⟨os1, x1, x2⟩ := c5 (k, cs) (by simp) ty hd ht d1
          obtain ⟨rs, r1, r2⟩ := g7 cells env vs hi ⟨hv.1, hv.2.1, fun k ty h v k1 k2 k3 => decrypts_ext c2.ext (hv.2.2 k ty h v k1 k2 k3)⟩
          refine ⟨v :: rs, by simp only [meaningM, v1, r1], .cons ?_ r2⟩
          exact writesAs_mono (fun t c u hw => g6 cells t c u hw) (collect_writes x1 (x2 deg cells) v2)
      · rw [if_neg hlen] at h; cases h

/-- The context of a new circuit satisfies all invariants. -/
theorem buildM_ok {lib : BddLib} (hlib : BddLibOk lib) {deg : Nat} (hdeg : 0 < deg) {orders : Nat → List Nat → List Nat} (hor : ∀ k l, (orders k l).Perm l)
    {prog : List MInstr} {os : List (Ty × List Nat)} (hck : checkM deg prog .unused [] = some os) (hok : CollectsOk prog os) :
    ∃ ctx hs, execM lib deg orders prog Ctx.new [] = some (ctx, hs) ∧ Live ctx.circuit ∧
      Good deg (fun _ => ioOf ((callsOf prog).flatMap instrCells) (collectedCells os)) ctx.circuit ∧ OutsIn ctx.circuit (collectedCells os) ∧
      ∀ cells env, InputsOk cells env (callsOf prog) → ∃ rs, meaningM env prog [] = some rs ∧
        List.Forall₂ (fun o v => WritesAs deg cells ctx.circuit o.2 o.1 v) os rs := by
  obtain ⟨ctx, hs, h1, h2, h3, h4, _, h6⟩ := execM_ok hlib hdeg hor (ins := (callsOf prog).flatMap instrCells) (outs := collectedCells os) prog Ctx.new .unused [] [] os []
    hck ctxOk_new.live ⟨rfl, rfl⟩ .nil (good_new fun _ op h => ioOf_internal _ _ h) ⟨by intro n t c hn; simp [Ctx.new, Graph.weight, Graph.empty] at hn,
      by intro n n' t c hn; simp [Ctx.new, Graph.weight, Graph.empty] at hn⟩ (by simpa using hok.distinct) (fun p hp => hp)
    (fun i hi p hp => List.mem_flatMap.2 ⟨i, hi, hp⟩)
  exact ⟨ctx, hs, h1, h2, h3, by simpa using h4, fun cells env hi => h6 cells env [] hi ⟨rfl, rfl, by intro k _ _ _ hk; cases hk⟩⟩

/-- **C73 (the whole language).** Every accepted program over encrypted integers — the calls of `C73_programs_partial`, multiplications, and results collected
at any point, in any order and number — builds a circuit without panicking, for every iteration order of the hash maps; and whenever its input cells encrypt the
integers `env`, the plaintext program has a meaning, and running the circuit writes every collected result, as it was when it was collected, into its cells: no
later call disturbs it, although every multiplication prunes and renumbers the circuit. (Partial: after a multiplication only the product may be used further, and
no constant if one was used before it — otherwise `C72_violated` —, and the calls refuted in `C10_glev_violated`, `C22_signed_violated`, `C23_signed_violated`
and `C71_violated` are not accepted.) -/
theorem C73_mul_partial {lib : BddLib} (hlib : BddLibOk lib) {deg : Nat} (hdeg : 0 < deg) {orders : Nat → List Nat → List Nat} (hor : ∀ k l, (orders k l).Perm l)
    {prog : List MInstr} {os : List (Ty × List Nat)} (hck : checkM deg prog .unused [] = some os) (hok : CollectsOk prog os) :
    ∃ ctx hs, execM lib deg orders prog Ctx.new [] = some (ctx, hs) ∧
      ∀ cells env, InputsOk cells env (callsOf prog) → ∃ rs, meaningM env prog [] = some rs ∧
        List.Forall₂ (fun o v => WritesAs deg cells ctx.circuit o.2 o.1 v) os rs := by
  obtain ⟨ctx, hs, h1, _, _, _, h5⟩ := buildM_ok hlib hdeg hor hck hok
  exact ⟨ctx, hs, h1, h5⟩

/-! ### on ciphertexts -/

variable {W : Nat}

/-- Running a circuit whose edges come from typed operators, that runs on every input, and whose outputs are different from each other and from the inputs. -/
theorem run_ok {n v : Nat} {P : EvalParams} (hP : ParamsOk W n v P) {ν : NoiseLevels} {s : List Bool} {sk : List (List (BitVec W))} (hs : SecretOk P n ν s sk)
    (checked : Bool) {D : KeyDraws W} (hD : DrawsOk P n ν D) :
    ∃ K, computeKeyGen checked P (bitKey W s) sk D = some K ∧ ∀ err : FheOp → List (Ct W × FheEdge) → OpErr W, (∀ op ins, ErrOk P n ν.fft (err op ins)) →
      ∀ (g : FGraph) (ins outs : List (CtType × Nat)), Live g → Good P.degree (fun _ => ioOf ins outs) g → OutsIn g outs → (∀ p ∈ ins, p ∉ outs) →
        (∃ ord, TopoOrder g ord) ∧ ∀ ord, TopoOrder g ord → ∃ items, spawnAll [(g, ord)] 0 0 = some items ∧
          ∀ (vals : CtType → Nat → Val) (nz : CtType → Nat → Nat) (cells : CtType × Nat → Ct W), (∀ p ∈ ins, (vals p.1 p.2).type = p.1) →
            (∀ p ∈ ins, CtEncrypts P (bitKey W s) sk (nz p.1 p.2) (vals p.1 p.2) (cells p)) → NoiseFits W P ν nz g →
            ∀ threads tokens st, Reached (liftExec (execCt P K err)) threads tokens items cells st → Finished items st →
              st.fired 0 = [none] ∧ ∀ t c u, u.type = t → Writes P.degree (typed vals) g t c u → CtDecrypts P (bitKey W s) sk (st.cells (t, c)) u := by
  obtain ⟨K, k1, k2⟩ := C94_end_to_end_partial hP hs checked hD
  refine ⟨K, k1, fun err he g ins outs b3 b4 b5 hdis => ?_⟩
  refine ⟨topo_exists b3 fun n hn => b4.runs (fun t _ => ctOf t false) (fun t _ => ctOf_type t false) n hn, fun ord ht => ?_⟩
  obtain ⟨items, i1, _⟩ := C16_spawn (gs := [(g, ord)]) (by intro p hp; rw [List.mem_singleton.1 hp]; exact ht)
  have hap : Apart [(g, ord)] := by
    have one : ∀ (k : Nat) (p : FGraph × List Nat), [(g, ord)][k]? = some p → k = 0 ∧ p = (g, ord) := by
      intro k p hp
      match k, hp with
      | 0, hp => cases hp; exact ⟨rfl, rfl⟩
    constructor
    · intro k k' p p' n n' t c hk hk' hn hn'
      obtain ⟨rfl, rfl⟩ := one k p hk
      obtain ⟨rfl, rfl⟩ := one k' p' hk'
      exact ⟨rfl, b5.2 n n' t c hn hn'⟩
    · intro k k' p p' n n' t c hk hk' hn hn'
      obtain ⟨rfl, rfl⟩ := one k p hk
      obtain ⟨rfl, rfl⟩ := one k' p' hk'
      exact hdis _ (b4.ops n _ hn) (b5.1 n' t c hn')
  refine ⟨items, i1, fun vals nz cells htyp henc hnz threads tokens st hr hf => ?_⟩
  have hct := typed_typed vals
  have hsink : ∀ e ∈ g.edges, ∀ t c, g.weight e.1 ≠ some (.output t c) := by
    intro e he' t c hw
    obtain ⟨op, t', w1, w2⟩ := b4.edge e he'
    rw [hw] at w1; cases w1
    simp [opType] at w2
  have hone : ∀ p ∈ [(g, ord)], p = (g, ord) := fun p hp => List.mem_singleton.1 hp
  obtain ⟨f1, f2⟩ := k2 err he [(g, ord)] cells (typed vals) nz (fun p hp => by rw [hone p hp]; exact ht) hap (by
    intro p hp a t c hw
    rw [hone p hp] at hw
    have hmem : (t, c) ∈ ins := b4.ops a _ hw
    have := henc _ hmem
    rwa [← typed_eq (htyp _ hmem)] at this) items i1 threads tokens st hr hf 0 g ord rfl
    ⟨fun a op hw => Or.inr (b4.runs (typed vals) hct a (by rw [hw]; rfl)), hsink⟩ (fun a op hw _ => by
      obtain ⟨B, hB, _⟩ := hnz a op hw
      exact ⟨B, hB⟩)
  refine ⟨f1, ?_⟩
  rintro t c u hty ⟨m, hw, hu⟩
  obtain ⟨B, hB, hlim⟩ := hnz m _ hw
  refine f2 m _ c u B hw hu hB ?_
  rw [← limit_type, hty]
  exact hlim _ _ rfl

/-- **C100 (the whole language).** As `C100_run_partial`, for programs with multiplications and with results collected at any point: whatever the number of
workers and flow-control tokens and the schedule, when the run has finished the completion callback has been called once, without error, and the client decrypts
the cells of every collected result to its value in the plaintext program on `env`. -/
theorem C100_mul_partial {n v : Nat} {P : EvalParams} (hP : ParamsOk W n v P) {ν : NoiseLevels} {s : List Bool} {sk : List (List (BitVec W))} (hs : SecretOk P n ν s sk)
    (checked : Bool) {D : KeyDraws W} (hD : DrawsOk P n ν D) :
    ∃ K, computeKeyGen checked P (bitKey W s) sk D = some K ∧ ∀ err : FheOp → List (Ct W × FheEdge) → OpErr W, (∀ op ins, ErrOk P n ν.fft (err op ins)) →
      ∀ (lib : BddLib), BddLibOk lib → ∀ orders : Nat → List Nat → List Nat, (∀ k l, (orders k l).Perm l) →
      ∀ (prog : List MInstr) (os : List (Ty × List Nat)), checkM P.degree prog .unused [] = some os → CollectsOk prog os →
        ∃ ctx hs, execM lib P.degree orders prog Ctx.new [] = some (ctx, hs) ∧ (∃ ord, TopoOrder ctx.circuit ord) ∧
          ∀ ord, TopoOrder ctx.circuit ord → ∃ items, spawnAll [(ctx.circuit, ord)] 0 0 = some items ∧
            ∀ (env : Nat → Int) (vals : CtType → Nat → Val) (nz : CtType → Nat → Nat) (cells : CtType × Nat → Ct W), InputsOk vals env (callsOf prog) →
              (∀ i ∈ callsOf prog, ∀ p ∈ instrCells i, CtEncrypts P (bitKey W s) sk (nz p.1 p.2) (vals p.1 p.2) (cells p)) → NoiseFits W P ν nz ctx.circuit →
              ∀ threads tokens st, Reached (liftExec (execCt P K err)) threads tokens items cells st → Finished items st →
                st.fired 0 = [none] ∧ ∃ rs, meaningM env prog [] = some rs ∧
                  List.Forall₂ (fun o v => ReadsAs P (bitKey W s) sk st.cells o.2 o.1 v) os rs := by
  obtain ⟨K, k1, k2⟩ := run_ok hP hs checked hD
  refine ⟨K, k1, fun err he lib hlib orders hor prog os hck hok => ?_⟩
  have hdeg : 0 < P.degree := by rw [hP.degree]; exact Nat.two_pow_pos n
  obtain ⟨ctx, hs', b1, b2, b3, b4, b5⟩ := buildM_ok hlib hdeg hor hck hok
  obtain ⟨r1, r2⟩ := k2 err he ctx.circuit _ _ b2 b3 b4 (by
    intro p hp
    obtain ⟨i, i1, i2⟩ := List.mem_flatMap.1 hp
    exact hok.fresh i i1 p i2)
  refine ⟨ctx, hs', b1, r1, fun ord ht => ?_⟩
  obtain ⟨items, i1, i2⟩ := r2 ord ht
  refine ⟨items, i1, fun env vals nz cells hin henc hnz threads tokens st hr hf => ?_⟩
  have hall : ∀ p ∈ (callsOf prog).flatMap instrCells, ∃ i ∈ callsOf prog, p ∈ instrCells i := fun p hp => List.mem_flatMap.1 hp
  obtain ⟨f1, f2⟩ := i2 vals nz cells (fun p hp => by
      obtain ⟨i, j1, j2⟩ := hall p hp
      exact inputs_typed hin i j1 p j2) (fun p hp => by
      obtain ⟨i, j1, j2⟩ := hall p hp
      exact henc i j1 p j2) hnz threads tokens st hr hf
  obtain ⟨rs, v1, v2⟩ := b5 (typed vals) env (inputs_of_typed hin)
  refine ⟨f1, rs, v1, v2.imp ?_⟩
  rintro ⟨ty, cs⟩ v hw
  cases ty <;> cases v <;> first | exact hw.elim | skip
  · obtain ⟨a, b, bits, d, e, f⟩ := hw
    exact ⟨a, b, bits, d, e.imp fun _ _ hh => f2 _ _ _ (ctOf_type _ _) hh, f⟩
  · obtain ⟨c, a, b⟩ := hw
    exact ⟨c, a, f2 _ _ _ (ctOf_type _ _) b⟩
  · obtain ⟨a, b, c, p, d, e, f⟩ := hw
    exact ⟨a, b, c, p, d, f2 _ _ _ rfl e, f⟩

/-! ### a concrete case -/

/-- multiplication of unsigned integers of at most 16 bits, without recursion -/
def mulSmall (lib : CircLib) (mode : MuxMode) (order : List Nat → List Nat) (a b : List Nat) (ctx : Ctx) : Option (Ctx × List Nat) :=
  let existing := ctx.circuit.indices.filter (isSinkOutput ctx.circuit)
  if a.length ≤ 16 ∧ b.length ≤ 16 then
    match insertLib lib ((longerN a b).length + (shorterN a b).length) (Mul.multiplierImpl (longerN a b).length (shorterN a b).length)
        (longerN a b ++ shorterN a b) mode ctx.circuit with
    | none => none
    | some (g, r) =>
      if a.length ≤ r.length then
        match prune g (r.take a.length ++ existing) order with
        | none => none
        | some (pruned, ren) =>
          match renameAll ren (r.take a.length) with
          | none => none
          | some lo => some ({ ctx with circuit := pruned }, lo)
      else none
  else none

theorem mulSmall_ok {lib mode order a b ctx r} (h : mulSmall lib mode order a b ctx = some r) : mul lib .unsigned mode order a b ctx = some r := by
  unfold mulSmall at h
  simp only at h
  by_cases hc : a.length ≤ 16 ∧ b.length ≤ 16
  · rw [if_pos hc] at h
    have hm : mulNodes lib mode a b ctx.circuit = insertLib lib ((longerN a b).length + (shorterN a b).length)
        (Mul.multiplierImpl (longerN a b).length (shorterN a b).length) (longerN a b ++ shorterN a b) mode ctx.circuit := by
      rw [mulNodes]
      have h1 : (longerN a b).length ≤ Mul.circuitCutoff := by unfold longerN; split <;> simp only [Mul.circuitCutoff] <;> omega
      have h2 : (shorterN a b).length ≤ Mul.circuitCutoff := by unfold shorterN; split <;> simp only [Mul.circuitCutoff] <;> omega
      simp only [Mul.partitionInteger, if_pos h1, if_pos h2]
      rfl
    unfold mul
    simp only [appendMultiply, appendUint, hm]
    cases hi : insertLib lib ((longerN a b).length + (shorterN a b).length) (Mul.multiplierImpl (longerN a b).length (shorterN a b).length)
        (longerN a b ++ shorterN a b) mode ctx.circuit with
    | none => rw [hi] at h; cases h
    | some q =>
      obtain ⟨g, r'⟩ := q
      rw [hi] at h
      simp only at h ⊢
      by_cases hl : a.length ≤ r'.length
      · rw [if_pos hl] at h ⊢
        exact h
      · rw [if_neg hl] at h; cases h
  · rw [if_neg hc] at h; cases h

/-- `execM` on programs that multiply only unsigned integers of at most 16 bits -/
def execSmall (lib : BddLib) (deg : Nat) (orders : Nat → List Nat → List Nat) : List MInstr → Ctx → List Handle → Option (Ctx × List Handle)
  | [], ctx, hs => some (ctx, hs)
  | .call i :: is, ctx, hs =>
    match execI lib deg ctx hs i with
    | none => none
    | some (ctx, h) => execSmall lib deg orders is ctx (hs ++ [h])
  | .mul i j mode :: is, ctx, hs =>
    match withInts hs i j fun s a b => if s = .unsigned then liftCtx s (outType mode) (mulSmall (circuitOf lib) mode (orders is.length) a b ctx) else none with
    | none => none
    | some (ctx, h) => execSmall lib deg orders is ctx [h]
  | .collect k cs :: is, ctx, hs =>
    match collectAll hs [(k, cs)] ctx.circuit with
    | none => none
    | some g => execSmall lib deg orders is { ctx with circuit := g } hs

theorem execSmall_ok {lib deg orders} : ∀ (prog : List MInstr) (ctx : Ctx) (hs : List Handle) {r}, execSmall lib deg orders prog ctx hs = some r →
    execM lib deg orders prog ctx hs = some r
  | [], _, _, _, h => h
  | .call i :: is, ctx, hs, r, h => by
    simp only [execSmall, execM] at h ⊢
    cases he : execI lib deg ctx hs i with
    | none => rw [he] at h; cases h
    | some q => rw [he] at h; exact execSmall_ok is _ _ h
  | .mul i j mode :: is, ctx, hs, r, h => by
    simp only [execSmall, execM, withInts] at h ⊢
    cases h1 : hs[i]? with
    | none => rw [h1] at h; cases h
    | some x =>
      cases h2 : hs[j]? with
      | none => rw [h1, h2] at h; cases x <;> cases h
      | some y =>
        rw [h1, h2] at h
        cases x <;> cases y <;> simp only at h ⊢ <;> first | (cases h; done) | skip
        rename_i s t a s' t' b
        by_cases hu : s = .unsigned
        · subst hu
          rw [if_pos rfl] at h
          cases hm : mulSmall (circuitOf lib) mode (orders is.length) a b ctx with
          | none => rw [hm] at h; cases h
          | some q =>
            rw [hm] at h
            rw [mulSmall_ok hm]
            exact execSmall_ok is _ _ h
        · rw [if_neg hu] at h; cases h
  | .collect k cs :: is, ctx, hs, r, h => by
    simp only [execSmall, execM] at h ⊢
    cases he : collectAll hs [(k, cs)] ctx.circuit with
    | none => rw [he] at h; cases h
    | some q => rw [he] at h; exact execSmall_ok is _ _ h

/-- three 2-bit integers: `x0 + x1` is collected; then `p = x0 * x1`; `p & x2` is collected; then `p * x2` is collected -/
def exMulProg : List MInstr :=
  [.call (.input .unsigned .ggsw1 0 [0, 1]), .call (.input .unsigned .ggsw1 1 [2, 3]), .call (.add 0 1 .glwe), .collect 2 [10, 11], .mul 0 1 .glwe,
   .call (.convert 0 .ggsw1), .call (.input .unsigned .ggsw1 2 [4, 5]), .call (.and 1 2 .glwe), .collect 3 [12, 13], .mul 1 2 .glwe, .collect 0 [14, 15]]

def exMulOuts : List (Ty × List Nat) := [(.int .unsigned .glwe1 2, [10, 11]), (.int .unsigned .glwe1 2, [12, 13]), (.int .unsigned .glwe1 2, [14, 15])]

theorem exMulProg_check : checkM 16 exMulProg .unused [] = some exMulOuts := by decide

theorem exMulProg_ok : CollectsOk exMulProg exMulOuts := ⟨by decide, by decide⟩

/-- on `x0 = 3`, `x1 = 2`, `x2 = 3`: the sum is 1 (modulo 4), `p = 2`, `p & 3 = 2`, `p * 3 = 2` (modulo 4) -/
theorem exMulProg_meaning : meaningM (fun x => if x = 1 then 2 else 3) exMulProg [] = some [.int .unsigned 2 1, .int .unsigned 2 2, .int .unsigned 2 2] := by decide

/-- a constant before and after a multiplication is not accepted -/
example : checkM 16 [.call (.constBit .glwe1 true), .call (.input .unsigned .ggsw1 0 [0]), .mul 1 1 .glwe, .call (.constBit .glwe1 true)] .unused [] = none ∧
    checkM 16 [.call (.input .unsigned .ggsw1 0 [0]), .mul 0 0 .glwe, .call (.constBit .glwe1 true), .collect 1 [7]] .unused [] = some [(.bit .glwe1, [7])] ∧
    mulWidthOk 16 64 64 = true ∧ mulWidthOk 16 20 31 = true ∧ mulWidthOk 16 8 20 = false := by decide

def exMulG : Option FGraph := (execSmall shannonLib 16 (fun _ => id) exMulProg Ctx.new []).map (·.1.circuit)

theorem exMulG_fits : (match exMulG with
    | none => false
    | some g => fits 64 exCtParams exCtLevels (fun _ _ => 4) 60 g && g.nodes.length == 85) = true := by decide +kernel

/-- On fresh encryptions of `x0 = 3`, `x1 = 2`, `x2 = 3` (with the noise 4), every finished run decrypts to the sum, the conjunction and the product. -/
example (err : FheOp → List (Ct 64 × FheEdge) → OpErr 64) (he : ∀ op ins, ErrOk exCtParams 4 exCtLevels.fft (err op ins)) :
    ∃ K g, computeKeyGen true exCtParams (bitKey 64 [true, true]) exCtSk exCtDraws = some K ∧ exMulG = some g ∧ (∃ ord, TopoOrder g ord) ∧
      ∀ ord, TopoOrder g ord → ∃ items, spawnAll [(g, ord)] 0 0 = some items ∧ ∀ (vals : CtType → Nat → Val) (cells : CtType × Nat → Ct 64),
        (∀ t c, vals t c = ctOf t (c != 2)) → (∀ p, CtEncrypts exCtParams (bitKey 64 [true, true]) exCtSk 4 (vals p.1 p.2) (cells p)) →
        ∀ threads tokens st, Reached (liftExec (execCt exCtParams K err)) threads tokens items cells st → Finished items st → st.fired 0 = [none] ∧
          ReadsAs exCtParams (bitKey 64 [true, true]) exCtSk st.cells [10, 11] (.int .unsigned .glwe1 2) (.int .unsigned 2 1) ∧
          ReadsAs exCtParams (bitKey 64 [true, true]) exCtSk st.cells [12, 13] (.int .unsigned .glwe1 2) (.int .unsigned 2 2) ∧
          ReadsAs exCtParams (bitKey 64 [true, true]) exCtSk st.cells [14, 15] (.int .unsigned .glwe1 2) (.int .unsigned 2 2) := by
  obtain ⟨K, k1, k2⟩ := C100_mul_partial exCtParams_ok exCtSecret_ok true exCtDraws_ok
  obtain ⟨ctx, hs, e1, e3, e4⟩ := k2 err he shannonLib bddLibOk_shannon (fun _ => id) (fun _ l => .refl l) exMulProg exMulOuts exMulProg_check exMulProg_ok
  have hfit := exMulG_fits
  have hg : exMulG = some ctx.circuit := by
    cases hx : execSmall shannonLib 16 (fun _ => id) exMulProg Ctx.new [] with
    | none => unfold exMulG at hfit; rw [hx] at hfit; cases hfit
    | some r =>
      have := execSmall_ok _ _ _ hx
      rw [show execM shannonLib 16 (fun _ => id) exMulProg Ctx.new [] = _ from e1] at this
      cases this
      unfold exMulG; rw [hx]; rfl
  rw [hg] at hfit
  simp only [Bool.and_eq_true] at hfit
  refine ⟨K, ctx.circuit, k1, hg, e3, fun ord ht => ?_⟩
  obtain ⟨items, i1, i2⟩ := e4 ord ht
  refine ⟨items, i1, fun vals cells hv hc threads tokens st hr hf => ?_⟩
  obtain ⟨f1, rs, f2, f3⟩ := i2 (fun x => if x = 1 then 2 else 3) vals (fun _ _ => 4) cells (by
    intro i hi
    simp only [exMulProg, callsOf, List.mem_cons, List.not_mem_nil, or_false] at hi
    rcases hi with rfl | rfl | rfl | rfl | rfl | rfl
    · exact ⟨[true, true], .cons (hv _ _) (.cons (hv _ _) .nil), by decide⟩
    · exact ⟨[false, true], .cons (hv _ _) (.cons (hv _ _) .nil), by decide⟩
    · trivial
    · trivial
    · exact ⟨[true, true], .cons (hv _ _) (.cons (hv _ _) .nil), by decide⟩
    · trivial) (fun i _ p _ => hc p) (fits_ok hfit.1) threads tokens st hr hf
  rw [exMulProg_meaning] at f2
  cases f2
  cases f3 with
  | cons h1 h =>
    cases h with
    | cons h2 h =>
      cases h with
      | cons h3 _ => exact ⟨f1, h1, h2, h3⟩

end Spf.Props
