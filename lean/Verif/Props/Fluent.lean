import Verif.Proof.FluentPack
import Verif.Proof.BddLib
import Verif.Props.AluShift
import Verif.Proof.Gradeschool
/-! C20 (packing), C22 (resizing), C23 (comparisons of different widths), C71 (constants), and the remaining fluent
operations. -/
namespace Spf.Props
open Spf.Spec Spf.Fhe Spf.Fluent Graph

/-! ### C20: packing -/

/-- **C20 (pack).** Packing `n` encrypted bits, `1 ≤ n ≤ degree`, never panics, keeps the existing circuit, and produces
one ciphertext whose coefficient `j` is bit `j` (and 0 from coefficient `n` on). -/
theorem C20_pack {deg : Nat} {g : FGraph} (hl : Live g) {ns : List Nat} (hn : AreNodes g .glwe1 ns) (h0 : 1 ≤ ns.length)
    (hd : ns.length ≤ deg) :
    ∃ g' p, pack deg ns g = some (g', p) ∧ p.bitLen = ns.length ∧ Live g' ∧ Extends g g' ∧
      ∀ cells bits, Holds deg cells g .glwe1 ns bits → ∃ poly, FEval deg cells g' p.id (.glwe1 poly) ∧
        (∀ (j : Nat) b, bits[j]? = some b → poly j = b) ∧ ∀ j, ns.length ≤ j → poly j = false := by
  obtain ⟨g', p, h1, h2, h3, _, h5⟩ := pack_ok (io := fun _ _ => True) hl hn h0 hd
  refine ⟨g', p, h1, h2, h3.live, extends_of h3.ext hl, ?_⟩
  intro cells bits hb
  refine ⟨_, h5 cells bits hb, ?_, ?_⟩
  · intro j b hj; simp [List.getD_eq_getElem?_getD, hj]
  · intro j hj
    simp only [List.getD_eq_getElem?_getD]
    rw [List.getElem?_eq_none (by rw [← hb.length_eq]; exact hj)]; rfl

/-- **C20 (unpack).** Unpacking an integer of `n ≤ degree` bits never panics and yields `n` nodes, node `j` an encryption
of coefficient `j`. -/
theorem C20_unpack {deg : Nat} {g : FGraph} (hl : Live g) {p : Packed} (hp : (g.weight p.id).isSome) (hd : p.bitLen ≤ deg) :
    ∃ g' ms, unpack p g = some (g', ms) ∧ Live g' ∧ Extends g g' ∧ AreNodes g' .lwe1 ms ∧
      ∀ cells poly, FEval deg cells g p.id (.glwe1 poly) → Holds deg cells g' .lwe1 ms ((List.range p.bitLen).map poly) := by
  obtain ⟨g', ms, h1, h2, h3, _, _, h5⟩ := unpackFrom_ok (io := fun _ _ => True) deg p.id p.bitLen 0 g hl hp
  refine ⟨g', ms, h1, h2.live, extends_of h2.ext hl, h3, ?_⟩
  intro cells poly hv
  have := h5 (by omega) cells poly hv
  rwa [← List.range_eq_range'] at this

/-- **C20 (round trip).** Packing, then building anything else, then unpacking, gives back the packed bits. -/
theorem C20_round_trip {deg : Nat} {g : FGraph} (hl : Live g) {ns : List Nat} (hn : AreNodes g .glwe1 ns) (h0 : 1 ≤ ns.length)
    (hd : ns.length ≤ deg) :
    ∃ g' p, pack deg ns g = some (g', p) ∧ ∀ g'', Live g'' → Extends g' g'' → ∃ g3 ms, unpack p g'' = some (g3, ms) ∧
      ∀ cells bits, Holds deg cells g .glwe1 ns bits → Holds deg cells g3 .lwe1 ms bits := by
  obtain ⟨g', p, h1, h2, h3, h4, h5⟩ := pack_ok (io := fun _ _ => True) hl hn h0 hd
  refine ⟨g', p, h1, ?_⟩
  intro g'' hl'' hx
  obtain ⟨op, hop, _⟩ := h4 p.id (by simp)
  have hlive : (g''.weight p.id).isSome := by rw [(hx _ _ hop).1]; rfl
  obtain ⟨g3, ms, k1, _, _, _, k5⟩ := C20_unpack (deg := deg) hl'' hlive (by rw [h2]; exact hd)
  refine ⟨g3, ms, k1, ?_⟩
  intro cells bits hb
  have := k5 cells _ (((hx _ _ hop).2.2 deg cells _).2 (h5 cells bits hb))
  have hlen : p.bitLen = bits.length := by rw [h2, hb.length_eq]
  rwa [hlen, show (List.range bits.length).map (fun j => bits.getD j false) = bits by
    apply List.ext_getElem (by simp)
    intro i hi _
    have hi' : i < bits.length := by simpa using hi
    simp [hi']] at this

/-- **C20 (rejected widths).** Zero bits, or more bits than the degree, panic. -/
theorem C20_rejects (deg : Nat) (ns : List Nat) (g : FGraph) (h : ns.length = 0 ∨ deg < ns.length) : pack deg ns g = none := by
  unfold pack
  rcases h with h | h
  · simp [h]
  · simp only; rw [if_neg (by omega)]

/-- **C20 (client side).** A plaintext integer of fewer bits than the degree is packed with bit `j` in coefficient `j`, and
reading the coefficients back gives its bits. -/
theorem C20_client (deg : Nat) (bits : List Bool) (h : bits.length < deg) :
    ∃ coeffs, packedEncode deg bits = some coeffs ∧ coeffs.length = deg ∧
      (∀ (j : Nat) b, bits[j]? = some b → coeffs[j]? = some b) ∧
      (∀ (j : Nat) b, bits.length ≤ j → coeffs[j]? = some b → b = false) ∧
      packedDecode deg bits.length coeffs = some bits := by
  unfold packedEncode packedDecode
  simp only [if_pos h]
  refine ⟨_, rfl, by simp, ?_, ?_, ?_⟩
  · intro j b hb
    have hj := (List.getElem?_eq_some_iff.1 hb).1
    rw [List.getElem?_take, if_pos (by omega), List.getElem?_append_left hj, hb]
  · intro j b hj hb
    rw [List.getElem?_take] at hb
    split at hb
    · rw [List.getElem?_append_right hj] at hb
      exact List.eq_of_mem_replicate (List.mem_of_getElem? hb)
    · cases hb
  · rw [List.take_take, Nat.min_eq_left (by omega), List.take_left']
    rfl

/-- **C20 (violated at full width).** A circuit packs `degree` bits into one ciphertext, but the packed integer can be
neither decrypted nor encrypted by the client. -/
theorem C20_full_width_violated (deg : Nat) (bits coeffs : List Bool) (h : bits.length = deg) :
    packedEncode deg bits = none ∧ packedDecode deg bits.length coeffs = none := by
  unfold packedEncode packedDecode
  rw [if_neg (by omega), if_neg (by omega)]
  exact ⟨rfl, rfl⟩

/-- Three encrypted bits. -/
def exBits3 : FGraph := ⟨[some (.input .glwe1 0), some .oneGlwe1, some (.input .glwe1 5)], []⟩

theorem exBits3_live : Live exBits3 := by intro e he; cases he

theorem exBits3_nodes : AreNodes exBits3 .glwe1 [0, 1, 2] := by
  intro n hn
  simp only [List.mem_cons, List.not_mem_nil, or_false] at hn
  rcases hn with rfl | rfl | rfl
  · exact ⟨_, rfl, rfl⟩
  · exact ⟨_, rfl, rfl⟩
  · exact ⟨_, rfl, rfl⟩

example : ∃ g' p, pack 4 [0, 1, 2] exBits3 = some (g', p) ∧ p.bitLen = 3 ∧
    g'.nodes = exBits3.nodes ++ [some (.mulXN 1), some (.mulXN 2), some .glweAdd, some .glweAdd] := ⟨_, _, rfl, rfl, rfl⟩
example : ∃ g' p, pack 4 [0, 1, 2] exBits3 = some (g', p) ∧ ∀ g'', Live g'' → Extends g' g'' → ∃ g3 ms, unpack p g'' = some (g3, ms) ∧
      ∀ cells bits, Holds 4 cells exBits3 .glwe1 [0, 1, 2] bits → Holds 4 cells g3 .lwe1 ms bits :=
  C20_round_trip exBits3_live exBits3_nodes (by decide) (by decide)
/-- the bits `false, true, true` are held by the example's nodes -/
example : Holds 4 (fun _ c => .glwe1 (constPoly (c == 5))) exBits3 .glwe1 [0, 1, 2] [false, true, true] :=
  .cons (.op (fun _ => .lwe0 false) rfl (by intro e he; cases he) rfl)
    (.cons (.op (fun _ => .lwe0 false) rfl (by intro e he; cases he) rfl)
      (.cons (.op (fun _ => .lwe0 false) rfl (by intro e he; cases he) rfl) .nil))

/-! ### C71: constants -/

theorem isConst_ext {g g' : FGraph} (h : FExt g g') {t b n} (hc : IsConst g t b n) : IsConst g' t b n :=
  ⟨nodes_ext h hc.1, fun deg cells => h.eval (hc.2 deg cells)⟩

/-- **C71 (fresh context).** -/
theorem ctxOk_new : CtxOk Ctx.new := by
  refine ⟨(by intro e he; cases he), rfl, rfl, ?_, ?_⟩
  · intro t n h; cases t <;> cases h
  · intro t n h; cases t <;> cases h

/-- Extending the circuit of a context keeps its constants. -/
theorem ctxOk_step {ctx : Ctx} (h : CtxOk ctx) {g' : FGraph} (hs : Grow ctx.circuit g') : CtxOk { ctx with circuit := g' } :=
  ⟨hs.live, h.oneLen, h.zeroLen, fun t n hn => isConst_ext hs.ext (h.ones t n hn), fun t n hn => isConst_ext hs.ext (h.zeros t n hn)⟩

theorem typeIndex_inj {t t' : CtType} (h : typeIndex t = typeIndex t') : t = t' := by
  cases t <;> cases t' <;> first | rfl | (exfalso; revert h; decide)

theorem trivial_const {g : FGraph} (hl : Live g) {t : CtType} {b : Bool} {op : FheOp} (ht : opType op = some t)
    (hx : ∀ deg cells, execOp deg cells op [] = some (ctOf t b)) : IsConst (g.addNode op).1 t b (g.addNode op).2 := by
  refine ⟨?_, fun deg cells => leaf_eval hl (hx deg cells)⟩
  intro n hn
  rw [List.mem_singleton] at hn
  subst hn
  exact ⟨op, ext1_weight g op [], ht⟩

/-- **C71 (one).** For L0 LWE, L1 GLWE and L1 GGSW, asking for the constant one never panics, returns a node that
evaluates to an encryption of one whatever the inputs, keeps the existing circuit, and asking again returns the same
node and adds nothing. -/
theorem C71_one_partial {ctx : Ctx} (h : CtxOk ctx) {t : CtType} (ht : t = .lwe0 ∨ t = .glwe1 ∨ t = .ggsw1) :
    ∃ ctx' n, one t ctx = some (ctx', n) ∧ CtxOk ctx' ∧ IsConst ctx'.circuit t true n ∧ Extends ctx.circuit ctx'.circuit ∧
      one t ctx' = some (ctx', n) := by
  have hlt : typeIndex t < ctx.oneCache.length := by rw [h.oneLen]; rcases ht with rfl | rfl | rfl <;> decide
  cases hc : ctx.oneCache[typeIndex t]? with
  | none => rw [List.getElem?_eq_getElem hlt] at hc; cases hc
  | some c =>
    cases c with
    | some n =>
      have : one t ctx = some (ctx, n) := by unfold one; rw [hc]
      exact ⟨ctx, n, this, h, h.ones t n hc, extends_of (FExt.refl _) h.live, this⟩
    | none =>
      obtain ⟨op, h1, h2, h3⟩ : ∃ op, trivialOne t = some op ∧ opType op = some t ∧ ∀ deg cells, execOp deg cells op [] = some (ctOf t true) := by
        rcases ht with rfl | rfl | rfl
        · exact ⟨_, rfl, rfl, fun _ _ => rfl⟩
        · exact ⟨_, rfl, rfl, fun _ _ => rfl⟩
        · exact ⟨_, rfl, rfl, fun _ _ => rfl⟩
      have hs := leaf_step (d := 0) (io := fun _ _ => True) (g := ctx.circuit) h.live op (fun cells => by rw [h3]; rfl) (Or.inr fun _ => trivial)
      have hcst := trivial_const (g := ctx.circuit) h.live h2 h3
      refine ⟨{ ctx with circuit := (ctx.circuit.addNode op).1, oneCache := ctx.oneCache.set (typeIndex t) (some (ctx.circuit.addNode op).2) },
        (ctx.circuit.addNode op).2, by unfold one; rw [hc]; simp only [h1], ?_, hcst, extends_of hs.ext h.live, ?_⟩
      · refine ⟨hs.live, by simp [h.oneLen], h.zeroLen, ?_, fun t n hn => isConst_ext hs.ext (h.zeros t n hn)⟩
        intro t' n hn
        by_cases he : typeIndex t = typeIndex t'
        · have := typeIndex_inj he; subst this
          simp only [List.getElem?_set_self hlt, Option.some.injEq] at hn
          subst hn; exact hcst
        · simp only [List.getElem?_set_ne he] at hn
          exact isConst_ext hs.ext (h.ones t' n hn)
      · unfold one; simp only [List.getElem?_set_self hlt]

/-- **C71 (zero).** The same for the constant zero. -/
theorem C71_zero_partial {ctx : Ctx} (h : CtxOk ctx) {t : CtType} (ht : t = .lwe0 ∨ t = .glwe1 ∨ t = .ggsw1) :
    ∃ ctx' n, zero t ctx = some (ctx', n) ∧ CtxOk ctx' ∧ IsConst ctx'.circuit t false n ∧ Extends ctx.circuit ctx'.circuit ∧
      zero t ctx' = some (ctx', n) := by
  have hlt : typeIndex t < ctx.zeroCache.length := by rw [h.zeroLen]; rcases ht with rfl | rfl | rfl <;> decide
  cases hc : ctx.zeroCache[typeIndex t]? with
  | none => rw [List.getElem?_eq_getElem hlt] at hc; cases hc
  | some c =>
    cases c with
    | some n =>
      have : zero t ctx = some (ctx, n) := by unfold zero; rw [hc]
      exact ⟨ctx, n, this, h, h.zeros t n hc, extends_of (FExt.refl _) h.live, this⟩
    | none =>
      obtain ⟨op, h1, h2, h3⟩ : ∃ op, trivialZero t = some op ∧ opType op = some t ∧ ∀ deg cells, execOp deg cells op [] = some (ctOf t false) := by
        rcases ht with rfl | rfl | rfl
        · exact ⟨_, rfl, rfl, fun _ _ => rfl⟩
        · exact ⟨_, rfl, rfl, fun _ _ => rfl⟩
        · exact ⟨_, rfl, rfl, fun _ _ => rfl⟩
      have hs := leaf_step (d := 0) (io := fun _ _ => True) (g := ctx.circuit) h.live op (fun cells => by rw [h3]; rfl) (Or.inr fun _ => trivial)
      have hcst := trivial_const (g := ctx.circuit) h.live h2 h3
      refine ⟨{ ctx with circuit := (ctx.circuit.addNode op).1, zeroCache := ctx.zeroCache.set (typeIndex t) (some (ctx.circuit.addNode op).2) },
        (ctx.circuit.addNode op).2, by unfold zero; rw [hc]; simp only [h1], ?_, hcst, extends_of hs.ext h.live, ?_⟩
      · refine ⟨hs.live, h.oneLen, by simp [h.zeroLen], fun t n hn => isConst_ext hs.ext (h.ones t n hn), ?_⟩
        intro t' n hn
        by_cases he : typeIndex t = typeIndex t'
        · have := typeIndex_inj he; subst this
          simp only [List.getElem?_set_self hlt, Option.some.injEq] at hn
          subst hn; exact hcst
        · simp only [List.getElem?_set_ne he] at hn
          exact isConst_ext hs.ext (h.zeros t' n hn)
      · unfold zero; simp only [List.getElem?_set_self hlt]

/-- **C71 (violated for L1 GLEV and L1 LWE).** In every context the constants of kind L1 GLEV index past the end of the
four-entry cache and panic; those of kind L1 LWE panic in a fresh context (and are never put in the cache). -/
theorem C71_violated : (∀ ctx, CtxOk ctx → one .glev1 ctx = none ∧ zero .glev1 ctx = none) ∧
    one .lwe1 Ctx.new = none ∧ zero .lwe1 Ctx.new = none := by
  refine ⟨?_, rfl, rfl⟩
  intro ctx h
  have h1 : ctx.oneCache[typeIndex .glev1]? = none := List.getElem?_eq_none (by rw [h.oneLen]; decide)
  have h2 : ctx.zeroCache[typeIndex .glev1]? = none := List.getElem?_eq_none (by rw [h.zeroLen]; decide)
  unfold one zero
  rw [h1, h2]
  exact ⟨rfl, rfl⟩

example : ∃ ctx' n, one .ggsw1 Ctx.new = some (ctx', n) ∧ CtxOk ctx' ∧ IsConst ctx'.circuit .ggsw1 true n ∧
    Extends Ctx.new.circuit ctx'.circuit ∧ one .ggsw1 ctx' = some (ctx', n) := C71_one_partial ctxOk_new (Or.inr (Or.inr rfl))

/-! ### C22: resizing -/

theorem holds_last {deg cells g t} {ns : List Nat} {bits : List Bool} (h : Holds deg cells g t ns bits) {n : Nat} (hn : ns.getLast? = some n) :
    ∃ b, bits.getLast? = some b ∧ FEval deg cells g n (ctOf t b) := by
  induction h with
  | nil => cases hn
  | @cons x y xs ys hx hxs ih =>
    cases hxs with
    | nil => cases hn; exact ⟨y, rfl, hx⟩
    | cons h1 h2 =>
      rw [List.getLast?_cons_cons] at hn ⊢
      exact ih hn

/-- the plaintext bits of a resized integer -/
def resizedBits (sign : Sign) (bits : List Bool) (new : Nat) : List Bool :=
  match sign with
  | .unsigned => bits.take (min new bits.length) ++ List.replicate (new - bits.length) false
  | .signed => bits.take (min new bits.length - 1) ++ List.replicate (new - bits.length + 1) (bits.getLastD false)

theorem one_good {d : Nat} {io : Nat → FheOp → Prop} {ctx ctx' : Ctx} {t : CtType} {n : Nat} (hl : Live ctx.circuit) (h : one t ctx = some (ctx', n)) (hg : Good d io ctx.circuit) :
    Good d io ctx'.circuit := by
  unfold one at h
  split at h
  · cases h
  · cases h; exact hg
  · split at h
    · cases h
    · rename_i op hop
      cases h
      exact (leaf_step hl op (fun cells => by cases t <;> cases hop <;> rfl) (Or.inl (by cases t <;> cases hop <;> exact Internal.of rfl (by intro t c h; cases h)))).good hg

theorem zero_good {d : Nat} {io : Nat → FheOp → Prop} {ctx ctx' : Ctx} {t : CtType} {n : Nat} (hl : Live ctx.circuit) (h : zero t ctx = some (ctx', n)) (hg : Good d io ctx.circuit) :
    Good d io ctx'.circuit := by
  unfold zero at h
  split at h
  · cases h
  · cases h; exact hg
  · split at h
    · cases h
    · rename_i op hop
      cases h
      exact (leaf_step hl op (fun cells => by cases t <;> cases hop <;> rfl) (Or.inl (by cases t <;> cases hop <;> exact Internal.of rfl (by intro t c h; cases h)))).good hg

theorem resize_ok {d : Nat} {io : Nat → FheOp → Prop} {ctx : Ctx} (h : CtxOk ctx) {sign : Sign} {t : CtType} (ht : sign = .signed ∨ t = .lwe0 ∨ t = .glwe1 ∨ t = .ggsw1)
    {ns : List Nat} (hn : AreNodes ctx.circuit t ns) (h0 : 1 ≤ ns.length) {new : Nat} (hw : 1 ≤ new) :
    ∃ ctx' ms, resize sign t ns new ctx = some (ctx', ms) ∧ CtxOk ctx' ∧ Step d io ctx.circuit ctx'.circuit ∧ AreNodes ctx'.circuit t ms ∧
      ms.length = new ∧ ∀ deg cells bits, Holds deg cells ctx.circuit t ns bits →
        Holds deg cells ctx'.circuit t ms (resizedBits sign bits new) := by
  cases sign with
  | unsigned =>
    have ht' : t = .lwe0 ∨ t = .glwe1 ∨ t = .ggsw1 := by
      rcases ht with h | h
      · cases h
      · exact h
    obtain ⟨ctx', z, e1, e2, e3, e4, _⟩ := C71_zero_partial h ht'
    have hst : Step d io ctx.circuit ctx'.circuit := ⟨⟨e2.live, fun n op hop => ⟨(e4 n op hop).1, (e4 n op hop).2.1⟩⟩, zero_good h.live e1⟩
    refine ⟨ctx', _, by simp only [resize, resizeConfig]; rw [e1]; rfl, e2, hst, ?_, by simp; omega, ?_⟩
    · apply AreNodes.append
      · exact AreNodes.sub (nodes_ext hst.ext hn) fun n hm => List.mem_of_mem_take hm
      · exact AreNodes.sub e3.1 fun n hm => by rw [List.eq_of_mem_replicate hm]; simp
    · intro deg cells bits hb
      have hlen := hb.length_eq
      rw [hlen]
      exact holds_append (holds_take (holds_ext hst.ext hb) _) (holds_replicate (e3.2 deg cells) _)
  | signed =>
    have hmin : min new ns.length ≠ 0 := by omega
    obtain ⟨z, hz⟩ : ∃ z, ns.getLast? = some z := by
      cases hns : ns.getLast? with
      | none => rw [List.getLast?_eq_none_iff] at hns; rw [hns] at h0; simp at h0
      | some z => exact ⟨z, rfl⟩
    refine ⟨ctx, _, by simp only [resize, resizeConfig, if_neg hmin]; rw [hz]; rfl, h, Step.refl h.live, ?_, by simp; omega, ?_⟩
    · apply AreNodes.append
      · exact AreNodes.sub hn fun n hm => List.mem_of_mem_take hm
      · exact AreNodes.sub hn fun n hm => by rw [List.eq_of_mem_replicate hm]; exact List.mem_of_getLast? hz
    · intro deg cells bits hb
      obtain ⟨b, hb1, hb2⟩ := holds_last hb hz
      have hlen := hb.length_eq
      have hbd : bits.getLastD false = b := by rw [List.getLastD_eq_getLast?, hb1]; rfl
      unfold resizedBits
      rw [hlen]; simp only; rw [hbd]
      exact holds_append (holds_take hb _) (holds_replicate hb2 _)

theorem resized_unsigned (bits : List Bool) (new : Nat) : valLE (resizedBits .unsigned bits new) = valLE bits % 2 ^ new := by
  unfold resizedBits
  simp only
  rw [valLE_append, valLE_zeros, Nat.mul_zero, Nat.add_zero]
  rcases Nat.le_total new bits.length with h | h
  · rw [Nat.min_eq_left h]
    have := Mul.valLE_split bits new h
    have hlt := valLE_lt (bits.take new)
    rw [List.length_take, Nat.min_eq_left h] at hlt
    rw [this, Nat.add_mul_mod_self_left, Nat.mod_eq_of_lt hlt]
  · rw [Nat.min_eq_right h, List.take_length, Nat.mod_eq_of_lt]
    exact Nat.lt_of_lt_of_le (valLE_lt bits) (Nat.pow_le_pow_right (by omega) h)

/-- **C22 (unsigned).** Resizing an unsigned integer of kind L0 LWE, L1 GLWE or L1 GGSW to any width never panics, keeps
the existing circuit, and gives the value modulo `2^new` (hence the same value whenever it fits). -/
theorem C22_unsigned {ctx : Ctx} (h : CtxOk ctx) {t : CtType} (ht : t = .lwe0 ∨ t = .glwe1 ∨ t = .ggsw1)
    {ns : List Nat} (hn : AreNodes ctx.circuit t ns) (h0 : 1 ≤ ns.length) {new : Nat} (hw : 1 ≤ new) :
    ∃ ctx' ms, resize .unsigned t ns new ctx = some (ctx', ms) ∧ CtxOk ctx' ∧ Extends ctx.circuit ctx'.circuit ∧
      ms.length = new ∧ ∀ deg cells bits, Holds deg cells ctx.circuit t ns bits →
        ∃ out, Holds deg cells ctx'.circuit t ms out ∧ valLE out = valLE bits % 2 ^ new := by
  obtain ⟨ctx', ms, e1, e2, e3, _, e5, e6⟩ := resize_ok (d := 0) (io := fun _ _ => True) h (sign := .unsigned) (Or.inr ht) hn h0 hw
  exact ⟨ctx', ms, e1, e2, extends_of e3.ext h.live, e5, fun deg cells bits hb => ⟨_, e6 deg cells bits hb, resized_unsigned bits new⟩⟩

theorem valSigned_split (l : List Bool) (hl : 0 < l.length) :
    valSigned l = (valLE (l.take (l.length - 1)) : Int) - (if l.getLastD false then (2 : Int) ^ (l.length - 1) else 0) := by
  have hsp := Mul.valLE_split l (l.length - 1) (by omega)
  have hd : l.drop (l.length - 1) = [l.getLastD false] := by
    have hne : l ≠ [] := by intro h; rw [h] at hl; simp at hl
    conv_lhs => rw [← List.dropLast_append_getLast hne]
    rw [List.drop_left' (by simp), List.getLastD_eq_getLast?, List.getLast?_eq_some_getLast hne]; rfl
  unfold valSigned
  rw [hd] at hsp
  have hpow : (2 : Int) ^ l.length = 2 * 2 ^ (l.length - 1) := by
    conv_lhs => rw [show l.length = (l.length - 1) + 1 by omega]
    rw [pow_succ]; ring
  rw [hsp, hpow]
  cases l.getLastD false
  · simp
  · push_cast [Cpu.valLE_single]; simp; ring

theorem resized_signed_grow (bits : List Bool) (hb : 1 ≤ bits.length) {new : Nat} (h : bits.length ≤ new) :
    valSigned (resizedBits .signed bits new) = valSigned bits := by
  have hne : bits ≠ [] := by intro h; rw [h] at hb; simp at hb
  unfold resizedBits
  simp only
  rw [Nat.min_eq_right h, List.replicate_succ, ← List.singleton_append (l := List.replicate _ _), ← List.append_assoc]
  have hd : bits.take (bits.length - 1) ++ [bits.getLastD false] = bits := by
    have := List.dropLast_append_getLast hne
    rw [List.dropLast_eq_take] at this
    rw [List.getLastD_eq_getLast?, List.getLast?_eq_some_getLast hne]; exact this
  rw [hd]
  apply valSigned_extend
  rw [List.getLastD_eq_getLast?, List.getLast?_eq_some_getLast hne]; rfl

theorem resized_signed_shrink (bits : List Bool) {new : Nat} (hw : 1 ≤ new) (h : new < bits.length) :
    valSigned (resizedBits .signed bits new) = ((valLE bits % 2 ^ (new - 1) : Nat) : Int) - (if bits.getLastD false then (2 : Int) ^ (new - 1) else 0) := by
  have hlen : (resizedBits .signed bits new).length = new := by unfold resizedBits; simp; omega
  rw [valSigned_split _ (by omega), hlen]
  have h1 : resizedBits .signed bits new = bits.take (new - 1) ++ [bits.getLastD false] := by
    unfold resizedBits
    simp only
    rw [Nat.min_eq_left (show new ≤ bits.length by omega), Nat.sub_eq_zero_of_le (show new ≤ bits.length by omega)]
    rfl
  have hl1 : (bits.take (new - 1)).length = new - 1 := by simp; omega
  have h2 : (resizedBits .signed bits new).take (new - 1) = bits.take (new - 1) := by
    rw [h1, List.take_append_of_le_length (by omega), List.take_of_length_le (by omega)]
  have h3 : (resizedBits .signed bits new).getLastD false = bits.getLastD false := by
    rw [h1, List.getLastD_eq_getLast?, List.getLast?_append]; simp
  rw [h2, h3]
  have := Mul.valLE_split bits (new - 1) (by omega)
  have hlt := valLE_lt (bits.take (new - 1))
  rw [hl1] at hlt
  rw [this, Nat.add_mul_mod_self_left, Nat.mod_eq_of_lt hlt]

theorem shrink_arith (m k : Nat) (hmk : k < m) (v : Nat) (hv : v < 2 ^ m) (s : Bool)
    (hlo : -(2 : Int) ^ k ≤ (v : Int) - (if s then (2 : Int) ^ m else 0)) (hhi : (v : Int) - (if s then (2 : Int) ^ m else 0) < 2 ^ k) :
    ((v % 2 ^ k : Nat) : Int) - (if s then (2 : Int) ^ k else 0) = (v : Int) - (if s then (2 : Int) ^ m else 0) := by
  have hpow : (2 : Nat) ^ m = 2 ^ k * 2 ^ (m - k) := by rw [← Nat.pow_add]; congr 1; omega
  have hpk := Nat.two_pow_pos k
  have hpm : (2 : Nat) ^ k < 2 ^ m := Nat.pow_lt_pow_right (by omega) hmk
  have c1 : ((2 : Nat) ^ k : Int) = (2 : Int) ^ k := by push_cast; rfl
  have c2 : ((2 : Nat) ^ m : Int) = (2 : Int) ^ m := by push_cast; rfl
  cases s with
  | false =>
    simp only [Bool.false_eq_true, if_false, sub_zero] at *
    have : v < 2 ^ k := by zify; exact hhi
    rw [Nat.mod_eq_of_lt this]
  | true =>
    simp only [if_true] at *
    rw [← c1, ← c2] at *
    have h1 : 2 ^ m - 2 ^ k ≤ v := by omega
    have h2 : v = (v - (2 ^ m - 2 ^ k)) + 2 ^ k * (2 ^ (m - k) - 1) := by
      have : 2 ^ k * (2 ^ (m - k) - 1) = 2 ^ m - 2 ^ k := by rw [Nat.mul_sub, Nat.mul_one, ← hpow]
      omega
    have h3 : v % 2 ^ k = v - (2 ^ m - 2 ^ k) := by
      conv_lhs => rw [h2]
      rw [Nat.add_mul_mod_self_left]
      exact Nat.mod_eq_of_lt (by omega)
    rw [h3]
    omega

/-- **C22 (signed, values that fit).** Resizing a signed integer of any ciphertext kind to any width `new ≥ 1` never panics,
and if the value lies in `[-2^(new-1), 2^(new-1))` (always so when the width does not shrink) it is preserved. -/
theorem C22_signed_fits {ctx : Ctx} (h : CtxOk ctx) {t : CtType} {ns : List Nat} (hn : AreNodes ctx.circuit t ns) (h0 : 1 ≤ ns.length)
    {new : Nat} (hw : 1 ≤ new) :
    ∃ ctx' ms, resize .signed t ns new ctx = some (ctx', ms) ∧ CtxOk ctx' ∧ Extends ctx.circuit ctx'.circuit ∧
      ms.length = new ∧ ∀ deg cells bits, Holds deg cells ctx.circuit t ns bits →
        ∃ out, Holds deg cells ctx'.circuit t ms out ∧
          (ns.length ≤ new ∨ (-(2 : Int) ^ (new - 1) ≤ valSigned bits ∧ valSigned bits < (2 : Int) ^ (new - 1)) →
            valSigned out = valSigned bits) := by
  obtain ⟨ctx', ms, e1, e2, e3, _, e5, e6⟩ := resize_ok (d := 0) (io := fun _ _ => True) h (sign := .signed) (Or.inl rfl) hn h0 hw
  refine ⟨ctx', ms, e1, e2, extends_of e3.ext h.live, e5, fun deg cells bits hb => ⟨_, e6 deg cells bits hb, ?_⟩⟩
  have hlen := hb.length_eq
  intro hor
  rcases Nat.lt_or_ge new bits.length with hlt | hge
  · rw [resized_signed_shrink bits hw hlt]
    rcases hor with hc | ⟨hlo, hhi⟩
    · omega
    · unfold valSigned at hlo hhi ⊢
      exact shrink_arith bits.length (new - 1) (by omega) (valLE bits) (valLE_lt bits) _ hlo hhi
  · exact resized_signed_grow bits (by omega) hge

/-- **C22 (signed, what shrinking does).** Otherwise the result keeps the low `new - 1` bits and the original sign. -/
theorem C22_signed_shrink_partial {ctx : Ctx} (h : CtxOk ctx) {t : CtType} {ns : List Nat} (hn : AreNodes ctx.circuit t ns)
    {new : Nat} (hw : 1 ≤ new) (hlt : new < ns.length) :
    ∃ ctx' ms, resize .signed t ns new ctx = some (ctx', ms) ∧ ∀ deg cells bits, Holds deg cells ctx.circuit t ns bits →
        ∃ out, Holds deg cells ctx'.circuit t ms out ∧
          valSigned out = ((valLE bits % 2 ^ (new - 1) : Nat) : Int) - (if valSigned bits < 0 then (2 : Int) ^ (new - 1) else 0) := by
  obtain ⟨ctx', ms, e1, _, _, _, _, e6⟩ := resize_ok (d := 0) (io := fun _ _ => True) h (sign := .signed) (Or.inl rfl) hn (by omega) hw
  refine ⟨ctx', ms, e1, fun deg cells bits hb => ⟨_, e6 deg cells bits hb, ?_⟩⟩
  have hlen := hb.length_eq
  rw [resized_signed_shrink bits hw (by omega)]
  have hs : bits.getLastD false = decide (valSigned bits < 0) := by
    have hlt2 := valLE_lt (bits.take (bits.length - 1))
    have hsp := valSigned_split bits (by omega)
    rw [List.length_take, Nat.min_eq_left (by omega)] at hlt2
    rw [hsp]
    have c1 : ((2 : Nat) ^ (bits.length - 1) : Int) = (2 : Int) ^ (bits.length - 1) := by push_cast; rfl
    cases bits.getLastD false
    · simp
    · simp only [if_true]; rw [← c1]; symm; rw [decide_eq_true_iff]; omega
  rw [hs]
  simp

/-- **C22 (violated).** Shrinking a signed integer does not keep its value modulo `2^new`: the 4-bit integer -8 resized to
2 bits becomes -2, while -8 is 0 modulo 4. Shrinking an unsigned integer of kind L1 LWE or L1 GLEV panics. -/
theorem C22_signed_violated : ∃ ctx ctx' ms out, CtxOk ctx ∧ AreNodes ctx.circuit .ggsw1 [0, 0, 0, 1] ∧
    resize .signed .ggsw1 [0, 0, 0, 1] 2 ctx = some (ctx', ms) ∧
    (∀ deg cells, Holds deg cells ctx.circuit .ggsw1 [0, 0, 0, 1] [false, false, false, true]) ∧
    (∀ deg cells, Holds deg cells ctx'.circuit .ggsw1 ms out) ∧
    valSigned [false, false, false, true] = -8 ∧ valSigned out = -2 ∧ ((-8 : Int) - (-2)) % 2 ^ 2 ≠ 0 := by
  have e0 : ∀ deg cells, FEval deg cells (⟨[some .zeroGgsw1, some .oneGgsw1], []⟩ : FGraph) 0 (ctOf .ggsw1 false) :=
    fun deg cells => .op (fun _ => .lwe0 false) rfl (by intro e he; cases he) rfl
  have e1 : ∀ deg cells, FEval deg cells (⟨[some .zeroGgsw1, some .oneGgsw1], []⟩ : FGraph) 1 (ctOf .ggsw1 true) :=
    fun deg cells => .op (fun _ => .lwe0 false) rfl (by intro e he; cases he) rfl
  refine ⟨⟨⟨[some .zeroGgsw1, some .oneGgsw1], []⟩, [none, none, none, none], [none, none, none, none]⟩, _, _, [false, true],
    ⟨(by intro e he; cases he), rfl, rfl, ?_, ?_⟩, ?_, rfl, ?_, ?_, by decide, by decide, by decide⟩
  · intro t n h; cases t <;> cases h
  · intro t n h; cases t <;> cases h
  · intro n hn
    simp only [List.mem_cons, List.not_mem_nil, or_false] at hn
    rcases hn with rfl | rfl | rfl | rfl
    · exact ⟨_, rfl, rfl⟩
    · exact ⟨_, rfl, rfl⟩
    · exact ⟨_, rfl, rfl⟩
    · exact ⟨_, rfl, rfl⟩
  · exact fun deg cells => .cons (e0 deg cells) (.cons (e0 deg cells) (.cons (e0 deg cells) (.cons (e1 deg cells) .nil)))
  · exact fun deg cells => .cons (e0 deg cells) (.cons (e1 deg cells) .nil)

/-- **C22 (violated for L1 GLEV and L1 LWE).** Unsigned resizing of these kinds panics, whatever the widths. -/
theorem C22_unsigned_kinds_violated (ns : List Nat) (new : Nat) :
    (∀ ctx, CtxOk ctx → resize .unsigned .glev1 ns new ctx = none) ∧ resize .unsigned .lwe1 ns new Ctx.new = none := by
  refine ⟨?_, rfl⟩
  intro ctx h
  simp only [resize, resizeConfig]
  rw [(C71_violated.1 ctx h).2]
  rfl

/-! ### C23: comparisons -/

/-- **C23 (unsigned).** Comparing unsigned integers of any widths (not both zero) never panics, keeps the existing circuit,
and gives the comparison of the values. -/
theorem C23_unsigned {lib : BddLib} (hlib : BddLibOk lib) {g : FGraph} (hl : Live g) {a b : List Nat} (ha : AreNodes g .ggsw1 a)
    (hb : AreNodes g .ggsw1 b) (h0 : 0 < max a.length b.length) (hv : 2 * max a.length b.length < maxVars) (greater orEqual : Bool) (mode : MuxMode) :
    ∃ g' r, cmp lib .unsigned greater orEqual a b mode g = some (g', r) ∧ Live g' ∧ Extends g g' ∧
      ∀ deg cells va vb, Holds deg cells g .ggsw1 a va → Holds deg cells g .ggsw1 b vb →
        ∃ c, FEval deg cells g' r (ctOf (modeType mode) c) ∧ (c = true ↔ cmpSpec greater orEqual (valLE va) (valLE vb)) := by
  obtain ⟨f, hf, _⟩ := C06_unsigned_compare (List.replicate (max b.length a.length) false) (List.replicate (max b.length a.length) false)
    greater orEqual (by simp) (by simp; omega) (by simp; omega)
  rw [List.length_replicate] at hf
  obtain ⟨g', r, e1, e2, _, e4⟩ := insertCmp_ok (d := 0) (io := fun _ _ => True) hlib hl ha hb (gen := fun n => genCompare .unsigned n greater orEqual) hf mode
  refine ⟨g', r, e1, e2.live, extends_of e2.ext hl, ?_⟩
  intro deg cells va vb hva hvb
  have l1 := hva.length_eq
  have l2 := hvb.length_eq
  refine ⟨_, e4 deg cells va vb hva hvb, ?_⟩
  have la : (padTo (max vb.length va.length) va).length = max b.length a.length := by rw [padTo_length (by omega)]; omega
  have lb : (padTo (max vb.length va.length) vb).length = max b.length a.length := by rw [padTo_length (by omega)]; omega
  obtain ⟨f', hf', hs⟩ := C06_unsigned_compare (padTo (max vb.length va.length) va) (padTo (max vb.length va.length) vb)
    greater orEqual (by omega) (by omega) (by omega)
  rw [la, hf] at hf'
  cases hf'
  rw [hs, padTo_val, padTo_val]

/-- **C23 (equality, unsigned).** `==` on unsigned integers of any widths. -/
theorem C23_unsigned_eq {lib : BddLib} (hlib : BddLibOk lib) {g : FGraph} (hl : Live g) {a b : List Nat} (ha : AreNodes g .ggsw1 a)
    (hb : AreNodes g .ggsw1 b) (h0 : 0 < max a.length b.length) (hv : 2 * max a.length b.length < maxVars) (mode : MuxMode) :
    ∃ g' r, Fluent.eq lib a b mode g = some (g', r) ∧ Live g' ∧ Extends g g' ∧
      ∀ deg cells va vb, Holds deg cells g .ggsw1 a va → Holds deg cells g .ggsw1 b vb →
        ∃ c, FEval deg cells g' r (ctOf (modeType mode) c) ∧ (c = true ↔ valLE va = valLE vb) := by
  obtain ⟨f, hf, _⟩ := C05_equal (List.replicate (max b.length a.length) false) (List.replicate (max b.length a.length) false)
    (by simp) (by simp; omega) (by simp; omega)
  rw [List.length_replicate] at hf
  obtain ⟨g', r, e1, e2, _, e4⟩ := insertCmp_ok (d := 0) (io := fun _ _ => True) hlib hl ha hb hf mode
  refine ⟨g', r, e1, e2.live, extends_of e2.ext hl, ?_⟩
  intro deg cells va vb hva hvb
  have l1 := hva.length_eq
  have l2 := hvb.length_eq
  refine ⟨_, e4 deg cells va vb hva hvb, ?_⟩
  have la : (padTo (max vb.length va.length) va).length = max b.length a.length := by rw [padTo_length (by omega)]; omega
  have lb : (padTo (max vb.length va.length) vb).length = max b.length a.length := by rw [padTo_length (by omega)]; omega
  obtain ⟨f', hf', hs⟩ := C05_equal (padTo (max vb.length va.length) va) (padTo (max vb.length va.length) vb) (by omega) (by omega) (by omega)
  rw [la, hf] at hf'
  cases hf'
  rw [hs, padTo_val, padTo_val]

/-- **C23 (inequality, unsigned).** `!=` on unsigned integers of any widths. -/
theorem C23_unsigned_neq {lib : BddLib} (hlib : BddLibOk lib) {g : FGraph} (hl : Live g) {a b : List Nat} (ha : AreNodes g .ggsw1 a)
    (hb : AreNodes g .ggsw1 b) (h0 : 0 < max a.length b.length) (hv : 2 * max a.length b.length < maxVars) (mode : MuxMode) :
    ∃ g' r, Fluent.neq lib a b mode g = some (g', r) ∧ Live g' ∧ Extends g g' ∧
      ∀ deg cells va vb, Holds deg cells g .ggsw1 a va → Holds deg cells g .ggsw1 b vb →
        ∃ c, FEval deg cells g' r (ctOf (modeType mode) c) ∧ (c = true ↔ valLE va ≠ valLE vb) := by
  obtain ⟨f, hf, _⟩ := C05_not_equal (List.replicate (max b.length a.length) false) (List.replicate (max b.length a.length) false)
    (by simp) (by simp; omega) (by simp; omega)
  rw [List.length_replicate] at hf
  obtain ⟨g', r, e1, e2, _, e4⟩ := insertCmp_ok (d := 0) (io := fun _ _ => True) hlib hl ha hb hf mode
  refine ⟨g', r, e1, e2.live, extends_of e2.ext hl, ?_⟩
  intro deg cells va vb hva hvb
  have l1 := hva.length_eq
  have l2 := hvb.length_eq
  refine ⟨_, e4 deg cells va vb hva hvb, ?_⟩
  have la : (padTo (max vb.length va.length) va).length = max b.length a.length := by rw [padTo_length (by omega)]; omega
  have lb : (padTo (max vb.length va.length) vb).length = max b.length a.length := by rw [padTo_length (by omega)]; omega
  obtain ⟨f', hf', hs⟩ := C05_not_equal (padTo (max vb.length va.length) va) (padTo (max vb.length va.length) vb) (by omega) (by omega) (by omega)
  rw [la, hf] at hf'
  cases hf'
  rw [hs, padTo_val, padTo_val]

/-- **C23 (signed, equal widths).** Comparing signed integers of the same width gives the comparison of the values. -/
theorem C23_signed_partial {lib : BddLib} (hlib : BddLibOk lib) {g : FGraph} (hl : Live g) {a b : List Nat} (ha : AreNodes g .ggsw1 a)
    (hb : AreNodes g .ggsw1 b) (hab : a.length = b.length) (h0 : 0 < a.length) (hv : 2 * a.length < maxVars) (greater orEqual : Bool) (mode : MuxMode) :
    ∃ g' r, cmp lib .signed greater orEqual a b mode g = some (g', r) ∧ Live g' ∧ Extends g g' ∧
      ∀ deg cells va vb, Holds deg cells g .ggsw1 a va → Holds deg cells g .ggsw1 b vb →
        ∃ c, FEval deg cells g' r (ctOf (modeType mode) c) ∧ (c = true ↔ cmpSpec greater orEqual (valSigned va) (valSigned vb)) := by
  obtain ⟨f, hf, _⟩ := C07_signed_compare (List.replicate (max b.length a.length) false) (List.replicate (max b.length a.length) false)
    greater orEqual (by simp) (by simp; omega) (by simp; omega)
  rw [List.length_replicate] at hf
  obtain ⟨g', r, e1, e2, _, e4⟩ := insertCmp_ok (d := 0) (io := fun _ _ => True) hlib hl ha hb (gen := fun n => genCompare .signed n greater orEqual) hf mode
  refine ⟨g', r, e1, e2.live, extends_of e2.ext hl, ?_⟩
  intro deg cells va vb hva hvb
  have l1 := hva.length_eq
  have l2 := hvb.length_eq
  refine ⟨_, e4 deg cells va vb hva hvb, ?_⟩
  rw [padTo_self (by omega), padTo_self (by omega)]
  obtain ⟨f', hf', hs⟩ := C07_signed_compare va vb greater orEqual (by omega) (by omega) (by omega)
  rw [← l1, show a.length = max b.length a.length by omega, hf] at hf'
  cases hf'
  exact hs

/-- **C23 (signed, equality at equal widths).** -/
theorem C23_signed_eq_partial {lib : BddLib} (hlib : BddLibOk lib) {g : FGraph} (hl : Live g) {a b : List Nat} (ha : AreNodes g .ggsw1 a)
    (hb : AreNodes g .ggsw1 b) (hab : a.length = b.length) (h0 : 0 < a.length) (hv : 2 * a.length < maxVars) (mode : MuxMode) :
    ∃ g' r, Fluent.eq lib a b mode g = some (g', r) ∧
      ∀ deg cells va vb, Holds deg cells g .ggsw1 a va → Holds deg cells g .ggsw1 b vb →
        ∃ c, FEval deg cells g' r (ctOf (modeType mode) c) ∧ (c = true ↔ valSigned va = valSigned vb) := by
  obtain ⟨g', r, e1, _, _, e4⟩ := C23_unsigned_eq hlib hl ha hb (by omega) (by omega) mode
  refine ⟨g', r, e1, ?_⟩
  intro deg cells va vb hva hvb
  obtain ⟨c, h1, h2⟩ := e4 deg cells va vb hva hvb
  refine ⟨c, h1, h2.trans ?_⟩
  have l1 := hva.length_eq
  have l2 := hvb.length_eq
  constructor
  · intro h; rw [valLE_inj (by omega) h]
  · intro h
    rw [Cpu.valSigned_twos _ (by omega), Cpu.valSigned_twos _ (by omega), ← l1, ← l2, ← hab] at h
    have ba := valLE_lt va
    have bb := valLE_lt vb
    rw [← l1] at ba
    rw [← l2, ← hab] at bb
    unfold twos at h
    have c1 : ((2 : Nat) ^ a.length : Int) = (2 : Int) ^ a.length := by push_cast; rfl
    rw [← c1] at h
    split at h <;> split at h <;> omega

/-- Two one-bit-wide handles: node 0 holds 0, node 1 holds 1. -/
def exConsts : FGraph := ⟨[some .zeroGgsw1, some .oneGgsw1], []⟩

theorem exConsts_live : Live exConsts := by intro e he; cases he
theorem exConsts_zero (deg cells) : FEval deg cells exConsts 0 (ctOf .ggsw1 false) := .op (fun _ => .lwe0 false) rfl (by intro e he; cases he) rfl
theorem exConsts_one (deg cells) : FEval deg cells exConsts 1 (ctOf .ggsw1 true) := .op (fun _ => .lwe0 false) rfl (by intro e he; cases he) rfl
theorem exConsts_nodes {ns : List Nat} (h : ∀ n ∈ ns, n < 2) : AreNodes exConsts .ggsw1 ns := by
  intro n hn
  match n, h n hn with
  | 0, _ => exact ⟨_, rfl, rfl⟩
  | 1, _ => exact ⟨_, rfl, rfl⟩

/-- **C23 (violated, signed integers of different widths).** The narrower operand is zero-extended: comparing the signed
integers -1 (two bits) and 0 (three bits) with `>` answers "greater", and comparing -1 (two bits) with -1 (three bits)
with `==` answers "different". -/
theorem C23_signed_violated {lib : BddLib} (hlib : BddLibOk lib) (mode : MuxMode) :
    (∃ g' r, cmp lib .signed true false [1, 1] [0, 0, 0] mode exConsts = some (g', r) ∧
      ∀ deg cells, Holds deg cells exConsts .ggsw1 [1, 1] [true, true] ∧ Holds deg cells exConsts .ggsw1 [0, 0, 0] [false, false, false] ∧
        FEval deg cells g' r (ctOf (modeType mode) true)) ∧
    (∃ g' r, Fluent.eq lib [1, 1] [1, 1, 1] mode exConsts = some (g', r) ∧
      ∀ deg cells, Holds deg cells exConsts .ggsw1 [1, 1, 1] [true, true, true] ∧ FEval deg cells g' r (ctOf (modeType mode) false)) ∧
    valSigned [true, true] = -1 ∧ valSigned [true, true, true] = -1 ∧ valSigned [false, false, false] = 0 := by
  refine ⟨?_, ?_, by decide, by decide, by decide⟩
  · obtain ⟨f, hf, hs⟩ := C07_signed_compare [true, true, false] [false, false, false] true false rfl (by decide) (by decide)
    obtain ⟨g', r, e1, _, _, e4⟩ := insertCmp_ok (d := 0) (io := fun _ _ => True) hlib exConsts_live (a := [1, 1]) (b := [0, 0, 0]) (exConsts_nodes (by decide)) (exConsts_nodes (by decide))
      (gen := fun n => genCompare .signed n true false) hf mode
    refine ⟨g', r, e1, fun deg cells => ?_⟩
    have h1 : Holds deg cells exConsts .ggsw1 [1, 1] [true, true] := .cons (exConsts_one _ _) (.cons (exConsts_one _ _) .nil)
    have h2 : Holds deg cells exConsts .ggsw1 [0, 0, 0] [false, false, false] :=
      .cons (exConsts_zero _ _) (.cons (exConsts_zero _ _) (.cons (exConsts_zero _ _) .nil))
    refine ⟨h1, h2, ?_⟩
    have := e4 deg cells _ _ h1 h2
    have hb : f (wires (interleave [true, true, false] [false, false, false])) = true := hs.2 (by show valSigned [true, true, false] > valSigned [false, false, false]; decide)
    rw [show interleave (padTo (max [false, false, false].length [true, true].length) [true, true])
      (padTo (max [false, false, false].length [true, true].length) [false, false, false]) =
      interleave [true, true, false] [false, false, false] from rfl, hb] at this
    exact this
  · obtain ⟨g', r, e1, _, _, e4⟩ := C23_unsigned_eq hlib exConsts_live (a := [1, 1]) (b := [1, 1, 1]) (exConsts_nodes (by decide)) (exConsts_nodes (by decide))
      (by decide) (by decide) mode
    refine ⟨g', r, e1, fun deg cells => ?_⟩
    have h1 : Holds deg cells exConsts .ggsw1 [1, 1] [true, true] := .cons (exConsts_one _ _) (.cons (exConsts_one _ _) .nil)
    have h2 : Holds deg cells exConsts .ggsw1 [1, 1, 1] [true, true, true] :=
      .cons (exConsts_one _ _) (.cons (exConsts_one _ _) (.cons (exConsts_one _ _) .nil))
    refine ⟨h2, ?_⟩
    obtain ⟨c, hc1, hc2⟩ := e4 deg cells _ _ h1 h2
    have : c = false := by
      cases c with
      | false => rfl
      | true => exact absurd (hc2.1 rfl) (by decide)
    rwa [this] at hc1

example : ∃ g' r, cmp shannonLib .unsigned true false [1, 1] [0, 1, 0] .glwe exConsts = some (g', r) ∧ Live g' ∧ Extends exConsts g' ∧
      ∀ deg cells va vb, Holds deg cells exConsts .ggsw1 [1, 1] va → Holds deg cells exConsts .ggsw1 [0, 1, 0] vb →
        ∃ c, FEval deg cells g' r (ctOf (modeType .glwe) c) ∧ (c = true ↔ cmpSpec true false (valLE va) (valLE vb)) :=
  C23_unsigned bddLibOk_shannon exConsts_live (exConsts_nodes (by decide)) (exConsts_nodes (by decide)) (by decide) (by decide) _ _ _

end Spf.Props
