import Verif.Spec.CellAlu
import Verif.Proof.Alu
import Verif.Props.MulWidths
/-! Instructions on cells compute what the instructions on bits (`Cpu`) compute on the bits the cells encrypt. -/
namespace Spf.Cells
open Spf.Spec Spf.Cpu Spf.Fluent

/-- the cells of a register -/
def regCells : CReg → List Nat
  | .plain _ _ => []
  | .cells cs => cs

/-- an action of an instruction has the result `t`, and uses only cells in `S` -/
def ActSim (μ : Nat → Bool) (S : Nat → Prop) (a : Except Err Act) (t : Except Err (List Reg)) : Prop :=
  match a with
  | .error e => t = .error e
  | .ok (.done rs) => t = .ok (rs.map (CReg.plainOf μ)) ∧ ∀ r ∈ rs, ∀ c ∈ regCells r, S c
  | .ok (.spawn job rs) => Job.Ok job ∧ (∀ c ∈ job.ins, S c) ∧ ∀ μ' outs, outs.length = job.size → outs.map μ' = Job.bits μ job →
      t = .ok ((rs outs).map (CReg.plainOf μ')) ∧ ∀ r ∈ rs outs, ∀ c ∈ regCells r, c ∈ outs

variable {μ : Nat → Bool} {S : Nat → Prop}

@[simp] theorem plainOf_plain (v w : Nat) : CReg.plainOf μ (.plain v w) = .plain v w := rfl
@[simp] theorem plainOf_cells (cs : List Nat) : CReg.plainOf μ (.cells cs) = .cipher (cs.map μ) := rfl

theorem width_plainOf (r : CReg) : (CReg.plainOf μ r).width = r.width := by cases r <;> simp [Reg.width, CReg.width]

theorem lift_plainOf (h0 : μ 0 = false) (h1 : μ 1 = true) (r : CReg) : (lift r).map μ = Cpu.lift (CReg.plainOf μ r) := by
  cases r with
  | plain v w =>
    simp only [lift, plainOf_plain, Cpu.lift, List.map_map]
    rw [List.map_congr_left (g := id), List.map_id]
    intro b _
    cases b <;> simp [bitCell, zeroCell, oneCell, h0, h1]
  | cells cs => rfl

theorem lift_cells (hz : S 0) (ho : S 1) {r : CReg} (h : ∀ c ∈ regCells r, S c) : ∀ c ∈ lift r, S c := by
  cases r with
  | plain v w =>
    intro c hc
    obtain ⟨b, _, rfl⟩ := List.mem_map.1 hc
    cases b
    · exact hz
    · exact ho
  | cells cs => exact h

theorem lift_len (r : CReg) : (lift r).length = r.width := by cases r <;> simp [lift, CReg.width, valueBits]

theorem checkWidth_plainOf (a b : CReg) : Cpu.checkWidth (CReg.plainOf μ a) (CReg.plainOf μ b) = checkWidth a b := by
  simp only [Cpu.checkWidth, checkWidth, width_plainOf]

theorem zipNodes_map (a b : List Nat) : (zipNodes a b).map μ = zipBits (a.map μ) (b.map μ) := by
  induction a generalizing b with
  | nil => rfl
  | cons x xs ih =>
    cases b with
    | nil => rfl
    | cons y ys =>
      have := ih ys
      simp only [zipNodes, zipBits, List.zip_cons_cons, List.flatMap_cons, List.map_append, List.map_cons, List.map_nil] at this ⊢
      rw [this]

theorem zipNodes_mem {a b : List Nat} {c : Nat} (h : c ∈ zipNodes a b) : c ∈ a ∨ c ∈ b := by
  simp only [zipNodes, List.mem_flatMap] at h
  obtain ⟨p, hp, hc⟩ := h
  simp only [List.mem_cons, List.not_mem_nil, or_false] at hc
  rcases hc with rfl | rfl
  · exact Or.inl (List.of_mem_zip hp).1
  · exact Or.inr (List.of_mem_zip hp).2

/-- plaintext results: all registers are plaintexts -/
theorem onPlain_sim {r : Except Err (List Reg)} (h : ∀ rs, r = .ok rs → ∀ v ∈ rs, v.isPlain = true) : ActSim μ S (onPlain r) r := by
  cases r with
  | error e => rfl
  | ok rs =>
    have h := h rs rfl
    refine ⟨?_, ?_⟩
    · congr 1
      rw [List.map_map]
      conv_lhs => rw [← List.map_id rs]
      refine List.map_congr_left fun v hv => ?_
      cases v with
      | plain v w => rfl
      | cipher b => exact absurd (h _ hv) (by simp [Reg.isPlain])
    · intro r hr c hc
      obtain ⟨v, hv, rfl⟩ := List.mem_map.1 hr
      cases v with
      | plain v w => simp [regCells] at hc
      | cipher b => exact absurd (h _ hv) (by simp [Reg.isPlain])

theorem one_plain {r : Except Err Reg} (h : ∀ v, r = .ok v → v.isPlain = true) : ∀ rs, Cpu.one r = .ok rs → ∀ v ∈ rs, v.isPlain = true := by
  intro rs hr v hv
  cases r with
  | error e => cases hr
  | ok x => cases hr; rw [List.mem_singleton.1 hv]; exact h _ rfl

theorem two_plain {r : Except Err (Reg × Reg)} (h : ∀ v, r = .ok v → v.1.isPlain = true ∧ v.2.isPlain = true) : ∀ rs, Cpu.two r = .ok rs → ∀ v ∈ rs, v.isPlain = true := by
  intro rs hr v hv
  cases r with
  | error e => cases hr
  | ok x =>
    obtain ⟨x, y⟩ := x
    cases hr
    simp only [List.mem_cons, List.not_mem_nil, or_false] at hv
    have := h _ rfl
    rcases hv with rfl | rfl
    · exact this.1
    · exact this.2

theorem bind_plain {α β : Type} {x : Except Err α} {f : α → Except Err β} {v : β} (h : (x >>= f) = .ok v) : ∃ y, x = .ok y ∧ f y = .ok v := by
  cases x with
  | error e => cases h
  | ok y => exact ⟨y, rfl, h⟩

theorem execBin_plain (f : Bin) (x w y w' : Nat) : ∀ v, execBin f (.plain x w) (.plain y w') = .ok v → v.isPlain = true := by
  intro v h
  cases f <;> simp only [execBin, Cpu.add, Cpu.sub, Cpu.and, Cpu.or, Cpu.xor, Cpu.mul, Cpu.cmp] at h <;>
    (obtain ⟨_, _, h⟩ := bind_plain h; obtain ⟨_, _, h⟩ := bind_plain h; cases h; rfl)

theorem carry_plain (sub : Bool) (x w y w' z w'' : Nat) : ∀ v, (if sub then subB (.plain x w) (.plain y w') (.plain z w'') else addC (.plain x w) (.plain y w') (.plain z w'')) = .ok v →
    v.1.isPlain = true ∧ v.2.isPlain = true := by
  intro v h
  cases sub <;> simp only [Bool.false_eq_true, if_false, if_true, addC, subB] at h <;>
    (obtain ⟨_, _, h⟩ := bind_plain h
     split at h
     · cases h
     · obtain ⟨_, _, h⟩ := bind_plain h; cases h; exact ⟨rfl, rfl⟩)

theorem circuitJob_sim {opt : Bool} {gen : Option (List BddFn)} {arity : Nat} {ins : List Nat} {rs : List Nat → List CReg} {f : List Bool → List Reg}
    (hne : ∀ fs, gen = some fs → fs ≠ []) (hS : ∀ c ∈ ins, S c)
    (hr : ∀ μ' outs, outs ≠ [] → f (outs.map μ') = (rs outs).map (CReg.plainOf μ') ∧ ∀ r ∈ rs outs, ∀ c ∈ regCells r, c ∈ outs) :
    ActSim μ S (circuitJob opt gen arity ins rs) (match runCircuit gen arity (ins.map μ) with | .error e => .error e | .ok r => .ok (f r)) := by
  cases gen with
  | none => rfl
  | some fs =>
    simp only [circuitJob, runCircuit, Mul.applyCircuit, List.length_map]
    by_cases ha : arity ≠ ins.length
    · rw [if_pos ha, if_pos ha]; rfl
    · rw [if_neg ha, if_neg ha]
      refine ⟨hne _ rfl, hS, fun μ' outs hl ho => ?_⟩
      have hn : outs ≠ [] := by
        intro h
        rw [h] at hl
        have : fs = [] := List.eq_nil_of_length_eq_zero (by simpa [Job.size] using hl.symm)
        exact hne _ rfl this
      obtain ⟨h1, h2⟩ := hr μ' outs hn
      refine ⟨?_, h2⟩
      simp only
      rw [← h1, ho]; rfl

theorem cmp_ne (c : Cmp) (n : Nat) : ∀ fs, c.circuit n = some fs → fs ≠ [] := by
  intro fs h
  cases c <;> simp only [Cmp.circuit, Arith.compareEqual, Arith.compareOrMaybeEqual, Arith.compareOrMaybeEqualSigned] at h <;>
    (split at h; · cases h
     split at h; · cases h
     cases h; simp)

theorem adder_ne (n m : Nat) (c : Bool) : ∀ fs, Arith.rippleCarryAdder n m c = some fs → fs ≠ [] := by
  rintro fs h rfl
  unfold Arith.rippleCarryAdder at h
  by_cases h1 : m = 0
  · rw [if_pos h1] at h; cases h
  rw [if_neg h1] at h
  by_cases h2 : n = 0
  · rw [if_pos h2] at h; cases h
  rw [if_neg h2] at h
  simp only at h
  generalize hk : (if c = true then 1 else 0) = k at h
  by_cases h3 : m + n + k ≥ maxVars
  · rw [if_pos h3] at h; cases h
  rw [if_neg h3] at h
  simp at h

theorem sub_ne (n : Nat) (c : Bool) : ∀ fs, Arith.fullSubtractor n c = some fs → fs ≠ [] := by
  rintro fs h rfl
  unfold Arith.fullSubtractor at h
  by_cases h2 : n = 0
  · rw [if_pos h2] at h; cases h
  rw [if_neg h2] at h
  simp only at h
  generalize hk : (if c = true then 1 else 0) = k at h
  by_cases h3 : 2 * n + k ≥ maxVars
  · rw [if_pos h3] at h; cases h
  rw [if_neg h3] at h
  simp at h

/-- the bits of the result of a two-operand circuit -/
def binBits : Bin → List Bool → List Bool
  | .add, r | .sub, r => r.dropLast
  | _, r => r

theorem binGen_ne {w : Nat} (hw : 1 ≤ w) {f : Bin} {opt : Bool} {gen : Option (List BddFn)} (h : binGen w f = some (opt, gen)) : ∀ fs, gen = some fs → fs ≠ [] := by
  intro fs hf
  cases f <;> simp only [binGen, Option.some.injEq, Prod.mk.injEq, reduceCtorEq] at h <;> obtain ⟨rfl, rfl⟩ := h
  · exact adder_ne _ _ _ _ hf
  · exact sub_ne _ _ _ hf
  · simp only [Arith.makeAndCircuit] at hf
    split at hf
    · cases hf
    · cases hf; simp; omega
  · simp only [Arith.makeOrCircuit] at hf
    split at hf
    · cases hf
    · cases hf; simp; omega
  · exact cmp_ne _ _ _ hf

theorem getLastD_mem {d : Nat} : ∀ {l : List Nat}, l ≠ [] → l.getLastD d ∈ l := by
  intro l h
  rw [List.getLastD_eq_getLast?, List.getLast?_eq_getLast_of_ne_nil h]
  exact List.getLast_mem h

theorem getLastD_map {d : Nat} {b : Bool} (g : Nat → Bool) {l : List Nat} (h : l ≠ []) : (l.map g).getLastD b = g (l.getLastD d) := by
  rw [List.getLastD_eq_getLast?, List.getLastD_eq_getLast?, List.getLast?_map, List.getLast?_eq_getLast_of_ne_nil h]
  rfl

theorem checkWidth_pos {a b : CReg} (h : checkWidth a b = .ok ()) : a.width = b.width ∧ 1 ≤ a.width ∧ a.width ≤ 128 := by
  unfold checkWidth at h
  by_cases h1 : a.width ≠ b.width
  · rw [if_pos h1] at h; cases h
  · rw [if_neg h1] at h
    by_cases h2 : a.width < 1 ∨ a.width > 128
    · rw [if_pos h2] at h; cases h
    · omega

/-- a pair of registers that are not both plaintexts -/
def Mixed (a b : CReg) : Prop := ∀ x w y w', ¬(a = .plain x w ∧ b = .plain y w')

theorem execBin_mixed {f : Bin} {a b : CReg} (hm : Mixed a b) (hc : checkWidth a b = .ok ()) {opt : Bool} {gen : Option (List BddFn)} (hg : binGen a.width f = some (opt, gen)) :
    execBin f (CReg.plainOf μ a) (CReg.plainOf μ b) =
      (match runCircuit gen (2 * a.width) (zipBits (Cpu.lift (CReg.plainOf μ a)) (Cpu.lift (CReg.plainOf μ b))) with
      | .error e => .error e
      | .ok r => .ok (.cipher (binBits f r))) := by
  have hw := checkWidth_plainOf (μ := μ) a b
  rw [hc] at hw
  cases f <;> simp only [binGen, Option.some.injEq, Prod.mk.injEq, reduceCtorEq] at hg <;> obtain ⟨_, rfl⟩ := hg <;>
    simp only [execBin, Cpu.add, Cpu.sub, Cpu.and, Cpu.or, Cpu.cmp, hw, bind_ok, addCircuit, subCircuit, width_plainOf] <;>
    (cases a <;> cases b <;> first
      | exact absurd ⟨rfl, rfl⟩ (hm _ _ _ _)
      | (simp only [plainOf_plain, plainOf_cells, Option.isSome_none, Option.getD_none, List.nil_append, Bool.false_eq_true, if_false, Nat.add_zero]
         cases runCircuit _ _ _ <;> rfl))

/-- The low bits of a product, from the bits of the product. -/
theorem low_bits {vl vh : List Bool} {x : Nat} (h : valLE (vl ++ vh) = x) : vl = (List.range vl.length).map fun i => x.testBit i := by
  refine List.ext_getElem? fun i => ?_
  by_cases hi : i < vl.length
  · have := valLE_testBit (vl ++ vh) i
    rw [h] at this
    rw [List.getElem?_map, List.getElem?_range hi, Option.map_some, this]
    rw [List.getD_eq_getElem?_getD, List.getElem?_append_left hi, List.getElem?_eq_getElem hi]; rfl
  · rw [List.getElem?_eq_none (by omega), List.getElem?_eq_none (by simpa using hi)]


theorem replicate_mul (w : Nat) : (∃ r, Mul.appendUintMultiply (List.replicate w false) (List.replicate w false) = some r) ↔ MulWidths w w := by
  have h := Props.C10_widths (List.replicate w false) (List.replicate w false)
  rw [List.length_replicate] at h
  unfold Mul.appendUintMultiply
  by_cases hw : MulWidths w w
  · obtain ⟨r, h1, _⟩ := h.1 hw
    rw [h1]; exact ⟨fun _ => hw, fun _ => ⟨_, rfl⟩⟩
  · rw [h.2 hw]; exact ⟨fun h => (by obtain ⟨_, h⟩ := h; cases h), fun h => absurd h hw⟩

/-- the low half of a product -/
theorem uint_low {x y : List Bool} (hl : x.length = y.length) (hw : MulWidths x.length x.length) :
    ∃ hi, Mul.appendUintMultiply x y = some ((List.range x.length).map fun i => (valLE x * valLE y).testBit i, hi) := by
  obtain ⟨r, h1, h2, h3⟩ := (Props.C10_widths x y).1 (by rw [← hl]; exact hw)
  refine ⟨r.drop x.length, ?_⟩
  unfold Mul.appendUintMultiply
  rw [h1, Option.map_some]
  have hlt : (r.take x.length).length = x.length := by rw [List.length_take]; omega
  have := low_bits (vl := r.take x.length) (vh := r.drop x.length) (x := valLE x * valLE y) (by rw [List.take_append_drop]; exact h3)
  rw [hlt] at this
  rw [← this]

theorem mul_sim (h0 : μ 0 = false) (h1 : μ 1 = true) (hz : S 0) (ho : S 1) {a b : CReg} (ha : ∀ c ∈ regCells a, S c) (hb : ∀ c ∈ regCells b, S c) (hm : Mixed a b) (hc : checkWidth a b = .ok ()) :
    ActSim μ S (mul a b) (Cpu.one (Cpu.mul (CReg.plainOf μ a) (CReg.plainOf μ b))) := by
  obtain ⟨p1, p2, p3⟩ := checkWidth_pos hc
  have hw := checkWidth_plainOf (μ := μ) a b
  rw [hc] at hw
  have hmask : ∃ m, (if a.width < 128 then Cpu.mask a.width else .ok (two128 - 1)) = Except.ok m := by
    by_cases h : a.width < 128
    · rw [if_pos h]; exact ⟨_, mask_ok h⟩
    · rw [if_neg h]; exact ⟨_, rfl⟩
  obtain ⟨m, hmask⟩ := hmask
  have la := congrArg List.length (lift_plainOf (μ := μ) h0 h1 a)
  have lb := congrArg List.length (lift_plainOf (μ := μ) h0 h1 b)
  rw [List.length_map, lift_len] at la lb
  have htgt : Cpu.mul (CReg.plainOf μ a) (CReg.plainOf μ b) = (match Mul.appendUintMultiply (Cpu.lift (CReg.plainOf μ a)) (Cpu.lift (CReg.plainOf μ b)) with
      | none => .error .panic
      | some r => .ok (.cipher r.1)) := by
    simp only [Cpu.mul, hw, bind_ok, width_plainOf, hmask]
    cases a <;> cases b <;> first
      | exact absurd ⟨rfl, rfl⟩ (hm _ _ _ _)
      | (simp only [plainOf_plain, plainOf_cells]; cases Mul.appendUintMultiply _ _ <;> rfl)
  rw [htgt]
  unfold mul
  by_cases hmw : MulWidths a.width a.width
  · obtain ⟨r, hr⟩ := (replicate_mul a.width).2 hmw
    rw [hr]
    obtain ⟨hi, hu⟩ := uint_low (x := Cpu.lift (CReg.plainOf μ a)) (y := Cpu.lift (CReg.plainOf μ b)) (by omega) (by rw [← la]; exact hmw)
    rw [hu]
    simp only
    have mem : ∀ c ∈ lift a ++ lift b, S c := fun c h => (List.mem_append.1 h).elim (lift_cells hz ho ha c) (lift_cells hz ho hb c)
    cases a with
    | cells cs =>
      refine ⟨⟨?_, ?_⟩, mem, fun μ' outs hlo hob => ⟨?_, by simp [regCells]⟩⟩
      · rw [lift_len, ← p1]; rfl
      · exact hmw
      · simp only [List.map_cons, List.map_nil, plainOf_cells, hob, Job.bits, Cpu.one, lift_plainOf h0 h1 b]
        rw [show (Cpu.lift (Reg.cipher (List.map μ cs))) = cs.map μ from rfl, List.length_map]
    | plain x w =>
      refine ⟨⟨?_, ?_⟩, fun c h => mem c (List.mem_append.2 (List.mem_append.1 (show c ∈ lift b ++ lift (.plain x w) from h)).symm), fun μ' outs hlo hob => ⟨?_, by simp [regCells]⟩⟩
      · rw [lift_len, lift_len, p1]
      · rw [lift_len, ← p1]; exact hmw
      · simp only [List.map_cons, List.map_nil, plainOf_cells, hob, Job.bits, Cpu.one, lift_plainOf h0 h1]
        rw [← la, lift_len, ← p1, Nat.mul_comm]
  · have hn : Mul.appendUintMultiply (List.replicate a.width false) (List.replicate a.width false) = none := by
      cases h : Mul.appendUintMultiply (List.replicate a.width false) (List.replicate a.width false) with
      | none => rfl
      | some r => exact absurd ((replicate_mul _).1 ⟨r, h⟩) hmw
    rw [hn]
    have : Mul.appendUintMultiply (Cpu.lift (CReg.plainOf μ a)) (Cpu.lift (CReg.plainOf μ b)) = none := by
      unfold Mul.appendUintMultiply
      rw [(Props.C10_widths _ _).2 (by rw [← la, ← lb, ← p1]; exact hmw)]; rfl
    rw [this]
    rfl

theorem bin_sim (h0 : μ 0 = false) (h1 : μ 1 = true) (hz : S 0) (ho : S 1) (f : Bin) {a b : CReg} (ha : ∀ c ∈ regCells a, S c) (hb : ∀ c ∈ regCells b, S c) :
    ActSim μ S (bin f a b) (Cpu.one (execBin f (CReg.plainOf μ a) (CReg.plainOf μ b))) := by
  have hw := checkWidth_plainOf (μ := μ) a b
  cases hc : checkWidth a b with
  | error e =>
    simp only [bin, hc, bind_err]
    rw [hc] at hw
    cases f <;> simp only [execBin, Cpu.add, Cpu.sub, Cpu.mul, Cpu.and, Cpu.or, Cpu.xor, Cpu.cmp, hw, bind_err] <;> rfl
  | ok u =>
    obtain ⟨p1, p2, p3⟩ := checkWidth_pos hc
    by_cases hm : Mixed a b
    · have hbin : bin f a b = (match f with
        | .mul => mul a b
        | .xor => .ok (.spawn (.xor (lift a) (lift b)) fun os => [.cells os])
        | f =>
          match binGen a.width f with
          | none => .error .panic
          | some (opt, gen) => circuitJob opt gen (2 * a.width) (zipNodes (lift a) (lift b)) (binRes f)) := by
        simp only [bin, hc, bind_ok]
        cases a <;> cases b <;> first | exact absurd ⟨rfl, rfl⟩ (hm _ _ _ _) | rfl
      rw [hbin]
      have hl : (lift a).length = (lift b).length := by rw [lift_len, lift_len, p1]
      have hz' : (zipNodes (lift a) (lift b)).map μ = zipBits (Cpu.lift (CReg.plainOf μ a)) (Cpu.lift (CReg.plainOf μ b)) := by
        rw [zipNodes_map, lift_plainOf h0 h1, lift_plainOf h0 h1]
      have hins : ∀ c ∈ zipNodes (lift a) (lift b), S c := fun c hcm => (zipNodes_mem hcm).elim (lift_cells hz ho ha c) (lift_cells hz ho hb c)
      have gen_case : ∀ opt gen, binGen a.width f = some (opt, gen) →
          ActSim μ S (circuitJob opt gen (2 * a.width) (zipNodes (lift a) (lift b)) (binRes f)) (Cpu.one (execBin f (CReg.plainOf μ a) (CReg.plainOf μ b))) := by
        intro opt gen hg
        have h := circuitJob_sim (μ := μ) (S := S) (opt := opt) (arity := 2 * a.width) (rs := binRes f)
          (f := fun r => [.cipher (binBits f r)]) (binGen_ne p2 hg) hins (by
            intro μ' outs hn
            cases f <;> simp only [binGen, reduceCtorEq] at hg <;>
              simp only [binRes, binBits, List.map_cons, List.map_nil, plainOf_cells, List.map_dropLast, true_and, List.mem_singleton, forall_eq, regCells] <;> intro c hcm <;>
              first | exact List.mem_of_mem_dropLast hcm | exact hcm)
        rw [hz'] at h
        rw [execBin_mixed hm hc hg]
        cases hr : runCircuit gen (2 * a.width) (zipBits (Cpu.lift (CReg.plainOf μ a)) (Cpu.lift (CReg.plainOf μ b))) with
        | error e => rw [hr] at h; exact h
        | ok r => rw [hr] at h; exact h
      cases f with
      | mul => exact mul_sim h0 h1 hz ho ha hb hm hc
      | xor =>
        refine ⟨hl, ?_, fun μ' outs hlo hob => ⟨?_, by simp [regCells]⟩⟩
        · intro c hcm
          rcases List.mem_append.1 hcm with h | h
          · exact lift_cells hz ho ha c h
          · exact lift_cells hz ho hb c h
        · have hx : Cpu.xor (CReg.plainOf μ a) (CReg.plainOf μ b) = .ok (.cipher (List.zipWith Bool.xor (Cpu.lift (CReg.plainOf μ a)) (Cpu.lift (CReg.plainOf μ b)))) := by
            simp only [Cpu.xor, hw, hc, bind_ok]
            cases a <;> cases b <;> first | exact absurd ⟨rfl, rfl⟩ (hm _ _ _ _) | rfl
          simp only [execBin, hx, List.map_cons, List.map_nil, plainOf_cells, hob, Job.bits, lift_plainOf h0 h1]
          rfl
      | add => exact gen_case _ _ rfl
      | sub => exact gen_case _ _ rfl
      | and => exact gen_case _ _ rfl
      | or => exact gen_case _ _ rfl
      | cmp c => exact gen_case _ _ rfl
    · simp only [Mixed, not_forall, not_not] at hm
      obtain ⟨x, w, y, w', rfl, rfl⟩ := hm
      simp only [bin, hc, bind_ok, plainOf_plain]
      exact onPlain_sim (one_plain (execBin_plain f x w y w'))

theorem carry_sim (h0 : μ 0 = false) (h1 : μ 1 = true) (hz : S 0) (ho : S 1) (sub : Bool) {a b c : CReg} (ha : ∀ x ∈ regCells a, S x) (hb : ∀ x ∈ regCells b, S x) (hcc : ∀ x ∈ regCells c, S x) :
    ActSim μ S (carry sub a b c) (Cpu.two (if sub then subB (CReg.plainOf μ a) (CReg.plainOf μ b) (CReg.plainOf μ c) else addC (CReg.plainOf μ a) (CReg.plainOf μ b) (CReg.plainOf μ c))) := by
  have hw := checkWidth_plainOf (μ := μ) a b
  cases hc : checkWidth a b with
  | error e =>
    rw [hc] at hw
    simp only [carry, hc, bind_err]
    cases sub <;> simp only [addC, subB, hw, bind_err] <;> rfl
  | ok u =>
    rw [hc] at hw
    obtain ⟨p1, p2, p3⟩ := checkWidth_pos hc
    by_cases hcw : c.width ≠ 1
    · simp only [carry, hc, bind_ok, if_pos hcw]
      cases sub <;> simp only [addC, subB, hw, bind_ok, width_plainOf, if_pos hcw] <;> rfl
    by_cases hm : ∃ x w y w' z w'', a = .plain x w ∧ b = .plain y w' ∧ c = .plain z w''
    · obtain ⟨x, w, y, w', z, w'', rfl, rfl, rfl⟩ := hm
      simp only [carry, hc, bind_ok, if_neg hcw, plainOf_plain]
      exact onPlain_sim (two_plain (carry_plain sub x w y w' z w''))
    · generalize hgen : (if sub then Arith.fullSubtractor a.width true else Arith.rippleCarryAdder a.width a.width true) = gen
      have hcar : carry sub a b c = circuitJob false gen (2 * a.width + 1) (lift c ++ zipNodes (lift a) (lift b)) fun os => [.cells os.dropLast, .cells [os.getLastD zeroCell]] := by
        simp only [carry, hc, bind_ok, if_neg hcw, ← hgen]
        cases a <;> cases b <;> cases c <;> first | exact absurd ⟨_, _, _, _, _, _, rfl, rfl, rfl⟩ hm | rfl
      have htgt : Cpu.two (if sub then subB (CReg.plainOf μ a) (CReg.plainOf μ b) (CReg.plainOf μ c) else addC (CReg.plainOf μ a) (CReg.plainOf μ b) (CReg.plainOf μ c)) =
          (match runCircuit gen (2 * a.width + 1) (Cpu.lift (CReg.plainOf μ c) ++ zipBits (Cpu.lift (CReg.plainOf μ a)) (Cpu.lift (CReg.plainOf μ b))) with
          | .error e => .error e
          | .ok r => .ok [.cipher r.dropLast, .cipher [r.getLastD false]]) := by
        subst hgen
        cases sub <;> simp only [Bool.false_eq_true, if_false, if_true, addC, subB, hw, bind_ok, width_plainOf, if_neg hcw, addCircuit, subCircuit] <;>
          (cases a <;> cases b <;> cases c <;> first
            | exact absurd ⟨_, _, _, _, _, _, rfl, rfl, rfl⟩ hm
            | (simp only [plainOf_plain, plainOf_cells, Option.isSome_some, Option.getD_some, if_true]
               cases runCircuit _ _ _ <;> rfl))
      rw [hcar, htgt]
      have h := circuitJob_sim (μ := μ) (S := S) (opt := false) (arity := 2 * a.width + 1) (gen := gen) (ins := lift c ++ zipNodes (lift a) (lift b))
        (rs := fun os => [.cells os.dropLast, .cells [os.getLastD zeroCell]]) (f := fun r => [.cipher r.dropLast, .cipher [r.getLastD false]]) (by
          intro fs hf
          rw [← hgen] at hf
          cases sub
          · exact adder_ne _ _ _ _ hf
          · exact sub_ne _ _ _ hf) (by
          intro x hx
          rcases List.mem_append.1 hx with h | h
          · exact lift_cells hz ho hcc x h
          · exact (zipNodes_mem h).elim (lift_cells hz ho ha x) (lift_cells hz ho hb x)) (by
          intro μ' outs hn
          refine ⟨?_, ?_⟩
          · simp only [List.map_cons, List.map_nil, plainOf_cells, List.map_dropLast, getLastD_map (d := zeroCell) μ' hn]
          · intro r hr x hx
            simp only [List.mem_cons, List.not_mem_nil, or_false] at hr
            rcases hr with rfl | rfl
            · exact List.mem_of_mem_dropLast hx
            · simp only [regCells, List.mem_singleton] at hx
              rw [hx]; exact getLastD_mem hn)
      rw [List.map_append, zipNodes_map, lift_plainOf h0 h1, lift_plainOf h0 h1, lift_plainOf h0 h1] at h
      exact h

theorem fill_map (dir : Shift.Dir) (fill : Nat) : ∀ (k : Nat) (l : List Nat), (fillVacated dir fill k l).map μ = Cpu.fillVacated dir (μ fill) k (l.map μ)
  | 0, l => rfl
  | k + 1, l => by
    simp only [fillVacated, Cpu.fillVacated, ← fill_map dir fill k l]
    cases dir <;> simp only [List.map_set, List.length_map]

theorem fill_mem {dir : Shift.Dir} {fill : Nat} : ∀ {k : Nat} {l : List Nat} {c : Nat}, c ∈ fillVacated dir fill k l → c = fill ∨ c ∈ l
  | 0, l, c, h => Or.inr h
  | k + 1, l, c, h => by
    simp only [fillVacated] at h
    cases dir <;> simp only at h <;> rcases List.mem_or_eq_of_mem_set h with h | h
    · exact fill_mem h
    · exact Or.inl h
    · exact fill_mem h
    · exact Or.inl h

theorem rotL_map (k : Nat) (l : List Nat) : (Shift.rotL k l).map μ = Shift.rotL k (l.map μ) := by simp [Shift.rotL]
theorem rotR_map (k : Nat) (l : List Nat) : (Shift.rotR k l).map μ = Shift.rotR k (l.map μ) := by simp [Shift.rotR, rotL_map]
theorem rotL_mem {k : Nat} {l : List Nat} {c : Nat} (h : c ∈ Shift.rotL k l) : c ∈ l := by
  simp only [Shift.rotL, List.mem_append] at h
  exact h.elim List.mem_of_mem_drop List.mem_of_mem_take
theorem rotR_mem {k : Nat} {l : List Nat} {c : Nat} (h : c ∈ Shift.rotR k l) : c ∈ l := rotL_mem h

theorem plainShift_map (h0 : μ 0 = false) (c : List Nat) (n : Nat) (dir : Shift.Dir) (mode : Shift.Mode) :
    Cpu.plainShift (c.map μ) n dir mode = (match plainShift c n dir mode with | .error e => .error e | .ok r => .ok (r.map μ)) := by
  simp only [Cpu.plainShift, plainShift, List.getLast?_map]
  cases c.getLast? with
  | none => rfl
  | some m =>
    simp only [Option.map_some, List.length_map]
    by_cases hn : c.length < n
    · rw [if_pos hn, if_pos hn]
    · rw [if_neg hn, if_neg hn]
      cases dir <;> cases mode <;> simp [fill_map, rotL_map, rotR_map, zeroCell, h0]

theorem plainShift_mem {c r : List Nat} {n : Nat} {dir : Shift.Dir} {mode : Shift.Mode} (h : plainShift c n dir mode = .ok r) : ∀ x ∈ r, x = 0 ∨ x ∈ c := by
  simp only [plainShift] at h
  cases hl : c.getLast? with
  | none => rw [hl] at h; cases h
  | some m =>
    rw [hl] at h
    have hm : m ∈ c := List.mem_of_getLast? hl
    simp only at h
    by_cases hn : c.length < n
    · rw [if_pos hn] at h; cases h
    · rw [if_neg hn] at h
      intro x hx
      cases dir <;> cases mode <;> simp only [if_true, reduceCtorEq, if_false, Except.ok.injEq] at h <;> subst h
      · rcases fill_mem hx with h | h
        · exact Or.inl h
        · exact Or.inr (rotR_mem h)
      · exact Or.inr (rotR_mem hx)
      · rcases fill_mem hx with h | h
        · exact Or.inl h
        · exact Or.inr (rotL_mem h)
      · exact Or.inr (rotL_mem hx)
      · rcases fill_mem hx with h | h
        · exact Or.inr (h ▸ hm)
        · exact Or.inr (rotL_mem h)

theorem shift_ne (n k : Nat) (d : Shift.Dir) (m : Shift.Mode) : ∀ fs, Shift.bitshift n k d m = some fs → fs ≠ [] := by
  rintro fs h rfl
  unfold Shift.bitshift at h
  simp only at h
  by_cases h1 : k < Shift.usedShiftBits n
  · rw [if_pos h1] at h; cases h
  rw [if_neg h1] at h
  by_cases h2 : m = .rotation ∧ Shift.isPow2 n = false
  · rw [if_pos h2] at h; cases h
  rw [if_neg h2] at h
  by_cases h3 : m = .arithmetic ∧ d = .left
  · rw [if_pos h3] at h; cases h
  rw [if_neg h3] at h
  by_cases h4 : n + k ≥ maxVars
  · rw [if_pos h4] at h; cases h
  rw [if_neg h4] at h
  by_cases h5 : n = 0
  · rw [if_pos h5] at h; cases h
  rw [if_neg h5] at h
  have hlen : ∀ (l : List Nat) (r : List BddFn) (f : List BddFn → Nat → List BddFn), (∀ r i, (f r i).length = n) → r.length = n → (l.foldl f r).length = n := by
    intro l
    induction l with
    | nil => intro r f _ h; exact h
    | cons x xs ih => intro r f hf hr; exact ih _ f hf (hf _ _)
  by_cases h6 : m ≠ .rotation
  · rw [if_pos h6] at h
    have := congrArg List.length (Option.some.inj h)
    rw [List.length_map, hlen _ _ _ (by intro r i; simp [Shift.layer]) (by simp)] at this
    exact h5 this
  · rw [if_neg h6] at h
    have := congrArg List.length (Option.some.inj h)
    rw [hlen _ _ _ (by intro r i; simp [Shift.layer]) (by simp)] at this
    exact h5 this

theorem shift_sim (h0 : μ 0 = false) (h1 : μ 1 = true) (hz : S 0) (ho : S 1) (s : Sh) {a sh : CReg} (ha : ∀ x ∈ regCells a, S x) (hb : ∀ x ∈ regCells sh, S x) :
    ActSim μ S (shift s a sh) (Cpu.one (shiftOp s (CReg.plainOf μ a) (CReg.plainOf μ sh))) := by
  cases sh with
  | plain n w' =>
    cases a with
    | plain v w =>
      refine onPlain_sim (one_plain fun v' h => ?_)
      simp only [shiftOp] at h
      obtain ⟨_, _, h⟩ := bind_plain h
      cases h; rfl
    | cells c =>
      simp only [shift, plainOf_cells, plainOf_plain, shiftOp, plainShift_map h0]
      cases hp : plainShift c (n % 2 ^ 32) s.dir s.mode with
      | error e => rfl
      | ok r =>
        refine ⟨rfl, ?_⟩
        intro x hx y hy
        rw [List.mem_singleton.1 hx] at hy
        rcases plainShift_mem hp y hy with h | h
        · rw [h]; exact hz
        · exact ha y h
  | cells cs =>
    have hsh : shift s a (.cells cs) = circuitJob true (Shift.bitshift (lift a).length cs.length s.dir s.mode) ((lift a).length + cs.length) ((lift a).reverse ++ cs.reverse)
      fun os => [.cells os.reverse] := by cases a <;> rfl
    have htgt : Cpu.one (shiftOp s (CReg.plainOf μ a) (CReg.plainOf μ (.cells cs))) =
        (match runCircuit (Shift.bitshift (lift a).length cs.length s.dir s.mode) ((lift a).length + cs.length) (((lift a).reverse ++ cs.reverse).map μ) with
        | .error e => .error e
        | .ok r => .ok [.cipher r.reverse]) := by
      have hl := lift_plainOf h0 h1 a
      have hll : (Cpu.lift (CReg.plainOf μ a)).length = (lift a).length := by rw [← hl, List.length_map]
      have : shiftOp s (CReg.plainOf μ a) (CReg.plainOf μ (.cells cs)) = (do
          let c := Cpu.lift (CReg.plainOf μ a)
          let out ← runCircuit (Shift.bitshift c.length (cs.map μ).length s.dir s.mode) (c.length + (cs.map μ).length) (c.reverse ++ (cs.map μ).reverse)
          return .cipher out.reverse) := by cases a <;> rfl
      rw [this]
      simp only [hll, ← hl, List.length_map, List.map_append, List.map_reverse]
      cases runCircuit _ _ _ <;> rfl
    rw [hsh, htgt]
    exact circuitJob_sim (f := fun r => [.cipher r.reverse]) (shift_ne _ _ _ _) (by
      intro c hc
      rcases List.mem_append.1 hc with h | h
      · exact lift_cells hz ho ha c (List.mem_reverse.1 h)
      · exact hb c (List.mem_reverse.1 h)) (by
      intro μ' outs _
      refine ⟨by simp [List.map_reverse], ?_⟩
      intro r hr c hc
      rw [List.mem_singleton.1 hr] at hc
      exact List.mem_reverse.1 hc)

theorem ext_sim (h0 : μ 0 = false) (hz : S 0) (signed : Bool) {r : CReg} (hr : ∀ x ∈ regCells r, S x) (new : Nat) :
    ActSim μ S (ext signed r new) (Cpu.one (Cpu.ext signed (CReg.plainOf μ r) new)) := by
  cases r with
  | plain v w =>
    refine onPlain_sim (one_plain fun v' h => ?_)
    simp only [Cpu.ext] at h
    split at h
    · cases h
    split at h
    · obtain ⟨_, _, h⟩ := bind_plain h
      obtain ⟨_, _, h⟩ := bind_plain h
      split at h
      · cases h; rfl
      · obtain ⟨_, _, h⟩ := bind_plain h
        obtain ⟨_, _, h⟩ := bind_plain h
        cases h; rfl
    · cases h; rfl
  | cells cs =>
    simp only [ext, plainOf_cells, Cpu.ext, Reg.width, List.length_map, List.getLast?_map]
    by_cases hn : new < cs.length
    · rw [if_pos hn, if_pos hn]; rfl
    rw [if_neg hn, if_neg hn]
    cases signed with
    | false =>
      refine ⟨by simp [Cpu.one, zeroCell, h0], ?_⟩
      intro x hx y hy
      rw [List.mem_singleton.1 hx] at hy
      rcases List.mem_append.1 hy with h | h
      · exact hr y h
      · rw [(List.mem_replicate.1 h).2]; exact hz
    | true =>
      simp only [if_true]
      cases hl : cs.getLast? with
      | none => rfl
      | some m =>
        refine ⟨by simp [Cpu.one], ?_⟩
        intro x hx y hy
        rw [List.mem_singleton.1 hx] at hy
        rcases List.mem_append.1 hy with h | h
        · exact hr y h
        · rw [(List.mem_replicate.1 h).2]; exact hr _ (List.mem_of_getLast? hl)

theorem trunc_sim {r : CReg} (hr : ∀ x ∈ regCells r, S x) (new : Nat) : ActSim μ S (trunc r new) (Cpu.one (Cpu.trunc (CReg.plainOf μ r) new)) := by
  cases r with
  | plain v w =>
    refine onPlain_sim (one_plain fun v' h => ?_)
    simp only [Cpu.trunc] at h
    split at h
    · cases h
    obtain ⟨_, _, h⟩ := bind_plain h
    cases h; rfl
  | cells cs =>
    simp only [trunc, plainOf_cells, Cpu.trunc, Reg.width, List.length_map]
    by_cases hn : new > cs.length
    · rw [if_pos hn, if_pos hn]; rfl
    rw [if_neg hn, if_neg hn]
    refine ⟨by simp [Cpu.one, List.map_take], ?_⟩
    intro x hx y hy
    rw [List.mem_singleton.1 hx] at hy
    exact hr y (List.mem_of_mem_take hy)

theorem not_sim {r : CReg} (hr : ∀ x ∈ regCells r, S x) : ActSim μ S (not r) (Cpu.one (Cpu.not (CReg.plainOf μ r))) := by
  cases r with
  | plain v w =>
    refine onPlain_sim (one_plain fun v' h => ?_)
    simp only [Cpu.not] at h
    obtain ⟨_, _, h⟩ := bind_plain h
    cases h; rfl
  | cells cs =>
    refine ⟨trivial, hr, fun μ' outs _ ho => ⟨?_, by simp [regCells]⟩⟩
    simp only [Cpu.not, plainOf_cells, List.map_cons, List.map_nil, ho, Job.bits, List.map_map]
    rfl

theorem neg_sim {r : CReg} : ActSim μ S (neg r) (Cpu.one (Cpu.neg (CReg.plainOf μ r))) := by
  cases r with
  | plain v w =>
    refine onPlain_sim (one_plain fun v' h => ?_)
    simp only [Cpu.neg] at h
    obtain ⟨_, _, h⟩ := bind_plain h
    cases h; rfl
  | cells cs => rfl

theorem cmux_sim (h0 : μ 0 = false) (h1 : μ 1 = true) (hz : S 0) (ho : S 1) {s a b : CReg} (hs : ∀ x ∈ regCells s, S x) (ha : ∀ x ∈ regCells a, S x) (hb : ∀ x ∈ regCells b, S x) :
    ActSim μ S (cmux s a b) (Cpu.one (Cpu.cmux (CReg.plainOf μ s) (CReg.plainOf μ a) (CReg.plainOf μ b))) := by
  have hw := checkWidth_plainOf (μ := μ) a b
  cases hc : checkWidth a b with
  | error e =>
    rw [hc] at hw
    simp only [cmux, hc, bind_err]
    simp only [Cpu.cmux, hw, bind_err]; rfl
  | ok u =>
    rw [hc] at hw
    obtain ⟨p1, p2, p3⟩ := checkWidth_pos hc
    by_cases hcw : s.width ≠ 1
    · simp only [cmux, hc, bind_ok, if_pos hcw]
      simp only [Cpu.cmux, hw, bind_ok, width_plainOf, if_pos hcw]; rfl
    have hl : (lift a).length = (lift b).length := by rw [lift_len, lift_len, p1]
    cases s with
    | plain x w =>
      have hcw' : ¬ (Reg.plain x w).width ≠ 1 := hcw
      simp only [cmux, Cpu.cmux, hc, hw, bind_ok, width_plainOf, plainOf_plain]
      rw [if_neg hcw, if_neg hcw']
      by_cases hm : Mixed a b
      · have h2 : (match CReg.plainOf μ a, CReg.plainOf μ b with
          | .plain x' _, .plain y' _ => (Except.ok (Reg.plain (if x ≠ 0 then x' else y') a.width) : Except Err Reg)
          | _, _ => .ok (.cipher (if x ≠ 0 then Cpu.lift (CReg.plainOf μ a) else Cpu.lift (CReg.plainOf μ b)))) =
            .ok (.cipher (if x ≠ 0 then Cpu.lift (CReg.plainOf μ a) else Cpu.lift (CReg.plainOf μ b))) := by
          cases a <;> cases b <;> first | exact absurd ⟨rfl, rfl⟩ (hm _ _ _ _) | rfl
        have h3 : (match a, b with
          | .plain x' _, .plain y' _ => (Except.ok (.done [.plain (if x ≠ 0 then x' else y') a.width]) : Except Err Act)
          | _, _ => .ok (.done [.cells (if x ≠ 0 then lift a else lift b)])) = .ok (.done [.cells (if x ≠ 0 then lift a else lift b)]) := by
          cases a <;> cases b <;> first | exact absurd ⟨rfl, rfl⟩ (hm _ _ _ _) | rfl
        have g3 : ActSim μ S (.ok (.done [.cells (if x ≠ 0 then lift a else lift b)])) (Cpu.one (.ok (.cipher (if x ≠ 0 then Cpu.lift (CReg.plainOf μ a) else Cpu.lift (CReg.plainOf μ b))))) := by
          refine ⟨?_, ?_⟩
          · simp only [Cpu.one, List.map_cons, List.map_nil, plainOf_cells]
            by_cases hx : x ≠ 0
            · rw [if_pos hx, if_pos hx, lift_plainOf h0 h1]
            · rw [if_neg hx, if_neg hx, lift_plainOf h0 h1]
          · intro r hr c hcm
            rw [List.mem_singleton.1 hr] at hcm
            simp only [regCells] at hcm
            by_cases hx : x ≠ 0
            · rw [if_pos hx] at hcm; exact lift_cells hz ho ha c hcm
            · rw [if_neg hx] at hcm; exact lift_cells hz ho hb c hcm
        rw [← h2, ← h3] at g3
        cases a <;> cases b <;> exact g3
      · simp only [Mixed, not_forall, not_not] at hm
        obtain ⟨x, w, y, w', rfl, rfl⟩ := hm
        refine ⟨rfl, ?_⟩
        intro r hr c hcm
        rw [List.mem_singleton.1 hr] at hcm
        simp [regCells] at hcm
    | cells cs =>
      have hcs : cs.length = 1 := by simpa [CReg.width] using hcw
      obtain ⟨c, rfl⟩ := List.length_eq_one_iff.1 hcs
      have hcw' : ¬ (CReg.plainOf μ (.cells [c])).width ≠ 1 := by rw [width_plainOf]; exact hcw
      simp only [cmux, Cpu.cmux, hc, hw, bind_ok]
      rw [if_neg hcw, if_neg hcw']
      refine ⟨hl, ?_, fun μ' outs _ hob => ⟨?_, by simp [regCells]⟩⟩
      · intro x hx
        simp only [Job.ins, List.getD_cons_zero, List.mem_cons, List.mem_append] at hx
        rcases hx with rfl | h | h
        · exact hs _ (by simp [regCells])
        · exact lift_cells hz ho ha x h
        · exact lift_cells hz ho hb x h
      · simp only [List.map_cons, List.map_nil, plainOf_cells, hob, Job.bits, List.getD_cons_zero, lift_plainOf h0 h1]
        rfl

/-- **Simulation.** An instruction on cells does what the instruction does on the bits they encrypt. -/
theorem alu_sim (h0 : μ 0 = false) (h1 : μ 1 = true) (hz : S 0) (ho : S 1) (i : Inst) {vs : List CReg} (hv : ∀ r ∈ vs, ∀ c ∈ regCells r, S c) :
    ActSim μ S (alu i vs) (i.alu (vs.map (CReg.plainOf μ))) := by
  have noEff : ActSim μ S (.ok (.done [])) (.ok []) := ⟨rfl, by simp⟩
  have bad : ActSim μ S (.error .panic) (.error .panic) := rfl
  have loadi_plain : ∀ imm w v, loadi imm w = .ok v → v.isPlain = true := by
    intro imm w v h
    unfold loadi at h
    split at h
    · cases h
    split at h
    · cases h
    split at h
    · cases h; rfl
    · cases h
  match vs, hv with
  | [], _ =>
    simp only [alu, Inst.alu, List.map_nil]
    cases i.op <;> first | exact noEff | exact bad | exact onPlain_sim (one_plain (loadi_plain _ _))
  | [a], hv =>
    have ha := hv a (by simp)
    simp only [alu, Inst.alu, List.map_cons, List.map_nil]
    cases i.op <;> first | exact noEff | exact bad | exact trunc_sim ha _ | exact ext_sim h0 hz _ ha _ | exact not_sim ha | exact neg_sim | exact ⟨rfl, by simpa using ha⟩
  | [a, b], hv =>
    have ha := hv a (by simp)
    have hb := hv b (by simp)
    simp only [alu, Inst.alu, List.map_cons, List.map_nil]
    cases i.op <;> first | exact noEff | exact bad | exact bin_sim h0 h1 hz ho _ ha hb | exact shift_sim h0 h1 hz ho _ ha hb
  | [a, b, c], hv =>
    have ha := hv a (by simp)
    have hb := hv b (by simp)
    have hc := hv c (by simp)
    simp only [alu, Inst.alu, List.map_cons, List.map_nil]
    cases i.op <;> first | exact noEff | exact bad | exact carry_sim h0 h1 hz ho false ha hb hc | exact carry_sim h0 h1 hz ho true ha hb hc | exact cmux_sim h0 h1 hz ho ha hb hc
  | _ :: _ :: _ :: _ :: _, _ =>
    simp only [alu, Inst.alu, List.map_cons]
    cases i.op <;> first | exact noEff | exact bad

end Spf.Cells
