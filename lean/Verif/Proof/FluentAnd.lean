import Verif.Proof.FluentMulInt
import Verif.Proof.Alu
/-! The contract of the circuits behind multiplication and conjunction, and the bitwise conjunction on circuits. -/
namespace Spf.Props
open Spf.Spec Spf.Fhe Spf.Fluent Spf.Mul Graph

/-! ### the contract is met -/

/-- A decision-diagram library meeting its contract yields circuits meeting theirs. -/
theorem circOk_of {lib : BddLib} (hlib : BddLibOk lib) {nv : Nat} {fs : List BddFn} (hfs : fs ≠ []) : CircOk (circuitOf lib) nv fs := by
  obtain ⟨c, h1, h2, h3, h4⟩ := C11_from_bdds (nv := nv) (bdds := fs.map (lib.nodes nv))
    (by intro b hb; obtain ⟨f, _, rfl⟩ := List.mem_map.1 hb; exact (hlib nv f).1) (by simpa using hfs)
  refine ⟨c, _, h1, h2, h4, h3, by simp, ?_⟩
  intro i f f' hf hf' env henv
  rw [List.getElem?_map, List.getElem?_map, hf] at hf'
  cases hf'
  exact (hlib nv f).2 env henv

theorem circLibOk_of {lib : BddLib} (hlib : BddLibOk lib) : CircLibOk (circuitOf lib) :=
  ⟨fun _ _ _ _ h => circOk_of hlib h, fun _ _ _ _ h => circOk_of hlib h, fun _ _ _ h => circOk_of hlib h, fun _ _ _ h => circOk_of hlib h⟩

theorem and_ok {d : Nat} {io : Nat → FheOp → Prop} {lib : CircLib} (hlib : CircLibOk lib) {g : FGraph} (hl : Live g) {a b : List Nat} (ha : AreNodes g .ggsw1 a)
    (hb : AreNodes g .ggsw1 b) (hab : a.length = b.length) (h0 : 0 < a.length) (hv : 2 * a.length < maxVars) (mode : MuxMode) :
    ∃ g' r, Fluent.and lib a b mode g = some (g', r) ∧ Step d io g g' ∧ AreNodes g' (modeType mode) r ∧ r.length = a.length ∧
      ∀ deg cells va vb, Holds deg cells g .ggsw1 a va → Holds deg cells g .ggsw1 b vb →
        Holds deg cells g' (modeType mode) r (List.zipWith (· && ·) va vb) := by
  have hn : a.length % 65536 = a.length := Nat.mod_eq_of_lt (by simp only [maxVars] at hv; omega)
  obtain ⟨outs, o1, o2⟩ := C04_and (List.replicate a.length false) (List.replicate a.length false) rfl (by simpa using hv)
  simp only [List.length_replicate] at o1
  have hol : outs.length = a.length := by
    have := congrArg List.length o2
    simpa using this
  obtain ⟨g', r, h1, h2, h3, h4, h5⟩ := insertLib_ok (d := d) (io := io) (mode := mode) hl (hlib.and _ _ o1 (by intro h; rw [h] at hol; simp at hol; omega))
    (nodes := zipNodes a b) (by rw [zipNodes_length]; omega) (zip_take_nodes ha hb)
  refine ⟨g', r.take a.length, ?_, h2, AreNodes.sub h3 fun _ hn => List.mem_of_mem_take hn,
    by rw [List.length_take]; omega, ?_⟩
  · unfold Fluent.and
    simp only [hn, o1, h1]
  · intro deg cells va vb hva hvb
    have la := hva.length_eq
    have lb := hvb.length_eq
    obtain ⟨outs', q1, q2⟩ := C04_and va vb (by omega) (by omega)
    rw [← la, o1] at q1
    cases q1
    have := holds_take (h5 deg cells _ (zipNodes_holds hva hvb hab)) a.length
    rw [q2, List.take_of_length_le (l := List.zipWith _ va vb) (by rw [List.length_zipWith]; omega)] at this
    exact this

theorem valLE_and {a b : List Bool} (h : a.length = b.length) : valLE (List.zipWith (· && ·) a b) = valLE a &&& valLE b := by
  apply Nat.eq_of_testBit_eq
  intro i
  rw [Nat.testBit_and, Cpu.valLE_testBit, Cpu.valLE_testBit, Cpu.valLE_testBit]
  simp only [List.getD_eq_getElem?_getD, List.getElem?_zipWith]
  by_cases hi : i < a.length
  · rw [List.getElem?_eq_getElem hi, List.getElem?_eq_getElem (show i < b.length by omega)]; rfl
  · rw [List.getElem?_eq_none (by omega), List.getElem?_eq_none (by omega)]; rfl

/-- the bits of an integer value -/
theorem ofInt_intVal (s : Sign) (l : List Bool) : (BitVec.ofInt l.length (intVal s l)).toNat = valLE l := by
  have h := intVal_mod s l (Nat.le_refl _)
  have hlt := valLE_lt l
  have : ((BitVec.ofInt l.length (intVal s l)).toNat : Int) = valLE l := by
    rw [BitVec.toNat_ofInt]
    have : ((2 ^ l.length : Nat) : Int) = 2 ^ l.length := by push_cast; rfl
    rw [this, h, Int.toNat_of_nonneg (Int.emod_nonneg _ (by positivity)), Int.emod_eq_of_lt (by omega) (by rw [← this]; exact_mod_cast hlt)]
  exact_mod_cast this

theorem intVal_and (s : Sign) {a b : List Bool} (h : a.length = b.length) :
    intVal s (List.zipWith (· && ·) a b) = bitAnd s a.length (intVal s a) (intVal s b) := by
  rw [intVal_wrap, valLE_and h]
  unfold bitAnd
  rw [BitVec.toNat_and, ofInt_intVal, h, ofInt_intVal]
  simp [h]

end Spf.Props
