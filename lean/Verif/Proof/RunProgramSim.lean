import Verif.Proof.RunProgram
import Verif.Props.StoredProg
/-! Stored programs on related contents. -/
namespace Spf.CtCpu
open Spf.Cpu hiding fetchInst
open Spf.Cells Spf.Seq Spf.Fhe Spf.CtExec Spf.Tfhe Spf.Machine
open Spf.Spec (NoiseLevels ksNoise bootLimit steadyNoise CtHolds ctOf SecretOk ErrOk GensOk ValRel)
open Spf.Props (instBytes fetch_local Regs)

variable {α β : Type} {R : α → β → Prop}

theorem byteRel_flip {x : Option (Byte α)} {y : Option (Byte β)} (h : ByteRel R x y) : ByteRel (fun b a => R a b) y x := by
  rcases byteRel_cases h with ⟨rfl, rfl⟩ | ⟨v, rfl, rfl⟩ | ⟨l, l', rfl, rfl, g⟩
  · trivial
  · exact rfl
  · exact g.flip

theorem fetchWord_rel {m : VView α} {m' : VView β} (h : ∀ x, ByteRel R (m x) (m' x)) (pc : Nat) : ∀ k i, fetchWord m pc k i = fetchWord m' pc k i
  | 0, _ => rfl
  | k + 1, i => by
    simp only [fetchWord]
    rw [fetchWord_rel h pc k (i + 1)]
    cases tryOffset pc i with
    | error e => rfl
    | ok a =>
      simp only
      rcases byteRel_cases (h a) with ⟨h1, h2⟩ | ⟨v, h1, h2⟩ | ⟨l, l', h1, h2, _⟩ <;> rw [h1, h2]

/-- The same instructions are in related memories. -/
theorem fetchInst_rel {m : VView α} {m' : VView β} (h : ∀ x, ByteRel R (m x) (m' x)) : fetchInst m = fetchInst m' := by
  funext pc
  unfold fetchInst
  rw [fetchWord_rel h pc 8 0]

theorem fetchWord_plain {m : VView α} {pc : Nat} : ∀ (k i : Nat) {w : Nat}, fetchWord m pc k i = .ok w → ∀ j, i ≤ j → j < i + k → ∃ v, m (pc + j) = some (.plain v)
  | 0, _, _, _, _, _, _ => by omega
  | k + 1, i, w, h, j, h1, h2 => by
    simp only [fetchWord, tryOffset] at h
    by_cases hp : pc + i < addrSpace
    · rw [if_pos hp] at h
      simp only at h
      match hm : m (pc + i) with
      | none => rw [hm] at h; cases h
      | some (.cipher _) => rw [hm] at h; cases h
      | some (.plain b) =>
        rw [hm] at h
        simp only at h
        cases hw : fetchWord m pc k (i + 1) with
        | error e => rw [hw] at h; cases h
        | ok w' =>
          by_cases hj : j = i
          · subst hj; exact ⟨b, hm⟩
          · exact fetchWord_plain k (i + 1) hw j (by omega) (by omega)
    · rw [if_neg hp] at h; cases h

/-- An instruction is fetched from plaintext bytes. -/
theorem fetchInst_plain {m : VView α} {pc : Nat} {i : Inst} (h : fetchInst m pc = .ok i) : ∀ x ∈ instBytes pc, ∃ v, m x = some (.plain v) := by
  intro x hx
  simp only [instBytes, List.mem_range'_1] at hx
  unfold fetchInst at h
  by_cases h8 : pc % 8 ≠ 0
  · rw [if_pos h8] at h; cases h
  · rw [if_neg h8] at h
    cases hw : fetchWord m pc 8 0 with
    | error e => rw [hw] at h; cases h
    | ok w =>
      obtain ⟨v, hv⟩ := fetchWord_plain 8 0 hw (x - pc) (by omega) (by omega)
      exact ⟨v, by rw [← hv]; congr 1; omega⟩

theorem step_fetched {I V A B : Type} {isa : Isa I V A B} {prog : Nat → Except Err I} {a b : Arch V A B} {halted : Bool} (h : Seq.step isa prog a = .ok (b, halted)) :
    ∃ i, prog a.pc = .ok i := by
  unfold Seq.step at h
  cases hp : prog a.pc with
  | error e => rw [hp] at h; cases h
  | ok i => exact ⟨i, rfl⟩

theorem slow_rel {D : Dom α} {i : Inst} {a : Arch (VReg α) Nat (Option (Byte α))} {a' : Arch (VReg Bool) Nat (Option (Byte Bool))} {R : α → Bool → Prop} (hr : ArchRel R a a') (w : Slow Nat) :
    slowStep (isa D) i a w = slowStep parasol i (toArch a') w := by
  have hsh := shapes_eq (srcs_rel hr i.srcs)
  have h1 : slowStep (isa D) i a w = slowStep (isa bitDom) i a' w := by
    simp only [slowStep, slowInst, isa, hsh]
    rfl
  rw [h1]
  have hmap : (parasol.srcs i).map (toArch a').reg = (i.srcs.map a'.reg).map toReg := by rw [List.map_map]; rfl
  simp only [slowStep, slowInst, hmap]
  simp only [isa, shapes_blank, access_blank, async_blank]
  rfl

/-- **A program in memory, on related contents**: it returns, keeps its code and is steady if this is so on bits. -/
theorem stored_rel {D : Dom α} {J : Job → Prop} {R : α → Bool → Prop} (hD : DomSim R D bitDom J) {Q : Inst → Prop} (hQ : ∀ i, Q i → ∀ vs job rs, Cells.alu i vs = .ok (.spawn job rs) → J job)
    {code : Nat → Prop} {m0 : VView Bool} : ∀ (k : Nat) {aC : Arch (VReg α) Nat (Option (Byte α))} {a : Arch (VReg Bool) Nat (Option (Byte Bool))} {b : Regs} {w : Slow Nat}, ArchRel R aC a →
      (∀ x, code x → a.mem x = m0 x) → StoredReturns parasol fetchInst k (toArch a) b → KeepsCode parasol fetchInst instBytes code k (toArch a) → OnlyRuns parasol fetchInst Q k (toArch a) →
      Seq.Steady parasol (fetchInst m0) Inst.key k (toArch a) w →
      ∃ bC b', StoredReturns (isa D) fetchInst k aC bC ∧ ArchRel R bC b' ∧ b = toArch b' ∧
        KeepsCode (isa D) fetchInst instBytes (fun x => code x ∧ ∃ v, m0 x = some (.plain v)) k aC ∧ Seq.Steady (isa D) (fetchInst m0) Inst.key k aC w
  | 0, _, _, _, _, _, _, h, _, _, _ => absurd h id
  | k + 1, aC, a, b, w, hr, hm, h, hk, ho, hst => by
    have hfe : fetchInst aC.mem = fetchInst a.mem := fetchInst_rel hr.mem
    have hmem : (toArch a).mem = a.mem := rfl
    have hpc : (toArch a).pc = a.pc := rfl
    have hloc : fetchInst a.mem a.pc = fetchInst m0 a.pc := fetch_local _ _ _ fun x hx => hm x (hk.1 x hx)
    unfold StoredReturns at h
    unfold Seq.Steady at hst
    have hk2 := hk.2
    have ho2 := ho.2
    rw [hmem, step_bits] at h hk2 ho2
    rw [hpc, seq_step_congr (isa := parasol) (p := fetchInst m0) (p' := fetchInst a.mem) (a := toArch a) hloc.symm, step_bits] at hst
    cases hs : Seq.step (isa bitDom) (fetchInst a.mem) a with
    | error e => rw [hs] at h; exact absurd h id
    | ok res =>
      obtain ⟨c', halted⟩ := res
      obtain ⟨i, hi⟩ := step_fetched hs
      rw [hs] at h hk2 ho2 hst
      simp only at h hk2 ho2 hst
      have hjobs : JobsOf (fun pc => if pc = a.pc then fetchInst a.mem pc else .error (.unaligned 0)) J := by
        intro pc i' hi' vs job rs hj
        by_cases hp : pc = a.pc
        · subst hp
          simp only [if_true] at hi'
          exact hQ i' (ho.1 i' hi') vs job rs hj
        · simp only [if_neg hp] at hi'; cases hi'
      have hs' : Seq.step (isa bitDom) (fun pc => if pc = a.pc then fetchInst a.mem pc else .error (.unaligned 0)) a = .ok (c', halted) := by
        rw [← hs]; exact seq_step_congr (by simp)
      obtain ⟨c, e1, e2⟩ := step_rel hD hjobs hr hs'
      have e1' : Seq.step (isa D) (fetchInst aC.mem) aC = .ok (c, halted) := by
        rw [← e1, hfe]; exact seq_step_congr (by simp [hr.pc])
      have e1'' : Seq.step (isa D) (fetchInst m0) aC = .ok (c, halted) := by
        rw [← e1', hfe]; exact seq_step_congr (by rw [hr.pc, hloc])
      have hplain : ∀ x ∈ instBytes aC.pc, code x ∧ ∃ v, m0 x = some (.plain v) := by
        intro x hx
        rw [hr.pc] at hx
        have hc := hk.1 x hx
        obtain ⟨v, hv⟩ := fetchInst_plain hi x hx
        exact ⟨hc, v, by rw [← hm x hc]; exact hv⟩
      have hm' : ∀ x, code x → c'.mem x = m0 x := fun x hx => (hk2.1 x hx).trans (hm x hx)
      have hsame : ∀ x, (code x ∧ ∃ v, m0 x = some (.plain v)) → c.mem x = aC.mem x := by
        rintro x ⟨hx, v, hv⟩
        have g1 := e2.mem x
        have g2 := hr.mem x
        rw [hm' x hx, hv] at g1
        rw [hm x hx, hv] at g2
        rcases byteRel_cases g1 with ⟨_, g⟩ | ⟨v1, g1, g⟩ | ⟨_, _, _, g, _⟩
        · cases g
        · cases g
          rcases byteRel_cases g2 with ⟨_, g⟩ | ⟨v2, g2, g⟩ | ⟨_, _, _, g, _⟩
          · cases g
          · cases g; rw [g1, g2]
          · cases g
        · cases g
      rw [← hloc, hi] at hst
      simp only at hst
      have hstep : ∀ {n : Nat} {st : Seq.Steady (isa D) (fetchInst m0) Inst.key n c (slowStep parasol i (toArch a) w)}, Seq.Steady (isa D) (fetchInst m0) Inst.key (n + 1) aC w := by
        intro n st
        unfold Seq.Steady
        rw [hr.pc, ← hloc, hi, e1'']
        simp only
        exact ⟨hst.1, by rw [slow_rel hr]; exact st⟩
      cases halted with
      | true =>
        obtain ⟨rfl, rfl⟩ := h
        refine ⟨c, c', ?_, e2, rfl, ?_, hstep (st := ?_)⟩
        · unfold StoredReturns; rw [e1']; exact ⟨rfl, rfl⟩
        · unfold KeepsCode; rw [e1']; exact ⟨hplain, hsame, trivial⟩
        · unfold Seq.Steady; trivial
      | false =>
        obtain ⟨bC, b', f1, f2, f3, f4, f5⟩ := stored_rel hD hQ k e2 hm' h hk2.2 ho2 hst.2
        refine ⟨bC, b', ?_, f2, f3, ?_, hstep (st := f5)⟩
        · unfold StoredReturns; rw [e1']; exact f1
        · unfold KeepsCode; rw [e1']; exact ⟨hplain, hsame, f4⟩

/-- Ciphertexts of noise at most `B`, and the bits they encrypt, under steady jobs. -/
theorem ct_uniform {W n v : Nat} {P : EvalParams} {ν : NoiseLevels} {sb : List Bool} {sk : List (List (BitVec W))} {K : EvalKey W}
    (hs : SecretOk P n ν sb sk) (hK : Setting W n v P sb sk ν K) {err : FheOp → List (Ct W × FheEdge) → OpErr W} (he : ∀ op ins, ErrOk P n ν.fft (err op ins))
    {G : Gens} (hG : GensOk G) {mul : Bool} {B : Nat} (hB : steadyNoise W P ν mul ≤ B) (hb : B + ksNoise W P ν < bootLimit W P ν) :
    DomSim (fun c b => CtHolds P (bitKey W sb) sk B c (ctOf .glwe1 b)) (ctDom G P K err) bitDom (SteadyJob mul) where
  zero := holds_mono hK.params hs.key (Nat.zero_le _) (trivial_holds hs hK he false)
  one := holds_mono hK.params hs.key (Nat.zero_le _) (trivial_holds hs hK he true)
  run := by
    intro job outs val val' os' hJ hok hlen hnd _ hv h
    cases h
    obtain ⟨B', h1, h2⟩ := job_steady hB hb (nz := fun _ => B) (fun _ => Nat.le_refl _) hJ
    obtain ⟨os, r1, r2⟩ := run_holds_ct hs hK he hG hok hlen hnd (μ := val') (val := val) (nz := fun _ => B) hv h1
    refine ⟨os, r1, ?_⟩
    rw [List.forall₂_iff_get]
    refine ⟨by rw [run_length r1, bits_length hok, hlen], fun i hi hi' => ?_⟩
    exact holds_mono hK.params hs.key h2 (r2 i _ _ (List.getElem?_eq_getElem hi') (List.getElem?_eq_getElem hi))

/-- Programs on related contents take the same path, through related memories. -/
theorem T_rel {D : Dom α} {D' : Dom β} {J : Job → Prop} (hD : DomSim R D D' J) {prog : Nat → Except Err Inst} (hJ : JobsOf prog J) : ∀ (k : Nat) {a : Arch (VReg α) Nat (Option (Byte α))}
    {a' b' : Arch (VReg β) Nat (Option (Byte β))}, ArchRel R a a' → Returns (isa D') prog k a' b' →
    (∀ j, j < k → (T (isa D) prog a j).pc = (T (isa D') prog a' j).pc) ∧ ∀ j, j ≤ k → ∀ x, ByteRel R ((T (isa D) prog a j).mem x) ((T (isa D') prog a' j).mem x)
  | 0, _, _, _, _, h => absurd h id
  | k + 1, a, a', b', hr, h => by
    unfold Returns at h
    cases hs : Seq.step (isa D') prog a' with
    | error e => rw [hs] at h; exact absurd h id
    | ok res =>
      obtain ⟨c', halted⟩ := res
      rw [hs] at h
      obtain ⟨c, e1, e2⟩ := step_rel hD hJ hr hs
      obtain ⟨f1, f2⟩ := tNext_step e1
      obtain ⟨f1', f2'⟩ := tNext_step hs
      cases halted with
      | true =>
        obtain ⟨rfl, rfl⟩ := h
        refine ⟨fun j hj => ?_, fun j hj x => ?_⟩
        · obtain rfl : j = 0 := by omega
          exact hr.pc
        · rcases Nat.eq_zero_or_pos j with rfl | h0
          · exact hr.mem x
          · obtain rfl : j = 1 := by omega
            show ByteRel R ((tNext (isa D) prog a).mem x) ((tNext (isa D') prog a').mem x)
            rw [f1, f1']; exact e2.mem x
      | false =>
        obtain ⟨g1, g2⟩ := T_rel hD hJ k e2 h
        have e := f2 rfl
        have e' := f2' rfl
        refine ⟨fun j hj => ?_, fun j hj x => ?_⟩
        · match j, hj with
          | 0, _ => exact hr.pc
          | j + 1, hj => rw [← T_shift, ← T_shift, e, e']; exact g1 j (by omega)
        · match j, hj with
          | 0, _ => exact hr.mem x
          | j + 1, hj => rw [← T_shift, ← T_shift, e, e']; exact g2 j (by omega) x

theorem T_bits {prog : Nat → Except Err Inst} : ∀ (k : Nat) {a b : Arch (VReg Bool) Nat (Option (Byte Bool))}, Returns (isa bitDom) prog k a b →
    (∀ j, j < k → (T parasol prog (toArch a) j).pc = (T (isa bitDom) prog a j).pc) ∧ ∀ j, j ≤ k → (T parasol prog (toArch a) j).mem = (T (isa bitDom) prog a j).mem
  | 0, _, _, h => absurd h id
  | k + 1, a, b, h => by
    unfold Returns at h
    cases hs : Seq.step (isa bitDom) prog a with
    | error e => rw [hs] at h; exact absurd h id
    | ok res =>
      obtain ⟨c, halted⟩ := res
      rw [hs] at h
      have hs' : Seq.step parasol prog (toArch a) = .ok (toArch c, halted) := by rw [step_bits, hs]
      obtain ⟨f1, f2⟩ := tNext_step hs
      obtain ⟨f1', f2'⟩ := tNext_step hs'
      cases halted with
      | true =>
        obtain ⟨rfl, rfl⟩ := h
        refine ⟨fun j hj => ?_, fun j hj => ?_⟩
        · obtain rfl : j = 0 := by omega
          rfl
        · rcases Nat.eq_zero_or_pos j with rfl | h0
          · rfl
          · obtain rfl : j = 1 := by omega
            show (tNext parasol prog (toArch a)).mem = (tNext (isa bitDom) prog a).mem
            rw [f1, f1']; rfl
      | false =>
        obtain ⟨g1, g2⟩ := T_bits k h
        have e := f2 rfl
        have e' := f2' rfl
        refine ⟨fun j hj => ?_, fun j hj => ?_⟩
        · match j, hj with
          | 0, _ => rfl
          | j + 1, hj => rw [← T_shift, ← T_shift, e, e']; exact g1 j (by omega)
        · match j, hj with
          | 0, _ => rfl
          | j + 1, hj => rw [← T_shift, ← T_shift, e, e']; exact g2 j (by omega)

theorem returns_fetched {I V A B : Type} {isa : Isa I V A B} {prog : Nat → Except Err I} : ∀ (k : Nat) {a b : Arch V A B}, Returns isa prog k a b → ∀ j, j < k → ∃ i, prog (T isa prog a j).pc = .ok i
  | 0, _, _, h => absurd h id
  | k + 1, a, b, h => by
    unfold Returns at h
    cases hs : Seq.step isa prog a with
    | error e => rw [hs] at h; exact absurd h id
    | ok res =>
      obtain ⟨c, halted⟩ := res
      rw [hs] at h
      intro j hj
      match j, hj with
      | 0, _ => exact step_fetched hs
      | j + 1, hj =>
        cases halted with
        | true => obtain ⟨rfl, _⟩ := h; omega
        | false => rw [← T_shift, (tNext_step hs).2 rfl]; exact returns_fetched k h j (by omega)

theorem byteRel_plain {R : α → β → Prop} {x : Option (Byte α)} {y : Option (Byte β)} (h : ByteRel R x y) {v : BitVec 8} : x = some (.plain v) ↔ y = some (.plain v) := by
  rcases byteRel_cases h with ⟨rfl, rfl⟩ | ⟨w, rfl, rfl⟩ | ⟨l, l', rfl, rfl, _⟩ <;> simp

/-- The processor on ciphertexts takes the path of the processor on bits and leaves plaintext code alone where the latter does. -/
theorem ct_path {W n v : Nat} {P : EvalParams} {ν : NoiseLevels} {sb : List Bool} {sk : List (List (BitVec W))} {K : EvalKey W}
    (hs : SecretOk P n ν sb sk) (hK : Setting W n v P sb sk ν K) {err : FheOp → List (Ct W × FheEdge) → OpErr W} (he : ∀ op ins, ErrOk P n ν.fft (err op ins))
    {G : Gens} (hG : GensOk G) {prog : Nat → Except Err Inst} {N : Nat} {aN bN : Arch (VReg Nat) Nat (Option (Byte Nat))} {a : Arch Reg Nat (Option (Byte Bool))}
    {aC : Arch (VReg (Ct W)) Nat (Option (Byte (Ct W)))} (ha : Spec.HoldsArch P (bitKey W sb) sk aN a aC) (hr : Returns (isa (Spec.noiseDom W P ν)) prog N aN bN) :
    (∀ j, j < N → (T (isa (ctDom G P K err)) prog aC j).pc = (T parasol prog a j).pc) ∧
    ∀ j, j ≤ N → ∀ x v, (T (isa (ctDom G P K err)) prog aC j).mem x = some (.plain v) ↔ (T parasol prog a j).mem x = some (.plain v) := by
  have hJ : JobsOf prog fun _ => True := fun _ _ _ _ _ _ _ => trivial
  have r1 : ArchRel (fun (p : Bool × Ct W) B => CtHolds P (bitKey W sb) sk B p.2 (ctOf .glwe1 p.1)) (zipArch a aC) aN :=
    ⟨fun r => (zip_reg (ha.reg r)).1, fun x => (zip_byte (ha.mem x)).1, ha.pc.1.symm⟩
  have r2 : ArchRel (fun x (p : Bool × Ct W) => x = p.1) (fromArch a) (zipArch a aC) :=
    ⟨fun r => (zip_reg (ha.reg r)).2.1, fun x => (zip_byte (ha.mem x)).2.1, rfl⟩
  have r3 : ArchRel (fun x (p : Bool × Ct W) => x = p.2) aC (zipArch a aC) :=
    ⟨fun r => (zip_reg (ha.reg r)).2.2, fun x => (zip_byte (ha.mem x)).2.2, ha.pc.2⟩
  obtain ⟨bP, p1, _⟩ := returns_rel (pair_noise hs hK he hG) hJ N r1 hr
  obtain ⟨bB, q1, _⟩ := returns_rel (pair_bits G P K err) hJ N r2 p1
  obtain ⟨b1, b2⟩ := T_bits N q1
  rw [toArch_fromArch] at b1 b2
  obtain ⟨c1, c2⟩ := T_rel (pair_bits G P K err) hJ N r2 p1
  obtain ⟨d1, d2⟩ := T_rel (pair_cts G P K err) hJ N r3 p1
  refine ⟨fun j hj => ?_, fun j hj x v => ?_⟩
  · rw [d1 j hj, b1 j hj, c1 j hj]
  · rw [byteRel_plain (d2 j hj x), b2 j hj, byteRel_plain (c2 j hj x)]

end Spf.CtCpu
