import Verif.Proof.CtDom
import Verif.Proof.CellSteady
/-! Ciphertexts paired with the bits they encrypt: between the noise analysis and the processors on bits and on ciphertexts. -/
namespace Spf.CtCpu
open Spf.Cpu Spf.Cells Spf.Seq Spf.Spec Spf.Fhe Spf.CtExec Spf.Tfhe Spf.Props Spf.Fluent

variable {W : Nat}

/-- a bit and a ciphertext of it -/
def pairDom (G : Gens) (P : EvalParams) (K : EvalKey W) (err : FheOp → List (Ct W × FheEdge) → OpErr W) : Dom (Bool × Ct W) where
  zero := (false, trivialCt P false)
  one := (true, trivialCt P true)
  run := fun job outs val => ((ctDom G P K err).run job outs fun c => (val c).2).map fun os => (Job.bits (fun c => (val c).1) job).zip os

theorem run_length {G : Gens} {P : EvalParams} {K : EvalKey W} {err : FheOp → List (Ct W × FheEdge) → OpErr W} {job : Job} {outs : List Nat} {val : Nat → Ct W} {os : List (Ct W)}
    (h : (ctDom G P K err).run job outs val = some os) : os.length = outs.length := by
  simp only [ctDom] at h
  cases hb : job.build G outs with
  | none => rw [hb] at h; cases h
  | some g =>
    rw [hb] at h
    exact mapM_len h
where
  mapM_len {α β : Type} {f : α → Option β} : ∀ {l : List α} {r : List β}, l.mapM f = some r → r.length = l.length
  | [], r, h => by cases h; rfl
  | x :: xs, r, h => by
    rw [List.mapM_cons] at h
    cases hx : f x with
    | none => rw [hx] at h; cases h
    | some y =>
      rw [hx] at h
      cases hxs : xs.mapM f with
      | none => rw [hxs] at h; cases h
      | some ys => rw [hxs] at h; cases h; simp [mapM_len hxs]

theorem forall2_zip {α β : Type} : ∀ {l : List α} {l' : List β}, l.length = l'.length →
    List.Forall₂ (fun x (p : α × β) => x = p.1) l (l.zip l') ∧ List.Forall₂ (fun x (p : α × β) => x = p.2) l' (l.zip l')
  | [], [], _ => ⟨.nil, .nil⟩
  | x :: xs, y :: ys, h => by
    obtain ⟨h1, h2⟩ := forall2_zip (l := xs) (l' := ys) (by simpa using h)
    exact ⟨.cons rfl h1, .cons rfl h2⟩

theorem pair_bits (G : Gens) (P : EvalParams) (K : EvalKey W) (err : FheOp → List (Ct W × FheEdge) → OpErr W) :
    DomSim (fun x (p : Bool × Ct W) => x = p.1) bitDom (pairDom G P K err) fun _ => True where
  zero := rfl
  one := rfl
  run := by
    intro job outs val val' os' _ hok hlen _ _ hv h
    simp only [pairDom] at h
    cases hr : (ctDom G P K err).run job outs fun c => (val' c).2 with
    | none => rw [hr] at h; cases h
    | some os =>
      rw [hr] at h
      cases h
      have he : val = fun c => (val' c).1 := funext hv
      subst he
      exact ⟨_, rfl, (forall2_zip (by rw [bits_length hok, run_length hr, hlen])).1⟩

theorem pair_cts (G : Gens) (P : EvalParams) (K : EvalKey W) (err : FheOp → List (Ct W × FheEdge) → OpErr W) :
    DomSim (fun x (p : Bool × Ct W) => x = p.2) (ctDom G P K err) (pairDom G P K err) fun _ => True where
  zero := rfl
  one := rfl
  run := by
    intro job outs val val' os' _ hok hlen _ _ hv h
    simp only [pairDom] at h
    cases hr : (ctDom G P K err).run job outs fun c => (val' c).2 with
    | none => rw [hr] at h; cases h
    | some os =>
      rw [hr] at h
      cases h
      have he : val = fun c => (val' c).2 := funext hv
      subst he
      exact ⟨_, hr, (forall2_zip (by rw [bits_length hok, run_length hr, hlen])).2⟩

section
variable {n v : Nat} {P : EvalParams} {ν : NoiseLevels} {sb : List Bool} {sk : List (List (BitVec W))} {K : EvalKey W}

theorem trivial_holds (hs : SecretOk P n ν sb sk) (hK : Setting W n v P sb sk ν K) {err : FheOp → List (Ct W × FheEdge) → OpErr W} (he : ∀ op ins, ErrOk P n ν.fft (err op ins)) (b : Bool) :
    CtHolds P (bitKey W sb) sk 0 (trivialCt P b) (ctOf .glwe1 b) := by
  cases b with
  | false =>
    obtain ⟨c, h1, h2⟩ := execCt_ok hK he (cells := fun _ _ => trivialCt P false) (vals := fun _ _ => ctOf .glwe1 false) (nz := fun _ _ => 0) .zeroGlwe1 (fun t c h => by cases h) [] (by simp)
      (u := ctOf .glwe1 false) rfl (B := 0) rfl
    have e : execCt P K err (fun _ _ => trivialCt P false) .zeroGlwe1 [] = (trivialGlwe1 P false).map .glwe1 := rfl
    have h1' : (trivialGlwe1 P false).map Ct.glwe1 = some c := by rw [← e]; exact h1
    cases ht : (trivialGlwe1 P false : Option (Glwe (BitVec W))) with
    | none => rw [ht] at h1'; cases h1'
    | some x =>
      rw [ht] at h1'; cases h1'
      rw [trivialCt, ht]
      exact (holds_iff hK.params hs.key _ _).2 h2
  | true =>
    obtain ⟨c, h1, h2⟩ := execCt_ok hK he (cells := fun _ _ => trivialCt P false) (vals := fun _ _ => ctOf .glwe1 true) (nz := fun _ _ => 0) .oneGlwe1 (fun t c h => by cases h) [] (by simp)
      (u := ctOf .glwe1 true) rfl (B := 0) rfl
    have e : execCt P K err (fun _ _ => trivialCt P false) .oneGlwe1 [] = (trivialGlwe1 P true).map .glwe1 := rfl
    have h1' : (trivialGlwe1 P true).map Ct.glwe1 = some c := by rw [← e]; exact h1
    cases ht : (trivialGlwe1 P true : Option (Glwe (BitVec W))) with
    | none => rw [ht] at h1'; cases h1'
    | some x =>
      rw [ht] at h1'; cases h1'
      rw [trivialCt, ht]
      exact (holds_iff hK.params hs.key _ _).2 h2

/-- the circuit of a job on ciphertexts -/
theorem run_holds_ct (hs : SecretOk P n ν sb sk) (hK : Setting W n v P sb sk ν K) {err : FheOp → List (Ct W × FheEdge) → OpErr W} (he : ∀ op ins, ErrOk P n ν.fft (err op ins))
    {G : Gens} (hG : GensOk G) {job : Job} (hok : Job.Ok job) {outs : List Nat} (hlen : outs.length = job.size) (hnd : outs.Nodup) {μ : Nat → Bool}
    {nz : Nat → Nat} {val : Nat → Ct W} (hin : ∀ c, CtHolds P (bitKey W sb) sk (nz c) (val c) (ctOf .glwe1 (μ c))) {B : Nat}
    (hB : Job.noise W P ν nz job = some B) :
    ∃ os, (ctDom G P K err).run job outs val = some os ∧ ∀ (i : Nat) b c, (Job.bits μ job)[i]? = some b → os[i]? = some c → CtHolds P (bitKey W sb) sk B c (ctOf .glwe1 b) := by
  have hdeg : 0 < P.degree := by rw [hK.params.degree]; exact Nat.two_pow_pos n
  obtain ⟨g, e1, e2⟩ := build_ok (d := P.degree) (cells := fun t c => ctOf t (μ c)) (W := W) (P := P) (ν := ν) (nz := fun _ => nz) hG hdeg hok hlen hnd (μ := μ) (fun _ _ => rfl) hB
  obtain ⟨ord, ht⟩ := topo_exists e2.live fun a ha => e2.good.runs (fun t _ => ctOf t false) (fun t _ => ctOf_type t false) a ha
  have hlb := bits_length (μ := μ) hok
  have hheld : ∀ a t c, g.weight a = some (.input t c) → Held P n (bitKey W sb) sk (nz c) ((fun (_ : CtType) c => val c) t c) ((fun t c => ctOf t (μ c)) t c) := by
    intro a t c hw
    have hmem : (t, c) ∈ job.ins.map (CtType.glwe1, ·) := e2.good.ops a _ hw
    obtain ⟨c', hc', h⟩ := List.mem_map.1 hmem
    simp only [Prod.mk.injEq] at h
    obtain ⟨rfl, rfl⟩ := h
    exact (holds_iff hK.params hs.key _ _).1 (hin c')
  have hout : ∀ (i : Nat) o, outs[i]? = some o → ∀ b, (Job.bits μ job)[i]? = some b →
      ∃ c, evalOut (execCt P K err fun _ c => val c) g o = some c ∧ CtHolds P (bitKey W sb) sk B c (ctOf .glwe1 b) := by
    intro i o ho b hb
    obtain ⟨a, hw, hu⟩ := e2.writes i o b ho hb
    obtain ⟨B', hB', hq⟩ := e2.all a _ hw
    obtain ⟨c, c1, c2⟩ := nodeEval_ok hK he (cells := fun _ c => val c) (nz := fun _ => nz) hheld hu hB'
    exact ⟨c, evalOut_all ht e2.outsIn.2 hw c1, holds_mono hK.params hs.key (hq _ _ rfl) ((holds_iff hK.params hs.key _ _).2 c2)⟩
  have hsome : ∀ o ∈ outs, evalOut (execCt P K err fun _ c => val c) g o = some ((evalOut (execCt P K err fun _ c => val c) g o).getD (trivialCt P false)) := by
    intro o ho
    obtain ⟨i, hi⟩ := List.mem_iff_getElem?.1 ho
    have hil : i < outs.length := (List.getElem?_eq_some_iff.1 hi).1
    obtain ⟨c, hc, _⟩ := hout i o hi _ (List.getElem?_eq_getElem (by omega))
    rw [hc]; rfl
  refine ⟨outs.map fun o => (evalOut (execCt P K err fun _ c => val c) g o).getD (trivialCt P false), ?_, fun i b c hb hc => ?_⟩
  · simp only [ctDom, e1]
    exact mapM_some hsome
  · rw [List.getElem?_map] at hc
    cases ho : outs[i]? with
    | none => rw [ho] at hc; cases hc
    | some o =>
      rw [ho] at hc
      obtain ⟨c', h1, h2⟩ := hout i o ho b hb
      simp only [Option.map_some, h1, Option.getD_some, Option.some.injEq] at hc
      subst hc; exact h2

theorem forall2_replicate {α : Type} {Q : α → Nat → Prop} {B : Nat} : ∀ {k : Nat} {l : List α}, l.length = k → (∀ x ∈ l, Q x B) → List.Forall₂ Q l (List.replicate k B)
  | 0, [], _, _ => .nil
  | k + 1, x :: xs, h, hq => .cons (hq x (by simp)) (forall2_replicate (by simpa using h) fun y hy => hq y (by simp [hy]))

theorem pair_noise (hs : SecretOk P n ν sb sk) (hK : Setting W n v P sb sk ν K) {err : FheOp → List (Ct W × FheEdge) → OpErr W} (he : ∀ op ins, ErrOk P n ν.fft (err op ins))
    {G : Gens} (hG : GensOk G) :
    DomSim (fun (p : Bool × Ct W) B => CtHolds P (bitKey W sb) sk B p.2 (ctOf .glwe1 p.1)) (pairDom G P K err) (noiseDom W P ν) fun _ => True where
  zero := trivial_holds hs hK he false
  one := trivial_holds hs hK he true
  run := by
    intro job outs val val' os' _ hok hlen hnd _ hv h
    simp only [noiseDom] at h
    cases hB : Job.noise W P ν val' job with
    | none => rw [hB] at h; cases h
    | some B =>
      rw [hB] at h
      cases h
      obtain ⟨os, h1, h2⟩ := run_holds_ct hs hK he hG hok hlen hnd (μ := fun c => (val c).1) (val := fun c => (val c).2) hv hB
      have hl := bits_length (μ := fun c => (val c).1) hok
      refine ⟨_, by simp only [pairDom, h1]; rfl, forall2_replicate (by rw [List.length_zip, hl, run_length h1, hlen, Nat.min_self]) fun p hp => ?_⟩
      obtain ⟨i, hi⟩ := List.mem_iff_getElem?.1 hp
      rw [List.getElem?_zip_eq_some] at hi
      exact h2 i p.1 p.2 hi.1 hi.2

end

/-! ### states -/

/-- registers of bits and ciphertexts -/
def zipReg : Reg → VReg (Ct W) → VReg (Bool × Ct W)
  | .cipher bs, .cts cs => .cts (bs.zip cs)
  | _, .plain v w => .plain v w
  | _, .cts _ => .plain 0 0

def fromReg : Reg → VReg Bool
  | .plain v w => .plain v w
  | .cipher l => .cts l

theorem toReg_fromReg (r : Reg) : toReg (fromReg r) = r := by cases r <;> rfl

def zipByte : Option (Byte Bool) → Option (Byte (Ct W)) → Option (Byte (Bool × Ct W))
  | some (.cipher bs), some (.cipher cs) => some (.cipher (bs.zip cs))
  | _, some (.plain v) => some (.plain v)
  | _, _ => none

def zipArch (a : Arch Reg Nat (Option (Byte Bool))) (c : Arch (VReg (Ct W)) Nat (Option (Byte (Ct W)))) : Arch (VReg (Bool × Ct W)) Nat (Option (Byte (Bool × Ct W))) :=
  { reg := fun r => zipReg (a.reg r) (c.reg r), mem := fun x => zipByte (a.mem x) (c.mem x), pc := a.pc }

def fromArch (a : Arch Reg Nat (Option (Byte Bool))) : Arch (VReg Bool) Nat (Option (Byte Bool)) := { reg := fun r => fromReg (a.reg r), mem := a.mem, pc := a.pc }

theorem toArch_fromArch (a : Arch Reg Nat (Option (Byte Bool))) : toArch (fromArch a) = a := by
  cases a; simp only [toArch, fromArch, toReg_fromReg]

section
variable {P : EvalParams} {s : List (BitVec W)} {sk : List (List (BitVec W))}

theorem zip_lists {ns : List Nat} {bs : List Bool} {cs : List (Ct W)} (h : HoldsV P s sk (.cts ns) (.cipher bs) (.cts cs)) :
    List.Forall₂ (fun (p : Bool × Ct W) B => CtHolds P s sk B p.2 (ctOf .glwe1 p.1)) (bs.zip cs) ns ∧ List.Forall₂ (fun x (p : Bool × Ct W) => x = p.1) bs (bs.zip cs) ∧
      List.Forall₂ (fun x (p : Bool × Ct W) => x = p.2) cs (bs.zip cs) := by
  obtain ⟨⟨h1, h2⟩, h3⟩ := h
  obtain ⟨z1, z2⟩ := forall2_zip (l := bs) (l' := cs) h2.symm
  refine ⟨?_, z1, z2⟩
  rw [List.forall₂_iff_get]
  refine ⟨by simp; omega, fun i hi hi' => ?_⟩
  simp only [List.length_zip, Nat.lt_min] at hi
  refine h3 i _ _ _ (List.getElem?_eq_getElem hi') ?_ ?_
  · simp [List.get_eq_getElem, List.getElem_zip, hi.1]
  · simp [List.get_eq_getElem, List.getElem_zip, hi.2]

theorem holdsV_cases {N : VReg Nat} {r : Reg} {c : VReg (Ct W)} (h : HoldsV P s sk N r c) :
    (∃ v w, N = .plain v w ∧ r = .plain v w ∧ c = .plain v w) ∨ ∃ ns bs cs, N = .cts ns ∧ r = .cipher bs ∧ c = .cts cs := by
  cases N <;> cases r <;> cases c <;> first | exact absurd h id | skip
  · obtain ⟨⟨rfl, rfl⟩, rfl, rfl⟩ := h; exact Or.inl ⟨_, _, rfl, rfl, rfl⟩
  · exact Or.inr ⟨_, _, _, rfl, rfl, rfl⟩

theorem zip_reg {N : VReg Nat} {r : Reg} {c : VReg (Ct W)} (h : HoldsV P s sk N r c) :
    RegRel (fun (p : Bool × Ct W) B => CtHolds P s sk B p.2 (ctOf .glwe1 p.1)) (zipReg r c) N ∧ RegRel (fun x (p : Bool × Ct W) => x = p.1) (fromReg r) (zipReg r c) ∧
      RegRel (fun x (p : Bool × Ct W) => x = p.2) c (zipReg r c) := by
  rcases holdsV_cases h with ⟨v, w, rfl, rfl, rfl⟩ | ⟨ns, bs, cs, rfl, rfl, rfl⟩
  · exact ⟨⟨rfl, rfl⟩, ⟨rfl, rfl⟩, rfl, rfl⟩
  · exact zip_lists h

theorem zip_byte {N : Option (Byte Nat)} {r : Option (Byte Bool)} {c : Option (Byte (Ct W))} (h : HoldsVByte P s sk N r c) :
    ByteRel (fun (p : Bool × Ct W) B => CtHolds P s sk B p.2 (ctOf .glwe1 p.1)) (zipByte r c) N ∧ ByteRel (fun x (p : Bool × Ct W) => x = p.1) r (zipByte r c) ∧
      ByteRel (fun x (p : Bool × Ct W) => x = p.2) c (zipByte r c) := by
  match N, r, c, h with
  | none, none, none, _ => exact ⟨trivial, trivial, trivial⟩
  | some (.plain x), some (.plain _), some (.plain _), ⟨rfl, rfl⟩ => exact ⟨rfl, rfl, rfl⟩
  | some (.cipher ns), some (.cipher bs), some (.cipher cs), h => exact zip_lists h

theorem unzip_lists {ns : List Nat} {bs : List Bool} {cs : List (Ct W)} {ps : List (Bool × Ct W)}
    (h1 : List.Forall₂ (fun (p : Bool × Ct W) B => CtHolds P s sk B p.2 (ctOf .glwe1 p.1)) ps ns) (h2 : List.Forall₂ (fun x (p : Bool × Ct W) => x = p.1) bs ps)
    (h3 : List.Forall₂ (fun x (p : Bool × Ct W) => x = p.2) cs ps) : HoldsV P s sk (.cts ns) (.cipher bs) (.cts cs) := by
  have l1 := h1.length_eq
  have l2 := h2.length_eq
  have l3 := h3.length_eq
  refine ⟨⟨by omega, by omega⟩, fun i n b c hn hb hc => ?_⟩
  obtain ⟨hi1, rfl⟩ := List.getElem?_eq_some_iff.1 hn
  obtain ⟨hi2, rfl⟩ := List.getElem?_eq_some_iff.1 hb
  obtain ⟨hi3, rfl⟩ := List.getElem?_eq_some_iff.1 hc
  have e1 := (List.forall₂_iff_get.1 h1).2 i (by omega) hi1
  have e2 := (List.forall₂_iff_get.1 h2).2 i hi2 (by omega)
  have e3 := (List.forall₂_iff_get.1 h3).2 i hi3 (by omega)
  simp only [List.get_eq_getElem] at e1 e2 e3
  rw [e2, e3]; exact e1

theorem unzip_reg {N : VReg Nat} {x : VReg Bool} {c : VReg (Ct W)} {p : VReg (Bool × Ct W)}
    (h1 : RegRel (fun (p : Bool × Ct W) B => CtHolds P s sk B p.2 (ctOf .glwe1 p.1)) p N) (h2 : RegRel (fun x (p : Bool × Ct W) => x = p.1) x p)
    (h3 : RegRel (fun x (p : Bool × Ct W) => x = p.2) c p) : HoldsV P s sk N (toReg x) c := by
  cases p with
  | plain v w =>
    cases N <;> cases x <;> cases c <;> first | exact absurd h1 id | exact absurd h2 id | exact absurd h3 id | skip
    obtain ⟨rfl, rfl⟩ := h1
    obtain ⟨rfl, rfl⟩ := h2
    obtain ⟨rfl, rfl⟩ := h3
    exact ⟨⟨rfl, rfl⟩, rfl, rfl⟩
  | cts ps =>
    cases N <;> cases x <;> cases c <;> first | exact absurd h1 id | exact absurd h2 id | exact absurd h3 id | skip
    exact unzip_lists h1 h2 h3

theorem unzip_byte {N : Option (Byte Nat)} {x : Option (Byte Bool)} {c : Option (Byte (Ct W))} {p : Option (Byte (Bool × Ct W))}
    (h1 : ByteRel (fun (p : Bool × Ct W) B => CtHolds P s sk B p.2 (ctOf .glwe1 p.1)) p N) (h2 : ByteRel (fun x (p : Bool × Ct W) => x = p.1) x p)
    (h3 : ByteRel (fun x (p : Bool × Ct W) => x = p.2) c p) : HoldsVByte P s sk N x c := by
  rcases byteRel_cases h1 with ⟨rfl, rfl⟩ | ⟨v, rfl, rfl⟩ | ⟨l, l', rfl, rfl, g1⟩
  · rcases byteRel_cases h2 with ⟨rfl, _⟩ | ⟨v, _, h⟩ | ⟨l, l', _, h, _⟩
    · rcases byteRel_cases h3 with ⟨rfl, _⟩ | ⟨v, _, h⟩ | ⟨l, l', _, h, _⟩
      · trivial
      · cases h
      · cases h
    · cases h
    · cases h
  · rcases byteRel_cases h2 with ⟨_, h⟩ | ⟨v', rfl, h⟩ | ⟨l, l', _, h, _⟩
    · cases h
    · cases h
      rcases byteRel_cases h3 with ⟨_, h⟩ | ⟨v', rfl, h⟩ | ⟨l, l', _, h, _⟩
      · cases h
      · cases h; exact ⟨rfl, rfl⟩
      · cases h
    · cases h
  · rcases byteRel_cases h2 with ⟨_, h⟩ | ⟨v', _, h⟩ | ⟨m, m', rfl, h, g2⟩
    · cases h
    · cases h
    · cases h
      rcases byteRel_cases h3 with ⟨_, h⟩ | ⟨v', _, h⟩ | ⟨m, m', rfl, h, g3⟩
      · cases h
      · cases h
      · cases h; exact unzip_lists g1 g2 g3

end

/-! ### noise that stays bounded -/

theorem noise_uniform {P : EvalParams} {ν : NoiseLevels} {mul : Bool} {N : Nat} (hN : steadyNoise W P ν mul ≤ N) (hb : N + ksNoise W P ν < bootLimit W P ν) :
    DomSim (fun B (_ : Bool) => B ≤ N) (noiseDom W P ν) bitDom (SteadyJob mul) where
  zero := Nat.zero_le _
  one := Nat.zero_le _
  run := by
    intro job outs val val' os' hJ hok hlen _ _ hv h
    cases h
    obtain ⟨B, h1, h2⟩ := job_steady hN hb hv hJ
    refine ⟨List.replicate job.size B, by simp only [noiseDom, h1]; rfl, ?_⟩
    rw [List.forall₂_iff_get]
    refine ⟨by rw [List.length_replicate, bits_length hok], fun i hi hi' => ?_⟩
    rw [List.get_eq_getElem, List.getElem_replicate]
    exact h2

theorem uniform_rel (N : Nat) (a : Arch Reg Nat (Option (Byte Bool))) : ArchRel (fun B (_ : Bool) => B ≤ N) (uniformNoise N a) (fromArch a) where
  reg := fun r => by
    simp only [uniformNoise, fromArch]
    cases a.reg r with
    | plain v w => exact ⟨rfl, rfl⟩
    | cipher l => exact List.forall₂_map_left_iff.2 (List.forall₂_same.2 fun _ _ => Nat.le_refl N)
  mem := fun x => by
    simp only [uniformNoise, fromArch]
    cases a.mem x with
    | none => trivial
    | some b => cases b with
      | plain v => exact rfl
      | cipher l => exact List.forall₂_map_left_iff.2 (List.forall₂_same.2 fun _ _ => Nat.le_refl N)
  pc := rfl

theorem uniform_returns {P : EvalParams} {ν : NoiseLevels} {mul : Bool} {N : Nat} (hN : steadyNoise W P ν mul ≤ N) (hb : N + ksNoise W P ν < bootLimit W P ν) {prog : Nat → Except Err Inst}
    (hp : ∀ pc i, prog pc = .ok i → Spec.Steady mul i) {k : Nat} {a b : Arch Reg Nat (Option (Byte Bool))} (hr : Returns parasol prog k a b) :
    ∃ bN, Returns (isa (noiseDom W P ν)) prog k (uniformNoise N a) bN ∧ ArchRel (fun B (_ : Bool) => B ≤ N) bN (fromArch b) := by
  rw [← toArch_fromArch a] at hr
  obtain ⟨bB, h1, h2⟩ := returns_bits' k hr
  obtain ⟨bN, e1, e2⟩ := returns_rel (noise_uniform hN hb) (fun pc i hi vs job rs hj => alu_steady (hp pc i hi) hj) k (uniform_rel N a) h1
  refine ⟨bN, e1, ?_⟩
  subst h2
  refine ⟨fun r => ?_, e2.mem, e2.pc⟩
  have := e2.reg r
  simp only [fromArch, toArch]
  cases hx : bB.reg r with
  | plain v w => rw [hx] at this; exact this
  | cts l => rw [hx] at this; exact this

/-- **The processor on ciphertexts follows the noise analysis, and the processor on bits.** -/
theorem ct_returns {n v : Nat} {P : EvalParams} {ν : NoiseLevels} {sb : List Bool} {sk : List (List (BitVec W))} {K : EvalKey W}
    (hs : SecretOk P n ν sb sk) (hK : Setting W n v P sb sk ν K) {err : FheOp → List (Ct W × FheEdge) → OpErr W} (he : ∀ op ins, ErrOk P n ν.fft (err op ins))
    {G : Gens} (hG : GensOk G) {prog : Nat → Except Err Inst} {N : Nat} {aN bN : Arch (VReg Nat) Nat (Option (Byte Nat))} {a : Arch Reg Nat (Option (Byte Bool))}
    {aC : Arch (VReg (Ct W)) Nat (Option (Byte (Ct W)))} (ha : HoldsArch P (bitKey W sb) sk aN a aC) (hr : Returns (isa (noiseDom W P ν)) prog N aN bN) :
    ∃ b bC, Returns parasol prog N a b ∧ Returns (isa (ctDom G P K err)) prog N aC bC ∧ HoldsArch P (bitKey W sb) sk bN b bC ∧
      ∀ w, Steady parasol prog Inst.key N a w → Steady (isa (ctDom G P K err)) prog Inst.key N aC w := by
  have hJ : JobsOf prog fun _ => True := fun _ _ _ _ _ _ _ => trivial
  have r1 : ArchRel (fun (p : Bool × Ct W) B => CtHolds P (bitKey W sb) sk B p.2 (ctOf .glwe1 p.1)) (zipArch a aC) aN :=
    ⟨fun r => (zip_reg (ha.reg r)).1, fun x => (zip_byte (ha.mem x)).1, ha.pc.1.symm⟩
  have r2 : ArchRel (fun x (p : Bool × Ct W) => x = p.1) (fromArch a) (zipArch a aC) :=
    ⟨fun r => (zip_reg (ha.reg r)).2.1, fun x => (zip_byte (ha.mem x)).2.1, rfl⟩
  have r3 : ArchRel (fun x (p : Bool × Ct W) => x = p.2) aC (zipArch a aC) :=
    ⟨fun r => (zip_reg (ha.reg r)).2.2, fun x => (zip_byte (ha.mem x)).2.2, ha.pc.2⟩
  obtain ⟨bP, p1, p2⟩ := returns_rel (pair_noise hs hK he hG) hJ N r1 hr
  obtain ⟨bB, q1, q2⟩ := returns_rel (pair_bits G P K err) hJ N r2 p1
  obtain ⟨bC, t1, t2⟩ := returns_rel (pair_cts G P K err) hJ N r3 p1
  have hb := returns_bits N q1
  rw [toArch_fromArch] at hb
  refine ⟨toArch bB, bC, hb, t1, ⟨fun r => unzip_reg (p2.reg r) (q2.reg r) (t2.reg r), fun x => unzip_byte (p2.mem x) (q2.mem x) (t2.mem x), ?_, ?_⟩, fun w hst => ?_⟩
  · exact p2.pc.symm.trans q2.pc.symm
  · exact t2.pc.trans q2.pc.symm
  · rw [← toArch_fromArch a] at hst
    exact steady_rel (pair_cts G P K err) hJ N r3 p1 (steady_rel' (pair_bits G P K err) hJ N r2 p1 (steady_bits N hst))

end Spf.CtCpu
