import Verif.Proof.CtSim
import Verif.Proof.CellMachine
import Verif.Spec.CtMachine
/-! The processors on bits, on noise and on ciphertexts. -/
namespace Spf.CtCpu
open Spf.Cpu Spf.Cells Spf.Seq Spf.Spec Spf.Fhe Spf.CtExec Spf.Tfhe Spf.Props Spf.Fluent

/-! ### evaluation of a circuit -/

theorem evalNode_sound {V : Type} [Inhabited V] {ex : FheOp → List (V × FheEdge) → Option V} {g : FGraph} : ∀ {k n : Nat} {v : V}, evalNode ex g k n = some v → NodeEval ex g n v
  | 0, n, v, h => by cases h
  | k + 1, n, v, h => by
    rw [evalNode] at h
    cases hw : g.weight n with
    | none => rw [hw] at h; cases h
    | some op =>
      rw [hw] at h
      simp only at h
      cases hm : (g.inEdges n).mapM (fun e => (evalNode ex g k e.1).map fun v => (v, e.2.2)) with
      | none => rw [hm] at h; cases h
      | some ins =>
        rw [hm] at h
        obtain ⟨i1, rfl⟩ := mapM_fuel hm
        exact .op (fun a => (evalNode ex g k a).getD default) hw (fun e he => evalNode_sound (i1 e he)) h

theorem mapM_some {α β : Type} {f : α → Option β} {h : α → β} : ∀ {l : List α}, (∀ x ∈ l, f x = some (h x)) → l.mapM f = some (l.map h)
  | [], _ => rfl
  | x :: xs, hx => by
    rw [List.mapM_cons, hx x (by simp), mapM_some (l := xs) (fun y hy => hx y (by simp [hy]))]
    rfl

/-- nodes are evaluated with as much fuel as their position in a topological order -/
theorem evalNode_complete {V : Type} {ex : FheOp → List (V × FheEdge) → Option V} {g : FGraph} {ord : List Nat} (ht : Sched.TopoOrder g ord) {n : Nat} {v : V} (h : NodeEval ex g n v) :
    ∀ (l₁ l₂ : List Nat), ord = l₁ ++ n :: l₂ → ∀ k, l₁.length < k → evalNode ex g k n = some v := by
  induction h with
  | @op n op v f hw hs hx ih =>
    intro l₁ l₂ ho k hk
    match k, hk with
    | k + 1, hk =>
      rw [evalNode, hw]
      simp only
      rw [mapM_some (h := fun e => (f e.1, e.2.2)) (fun e he => ?_)]
      · exact hx
      · have hmem : e ∈ g.edges ∧ e.2.1 = n := by simpa [Graph.inEdges] using he
        have hn : e.2.1 = n := hmem.2
        have hb := ht.edge e hmem.1 l₁ l₂ (by rw [hn]; exact ho)
        obtain ⟨m₁, m₂, hm⟩ := List.append_of_mem hb
        rw [ih e he m₁ (m₂ ++ n :: l₂) (by rw [ho, hm]; simp) k (by rw [hm] at hk; simp at hk; omega)]
        rfl

theorem ord_length {g : FGraph} {ord : List Nat} (ht : Sched.TopoOrder g ord) : ord.length ≤ g.nodes.length := by
  have : ord ⊆ List.range g.nodes.length := by
    intro n hn
    obtain ⟨x, hx⟩ := Option.isSome_iff_exists.1 ((ht.mem n).1 hn)
    exact List.mem_range.2 (lt_of_weight hx)
  have := (List.subperm_of_subset ht.nodup this).length_le
  simpa using this

theorem evalNode_all {V : Type} {ex : FheOp → List (V × FheEdge) → Option V} {g : FGraph} {ord : List Nat} (ht : Sched.TopoOrder g ord) {n : Nat} {v : V} (h : NodeEval ex g n v) :
    evalNode ex g g.nodes.length n = some v := by
  have hw : (g.weight n).isSome := by cases h with | op f hw _ _ => rw [hw]; rfl
  obtain ⟨l₁, l₂, ho⟩ := List.append_of_mem ((ht.mem n).2 hw)
  refine evalNode_complete ht h l₁ l₂ ho _ ?_
  have := ord_length ht
  rw [ho] at this
  simp at this
  omega

theorem evalOut_all {V : Type} {ex : FheOp → List (V × FheEdge) → Option V} {g : FGraph} {ord : List Nat} (ht : Sched.TopoOrder g ord)
    (huniq : ∀ n n' t c, g.weight n = some (.output t c) → g.weight n' = some (.output t c) → n = n') {n o : Nat} {v : V}
    (hn : g.weight n = some (.output .glwe1 o)) (h : NodeEval ex g n v) : evalOut ex g o = some v := by
  unfold evalOut
  cases hf : g.indices.find? (isOut g o) with
  | none =>
    have := List.find?_eq_none.1 hf n (mem_indices.2 (by rw [hn]; rfl))
    simp [isOut, hn] at this
  | some n' =>
    have := List.find?_some hf
    simp only [isOut, decide_eq_true_eq] at this
    simp only
    rw [huniq n' n _ _ this hn]
    exact evalNode_all ht h

/-! ### bits -/

/-- contents of cells: the bits they encrypt -/
def bitDom : Dom Bool where
  zero := false
  one := true
  run := fun job _ μ => some (Job.bits μ job)

/-- registers of bits -/
def toReg : VReg Bool → Reg
  | .plain v w => .plain v w
  | .cts l => .cipher l

theorem toReg_shape {α β : Type} {f : α → β} (x : VReg α) (y : VReg β) (h : RegRel (fun a b => f a = b) x y) : x.shape = y.shape := regRel_shape h

/-- forget bits -/
def blank : Reg → Reg
  | .plain v w => .plain v w
  | .cipher l => .cipher (l.map fun _ => false)

theorem shape_blank (x : VReg Bool) : x.shape = blank (toReg x) := by cases x <;> rfl

theorem shapes_blank (vs : List (VReg Bool)) : vs.map VReg.shape = (vs.map toReg).map blank := by
  rw [List.map_map]; exact List.map_congr_left fun x _ => shape_blank x

theorem span_blank (vs : List Reg) (w : Nat) (o : Int) : span (vs.map blank) w o = span vs w o := by
  cases vs with
  | nil => rfl
  | cons x xs => cases x <;> rfl

theorem access_blank (i : Inst) (vs : List Reg) : i.access (vs.map blank) = i.access vs := by
  unfold Inst.access
  cases i.op <;> first | rfl | exact span_blank vs _ _

theorem next_blank (i : Inst) (pc : Nat) (vs : List Reg) : i.next pc (vs.map blank) = i.next pc vs := by
  unfold Inst.next
  cases i.op <;> first | rfl | (cases vs with | nil => rfl | cons v vs => cases v <;> rfl)

theorem isPlain_blank (r : Reg) : (blank r).isPlain = r.isPlain := by cases r <;> rfl

theorem async_blank (i : Inst) (vs : List Reg) : i.async (vs.map blank) = i.async vs := by
  have h1 : ∀ l : List Reg, (l.map blank).any (!·.isPlain) = l.any (!·.isPlain) := by
    intro l; rw [List.any_map]; congr 1; funext r; simp [isPlain_blank]
  have h2 : (vs.map blank).head?.any (!·.isPlain) = vs.head?.any (!·.isPlain) := by
    cases vs with
    | nil => rfl
    | cons x xs => simp [isPlain_blank]
  unfold Inst.async
  cases i.op <;> simp only [h1, h2, ← List.map_drop]

theorem number_reg (f : Nat → Bool) : ∀ (vs : List (VReg Bool)) (k : Nat), (∀ (j : Nat) x, (vs.flatMap VReg.bits)[j]? = some x → f (k + j) = x) →
    (number k vs).map (CReg.plainOf f) = vs.map toReg
  | [], _, _ => rfl
  | .plain v w :: vs, k, h => by
    simp only [number, List.map_cons]
    rw [number_reg f vs k (fun j x hj => h j x (by simpa [VReg.bits] using hj))]
    rfl
  | .cts l :: vs, k, h => by
    simp only [number, List.map_cons]
    rw [number_reg f vs (k + l.length) (fun j x hj => by
      rw [Nat.add_assoc]
      refine h (l.length + j) x ?_
      simp only [List.flatMap_cons, VReg.bits]
      rw [List.getElem?_append_right (by omega)]
      simpa using hj)]
    refine congrArg (· :: _) ?_
    show Reg.cipher _ = Reg.cipher l
    congr 1
    refine List.ext_getElem? fun j => ?_
    rw [List.getElem?_map]
    by_cases hj : j < l.length
    · have hl : l[j]? = some l[j] := List.getElem?_eq_getElem hj
      rw [List.getElem?_range' hj, hl]
      simp only [Option.map_some, Nat.one_mul]
      rw [h j l[j] (by simp only [List.flatMap_cons, VReg.bits]; rw [List.getElem?_append_left hj]; exact hl)]
    · rw [List.getElem?_eq_none (by simp; omega), List.getElem?_eq_none (by omega)]; rfl

theorem number_value (vs : List (VReg Bool)) : (number 2 vs).map (CReg.plainOf (value bitDom vs)) = vs.map toReg := by
  refine number_reg _ vs 2 fun j x hj => ?_
  unfold value
  rw [show 2 + j = j + 1 + 1 by omega, List.getD_cons_succ, List.getD_cons_succ, List.getD_eq_getElem?_getD, hj]
  rfl

theorem toReg_ofCells (f : Nat → Bool) (r : CReg) : toReg (VReg.ofCells f r) = CReg.plainOf f r := by cases r <;> rfl

theorem alu_bits (i : Inst) (vs : List (VReg Bool)) : i.alu (vs.map toReg) = (match alu bitDom i vs with | .error e => .error e | .ok rs => .ok (rs.map toReg)) := by
  have hs := alu_sim (μ := value bitDom vs) (S := fun _ => True) rfl rfl trivial trivial i (vs := number 2 vs) (fun _ _ _ _ => trivial)
  rw [number_value] at hs
  unfold alu
  cases hc : Cells.alu i (number 2 vs) with
  | error e => rw [hc] at hs; exact hs
  | ok act =>
    rw [hc] at hs
    cases act with
    | done rs =>
      rw [hs.1]
      simp only [List.map_map]
      refine congrArg _ (List.map_congr_left fun r _ => ?_)
      exact (toReg_ofCells _ r).symm
    | spawn job rs =>
      obtain ⟨hok, _, h3⟩ := hs
      have hlen := bits_length (μ := value bitDom vs) hok
      have := (h3 (fun c => (Job.bits (value bitDom vs) job).getD (c - (total vs + 2)) false) (List.range' (total vs + 2) job.size) List.length_range' (by
        refine List.ext_getElem? fun j => ?_
        rw [List.getElem?_map]
        by_cases hj : j < job.size
        · rw [List.getElem?_range' hj]
          simp only [Option.map_some, Nat.one_mul, Nat.add_sub_cancel_left]
          rw [List.getD_eq_getElem?_getD, List.getElem?_eq_getElem (by omega)]
          rfl
        · rw [List.getElem?_eq_none (by simp; omega), List.getElem?_eq_none (by omega)]; rfl)).1
      rw [this]
      simp only [bitDom, List.map_map]
      refine congrArg _ (List.map_congr_left fun r _ => ?_)
      exact (toReg_ofCells _ r).symm

/-! memory of bits: the same type, so `loadReg` and `storeBytes` agree -/

theorem loadPlains_bits (m : VView Bool) : ∀ l, loadPlains m l = Cpu.loadPlains m l
  | [] => rfl
  | a :: as => by
    simp only [loadPlains, Cpu.loadPlains, loadPlains_bits m as]
    cases m a with
    | none => rfl
    | some b => cases b <;> rfl

theorem loadCts_bits (m : VView Bool) : ∀ l, loadCts m l = Cpu.loadCiphers m l
  | [] => rfl
  | a :: as => by
    simp only [loadCts, Cpu.loadCiphers, loadCts_bits m as]
    cases m a with
    | none => rfl
    | some b => cases b with
      | plain v => rfl
      | cipher l => simp only; cases Cpu.loadCiphers m as <;> rfl

theorem loadReg_bits (m : VView Bool) (w : Nat) (l : List Nat) : Cpu.loadReg m w l = (match loadReg m w l with | .error e => .error e | .ok r => .ok (toReg r)) := by
  cases l with
  | nil => rfl
  | cons a as =>
    simp only [loadReg, Cpu.loadReg, loadPlains_bits, loadCts_bits]
    cases m a with
    | none => rfl
    | some b =>
      cases b with
      | plain v => simp only; cases Cpu.loadPlains m as <;> rfl
      | cipher l => simp only; cases Cpu.loadCiphers m as <;> rfl

theorem storeByte_bits (v : VReg Bool) (i : Nat) : Cpu.storeByte (toReg v) i = storeByte v i := by cases v <;> rfl

theorem storeBytes_bits (v : VReg Bool) : ∀ (l : List Nat) (i : Nat) (m : VView Bool), Cpu.storeBytes (toReg v) l i m = storeBytes v l i m
  | [], _, _ => rfl
  | a :: as, i, m => by
    simp only [storeBytes, Cpu.storeBytes, storeByte_bits]
    cases storeByte v i with
    | error e => rfl
    | ok b =>
      simp only
      cases m a with
      | none => rfl
      | some y => simp only; exact storeBytes_bits v as (i + 1) _

theorem exec_bits (i : Inst) (vs : List (VReg Bool)) (m : VView Bool) :
    i.exec (vs.map toReg) m = (match exec bitDom i vs m with | .error e => .error e | .ok (rs, n) => .ok (rs.map toReg, n)) := by
  by_cases h1 : i.op = .load
  · simp only [exec, Inst.exec, h1]
    rw [shapes_blank, span_blank]
    cases span (vs.map toReg) (i.nat 2) (i.arg 3) with
    | error e => rfl
    | ok l =>
      simp only [loadReg_bits]
      cases loadReg m (i.nat 2) l <;> rfl
  · by_cases h2 : i.op = .store
    · simp only [exec, Inst.exec, h2]
      by_cases hc : i.nat 0 = i.nat 1
      · rw [if_pos hc, if_pos hc]
      rw [if_neg hc, if_neg hc, shapes_blank, span_blank]
      cases span (vs.map toReg) (i.nat 2) (i.arg 3) with
      | error e => rfl
      | ok l =>
        have hg : (vs.map toReg).getD 1 .default = toReg (vs.getD 1 (.plain 0 32)) := by
          rw [List.getD_eq_getElem?_getD, List.getD_eq_getElem?_getD, List.getElem?_map]
          cases vs[1]? <;> rfl
        simp only [hg, storeBytes_bits]
        cases storeBytes (vs.getD 1 (.plain 0 32)) l 0 m <;> rfl
    · rw [exec_alu bitDom h1 h2, Cpu.exec_alu h1 h2, alu_bits]
      cases alu bitDom i vs <;> rfl

/-- states of bits -/
def toArch (a : Arch (VReg Bool) Nat (Option (Byte Bool))) : Arch Reg Nat (Option (Byte Bool)) := { reg := fun r => toReg (a.reg r), mem := a.mem, pc := a.pc }

theorem assign_bits (outs : List (VReg Bool)) : ∀ (ds : List Nat) (k : Nat) (reg : Nat → VReg Bool) (r : Nat),
    assign (fun r => toReg (reg r)) Reg.default (outs.map toReg) k ds r = toReg (assign reg (.plain 0 32) outs k ds r)
  | [], _, _, _ => rfl
  | d :: ds, k, reg, r => by
    simp only [assign]
    rw [← assign_bits outs ds (k + 1)]
    congr 1
    funext r
    by_cases hr : r = d
    · rw [if_pos hr, if_pos hr, List.getD_eq_getElem?_getD, List.getD_eq_getElem?_getD, List.getElem?_map]
      cases outs[k]? <;> rfl
    · rw [if_neg hr, if_neg hr]

theorem step_bits (prog : Nat → Except Err Inst) (a : Arch (VReg Bool) Nat (Option (Byte Bool))) :
    Seq.step parasol prog (toArch a) = (match Seq.step (isa bitDom) prog a with | .error e => .error e | .ok (b, h) => .ok (toArch b, h)) := by
  unfold Seq.step
  have hpc : (toArch a).pc = a.pc := rfl
  rw [hpc]
  cases hp : prog a.pc with
  | error e => rfl
  | ok i =>
    have hmap : (parasol.srcs i).map (toArch a).reg = (i.srcs.map a.reg).map toReg := by rw [List.map_map]; rfl
    have hsh := shapes_blank (i.srcs.map a.reg)
    have hac : (isa bitDom).access i (((isa bitDom).srcs i).map a.reg) = parasol.access i ((i.srcs.map a.reg).map toReg) := by
      show i.access ((i.srcs.map a.reg).map VReg.shape) = _
      rw [hsh, access_blank]; rfl
    have hnx : (isa bitDom).next i a.pc (((isa bitDom).srcs i).map a.reg) = parasol.next i a.pc ((i.srcs.map a.reg).map toReg) := by
      show i.next a.pc ((i.srcs.map a.reg).map VReg.shape) = _
      rw [hsh, next_blank]; rfl
    have hex : parasol.exec i ((i.srcs.map a.reg).map toReg) (toArch a).mem = (match exec bitDom i (i.srcs.map a.reg) a.mem with | .error e => .error e | .ok (rs, n) => .ok (rs.map toReg, n)) :=
      exec_bits i _ _
    simp only [effect, hmap, hac, hnx, hex]
    cases parasol.access i ((i.srcs.map a.reg).map toReg) with
    | error e => rfl
    | ok l =>
      simp only
      have hsr : (isa bitDom).exec i (((isa bitDom).srcs i).map a.reg) a.mem = exec bitDom i (i.srcs.map a.reg) a.mem := rfl
      rw [hsr]
      cases exec bitDom i (i.srcs.map a.reg) a.mem with
      | error e => rfl
      | ok res =>
        obtain ⟨rs, n⟩ := res
        simp only
        have has : assign (toArch a).reg parasol.dflt (rs.map toReg) 0 (parasol.dsts i) = fun r => toReg (assign a.reg (.plain 0 32) rs 0 i.dsts r) := by
          funext r; exact assign_bits rs i.dsts 0 a.reg r
        cases parasol.next i a.pc ((i.srcs.map a.reg).map toReg) with
        | ok pc' => simp only [has]; rfl
        | error e => cases e <;> first | rfl | (simp only [has]; rfl)

theorem returns_bits {prog : Nat → Except Err Inst} : ∀ (k : Nat) {a b : Arch (VReg Bool) Nat (Option (Byte Bool))}, Returns (isa bitDom) prog k a b → Returns parasol prog k (toArch a) (toArch b)
  | 0, _, _, h => absurd h id
  | k + 1, a, b, h => by
    unfold Returns at h ⊢
    rw [step_bits]
    cases hs : Seq.step (isa bitDom) prog a with
    | error e => rw [hs] at h; exact absurd h id
    | ok res =>
      obtain ⟨c, halted⟩ := res
      rw [hs] at h
      cases halted with
      | true => obtain ⟨h1, rfl⟩ := h; exact ⟨h1, rfl⟩
      | false => exact returns_bits k h

theorem returns_bits' {prog : Nat → Except Err Inst} : ∀ (k : Nat) {a : Arch (VReg Bool) Nat (Option (Byte Bool))} {b : Arch Reg Nat (Option (Byte Bool))}, Returns parasol prog k (toArch a) b →
    ∃ b', Returns (isa bitDom) prog k a b' ∧ b = toArch b'
  | 0, _, _, h => absurd h id
  | k + 1, a, b, h => by
    unfold Returns at h
    rw [step_bits] at h
    cases hs : Seq.step (isa bitDom) prog a with
    | error e => rw [hs] at h; exact absurd h id
    | ok res =>
      obtain ⟨c, halted⟩ := res
      rw [hs] at h
      cases halted with
      | true =>
        obtain ⟨h1, rfl⟩ := h
        refine ⟨c, ?_, rfl⟩
        unfold Returns; rw [hs]; exact ⟨h1, rfl⟩
      | false =>
        obtain ⟨b', e1, e2⟩ := returns_bits' k h
        refine ⟨b', ?_, e2⟩
        unfold Returns; rw [hs]; exact e1

theorem steady_bits {prog : Nat → Except Err Inst} {key : Inst → Nat} : ∀ (k : Nat) {a : Arch (VReg Bool) Nat (Option (Byte Bool))} {w : Slow Nat},
    Steady parasol prog key k (toArch a) w → Steady (isa bitDom) prog key k a w
  | 0, _, _, _ => by unfold Steady; trivial
  | k + 1, a, w, h => by
    unfold Steady at h ⊢
    have hpc : (toArch a).pc = a.pc := rfl
    rw [step_bits, hpc] at h
    cases hp : prog a.pc with
    | error e => simp only
    | ok i =>
      rw [hp] at h
      cases hs : Seq.step (isa bitDom) prog a with
      | error e => simp only
      | ok res =>
        obtain ⟨c, halted⟩ := res
        rw [hs] at h
        simp only at h ⊢
        refine ⟨h.1, ?_⟩
        have hw : slowStep (isa bitDom) i a w = slowStep parasol i (toArch a) w := by
          have hmap : (parasol.srcs i).map (toArch a).reg = (i.srcs.map a.reg).map toReg := by rw [List.map_map]; rfl
          simp only [slowStep, slowInst, hmap]
          simp only [isa, shapes_blank, access_blank, async_blank]
          rfl
        rw [hw]
        exact steady_bits k h.2

end Spf.CtCpu
