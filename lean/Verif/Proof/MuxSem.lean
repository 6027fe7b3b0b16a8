import Verif.Spec.MuxSem
/-! Valuations of multiplexer graphs in an arbitrary algebra. -/
namespace Spf.Mux
open Spf.Spec Graph

/-- interpretation of constants and multiplexers -/
structure Alg (α : Type) where
  zero : α
  one : α
  mux : α → α → α → α

def boolAlg : Alg Bool := ⟨false, true, fun s l h => bif s then h else l⟩
def depthAlg : Alg Nat := ⟨0, 0, fun s l h => 1 + max s (max l h)⟩

/-- `v` assigns values to nodes, `w n k` is the value expected on the operand `k` of node `n`. -/
def EdgeOK {α} (g : MGraph) (v : Nat → α) (w : Nat → MuxEdge → α) : Prop :=
  ∀ e ∈ g.edges, v e.1 = w e.2.1 e.2.2

def NodeOK {α} (A : Alg α) (env : Nat → α) (v : Nat → α) (w : Nat → MuxEdge → α) (n : Nat) : MuxOp → Prop
  | .zero => v n = A.zero
  | .one => v n = A.one
  | .mux => v n = A.mux (w n .select) (w n .low) (w n .high)
  | .variable i => v n = env i
  | .output _ => v n = w n .output

def NodesOK {α} (A : Alg α) (env : Nat → α) (g : MGraph) (v : Nat → α) (w : Nat → MuxEdge → α) : Prop :=
  ∀ n op, g.weight n = some op → NodeOK A env v w n op

theorem eval_sound {g : MGraph} {env} {v : Nat → Bool} {w} (hE : EdgeOK g v w) (hN : NodesOK boolAlg env g v w)
    {n b} (h : Eval g env n b) : v n = b := by
  induction h with
  | zero hw => exact hN _ _ hw
  | one hw => exact hN _ _ hw
  | var hw => exact hN _ _ hw
  | mux hw hs hl hh _ _ _ i1 i2 i3 =>
    have := hN _ _ hw
    simp only [NodeOK, boolAlg] at this
    rw [this, ← hE _ hs, ← hE _ hl, ← hE _ hh]
    simp [i1, i2, i3]
  | output hw hs _ ih =>
    have := hN _ _ hw
    simp only [NodeOK] at this
    rw [this, ← hE _ hs]; exact ih

theorem eval_total {g : MGraph} (hc : Complete g) (env) (n : Nat) (hn : (g.weight n).isSome) :
    ∃ b, Eval g env n b := by
  obtain ⟨rank, hr⟩ := hc.acyclic
  generalize hk : rank n = k
  induction k using Nat.strongRecOn generalizing n with
  | _ k ih =>
    have step : ∀ s kd, (s, n, kd) ∈ g.edges → ∃ b, Eval g env s b := fun s kd hs =>
      ih (rank s) (by rw [← hk]; exact hr _ hs) s (hc.live _ hs).1 rfl
    obtain ⟨op, hop⟩ := Option.isSome_iff_exists.1 hn
    cases op with
    | zero => exact ⟨_, .zero hop⟩
    | one => exact ⟨_, .one hop⟩
    | «variable» i => exact ⟨_, .var hop⟩
    | mux =>
      obtain ⟨⟨s, hs⟩, ⟨l, hl⟩, ⟨h, hh⟩⟩ := hc.mux n hop
      obtain ⟨_, e1⟩ := step _ _ hs
      obtain ⟨_, e2⟩ := step _ _ hl
      obtain ⟨_, e3⟩ := step _ _ hh
      exact ⟨_, .mux hop hs hl hh e1 e2 e3⟩
    | output i =>
      obtain ⟨s, hs⟩ := hc.out n i hop
      obtain ⟨_, e1⟩ := step _ _ hs
      exact ⟨_, .output hop hs e1⟩

theorem eval_iff {g : MGraph} (hc : Complete g) {env} {v : Nat → Bool} {w} (hE : EdgeOK g v w)
    (hN : NodesOK boolAlg env g v w) (n : Nat) (hn : (g.weight n).isSome) (b : Bool) : Eval g env n b ↔ v n = b := by
  constructor
  · exact eval_sound hE hN
  · rintro rfl
    obtain ⟨b, hb⟩ := eval_total hc env n hn
    rw [eval_sound hE hN hb]; exact hb

/-- operand of kind `k` -/
def operand (g : MGraph) (n : Nat) (k : MuxEdge) : Nat :=
  match (g.inEdges n).find? (fun e => e.2.2 == k) with
  | some e => e.1
  | none => 0

/-- value with bounded recursion -/
def valA {α} (A : Alg α) (env : Nat → α) (g : MGraph) : Nat → Nat → α
  | 0, _ => A.zero
  | f + 1, n =>
    match g.weight n with
    | some .zero => A.zero
    | some .one => A.one
    | some (.variable i) => env i
    | some .mux => A.mux (valA A env g f (operand g n .select)) (valA A env g f (operand g n .low)) (valA A env g f (operand g n .high))
    | some (.output _) => valA A env g f (operand g n .output)
    | none => A.zero

theorem mem_inEdges {g : MGraph} {s n k} : (s, n, k) ∈ g.inEdges n ↔ (s, n, k) ∈ g.edges := by
  simp [inEdges]

theorem mem_inEdges' {g : MGraph} {e : Nat × Nat × MuxEdge} {n} : e ∈ g.inEdges n ↔ e ∈ g.edges ∧ e.2.1 = n := by
  simp [inEdges]

theorem operand_eq {g : MGraph} {s n k} (h : (s, n, k) ∈ g.edges)
    (hu : ∀ s', (s', n, k) ∈ g.edges → s' = s) : operand g n k = s := by
  unfold operand
  cases hf : (g.inEdges n).find? (fun e => e.2.2 == k) with
  | none =>
    have := List.find?_eq_none.1 hf (s, n, k) (mem_inEdges.2 h)
    simp at this
  | some e =>
    have h1 := List.mem_of_find?_eq_some hf
    have h2 := List.find?_some hf
    obtain ⟨a, b, c⟩ := e
    rw [mem_inEdges'] at h1
    simp only [beq_iff_eq] at h1 h2
    obtain ⟨h1, rfl⟩ := h1
    subst h2
    exact hu a h1

theorem _root_.Spf.Spec.WF.unique {g : MGraph} (h : WF g) {n s s' k} (h1 : (s, n, k) ∈ g.edges) (h2 : (s', n, k) ∈ g.edges) : s = s' := by
  obtain ⟨op, hop⟩ := Option.isSome_iff_exists.1 (h.live _ h1).2
  have hk := h.kind _ h1 op hop
  simp only at hop hk
  have m1 := mem_inEdges.2 h1
  have m2 := mem_inEdges.2 h2
  cases op with
  | zero => cases k <;> simp [KindOK] at hk
  | one => cases k <;> simp [KindOK] at hk
  | «variable» => cases k <;> simp [KindOK] at hk
  | mux =>
    obtain ⟨a, b, c, hp⟩ := h.mux1 n hop
    rw [hp.mem_iff] at m1 m2
    cases k <;> simp at m1 m2 <;> simp [m1, m2]
  | output i =>
    obtain ⟨a, hp⟩ := h.out1 n i hop
    rw [hp] at m1 m2
    simp at m1 m2
    rw [m1.1, m2.1]

theorem valA_stable {α} (A : Alg α) (env : Nat → α) {g : MGraph} (h : WF g) (rank : Nat → Nat)
    (hr : ∀ e ∈ g.edges, rank e.1 < rank e.2.1) : ∀ (f n : Nat), rank n < f →
    valA A env g f n = valA A env g (rank n + 1) n
  | 0, n, hf => by omega
  | f + 1, n, hf => by
    have key : ∀ s k, (s, n, k) ∈ g.edges → operand g n k = s ∧ valA A env g f s = valA A env g (rank n) s := by
      intro s k hs
      have := hr _ hs
      simp only at this
      refine ⟨operand_eq hs (fun s' hs' => h.unique hs' hs), ?_⟩
      rw [valA_stable A env h rank hr f s (by omega)]
      obtain ⟨m, hm⟩ : ∃ m, rank n = m := ⟨_, rfl⟩
      have : rank s < m := by omega
      rw [hm, ← valA_stable A env h rank hr m s this]
    cases hw : g.weight n with
    | none => simp [valA, hw]
    | some op =>
      cases op with
      | zero => simp [valA, hw]
      | one => simp [valA, hw]
      | «variable» i => simp [valA, hw]
      | mux =>
        obtain ⟨⟨s, hs⟩, ⟨l, hl⟩, ⟨hh, hhh⟩⟩ := h.mux n hw
        obtain ⟨a1, a2⟩ := key _ _ hs
        obtain ⟨b1, b2⟩ := key _ _ hl
        obtain ⟨c1, c2⟩ := key _ _ hhh
        simp only [valA, hw, a1, b1, c1, a2, b2, c2]
      | output i =>
        obtain ⟨s, hs⟩ := h.out n i hw
        obtain ⟨a1, a2⟩ := key _ _ hs
        simp only [valA, hw, a1, a2]
termination_by f n => f

/-- every well-formed graph has a valuation in every algebra -/
theorem exists_val {α} (A : Alg α) (env : Nat → α) {g : MGraph} (h : WF g) :
    ∃ v w, EdgeOK g v w ∧ NodesOK A env g v w := by
  obtain ⟨rank, hr⟩ := h.acyclic
  refine ⟨fun n => valA A env g (rank n + 1) n, fun n k => valA A env g (rank (operand g n k) + 1) (operand g n k), ?_, ?_⟩
  · rintro ⟨s, n, k⟩ he
    simp only
    rw [operand_eq he (fun s' hs' => h.unique hs' he)]
  · intro n op hw
    have key : ∀ s k, (s, n, k) ∈ g.edges →
        valA A env g (rank n) (operand g n k) = valA A env g (rank (operand g n k) + 1) (operand g n k) := by
      intro s k hs
      have := hr _ hs
      rw [operand_eq hs (fun s' hs' => h.unique hs' hs), valA_stable A env h rank hr (rank n) s this]
    cases op with
    | zero => simp [NodeOK, valA, hw]
    | one => simp [NodeOK, valA, hw]
    | «variable» i => simp [NodeOK, valA, hw]
    | mux =>
      obtain ⟨⟨s, hs⟩, ⟨l, hl⟩, ⟨hh, hhh⟩⟩ := h.mux n hw
      simp only [NodeOK]
      rw [valA]; simp only [hw]
      rw [key _ _ hs, key _ _ hl, key _ _ hhh]
    | output i =>
      obtain ⟨s, hs⟩ := h.out n i hw
      simp only [NodeOK]
      rw [valA]; simp only [hw]
      rw [key _ _ hs]

end Spf.Mux
