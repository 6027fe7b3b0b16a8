import Verif.Model.Traverse
import Verif.Spec.Traverse
import Verif.Proof.FromBdd
import Verif.Proof.Cse
import Mathlib.Data.List.Nodup
import Mathlib.Data.List.Permutation
import Mathlib.Data.List.Perm.Subperm
namespace Spf.Trav
open Graph Spf.Spec
variable {N E σ ε : Type}

theorem mem_prevs {fwd : Bool} {g : Graph N E} {n p : Nat} : p ∈ prevs fwd g n ↔ Before fwd g p n := by
  unfold prevs Before
  cases fwd
  · simp only [Bool.false_eq_true, ↓reduceIte, succs, outEdges, List.mem_map, List.mem_filter, beq_iff_eq]
    constructor
    · rintro ⟨⟨a, b, k⟩, ⟨h1, rfl⟩, rfl⟩; exact ⟨k, h1⟩
    · rintro ⟨k, h⟩; exact ⟨_, ⟨h, rfl⟩, rfl⟩
  · simp only [↓reduceIte, preds, inEdges, List.mem_map, List.mem_filter, beq_iff_eq]
    constructor
    · rintro ⟨⟨a, b, k⟩, ⟨h1, rfl⟩, rfl⟩; exact ⟨k, h1⟩
    · rintro ⟨k, h⟩; exact ⟨_, ⟨h, rfl⟩, rfl⟩

theorem mem_nexts {fwd : Bool} {g : Graph N E} {n p : Nat} : p ∈ nexts fwd g n ↔ Before fwd g n p := by
  have := mem_prevs (fwd := !fwd) (g := g) (n := n) (p := p)
  cases fwd <;> simpa [prevs, nexts, Before] using this

theorem before_live {fwd : Bool} {g : Graph N E} (h : EdgesLive g) {a b : Nat} (hb : Before fwd g a b) :
    (g.weight a).isSome ∧ (g.weight b).isSome := by
  cases fwd
  · obtain ⟨k, hk⟩ : ∃ k, (b, a, k) ∈ g.edges := by simpa [Before] using hb
    exact ⟨(h _ hk).2, (h _ hk).1⟩
  · obtain ⟨k, hk⟩ : ∃ k, (a, b, k) ∈ g.edges := by simpa [Before] using hb
    exact ⟨(h _ hk).1, (h _ hk).2⟩

theorem mem_indices {g : Graph N E} {n : Nat} : n ∈ g.indices ↔ (g.weight n).isSome := by
  unfold indices
  rw [List.mem_filter, List.mem_range]
  constructor
  · exact And.right
  · intro h
    refine ⟨?_, h⟩
    by_contra hn
    unfold weight at h
    rw [List.getD_eq_getElem?_getD, List.getElem?_eq_none (by omega)] at h
    cases h

theorem indices_nodup (g : Graph N E) : g.indices.Nodup := List.nodup_range.filter _

theorem ready_iff {fwd : Bool} {g : Graph N E} {vis : List Nat} {n : Nat} :
    ready? fwd g vis n = true ↔ ∀ p, Before fwd g p n → p ∈ vis := by
  unfold ready?
  rw [List.all_eq_true]
  constructor
  · intro h p hp; simpa using h p (mem_prevs.2 hp)
  · intro h p hp; simpa using h p (mem_prevs.1 hp)

/-- Everything but completeness. -/
structure Sound (fwd : Bool) (g : Graph N E) (st : TravState) : Prop where
  perm : st.ready.Perm (st.visited ++ st.stack)
  nodup : st.ready.Nodup
  live : ∀ n ∈ st.ready, (g.weight n).isSome
  stack : ∀ n ∈ st.stack, ∀ p, Before fwd g p n → p ∈ st.visited
  order : InOrder fwd g st.visited.reverse

/-- A node all of whose predecessors are visited is known to be ready. -/
def Full (fwd : Bool) (g : Graph N E) (st : TravState) : Prop :=
  ∀ n, (g.weight n).isSome → (∀ p, Before fwd g p n → p ∈ st.visited) → n ∈ st.ready

theorem push_sound {fwd : Bool} {g : Graph N E} (hl : EdgesLive g) : ∀ (is : List Nat) (st : TravState),
    (∀ i ∈ is, (g.weight i).isSome) → Sound fwd g st →
    Sound fwd g (push fwd g is st) ∧ (push fwd g is st).visited = st.visited ∧
      (∀ n ∈ st.ready, n ∈ (push fwd g is st).ready) ∧
      ∀ i ∈ is, (∀ p, Before fwd g p i → p ∈ st.visited) → i ∈ (push fwd g is st).ready
  | [], st, _, h => ⟨h, rfl, fun _ h => h, by simp⟩
  | i :: is, st, hi, h => by
    rw [push]
    by_cases hc : (!st.ready.contains i && ready? fwd g st.visited i) = true
    · rw [if_pos hc]
      rw [Bool.and_eq_true, ready_iff] at hc
      have hni : i ∉ st.ready := by simpa using hc.1
      have h' : Sound fwd g { st with ready := i :: st.ready, stack := i :: st.stack } := by
        refine ⟨?_, List.nodup_cons.2 ⟨hni, h.nodup⟩, ?_, ?_, h.order⟩
        · exact (h.perm.cons i).trans List.perm_middle.symm
        · intro n hn
          rcases List.mem_cons.1 hn with rfl | hn
          · exact hi _ List.mem_cons_self
          · exact h.live n hn
        · intro n hn
          rcases List.mem_cons.1 hn with rfl | hn
          · exact hc.2
          · exact h.stack n hn
      obtain ⟨a, b, c, d⟩ := push_sound hl is _ (fun j hj => hi j (List.mem_cons_of_mem _ hj)) h'
      refine ⟨a, b, fun n hn => c n (List.mem_cons_of_mem _ hn), ?_⟩
      intro j hj hp
      rcases List.mem_cons.1 hj with rfl | hj
      · exact c _ List.mem_cons_self
      · exact d j hj hp
    · rw [if_neg hc]
      obtain ⟨a, b, c, d⟩ := push_sound hl is st (fun j hj => hi j (List.mem_cons_of_mem _ hj)) h
      refine ⟨a, b, c, ?_⟩
      intro j hj hp
      rcases List.mem_cons.1 hj with rfl | hj
      · rw [Bool.and_eq_true, ready_iff] at hc
        have : j ∈ st.ready := by
          by_contra hn
          exact hc ⟨by simpa using hn, hp⟩
        exact c _ this
      · exact d j hj hp

/-- One iteration. -/
def next (fwd : Bool) (g : Graph N E) (st : TravState) (n : Nat) (rest : List Nat) : TravState :=
  push fwd g (nexts fwd g n) (push fwd g (nexts fwd g n) { st with stack := rest, visited := n :: st.visited })

theorem next_inv {fwd : Bool} {g : Graph N E} (hl : EdgesLive g) {st : TravState} {n rest} (hs : st.stack = n :: rest)
    (h : Sound fwd g st) (hf : Full fwd g st) :
    Sound fwd g (next fwd g st n rest) ∧ Full fwd g (next fwd g st n rest) ∧
      (next fwd g st n rest).visited = n :: st.visited := by
  have h0 : Sound fwd g { st with stack := rest, visited := n :: st.visited } := by
    refine ⟨?_, h.nodup, h.live, ?_, ?_⟩
    · refine h.perm.trans ?_
      rw [hs]
      exact List.perm_middle
    · intro m hm p hp
      exact List.mem_cons_of_mem _ (h.stack m (by rw [hs]; exact List.mem_cons_of_mem _ hm) p hp)
    · intro done m r he p hp
      simp only [List.reverse_cons] at he
      rcases List.eq_nil_or_concat r with rfl | ⟨r', x, rfl⟩
      · have := List.append_inj' he rfl
        have hm : n = m := by simpa using this.2
        subst hm
        rw [← this.1, List.mem_reverse]
        exact h.stack n (by rw [hs]; exact List.mem_cons_self) p hp
      · have he' : st.visited.reverse ++ [n] = (done ++ m :: r') ++ [x] := by simpa using he
        have := List.append_inj' he' rfl
        exact h.order done m r' this.1 p hp
  have hn : ∀ i ∈ nexts fwd g n, (g.weight i).isSome := fun i hi => (before_live hl (mem_nexts.1 hi)).2
  obtain ⟨a, b, c, d⟩ := push_sound hl (nexts fwd g n) _ hn h0
  obtain ⟨a', b', c', d'⟩ := push_sound hl (nexts fwd g n) _ hn a
  refine ⟨a', ?_, b'.trans b⟩
  intro m hm hp
  unfold next at hp ⊢
  rw [b', b] at hp
  by_cases hb : Before fwd g n m
  · exact c' _ (d m (mem_nexts.2 hb) hp)
  · refine c' _ (c _ (hf m hm fun p hpm => ?_))
    rcases List.mem_cons.1 (hp p hpm) with rfl | h
    · exact absurd hpm hb
    · exact h

theorem init_inv (fwd : Bool) (g : Graph N E) : Sound fwd g (init fwd g) ∧ Full fwd g (init fwd g) := by
  have key : ∀ n, n ∈ (init fwd g).ready ↔ (g.weight n).isSome ∧ prevs fwd g n = [] := by
    intro n
    simp [init, mem_indices]
  refine ⟨⟨?_, ?_, fun n hn => ((key n).1 hn).1, ?_, ?_⟩, ?_⟩
  · simp [init]
  · simp only [init, List.nodup_reverse]; exact (indices_nodup g).filter _
  · intro n hn p hp
    have := mem_prevs.2 hp
    rw [((key n).1 hn).2] at this
    cases this
  · intro done n rest he; simp [init] at he
  · intro n hn hp
    refine (key n).2 ⟨hn, ?_⟩
    rw [List.eq_nil_iff_forall_not_mem]
    intro p hm
    have := hp p (mem_prevs.1 hm)
    simp [init] at this

theorem Sound.len {fwd : Bool} {g : Graph N E} {st} (h : Sound fwd g st) :
    st.visited.length + st.stack.length ≤ g.nodes.length := by
  have h1 : st.ready.length ≤ g.indices.length :=
    (List.subperm_of_subset h.nodup (fun n hn => mem_indices.2 (h.live n hn))).length_le
  have h2 : g.indices.length ≤ g.nodes.length := by
    unfold indices
    refine Nat.le_trans (List.length_filter_le _ _) ?_
    rw [List.length_range]
  have h3 := h.perm.length_eq
  rw [List.length_append] at h3
  omega

/-- The loop calls the callback on a list of nodes that does not depend on the callback. -/
theorem loop_spec {fwd : Bool} {g : Graph N E} (hl : EdgesLive g) : ∀ (fuel : Nat) (st : TravState),
    Sound fwd g st → Full fwd g st → g.nodes.length ≤ st.visited.length + fuel →
    ∃ (more : List Nat) (fin : TravState), fin.stack = [] ∧ Sound fwd g fin ∧ Full fwd g fin ∧
      fin.visited.reverse = st.visited.reverse ++ more ∧
      ∀ (σ ε : Type) (f : σ → Nat → Except ε σ) (s : σ), loop fwd g f fuel st s =
        match more.foldlM f s with | .error e => .error e | .ok s => .ok (fin, s)
  | 0, st, h, hf, hfu => by
    have := h.len
    refine ⟨[], st, List.eq_nil_of_length_eq_zero (by omega), h, hf, by simp, fun _ _ _ _ => rfl⟩
  | fuel + 1, st, h, hf, hfu => by
    cases hs : st.stack with
    | nil =>
      refine ⟨[], st, hs, h, hf, by simp, fun σ ε f s => ?_⟩
      rw [loop, hs]; rfl
    | cons n rest =>
      obtain ⟨a, b, c⟩ := next_inv hl hs h hf
      obtain ⟨more, fin, h1, h2, h3, h4, h5⟩ := loop_spec hl fuel _ a b (by rw [c, List.length_cons]; omega)
      refine ⟨n :: more, fin, h1, h2, h3, by rw [h4, c]; simp, fun σ ε f s => ?_⟩
      have hw : (g.weight n).isSome := h.live n (h.perm.mem_iff.2 (by rw [hs]; simp))
      obtain ⟨w, hw⟩ := Option.isSome_iff_exists.1 hw
      rw [loop, hs]
      simp only [hw, List.foldlM_cons]
      cases hfn : f s n with
      | error e => rfl
      | ok s' => exact h5 σ ε f s'

theorem traverse_spec {fwd : Bool} {g : Graph N E} (hl : EdgesLive g) :
    ∃ order : List Nat, order.Nodup ∧ InOrder fwd g order ∧
      (∀ n, n ∈ order ↔ (g.weight n).isSome ∧ Grounded fwd g n) ∧
      ∀ (σ ε : Type) (f : σ → Nat → Except ε σ) (s : σ), traverse fwd g f s = order.foldlM f s := by
  obtain ⟨a, b⟩ := init_inv fwd g
  obtain ⟨more, fin, h1, h2, h3, h4, h5⟩ := loop_spec hl g.nodes.length _ a b (by omega)
  have h4' : fin.visited.reverse = more := by rw [h4]; simp [init]
  have hp : fin.ready.Perm fin.visited := by simpa [h1] using h2.perm
  have hm : ∀ n, n ∈ more ↔ n ∈ fin.ready := fun n => by rw [← h4', List.mem_reverse]; exact hp.mem_iff.symm
  refine ⟨more, ?_, h4' ▸ h2.order, ?_, ?_⟩
  · rw [← h4', List.nodup_reverse]; exact hp.nodup_iff.1 h2.nodup
  · intro n
    constructor
    · intro hn
      refine ⟨h2.live n ((hm n).1 hn), ?_⟩
      have ho : InOrder fwd g more := h4' ▸ h2.order
      have : ∀ (k : Nat) (n : Nat), more[k]? = some n → Grounded fwd g n := by
        intro k
        induction k using Nat.strongRecOn with
        | _ k ih =>
          intro n hk
          obtain ⟨hlt, he⟩ := List.getElem?_eq_some_iff.1 hk
          refine Acc.intro _ fun p hp => ?_
          have hsplit : more = more.take k ++ n :: more.drop (k + 1) := by
            conv_lhs => rw [← List.take_append_drop k more, List.drop_eq_getElem_cons hlt]
            rw [he]
          have := ho _ _ _ hsplit p hp
          obtain ⟨j, hj, hje⟩ := List.mem_iff_getElem.1 this
          rw [List.length_take] at hj
          refine ih j (by omega) p ?_
          rw [List.getElem_take] at hje
          exact List.getElem?_eq_some_iff.2 ⟨by omega, hje⟩
      obtain ⟨k, hk, hke⟩ := List.mem_iff_getElem.1 hn
      exact this k n (List.getElem?_eq_some_iff.2 ⟨hk, hke⟩)
    · rintro ⟨hw, hg⟩
      induction hg with
      | intro n _ ih =>
        rw [hm]
        refine h3 n hw fun p hb => ?_
        have := (hm p).1 (ih p hb (before_live hl hb).1)
        exact hp.mem_iff.1 this
  · intro σ ε f s
    unfold traverse
    rw [h5]
    cases more.foldlM f s <;> rfl

theorem rank_bound (rank : Nat → Nat) : ∀ es : List (Nat × Nat × E), ∃ M, ∀ e ∈ es, rank e.1 ≤ M ∧ rank e.2.1 ≤ M
  | [] => ⟨0, by simp⟩
  | e :: es => by
    obtain ⟨M, h⟩ := rank_bound rank es
    refine ⟨M + rank e.1 + rank e.2.1, fun x hx => ?_⟩
    rcases List.mem_cons.1 hx with rfl | hx
    · omega
    · have := h x hx; omega

theorem grounded_of_acyclic {fwd : Bool} {g : Graph N E} (h : Acyclic g) (n : Nat) : Grounded fwd g n := by
  obtain ⟨rank, hr⟩ := h
  cases fwd
  · obtain ⟨M, hM⟩ := rank_bound rank g.edges
    have : ∀ k n, M - rank n = k → Grounded false g n := by
      intro k
      induction k using Nat.strongRecOn with
      | _ k ih =>
        intro n hk
        refine Acc.intro _ fun p hp => ?_
        obtain ⟨kd, hkd⟩ : ∃ k, (n, p, k) ∈ g.edges := by simpa [Before] using hp
        have h1 := hr _ hkd
        have h2 := hM _ hkd
        simp only at h1 h2
        exact ih (M - rank p) (by omega) p rfl
    exact this _ n rfl
  · have : ∀ k n, rank n = k → Grounded true g n := by
      intro k
      induction k using Nat.strongRecOn with
      | _ k ih =>
        intro n hk
        refine Acc.intro _ fun p hp => ?_
        obtain ⟨kd, hkd⟩ : ∃ k, (p, n, k) ∈ g.edges := by simpa [Before] using hp
        have h1 := hr _ hkd
        simp only at h1
        exact ih (rank p) (by omega) p rfl
    exact this _ n rfl

/-! ### the evaluator -/
open Spf.Mux

/-- invariant of the evaluation: every node done so far holds its value -/
def DataOk (g : MGraph) (env : Nat → Bool) (data : List Bool) (done : List Nat) : Prop :=
  data.length = g.indices.length ∧ ∀ n ∈ done, ∃ b, data[n]? = some b ∧ Eval g env n b

theorem getMuxInputs_ok {g : MGraph} (h : WF g) {n : Nat} (hn : g.weight n = some .mux) :
    ∃ s l hi, getMuxInputs g n = some (s, l, hi) ∧ (s, n, MuxEdge.select) ∈ g.edges ∧ (l, n, MuxEdge.low) ∈ g.edges ∧
      (hi, n, MuxEdge.high) ∈ g.edges := by
  obtain ⟨s, l, hi, hp⟩ := h.mux1 n hn
  have hmem : ∀ e, e ∈ [(s, n, MuxEdge.select), (l, n, MuxEdge.low), (hi, n, MuxEdge.high)] → e ∈ g.edges := by
    intro e he
    have := hp.mem_iff.2 he
    unfold inEdges at this
    exact (List.mem_filter.1 this).1
  refine ⟨s, l, hi, ?_, hmem _ (by simp), hmem _ (by simp), hmem _ (by simp)⟩
  unfold getMuxInputs
  rw [if_neg (by simp [hn])]
  have hlen := hp.length_eq
  generalize hl : g.inEdges n = es at hp hlen
  match es, hlen with
  | [a, b, c], _ =>
    have h3 : [a, b, c] ∈ [(s, n, MuxEdge.select), (l, n, MuxEdge.low), (hi, n, MuxEdge.high)].permutations' := by
      rw [List.mem_permutations']; exact hp
    simp only [List.permutations', List.permutations'Aux, List.flatMap_cons, List.flatMap_nil, List.map_cons, List.map_nil,
      List.cons_append, List.nil_append, List.mem_cons, List.cons.injEq, and_true, List.not_mem_nil, or_false,
      List.append_nil] at h3
    rcases h3 with ⟨rfl, rfl, rfl⟩ | ⟨rfl, rfl, rfl⟩ | ⟨rfl, rfl, rfl⟩ | ⟨rfl, rfl, rfl⟩ | ⟨rfl, rfl, rfl⟩ | ⟨rfl, rfl, rfl⟩ <;> rfl

theorem step_ok {g : MGraph} (h : WF g) {inputs : List Bool} (hi : ∀ n i, g.weight n = some (.variable i) → i < inputs.length)
    (hfull : ∀ n, (g.weight n).isSome → n < g.indices.length) {data done} {n : Nat} (hn : (g.weight n).isSome)
    (hnd : n ∉ done) (hd : DataOk g (fun i => inputs.getD i false) data done) (hp : ∀ p, Before true g p n → p ∈ done) :
    ∃ data', testStep g inputs data n = some data' ∧ DataOk g (fun i => inputs.getD i false) data' (done ++ [n]) := by
  have hlt : n < data.length := by rw [hd.1]; exact hfull n hn
  have fin : ∀ b, Eval g (fun i => inputs.getD i false) n b →
      ∃ data', setBit data n b = some data' ∧ DataOk g (fun i => inputs.getD i false) data' (done ++ [n]) := by
    intro b hb
    refine ⟨data.set n b, by rw [setBit, if_pos hlt], by rw [List.length_set]; exact hd.1, ?_⟩
    intro m hm
    rcases List.mem_append.1 hm with hm | hm
    · obtain ⟨b', h1, h2⟩ := hd.2 m hm
      refine ⟨b', ?_, h2⟩
      rw [List.getElem?_set_ne (by rintro rfl; exact hnd hm)]; exact h1
    · obtain rfl := List.mem_singleton.1 hm
      exact ⟨b, List.getElem?_set_self hlt, hb⟩
  have arg : ∀ s k, (s, n, k) ∈ g.edges → ∃ b, data[s]? = some b ∧ Eval g (fun i => inputs.getD i false) s b := by
    intro s k hs
    exact hd.2 s (hp s (by simpa [Before] using ⟨k, hs⟩))
  obtain ⟨op, hop⟩ := Option.isSome_iff_exists.1 hn
  unfold testStep
  rw [hop]
  cases op with
  | one => exact fin _ (.one hop)
  | zero => exact fin _ (.zero hop)
  | «variable» i =>
    have := hi n i hop
    simp only [List.getElem?_eq_getElem this, Option.bind_some]
    have e : Eval g (fun i => inputs.getD i false) n (inputs.getD i false) := .var hop
    rw [show inputs.getD i false = inputs[i] by simp [List.getD, this]] at e
    exact fin _ e
  | output i =>
    obtain ⟨s, hs⟩ := h.out1 n i hop
    have hse : (s, n, MuxEdge.output) ∈ g.edges := by
      have : (s, n, MuxEdge.output) ∈ g.inEdges n := by rw [hs]; exact List.mem_singleton.2 rfl
      exact (List.mem_filter.1 this).1
    obtain ⟨b, h1, h2⟩ := arg s _ hse
    simp only [hs, List.head?_cons, Option.bind_some, h1]
    exact fin _ (.output hop hse h2)
  | mux =>
    obtain ⟨s, l, hh, h0, e1, e2, e3⟩ := getMuxInputs_ok h hop
    obtain ⟨bs, h1, h1'⟩ := arg _ _ e1
    obtain ⟨bl, h2, h2'⟩ := arg _ _ e2
    obtain ⟨bh, h3, h3'⟩ := arg _ _ e3
    simp only [h0, Option.bind_some, h1, h2, h3]
    have := fin _ (.mux hop e1 e2 e3 h1' h2' h3')
    cases bs <;> exact this

theorem fold_ok {g : MGraph} (h : WF g) {inputs : List Bool} (hi : ∀ n i, g.weight n = some (.variable i) → i < inputs.length)
    (hfull : ∀ n, (g.weight n).isSome → n < g.indices.length) : ∀ (todo done : List Nat) (data : List Bool),
    (done ++ todo).Nodup → InOrder true g (done ++ todo) → (∀ n ∈ todo, (g.weight n).isSome) →
    DataOk g (fun i => inputs.getD i false) data done →
    ∃ data', todo.foldlM (fun data n => orPanic (testStep g inputs data n)) data
      = .ok data' ∧ DataOk g (fun i => inputs.getD i false) data' (done ++ todo)
  | [], done, data, _, _, _, hd => ⟨data, rfl, by rw [List.append_nil]; exact hd⟩
  | n :: todo, done, data, hnd, ho, hl, hd => by
    have hn : n ∉ done := by
      intro hm
      exact (List.nodup_append.1 hnd).2.2 n hm n List.mem_cons_self rfl
    obtain ⟨data', h1, h2⟩ := step_ok h hi hfull (hl n List.mem_cons_self) hn hd (ho done n todo rfl)
    obtain ⟨data'', h3, h4⟩ := fold_ok h hi hfull todo (done ++ [n]) data' (by simpa using hnd) (by simpa using ho)
      (fun m hm => hl m (List.mem_cons_of_mem _ hm)) h2
    refine ⟨data'', ?_, by simpa using h4⟩
    rw [List.foldlM_cons]
    simp only [h1]
    exact h3

theorem noHoles_full {g : Graph N E} (h : NoHoles g) (n : Nat) (hn : (g.weight n).isSome) : n < g.indices.length := by
  have : (List.range (n + 1)).length ≤ g.indices.length := by
    refine (List.subperm_of_subset List.nodup_range fun m hm => ?_).length_le
    rw [List.mem_range] at hm
    rw [mem_indices]
    rcases Nat.lt_or_ge m n with hl | hl
    · exact h m n hn hl
    · rw [show m = n by omega]; exact hn
  rw [List.length_range] at this
  omega

theorem nodes_eq_range {α β} (l : List α) (d : α) (f : α → Option β) :
    (List.range l.length).filterMap (fun i => f (l.getD i d)) = l.filterMap f := by
  have : (List.range l.length).map (fun i => l.getD i d) = l := by
    apply List.ext_getElem
    · simp
    · intro i h1 h2
      simp [List.getD, h2]
  conv_rhs => rw [← this, List.filterMap_map]
  rfl

theorem outputNodes_numbers (g : MGraph) : (outputNodes g).map (·.2) = outputNumbers g.nodes := by
  unfold outputNodes indices outputNumbers
  rw [List.filterMap_filter, List.map_filterMap, ← nodes_eq_range g.nodes none]
  apply List.filterMap_congr
  intro x _
  show _ = match g.weight x with | some (.output i) => some i | _ => none
  cases hw : g.weight x with
  | none => simp
  | some op => cases op <;> simp

theorem outputNodes_mem {g : MGraph} {p : Nat × Nat} (h : p ∈ outputNodes g) : g.weight p.1 = some (.output p.2) := by
  unfold outputNodes at h
  rw [List.mem_filterMap] at h
  obtain ⟨x, _, h⟩ := h
  split at h
  · rename_i i hw
    cases h; exact hw
  · cases h

theorem sortPairs_of_pairwise : ∀ (l : List (Nat × Nat)), l.Pairwise (fun a b => pairLe a b = true) → sortPairs l = l
  | [], _ => rfl
  | x :: xs, h => by
    rw [List.pairwise_cons] at h
    rw [sortPairs, sortPairs_of_pairwise xs h.2]
    cases xs with
    | nil => rfl
    | cons y ys => rw [insertPair, if_pos (h.1 y List.mem_cons_self)]

theorem outputNodes_sorted (g : MGraph) : sortPairs (outputNodes g) = outputNodes g := by
  apply sortPairs_of_pairwise
  unfold outputNodes indices
  rw [List.filterMap_filter]
  apply List.Pairwise.filterMap (R := (· < ·)) _ _ List.pairwise_lt_range
  intro a a' h b hb b' hb'
  have e1 : b.1 = a := by
    revert hb
    cases hw : g.weight a with
    | none => simp
    | some op => cases op <;> simp; rintro rfl; rfl
  have e2 : b'.1 = a' := by
    revert hb'
    cases hw : g.weight a' with
    | none => simp
    | some op => cases op <;> simp; rintro rfl; rfl
  simp only [pairLe, decide_eq_true_eq]
  left; omega

theorem mapM_some {α β} {f : α → Option β} : ∀ {l : List α} {r : List β}, List.Forall₂ (fun a b => f a = some b) l r → l.mapM f = some r
  | [], _, h => by cases h; rfl
  | a :: l, _, h => by
    cases h with
    | cons h1 h2 => rw [List.mapM_cons, h1, mapM_some h2]; rfl

theorem var_count {c : MuxCircuit} {nIn outs} (h : Computes c nIn outs) : (metrics c.graph).2.1 = nIn := by
  have key : ∀ l : List (Option MuxOp), ∀ g : MGraph, ∀ ns : List Nat, l = ns.map g.weight →
      ((l.filterMap id).filter isVar).length = (ns.filter fun n => (g.weight n).any isVar).length := by
    intro l g ns
    induction ns generalizing l with
    | nil => rintro rfl; rfl
    | cons n ns ih =>
      rintro rfl
      have := ih _ rfl
      cases hw : g.weight n with
      | none => simpa [hw] using this
      | some op => cases hv : isVar op <;> simpa [hw, hv] using this
  have e1 : (metrics c.graph).2.1 = (c.graph.indices.filter fun n => (c.graph.weight n).any isVar).length := by
    have h1 : c.graph.nodes = (List.range c.graph.nodes.length).map c.graph.weight := by
      apply List.ext_getElem
      · simp
      · intro i h1 h2
        simp [weight, List.getD, h1]
    simp only [metrics]
    rw [key _ _ _ h1, indices, List.filter_filter]
    congr 1
    apply List.filter_congr
    intro x _
    cases c.graph.weight x <;> simp
  rw [e1, ← h.nInputs]
  apply List.Perm.length_eq
  rw [List.perm_ext_iff_of_nodup ((indices_nodup _).filter _)]
  · intro n
    rw [List.mem_filter, mem_indices]
    constructor
    · rintro ⟨_, h2⟩
      cases hw : c.graph.weight n with
      | none => simp [hw] at h2
      | some op =>
        cases op with
        | «variable» i => exact List.mem_of_getElem? ((h.inputs n i).1 hw).2
        | _ => simp [hw, isVar] at h2
    · intro hn
      obtain ⟨i, hi, he⟩ := List.mem_iff_getElem.1 hn
      have := (h.inputs n i).2 ⟨by rw [← h.nInputs]; exact hi, List.getElem?_eq_some_iff.2 ⟨hi, he⟩⟩
      simp [this, isVar]
  · rw [List.nodup_iff_injective_getElem]
    intro i j hij
    have hi := (h.inputs (c.inputs[i.1]) i).2 ⟨by rw [← h.nInputs]; exact i.2, by simp⟩
    have hj := (h.inputs (c.inputs[j.1]) j).2 ⟨by rw [← h.nInputs]; exact j.2, by simp⟩
    simp only at hij
    rw [hij, hj] at hi
    simp only [Option.some.injEq, MuxOp.variable.injEq] at hi
    exact Fin.ext hi.symm

theorem test_ok {c : MuxCircuit} {nIn outs} (hw : WF c.graph) (h : Computes c nIn outs) (hh : NoHoles c.graph)
    (ho : OutputsInOrder c.graph outs.length) {inputs : List Bool} (hlen : inputs.length = nIn) :
    testMuxCircuit c inputs = some (outs.map fun f => f fun i => inputs.getD i false) := by
  obtain ⟨order, h1, h2, h3, h4⟩ := traverse_spec (fwd := true) (g := c.graph) hw.live
  have hall : ∀ n, (c.graph.weight n).isSome → n ∈ order := fun n hn => (h3 n).2 ⟨hn, grounded_of_acyclic hw.acyclic n⟩
  obtain ⟨data, h5, h6, h7⟩ := fold_ok hw (inputs := inputs) (fun n i hi => by rw [hlen]; exact ((h.inputs n i).1 hi).1)
    (noHoles_full hh) order [] (List.replicate c.graph.indices.length false) (by simpa using h1) (by simpa using h2)
    (fun n hn => ((h3 n).1 hn).1) ⟨by simp, by simp⟩
  unfold testMuxCircuit
  rw [var_count h, if_neg (by simp [hlen])]
  unfold forwardTraverse
  rw [h4, h5]
  simp only [outputNodes_sorted]
  have hnum : (outputNodes c.graph).map (·.2) = List.range outs.length := (outputNodes_numbers _).trans ho
  have hlen2 : (outputNodes c.graph).length = outs.length := by simpa using congrArg List.length hnum
  apply mapM_some
  rw [List.forall₂_iff_get]
  refine ⟨by simp [hlen2], fun i hi hi' => ?_⟩
  have hw1 := outputNodes_mem (List.getElem_mem hi)
  have hi2 : ((outputNodes c.graph)[i]).2 = i := by
    have : ((outputNodes c.graph).map (·.2))[i]'(by simpa using hi) = i := by simp [hnum]
    simpa using this
  rw [hi2] at hw1
  obtain ⟨b, hb1, hb2⟩ := h7 ((outputNodes c.graph)[i]).1 (hall _ (by rw [hw1]; rfl))
  have := (h.value _ i outs[i] hw1 (by simp) _ b).1 hb2
  simp only [List.get_eq_getElem, List.getElem_map]
  rw [hb1, this]

/-! ### circuits built from diagrams have their outputs in order -/

/-- output numbers while the circuit is being built -/
def outNums (nodes : List (Option (MuxOp × Nat))) : List Nat := outputNumbers (nodes.map (Option.map Prod.fst))

theorem outNums_append (a b) : outNums (a ++ b) = outNums a ++ outNums b := by
  simp [outNums, outputNumbers]

/-- every slot is occupied -/
def Solid {α} (nodes : List (Option α)) : Prop := ∀ x ∈ nodes, x.isSome

theorem pick_outs (st : BState) (nd : BddNode) : outNums (pickNode st nd).1.g.nodes = outNums st.g.nodes ∧
    (Solid st.g.nodes → Solid (pickNode st nd).1.g.nodes) := by
  have key : ∀ w : MuxOp × Nat, (∀ i, w.1 ≠ .output i) → outNums (st.g.nodes ++ [some w]) = outNums st.g.nodes ∧
      (Solid st.g.nodes → Solid (st.g.nodes ++ [some w])) := by
    intro w hw
    constructor
    · rw [outNums_append]
      obtain ⟨op, v⟩ := w
      cases op <;> simp [outNums, outputNumbers] at hw ⊢
    · intro h x hx
      rcases List.mem_append.1 hx with hx | hx
      · exact h x hx
      · rw [List.mem_singleton.1 hx]; rfl
  unfold pickNode
  split
  · split
    · exact ⟨rfl, id⟩
    · exact key _ (by simp)
  · split
    · split
      · exact ⟨rfl, id⟩
      · exact key _ (by simp)
    · exact key _ (by simp)

theorem addEdge_nodes {M F : Type} {g g' : Graph M F} {a b e} (h : g.addEdge a b e = some g') : g'.nodes = g.nodes := by
  unfold addEdge at h
  split at h
  · cases h; rfl
  · cases h

theorem nodeStep_outs {st st' : BState} {nd} (h : bddNodeStep st nd = some st') :
    outNums st'.g.nodes = outNums st.g.nodes ∧ (Solid st.g.nodes → Solid st'.g.nodes) := by
  have hp := pick_outs { st with maxInputs := max st.maxInputs nd.var } nd
  have : st'.g.nodes = (pickNode { st with maxInputs := max st.maxInputs nd.var } nd).1.g.nodes := by
    unfold bddNodeStep at h
    simp only at h
    split at h
    · split at h
      · split at h
        · cases h
        · rename_i g1 h1
          split at h
          · cases h
          · rename_i g2 h2
            cases h
            exact (addEdge_nodes h2).trans (addEdge_nodes h1)
      · cases h
    · cases h; rfl
  rw [this]
  exact hp

theorem nodes_outs : ∀ (ser : List BddNode) {st st' : BState}, bddNodes st ser = some st' →
    outNums st'.g.nodes = outNums st.g.nodes ∧ (Solid st.g.nodes → Solid st'.g.nodes)
  | [], st, st', h => by cases h; exact ⟨rfl, id⟩
  | nd :: nds, st, st', h => by
    rw [bddNodes] at h
    cases h1 : bddNodeStep st nd with
    | none => rw [h1] at h; cases h
    | some s1 =>
      rw [h1] at h
      obtain ⟨a, b⟩ := nodeStep_outs h1
      obtain ⟨a', b'⟩ := nodes_outs nds h
      exact ⟨a'.trans a, fun hs => b' (b hs)⟩

theorem bddStep_outs {st st' : BState} {i ser} (h : bddStep st i ser = some st') :
    outNums st'.g.nodes = outNums st.g.nodes ++ [i] ∧ (Solid st.g.nodes → Solid st'.g.nodes) := by
  unfold bddStep at h
  split at h
  · cases h
  · cases h1 : bddNodes { st with added := [], last := 0 } ser with
    | none => rw [h1] at h; cases h
    | some s1 =>
      rw [h1] at h
      simp only [addNode] at h
      obtain ⟨a, b⟩ := nodes_outs ser h1
      split at h
      · cases h
      · rename_i g2 h2
        cases h
        have e := addEdge_nodes h2
        simp only at e
        rw [e]
        constructor
        · rw [outNums_append, a]; rfl
        · intro hs x hx
          rcases List.mem_append.1 hx with hx | hx
          · exact b hs x hx
          · rw [List.mem_singleton.1 hx]; rfl

theorem bddAll_outs : ∀ (bs : List (List BddNode)) (i : Nat) {st st' : BState}, bddAll st i bs = some st' →
    outNums st'.g.nodes = outNums st.g.nodes ++ List.range' i bs.length ∧ (Solid st.g.nodes → Solid st'.g.nodes)
  | [], i, st, st', h => by cases h; exact ⟨by simp, id⟩
  | b :: bs, i, st, st', h => by
    rw [bddAll] at h
    cases h1 : bddStep st i b with
    | none => rw [h1] at h; cases h
    | some s1 =>
      rw [h1] at h
      obtain ⟨a, c⟩ := bddStep_outs h1
      obtain ⟨a', c'⟩ := bddAll_outs bs (i + 1) h
      refine ⟨?_, fun hs => c' (c hs)⟩
      rw [a', a, List.append_assoc, List.length_cons, List.range'_succ]
      rfl

theorem tie_nodes (base num : Nat) : ∀ (ns : List Nat) {g g' : Graph (MuxOp × Nat) MuxEdge}, tieSelects base num ns g = some g' →
    g'.nodes = g.nodes
  | [], g, g', h => by cases h; rfl
  | n :: ns, g, g', h => by
    rw [tieSelects] at h
    split at h
    · split at h
      · split at h
        · cases h
        · rename_i g1 h1
          exact (tie_nodes base num ns h).trans (addEdge_nodes h1)
      · cases h
    · exact tie_nodes base num ns h

theorem noHoles_of_solid {g : Graph N E} (h : Solid g.nodes) : NoHoles g := by
  intro m n hn hm
  have hlt : n < g.nodes.length := by
    by_contra hc
    unfold weight at hn
    rw [List.getD_eq_getElem?_getD, List.getElem?_eq_none (by omega)] at hn
    cases hn
  have : g.weight m = g.nodes[m]'(by omega) := by simp [weight, List.getD, show m < g.nodes.length by omega]
  rw [this]
  exact h _ (List.getElem_mem _)

theorem fromBdds_outs {bdds : List (List BddNode)} {c} (h : fromBdds bdds = some c) :
    OutputsInOrder c.graph bdds.length ∧ NoHoles c.graph := by
  unfold fromBdds at h
  cases h1 : bddAll ⟨Graph.empty, 0, none, none, [], 0⟩ 0 bdds with
  | none => rw [h1] at h; cases h
  | some st =>
    rw [h1] at h
    simp only at h
    obtain ⟨a, b⟩ := bddAll_outs bdds 0 h1
    split at h
    · cases h
    · rename_i g hg
      cases h
      have e : g.nodes = st.g.nodes ++ (List.range st.maxInputs).map (fun i => some (MuxOp.variable i, 0)) := by
        rw [tie_nodes _ _ _ hg, (addInputs_nodes _ _).1]
      constructor
      · show outNums g.nodes = _
        rw [e, outNums_append, a]
        have : outNums ((List.range st.maxInputs).map (fun i => some (MuxOp.variable i, 0))) = [] := by
          simp [outNums, outputNumbers]
        rw [this]
        simp [outNums, outputNumbers, Graph.empty, List.range_eq_range']
      · apply noHoles_of_solid
        intro x hx
        simp only [mapNodes] at hx
        obtain ⟨y, hy, rfl⟩ := List.mem_map.1 hx
        rw [e] at hy
        rw [Option.isSome_map]
        rcases List.mem_append.1 hy with hy | hy
        · exact b (by intro x hx; cases hx) y hy
        · obtain ⟨i, _, rfl⟩ := List.mem_map.1 hy; rfl

theorem optimize_outs {c c' : MuxCircuit} (hw : WF c.graph) (h : optimize c = some c') {k} (ho : OutputsInOrder c.graph k) :
    OutputsInOrder c'.graph k ∧ NoHoles c'.graph := by
  unfold optimize at h
  rw [Option.map_eq_some_iff] at h
  obtain ⟨g, hg, rfl⟩ := h
  obtain ⟨_, h2, _⟩ := cse_sound hw hg
  constructor
  · show outputNumbers (g.nodes.filter Option.isSome) = _
    rw [← ho]
    have e1 : outputNumbers (g.nodes.filter Option.isSome) = outputNumbers g.nodes := by
      unfold outputNumbers
      rw [List.filterMap_filter]
      apply List.filterMap_congr
      intro x _
      cases x <;> simp
    rw [e1]
    have e2 : ∀ (g : MGraph) k, g.nodes.length ≤ k → outputNumbers g.nodes =
        (List.range k).filterMap (fun n => match g.weight n with | some (.output i) => some i | _ => none) := by
      intro g k hk
      obtain ⟨d, rfl⟩ := Nat.exists_eq_add_of_le hk
      rw [List.range_add, List.filterMap_append]
      have : (List.map (g.nodes.length + ·) (List.range d)).filterMap
          (fun n => match g.weight n with | some (.output i) => some i | _ => none) = [] := by
        rw [List.filterMap_eq_nil_iff]
        intro a ha
        obtain ⟨j, _, rfl⟩ := List.mem_map.1 ha
        have : g.weight (g.nodes.length + j) = none := by simp [weight, List.getD]
        rw [this]
      rw [this, List.append_nil]
      exact (nodes_eq_range g.nodes none _).symm
    rw [e2 g (max g.nodes.length c.graph.nodes.length) (by omega), e2 c.graph (max g.nodes.length c.graph.nodes.length) (by omega)]
    apply List.filterMap_congr
    intro n _
    rcases h2 n with h | ⟨h, h'⟩
    · rw [h]
    · rw [h, h']
  · apply noHoles_of_solid
    intro x hx
    exact (List.mem_filter.1 hx).2

end Spf.Trav
