import Verif.Proof.SchedEval
import Verif.Spec.CtNoise
import Verif.Props.SchedGraph
/-! The circuit processor with an arbitrary interpretation of the operators (as `Proof/SchedEval`, which is for messages). -/
namespace Spf.SchedG
open Spf.Sched Spf.Fhe Graph Spf.Spec Spf.CtExec Spf.Props

/-- an interpretation of the operators that reads only the cell of an input operator, and gives no value to `nop` and `retire` -/
structure Interp {V : Type} (ex : (CtType → Nat → V) → FheOp → List (V × FheEdge) → Option V) : Prop where
  cells : ∀ c₁ c₂ op ins, (∀ t i, op = .input t i → c₁ t i = c₂ t i) → ex c₁ op ins = ex c₂ op ins
  nop : ∀ c ins, ex c .nop ins = none
  retire : ∀ c ins, ex c .retire ins = none

theorem NodeEval.unique {V : Type} {exec : FheOp → List (V × FheEdge) → Option V} {g : FGraph} {n : Nat} {v w : V} (h : NodeEval exec g n v) (h' : NodeEval exec g n w) : v = w := by
  induction h generalizing w with
  | @op n op v f hw hs he ih =>
    cases h' with
    | op f' hw' hs' he' =>
      rw [hw] at hw'
      cases hw'
      have : ((g.inEdges n).map fun e => (f e.1, e.2.2)) = (g.inEdges n).map fun e => (f' e.1, e.2.2) :=
        List.map_congr_left fun e hm => by rw [ih e hm (hs' e hm)]
      rw [this, he'] at he
      exact (Option.some.inj he).symm

variable {V : Type} [Inhabited V] {ex : (CtType → Nat → V) → FheOp → List (V × FheEdge) → Option V}

abbrev Rs (V : Type) := List (Res V RtErr (CtType × Nat))

/-- What node `a` produced. -/
def produced (rs : Rs V) (pos : Nat → Nat) (a : Nat) : Option V := (rs[pos a]?.bind Res.out?).join

theorem mapM_dep {rs : Rs V} {pos : Nat → Nat} : ∀ {es : List (Nat × Nat × FheEdge)} {ins ins'},
    (es.map fun e => (pos e.1, e.2.2)).mapM (fun d => (rs[d.1]?.bind Res.out?).map fun v => (v, d.2)) = some ins →
    ins.mapM (fun p => p.1.map fun v => (v, p.2)) = some ins' →
    (∀ e ∈ es, rs[pos e.1]?.bind Res.out? = some (produced rs pos e.1) ∧ (produced rs pos e.1).isSome = true) ∧
    ins' = es.map fun e => ((produced rs pos e.1).getD default, e.2.2) := by
  intro es
  induction es with
  | nil => intro ins ins' h h'; cases h; cases h'; simp
  | cons e es ih =>
    intro ins ins' h h'
    rw [List.map_cons, List.mapM_cons] at h
    cases hb : rs[pos e.1]?.bind Res.out? with
    | none => simp [hb] at h
    | some o =>
      simp only [hb, Option.map_some] at h
      cases hm : (es.map fun e => (pos e.1, e.2.2)).mapM (fun d => (rs[d.1]?.bind Res.out?).map fun v => (v, d.2)) with
      | none => rw [hm] at h; cases h
      | some ins1 =>
        rw [hm] at h
        cases h
        rw [List.mapM_cons] at h'
        cases o with
        | none => cases h'
        | some v =>
          simp only [Option.map_some] at h'
          cases hm' : ins1.mapM (fun p => p.1.map fun v => (v, p.2)) with
          | none => rw [hm'] at h'; cases h'
          | some ins2 =>
            rw [hm'] at h'
            cases h'
            obtain ⟨i1, i2⟩ := ih hm hm'
            have hp : produced rs pos e.1 = some v := by unfold produced; rw [hb]; rfl
            constructor
            · intro e' he'
              rcases List.mem_cons.1 he' with rfl | he'
              · rw [hp]; exact ⟨hb, rfl⟩
              · exact i1 e' he'
            · rw [List.map_cons, hp, i2]; rfl

theorem mapM_dep_mk {rs : Rs V} {pos : Nat → Nat} (f : Nat → V) : ∀ {es : List (Nat × Nat × FheEdge)},
    (∀ e ∈ es, rs[pos e.1]?.bind Res.out? = some (some (f e.1))) →
    (es.map fun e => (pos e.1, e.2.2)).mapM (fun d => (rs[d.1]?.bind Res.out?).map fun v => (v, d.2)) =
      some (es.map fun e => (some (f e.1), e.2.2)) ∧
    (es.map fun e => (some (f e.1), e.2.2)).mapM (fun p => p.1.map fun v => (v, p.2)) = some (es.map fun e => (f e.1, e.2.2))
  | [], _ => ⟨rfl, rfl⟩
  | e :: es, h => by
    obtain ⟨i1, i2⟩ := mapM_dep_mk f (es := es) (fun e' he' => h e' (by simp [he']))
    constructor
    · rw [List.map_cons, List.mapM_cons, h e (by simp), i1]; rfl
    · rw [List.map_cons, List.mapM_cons, i2]; rfl

/-- What a successful operator of node `n` amounts to. -/
def NodeOk (ex : (CtType → Nat → V) → FheOp → List (V × FheEdge) → Option V) (cells : CtType × Nat → V) (g : FGraph) (n : Nat) (o : Option V)
    (w : Option ((CtType × Nat) × V)) : Prop :=
  (g.weight n = some .nop ∧ g.inEdges n = [] ∧ o = none ∧ w = none) ∨
  ∃ v, NodeEval (ex fun t c => cells (t, c)) g n v ∧ (∀ e ∈ g.inEdges n, ∀ t c, g.weight e.1 ≠ some (.output t c)) ∧
    ((∃ t c, g.weight n = some (.output t c) ∧ o = none ∧ w = some ((t, c), v)) ∨
     ((∀ t c, g.weight n ≠ some (.output t c)) ∧ o = some v ∧ w = none))

theorem liftExec_ok {cells : CtType × Nat → V} {op : FheOp} {ins : List (Option V × FheEdge)}
    {o : Option V} {w : Option ((CtType × Nat) × V)} (h : liftExec ex op cells ins = .ok (o, w)) :
    (op = .nop ∧ ins = [] ∧ o = none ∧ w = none) ∨
    ∃ ins' v, ins.mapM (fun p => p.1.map fun v => (v, p.2)) = some ins' ∧ ex (fun t c => cells (t, c)) op ins' = some v ∧
      ((∃ t c, op = .output t c ∧ o = none ∧ w = some ((t, c), v)) ∨ ((∀ t c, op ≠ .output t c) ∧ o = some v ∧ w = none)) := by
  unfold liftExec at h
  split at h
  · rename_i hn
    cases h
    exact Or.inl ⟨hn.1, List.isEmpty_iff.1 hn.2, rfl, rfl⟩
  · cases hm : ins.mapM (fun p => p.1.map fun v => (v, p.2)) with
    | none => rw [hm] at h; cases h
    | some ins' =>
      rw [hm] at h
      dsimp only at h
      cases he : ex (fun t c => cells (t, c)) op ins' with
      | none => rw [he] at h; cases h
      | some v =>
        rw [he] at h
        refine Or.inr ⟨ins', v, rfl, he, ?_⟩
        cases op with
        | output t c => cases h; exact Or.inl ⟨t, c, rfl, rfl, rfl⟩
        | _ => cases h; exact Or.inr ⟨fun _ _ hh => (by cases hh), rfl, rfl⟩

theorem node_ok {gs : List (FGraph × List Nat)} (h : ∀ p ∈ gs, TopoOrder p.1 p.2) (cells : CtType × Nat → V)
    {k : Nat} {p : FGraph × List Nat} (hk : gs[k]? = some p) : ∀ (j n : Nat), p.2[j]? = some n →
    j < (p.2.takeWhile (notRetire p.1)).length → ∀ o w, (seqRun (liftExec ex) cells (allItems gs 0 0))[start gs k + j]? = some (.ok o w) →
    NodeOk ex cells p.1 n o w := by
  intro j
  induction j using Nat.strongRecOn with
  | _ j ih =>
    intro n hn hj o w hr
    have ht := h p (List.mem_of_getElem? hk)
    have hit := nodeItem_get hk hn hj
    rw [seqAt _ _ (wellFormed h) hit] at hr
    have hr := Option.some.inj hr
    have hw : (p.1.weight n).isSome := (ht.mem n).1 (List.mem_of_getElem? hn)
    obtain ⟨op, hop⟩ := Option.isSome_iff_exists.1 hw
    generalize hrs : seqRun (liftExec ex) cells (allItems gs 0 0) = rs at *
    unfold seqItem nodeItem at hr
    dsimp only at hr
    rw [hop] at hr
    dsimp only at hr
    cases hm : ((p.1.inEdges n).map fun e => (start gs k + p.2.idxOf e.1, e.2.2)).mapM
        (fun d => (rs[d.1]?.bind Res.out?).map fun v => (v, d.2)) with
    | none => rw [hm] at hr; cases hr
    | some ins =>
      rw [hm] at hr
      dsimp only at hr
      cases hx : liftExec ex op cells ins with
      | error e => rw [hx] at hr; cases hr
      | ok r =>
        obtain ⟨o', w'⟩ := r
        rw [hx] at hr
        cases hr
        rcases liftExec_ok hx with ⟨rfl, rfl, rfl, rfl⟩ | ⟨ins', v, h1, h2, h3⟩
        · left
          refine ⟨hop, ?_, rfl, rfl⟩
          cases hl : p.1.inEdges n with
          | nil => rfl
          | cons e es =>
            exfalso
            rw [hl, List.map_cons, List.mapM_cons] at hm
            cases hb : rs[start gs k + p.2.idxOf e.1]?.bind Res.out? with
            | none => simp [hb] at hm
            | some y =>
              simp only [hb, Option.map_some] at hm
              cases hq : (es.map fun e => (start gs k + p.2.idxOf e.1, e.2.2)).mapM (fun d => (rs[d.1]?.bind Res.out?).map fun v => (v, d.2)) with
              | none => rw [hq] at hm; cases hm
              | some z => rw [hq] at hm; cases hm
        · right
          obtain ⟨i1, rfl⟩ := mapM_dep (pos := fun a => start gs k + p.2.idxOf a) hm h1
          have hsrc : ∀ e ∈ p.1.inEdges n, (∀ t c, p.1.weight e.1 ≠ some (.output t c)) ∧
              NodeEval (ex fun t c => cells (t, c)) p.1 e.1 ((produced rs (fun a => start gs k + p.2.idxOf a) e.1).getD default) := by
            intro e he
            obtain ⟨e1, e2⟩ := i1 e he
            obtain ⟨x, hx⟩ := Option.isSome_iff_exists.1 e2
            rw [hx] at e1 ⊢
            obtain ⟨f1, f2⟩ := idx_lt ht hn he
            obtain ⟨res, g1, g2⟩ := Option.bind_eq_some_iff.1 e1
            cases res with
            | ok oo ww =>
              simp only [Res.out?, Option.some.injEq] at g2
              subst g2
              rcases ih _ f1 e.1 f2 (by omega) (some x) ww g1 with ⟨_, _, q, _⟩ | ⟨v', q1, _, q2⟩
              · cases q
              · rcases q2 with ⟨_, _, _, q2, _⟩ | ⟨q3, q2, _⟩
                · cases q2
                · cases q2; exact ⟨q3, q1⟩
            | err e => cases g2
            | skipped => cases g2
          refine ⟨v, .op (fun a => (produced rs (fun a => start gs k + p.2.idxOf a) a).getD default) hop
            (fun e he => (hsrc e he).2) h2, fun e he => (hsrc e he).1, ?_⟩
          · rcases h3 with ⟨t, c, rfl, rfl, rfl⟩ | ⟨h3, rfl, rfl⟩
            · exact Or.inl ⟨t, c, hop, rfl, rfl⟩
            · exact Or.inr ⟨fun t c hh => h3 t c (by rw [hop] at hh; exact Option.some.inj hh), rfl, rfl⟩


/-- every node has a value under the interpretation (or is an isolated `nop`), and nothing uses an output -/
structure EvaluatesG {V : Type} (ex : (CtType → Nat → V) → FheOp → List (V × FheEdge) → Option V) (cells : CtType × Nat → V) (g : FGraph) : Prop where
  node : ∀ n op, g.weight n = some op → (op = .nop ∧ g.inEdges n = []) ∨ ∃ v, NodeEval (ex fun t c => cells (t, c)) g n v
  sink : ∀ e ∈ g.edges, ∀ t c, g.weight e.1 ≠ some (.output t c)

theorem EvaluatesG.notRetire (hI : Interp ex) {cells : CtType × Nat → V} {g : FGraph} (he : EvaluatesG ex cells g) (n : Nat)
    (hn : (g.weight n).isSome = true) : notRetire g n = true := by
  obtain ⟨op, hop⟩ := Option.isSome_iff_exists.1 hn
  unfold Sched.notRetire
  rw [hop]
  rcases he.node n op hop with ⟨rfl, _⟩ | ⟨v, hv⟩
  · rfl
  · cases hv with
    | op f hw hs hx =>
      rw [hop] at hw
      cases hw
      cases op with
      | retire => rw [hI.retire] at hx; cases hx
      | _ => rfl

theorem eval_ok (hI : Interp ex) {gs : List (FGraph × List Nat)} (h : ∀ p ∈ gs, TopoOrder p.1 p.2) (cells : CtType × Nat → V)
    {k : Nat} {p : FGraph × List Nat} (hk : gs[k]? = some p) (hev : EvaluatesG ex cells p.1) : ∀ (j n : Nat), p.2[j]? = some n →
    ∃ o w, (seqRun (liftExec ex) cells (allItems gs 0 0))[start gs k + j]? = some (.ok o w) := by
  have ht := h p (List.mem_of_getElem? hk)
  have hnr : ∀ n ∈ p.2, notRetire p.1 n = true := fun n hn => hev.notRetire hI n ((ht.mem n).1 hn)
  have htw : p.2.takeWhile (notRetire p.1) = p.2 := takeWhile_all hnr
  intro j
  induction j using Nat.strongRecOn with
  | _ j ih =>
    intro n hn
    have hjl : j < (p.2.takeWhile (notRetire p.1)).length := by rw [htw]; exact getElem?_lt hn
    have hit := nodeItem_get hk hn hjl
    rw [seqAt _ _ (wellFormed h) hit]
    have hw : (p.1.weight n).isSome := (ht.mem n).1 (List.mem_of_getElem? hn)
    obtain ⟨op, hop⟩ := Option.isSome_iff_exists.1 hw
    generalize hrs : seqRun (liftExec ex) cells (allItems gs 0 0) = rs at *
    unfold seqItem nodeItem
    dsimp only
    rw [hop]
    dsimp only
    rcases hev.node n op hop with ⟨rfl, hin⟩ | ⟨v, hv⟩
    · rw [hin]; exact ⟨none, none, rfl⟩
    · cases hv with
      | @op _ op' _ f hw' hs hx =>
        rw [hop] at hw'
        cases hw'
        have hall : ∀ e ∈ p.1.inEdges n, rs[start gs k + p.2.idxOf e.1]?.bind Res.out? = some (some (f e.1)) := by
          intro e he
          obtain ⟨f1, f2⟩ := idx_lt ht hn he
          obtain ⟨o, w, hr⟩ := ih _ f1 e.1 f2
          rw [hr]
          have hok := node_ok h cells hk _ _ f2 (by omega) o w (by rw [hrs]; exact hr)
          have hv := hs e he
          rcases hok with ⟨q, _⟩ | ⟨v', q1, _, ⟨t, c, q2, _⟩ | ⟨_, rfl, _⟩⟩
          · exfalso
            cases hv with
            | op f'' hw'' _ hx'' => rw [q] at hw''; cases hw''; rw [hI.nop] at hx''; cases hx''
          · exact absurd q2 (hev.sink e (List.mem_filter.1 he).1 t c)
          · rw [NodeEval.unique q1 hv]; rfl
        obtain ⟨m1, m2⟩ := mapM_dep_mk (pos := fun a => start gs k + p.2.idxOf a) f hall
        rw [m1]
        dsimp only
        have : ∃ r, liftExec ex op cells ((p.1.inEdges n).map fun e => (some (f e.1), e.2.2)) = .ok r := by
          unfold liftExec
          split
          · exact ⟨_, rfl⟩
          · rw [m2]
            dsimp only
            rw [hx]
            cases op with
            | output t c => exact ⟨_, rfl⟩
            | _ => exact ⟨_, rfl⟩
        obtain ⟨⟨o, w⟩, hr⟩ := this
        rw [hr]
        exact ⟨o, w, rfl⟩


theorem liftExec_cells (hI : Interp ex) (op : FheOp) (c₁ c₂ : CtType × Nat → V) (ins : List (Option V × FheEdge))
    (h : ∀ c, (∃ t i, op = .input t i ∧ c = (t, i)) → c₁ c = c₂ c) : liftExec ex op c₁ ins = liftExec ex op c₂ ins := by
  unfold liftExec
  split
  · rfl
  · cases ins.mapM (fun p => p.1.map fun v => (v, p.2)) with
    | none => rfl
    | some ins =>
      dsimp only
      rw [hI.cells (fun t c => c₁ (t, c)) (fun t c => c₂ (t, c)) op ins (fun t i hh => h (t, i) ⟨t, i, hh, rfl⟩)]

theorem liftExec_write (op : FheOp) (cs : CtType × Nat → V) (ins : List (Option V × FheEdge)) (o : Option V)
    (c : CtType × Nat) (v : V) (h : liftExec ex op cs ins = .ok (o, some (c, v))) : ∃ t i, op = .output t i ∧ c = (t, i) := by
  unfold liftExec at h
  split at h
  · cases h
  · cases hm : ins.mapM (fun p => p.1.map fun v => (v, p.2)) with
    | none => rw [hm] at h; cases h
    | some ins' =>
      rw [hm] at h
      dsimp only at h
      cases he : ex (fun t c => cs (t, c)) op ins' with
      | none => rw [he] at h; cases h
      | some w =>
        rw [he] at h
        cases op with
        | output t i =>
          simp only [Except.ok.injEq, Prod.mk.injEq, Option.some.injEq] at h
          exact ⟨t, i, rfl, h.2.1.symm⟩
        | _ => cases h

/-- The cells used by circuits that are apart. -/
def cellsOf (hI : Interp ex) {gs : List (FGraph × List Nat)} (h : ∀ p ∈ gs, TopoOrder p.1 p.2) (ha : Apart gs) :
    Cells (liftExec ex) (allItems gs 0 0) where
  reads := fun op c => ∃ t i, op = .input t i ∧ c = (t, i)
  writes := fun op c => ∃ t i, op = .output t i ∧ c = (t, i)
  read_ok := fun op c₁ c₂ ins hh => liftExec_cells hI op c₁ c₂ ins hh
  write_ok := fun op cs ins o c v hh => liftExec_write op cs ins o c v hh
  one_writer := by
    rintro i j it jt _ _ _ hi hj ho ho' ⟨t, c, rfl, rfl⟩ ⟨t', c', rfl, hcc⟩
    obtain ⟨rfl, rfl⟩ := Prod.mk.inj hcc
    obtain ⟨k, p, a, n, h1, rfl, hn, hlt, hw, _⟩ := item_node hi ho
    obtain ⟨k', p', b, n', h1', rfl, hn', hlt', hw', _⟩ := item_node hj ho'
    obtain ⟨rfl, rfl⟩ := ha.outputs k k' p p' n n' t c h1 h1' hw hw'
    rw [h1] at h1'
    cases h1'
    obtain ⟨x1, x2⟩ := List.getElem?_eq_some_iff.1 hn
    obtain ⟨y1, y2⟩ := List.getElem?_eq_some_iff.1 hn'
    have := (h p (List.mem_of_getElem? h1)).nodup.getElem_inj_iff.1 (x2.trans y2.symm)
    rw [this]
  no_race := by
    rintro i j it jt _ _ _ hi hj ho ho' ⟨t, c, rfl, rfl⟩ ⟨t', c', rfl, hcc⟩
    obtain ⟨rfl, rfl⟩ := Prod.mk.inj hcc
    obtain ⟨k, p, a, n, h1, rfl, hn, hlt, hw, _⟩ := item_node hi ho
    obtain ⟨k', p', b, n', h1', rfl, hn', hlt', hw', _⟩ := item_node hj ho'
    exact ha.inputs k k' p p' n n' t c h1 h1' hw hw'



variable {gs : List (FGraph × List Nat)} {W F : Nat} {cells : CtType × Nat → V}

/-- when the callback of circuit `k` reports success, each of its output cells holds the value of the output node,
whatever the threads, the budget and the schedule. -/
theorem sched16_circuits (hI : Interp ex) (h : ∀ p ∈ gs, TopoOrder p.1 p.2) (ha : Apart gs) {prog : List (Item FheOp RtErr FheEdge)}
    (hs : spawnAll gs 0 0 = some prog) {s : State V RtErr (CtType × Nat) FheEdge} (hr : Reached (liftExec ex) W F prog cells s)
    {k : Nat} {g : FGraph} {ord : List Nat} (hk : gs[k]? = some (g, ord)) (hf : none ∈ s.fired k) {n : Nat} {t : CtType} {c : Nat}
    (hn : g.weight n = some (.output t c)) : ∃ v, NodeEval (ex fun t c => cells (t, c)) g n v ∧ s.cells (t, c) = v := by
  rw [spawnAll_eq gs 0 0 h] at hs
  cases hs
  have C := cellsOf hI h ha
  have ht := h _ (List.mem_of_getElem? hk)
  -- the circuit is clean, so it contains no `Retire`
  have hin : ∃ (i : Nat) (it : Item FheOp RtErr FheEdge), (allItems gs 0 0)[i]? = some it ∧ it.circ = k := by
    exact ⟨_, _, Props.lastItem hk, rfl⟩
  have hclean := (Props.C19_errors (wellFormed h) C hr k none hf hin).2.1 rfl
  have hall : ord.all (notRetire g) = true := by
    have := (hclean _ _ (Props.lastItem hk) rfl).1
    cases hb : ord.all (notRetire g) with
    | true => rfl
    | false => simp [hb] at this
  have htw : ord.takeWhile (notRetire g) = ord := takeWhile_all (List.all_eq_true.1 hall)
  have hmem : n ∈ ord := (ht.mem n).2 (by dsimp only; rw [hn]; rfl)
  obtain ⟨j, hj, hjn⟩ := List.getElem_of_mem hmem
  have hjn : ord[j]? = some n := by rw [List.getElem?_eq_getElem hj, hjn]
  have hlt : j < (ord.takeWhile (notRetire g)).length := by rw [htw]; exact hj
  obtain ⟨_, o, w, h1, _, h3⟩ := Props.C16_sequential (wellFormed h) C hr k hf _ _ (nodeItem_get hk hjn hlt) rfl
  rcases node_ok h cells hk j n hjn hlt o w h1 with ⟨q, _⟩ | ⟨v, q1, _, ⟨t', c', q2, _, q3⟩ | ⟨q2, _⟩⟩
  · dsimp only at q; rw [hn] at q; cases q
  · dsimp only at q2; rw [hn] at q2; cases q2
    exact ⟨v, q1, h3 _ _ q3⟩
  · exact absurd hn (q2 t c)

/-- the callback of each circuit fires at most once; when it has fired, nothing of the circuit is still
running; and at the end it has fired. -/
theorem sched17_circuits (hI : Interp ex) (h : ∀ p ∈ gs, TopoOrder p.1 p.2) (ha : Apart gs) {prog : List (Item FheOp RtErr FheEdge)}
    (hs : spawnAll gs 0 0 = some prog) {s : State V RtErr (CtType × Nat) FheEdge} (hr : Reached (liftExec ex) W F prog cells s)
    {k : Nat} (hk : k < gs.length) :
    (s.fired k).length ≤ 1 ∧ (s.fired k ≠ [] → ∀ t ∈ s.running, ∀ it, prog[t]? = some it → it.circ ≠ k) ∧
    (Finished prog s → (s.fired k).length = 1) := by
  rw [spawnAll_eq gs 0 0 h] at hs
  cases hs
  have C := cellsOf hI h ha
  have hgk : gs[k]? = some gs[k] := List.getElem?_eq_getElem hk
  have hin : ∃ (i : Nat) (it : Item FheOp RtErr FheEdge), (allItems gs 0 0)[i]? = some it ∧ it.circ = k := by
    exact ⟨_, _, Props.lastItem (g := gs[k].1) (ord := gs[k].2) hgk, rfl⟩
  obtain ⟨h1, h2, h3, _⟩ := Props.C17_callback (wellFormed h) C hr k hin
  refine ⟨h1, fun hne t ht it hp hc => ?_, h3⟩
  have hd := h2 hne t it hp hc
  have := ((hr.inv (wellFormed h) C).a.run t).1 ht
  rw [hd] at this; cases this

/-- with a thread and a token, every schedule can be completed, and none is infinite. -/
theorem sched18_circuits (hI : Interp ex) (h : ∀ p ∈ gs, TopoOrder p.1 p.2) (ha : Apart gs) (hW : 0 < W) (hF : 0 < F)
    {prog : List (Item FheOp RtErr FheEdge)} (hs : spawnAll gs 0 0 = some prog) :
    (∀ s : State V RtErr (CtType × Nat) FheEdge, Reached (liftExec ex) W F prog cells s →
      ∃ sched s', run (liftExec ex) W F prog sched s = some s' ∧ Finished prog s') ∧
    ∃ bound, ∀ sched s, run (liftExec ex) W F prog sched (init F cells) = some s → sched.length ≤ bound := by
  rw [spawnAll_eq gs 0 0 h] at hs
  cases hs
  exact ⟨fun s hr => Props.C18_completes (wellFormed h) (cellsOf hI h ha) hW hF hr,
    _, fun sched s hr => Props.C18_terminates (wellFormed h) (cellsOf hI h ha) sched hr⟩

/-- at the end, the callback of circuit `k` has reported success if all nodes of the circuit have a
value and nothing uses an output node, and an error otherwise. -/
theorem sched19_circuits (hI : Interp ex) (h : ∀ p ∈ gs, TopoOrder p.1 p.2) (ha : Apart gs) {prog : List (Item FheOp RtErr FheEdge)}
    (hs : spawnAll gs 0 0 = some prog) {s : State V RtErr (CtType × Nat) FheEdge} (hr : Reached (liftExec ex) W F prog cells s)
    (hfin : Finished prog s) {k : Nat} {g : FGraph} {ord : List Nat} (hk : gs[k]? = some (g, ord)) :
    (EvaluatesG ex cells g → s.fired k = [none]) ∧ (¬EvaluatesG ex cells g → ∃ e, s.fired k = [some e]) := by
  rw [spawnAll_eq gs 0 0 h] at hs
  cases hs
  have C := cellsOf hI h ha
  have ht := h _ (List.mem_of_getElem? hk)
  have hlast := Props.lastItem hk
  have hin : ∃ (i : Nat) (it : Item FheOp RtErr FheEdge), (allItems gs 0 0)[i]? = some it ∧ it.circ = k := ⟨_, _, hlast, rfl⟩
  constructor
  · intro hev
    have hall : ∀ n ∈ ord, notRetire g n = true := fun n hn => hev.notRetire hI n ((ht.mem n).1 hn)
    have hcl : Clean (liftExec ex) cells (allItems gs 0 0) k := by
      intro i it hi hc
      obtain ⟨k', p, j, h1, rfl, h3⟩ := (allItems_get _ _ _ _ _).1 hi
      have hkk := circItems_circ h3
      have hkk : k' = k := by omega
      subst hkk
      rw [hk] at h1
      cases h1
      rcases (circItems_get _ _ _ _).1 h3 with ⟨n, hn, hlt, rfl⟩ | ⟨hj, rfl⟩
      · exact ⟨rfl, eval_ok hI h cells hk hev j n hn⟩
      · refine ⟨?_, none, none, ?_⟩
        · dsimp only; rw [if_pos (List.all_eq_true.2 hall)]
        · subst hj
          rw [seqAt _ _ (wellFormed h) hi]; rfl
    obtain ⟨r, hr1⟩ := List.length_eq_one_iff.1 ((Props.C17_callback (wellFormed h) C hr k hin).2.2.1 hfin)
    have := (Props.C19_errors (wellFormed h) C hr k r (by rw [hr1]; simp) hin).2.2 hcl
    rw [hr1, this]
  · intro hne
    refine Props.C19_completes (wellFormed h) C hr hfin k hin fun hcl => hne ?_
    have hall : ord.all (notRetire g) = true := by
      have := (hcl _ _ hlast rfl).1
      cases hb : ord.all (notRetire g) with
      | true => rfl
      | false => simp [hb] at this
    have htw : ord.takeWhile (notRetire g) = ord := takeWhile_all (List.all_eq_true.1 hall)
    have hnode : ∀ n op, g.weight n = some op → ∃ o w, NodeOk ex cells g n o w := by
      intro n op hop
      have hmem : n ∈ ord := (ht.mem n).2 (by dsimp only; rw [hop]; rfl)
      obtain ⟨j, hj, hjn⟩ := List.getElem_of_mem hmem
      have hjn : ord[j]? = some n := by rw [List.getElem?_eq_getElem hj, hjn]
      have hlt : j < (ord.takeWhile (notRetire g)).length := by rw [htw]; exact hj
      obtain ⟨_, o, w, h1⟩ := hcl _ _ (nodeItem_get hk hjn hlt) rfl
      exact ⟨o, w, node_ok h cells hk j n hjn hlt o w h1⟩
    constructor
    · intro n op hop
      obtain ⟨o, w, hno⟩ := hnode n op hop
      rcases hno with ⟨q, q1, _⟩ | ⟨v, q, _⟩
      · rw [hop] at q; exact Or.inl ⟨Option.some.inj q, q1⟩
      · exact Or.inr ⟨v, q⟩
    · intro e he
      obtain ⟨op, hop⟩ := Option.isSome_iff_exists.1 (ht.ends e he).2
      obtain ⟨o, w, hno⟩ := hnode _ op hop
      have hei : e ∈ g.inEdges e.2.1 := List.mem_filter.2 ⟨he, by simp⟩
      rcases hno with ⟨_, q, _⟩ | ⟨_, _, q, _⟩
      · rw [q] at hei; cases hei
      · exact q e hei

end Spf.SchedG
