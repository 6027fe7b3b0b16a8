import Verif.Proof.SchedGraph
namespace Spf.Sched
open Spf.Fhe Graph Spf.Spec

theorem FEval.unique {deg : Nat} {cells : CtType → Nat → Fhe.Val} {g : FGraph} {n : Nat} {v w : Fhe.Val}
    (h : FEval deg cells g n v) (h' : FEval deg cells g n w) : v = w := by
  induction h generalizing w with
  | @op n op v f hw hs he ih =>
    cases h' with
    | op f' hw' hs' he' =>
      rw [hw] at hw'
      cases hw'
      have : ((g.inEdges n).map fun e => (f e.1, e.2.2)) = (g.inEdges n).map fun e => (f' e.1, e.2.2) :=
        List.map_congr_left fun e hm => by rw [ih e hm (hs' e hm)]
      rw [this, he'] at he
      exact (Option.some.inj he).symm

abbrev Rs := List (Res Fhe.Val RtErr (CtType × Nat))

/-- What node `a` produced. -/
def produced (rs : Rs) (pos : Nat → Nat) (a : Nat) : Option Fhe.Val := (rs[pos a]?.bind Res.out?).join

theorem mapM_dep {rs : Rs} {pos : Nat → Nat} : ∀ {es : List (Nat × Nat × FheEdge)} {ins ins'},
    (es.map fun e => (pos e.1, e.2.2)).mapM (fun d => (rs[d.1]?.bind Res.out?).map fun v => (v, d.2)) = some ins →
    ins.mapM (fun p => p.1.map fun v => (v, p.2)) = some ins' →
    (∀ e ∈ es, rs[pos e.1]?.bind Res.out? = some (produced rs pos e.1) ∧ (produced rs pos e.1).isSome = true) ∧
    ins' = es.map fun e => ((produced rs pos e.1).getD (.lwe0 false), e.2.2) := by
  intro es
  induction es with
  | nil => intro ins ins' h h'; cases h; cases h'; simp
  | cons e es ih =>
    intro ins ins' h h'
    rw [List.map_cons, List.mapM_cons] at h
    cases hb : rs[pos e.1]?.bind Res.out? with
    | none => simp [hb] at h
    | some o =>
      simp only [hb, Option.map_some] at h
      cases hm : (es.map fun e => (pos e.1, e.2.2)).mapM (fun d => (rs[d.1]?.bind Res.out?).map fun v => (v, d.2)) with
      | none => rw [hm] at h; cases h
      | some ins1 =>
        rw [hm] at h
        cases h
        rw [List.mapM_cons] at h'
        cases o with
        | none => cases h'
        | some v =>
          simp only [Option.map_some] at h'
          cases hm' : ins1.mapM (fun p => p.1.map fun v => (v, p.2)) with
          | none => rw [hm'] at h'; cases h'
          | some ins2 =>
            rw [hm'] at h'
            cases h'
            obtain ⟨i1, i2⟩ := ih hm hm'
            have hp : produced rs pos e.1 = some v := by unfold produced; rw [hb]; rfl
            constructor
            · intro e' he'
              rcases List.mem_cons.1 he' with rfl | he'
              · rw [hp]; exact ⟨hb, rfl⟩
              · exact i1 e' he'
            · rw [List.map_cons, hp, i2]; rfl

theorem mapM_dep_mk {rs : Rs} {pos : Nat → Nat} (f : Nat → Fhe.Val) : ∀ {es : List (Nat × Nat × FheEdge)},
    (∀ e ∈ es, rs[pos e.1]?.bind Res.out? = some (some (f e.1))) →
    (es.map fun e => (pos e.1, e.2.2)).mapM (fun d => (rs[d.1]?.bind Res.out?).map fun v => (v, d.2)) =
      some (es.map fun e => (some (f e.1), e.2.2)) ∧
    (es.map fun e => (some (f e.1), e.2.2)).mapM (fun p => p.1.map fun v => (v, p.2)) = some (es.map fun e => (f e.1, e.2.2))
  | [], _ => ⟨rfl, rfl⟩
  | e :: es, h => by
    obtain ⟨i1, i2⟩ := mapM_dep_mk f (es := es) (fun e' he' => h e' (by simp [he']))
    constructor
    · rw [List.map_cons, List.mapM_cons, h e (by simp), i1]; rfl
    · rw [List.map_cons, List.mapM_cons, i2]; rfl

/-- What a successful operator of node `n` amounts to. -/
def NodeOk (deg : Nat) (cells : CtType × Nat → Fhe.Val) (g : FGraph) (n : Nat) (o : Option Fhe.Val)
    (w : Option ((CtType × Nat) × Fhe.Val)) : Prop :=
  (g.weight n = some .nop ∧ g.inEdges n = [] ∧ o = none ∧ w = none) ∨
  ∃ v, FEval deg (fun t c => cells (t, c)) g n v ∧ (∀ e ∈ g.inEdges n, ∀ t c, g.weight e.1 ≠ some (.output t c)) ∧
    ((∃ t c, g.weight n = some (.output t c) ∧ o = none ∧ w = some ((t, c), v)) ∨
     ((∀ t c, g.weight n ≠ some (.output t c)) ∧ o = some v ∧ w = none))

theorem fheExec_ok {deg : Nat} {cells : CtType × Nat → Fhe.Val} {op : FheOp} {ins : List (Option Fhe.Val × FheEdge)}
    {o : Option Fhe.Val} {w : Option ((CtType × Nat) × Fhe.Val)} (h : fheExec deg op cells ins = .ok (o, w)) :
    (op = .nop ∧ ins = [] ∧ o = none ∧ w = none) ∨
    ∃ ins' v, ins.mapM (fun p => p.1.map fun v => (v, p.2)) = some ins' ∧ execOp deg (fun t c => cells (t, c)) op ins' = some v ∧
      ((∃ t c, op = .output t c ∧ o = none ∧ w = some ((t, c), v)) ∨ ((∀ t c, op ≠ .output t c) ∧ o = some v ∧ w = none)) := by
  unfold fheExec at h
  split at h
  · rename_i hn
    cases h
    exact Or.inl ⟨hn.1, List.isEmpty_iff.1 hn.2, rfl, rfl⟩
  · cases hm : ins.mapM (fun p => p.1.map fun v => (v, p.2)) with
    | none => rw [hm] at h; cases h
    | some ins' =>
      rw [hm] at h
      dsimp only at h
      cases he : execOp deg (fun t c => cells (t, c)) op ins' with
      | none => rw [he] at h; cases h
      | some v =>
        rw [he] at h
        refine Or.inr ⟨ins', v, rfl, he, ?_⟩
        cases op with
        | output t c => cases h; exact Or.inl ⟨t, c, rfl, rfl, rfl⟩
        | _ => cases h; exact Or.inr ⟨fun _ _ hh => (by cases hh), rfl, rfl⟩

theorem nodeItem_get {gs : List (FGraph × List Nat)} {k : Nat} {p : FGraph × List Nat} (hk : gs[k]? = some p) {j n : Nat}
    (hn : p.2[j]? = some n) (hj : j < (p.2.takeWhile (notRetire p.1)).length) :
    (allItems gs 0 0)[start gs k + j]? = some (nodeItem p.1 k (start gs k) p.2 n) :=
  (allItems_get _ _ _ _ _).2 ⟨k, p, j, hk, rfl, by rw [Nat.zero_add, Nat.zero_add]; exact (circItems_get _ _ _ _).2 (Or.inl ⟨n, hn, hj, rfl⟩)⟩

theorem node_ok {gs : List (FGraph × List Nat)} (h : ∀ p ∈ gs, TopoOrder p.1 p.2) (deg : Nat) (cells : CtType × Nat → Fhe.Val)
    {k : Nat} {p : FGraph × List Nat} (hk : gs[k]? = some p) : ∀ (j n : Nat), p.2[j]? = some n →
    j < (p.2.takeWhile (notRetire p.1)).length → ∀ o w, (seqRun (fheExec deg) cells (allItems gs 0 0))[start gs k + j]? = some (.ok o w) →
    NodeOk deg cells p.1 n o w := by
  intro j
  induction j using Nat.strongRecOn with
  | _ j ih =>
    intro n hn hj o w hr
    have ht := h p (List.mem_of_getElem? hk)
    have hit := nodeItem_get hk hn hj
    rw [seqAt _ _ (wellFormed h) hit] at hr
    have hr := Option.some.inj hr
    have hw : (p.1.weight n).isSome := (ht.mem n).1 (List.mem_of_getElem? hn)
    obtain ⟨op, hop⟩ := Option.isSome_iff_exists.1 hw
    generalize hrs : seqRun (fheExec deg) cells (allItems gs 0 0) = rs at *
    unfold seqItem nodeItem at hr
    dsimp only at hr
    rw [hop] at hr
    dsimp only at hr
    cases hm : ((p.1.inEdges n).map fun e => (start gs k + p.2.idxOf e.1, e.2.2)).mapM
        (fun d => (rs[d.1]?.bind Res.out?).map fun v => (v, d.2)) with
    | none => rw [hm] at hr; cases hr
    | some ins =>
      rw [hm] at hr
      dsimp only at hr
      cases hx : fheExec deg op cells ins with
      | error e => rw [hx] at hr; cases hr
      | ok r =>
        obtain ⟨o', w'⟩ := r
        rw [hx] at hr
        cases hr
        rcases fheExec_ok hx with ⟨rfl, rfl, rfl, rfl⟩ | ⟨ins', v, h1, h2, h3⟩
        · left
          refine ⟨hop, ?_, rfl, rfl⟩
          cases hl : p.1.inEdges n with
          | nil => rfl
          | cons e es =>
            exfalso
            rw [hl, List.map_cons, List.mapM_cons] at hm
            cases hb : rs[start gs k + p.2.idxOf e.1]?.bind Res.out? with
            | none => simp [hb] at hm
            | some y =>
              simp only [hb, Option.map_some] at hm
              cases hq : (es.map fun e => (start gs k + p.2.idxOf e.1, e.2.2)).mapM (fun d => (rs[d.1]?.bind Res.out?).map fun v => (v, d.2)) with
              | none => rw [hq] at hm; cases hm
              | some z => rw [hq] at hm; cases hm
        · right
          obtain ⟨i1, rfl⟩ := mapM_dep (pos := fun a => start gs k + p.2.idxOf a) hm h1
          have hsrc : ∀ e ∈ p.1.inEdges n, (∀ t c, p.1.weight e.1 ≠ some (.output t c)) ∧
              FEval deg (fun t c => cells (t, c)) p.1 e.1 ((produced rs (fun a => start gs k + p.2.idxOf a) e.1).getD (.lwe0 false)) := by
            intro e he
            obtain ⟨e1, e2⟩ := i1 e he
            obtain ⟨x, hx⟩ := Option.isSome_iff_exists.1 e2
            rw [hx] at e1 ⊢
            obtain ⟨f1, f2⟩ := idx_lt ht hn he
            obtain ⟨res, g1, g2⟩ := Option.bind_eq_some_iff.1 e1
            cases res with
            | ok oo ww =>
              simp only [Res.out?, Option.some.injEq] at g2
              subst g2
              rcases ih _ f1 e.1 f2 (by omega) (some x) ww g1 with ⟨_, _, q, _⟩ | ⟨v', q1, _, q2⟩
              · cases q
              · rcases q2 with ⟨_, _, _, q2, _⟩ | ⟨q3, q2, _⟩
                · cases q2
                · cases q2; exact ⟨q3, q1⟩
            | err e => cases g2
            | skipped => cases g2
          refine ⟨v, .op (fun a => (produced rs (fun a => start gs k + p.2.idxOf a) a).getD (.lwe0 false)) hop
            (fun e he => (hsrc e he).2) h2, fun e he => (hsrc e he).1, ?_⟩
          · rcases h3 with ⟨t, c, rfl, rfl, rfl⟩ | ⟨h3, rfl, rfl⟩
            · exact Or.inl ⟨t, c, hop, rfl, rfl⟩
            · exact Or.inr ⟨fun t c hh => h3 t c (by rw [hop] at hh; exact Option.some.inj hh), rfl, rfl⟩

theorem Evaluates.notRetire {deg : Nat} {cells : CtType × Nat → Fhe.Val} {g : FGraph} (he : Evaluates deg cells g) (n : Nat)
    (hn : (g.weight n).isSome = true) : notRetire g n = true := by
  obtain ⟨op, hop⟩ := Option.isSome_iff_exists.1 hn
  unfold Sched.notRetire
  rw [hop]
  rcases he.node n op hop with ⟨rfl, _⟩ | ⟨v, hv⟩
  · rfl
  · cases hv with
    | op f hw hs hx =>
      rw [hop] at hw
      cases hw
      cases op with
      | retire => simp [execOp] at hx
      | _ => rfl

theorem takeWhile_all {α : Type} {q : α → Bool} : ∀ {l : List α}, (∀ a ∈ l, q a = true) → l.takeWhile q = l
  | [], _ => rfl
  | a :: l, h => by rw [List.takeWhile_cons, h a (by simp), takeWhile_all fun b hb => h b (by simp [hb])]; rfl

theorem eval_ok {gs : List (FGraph × List Nat)} (h : ∀ p ∈ gs, TopoOrder p.1 p.2) (deg : Nat) (cells : CtType × Nat → Fhe.Val)
    {k : Nat} {p : FGraph × List Nat} (hk : gs[k]? = some p) (hev : Evaluates deg cells p.1) : ∀ (j n : Nat), p.2[j]? = some n →
    ∃ o w, (seqRun (fheExec deg) cells (allItems gs 0 0))[start gs k + j]? = some (.ok o w) := by
  have ht := h p (List.mem_of_getElem? hk)
  have hnr : ∀ n ∈ p.2, notRetire p.1 n = true := fun n hn => hev.notRetire n ((ht.mem n).1 hn)
  have htw : p.2.takeWhile (notRetire p.1) = p.2 := takeWhile_all hnr
  intro j
  induction j using Nat.strongRecOn with
  | _ j ih =>
    intro n hn
    have hjl : j < (p.2.takeWhile (notRetire p.1)).length := by rw [htw]; exact getElem?_lt hn
    have hit := nodeItem_get hk hn hjl
    rw [seqAt _ _ (wellFormed h) hit]
    have hw : (p.1.weight n).isSome := (ht.mem n).1 (List.mem_of_getElem? hn)
    obtain ⟨op, hop⟩ := Option.isSome_iff_exists.1 hw
    generalize hrs : seqRun (fheExec deg) cells (allItems gs 0 0) = rs at *
    unfold seqItem nodeItem
    dsimp only
    rw [hop]
    dsimp only
    rcases hev.node n op hop with ⟨rfl, hin⟩ | ⟨v, hv⟩
    · rw [hin]; exact ⟨none, none, rfl⟩
    · cases hv with
      | @op _ op' _ f hw' hs hx =>
        rw [hop] at hw'
        cases hw'
        have hall : ∀ e ∈ p.1.inEdges n, rs[start gs k + p.2.idxOf e.1]?.bind Res.out? = some (some (f e.1)) := by
          intro e he
          obtain ⟨f1, f2⟩ := idx_lt ht hn he
          obtain ⟨o, w, hr⟩ := ih _ f1 e.1 f2
          rw [hr]
          have hok := node_ok h deg cells hk _ _ f2 (by omega) o w (by rw [hrs]; exact hr)
          have hv := hs e he
          rcases hok with ⟨q, _⟩ | ⟨v', q1, _, ⟨t, c, q2, _⟩ | ⟨_, rfl, _⟩⟩
          · exfalso
            cases hv with
            | op f'' hw'' _ hx'' => rw [q] at hw''; cases hw''; simp [execOp] at hx''
          · exact absurd q2 (hev.sink e (List.mem_filter.1 he).1 t c)
          · rw [FEval.unique q1 hv]; rfl
        obtain ⟨m1, m2⟩ := mapM_dep_mk (pos := fun a => start gs k + p.2.idxOf a) f hall
        rw [m1]
        dsimp only
        have : ∃ r, fheExec deg op cells ((p.1.inEdges n).map fun e => (some (f e.1), e.2.2)) = .ok r := by
          unfold fheExec
          split
          · exact ⟨_, rfl⟩
          · rw [m2]
            dsimp only
            rw [hx]
            cases op with
            | output t c => exact ⟨_, rfl⟩
            | _ => exact ⟨_, rfl⟩
        obtain ⟨⟨o, w⟩, hr⟩ := this
        rw [hr]
        exact ⟨o, w, rfl⟩

end Spf.Sched
