import Verif.Proof.SchedLive
import Verif.Spec.FheSem
namespace Spf.Sched
open Spf.Fhe Graph

/-! ### `collectDeps` -/

/-- Number of edges of `es` with source `a`. -/
def cnt (es : List (Nat × Nat × FheEdge)) (a : Nat) : Nat := es.countP fun e => e.1 == a

theorem lookup_filter {β : Type} (a b : Nat) : ∀ (m : List (Nat × β)),
    (m.filter fun p => !(p.1 == b)).lookup a = if a = b then none else m.lookup a
  | [] => by simp
  | (x, v) :: m => by
    have ih := lookup_filter a b m
    by_cases hx : x = b
    · subst hx
      simp only [List.filter_cons, beq_self_eq_true, Bool.not_true, Bool.false_eq_true, if_false, ih, List.lookup_cons]
      by_cases h : a = x
      · simp [h]
      · simp only [if_neg h, beq_eq_false_iff_ne.2 h]
    · simp only [List.filter_cons, beq_eq_false_iff_ne.2 hx, Bool.not_false, if_true, List.lookup_cons, ih]
      by_cases h : a = x
      · subst h; rw [beq_self_eq_true]; simp [hx]
      · rw [beq_eq_false_iff_ne.2 h]

theorem collectDeps_spec (task c : Nat → Nat) : ∀ (es : List (Nat × Nat × FheEdge)) (m : TaskMap),
    (∀ e ∈ es, m.lookup e.1 = some (task e.1, c e.1) ∧ cnt es e.1 ≤ c e.1) →
    ∃ m', collectDeps es m = some (es.map fun e => (task e.1, e.2.2), m') ∧
      ∀ a, (cnt es a = 0 → m'.lookup a = m.lookup a) ∧ (0 < cnt es a → cnt es a < c a → m'.lookup a = some (task a, c a - cnt es a)) := by
  intro es
  induction es generalizing c with
  | nil => intro m _; exact ⟨m, rfl, fun a => ⟨fun _ => rfl, fun h => absurd h (by simp [cnt])⟩⟩
  | cons e es ih =>
    intro m h
    obtain ⟨h1, h2⟩ := h e (by simp)
    have hce : cnt (e :: es) e.1 = cnt es e.1 + 1 := by simp [cnt]
    have hcne : ∀ a, a ≠ e.1 → cnt (e :: es) a = cnt es a := by
      intro a ha
      simp only [cnt, List.countP_cons]
      rw [if_neg (by simpa using fun hh => ha hh.symm)]; rfl
    simp only [collectDeps, h1]
    rw [if_neg (by omega)]
    set m1 : TaskMap := m.filter fun p => !(p.1 == e.1) with hm1
    set m2 : TaskMap := if c e.1 - 1 = 0 then m1 else (e.1, task e.1, c e.1 - 1) :: m1 with hm2
    have l1 : ∀ a, m1.lookup a = if a = e.1 then none else m.lookup a := fun a => lookup_filter a e.1 m
    have l2 : ∀ a, a ≠ e.1 → m2.lookup a = m.lookup a := by
      intro a ha
      have hb : (a == e.1) = false := beq_eq_false_iff_ne.2 ha
      rw [hm2]
      split
      · rw [l1, if_neg ha]
      · rw [List.lookup_cons, hb]; dsimp only; rw [l1, if_neg ha]
    have l3 : 1 < c e.1 → m2.lookup e.1 = some (task e.1, c e.1 - 1) := by
      intro hc
      rw [hm2, if_neg (by omega), List.lookup_cons]; simp
    obtain ⟨m', hm', hl⟩ := ih (fun a => if a = e.1 then c a - 1 else c a) m2 (by
      intro f hf
      obtain ⟨h3, h4⟩ := h f (by simp [hf])
      have hpos : 0 < cnt es f.1 := List.countP_pos_iff.2 ⟨f, hf, by simp⟩
      by_cases hfe : f.1 = e.1
      · rw [if_pos hfe]
        rw [hfe] at hpos h4 ⊢
        rw [hce] at h4
        exact ⟨l3 (by omega), by omega⟩
      · rw [if_neg hfe, l2 _ hfe]
        rw [hcne _ hfe] at h4
        exact ⟨h3, h4⟩)
    rw [hm']
    refine ⟨m', rfl, ?_⟩
    intro a
    obtain ⟨k1, k2⟩ := hl a
    by_cases ha : a = e.1
    · subst ha
      rw [hce]
      simp only [if_true] at k2
      refine ⟨fun hh => by omega, fun _ hlt => ?_⟩
      rcases Nat.eq_zero_or_pos (cnt es e.1) with h0 | h0
      · rw [k1 h0, l3 (by omega), h0]
      · rw [k2 h0 (by omega), show c e.1 - 1 - cnt es e.1 = c e.1 - (cnt es e.1 + 1) by omega]
    · rw [hcne a ha]
      simp only [if_neg ha] at k2
      exact ⟨fun h0 => by rw [k1 h0, l2 a ha], k2⟩

/-! ### `spawnLoop` -/

/-- The item dispatched for node `n`. -/
def nodeItem (g : FGraph) (circ base : Nat) (ord : List Nat) (n : Nat) : Item FheOp RtErr FheEdge :=
  ⟨circ, g.weight n, (g.inEdges n).map fun e => (base + ord.idxOf e.1, e.2.2), none⟩

def notRetire (g : FGraph) (n : Nat) : Bool := !(g.weight n == some .retire)

/-- The items of one circuit. -/
def circItems (g : FGraph) (circ base : Nat) (ord : List Nat) : List (Item FheOp RtErr FheEdge) :=
  (ord.takeWhile (notRetire g)).map (nodeItem g circ base ord) ++
    [⟨circ, none, [], if ord.all (notRetire g) then none else some .illegalRetire⟩]

/-- edges of `a` to nodes not yet visited -/
def openEdges (g : FGraph) (l : List Nat) (a : Nat) : Nat := g.edges.countP fun e => e.1 == a && !(l.contains e.2.1)

theorem openEdges_snoc (g : FGraph) {l : List Nat} {n : Nat} (hn : n ∉ l) (a : Nat) :
    openEdges g l a = openEdges g (l ++ [n]) a + cnt (g.inEdges n) a := by
  unfold openEdges cnt inEdges
  induction g.edges with
  | nil => rfl
  | cons e es ih =>
    simp only [List.countP_cons, List.filter_cons]
    rw [ih]
    by_cases h1 : e.2.1 = n
    · subst h1
      have : (l.contains e.2.1) = false := by simpa using hn
      by_cases h2 : e.1 = a
      · simp [h2, hn]; omega
      · simp [h2]
    · by_cases h2 : e.1 = a
      · by_cases h3 : e.2.1 ∈ l <;> simp [h1, h2, h3] <;> omega
      · simp [h1, h2]

theorem spawnLoop_spec {g : FGraph} {ord : List Nat} (ht : TopoOrder g ord) (circ base : Nat) :
    ∀ (ns l : List Nat) (m : TaskMap), ord = l ++ ns → (∀ n ∈ l, notRetire g n = true) →
    (∀ a ∈ l, 0 < openEdges g l a → m.lookup a = some (base + ord.idxOf a, openEdges g l a)) →
    spawnLoop g circ ns (base + l.length) m = some ((ns.takeWhile (notRetire g)).map (nodeItem g circ base ord) ++
      [⟨circ, none, [], if ns.all (notRetire g) then none else some .illegalRetire⟩]) := by
  intro ns
  induction ns with
  | nil => intro l m ho hl hm; simp [spawnLoop]
  | cons n ns ih =>
    intro l m ho hl hm
    have hnd := ht.nodup
    rw [ho] at hnd
    have hnl : n ∉ l := by
      intro hh
      have := List.nodup_append.1 hnd
      exact this.2.2 n hh n (by simp) rfl
    have hw : (g.weight n).isSome := (ht.mem n).1 (by rw [ho]; simp)
    obtain ⟨op, hop⟩ := Option.isSome_iff_exists.1 hw
    obtain ⟨m', hm', hl'⟩ := collectDeps_spec (fun a => base + ord.idxOf a) (openEdges g l) (g.inEdges n) m (by
      intro e he
      obtain ⟨he1, he2⟩ := List.mem_filter.1 he
      have he2 : e.2.1 = n := by simpa using he2
      have hel : e.1 ∈ l := ht.edge e he1 l ns (by rw [he2]; exact ho)
      have h1 := openEdges_snoc g hnl e.1
      have hpos : 0 < cnt (g.inEdges n) e.1 := List.countP_pos_iff.2 ⟨e, he, by simp⟩
      exact ⟨hm e.1 hel (by omega), by omega⟩)
    simp only [spawnLoop, hm', hop]
    by_cases hr : op = .retire
    · have hnr : notRetire g n = false := by unfold notRetire; rw [hop, hr]; rfl
      rw [if_pos hr, List.takeWhile_cons, hnr, List.all_cons, hnr]
      simp
    · have hnr : notRetire g n = true := by unfold notRetire; rw [hop]; simpa using hr
      rw [if_neg hr, List.takeWhile_cons, hnr, List.all_cons, hnr]
      have hout : (g.outEdges n).length = openEdges g (l ++ [n]) n := by
        unfold outEdges openEdges
        rw [← List.countP_eq_length_filter]
        refine List.countP_congr fun e he => ?_
        simp only [beq_iff_eq, Bool.and_eq_true, Bool.not_eq_true', List.contains_eq_mem, decide_eq_false_iff_not]
        refine ⟨fun h => ⟨h, ?_⟩, And.left⟩
        intro hmem
        have : e.2.1 ∈ ord := (ht.mem _).2 (ht.ends e he).2
        rcases List.mem_append.1 hmem with h2 | h2
        · obtain ⟨p, q, hpq⟩ := List.append_of_mem h2
          have := ht.edge e he p (q ++ n :: ns) (by rw [ho, hpq]; simp)
          rw [h] at this
          exact hnl (by rw [hpq]; exact List.mem_append_left _ this)
        · have h2 : e.2.1 = n := by simpa using h2
          have := ht.edge e he l ns (by rw [h2]; exact ho)
          rw [h] at this
          exact hnl this
      have hidx : ord.idxOf n = l.length := by
        rw [ho, List.idxOf_append_of_notMem hnl, List.idxOf_cons_self]; rfl
      have := ih (l ++ [n]) ((n, base + l.length, (g.outEdges n).length) :: m') (by rw [ho]; simp) (by
          intro x hx
          rcases List.mem_append.1 hx with h | h
          · exact hl x h
          · rw [List.mem_singleton.1 h]; exact hnr) (by
          intro a ha hpos
          by_cases han : a = n
          · subst han
            rw [List.lookup_cons, beq_self_eq_true]
            dsimp only
            rw [hidx, hout]
          · rw [List.lookup_cons, beq_eq_false_iff_ne.2 han]
            dsimp only
            have hal : a ∈ l := by
              rcases List.mem_append.1 ha with h | h
              · exact h
              · exact absurd (List.mem_singleton.1 h) han
            have h1 := openEdges_snoc g hnl a
            obtain ⟨k1, k2⟩ := hl' a
            rcases Nat.eq_zero_or_pos (cnt (g.inEdges n) a) with h0 | h0
            · rw [k1 h0, hm a hal (by omega)]
              rw [h1, h0]; rfl
            · rw [k2 h0 (by omega)]
              rw [show openEdges g l a - cnt (g.inEdges n) a = openEdges g (l ++ [n]) a by omega])
      rw [List.length_append, List.length_singleton, ← Nat.add_assoc] at this
      rw [this]
      simp only [if_true, List.map_cons, List.cons_append, Bool.true_and]
      have hni : nodeItem g circ base ord n = ⟨circ, some op, (g.inEdges n).map fun e => (base + ord.idxOf e.1, e.2.2), none⟩ := by
        unfold nodeItem; rw [hop]
      rw [hni]

theorem spawnLoop_eq {g : FGraph} {ord : List Nat} (ht : TopoOrder g ord) (circ base : Nat) :
    spawnLoop g circ ord base [] = some (circItems g circ base ord) := by
  have := spawnLoop_spec ht circ base ord [] [] rfl (by simp) (by simp)
  simpa [circItems] using this

/-! ### Sequences of circuits -/

/-- All items of a sequence of circuits. -/
def allItems : List (FGraph × List Nat) → Nat → Nat → List (Item FheOp RtErr FheEdge)
  | [], _, _ => []
  | (g, ord) :: gs, circ, next => circItems g circ next ord ++ allItems gs (circ + 1) (next + (circItems g circ next ord).length)

theorem spawnAll_eq : ∀ (gs : List (FGraph × List Nat)) (circ next : Nat), (∀ p ∈ gs, TopoOrder p.1 p.2) →
    spawnAll gs circ next = some (allItems gs circ next)
  | [], _, _, _ => rfl
  | (g, ord) :: gs, circ, next, h => by
    simp only [spawnAll, allItems, spawnLoop_eq (h (g, ord) (by simp)) circ next,
      spawnAll_eq gs (circ + 1) _ (fun p hp => h p (by simp [hp]))]

/-- Number of items of a circuit. -/
def circLen (p : FGraph × List Nat) : Nat := (p.2.takeWhile (notRetire p.1)).length + 1

theorem circItems_length (g : FGraph) (circ base : Nat) (ord : List Nat) :
    (circItems g circ base ord).length = circLen (g, ord) := by
  simp [circItems, circLen]

/-- Start of circuit `k`. -/
def start (gs : List (FGraph × List Nat)) (k : Nat) : Nat := ((gs.take k).map circLen).sum

/-- Every item is an item of one circuit, and conversely. -/
theorem allItems_get : ∀ (gs : List (FGraph × List Nat)) (circ next i : Nat) (it : Item FheOp RtErr FheEdge),
    (allItems gs circ next)[i]? = some it ↔ ∃ k p j, gs[k]? = some p ∧ i = start gs k + j ∧
      (circItems p.1 (circ + k) (next + start gs k) p.2)[j]? = some it
  | [], _, _, i, it => by simp [allItems]
  | (g, ord) :: gs, circ, next, i, it => by
    rw [allItems, List.getElem?_append]
    split
    · rename_i hlt
      constructor
      · intro h
        exact ⟨0, (g, ord), i, rfl, by simp [start], by simpa [start] using h⟩
      · rintro ⟨k, p, j, h1, h2, h3⟩
        cases k with
        | zero =>
          simp only [List.getElem?_cons_zero, Option.some.injEq] at h1
          subst h1
          simp only [start, List.take_zero, List.map_nil, List.sum_nil, Nat.zero_add, Nat.add_zero] at h2 h3
          rw [h2]; exact h3
        | succ k =>
          exfalso
          rw [circItems_length] at hlt
          simp only [start, List.take_succ_cons, List.map_cons, List.sum_cons] at h2
          omega
    · rename_i hge
      have hge : circLen (g, ord) ≤ i := by rw [circItems_length] at hge; omega
      rw [allItems_get gs (circ + 1) _ _ it, circItems_length]
      constructor
      · rintro ⟨k, p, j, h1, h2, h3⟩
        refine ⟨k + 1, p, j, h1, ?_, ?_⟩
        · simp only [start, List.take_succ_cons, List.map_cons, List.sum_cons] at h2 ⊢; omega
        · have e1 : circ + 1 + k = circ + (k + 1) := by omega
          have e2 : next + circLen (g, ord) + start gs k = next + start ((g, ord) :: gs) (k + 1) := by
            simp only [start, List.take_succ_cons, List.map_cons, List.sum_cons]; omega
          rw [← e1, ← e2]; exact h3
      · rintro ⟨k, p, j, h1, h2, h3⟩
        cases k with
        | zero =>
          exfalso
          simp only [List.getElem?_cons_zero, Option.some.injEq] at h1
          subst h1
          have := getElem?_lt h3
          rw [circItems_length] at this
          simp only [start, List.take_zero, List.map_nil, List.sum_nil, Nat.zero_add] at h2
          change j < circLen (g, ord) at this
          omega
        | succ k =>
          refine ⟨k, p, j, h1, ?_, ?_⟩
          · simp only [start, List.take_succ_cons, List.map_cons, List.sum_cons] at h2 ⊢; omega
          · have e1 : circ + 1 + k = circ + (k + 1) := by omega
            have e2 : next + circLen (g, ord) + start gs k = next + start ((g, ord) :: gs) (k + 1) := by
              simp only [start, List.take_succ_cons, List.map_cons, List.sum_cons]; omega
            rw [e1, e2]; exact h3

/-- The items of one circuit, by position. -/
theorem circItems_get {g : FGraph} {ord : List Nat} (circ base j : Nat) (it : Item FheOp RtErr FheEdge) :
    (circItems g circ base ord)[j]? = some it ↔
      (∃ n, ord[j]? = some n ∧ j < (ord.takeWhile (notRetire g)).length ∧ it = nodeItem g circ base ord n) ∨
      (j = (ord.takeWhile (notRetire g)).length ∧
        it = ⟨circ, none, [], if ord.all (notRetire g) then none else some .illegalRetire⟩) := by
  unfold circItems
  rw [List.getElem?_append, List.length_map]
  split
  · rename_i hlt
    have hpre : (ord.takeWhile (notRetire g))[j]? = ord[j]? := by
      obtain ⟨r, hr⟩ := List.takeWhile_prefix (l := ord) (notRetire g)
      conv_rhs => rw [← hr]
      rw [List.getElem?_append_left hlt]
    rw [List.getElem?_map, hpre]
    constructor
    · intro h
      obtain ⟨n, h1, h2⟩ := Option.map_eq_some_iff.1 h
      exact Or.inl ⟨n, h1, hlt, h2.symm⟩
    · rintro (⟨n, h1, _, h2⟩ | ⟨h1, _⟩)
      · rw [h1, h2]; rfl
      · omega
  · rename_i hge
    constructor
    · intro h
      obtain ⟨h1, h2⟩ := List.getElem?_eq_some_iff.1 h
      simp only [List.length_singleton] at h1
      refine Or.inr ⟨by omega, ?_⟩
      rw [← h2]; simp
    · rintro (⟨n, _, h1, _⟩ | ⟨h1, h2⟩)
      · omega
      · rw [h1, h2, Nat.sub_self]; rfl

theorem start_succ {gs : List (FGraph × List Nat)} {k : Nat} {p : FGraph × List Nat} (h : gs[k]? = some p) :
    start gs (k + 1) = start gs k + circLen p := by
  obtain ⟨hk, he⟩ := List.getElem?_eq_some_iff.1 h
  unfold start
  rw [List.take_add_one, h]; simp

theorem start_mono {gs : List (FGraph × List Nat)} {k k' : Nat} (h : k ≤ k') : start gs k ≤ start gs k' := by
  obtain ⟨d, rfl⟩ := Nat.exists_eq_add_of_le h
  unfold start
  rw [List.take_add, List.map_append, List.sum_append]; omega

theorem start_inj {gs : List (FGraph × List Nat)} {k k' : Nat} {p p' : FGraph × List Nat} (h : gs[k]? = some p) (h' : gs[k']? = some p')
    {j j' : Nat} (hj : j < circLen p) (hj' : j' < circLen p') (he : start gs k + j = start gs k' + j') : k = k' ∧ j = j' := by
  have h1 := start_succ h
  have h2 := start_succ h'
  rcases Nat.lt_trichotomy k k' with hk | hk | hk
  · have := start_mono (gs := gs) (show k + 1 ≤ k' from hk); omega
  · subst hk; exact ⟨rfl, by omega⟩
  · have := start_mono (gs := gs) (show k' + 1 ≤ k from hk); omega

theorem get_lt_circLen {p : FGraph × List Nat} {circ base j : Nat} {it : Item FheOp RtErr FheEdge}
    (h : (circItems p.1 circ base p.2)[j]? = some it) : j < circLen p := by
  have := getElem?_lt h
  rwa [circItems_length] at this

theorem circItems_circ {p : FGraph × List Nat} {circ base j : Nat} {it : Item FheOp RtErr FheEdge}
    (h : (circItems p.1 circ base p.2)[j]? = some it) : it.circ = circ := by
  rcases (circItems_get _ _ _ _).1 h with ⟨n, _, _, rfl⟩ | ⟨_, rfl⟩ <;> rfl

theorem circItems_op_none {p : FGraph × List Nat} (ht : TopoOrder p.1 p.2) {circ base j : Nat} {it : Item FheOp RtErr FheEdge}
    (h : (circItems p.1 circ base p.2)[j]? = some it) (ho : it.op = none) : j = (p.2.takeWhile (notRetire p.1)).length := by
  rcases (circItems_get _ _ _ _).1 h with ⟨n, h1, _, rfl⟩ | ⟨h1, _⟩
  · have := (ht.mem n).1 (List.mem_of_getElem? h1)
    change p.1.weight n = none at ho
    rw [ho] at this; cases this
  · exact h1

theorem idx_lt {p : FGraph × List Nat} (ht : TopoOrder p.1 p.2) {j n : Nat} (hn : p.2[j]? = some n) {e : Nat × Nat × FheEdge}
    (he : e ∈ p.1.inEdges n) : p.2.idxOf e.1 < j ∧ p.2[p.2.idxOf e.1]? = some e.1 := by
  obtain ⟨hj, hnj⟩ := List.getElem?_eq_some_iff.1 hn
  obtain ⟨he1, he2⟩ := List.mem_filter.1 he
  have he2 : e.2.1 = n := by simpa using he2
  have hsplit : p.2 = p.2.take j ++ n :: p.2.drop (j + 1) := by
    rw [← hnj, List.getElem_cons_drop, List.take_append_drop]
  have hmem := ht.edge e he1 (p.2.take j) (p.2.drop (j + 1)) (by rw [he2]; exact hsplit)
  have h1 : p.2.idxOf e.1 = (p.2.take j).idxOf e.1 := by
    conv_lhs => rw [hsplit]
    exact List.idxOf_append_of_mem hmem
  have h2 : (p.2.take j).idxOf e.1 < (p.2.take j).length := List.idxOf_lt_length_iff.2 hmem
  have h3 : (p.2.take j).length ≤ j := by simp
  refine ⟨by omega, ?_⟩
  have h4 : p.2.idxOf e.1 < p.2.length := by omega
  rw [List.getElem?_eq_getElem h4, List.getElem_idxOf h4]

theorem wellFormed {gs : List (FGraph × List Nat)} (h : ∀ p ∈ gs, TopoOrder p.1 p.2) : WellFormed (allItems gs 0 0) where
  deps := by
    intro i it hi d hd
    obtain ⟨k, p, j, h1, rfl, h3⟩ := (allItems_get _ _ _ _ _).1 hi
    have ht := h p (List.mem_of_getElem? h1)
    rcases (circItems_get _ _ _ _).1 h3 with ⟨n, hn, hlt, rfl⟩ | ⟨_, rfl⟩
    · obtain ⟨e, he, rfl⟩ := List.mem_map.1 hd
      obtain ⟨h4, h5⟩ := idx_lt ht hn he
      refine ⟨by dsimp only; omega, nodeItem p.1 (0 + k) (0 + start gs k) p.2 e.1, ?_, rfl⟩
      refine (allItems_get _ _ _ _ _).2 ⟨k, p, p.2.idxOf e.1, h1, by dsimp only; omega, ?_⟩
      exact (circItems_get _ _ _ _).2 (Or.inl ⟨e.1, h5, by omega, rfl⟩)
    · cases hd
  last := by
    intro i it hi
    obtain ⟨k, p, j, h1, rfl, h3⟩ := (allItems_get _ _ _ _ _).1 hi
    refine ⟨start gs k + (p.2.takeWhile (notRetire p.1)).length,
      ⟨0 + k, none, [], if p.2.all (notRetire p.1) then none else some .illegalRetire⟩, ?_, ?_, rfl, ?_⟩
    · exact (allItems_get _ _ _ _ _).2 ⟨k, p, _, h1, rfl, (circItems_get _ _ _ _).2 (Or.inr ⟨rfl, rfl⟩)⟩
    · exact (circItems_circ h3).symm
    · have := get_lt_circLen h3
      unfold circLen at this; omega
  once := by
    intro i j it jt hi hj hc ho
    obtain ⟨k, p, a, h1, rfl, h3⟩ := (allItems_get _ _ _ _ _).1 hi
    obtain ⟨k', p', b, h1', rfl, h3'⟩ := (allItems_get _ _ _ _ _).1 hj
    rw [circItems_circ h3, circItems_circ h3'] at hc
    have hk : k = k' := by omega
    subst hk
    rw [h1] at h1'
    cases h1'
    have h4 := circItems_op_none (h p (List.mem_of_getElem? h1)) h3 ho
    have h5 := get_lt_circLen h3'
    unfold circLen at h5; omega

/-! ### cells -/

theorem execOp_cells (deg : Nat) {c₁ c₂ : CtType → Nat → Fhe.Val} (op : FheOp) (ins : List (Fhe.Val × FheEdge))
    (h : ∀ t i, op = .input t i → c₁ t i = c₂ t i) : execOp deg c₁ op ins = execOp deg c₂ op ins := by
  cases op with
  | input t i =>
    cases ins with
    | nil => simp only [execOp]; rw [h t i rfl]
    | cons a l => rfl
  | _ =>
    rcases ins with _ | ⟨⟨v, k⟩, _ | ⟨⟨v', k'⟩, _ | ⟨⟨v'', k''⟩, _ | ⟨a, l⟩⟩⟩⟩ <;> first | rfl | (cases v <;> cases k <;> rfl)

theorem fheExec_cells (deg : Nat) (op : FheOp) (c₁ c₂ : CtType × Nat → Fhe.Val) (ins : List (Option Fhe.Val × FheEdge))
    (h : ∀ c, (∃ t i, op = .input t i ∧ c = (t, i)) → c₁ c = c₂ c) : fheExec deg op c₁ ins = fheExec deg op c₂ ins := by
  unfold fheExec
  split
  · rfl
  · cases ins.mapM (fun p => p.1.map fun v => (v, p.2)) with
    | none => rfl
    | some ins =>
      dsimp only
      rw [execOp_cells deg op ins (c₁ := fun t c => c₁ (t, c)) (c₂ := fun t c => c₂ (t, c)) (fun t i hh => h (t, i) ⟨t, i, hh, rfl⟩)]

theorem fheExec_write (deg : Nat) (op : FheOp) (cs : CtType × Nat → Fhe.Val) (ins : List (Option Fhe.Val × FheEdge)) (o : Option Fhe.Val)
    (c : CtType × Nat) (v : Fhe.Val) (h : fheExec deg op cs ins = .ok (o, some (c, v))) : ∃ t i, op = .output t i ∧ c = (t, i) := by
  unfold fheExec at h
  split at h
  · cases h
  · cases hm : ins.mapM (fun p => p.1.map fun v => (v, p.2)) with
    | none => rw [hm] at h; cases h
    | some ins' =>
      rw [hm] at h
      dsimp only at h
      cases he : execOp deg (fun t c => cs (t, c)) op ins' with
      | none => rw [he] at h; cases h
      | some w =>
        rw [he] at h
        cases op with
        | output t i =>
          simp only [Except.ok.injEq, Prod.mk.injEq, Option.some.injEq] at h
          exact ⟨t, i, rfl, h.2.1.symm⟩
        | _ => cases h

/-- An item with an operator comes from a node. -/
theorem item_node {gs : List (FGraph × List Nat)} {i : Nat} {it : Item FheOp RtErr FheEdge}
    (hi : (allItems gs 0 0)[i]? = some it) {op : FheOp} (ho : it.op = some op) :
    ∃ k p j n, gs[k]? = some p ∧ i = start gs k + j ∧ p.2[j]? = some n ∧ j < (p.2.takeWhile (notRetire p.1)).length ∧
      p.1.weight n = some op ∧ it = nodeItem p.1 (0 + k) (0 + start gs k) p.2 n := by
  obtain ⟨k, p, j, h1, h2, h3⟩ := (allItems_get _ _ _ _ _).1 hi
  rcases (circItems_get _ _ _ _).1 h3 with ⟨n, hn, hlt, rfl⟩ | ⟨_, rfl⟩
  · exact ⟨k, p, j, n, h1, h2, hn, hlt, ho, rfl⟩
  · cases ho

/-- The cells used by circuits that are apart. -/
def cellsOf (deg : Nat) {gs : List (FGraph × List Nat)} (h : ∀ p ∈ gs, TopoOrder p.1 p.2) (ha : Apart gs) :
    Cells (fheExec deg) (allItems gs 0 0) where
  reads := fun op c => ∃ t i, op = .input t i ∧ c = (t, i)
  writes := fun op c => ∃ t i, op = .output t i ∧ c = (t, i)
  read_ok := fun op c₁ c₂ ins hh => fheExec_cells deg op c₁ c₂ ins hh
  write_ok := fun op cs ins o c v hh => fheExec_write deg op cs ins o c v hh
  one_writer := by
    rintro i j it jt _ _ _ hi hj ho ho' ⟨t, c, rfl, rfl⟩ ⟨t', c', rfl, hcc⟩
    obtain ⟨rfl, rfl⟩ := Prod.mk.inj hcc
    obtain ⟨k, p, a, n, h1, rfl, hn, hlt, hw, _⟩ := item_node hi ho
    obtain ⟨k', p', b, n', h1', rfl, hn', hlt', hw', _⟩ := item_node hj ho'
    obtain ⟨rfl, rfl⟩ := ha.outputs k k' p p' n n' t c h1 h1' hw hw'
    rw [h1] at h1'
    cases h1'
    obtain ⟨x1, x2⟩ := List.getElem?_eq_some_iff.1 hn
    obtain ⟨y1, y2⟩ := List.getElem?_eq_some_iff.1 hn'
    have := (h p (List.mem_of_getElem? h1)).nodup.getElem_inj_iff.1 (x2.trans y2.symm)
    rw [this]
  no_race := by
    rintro i j it jt _ _ _ hi hj ho ho' ⟨t, c, rfl, rfl⟩ ⟨t', c', rfl, hcc⟩
    obtain ⟨rfl, rfl⟩ := Prod.mk.inj hcc
    obtain ⟨k, p, a, n, h1, rfl, hn, hlt, hw, _⟩ := item_node hi ho
    obtain ⟨k', p', b, n', h1', rfl, hn', hlt', hw', _⟩ := item_node hj ho'
    exact ha.inputs k k' p p' n n' t c h1 h1' hw hw'

end Spf.Sched
