import Verif.Spec.Transforms
import Mathlib.Data.List.Forall2
import Mathlib.Tactic.ByContra
/-! Correctness of `GraphTransforms::apply`. -/
namespace Spf.Transforms
open Spf.Spec
variable {N E : Type}

theorem weight_some {g : Stable N E} {i : Nat} {n : N} : g.weight i = some n ↔ g.slots[i]? = some (some n) := by
  unfold Stable.weight
  rw [List.getD_eq_getElem?_getD]
  cases h : g.slots[i]? <;> simp

theorem weight_lt {g : Stable N E} {i : Nat} (h : (g.weight i).isSome) : i < g.slots.length := by
  obtain ⟨n, hn⟩ := Option.isSome_iff_exists.1 h
  rw [weight_some] at hn
  exact (List.getElem?_eq_some_iff.1 hn).1

theorem addNode_spec {g : Stable N E} (hg : WellFormed g) (n : N) :
    g.weight (g.addNode n).2 = none ∧ WellFormed (g.addNode n).1 ∧ (g.addNode n).1.edges = g.edges ∧
    ∀ i, (g.addNode n).1.weight i = if i = (g.addNode n).2 then some n else g.weight i := by
  cases hf : g.free with
  | nil =>
    have hr : g.addNode n = ({ g with slots := g.slots ++ [some n] }, g.slots.length) := by
      unfold Stable.addNode; rw [hf]
    rw [hr]
    have hw : ∀ i, Stable.weight { g with slots := g.slots ++ [some n] } i =
        if i = g.slots.length then some n else g.weight i := by
      intro i
      unfold Stable.weight
      simp only [List.getD_eq_getElem?_getD]
      rcases Nat.lt_trichotomy i g.slots.length with h | h | h
      · rw [if_neg (by omega), List.getElem?_append_left h]
      · subst h; simp
      · rw [if_neg (by omega), List.getElem?_eq_none (by simp; omega), List.getElem?_eq_none (by omega)]
    refine ⟨?_, ⟨?_, ?_, ?_⟩, rfl, hw⟩
    · show g.slots.getD g.slots.length none = none
      simp
    · show g.free.Nodup
      exact hg.nodup
    · intro i
      show i ∈ g.free ↔ i < (g.slots ++ [some n]).length ∧ _
      rw [hw, hg.free i]
      simp only [List.length_append, List.length_singleton]
      constructor
      · rintro ⟨h1, h2⟩
        exact ⟨by omega, by rw [if_neg (by omega)]; exact h2⟩
      · rintro ⟨h1, h2⟩
        by_cases h : i = g.slots.length
        · rw [if_pos h] at h2; simp at h2
        · rw [if_neg h] at h2; exact ⟨by omega, h2⟩
    · intro e he
      have := hg.edges e he
      have h1 := weight_lt this.1
      have h2 := weight_lt this.2
      rw [hw, hw, if_neg (by omega), if_neg (by omega)]
      exact this
  | cons j rest =>
    have hr : g.addNode n = ({ g with slots := g.slots.set j (some n), free := rest }, j) := by
      unfold Stable.addNode; rw [hf]
    rw [hr]
    have hj : j < g.slots.length ∧ g.weight j = none := (hg.free j).1 (by rw [hf]; simp)
    have hnd : (j :: rest).Nodup := hf ▸ hg.nodup
    have hw : ∀ i, Stable.weight { g with slots := g.slots.set j (some n), free := rest } i =
        if i = j then some n else g.weight i := by
      intro i
      unfold Stable.weight
      simp only [List.getD_eq_getElem?_getD]
      by_cases h : i = j
      · subst h; simp [hj.1]
      · rw [if_neg h, List.getElem?_set_ne (by omega)]
    refine ⟨hj.2, ⟨?_, ?_, ?_⟩, rfl, hw⟩
    · exact (List.nodup_cons.1 hnd).2
    · intro i
      show i ∈ rest ↔ i < (g.slots.set j (some n)).length ∧ _
      rw [hw, List.length_set]
      have := hg.free i
      rw [hf] at this
      by_cases h : i = j
      · subst h
        simp [(List.nodup_cons.1 hnd).1]
      · rw [if_neg h, ← this]
        simp [h]
    · intro e he
      have := hg.edges e he
      have h1 : e.1 ≠ j := fun h => by rw [h, hj.2] at this; simp at this
      have h2 : e.2.1 ≠ j := fun h => by rw [h, hj.2] at this; simp at this
      rw [hw, hw, if_neg h1, if_neg h2]
      exact this

theorem removeNode_spec {g : Stable N E} (hg : WellFormed g) {a : Nat} (ha : (g.weight a).isSome) :
    WellFormed (g.removeNode a) ∧
    (g.removeNode a).edges = g.edges.filter (fun e => !(e.1 == a) && !(e.2.1 == a)) ∧
    ∀ i, (g.removeNode a).weight i = if i = a then none else g.weight i := by
  have hal := weight_lt ha
  have hr : g.removeNode a =
      ⟨g.slots.set a none, a :: g.free, g.edges.filter fun e => !(e.1 == a) && !(e.2.1 == a)⟩ := by
    unfold Stable.removeNode; rw [if_pos ha]
  rw [hr]
  have hw : ∀ i, Stable.weight (⟨g.slots.set a none, a :: g.free,
      g.edges.filter fun e => !(e.1 == a) && !(e.2.1 == a)⟩ : Stable N E) i = if i = a then none else g.weight i := by
    intro i
    unfold Stable.weight
    simp only [List.getD_eq_getElem?_getD]
    by_cases h : i = a
    · subst h; simp [hal]
    · rw [if_neg h, List.getElem?_set_ne (by omega)]
  refine ⟨⟨?_, ?_, ?_⟩, rfl, hw⟩
  · refine List.nodup_cons.2 ⟨fun h => ?_, hg.nodup⟩
    rw [((hg.free a).1 h).2] at ha
    simp at ha
  · intro i
    show i ∈ a :: g.free ↔ i < (g.slots.set a none).length ∧ _
    rw [hw, List.length_set, List.mem_cons, hg.free i]
    by_cases h : i = a
    · subst h; simp [hal]
    · simp [h]
  · intro e he
    have he := List.mem_filter.1 he
    have h1 : e.1 ≠ a ∧ e.2.1 ≠ a := by simpa using he.2
    rw [hw, hw, if_neg h1.1, if_neg h1.2]
    exact hg.edges e he.1

/-- The slot of a name once `ids` are the inserted nodes. -/
def slotOf (ids : List (Option Nat)) (x : Name) : Nat := (materialize ids x).getD 0

/-- The invariant of the loop. -/
structure Inv (ids : List (Option Nat)) (h : Named N E) (g : Stable N E) : Prop where
  wf : WellFormed g
  mat : ∀ x, (h.node x).isSome → materialize ids x = some (slotOf ids x)
  placed : Placed (slotOf ids) h g
  ends : ∀ e ∈ h.edges, (h.node e.1).isSome ∧ (h.node e.2.1).isSome

theorem inv_init {g : Stable N E} (hg : WellFormed g) : Inv [] (Named.ofGraph g) g := by
  refine ⟨hg, ?_, ⟨?_, ?_, ?_⟩, ?_⟩
  · intro x hx
    cases x with
    | node i => rfl
    | deferred k => simp [Named.ofGraph] at hx
  · intro x y hx hy hxy
    cases x with
    | deferred k => simp [Named.ofGraph] at hx
    | node i =>
      cases y with
      | deferred k => simp [Named.ofGraph] at hy
      | node j => simpa [slotOf, materialize] using hxy
  · intro i n
    constructor
    · intro h
      exact ⟨.node i, h, rfl⟩
    · rintro ⟨x, hx, hi⟩
      cases x with
      | deferred k => simp [Named.ofGraph] at hx
      | node j =>
        have : j = i := hi
        subst this
        exact hx
  · show g.edges = (g.edges.map _).map _
    rw [List.map_map]
    conv => lhs; rw [← List.map_id g.edges]
    rfl
  · intro e he
    obtain ⟨e', he', rfl⟩ := List.mem_map.1 he
    exact hg.edges e' he'

theorem mat_append {ids : List (Option Nat)} {x : Name} {i : Nat} (o : Option Nat) (h : materialize ids x = some i) :
    materialize (ids ++ [o]) x = some i := by
  cases x with
  | node j => exact h
  | deferred k =>
    simp only [materialize, List.getD_eq_getElem?_getD] at h ⊢
    have hk : k < ids.length := by
      by_contra hk
      rw [List.getElem?_eq_none (by omega)] at h
      simp at h
    rw [List.getElem?_append_left hk]
    exact h

/-- Nothing changes for the nodes when an id is appended. -/
theorem inv_append {ids : List (Option Nat)} {h : Named N E} {g : Stable N E} (hi : Inv ids h g) (o : Option Nat) :
    Inv (ids ++ [o]) h g ∧ ∀ x, (h.node x).isSome → slotOf (ids ++ [o]) x = slotOf ids x := by
  have hs : ∀ x, (h.node x).isSome → slotOf (ids ++ [o]) x = slotOf ids x := by
    intro x hx
    have := mat_append o (hi.mat x hx)
    show (materialize _ x).getD 0 = _
    rw [this]
    rfl
  refine ⟨⟨hi.wf, ?_, ⟨?_, ?_, ?_⟩, hi.ends⟩, hs⟩
  · intro x hx
    rw [hs x hx]
    exact mat_append o (hi.mat x hx)
  · intro x y hx hy hxy
    rw [hs x hx, hs y hy] at hxy
    exact hi.placed.inj x y hx hy hxy
  · intro i n
    rw [hi.placed.node i n]
    constructor
    · rintro ⟨x, hx, rfl⟩
      exact ⟨x, hx, hs x (by rw [hx]; rfl)⟩
    · rintro ⟨x, hx, rfl⟩
      exact ⟨x, hx, (hs x (by rw [hx]; rfl)).symm⟩
  · rw [hi.placed.edges]
    refine List.map_congr_left fun e he => ?_
    have := hi.ends e he
    rw [hs _ this.1, hs _ this.2]

theorem placed_weight {ids : List (Option Nat)} {h : Named N E} {g : Stable N E} (hi : Inv ids h g) {x : Name} {n : N}
    (hx : h.node x = some n) : g.weight (slotOf ids x) = some n := (hi.placed.node _ _).2 ⟨x, hx, rfl⟩

/-- The edge tests agree on nodes. -/
theorem edge_test {ids : List (Option Nat)} {h : Named N E} {g : Stable N E} (hi : Inv ids h g) {a b : Name}
    (ha : (h.node a).isSome) (hb : (h.node b).isSome) {e : Name × Name × E} (he : e ∈ h.edges) :
    (slotOf ids e.1 == slotOf ids a && slotOf ids e.2.1 == slotOf ids b) = decide (e.1 = a ∧ e.2.1 = b) := by
  have := hi.ends e he
  rw [Bool.eq_iff_iff]
  simp only [Bool.and_eq_true, beq_iff_eq, decide_eq_true_eq]
  constructor
  · rintro ⟨h1, h2⟩
    exact ⟨hi.placed.inj _ _ this.1 ha h1, hi.placed.inj _ _ this.2 hb h2⟩
  · rintro ⟨h1, h2⟩
    rw [h1, h2]; exact ⟨rfl, rfl⟩

theorem eraseP_map_congr {α β : Type} (f : α → β) (p : β → Bool) (q : α → Bool) :
    ∀ l : List α, (∀ x ∈ l, p (f x) = q x) → (l.map f).eraseP p = (l.eraseP q).map f
  | [], _ => rfl
  | x :: l, h => by
    have hx := h x (by simp)
    rw [List.map_cons]
    by_cases hq : q x = true
    · rw [List.eraseP_cons_of_pos (by rw [hx]; exact hq), List.eraseP_cons_of_pos hq]
    · rw [List.eraseP_cons_of_neg (by rw [hx]; exact hq), List.eraseP_cons_of_neg hq, List.map_cons,
        eraseP_map_congr f p q l fun y hy => h y (List.mem_cons_of_mem _ hy)]

theorem filter_map_congr {α β : Type} (f : α → β) (p : β → Bool) (q : α → Bool) :
    ∀ l : List α, (∀ x ∈ l, p (f x) = q x) → (l.map f).filter p = (l.filter q).map f
  | [], _ => rfl
  | x :: l, h => by
    have hx := h x (by simp)
    rw [List.map_cons]
    by_cases hq : q x = true
    · rw [List.filter_cons_of_pos (by rw [hx]; exact hq), List.filter_cons_of_pos hq, List.map_cons,
        filter_map_congr f p q l fun y hy => h y (List.mem_cons_of_mem _ hy)]
    · rw [List.filter_cons_of_neg (by rw [hx]; exact hq), List.filter_cons_of_neg hq,
        filter_map_congr f p q l fun y hy => h y (List.mem_cons_of_mem _ hy)]

/-- One transform. -/
theorem step_ok {ids : List (Option Nat)} {h h' : Named N E} {g : Stable N E} (hi : Inv ids h g) (t : Transform N E)
    (hfresh : h.node (.deferred ids.length) = none) (ht : h.step ids.length t = some h') :
    ∃ g' o, applyOne ids g t = some (g', o) ∧ Inv (ids ++ [o]) h' g' ∧
      (o.isSome ↔ ∃ n, t = .addNode n) ∧
      ∀ j, ids.length < j → h.node (.deferred j) = none → h'.node (.deferred j) = none := by
  cases t with
  | addNode n =>
    obtain ⟨hnone, hwf, he, hw⟩ := addNode_spec hi.wf n
    have hh : h' = { h with node := fun x => if x = .deferred ids.length then some n else h.node x } :=
      (Option.some.inj ht).symm
    obtain ⟨hi2, hs⟩ := inv_append hi (some (g.addNode n).2)
    generalize hgn : g.addNode n = r at *
    obtain ⟨g', i⟩ := r
    simp only at *
    have hid : slotOf (ids ++ [some i]) (.deferred ids.length) = i := by simp [slotOf, materialize]
    have hne : ∀ x, (h.node x).isSome → x ≠ .deferred ids.length := by
      rintro x hx rfl
      rw [hfresh] at hx
      simp at hx
    have hne' : ∀ x, (h.node x).isSome → slotOf (ids ++ [some i]) x ≠ i := by
      intro x hx hc
      obtain ⟨m, hm⟩ := Option.isSome_iff_exists.1 hx
      have := placed_weight hi2 hm
      rw [hc, hnone] at this
      simp at this
    refine ⟨g', some i, ?_, ?_, by simp, ?_⟩
    · show some ((g.addNode n).1, some (g.addNode n).2) = _
      rw [hgn]
    · subst hh
      refine ⟨hwf, ?_, ⟨?_, ?_, ?_⟩, ?_⟩
      · intro x hx
        by_cases hxe : x = .deferred ids.length
        · subst hxe
          rw [hid]
          simp [materialize]
        · simp only [if_neg hxe] at hx
          exact hi2.mat x hx
      · intro x y hx hy hxy
        simp only at hx hy
        by_cases hxe : x = .deferred ids.length
        · by_cases hye : y = .deferred ids.length
          · rw [hxe, hye]
          · rw [if_neg hye] at hy
            rw [hxe, hid] at hxy
            exact absurd hxy.symm (hne' y hy)
        · rw [if_neg hxe] at hx
          by_cases hye : y = .deferred ids.length
          · rw [hye, hid] at hxy
            exact absurd hxy (hne' x hx)
          · rw [if_neg hye] at hy
            exact hi2.placed.inj x y hx hy hxy
      · intro j m
        rw [hw]
        constructor
        · intro hj
          by_cases hje : j = i
          · rw [if_pos hje] at hj
            exact ⟨.deferred ids.length, by rw [← hj]; simp, by rw [hid, hje]⟩
          · rw [if_neg hje] at hj
            obtain ⟨x, hx, hxj⟩ := (hi2.placed.node j m).1 hj
            refine ⟨x, ?_, hxj⟩
            show (if _ then _ else _) = _
            rw [if_neg (hne x (by rw [hx]; rfl))]
            exact hx
        · rintro ⟨x, hx, hxj⟩
          by_cases hxe : x = .deferred ids.length
          · rw [hxe, hid] at hxj
            have hx : (if x = .deferred ids.length then some n else h.node x) = some m := hx
            rw [if_pos hxe] at hx
            rw [if_pos hxj.symm, hx]
          · have hx : (if x = .deferred ids.length then some n else h.node x) = some m := hx
            rw [if_neg hxe] at hx
            have := hne' x (by rw [hx]; rfl)
            rw [hxj] at this
            rw [if_neg this]
            exact (hi2.placed.node j m).2 ⟨x, hx, hxj⟩
      · rw [he]
        exact hi2.placed.edges
      · intro e hee
        have := hi.ends e hee
        simp only
        rw [if_neg (hne _ this.1), if_neg (hne _ this.2)]
        exact this
    · intro j hj hjn
      subst hh
      simp only
      rw [if_neg (by simp; omega)]
      exact hjn
  | addEdge a b e =>
    have ht' : (if (h.node a).isSome ∧ (h.node b).isSome then some ({ h with edges := (a, b, e) :: h.edges } : Named N E)
        else none) = some h' := ht
    by_cases hc : (h.node a).isSome ∧ (h.node b).isSome
    · rw [if_pos hc] at ht'
      have hh := (Option.some.inj ht').symm
      subst hh
      obtain ⟨na, hna⟩ := Option.isSome_iff_exists.1 hc.1
      obtain ⟨nb, hnb⟩ := Option.isSome_iff_exists.1 hc.2
      have wa := placed_weight hi hna
      have wb := placed_weight hi hnb
      have hw2 : (g.weight (slotOf ids a)).isSome ∧ (g.weight (slotOf ids b)).isSome := by rw [wa, wb]; simp
      have hi' : Inv ids { h with edges := (a, b, e) :: h.edges }
          { g with edges := (slotOf ids a, slotOf ids b, e) :: g.edges } := by
        refine ⟨⟨hi.wf.nodup, hi.wf.free, ?_⟩, hi.mat, ⟨hi.placed.inj, hi.placed.node, ?_⟩, ?_⟩
        · intro x hx
          rcases List.mem_cons.1 hx with rfl | hx
          · exact hw2
          · exact hi.wf.edges x hx
        · show _ :: _ = List.map _ (_ :: _)
          rw [List.map_cons, hi.placed.edges]
        · intro x hx
          rcases List.mem_cons.1 hx with rfl | hx
          · exact hc
          · exact hi.ends x hx
      refine ⟨_, none, ?_, (inv_append hi' none).1, by simp, fun j _ hj => hj⟩
      show (match materialize ids a, materialize ids b with
        | some a, some b => (g.addEdge a b e).map fun g => (g, none)
        | _, _ => none) = _
      rw [hi.mat a hc.1, hi.mat b hc.2]
      simp only [Stable.addEdge]
      rw [if_pos hw2]
      rfl
    · rw [if_neg hc] at ht'
      simp at ht'
  | removeNode a =>
    have ht' : (if (h.node a).isSome then some (⟨fun x => if x = a then none else h.node x,
        h.edges.filter fun e => decide (e.1 ≠ a ∧ e.2.1 ≠ a)⟩ : Named N E) else none) = some h' := ht
    by_cases hc : (h.node a).isSome
    · rw [if_pos hc] at ht'
      have hh := (Option.some.inj ht').symm
      subst hh
      obtain ⟨na, hna⟩ := Option.isSome_iff_exists.1 hc
      have wa : (g.weight (slotOf ids a)).isSome := by rw [placed_weight hi hna]; rfl
      obtain ⟨hwf, he, hw⟩ := removeNode_spec hi.wf wa
      have hi' : Inv ids ⟨fun x => if x = a then none else h.node x,
          h.edges.filter fun e => decide (e.1 ≠ a ∧ e.2.1 ≠ a)⟩ (g.removeNode (slotOf ids a)) := by
        refine ⟨hwf, ?_, ⟨?_, ?_, ?_⟩, ?_⟩
        · intro x hx
          by_cases hxa : x = a
          · simp [hxa] at hx
          · simp only [if_neg hxa] at hx
            exact hi.mat x hx
        · intro x y hx hy hxy
          by_cases hxa : x = a
          · simp [hxa] at hx
          by_cases hya : y = a
          · simp [hya] at hy
          simp only [if_neg hxa] at hx
          simp only [if_neg hya] at hy
          exact hi.placed.inj x y hx hy hxy
        · intro i n
          rw [hw]
          constructor
          · intro hin
            by_cases hia : i = slotOf ids a
            · rw [if_pos hia] at hin; simp at hin
            · rw [if_neg hia] at hin
              obtain ⟨x, hx, hxi⟩ := (hi.placed.node i n).1 hin
              refine ⟨x, ?_, hxi⟩
              show (if _ then _ else _) = _
              rw [if_neg]
              · exact hx
              · rintro rfl
                exact hia hxi.symm
          · rintro ⟨x, hx, hxi⟩
            have hx : (if x = a then none else h.node x) = some n := hx
            by_cases hxa : x = a
            · rw [if_pos hxa] at hx; simp at hx
            · rw [if_neg hxa] at hx
              rw [if_neg]
              · exact (hi.placed.node i n).2 ⟨x, hx, hxi⟩
              · intro hia
                exact hxa (hi.placed.inj x a (by rw [hx]; rfl) hc (by rw [hxi, hia]))
        · rw [he, hi.placed.edges]
          refine filter_map_congr _ _ _ _ fun e hee => ?_
          have := hi.ends e hee
          rw [Bool.eq_iff_iff]
          simp only [Bool.and_eq_true, Bool.not_eq_true', beq_eq_false_iff_ne, ne_eq, decide_eq_true_eq]
          constructor
          · rintro ⟨h1, h2⟩
            exact ⟨fun hx => h1 (by rw [hx]), fun hx => h2 (by rw [hx])⟩
          · rintro ⟨h1, h2⟩
            exact ⟨fun hx => h1 (hi.placed.inj _ _ this.1 hc hx), fun hx => h2 (hi.placed.inj _ _ this.2 hc hx)⟩
        · intro e hee
          have hee := List.mem_filter.1 hee
          have hne : e.1 ≠ a ∧ e.2.1 ≠ a := of_decide_eq_true hee.2
          simp only
          rw [if_neg hne.1, if_neg hne.2]
          exact hi.ends e hee.1
      refine ⟨_, none, ?_, (inv_append hi' none).1, by simp, fun j _ hj => ?_⟩
      · show (match materialize ids a with
          | some a => some (g.removeNode a, none)
          | none => none) = _
        rw [hi.mat a hc]
      · simp only [hj]
        split <;> rfl
    · rw [if_neg hc] at ht'
      simp at ht'
  | removeEdge a b =>
    classical
    by_cases hc : ∃ e ∈ h.edges, e.1 = a ∧ e.2.1 = b
    · have hh : h' = { h with edges := h.edges.eraseP fun e => decide (e.1 = a ∧ e.2.1 = b) } := by
        have ht' := ht
        simp only [Named.step] at ht'
        rw [if_pos hc] at ht'
        exact (Option.some.inj ht').symm
      subst hh
      obtain ⟨e0, he0, ha0, hb0⟩ := hc
      have ha : (h.node a).isSome := ha0 ▸ (hi.ends e0 he0).1
      have hb : (h.node b).isSome := hb0 ▸ (hi.ends e0 he0).2
      have htest := fun e (he : e ∈ h.edges) => edge_test hi ha hb he
      have hany : (g.edges.any fun e => e.1 == slotOf ids a && e.2.1 == slotOf ids b) = true := by
        rw [List.any_eq_true, hi.placed.edges]
        exact ⟨_, List.mem_map_of_mem he0, by
          have := htest e0 he0
          rw [this]; exact decide_eq_true ⟨ha0, hb0⟩⟩
      have hi' : Inv ids { h with edges := h.edges.eraseP fun e => decide (e.1 = a ∧ e.2.1 = b) }
          { g with edges := g.edges.eraseP fun e => e.1 == slotOf ids a && e.2.1 == slotOf ids b } := by
        refine ⟨⟨hi.wf.nodup, hi.wf.free, ?_⟩, hi.mat, ⟨hi.placed.inj, hi.placed.node, ?_⟩, ?_⟩
        · intro x hx
          exact hi.wf.edges x (List.mem_of_mem_eraseP hx)
        · show g.edges.eraseP _ = _
          rw [hi.placed.edges]
          exact eraseP_map_congr _ _ _ _ htest
        · intro x hx
          exact hi.ends x (List.mem_of_mem_eraseP hx)
      refine ⟨_, none, ?_, (inv_append hi' none).1, by simp, fun j _ hj => hj⟩
      show (match materialize ids a, materialize ids b with
        | some a, some b => (g.removeEdge a b).map fun g => (g, none)
        | _, _ => none) = _
      rw [hi.mat a ha, hi.mat b hb]
      simp only [Stable.removeEdge]
      rw [if_pos hany]
      rfl
    · have ht' := ht
      simp only [Named.step] at ht'
      rw [if_neg hc] at ht'
      simp at ht'

/-- The ids after the loop extend those before, one per transform. -/
theorem loop_ok : ∀ (ts : List (Transform N E)) (ids : List (Option Nat)) (added : List Nat) (h h' : Named N E)
    (g : Stable N E), Inv ids h g → (∀ j, ids.length ≤ j → h.node (.deferred j) = none) →
    Named.run ids.length h ts = some h' → 
    ∃ g' ids', applyLoop ts ids added g = some (g', ids ++ ids', added ++ ids'.filterMap id) ∧ Inv (ids ++ ids') h' g' ∧
      List.Forall₂ (fun t (o : Option Nat) => o.isSome ↔ ∃ n, t = Transform.addNode n) ts ids'
  | [], ids, added, h, h', g, hi, _, hr => by
    have : h = h' := Option.some.inj hr
    subst this
    exact ⟨g, [], by simp [applyLoop], by simpa using hi, .nil⟩
  | t :: ts, ids, added, h, h', g, hi, hf, hr => by
    have hr' : (h.step ids.length t).bind (fun g => Named.run (ids.length + 1) g ts) = some h' := hr
    cases hs : h.step ids.length t with
    | none => rw [hs] at hr'; simp at hr'
    | some h1 =>
      rw [hs] at hr'
      have hr' : Named.run (ids.length + 1) h1 ts = some h' := hr'
      obtain ⟨g1, o, hg1, hi1, ho, hf1⟩ := step_ok hi t (hf _ (Nat.le_refl _)) hs
      have hlen : (ids ++ [o]).length = ids.length + 1 := by simp
      obtain ⟨g2, ids2, hl, hi2, ho2⟩ := loop_ok ts (ids ++ [o])
        (added ++ o.toList) h1 h' g1 hi1
        (fun j hj => hf1 j (by omega) (hf j (by omega))) (by rw [hlen]; exact hr')
      refine ⟨g2, o :: ids2, ?_, by simpa using hi2, .cons ho ho2⟩
      rw [applyLoop, hg1]
      cases o <;> simpa using hl

end Spf.Transforms
