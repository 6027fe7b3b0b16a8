import Verif.Spec.RunProgram
import Verif.Proof.CtPair
import Verif.Proof.StoredProg
/-! Calls on related contents: arguments, memory, return values. -/
namespace Spf.CtCpu
open Spf.Cpu
open Spf.Spec (ValRel)
open Spf.Seq (Arch Returns Steady StoredReturns KeepsCode OnlyRuns)

variable {α β : Type} {R : α → β → Prop}

/-- related bytes -/
abbrev BR (R : α → β → Prop) (x : Byte α) (y : Byte β) : Prop := ByteRel R (some x) (some y)

/-- the same error, or related results -/
def ExR {X Y : Type} (Q : X → Y → Prop) : Except Err X → Except Err Y → Prop
  | .error e, .error e' => e = e'
  | .ok x, .ok y => Q x y
  | _, _ => False

/-! ### values and bytes -/

theorem chunks_rel {X Y : Type} {Q : X → Y → Prop} (n : Nat) : ∀ (f : Nat) {l : List X} {l' : List Y}, List.Forall₂ Q l l' → List.Forall₂ (List.Forall₂ Q) (chunks n f l) (chunks n f l')
  | 0, _, _, _ => .nil
  | f + 1, _, _, h => by
    cases h with
    | nil => simp only [chunks]; exact .nil
    | cons h hs =>
      simp only [chunks, reduceCtorEq, if_false]
      exact .cons (List.forall₂_take n (.cons h hs)) (chunks_rel n f (List.forall₂_drop n (.cons h hs)))

theorem padTo_rel {n : Nat} {l : List (Byte α)} {l' : List (Byte β)} (h : List.Forall₂ (BR R) l l') : List.Forall₂ (BR R) (padTo n l) (padTo n l') := by
  cases h with
  | nil => exact .nil
  | cons h hs =>
    have hl : (_ :: _ : List (Byte α)).length = _ := (List.Forall₂.cons h hs).length_eq
    simp only [padTo]
    rw [hl]
    refine List.rel_append (List.forall₂_take n (.cons h hs)) ?_
    rw [List.forall₂_iff_get]
    exact ⟨by simp, fun i _ _ => by simpa using h⟩

theorem flatMap_rel {X Y X' Y' : Type} {Q : X → Y → Prop} {Q' : X' → Y' → Prop} {f : X → List X'} {g : Y → List Y'} (hf : ∀ x y, Q x y → List.Forall₂ Q' (f x) (g y)) :
    ∀ {l : List X} {l' : List Y}, List.Forall₂ Q l l' → List.Forall₂ Q' (l.flatMap f) (l'.flatMap g)
  | _, _, .nil => .nil
  | _, _, .cons h hs => by rw [List.flatMap_cons, List.flatMap_cons]; exact List.rel_append (hf _ _ h) (flatMap_rel hf hs)

theorem toBytes_rel : ∀ (t : Ty) {v : t.Val α} {v' : t.Val β}, ValRel R t v v' → List.Forall₂ (BR R) (t.toBytes v) (t.toBytes v')
  | .prim n, v, v', h => by
    have h : (show BitVec (8 * n) from v) = v' := h
    subst h
    simp only [Ty.toBytes]
    rw [List.forall₂_map_left_iff, List.forall₂_map_right_iff]
    exact List.forall₂_same.2 fun _ _ => rfl
  | .enc _, v, v', h => by
    have h : List.Forall₂ R v v' := h
    simp only [Ty.toBytes]
    rw [List.forall₂_map_left_iff, List.forall₂_map_right_iff, h.length_eq]
    exact chunks_rel 8 _ h
  | .arr _ t, v, v', h => by
    have h : List.Forall₂ (ValRel R t) v v' := h
    simp only [Ty.toBytes]
    by_cases h0 : t.size = 0
    · rw [if_pos h0, if_pos h0]; exact .nil
    · rw [if_neg h0, if_neg h0]
      exact flatMap_rel (fun x y hx => padTo_rel (toBytes_rel t hx)) h
  | .unit, _, _, _ => .nil

theorem fromLe_rel (n : Nat) : ∀ {l : List (Byte α)} {l' : List (Byte β)} (i : Nat) (acc : BitVec (8 * n)), List.Forall₂ (BR R) l l' → fromLe n l i acc = fromLe n l' i acc
  | _, _, _, _, .nil => rfl
  | _, _, i, acc, .cons (a := x) (b := y) h hs => by
    match x, y, h with
    | .plain v, .plain _, rfl => simp only [fromLe]; exact fromLe_rel n _ _ hs
    | .cipher _, .cipher _, _ => rfl

theorem cipherBits_rel : ∀ {l : List (Byte α)} {l' : List (Byte β)}, List.Forall₂ (BR R) l l' → ExR (List.Forall₂ R) (cipherBits l) (cipherBits l')
  | _, _, .nil => List.Forall₂.nil
  | _, _, .cons (a := x) (b := y) (l₁ := l) (l₂ := l') h hs => by
    match x, y, h with
    | .plain v, .plain _, _ => exact rfl
    | .cipher b, .cipher b', h =>
      have ih := cipherBits_rel hs
      simp only [cipherBits]
      cases h1 : cipherBits l with
      | error e =>
        cases h2 : cipherBits l' with
        | error e' => rw [h1, h2] at ih; exact ih
        | ok r => rw [h1, h2] at ih; exact absurd ih id
      | ok r =>
        cases h2 : cipherBits l' with
        | error e' => rw [h1, h2] at ih; exact absurd ih id
        | ok r' => rw [h1, h2] at ih; exact List.rel_append h ih

theorem collectOk_rel {X Y X' Y' : Type} {Q : X → Y → Prop} {Q' : X' → Y' → Prop} {f : X → Except Err X'} {g : Y → Except Err Y'} (hf : ∀ x y, Q x y → ExR Q' (f x) (g y)) :
    ∀ {l : List X} {l' : List Y}, List.Forall₂ Q l l' → ExR (List.Forall₂ Q') (collectOk f l) (collectOk g l')
  | _, _, .nil => List.Forall₂.nil
  | _, _, .cons (a := x) (b := y) (l₁ := l) (l₂ := l') h hs => by
    have ih := collectOk_rel hf hs
    have hx := hf x y h
    simp only [collectOk]
    cases h1 : f x with
    | error e =>
      cases h2 : g y with
      | error e' => rw [h1, h2] at hx; exact hx
      | ok r => rw [h1, h2] at hx; exact absurd hx id
    | ok r =>
      cases h2 : g y with
      | error e' => rw [h1, h2] at hx; exact absurd hx id
      | ok r' =>
        rw [h1, h2] at hx
        simp only
        cases h3 : collectOk f l with
        | error e =>
          cases h4 : collectOk g l' with
          | error e' => rw [h3, h4] at ih; exact ih
          | ok r => rw [h3, h4] at ih; exact absurd ih id
        | ok s =>
          cases h4 : collectOk g l' with
          | error e' => rw [h3, h4] at ih; exact absurd ih id
          | ok s' => rw [h3, h4] at ih; exact List.Forall₂.cons hx ih

theorem fromBytes_rel : ∀ (t : Ty) {l : List (Byte α)} {l' : List (Byte β)}, List.Forall₂ (BR R) l l' → ExR (ValRel R t) (t.fromBytes l) (t.fromBytes l')
  | .prim n, l, l', h => by
    simp only [Ty.fromBytes]
    rw [h.length_eq, fromLe_rel n 0 0 h]
    by_cases hl : l'.length ≠ n
    · rw [if_pos hl]; exact rfl
    · rw [if_neg hl]
      cases fromLe n l' 0 0 with
      | error e => exact rfl
      | ok x => exact rfl
  | .enc N, l, l', h => by
    simp only [Ty.fromBytes]
    rw [h.length_eq]
    by_cases hl : l'.length ≠ N / 8
    · rw [if_pos hl, if_pos hl]; exact rfl
    · rw [if_neg hl, if_neg hl]; exact cipherBits_rel h
  | .arr n t, l, l', h => by
    simp only [Ty.fromBytes]
    by_cases h0 : t.size = 0
    · rw [if_pos h0, if_pos h0]
      by_cases hl : l ≠ []
      · have hl' : l' ≠ [] := by intro e; subst e; cases h; exact hl rfl
        rw [if_pos hl, if_pos hl']; exact rfl
      · have e : l = [] := Classical.not_not.1 hl
        subst e; cases h
        rw [if_neg hl, if_neg (fun h => h rfl)]
        exact collectOk_rel (Q := fun _ _ => True) (fun _ _ _ => fromBytes_rel t .nil) (List.forall₂_same.2 fun _ _ => trivial)
    · rw [if_neg h0, if_neg h0, h.length_eq]
      have hc := collectOk_rel (fun x y hx => fromBytes_rel t hx) (chunks_rel (nextMultipleOf t.size t.alignment) l'.length h)
      cases h1 : collectOk t.fromBytes (chunks (nextMultipleOf t.size t.alignment) l'.length l) with
      | error e =>
        cases h2 : collectOk t.fromBytes (chunks (nextMultipleOf t.size t.alignment) l'.length l') with
        | error e' => rw [h1, h2] at hc; exact hc
        | ok r => rw [h1, h2] at hc; exact absurd hc id
      | ok r =>
        cases h2 : collectOk t.fromBytes (chunks (nextMultipleOf t.size t.alignment) l'.length l') with
        | error e' => rw [h1, h2] at hc; exact absurd hc id
        | ok r' =>
          rw [h1, h2] at hc
          have hc : List.Forall₂ (ValRel R t) r r' := hc
          simp only
          rw [hc.length_eq]
          by_cases hl : r'.length ≠ n
          · rw [if_pos hl, if_pos hl]; exact rfl
          · rw [if_neg hl, if_neg hl]; exact hc
  | .unit, l, l', h => by
    simp only [Ty.fromBytes]
    by_cases hl : l ≠ []
    · have hl' : l' ≠ [] := by intro e; subst e; cases h; exact hl rfl
      rw [if_pos hl, if_pos hl']; exact rfl
    · have e : l = [] := Classical.not_not.1 hl
      subst e; cases h
      rw [if_neg hl, if_neg (fun h => h rfl)]; exact trivial

/-! ### memory -/

/-- related memories -/
structure MemRel (R : α → β → Prop) (m : Mem α) (m' : Mem β) : Prop where
  sp : m.sp = m'.sp
  byte : ∀ x, ByteRel R (viewOf m x) (viewOf m' x)

theorem viewOf_none {m : Mem α} {x : Nat} : viewOf m x = none ↔ m.pages (pageId x) = none := by
  unfold viewOf Mem.load
  cases m.pages (pageId x) <;> simp

theorem viewOf_store {m : Mem α} {p : Nat} {b : Byte α} {pg : Nat → Byte α} (h : m.pages (pageId p) = some pg) (x : Nat) :
    viewOf (m.store p b).1 x = if pageId x = pageId p ∧ pageOff x = pageOff p then some b else viewOf m x := by
  unfold Mem.store
  rw [h]
  simp only [viewOf, Mem.load]
  by_cases h1 : pageId x = pageId p
  · by_cases h2 : pageOff x = pageOff p
    · simp [h1, h2]
    · simp [h1, h2, h]
  · simp [h1]

theorem store_rel {m : Mem α} {m' : Mem β} (h : MemRel R m m') (p : Nat) {b : Byte α} {b' : Byte β} (hb : BR R b b') :
    MemRel R (m.store p b).1 (m'.store p b').1 ∧ (m.store p b).2 = (m'.store p b').2 := by
  have hx := h.byte p
  cases hp : m.pages (pageId p) with
  | none =>
    rw [viewOf_none.2 hp] at hx
    have hp' : m'.pages (pageId p) = none := by
      rcases byteRel_cases hx with ⟨_, g⟩ | ⟨_, g, _⟩ | ⟨_, _, g, _⟩
      · exact viewOf_none.1 g
      · cases g
      · cases g
    unfold Mem.store
    rw [hp, hp']
    exact ⟨h, rfl⟩
  | some pg =>
    cases hp' : m'.pages (pageId p) with
    | none =>
      rw [viewOf_none.2 hp'] at hx
      rcases byteRel_cases hx with ⟨h, _⟩ | ⟨_, _, h⟩ | ⟨_, _, _, h, _⟩
      · rw [viewOf_none.1 h] at hp; cases hp
      · cases h
      · cases h
    | some pg' =>
      refine ⟨⟨?_, fun x => ?_⟩, ?_⟩
      · unfold Mem.store; rw [hp, hp']; exact h.sp
      · rw [viewOf_store hp, viewOf_store hp']
        split
        · exact hb
        · exact h.byte x
      · unfold Mem.store; rw [hp, hp']

theorem pair_eta {X Y : Type} (p : X × Y) : p = (p.1, p.2) := rfl

theorem pushPadding_rel : ∀ (k : Nat) {m : Mem α} {m' : Mem β}, MemRel R m m' → MemRel R (pushPadding k m).1 (pushPadding k m').1 ∧ (pushPadding k m).2 = (pushPadding k m').2
  | 0, _, _, h => ⟨h, rfl⟩
  | k + 1, m, m', h => by
    simp only [pushPadding]
    rw [← h.sp]
    obtain ⟨h1, h2⟩ := store_rel h m.sp (show BR R (.plain 0) (.plain 0) from rfl)
    generalize m.store m.sp (.plain 0) = r at h1 h2 ⊢
    generalize m'.store m.sp (.plain 0) = r' at h1 h2 ⊢
    obtain ⟨n, e⟩ := r
    obtain ⟨n', e'⟩ := r'
    simp only at h1 h2
    subst h2
    cases e with
    | error e => exact ⟨h1, rfl⟩
    | ok u =>
      simp only
      rw [← h1.sp]
      cases trySignedOffset n.sp (-1) with
      | error e => exact ⟨h1, rfl⟩
      | ok sp => exact pushPadding_rel k ⟨rfl, h1.byte⟩

theorem storeAll_rel (p : Nat) : ∀ {l : List (Byte α)} {l' : List (Byte β)} (i : Nat) {m : Mem α} {m' : Mem β}, List.Forall₂ (BR R) l l' → MemRel R m m' →
    MemRel R (m.storeAll p l i).1 (m'.storeAll p l' i).1 ∧ (m.storeAll p l i).2 = (m'.storeAll p l' i).2
  | _, _, _, _, _, .nil, h => ⟨h, rfl⟩
  | _, _, i, m, m', .cons (a := b) (b := b') hb hs, h => by
    simp only [Mem.storeAll]
    cases tryOffset p i with
    | error e => exact ⟨h, rfl⟩
    | ok q =>
      simp only
      obtain ⟨h1, h2⟩ := store_rel h q hb
      generalize m.store q b = r at h1 h2 ⊢
      generalize m'.store q b' = r' at h1 h2 ⊢
      obtain ⟨n, e⟩ := r
      obtain ⟨n', e'⟩ := r'
      simp only at h1 h2
      subst h2
      cases e with
      | error e => exact ⟨h1, rfl⟩
      | ok u => exact storeAll_rel p (i + 1) hs h1

/-- related arguments -/
def ArgRel (R : α → β → Prop) (a : Arg α) (a' : Arg β) : Prop := a.alignment = a'.alignment ∧ List.Forall₂ (BR R) a.bytes a'.bytes

theorem pushArg_rel {m : Mem α} {m' : Mem β} (h : MemRel R m m') {a : Arg α} {a' : Arg β} (ha : ArgRel R a a') :
    MemRel R (m.pushArg a).1 (m'.pushArg a').1 ∧ (m.pushArg a).2 = (m'.pushArg a').2 := by
  obtain ⟨al, bs⟩ := a
  obtain ⟨al', bs'⟩ := a'
  obtain ⟨h1, h2⟩ := ha
  simp only at h1 h2
  subst h1
  simp only [Mem.pushArg]
  rw [← h.sp]
  by_cases h0 : m.sp = 0
  · rw [if_pos h0, if_pos h0]; exact ⟨h, rfl⟩
  · rw [if_neg h0, if_neg h0]
    by_cases ha : al = 0
    · rw [if_pos ha, if_pos ha]; exact ⟨h, rfl⟩
    · rw [if_neg ha, if_neg ha]
      obtain ⟨p1, p2⟩ := pushPadding_rel ((al - m.sp % al) % al) h
      generalize pushPadding ((al - m.sp % al) % al) m = r at p1 p2 ⊢
      generalize pushPadding ((al - m.sp % al) % al) m' = r' at p1 p2 ⊢
      obtain ⟨n, e⟩ := r
      obtain ⟨n', e'⟩ := r'
      simp only at p1 p2
      subst p2
      cases e with
      | error e => exact ⟨p1, rfl⟩
      | ok u =>
        simp only
        rw [← p1.sp, h2.length_eq]
        cases trySignedOffset n.sp (-(bs'.length : Int)) with
        | error e => exact ⟨p1, rfl⟩
        | ok sp =>
          simp only
          obtain ⟨q1, q2⟩ := storeAll_rel sp 0 h2 (m := { n with sp := sp }) (m' := { n' with sp := sp }) ⟨rfl, p1.byte⟩
          generalize Mem.storeAll { n with sp := sp } sp bs 0 = r at q1 q2 ⊢
          generalize Mem.storeAll { n' with sp := sp } sp bs' 0 = r' at q1 q2 ⊢
          obtain ⟨n, e⟩ := r
          obtain ⟨n', e'⟩ := r'
          simp only at q1 q2
          subst q2
          cases e <;> exact ⟨q1, rfl⟩

theorem storeArg_rel : ∀ {l : List (Byte α)} {l' : List (Byte β)} (p : Nat) {m : Mem α} {m' : Mem β}, List.Forall₂ (BR R) l l' → MemRel R m m' →
    MemRel R (storeArg l m p).1 (storeArg l' m' p).1 ∧ (storeArg l m p).2 = (storeArg l' m' p).2
  | _, _, _, _, _, .nil, h => ⟨h, rfl⟩
  | _, _, p, m, m', .cons (a := b) (b := b') hb hs, h => by
    simp only [storeArg]
    obtain ⟨h1, h2⟩ := store_rel h p hb
    generalize m.store p b = r at h1 h2 ⊢
    generalize m'.store p b' = r' at h1 h2 ⊢
    obtain ⟨n, e⟩ := r
    obtain ⟨n', e'⟩ := r'
    simp only at h1 h2
    subst h2
    cases e with
    | error e => exact ⟨h1, rfl⟩
    | ok u =>
      simp only
      cases tryOffset p 1 with
      | error e => exact ⟨h1, rfl⟩
      | ok q => exact storeArg_rel q hs h1

theorem storeArgs_rel : ∀ {l : List (Arg α)} {l' : List (Arg β)} (p : Nat) {m : Mem α} {m' : Mem β}, List.Forall₂ (ArgRel R) l l' → MemRel R m m' →
    MemRel R (storeArgs l m p).1 (storeArgs l' m' p).1 ∧ (storeArgs l m p).2 = (storeArgs l' m' p).2
  | _, _, _, _, _, .nil, h => ⟨h, rfl⟩
  | _, _, p, m, m', .cons (a := a) (b := a') ha hs, h => by
    simp only [storeArgs]
    rw [ha.1]
    cases alignPtr p a'.alignment with
    | error e => exact ⟨h, rfl⟩
    | ok q =>
      simp only
      obtain ⟨h1, h2⟩ := storeArg_rel q ha.2 h
      generalize storeArg a.bytes m q = r at h1 h2 ⊢
      generalize storeArg a'.bytes m' q = r' at h1 h2 ⊢
      obtain ⟨n, e⟩ := r
      obtain ⟨n', e'⟩ := r'
      simp only at h1 h2
      subst h2
      cases e with
      | error e => exact ⟨h1, rfl⟩
      | ok u => exact storeArgs_rel u hs h1

theorem argOffset_rel : ∀ {l : List (Arg α)} {l' : List (Arg β)} (o : Nat), List.Forall₂ (ArgRel R) l l' → argOffset l o = argOffset l' o
  | _, _, _, .nil => rfl
  | _, _, o, .cons h hs => by simp only [argOffset]; rw [h.1, h.2.length_eq]; exact argOffset_rel _ hs

/-- **Setting up a call on related memories with related arguments.** -/
theorem setUpCall_rel {m : Mem α} {m' : Mem β} (h : MemRel R m m') {l : List (Arg α)} {l' : List (Arg β)} (hl : List.Forall₂ (ArgRel R) l l') (t : Ty) :
    MemRel R (setUpCall m (callOf l t)).1 (setUpCall m' (callOf l' t)).1 ∧ (setUpCall m (callOf l t)).2 = (setUpCall m' (callOf l' t)).2 := by
  have ha : (callOf l t).allocSize = (callOf l' t).allocSize := by
    unfold CallData.allocSize
    rw [show argOffset (callOf l t).args 0 = argOffset (callOf l' t).args 0 from argOffset_rel 0 hl]; rfl
  unfold setUpCall
  rw [ha]
  obtain ⟨p1, p2⟩ := pushArg_rel h (a := ⟨16, List.replicate (callOf l' t).allocSize (.plain 0)⟩) (a' := ⟨16, List.replicate (callOf l' t).allocSize (.plain 0)⟩)
    ⟨rfl, by rw [List.forall₂_iff_get]; exact ⟨by simp, fun i _ _ => by simp [BR, ByteRel]⟩⟩
  generalize m.pushArg ⟨16, List.replicate (callOf l' t).allocSize (.plain 0)⟩ = r at p1 p2 ⊢
  generalize m'.pushArg ⟨16, List.replicate (callOf l' t).allocSize (.plain 0)⟩ = r' at p1 p2 ⊢
  obtain ⟨n, e⟩ := r
  obtain ⟨n', e'⟩ := r'
  simp only at p1 p2
  subst p2
  cases e with
  | error e => exact ⟨p1, rfl⟩
  | ok u =>
    simp only
    rw [← p1.sp]
    obtain ⟨q1, q2⟩ := storeArgs_rel (l := (callOf l t).args) (l' := (callOf l' t).args) n.sp hl p1
    generalize storeArgs (callOf l t).args n n.sp = r at q1 q2 ⊢
    generalize storeArgs (callOf l' t).args n' n.sp = r' at q1 q2 ⊢
    obtain ⟨n, e⟩ := r
    obtain ⟨n', e'⟩ := r'
    simp only at q1 q2
    subst q2
    cases e with
    | error e => exact ⟨q1, rfl⟩
    | ok p =>
      simp only
      by_cases hr : t.size > 0
      · have h1 : (callOf l t).retSize > 0 := hr
        have h2 : (callOf l' t).retSize > 0 := hr
        rw [if_pos h1, if_pos h2]
        have h3 : (callOf l t).retAlign = (callOf l' t).retAlign := rfl
        rw [h3]
        cases alignPtr p (callOf l' t).retAlign <;> exact ⟨q1, rfl⟩
      · have h1 : ¬ (callOf l t).retSize > 0 := hr
        have h2 : ¬ (callOf l' t).retSize > 0 := hr
        rw [if_neg h1, if_neg h2]; exact ⟨q1, rfl⟩

theorem loadBytes_rel {m : VView α} {m' : VView β} (p : Nat) : ∀ (n i : Nat), (∀ j, i ≤ j → j < i + n → ByteRel R (m (p + j)) (m' (p + j))) →
    ExR (List.Forall₂ (BR R)) (loadBytes m p n i) (loadBytes m' p n i)
  | 0, _, _ => List.Forall₂.nil
  | n + 1, i, h => by
    have ih := loadBytes_rel p n (i + 1) fun j h1 h2 => h j (by omega) (by omega)
    simp only [loadBytes, tryOffset]
    by_cases hp : p + i < addrSpace
    · rw [if_pos hp]
      simp only
      have hb := h i (Nat.le_refl _) (by omega)
      have step : ∀ {x : Byte α} {y : Byte β}, BR R x y →
          ExR (List.Forall₂ (BR R)) (match loadBytes m p n (i + 1) with | .error e => .error e | .ok bs => .ok (x :: bs)) (match loadBytes m' p n (i + 1) with | .error e => .error e | .ok bs => .ok (y :: bs)) := by
        intro x y hxy
        cases h1 : loadBytes m p n (i + 1) with
        | error e =>
          cases h2 : loadBytes m' p n (i + 1) with
          | error e' => rw [h1, h2] at ih; exact ih
          | ok r => rw [h1, h2] at ih; exact absurd ih id
        | ok r =>
          cases h2 : loadBytes m' p n (i + 1) with
          | error e' => rw [h1, h2] at ih; exact absurd ih id
          | ok r' => rw [h1, h2] at ih; exact List.Forall₂.cons hxy ih
      rcases byteRel_cases hb with ⟨h1, h2⟩ | ⟨v, h1, h2⟩ | ⟨l, l', h1, h2, hl⟩
      · rw [h1, h2]; exact rfl
      · rw [h1, h2]; exact step (x := .plain v) (y := .plain v) rfl
      · rw [h1, h2]; exact step (x := .cipher l) (y := .cipher l') hl
    · rw [if_neg hp]; exact rfl

/-- **The return value read from related memories.** -/
theorem returnValue_rel (t : Ty) {m : VView α} {m' : VView β} (p : Nat) (h : ∀ j, j < t.size → ByteRel R (m (p + j)) (m' (p + j))) :
    ExR (ValRel R t) (returnValue t m p) (returnValue t m' p) := by
  unfold returnValue
  by_cases h0 : t.size = 0
  · rw [if_pos h0, if_pos h0]; exact fromBytes_rel t .nil
  · rw [if_neg h0, if_neg h0]
    have hb := loadBytes_rel p t.size 0 fun j _ hj => h j (by omega)
    cases h1 : loadBytes m p t.size 0 with
    | error e =>
      cases h2 : loadBytes m' p t.size 0 with
      | error e' => rw [h1, h2] at hb; exact hb
      | ok r => rw [h1, h2] at hb; exact absurd hb id
    | ok r =>
      cases h2 : loadBytes m' p t.size 0 with
      | error e' => rw [h1, h2] at hb; exact absurd hb id
      | ok r' => rw [h1, h2] at hb; exact fromBytes_rel t hb

end Spf.CtCpu
