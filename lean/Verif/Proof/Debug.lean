import Verif.Proof.MachineTop
import Verif.Model.Debug
import Mathlib.Data.List.Perm.Subperm
import Mathlib.Data.List.Sort
/-! What the host sees of a run. -/
namespace Spf.Machine
open Spf.Cpu (Err)
open Spf.Seq
variable {I V A B H : Type} [DecidableEq A]
variable {isa : Isa I V A B} {prog : Nat → Except Err I} {init : Nat → V} {limit : Option Nat} {a0 : Arch V A B}
  {s s' : St I V A B} {key : I → Nat}

theorem runObs_run (f : I → Nat → Nat → List V → Option H) : ∀ (ls : List Label) (s : St I V A B) (pcs : Nat → Nat)
    (hs : List H) (r : St I V A B × List H), runObs f isa prog init limit s pcs hs ls = some r →
    run isa prog init limit s ls = some r.1
  | [], s, pcs, hs, r, h => by
    simp only [runObs, Option.some.injEq] at h
    rw [← h]; rfl
  | l :: ls, s, pcs, hs, r, h => by
    simp only [runObs] at h
    simp only [run]
    cases h1 : step isa prog init limit s l with
    | none => rw [h1] at h; simp at h
    | some s1 => rw [h1] at h; exact runObs_run f ls s1 _ _ r h

theorem run_runObs (f : I → Nat → Nat → List V → Option H) : ∀ (ls : List Label) (s : St I V A B) (pcs : Nat → Nat)
    (hs : List H) (t : St I V A B), run isa prog init limit s ls = some t →
    ∃ hs', runObs f isa prog init limit s pcs hs ls = some (t, hs')
  | [], s, pcs, hs, t, h => by
    simp only [run, Option.some.injEq] at h
    rw [← h]; exact ⟨hs, rfl⟩
  | l :: ls, s, pcs, hs, t, h => by
    simp only [run] at h
    simp only [runObs]
    cases h1 : step isa prog init limit s l with
    | none => rw [h1] at h; simp at h
    | some s1 => rw [h1] at h; exact run_runObs f ls s1 _ _ t h

theorem runObs_append (f : I → Nat → Nat → List V → Option H) (ls' : List Label) : ∀ (ls : List Label) (s : St I V A B) (pcs : Nat → Nat) (hs : List H)
    (r : St I V A B × List H), runObs f isa prog init limit s pcs hs ls = some r →
    ∃ pcs', runObs f isa prog init limit s pcs hs (ls ++ ls') = runObs f isa prog init limit r.1 pcs' r.2 ls'
  | [], s, pcs, hs, r, h => by
    simp only [runObs, Option.some.injEq] at h
    rw [← h]; exact ⟨pcs, rfl⟩
  | l :: ls, s, pcs, hs, r, h => by
    simp only [runObs] at h
    simp only [List.cons_append, runObs]
    cases h1 : step isa prog init limit s l with
    | none => rw [h1] at h; simp at h
    | some s1 => rw [h1] at h; exact runObs_append f ls' ls s1 _ _ r h

/-- After a fault nothing more is shown to the host. -/
theorem runObs_faulted (f : I → Nat → Nat → List V → Option H) {e : Err} : ∀ (ls : List Label) (s : St I V A B) (pcs : Nat → Nat) (hs : List H)
    (r : St I V A B × List H), s.fault = some e → runObs f isa prog init limit s pcs hs ls = some r → r.2 = hs ∧ r.1.fault = some e
  | [], s, pcs, hs, r, hf, h => by
    simp only [runObs, Option.some.injEq] at h
    rw [← h]; exact ⟨rfl, hf⟩
  | l :: ls, s, pcs, hs, r, hf, h => by
    simp only [runObs] at h
    cases h1 : step isa prog init limit s l with
    | none => rw [h1] at h; simp at h
    | some s1 =>
      rw [h1] at h
      obtain ⟨a, b⟩ := runObs_faulted f ls s1 _ _ r (fault_keep init hf l h1) h
      refine ⟨?_, b⟩
      rw [a]
      cases l <;> simp only [observe, hf, List.append_nil]

theorem fetch_shape (hs : step isa prog init limit s .fetch = some s') (hf : s'.fault = none) :
    s'.n = s.n + 1 ∧ (∀ j, j < s.n → s'.ent j = s.ent j) ∧ (s'.ent s.n).status = .waiting ∧ s.front = .fetch := by
  have hsf := fault_mono isa prog init limit .fetch hs hf
  simp only [step] at hs
  split at hs
  · rename_i hc
    injection hs with hs
    subst hs
    unfold fetchStep at hf ⊢
    rw [hsf] at hf ⊢
    dsimp only at hf ⊢
    cases hp : prog s.pc with
    | error e =>
      rw [hp] at hf
      dsimp only [St.stop] at hf
      rw [hsf] at hf
      simp [setFault] at hf
    | ok inst =>
      rw [hp] at hf
      dsimp only at hf ⊢
      by_cases hg : limit.any (isa.gas inst (((isa.srcs inst).map s.rename).map (s.val init)) > ·) = true
      · rw [if_pos hg] at hf
        dsimp only [St.stop] at hf
        rw [hsf] at hf
        simp [setFault] at hf
      · rw [if_neg hg] at hf ⊢
        cases ha : isa.access inst (((isa.srcs inst).map s.rename).map (s.val init)) with
        | error e =>
          rw [ha] at hf
          simp [St.stop, setFault] at hf
        | ok l =>
          dsimp only
          exact ⟨rfl, fun j hj => setEnt_ne _ _ (by omega), by rw [setEnt_same], hc.2⟩
  · simp at hs

theorem setEnt_status (f : Nat → Entry I A) (i : Nat) (e : Entry I A) (j : Nat) :
    (setEnt f i e j).status = if j = i then e.status else (f j).status := by
  unfold setEnt; split <;> rfl

theorem other_shape (hw : WF s) (l : Label) (hl : l ≠ .fetch) (hs : step isa prog init limit s l = some s') :
    s'.n = s.n ∧ (∀ j, Ex s' j ↔ Ex s j ∨ ∃ bg, l = .exec j bg) ∧
      ∀ j, (s.ent j).status = .retired → (s'.ent j).status = .retired := by
  have same : (∀ j, (s'.ent j).status = (s.ent j).status) → (∀ j bg, l ≠ .exec j bg) → s'.n = s.n →
      s'.n = s.n ∧ (∀ j, Ex s' j ↔ Ex s j ∨ ∃ bg, l = .exec j bg) ∧
      ∀ j, (s.ent j).status = .retired → (s'.ent j).status = .retired := by
    intro h1 h2 h3
    refine ⟨h3, fun j => ?_, fun j hj => by rw [h1]; exact hj⟩
    unfold Ex
    rw [h1]
    constructor
    · exact Or.inl
    · rintro (h | ⟨bg, h⟩)
      · exact h
      · exact absurd h (h2 j bg)
  cases l with
  | fetch => exact absurd rfl hl
  | dep =>
    simp only [step] at hs
    split at hs
    · rename_i i d ds hm
      injection hs with hs
      subst hs
      refine same ?_ (by simp) ?_
      · intro j
        unfold depStep
        dsimp only
        split
        · simp only [setEnt_status]
          split
          · rename_i h; subst h; split
            · rename_i h; rw [h]
            · rfl
          · split
            · rename_i h; rw [h]
            · rfl
        · rfl
      · unfold depStep
        dsimp only
        split <;> rfl
    · simp at hs
  | dispatched =>
    simp only [step] at hs
    split at hs
    · injection hs with hs
      subst hs
      refine same (fun j => decr_status _ _ _ j) (by simp) ?_
      unfold decr
      dsimp only
      split <;> rfl
    · simp at hs
  | resolve =>
    simp only [step] at hs
    split at hs
    · split at hs
      · injection hs with hs
        subst hs
        refine same ?_ (by simp) ?_
        · intro j
          unfold resolveStep
          split <;> rfl
        · unfold resolveStep
          split <;> rfl
      · simp at hs
    · simp at hs
  | exec i bg =>
    simp only [step] at hs
    split at hs
    · rename_i hc
      injection hs with hs
      subst hs
      obtain ⟨hi, hwt, h0⟩ := (hw.readyIff i).1 (List.mem_map.2 ⟨(i, bg), hc.2, rfl⟩)
      have key : (execStep isa init s i bg).n = s.n ∧ ∃ st : Status, st.executed = true ∧
          ∀ j, ((execStep isa init s i bg).ent j).status = if j = i then st else (s.ent j).status := by
        unfold execStep
        dsimp only
        split
        · exact ⟨rfl, .retiring, rfl, fun j => setEnt_status _ _ _ j⟩
        · split
          · exact ⟨rfl, .retiring, rfl, fun j => setEnt_status _ _ _ j⟩
          · split
            · exact ⟨rfl, .running, rfl, fun j => setEnt_status _ _ _ j⟩
            · exact ⟨rfl, .retiring, rfl, fun j => setEnt_status _ _ _ j⟩
      obtain ⟨hn, st, hst, hj⟩ := key
      refine ⟨hn, fun j => ?_, fun j hr => ?_⟩
      · unfold Ex
        rw [hj]
        by_cases hji : j = i
        · rw [if_pos hji, hst, hji]; simp
        · rw [if_neg hji]
          constructor
          · exact Or.inl
          · rintro (h | ⟨b, h⟩)
            · exact h
            · injection h with h1 _; exact absurd h1.symm hji
      · rw [hj, if_neg]
        · exact hr
        · rintro rfl; rw [hwt] at hr; simp at hr
    · simp at hs
  | asyncDone i =>
    simp only [step] at hs
    split at hs
    · rename_i hc
      injection hs with hs
      subst hs
      refine ⟨rfl, fun j => ?_, fun j hr => ?_⟩
      · unfold Ex
        dsimp only
        rw [setEnt_status]
        by_cases hji : j = i
        · rw [if_pos hji, hji, hc.2]; simp [Status.executed]
        · rw [if_neg hji]; simp
      · dsimp only
        rw [setEnt_status, if_neg]
        · exact hr
        · rintro rfl; rw [hc.2] at hr; simp at hr
    · simp at hs
  | notify i =>
    simp only [step] at hs
    split at hs
    · injection hs with hs
      subst hs
      refine same ?_ (by simp) ?_
      · intro j
        unfold notifyStep
        split
        · rfl
        · rw [decr_status]
          exact pop_status _ _ _ _
      · unfold notifyStep
        split
        · rfl
        · unfold decr
          dsimp only
          split <;> rfl
    · simp at hs
  | retire i =>
    simp only [step] at hs
    split at hs
    · rename_i hc
      injection hs with hs
      subst hs
      refine ⟨rfl, fun j => ?_, fun j hr => ?_⟩
      · unfold Ex retireStep
        dsimp only
        rw [setEnt_status]
        by_cases hji : j = i
        · rw [if_pos hji, hji, hc.2.1]; simp [Status.executed]
        · rw [if_neg hji]; simp
      · unfold retireStep
        dsimp only
        rw [setEnt_status]
        split
        · rfl
        · exact hr
    · simp at hs

/-- What the host sees of instruction `i` in program order. -/
def hitT (f : I → Nat → Nat → List V → Option H) (isa : Isa I V A B) (prog : Nat → Except Err I) (a0 : Arch V A B)
    (i : Nat) : Option H :=
  match prog (T isa prog a0 i).pc with
  | .ok inst => f inst i (T isa prog a0 i).pc (tVals isa prog (T isa prog a0 i))
  | .error _ => none

/-- The invariant: `order` are the executed instructions, in the order of their execution. -/
structure ObsInv (f : I → Nat → Nat → List V → Option H) (isa : Isa I V A B) (prog : Nat → Except Err I)
    (a0 : Arch V A B) (s : St I V A B) (pcs : Nat → Nat) (hs : List H) (order : List Nat) : Prop where
  nodup : order.Nodup
  mem : ∀ i, i ∈ order ↔ i < s.n ∧ Ex s i
  hits : hs = order.filterMap (hitT f isa prog a0)
  pcs : ∀ i, i < s.n → pcs i = (T isa prog a0 i).pc

/-- Prompt instructions have retired when a later one has been dispatched, and what is prompt and seen is seen in order. -/
structure OrdInv (f : I → Nat → Nat → List V → Option H) (isa : Isa I V A B) (prog : Nat → Except Err I)
    (a0 : Arch V A B) (W : Nat → Slow A) (s : St I V A B) (order : List Nat) : Prop where
  prompt : ∀ i, i + 1 < s.n → late isa prog a0 W i = false → (s.ent i).status = .retired
  sorted : (order.filter fun i => (hitT f isa prog a0 i).isSome).Pairwise (· < ·)

theorem obs_step (f : I → Nat → Nat → List V → Option H) (hloc : Local isa key)
    (hlim : ∀ inst vs, limit.any (isa.gas inst vs > ·) = false) (N : Nat)
    (W : Nat → Slow A) (hok : Ok isa prog key a0 N W) (hW0 : W 0 = ⟨fun _ => false, fun _ => false⟩)
    (hw : WF s) (h : Sem isa prog a0 s) (hl : LateInv isa prog a0 W N s) (l : Label)
    (hs : step isa prog a0.reg limit s l = some s') {pcs : Nat → Nat} {hits : List H} {order : List Nat}
    (ho : ObsInv f isa prog a0 s pcs hits order) :
    ∃ order', ObsInv f isa prog a0 s' (notePc s pcs l) (hits ++ observe f pcs a0.reg s l) order' ∧
      ((∀ i, i < N → (hitT f isa prog a0 i).isSome → late isa prog a0 W i = false) → OrdInv f isa prog a0 W s order →
        OrdInv f isa prog a0 W s' order') := by
  have hl' := late_step hloc hlim N W hok hW0 hw h hl l hs
  by_cases hlf : l = .fetch
  · subst hlf
    obtain ⟨hn, hent, hst, hfr⟩ := fetch_shape hs hl'.noFault
    refine ⟨order, ⟨ho.nodup, ?_, by simpa [observe] using ho.hits, ?_⟩, fun _ hord => ⟨?_, hord.sorted⟩⟩
    · intro i
      rw [ho.mem i, hn]
      unfold Ex
      constructor
      · rintro ⟨h1, h2⟩
        exact ⟨by omega, by rw [hent i h1]; exact h2⟩
      · rintro ⟨h1, h2⟩
        by_cases hi : i = s.n
        · subst hi; rw [hst] at h2; simp [Status.executed] at h2
        · exact ⟨by omega, by rw [hent i (by omega)] at h2; exact h2⟩
    · intro i hi
      rw [hn] at hi
      simp only [notePc]
      by_cases hin : i = s.n
      · rw [if_pos hin, hin]; exact h.pcF hfr
      · rw [if_neg hin]; exact ho.pcs i (by omega)
    · intro i hi hlate
      rw [hn] at hi
      rw [hent i (by omega)]
      exact hl.fetched hfr i (by omega) hlate
  · obtain ⟨hn, hex, hret⟩ := other_shape hw l hlf hs
    have hpcs : notePc s pcs l = pcs := by cases l <;> first | rfl | exact absurd rfl hlf
    have hprompt : ∀ (hord : OrdInv f isa prog a0 W s order) i, i + 1 < s'.n → late isa prog a0 W i = false →
        (s'.ent i).status = .retired := fun hord i hi hla => hret i (hord.prompt i (by omega) hla)
    by_cases he : ∃ i bg, l = .exec i bg
    · obtain ⟨i, bg, rfl⟩ := he
      have hrdy : (i, bg) ∈ s.ready := by
        simp only [step] at hs
        split at hs
        · rename_i hc; exact hc.2
        · simp at hs
      obtain ⟨hi, hwt, h0⟩ := (hw.readyIff i).1 (List.mem_map.2 ⟨(i, bg), hrdy, rfl⟩)
      have hnex : ¬ Ex s i := by unfold Ex; rw [hwt]; simp [Status.executed]
      have hni : i ∉ order := fun hm => hnex ((ho.mem i).1 hm).2
      have hobs : observe f pcs a0.reg s (.exec i bg) = (hitT f isa prog a0 i).toList := by
        simp only [observe]
        rw [hl.noFault]
        simp only
        rw [(exec_agrees hloc hw h hi hwt h0).1, ho.pcs i hi]
        unfold hitT
        rw [h.inst i hi]
      refine ⟨order ++ [i], ⟨?_, ?_, ?_, ?_⟩, fun hq hord => ⟨hprompt hord, ?_⟩⟩
      · rw [List.nodup_append]
        exact ⟨ho.nodup, by simp, fun a ha b hb => by
          rw [List.mem_singleton] at hb; subst hb; rintro rfl; exact hni ha⟩
      · intro j
        rw [List.mem_append, ho.mem j, hn, hex j, List.mem_singleton]
        constructor
        · rintro (⟨h1, h2⟩ | rfl)
          · exact ⟨h1, .inl h2⟩
          · exact ⟨hi, .inr ⟨bg, rfl⟩⟩
        · rintro ⟨h1, h2 | ⟨b, h2⟩⟩
          · exact .inl ⟨h1, h2⟩
          · injection h2 with h2 _; exact .inr h2.symm
      · rw [hobs, ho.hits, List.filterMap_append]
        cases hh : hitT f isa prog a0 i <;> simp [hh]
      · rw [hpcs, hn]; exact ho.pcs
      · rw [List.filter_append, List.pairwise_append]
        refine ⟨hord.sorted, ?_, ?_⟩
        · exact List.Pairwise.filter _ (List.pairwise_singleton _ _)
        · intro a ha b hb
          have hb' := List.mem_filter.1 hb
          have hbi : b = i := List.mem_singleton.1 hb'.1
          have hsome : (hitT f isa prog a0 i).isSome := by rw [← hbi]; exact hb'.2
          have hla := hq i (by have := hl.nle; omega) hsome
          have hlast : i + 1 = s.n := by
            by_contra hc
            have := hord.prompt i (by omega) hla
            rw [hwt] at this
            simp at this
          have ham := (List.mem_filter.1 ha).1
          have haln := ((ho.mem a).1 ham).1
          have hai : a ≠ i := fun hh => hni (hh ▸ ham)
          omega
    · have hobs : observe f pcs a0.reg s l = [] := by
        cases l <;> first | rfl | exact absurd ⟨_, _, rfl⟩ he
      refine ⟨order, ⟨ho.nodup, ?_, by rw [hobs, List.append_nil]; exact ho.hits, by rw [hpcs, hn]; exact ho.pcs⟩,
        fun hq hord => ⟨hprompt hord, hord.sorted⟩⟩
      intro j
      rw [ho.mem j, hn, hex j]
      constructor
      · rintro ⟨h1, h2⟩; exact ⟨h1, .inl h2⟩
      · rintro ⟨h1, h2 | ⟨b, h2⟩⟩
        · exact ⟨h1, h2⟩
        · exact absurd ⟨j, b, h2⟩ he

theorem obs_run (f : I → Nat → Nat → List V → Option H) (hloc : Local isa key)
    (hlim : ∀ inst vs, limit.any (isa.gas inst vs > ·) = false) (N : Nat)
    (W : Nat → Slow A) (hok : Ok isa prog key a0 N W) (hW0 : W 0 = ⟨fun _ => false, fun _ => false⟩) :
    ∀ (ls : List Label) {s : St I V A B} {pcs : Nat → Nat} {hits : List H} {order : List Nat}
      {r : St I V A B × List H}, WF s → Sem isa prog a0 s →
      LateInv isa prog a0 W N s → ObsInv f isa prog a0 s pcs hits order →
      runObs f isa prog a0.reg limit s pcs hits ls = some r →
      ∃ pcs' order', ObsInv f isa prog a0 r.1 pcs' r.2 order' ∧
        ((∀ i, i < N → (hitT f isa prog a0 i).isSome → late isa prog a0 W i = false) → OrdInv f isa prog a0 W s order →
          OrdInv f isa prog a0 W r.1 order') := by
  intro ls
  induction ls with
  | nil =>
    intro s pcs hits order r _ _ _ ho hr
    simp only [runObs, Option.some.injEq] at hr
    subst hr
    exact ⟨pcs, order, ho, fun _ h => h⟩
  | cons l ls ih =>
    intro s pcs hits order r hw h hl ho hr
    simp only [runObs] at hr
    cases h1 : step isa prog a0.reg limit s l with
    | none => rw [h1] at hr; simp at hr
    | some s1 =>
      rw [h1] at hr
      have ht := late_timely N W hok hW0 hw h hl l h1
      have hl1 := late_step hloc hlim N W hok hW0 hw h hl l h1
      have hw1 := wf_step isa prog a0.reg limit hw l h1
      have h2 := sem_step hloc limit hw h l ht h1 hl1.noFault
      obtain ⟨order1, ho1, ho2⟩ := obs_step f hloc hlim N W hok hW0 hw h hl l h1 ho
      obtain ⟨pcs', order', ho3, ho4⟩ := ih hw1 h2 hl1 ho1 hr
      exact ⟨pcs', order', ho3, fun hq hord => ho4 hq (ho2 hq hord)⟩

theorem obs_start (f : I → Nat → Nat → List V → Option H) (e0 : Entry I A) (W : Nat → Slow A) (pcs : Nat → Nat) :
    ObsInv f isa prog a0 (start isa a0.mem a0.pc e0) pcs [] [] ∧
      OrdInv f isa prog a0 W (start isa a0.mem a0.pc e0) [] := by
  refine ⟨⟨by simp, ?_, rfl, ?_⟩, ⟨?_, by simp⟩⟩ <;> simp [start]

/-- Two increasing lists with the same members are equal. -/
theorem sorted_ext {l m : List Nat} (hl : l.Pairwise (· < ·)) (hm : m.Pairwise (· < ·)) (h : ∀ i, i ∈ l ↔ i ∈ m) :
    l = m := by
  have p : l.Perm m := (List.perm_ext_iff_of_nodup (hl.imp Nat.ne_of_lt) (hm.imp Nat.ne_of_lt)).2 h
  exact p.eq_of_pairwise (fun a b _ _ h1 h2 => absurd h1 (Nat.lt_asymm h2)) hl hm

/-- In order: a prefix of what program order shows. -/
theorem obs_prefix (f : I → Nat → Nat → List V → Option H) {N : Nat} {W : Nat → Slow A} {pcs : Nat → Nat}
    {hits : List H} {order : List Nat} (hN : s.n ≤ N)
    (hq : ∀ i, i < N → (hitT f isa prog a0 i).isSome → late isa prog a0 W i = false)
    (ho : ObsInv f isa prog a0 s pcs hits order) (hord : OrdInv f isa prog a0 W s order) :
    ∃ k, s.n ≤ k + 1 ∧ k ≤ s.n ∧ hits = (List.range k).filterMap (hitT f isa prog a0) := by
  classical
  have hexret : ∀ i, (s.ent i).status = .retired → Ex s i := fun i h => by unfold Ex; rw [h]; rfl
  have hfm : ∀ l : List Nat, l.filterMap (hitT f isa prog a0) =
      (l.filter fun i => (hitT f isa prog a0 i).isSome).filterMap (hitT f isa prog a0) := by
    intro l
    rw [List.filterMap_filter]
    refine List.filterMap_congr fun i _ => ?_
    cases hh : hitT f isa prog a0 i <;> simp
  have hrange : ∀ k, ((List.range k).filter fun i => (hitT f isa prog a0 i).isSome).Pairwise (· < ·) :=
    fun k => List.Pairwise.filter _ List.pairwise_lt_range
  have fin : ∀ k, (∀ i, (hitT f isa prog a0 i).isSome → (i ∈ order ↔ i < k)) →
      hits = (List.range k).filterMap (hitT f isa prog a0) := by
    intro k hk
    rw [ho.hits, hfm order, hfm (List.range k)]
    congr 1
    refine sorted_ext hord.sorted (hrange k) fun i => ?_
    rw [List.mem_filter, List.mem_filter, List.mem_range]
    constructor
    · rintro ⟨h1, h2⟩; exact ⟨(hk i h2).1 h1, h2⟩
    · rintro ⟨h1, h2⟩; exact ⟨(hk i h2).2 h1, h2⟩
  by_cases hlast : ∀ i, i + 1 = s.n → Ex s i
  · refine ⟨s.n, by omega, Nat.le_refl _, fin _ fun i hi => ?_⟩
    rw [ho.mem i]
    constructor
    · exact fun h => h.1
    · intro h
      refine ⟨h, ?_⟩
      by_cases hl : i + 1 = s.n
      · exact hlast i hl
      · exact hexret i (hord.prompt i (by omega) (hq i (by omega) hi))
  · push Not at hlast
    obtain ⟨j, hj, hjn⟩ := hlast
    refine ⟨j, by omega, by omega, fin _ fun i hi => ?_⟩
    rw [ho.mem i]
    constructor
    · rintro ⟨h1, h2⟩
      have : i ≠ j := fun h => hjn (h ▸ h2)
      omega
    · intro h
      exact ⟨by omega, hexret i (hord.prompt i (by omega) (hq i (by omega) hi))⟩

end Spf.Machine
