import Verif.Proof.MachineRun
/-! Progress, termination and gas of the out-of-order machine. -/
namespace Spf.Machine
open Spf.Cpu (Err)
open Spf.Seq (Arch assign Local Slow Returns Steady gasUsed)

variable {I V A B : Type} [DecidableEq A]

section
variable {isa : Isa I V A B} {prog : Nat → Except Err I} {a0 : Arch V A B} {s s' : St I V A B} {key : I → Nat} {limit : Option Nat}

/-! ### Progress -/

theorem some_unretired (hw : WF s) (h : s.inflightCount ≠ 0) : ∃ i, i < s.n ∧ (s.ent i).status ≠ .retired := by
  have h1 := hw.count
  obtain ⟨i, hi, hp⟩ := sumTo_pos (f := fun i => unret (s.ent i)) s.n (by omega)
  refine ⟨i, hi, ?_⟩
  intro hh; unfold unret at hp; rw [if_pos hh] at hp; omega

/-- An unretired instruction leads to one that can make a step. -/
theorem unretired_step (init : Nat → V) (hw : WF s) (hl : s.lost = none) (hidle : s.main = .idle) :
    ∀ i, i < s.n → (s.ent i).status ≠ .retired → ∃ l s', step isa prog init limit s l = some s' ∧ l ≠ .fetch := by
  intro i
  induction i using Nat.strongRecOn with
  | ind i ih =>
    intro hi hne
    cases hst : (s.ent i).status with
    | retired => exact absurd hst hne
    | running =>
      refine ⟨.asyncDone i, _, by simp only [step]; rw [if_pos ⟨hi, hst⟩], by simp⟩
    | retiring =>
      by_cases hd : (s.ent i).dependents = []
      · exact ⟨.retire i, _, by simp only [step]; rw [if_pos ⟨hi, hst, hd⟩], by simp⟩
      · exact ⟨.notify i, _, by simp only [step]; rw [if_pos ⟨hi, hst, hd⟩], by simp⟩
    | waiting =>
      by_cases h0 : (s.ent i).deps = 0
      · obtain ⟨⟨j, b⟩, hjb, hj⟩ := List.mem_map.1 ((hw.readyIff i).2 ⟨hi, hst, h0⟩)
        exact ⟨.exec j b, _, by simp only [step]; rw [if_pos ⟨hidle, hjb⟩], by simp⟩
      · have hd := hw.deps i hi
        rw [lostTok_none] at hd
        rcases tokens_pos (s := s) (i := i) (by omega) with ⟨d, hdn, hdi⟩ | ⟨p, hp⟩ | hp
        · obtain ⟨_, _, hnd, hnr⟩ := hw.dep d hdn i hdi
          exact ih d (hw.needLt i hi d hnd) hdn hnr
        · rw [hidle] at hp; simp at hp
        · rw [hl] at hp; simp at hp

theorem progress (init : Nat → V) (hw : WF s) (hl : s.lost = none) (hd : ¬ s.done) :
    ∃ l s', step isa prog init limit s l = some s' := by
  cases hm : s.main with
  | dispatching i p =>
    cases p with
    | nil => exact ⟨.dispatched, _, by simp only [step]; rw [hm]⟩
    | cons d ds => exact ⟨.dep, _, by simp only [step]; rw [hm]⟩
  | retiring i =>
    obtain ⟨hi, hst⟩ := hw.mainR i hm
    by_cases hdp : (s.ent i).dependents = []
    · exact ⟨.retire i, _, by simp only [step]; rw [if_pos ⟨hi, hst, hdp⟩]⟩
    · exact ⟨.notify i, _, by simp only [step]; rw [if_pos ⟨hi, hst, hdp⟩]⟩
  | idle =>
    cases hf : s.front with
    | fetch => exact ⟨.fetch, _, by simp only [step]; rw [if_pos ⟨hm, hf⟩]⟩
    | resolve i g =>
      by_cases hdr : drained s = true
      · exact ⟨.resolve, _, by simp only [step]; rw [hf]; dsimp only; rw [if_pos ⟨hm, hdr⟩]⟩
      · have : ∃ x ∈ s.ready, ¬ (x.2 = true) := by
          by_contra hh
          apply hdr
          unfold drained
          apply List.all_eq_true.2
          intro x hx
          by_contra hx2
          exact hh ⟨x, hx, hx2⟩
        obtain ⟨⟨j, b⟩, hx, _⟩ := this
        exact ⟨.exec j b, _, by simp only [step]; rw [if_pos ⟨hm, hx⟩]⟩
    | stopped =>
      have hc : s.inflightCount ≠ 0 := fun hh => hd ⟨hf, hh⟩
      obtain ⟨i, hi, hne⟩ := some_unretired hw hc
      obtain ⟨l, s', h1, _⟩ := unretired_step (isa := isa) (prog := prog) (limit := limit) init hw hl hm i hi hne
      exact ⟨l, s', h1⟩

/-! ### Termination -/

def Status.weight : Status → Nat
  | .waiting => 3 | .running => 2 | .retiring => 1 | .retired => 0

def Main.weight : Main → Nat
  | .dispatching _ p => 2 * p.length + 1
  | _ => 0

def Front.weight : Front → Nat
  | .resolve _ _ => 1
  | _ => 0

def entWeight (e : Entry I A) : Nat := e.dependents.length + e.status.weight

/-- how many steps are left before the next fetch -/
def weight (s : St I V A B) : Nat := sumTo (fun i => entWeight (s.ent i)) s.n + s.main.weight + s.front.weight

theorem sum_setEnt (f : Nat → Entry I A) (n i : Nat) (hi : i < n) (e : Entry I A) :
    sumTo (fun j => entWeight (setEnt f i e j)) n + entWeight (f i) = sumTo (fun j => entWeight (f j)) n + entWeight e := by
  have := sumTo_update (f := fun j => entWeight (setEnt f i e j)) (g := fun j => entWeight (f j)) n i hi
    (by intro j _ hj; rw [setEnt_ne _ _ hj])
  rw [setEnt_same] at this; exact this

theorem weight_decr (t : St I V A B) (i : Nat) (bg : Bool) (hi : i < t.n) : weight (decr t i bg) = weight t := by
  have h := sum_setEnt t.ent t.n i hi { t.ent i with deps := (t.ent i).deps - 1 }
  have e : entWeight { t.ent i with deps := (t.ent i).deps - 1 } = entWeight (t.ent i) := rfl
  dsimp only at h e
  unfold decr weight; dsimp only; split <;> (dsimp only; omega)

theorem weight_step (init : Nat → V) (hw : WF s) (l : Label) (hl : l ≠ .fetch)
    (hs : step isa prog init limit s l = some s') : weight s' < weight s := by
  cases l with
  | fetch => exact absurd rfl hl
  | dep =>
    simp only [step] at hs
    split at hs
    · rename_i i d ds hm; injection hs with hs; subst hs
      obtain ⟨hin, hp, hwt, _⟩ := hw.mainD i _ hm
      have hdn : d ∈ (s.ent i).need := hp d (by simp)
      have hdi : d < i := hw.needLt i (by omega) d hdn
      unfold depStep weight; dsimp only
      rw [hm]
      split
      · dsimp only
        have h1 := sum_setEnt (setEnt s.ent d { s.ent d with dependents := i :: (s.ent d).dependents }) s.n i (by omega)
          { (setEnt s.ent d { s.ent d with dependents := i :: (s.ent d).dependents } i) with
            deps := (setEnt s.ent d { s.ent d with dependents := i :: (s.ent d).dependents } i).deps + 1 }
        have h2 := sum_setEnt s.ent s.n d (by omega) { s.ent d with dependents := i :: (s.ent d).dependents }
        have e1 : entWeight { (setEnt s.ent d { s.ent d with dependents := i :: (s.ent d).dependents } i) with
            deps := (setEnt s.ent d { s.ent d with dependents := i :: (s.ent d).dependents } i).deps + 1 } =
          entWeight (setEnt s.ent d { s.ent d with dependents := i :: (s.ent d).dependents } i) := rfl
        have e2 : entWeight { s.ent d with dependents := i :: (s.ent d).dependents } = entWeight (s.ent d) + 1 := by
          simp [entWeight]; omega
        simp only [Main.weight, List.length_cons]
        dsimp only at h1 h2 e1 e2
        omega
      · dsimp only; simp only [Main.weight, List.length_cons]; omega
    · simp at hs
  | dispatched =>
    simp only [step] at hs
    split at hs
    · rename_i i hm; injection hs with hs; subst hs
      obtain ⟨hin, _⟩ := hw.mainD i _ hm
      rw [weight_decr _ _ _ (by dsimp only; omega)]
      unfold weight; dsimp only; rw [hm]; simp [Main.weight]
    · simp at hs
  | resolve =>
    simp only [step] at hs
    split at hs
    · rename_i i g hf
      split at hs
      · injection hs with hs; subst hs
        unfold resolveStep weight
        rw [hf]
        split <;> simp [Front.weight, St.stop]
      · simp at hs
    · simp at hs
  | exec i bg =>
    simp only [step] at hs
    split at hs
    · rename_i hc; injection hs with hs; subst hs
      obtain ⟨hi, hwt, _⟩ := (hw.readyIff i).1 (List.mem_map.2 ⟨(i, bg), hc.2, rfl⟩)
      have hsum : ∀ st : Status, sumTo (fun j => entWeight (setEnt s.ent i { s.ent i with status := st } j)) s.n + 3 =
          sumTo (fun j => entWeight (s.ent j)) s.n + st.weight := by
        intro st
        have := sum_setEnt s.ent s.n i hi { s.ent i with status := st }
        have e1 : entWeight { s.ent i with status := st } = (s.ent i).dependents.length + st.weight := rfl
        have e2 : entWeight (s.ent i) = (s.ent i).dependents.length + 3 := by simp [entWeight, hwt, Status.weight]
        dsimp only at this e1 ⊢
        omega
      have hr := hsum .retiring
      have hr2 := hsum .running
      simp only [Status.weight] at hr hr2
      unfold execStep weight; dsimp only; rw [hc.1]
      split
      · dsimp only; simp only [Main.weight]; omega
      · split
        · dsimp only; simp only [Main.weight]; omega
        · split
          · dsimp only; simp only [Main.weight]; omega
          · dsimp only; simp only [Main.weight]; omega
    · simp at hs
  | asyncDone i =>
    simp only [step] at hs
    split at hs
    · rename_i hc; injection hs with hs; subst hs
      have := sum_setEnt s.ent s.n i hc.1 { s.ent i with status := .retiring }
      have e1 : entWeight { s.ent i with status := .retiring } = (s.ent i).dependents.length + 1 := rfl
      have e2 : entWeight (s.ent i) = (s.ent i).dependents.length + 2 := by simp [entWeight, hc.2, Status.weight]
      dsimp only at this e1
      unfold weight; dsimp only; omega
    · simp at hs
  | notify i =>
    simp only [step] at hs
    split at hs
    · rename_i hc; injection hs with hs; subst hs
      unfold notifyStep
      cases hd : (s.ent i).dependents with
      | nil => exact absurd hd hc.2.2
      | cons d ds =>
        dsimp only
        have hdd := hw.dep i hc.1 d (by rw [hd]; simp)
        rw [weight_decr _ _ _ (by dsimp only; exact hdd.1)]
        have := sum_setEnt s.ent s.n i hc.1 { s.ent i with dependents := ds }
        have e1 : entWeight { s.ent i with dependents := ds } = ds.length + (s.ent i).status.weight := rfl
        have e2 : entWeight (s.ent i) = ds.length + 1 + (s.ent i).status.weight := by simp [entWeight, hd]
        dsimp only at this e1
        unfold weight; dsimp only; omega
    · simp at hs
  | retire i =>
    simp only [step] at hs
    split at hs
    · rename_i hc; injection hs with hs; subst hs
      have := sum_setEnt s.ent s.n i hc.1 { s.ent i with status := .retired }
      have e1 : entWeight { s.ent i with status := .retired } = (s.ent i).dependents.length := rfl
      have e2 : entWeight (s.ent i) = (s.ent i).dependents.length + 1 := by simp [entWeight, hc.2.1, Status.weight]
      have e3 : (if s.main = .retiring i then Main.idle else s.main).weight = s.main.weight := by
        split
        · rename_i hm; rw [hm]; rfl
        · rfl
      dsimp only at this e1
      unfold retireStep weight; dsimp only; rw [e3]; omega
    · simp at hs

/-- Once the front end has stopped it stays stopped, and nothing is fetched. -/
theorem stopped_step (init : Nat → V) (hf : s.front = .stopped) (l : Label)
    (hs : step isa prog init limit s l = some s') : l ≠ .fetch ∧ s'.front = .stopped ∧ s'.lost = s.lost := by
  have hdc : ∀ (t : St I V A B) i bg, (decr t i bg).front = t.front ∧ (decr t i bg).lost = t.lost := by
    intro t i bg; unfold decr; dsimp only; split <;> exact ⟨rfl, rfl⟩
  cases l with
  | fetch => simp only [step] at hs; rw [if_neg (by rw [hf]; simp)] at hs; simp at hs
  | dep =>
    simp only [step] at hs
    split at hs
    · injection hs with hs; subst hs; refine ⟨by simp, ?_⟩; unfold depStep; dsimp only; split <;> exact ⟨hf, rfl⟩
    · simp at hs
  | dispatched =>
    simp only [step] at hs
    split at hs
    · injection hs with hs; subst hs; refine ⟨by simp, ?_⟩
      have := hdc { s with main := .idle } (by assumption) false
      exact ⟨this.1.trans hf, this.2⟩
    · simp at hs
  | resolve => simp only [step] at hs; rw [hf] at hs; simp at hs
  | exec i bg =>
    simp only [step] at hs
    split at hs
    · injection hs with hs; subst hs; refine ⟨by simp, ?_⟩
      unfold execStep; dsimp only
      split
      · exact ⟨hf, rfl⟩
      · split
        · exact ⟨hf, rfl⟩
        · split <;> exact ⟨hf, rfl⟩
    · simp at hs
  | asyncDone i =>
    simp only [step] at hs
    split at hs
    · injection hs with hs; subst hs; exact ⟨by simp, hf, rfl⟩
    · simp at hs
  | notify i =>
    simp only [step] at hs
    split at hs
    · injection hs with hs; subst hs; refine ⟨by simp, ?_⟩
      unfold notifyStep
      split
      · exact ⟨hf, rfl⟩
      · have := hdc { s with ent := setEnt s.ent i { s.ent i with dependents := by assumption } } (by assumption) (decide (s.main ≠ .retiring i))
        rename_i d ds _
        have := hdc { s with ent := setEnt s.ent i { s.ent i with dependents := ds } } d (decide (s.main ≠ .retiring i))
        exact ⟨this.1.trans hf, this.2⟩
    · simp at hs
  | retire i =>
    simp only [step] at hs
    split at hs
    · injection hs with hs; subst hs; exact ⟨by simp, hf, rfl⟩
    · simp at hs

/-- After the front end stopped, at most `weight` steps are left. -/
theorem stopped_run (init : Nat → V) : ∀ (ls : List Label) {s s' : St I V A B}, WF s → s.front = .stopped →
    run isa prog init limit s ls = some s' → ls.length ≤ weight s ∧ s'.front = .stopped ∧ s'.lost = s.lost := by
  intro ls
  induction ls with
  | nil => intro s s' _ hf hr; simp only [run] at hr; injection hr with hr; subst hr; exact ⟨by simp, hf, rfl⟩
  | cons l ls ih =>
    intro s s' hw hf hr
    simp only [run] at hr
    split at hr
    · simp at hr
    · rename_i s1 h1
      obtain ⟨hl, hf1, hlo⟩ := stopped_step (isa := isa) (prog := prog) (limit := limit) init hf l h1
      obtain ⟨h2, h3, h4⟩ := ih (wf_step isa prog init limit hw l h1) hf1 hr
      have := weight_step init hw l hl h1
      simp only [List.length_cons]
      exact ⟨by omega, h3, by rw [h4, hlo]⟩

/-- Without a fetch, at most `weight` steps. -/
theorem nofetch_run (init : Nat → V) : ∀ (ls : List Label) {s s' : St I V A B}, WF s → Label.fetch ∉ ls →
    run isa prog init limit s ls = some s' → ls.length ≤ weight s := by
  intro ls
  induction ls with
  | nil => intro s s' _ _ _; simp
  | cons l ls ih =>
    intro s s' hw hf hr
    simp only [run] at hr
    split at hr
    · simp at hr
    · rename_i s1 h1
      have := ih (wf_step isa prog init limit hw l h1) (fun hh => hf (List.mem_cons_of_mem _ hh)) hr
      have := weight_step init hw l (fun hh => hf (by rw [hh]; simp)) h1
      simp only [List.length_cons]; omega

/-! ### Termination of a whole program -/

def tNeed (isa : Isa I V A B) (prog : Nat → Except Err I) (a0 : Arch V A B) (i : Nat) : Nat :=
  match prog (T isa prog a0 i).pc with
  | .ok inst => (((isa.srcs inst).map (rho isa prog a0 i)).filterMap Src.producer ++
      memDeps (lastAcc isa prog a0 i) (tAddrs isa prog (T isa prog a0 i))).length
  | .error _ => 0

/-- cost of the instructions that are not fetched yet -/
def restCost (isa : Isa I V A B) (prog : Nat → Except Err I) (a0 : Arch V A B) (N n : Nat) : Nat :=
  sumTo (fun k => if n ≤ k then 2 * tNeed isa prog a0 k + 6 else 0) N

theorem restCost_succ (N n : Nat) (hn : n < N) :
    restCost isa prog a0 N n = restCost isa prog a0 N (n + 1) + (2 * tNeed isa prog a0 n + 6) := by
  unfold restCost
  have := sumTo_update (f := fun k => if n ≤ k then 2 * tNeed isa prog a0 k + 6 else 0)
    (g := fun k => if n + 1 ≤ k then 2 * tNeed isa prog a0 k + 6 else 0) N n hn (by
      intro i _ hne
      by_cases h : n ≤ i
      · rw [if_pos h, if_pos (by omega)]
      · rw [if_neg h, if_neg (by omega)])
  rw [if_neg (by omega), if_pos (by omega)] at this
  omega

theorem n_step (init : Nat → V) (l : Label) (hl : l ≠ .fetch) (hs : step isa prog init limit s l = some s') : s'.n = s.n := by
  have hdc : ∀ (t : St I V A B) i bg, (decr t i bg).n = t.n := by
    intro t i bg; unfold decr; dsimp only; split <;> rfl
  cases l with
  | fetch => exact absurd rfl hl
  | dep =>
    simp only [step] at hs
    split at hs
    · injection hs with hs; subst hs; unfold depStep; dsimp only; split <;> rfl
    · simp at hs
  | dispatched =>
    simp only [step] at hs
    split at hs
    · injection hs with hs; subst hs; exact hdc _ _ _
    · simp at hs
  | resolve =>
    simp only [step] at hs
    split at hs
    · split at hs
      · injection hs with hs; subst hs; unfold resolveStep; split <;> rfl
      · simp at hs
    · simp at hs
  | exec i bg =>
    simp only [step] at hs
    split at hs
    · injection hs with hs; subst hs
      unfold execStep; dsimp only
      split
      · rfl
      · split
        · rfl
        · split <;> rfl
    · simp at hs
  | asyncDone i =>
    simp only [step] at hs
    split at hs
    · injection hs with hs; subst hs; rfl
    · simp at hs
  | notify i =>
    simp only [step] at hs
    split at hs
    · injection hs with hs; subst hs
      unfold notifyStep
      split
      · rfl
      · exact hdc _ _ _
    · simp at hs
  | retire i =>
    simp only [step] at hs
    split at hs
    · injection hs with hs; subst hs; rfl
    · simp at hs

theorem weight_fetch (hloc : Local isa key) (hlim : ∀ inst vs, limit.any (isa.gas inst vs > ·) = false) (N : Nat)
    (W : Nat → Slow A) (hok : Ok isa prog key a0 N W) (hW0 : W 0 = ⟨fun _ => false, fun _ => false⟩)
    (hw : WF s) (h : Sem isa prog a0 s) (hl : LateInv isa prog a0 W N s)
    (hs : step isa prog a0.reg limit s .fetch = some s') :
    s'.n = s.n + 1 ∧ weight s' = weight s + (2 * tNeed isa prog a0 s.n + 5) := by
  have ht := late_timely N W hok hW0 hw h hl .fetch hs
  simp only [step] at hs
  split at hs
  · rename_i hc; injection hs with hs; subst hs
    have hnN := hl.nlt hc.2
    obtain ⟨inst, l, p, h1, h2, h3, h4, h5, h6⟩ := hok.ok s.n hnN
    have hp : prog s.pc = .ok inst := by rw [h.pcF hc.2]; exact h1
    have ha := fetch_access hloc hw h hc.2 ht hp
    rw [h2] at ha
    have hta : tAddrs isa prog (T isa prog a0 s.n) = l := by
      unfold tAddrs; unfold tVals at h2; rw [h1] at h2 ⊢; dsimp only at h2 ⊢; rw [h2]
    unfold fetchStep
    rw [hl.noFault]; dsimp only
    rw [hp]; dsimp only
    rw [hlim]; simp only [Bool.false_eq_true, if_false]
    rw [ha]; dsimp only
    refine ⟨rfl, ?_⟩
    unfold weight tNeed; dsimp only
    rw [h1, hta, hc.1, hc.2, h.ren, h.infl]; dsimp only
    simp only [sumTo, setEnt_same, Main.weight, Front.weight]
    rw [sumTo_congr (g := fun j => entWeight (s.ent j)) s.n (fun j hj => by rw [setEnt_ne _ _ (by omega)])]
    simp only [entWeight, List.length_nil, Status.weight]
    omega
  · simp at hs

/-- Every run of a steady program that returns is finite. -/
theorem steady_bound (hloc : Local isa key) (hlim : ∀ inst vs, limit.any (isa.gas inst vs > ·) = false) (N : Nat)
    (W : Nat → Slow A) (hok : Ok isa prog key a0 N W) (hW0 : W 0 = ⟨fun _ => false, fun _ => false⟩) :
    ∀ (ls : List Label) {s s' : St I V A B}, WF s → Sem isa prog a0 s → LateInv isa prog a0 W N s →
      run isa prog a0.reg limit s ls = some s' → ls.length ≤ weight s + restCost isa prog a0 N s.n := by
  intro ls
  induction ls with
  | nil => intros; simp
  | cons l ls ih =>
    intro s s' hw h hl hr
    simp only [run] at hr
    split at hr
    · simp at hr
    · rename_i s1 h1
      have ht := late_timely N W hok hW0 hw h hl l h1
      have hl1 := late_step hloc hlim N W hok hW0 hw h hl l h1
      have hw1 := wf_step isa prog a0.reg limit hw l h1
      have := ih hw1 (sem_step hloc limit hw h l ht h1 hl1.noFault) hl1 hr
      simp only [List.length_cons]
      by_cases hlf : l = .fetch
      · subst hlf
        obtain ⟨hn, hwt⟩ := weight_fetch hloc hlim N W hok hW0 hw h hl h1
        have hc : s.front = .fetch := by
          simp only [step] at h1; split at h1
          · rename_i hc; exact hc.2
          · simp at h1
        rw [restCost_succ N s.n (hl.nlt hc)]
        rw [hn] at this; omega
      · have h2 := n_step a0.reg l hlf h1
        have h3 := weight_step a0.reg hw l hlf h1
        rw [h2] at this; omega

/-! ### Gas -/

def tGas (isa : Isa I V A B) (prog : Nat → Except Err I) (a : Arch V A B) : Nat :=
  match prog a.pc with
  | .ok inst => isa.gas inst ((isa.srcs inst).map a.reg)
  | .error _ => 0

/-- the charges so far -/
structure GasInv (isa : Isa I V A B) (prog : Nat → Except Err I) (a0 : Arch V A B) (s : St I V A B) : Prop where
  fetch : s.front = .fetch → s.gas = sumTo (fun i => tGas isa prog (T isa prog a0 i)) s.n
  resolve : ∀ i g, s.front = .resolve i g →
    s.gas = sumTo (fun i => tGas isa prog (T isa prog a0 i)) i ∧ g = tGas isa prog (T isa prog a0 i)
  stopped : s.front = .stopped → s.gas = sumTo (fun i => tGas isa prog (T isa prog a0 i)) (s.n - 1)

theorem front_gas_step (init : Nat → V) (l : Label) (hl : l ≠ .fetch) (hl2 : l ≠ .resolve)
    (hs : step isa prog init limit s l = some s') : s'.front = s.front ∧ s'.gas = s.gas := by
  have hdc : ∀ (t : St I V A B) i bg, (decr t i bg).front = t.front ∧ (decr t i bg).gas = t.gas := by
    intro t i bg; unfold decr; dsimp only; split <;> exact ⟨rfl, rfl⟩
  cases l with
  | fetch => exact absurd rfl hl
  | resolve => exact absurd rfl hl2
  | dep =>
    simp only [step] at hs
    split at hs
    · injection hs with hs; subst hs; unfold depStep; dsimp only; split <;> exact ⟨rfl, rfl⟩
    · simp at hs
  | dispatched =>
    simp only [step] at hs
    split at hs
    · injection hs with hs; subst hs; exact hdc _ _ _
    · simp at hs
  | exec i bg =>
    simp only [step] at hs
    split at hs
    · injection hs with hs; subst hs
      unfold execStep; dsimp only
      split
      · exact ⟨rfl, rfl⟩
      · split
        · exact ⟨rfl, rfl⟩
        · split <;> exact ⟨rfl, rfl⟩
    · simp at hs
  | asyncDone i =>
    simp only [step] at hs
    split at hs
    · injection hs with hs; subst hs; exact ⟨rfl, rfl⟩
    · simp at hs
  | notify i =>
    simp only [step] at hs
    split at hs
    · injection hs with hs; subst hs
      unfold notifyStep
      split
      · exact ⟨rfl, rfl⟩
      · exact hdc _ _ _
    · simp at hs
  | retire i =>
    simp only [step] at hs
    split at hs
    · injection hs with hs; subst hs; exact ⟨rfl, rfl⟩
    · simp at hs

theorem gas_step (hgk : ∀ inst vs vs', vs.take (key inst) = vs'.take (key inst) → isa.gas inst vs = isa.gas inst vs')
    (hw : WF s) (h : Sem isa prog a0 s) (hg : GasInv isa prog a0 s) (l : Label)
    (ht : timelyAt isa prog key s l) (hs : step isa prog a0.reg limit s l = some s') (hf : s'.fault = none) :
    GasInv isa prog a0 s' := by
  by_cases hl : l = .fetch
  · subst hl
    simp only [step] at hs
    split at hs
    · rename_i hc; injection hs with hs; subst hs
      have hgas := hg.fetch hc.2
      unfold fetchStep at hf ⊢
      split
      · rename_i e he; rw [he] at hf; simp at hf
      · rename_i he
        rw [he] at hf; dsimp only at hf
        split
        · rename_i e hp; rw [hp] at hf; simp only [St.stop] at hf; exact absurd hf (setFault_ne _ _)
        · rename_i inst hp
          rw [hp] at hf; dsimp only at hf ⊢
          split
          · rename_i hgl; rw [if_pos hgl] at hf; simp only [St.stop] at hf; exact absurd hf (setFault_ne _ _)
          · rename_i hgl
            rw [if_neg hgl] at hf
            have hinst : prog (T isa prog a0 s.n).pc = .ok inst := by rw [← h.pcF hc.2]; exact hp
            have hgg : isa.gas inst (((isa.srcs inst).map s.rename).map (s.val a0.reg)) = tGas isa prog (T isa prog a0 s.n) := by
              unfold tGas; rw [hinst]; dsimp only
              apply hgk
              have : (isa.srcs inst).map (T isa prog a0 s.n).reg = ((isa.srcs inst).map s.rename).map (sval isa prog a0) := by
                rw [h.ren, List.map_map]
                apply List.map_congr_left; intro r _; exact reg_rho isa prog a0 _ r
              rw [this]
              apply take_known h
              intro src hsrc p hpp
              obtain ⟨r, _, hr⟩ := List.mem_map.1 (List.mem_of_mem_take hsrc)
              exact ⟨by rw [← hr] at hpp; exact hw.renLt r p hpp, ht inst hp src hsrc p hpp⟩
            split
            · rename_i e ha; rw [ha] at hf; simp only [St.stop] at hf; exact absurd hf (setFault_ne _ _)
            · constructor
              · intro hh; simp at hh
              · intro i g hh; dsimp only at hh ⊢; injection hh with h1 h2; subst h1; subst h2; exact ⟨hgas, hgg⟩
              · intro hh; simp at hh
    · simp at hs
  · by_cases hl2 : l = .resolve
    · subst hl2
      simp only [step] at hs
      split at hs
      · rename_i i g hfr
        split at hs
        · injection hs with hs; subst hs
          obtain ⟨h1, h2⟩ := hg.resolve i g hfr
          have hin := hw.frontR i g hfr
          unfold resolveStep at hf ⊢
          split
          · constructor
            · intro _; dsimp only; rw [← hin]; simp only [sumTo]; omega
            · intro i g hh; simp at hh
            · intro hh; simp at hh
          · constructor
            · intro hh; simp at hh
            · intro i g hh; simp at hh
            · intro _; dsimp only; rw [← hin]; simpa using h1
          · rename_i e _ hp
            rw [hp] at hf
            cases e <;> simp_all [St.stop, setFault_ne]
        · simp at hs
      · simp at hs
    · obtain ⟨h1, h2⟩ := front_gas_step a0.reg l hl hl2 hs
      have h3 := n_step a0.reg l hl hs
      constructor
      · intro hh; rw [h1] at hh; rw [h2, h3]; exact hg.fetch hh
      · intro i g hh; rw [h1] at hh; rw [h2]; exact hg.resolve i g hh
      · intro hh; rw [h1] at hh; rw [h2, h3]; exact hg.stopped hh

theorem gas_start (e0 : Entry I A) : GasInv isa prog a0 (start isa a0.mem a0.pc e0) := by
  constructor <;> simp [start, sumTo]

theorem run_fault_mono : ∀ (ls : List Label) {s s' : St I V A B}, run isa prog a0.reg limit s ls = some s' → s'.fault = none →
    s.fault = none := by
  intro ls
  induction ls with
  | nil => intro s s' hr hf; simp only [run] at hr; injection hr with hr; subst hr; exact hf
  | cons l ls ih =>
    intro s s' hr hf
    simp only [run] at hr
    split at hr
    · simp at hr
    · rename_i s2 h2; exact fault_mono isa prog a0.reg limit l h2 (ih hr hf)

theorem gas_run (hloc : Local isa key)
    (hgk : ∀ inst vs vs', vs.take (key inst) = vs'.take (key inst) → isa.gas inst vs = isa.gas inst vs') :
    ∀ (ls : List Label) {s s' : St I V A B}, WF s → Sem isa prog a0 s → GasInv isa prog a0 s →
    Timely isa prog key a0.reg limit s ls → run isa prog a0.reg limit s ls = some s' → s'.fault = none → GasInv isa prog a0 s' := by
  intro ls
  induction ls with
  | nil => intro s s' _ _ hg _ hr _; simp only [run] at hr; injection hr with hr; subst hr; exact hg
  | cons l ls ih =>
    intro s s' hw h hg ht hr hf
    simp only [run] at hr
    split at hr
    · simp at hr
    · rename_i s1 h1
      have hf1 := run_fault_mono ls hr hf
      exact ih (wf_step isa prog a0.reg limit hw l h1) (sem_step hloc limit hw h l ht.1 h1 hf1)
        (gas_step hgk hw h hg l ht.1 h1 hf1) (ht.2 s1 h1) hr hf

theorem gasUsed_eq : ∀ (n : Nat) (a0 b : Arch V A B), Returns isa prog n a0 b →
    gasUsed isa prog n a0 = sumTo (fun i => tGas isa prog (T isa prog a0 i)) n := by
  intro n
  induction n with
  | zero => intros; rfl
  | succ n ih =>
    intro a0 b hr
    have hT : ∀ k, T isa prog a0 (k + 1) = T isa prog (tNext isa prog a0) k := by
      intro k; induction k with
      | zero => rfl
      | succ k ihk => rw [T, ihk]; rfl
    have hsum : ∀ (f : Nat → Nat) n, sumTo f (n + 1) = f 0 + sumTo (fun i => f (i + 1)) n := by
      intro f n; induction n with
      | zero => simp [sumTo]
      | succ n ih2 => rw [sumTo, ih2, sumTo]; omega
    rw [hsum]
    simp only [hT]
    simp only [Returns] at hr
    simp only [gasUsed]
    cases hp : prog a0.pc with
    | error e => unfold Seq.step at hr; rw [hp] at hr; exact absurd hr (by simp)
    | ok inst =>
      have hg0 : tGas isa prog (T isa prog a0 0) = isa.gas inst ((isa.srcs inst).map a0.reg) := by
        unfold tGas; simp only [T]; rw [hp]
      rw [hg0]
      cases hq : Seq.step isa prog a0 with
      | error e => rw [hq] at hr; exact absurd hr (by simp)
      | ok r =>
        obtain ⟨a', d⟩ := r
        rw [hq] at hr
        dsimp only
        congr 1
        cases d with
        | true =>
          dsimp only at hr; obtain ⟨h1, _⟩ := hr; subst h1; rfl
        | false =>
          dsimp only at hr
          have : a' = tNext isa prog a0 := by
            unfold Seq.step at hq; rw [hp] at hq; dsimp only at hq
            unfold Seq.effect at hq; dsimp only at hq
            cases hac : isa.access inst ((isa.srcs inst).map a0.reg) with
            | error e => rw [hac] at hq; simp at hq
            | ok l =>
              rw [hac] at hq; dsimp only at hq
              cases hx : isa.exec inst ((isa.srcs inst).map a0.reg) a0.mem with
              | error e => rw [hx] at hq; simp at hq
              | ok om =>
                obtain ⟨o, m⟩ := om
                rw [hx] at hq; dsimp only at hq
                cases hnx : isa.next inst a0.pc ((isa.srcs inst).map a0.reg) with
                | error e => rw [hnx] at hq; cases e <;> simp at hq
                | ok pc =>
                  rw [hnx] at hq; dsimp only at hq
                  injection hq with hq; injection hq with hq _
                  rw [← hq]; unfold tNext
                  have h1 : tOut isa prog a0 = (o, m) := by unfold tOut; rw [hp]; dsimp only; rw [hx]
                  have h2 : tDsts isa prog a0 = isa.dsts inst := by unfold tDsts; rw [hp]
                  have h3 : tPc isa prog a0 = pc := by unfold tPc; rw [hp]; dsimp only; rw [hnx]
                  rw [h1, h2, h3]
          subst this
          exact ih _ _ hr

/-- Total gas of a complete run. -/
theorem done_gas (hw : WF s) (h : Sem isa prog a0 s) (hg : GasInv isa prog a0 s) (hd : s.done)
    (hret : ∀ inst pc vs, isa.next inst pc vs = .error .halt → isa.gas inst vs = 0) :
    s.gas = gasUsed isa prog s.n a0 := by
  obtain ⟨b, hb, _⟩ := done_result hw h hd
  rw [gasUsed_eq s.n a0 b hb]
  obtain ⟨m, hm, hhalt⟩ := h.pcS hd.1
  have h1 := hg.stopped hd.1
  rw [hm] at h1 ⊢
  simp only [Nat.add_sub_cancel, sumTo] at h1 ⊢
  have : tGas isa prog (T isa prog a0 m) = 0 := by
    unfold tGas; rw [h.inst m (by omega)]; dsimp only
    apply hret _ (T isa prog a0 m).pc
    unfold tVals at hhalt; rw [h.inst m (by omega)] at hhalt; exact hhalt
  omega

/-! ### The limit -/

/-- every charge is within the limit -/
theorem limit_run (init : Nat → V) (L : Nat) : ∀ (ls : List Label) {s s' : St I V A B}, WF s →
    (s.front = .fetch → s.gas ≤ s.n * L) → (∀ i g, s.front = .resolve i g → s.gas ≤ i * L ∧ g ≤ L) →
    (s.front = .stopped → s.gas ≤ s.n * L) →
    run isa prog init (some L) s ls = some s' → s'.gas ≤ s'.n * L := by
  intro ls
  induction ls with
  | nil =>
    intro s s' hw h1 h2 h3 hr; simp only [run] at hr; injection hr with hr; subst hr
    cases hf : s.front with
    | fetch => exact h1 hf
    | stopped => exact h3 hf
    | resolve i g =>
      have := hw.frontR i g hf; obtain ⟨h4, _⟩ := h2 i g hf
      rw [← this]; exact Nat.le_trans h4 (Nat.mul_le_mul_right _ (by omega))
  | cons l ls ih =>
    intro s s' hw h1 h2 h3 hr
    simp only [run] at hr
    split at hr
    · simp at hr
    · rename_i s1 hs
      have hw1 := wf_step isa prog init (some L) hw l hs
      refine ih hw1 ?_ ?_ ?_ hr
      all_goals
        by_cases hl : l = .fetch
        · subst hl
          simp only [step] at hs
          split at hs
          · rename_i hc; injection hs with hs; subst hs
            have hg := h1 hc.2
            unfold fetchStep
            split
            · first | (intro hh; exact hg) | (intro i g hh; simp at hh)
            · split
              · first | (intro hh; exact hg) | (intro i g hh; simp [St.stop] at hh)
              · dsimp only
                split
                · first | (intro hh; exact hg) | (intro i g hh; simp [St.stop] at hh)
                · rename_i hgl
                  split
                  · first
                      | (intro hh; simp only [St.stop]; exact Nat.le_trans hg (Nat.mul_le_mul_right _ (by omega)))
                      | (intro i g hh; simp [St.stop] at hh)
                  · first
                      | (intro hh; simp at hh)
                      | (intro i g hh
                         dsimp only at hh ⊢
                         injection hh with e1 e2; subst e1; subst e2
                         refine ⟨hg, ?_⟩
                         simpa using hgl)
          · simp at hs
        · by_cases hl2 : l = .resolve
          · subst hl2
            simp only [step] at hs
            split at hs
            · rename_i i g hfr
              split at hs
              · injection hs with hs; subst hs
                obtain ⟨h4, h5⟩ := h2 i g hfr
                have hin := hw.frontR i g hfr
                have h6 : s.gas + g ≤ s.n * L := by
                  rw [← hin, Nat.succ_mul]; omega
                have h7 : s.gas ≤ s.n * L := by omega
                unfold resolveStep
                split
                · first | (intro hh; exact h6) | (intro i g hh; simp at hh)
                · first | (intro hh; exact h7) | (intro i g hh; simp at hh)
                · first | (intro hh; exact h7) | (intro i g hh; simp [St.stop] at hh)
              · simp at hs
            · simp at hs
          · obtain ⟨e1, e2⟩ := front_gas_step init l hl hl2 hs
            have e3 := n_step init l hl hs
            rw [e1, e2]
            first | (rw [e3]; exact h1) | exact h2 | (rw [e3]; exact h3)

end
end Spf.Machine
