import Verif.Model.DynArgs
import Verif.Props.Memory
/-! C120: integers of dynamic width in memory and as arguments. -/
namespace Spf.Props
open Spf.Cpu Spf.CtCpu
variable {C : Type}

theorem loadAll_parts (p : Nat) (m : Mem C) : ∀ (n i : Nat) {bs : List (Byte C)}, m.loadAll p n i = .ok bs → bs.length = n ∧ ∀ (k : Nat) (h : k < bs.length), m.load (p + i + k) = .ok bs[k]
  | 0, _, _, h => by cases h; exact ⟨rfl, fun k hk => absurd hk (by simp)⟩
  | n + 1, i, bs, h => by
    unfold Mem.loadAll at h
    cases ho : tryOffset p i with
    | error e => rw [ho] at h; cases h
    | ok q =>
      have hq : q = p + i := by
        unfold tryOffset at ho
        by_cases hlt : p + i < addrSpace
        · rw [if_pos hlt] at ho; cases ho; rfl
        · rw [if_neg hlt] at ho; cases ho
      rw [ho] at h
      simp only at h
      cases hl : m.load q with
      | error e => rw [hl] at h; cases h
      | ok b =>
        rw [hl] at h
        simp only at h
        cases hr : m.loadAll p n (i + 1) with
        | error e => rw [hr] at h; cases h
        | ok r =>
          rw [hr] at h
          cases h
          obtain ⟨g1, g2⟩ := loadAll_parts p m n (i + 1) hr
          refine ⟨by simp [g1], fun k hk => ?_⟩
          cases k with
          | zero => rw [Nat.add_zero, ← hq]; exact hl
          | succ k => rw [show p + i + (k + 1) = p + (i + 1) + k by omega]; exact g2 k (by simpa using hk)

theorem dyn_width {k : Nat} (hk : 3 ≤ k) : (2 ^ k ≠ 0 ∧ 2 ^ Nat.log2 (2 ^ k) = 2 ^ k ∧ 2 ^ k % 8 = 0) ∧ 0 < 2 ^ k / 8 := by
  obtain ⟨j, rfl⟩ := Nat.exists_eq_add_of_le hk
  have h0 : 0 < 2 ^ j := Nat.pow_pos (by omega)
  have h : 2 ^ (3 + j) = 8 * 2 ^ j := by rw [Nat.pow_add]
  refine ⟨⟨by omega, by rw [Nat.log2_two_pow], by omega⟩, by omega⟩

/-- **C120 (as the static types).** For an integer whose number of bits is a power of two, at least 8, passing it as an argument, writing it to memory and reading it back do the same as for the type of that static width. -/
theorem C120_static (k : Nat) (hk : 3 ≤ k) (bits : List C) (hl : bits.length = 2 ^ k) (m : Mem C) (p : Nat) :
    dynArg bits = .ok (toArg (.enc (2 ^ k)) bits) ∧ m.writeDyn p bits = m.writeType p (.enc (2 ^ k)) bits ∧
    ∀ x : List C, m.loadDyn p (2 ^ k / 8) (2 ^ k / 8) = .ok x ↔ m.loadType p (.enc (2 ^ k)) = .ok x := by
  obtain ⟨h1, h2⟩ := dyn_width hk
  have hb : dynToBytes bits = .ok ((chunks 8 bits.length bits).map .cipher) := by unfold dynToBytes; rw [hl, if_pos h1]
  have hs : dynSize bits = 2 ^ k / 8 := by unfold dynSize; rw [hl]
  refine ⟨?_, ?_, fun x => ?_⟩
  · unfold dynArg; rw [hb, hs]; rfl
  · unfold Mem.writeDyn Mem.writeType Mem.writeBytes
    rw [hs, hb]
    rfl
  · unfold Mem.loadDyn Mem.loadType
    simp only [Ty.alignment, Ty.size]
    unfold Mem.readBytes
    rw [if_neg (by omega)]
    by_cases ha : p % (2 ^ k / 8) = 0
    · rw [if_neg (by simpa using ha)]
      cases hc : m.checkRange p (2 ^ k / 8) with
      | error e => simp
      | ok u =>
        simp only
        cases hr : m.loadAll p (2 ^ k / 8) 0 with
        | error e => simp
        | ok bs =>
          simp only [Ty.fromBytes, dynFromBytes]
          have : bs.length = 2 ^ k / 8 := (loadAll_parts p m _ _ hr).1
          rw [if_neg (by omega)]
    · rw [if_pos ha]

/-- **C120 (refusals).** An integer of any other number of bits cannot be passed as an argument (panic), and an attempt to write it to memory fails and changes nothing. -/
theorem C120_refused (bits : List C) (h : ∀ k, 3 ≤ k → bits.length ≠ 2 ^ k) (m : Mem C) (p : Nat) :
    dynArg bits = .error .panic ∧ ∃ e, m.writeDyn p bits = (m, .error e) := by
  have hb : dynToBytes bits = .error .panic := by
    unfold dynToBytes
    rw [if_neg]
    rintro ⟨h1, h2, h3⟩
    refine h (Nat.log2 bits.length) ?_ h2.symm
    by_contra hlt
    have : Nat.log2 bits.length = 0 ∨ Nat.log2 bits.length = 1 ∨ Nat.log2 bits.length = 2 := by omega
    rcases this with h | h | h <;> rw [h] at h2 <;> omega
  refine ⟨by unfold dynArg; rw [hb], ?_⟩
  unfold Mem.writeDyn
  split
  · exact ⟨_, rfl⟩
  · split
    · exact ⟨_, rfl⟩
    · split
      · exact ⟨_, rfl⟩
      · rw [hb]; exact ⟨_, rfl⟩

/-- **C120 (round trip).** If writing the integer at `p` succeeds, then reading as many bytes from `p`, immediately or after any history of operations that do not store into its bytes, gives the integer. -/
theorem C120_roundtrip (bits : List C) (m m' : Mem C) (p : Nat) (h : m.writeDyn p bits = (m', .ok ())) (ops : List (MemOp C)) (hops : ∀ op ∈ ops, ∀ a, p ≤ a → a < p + bits.length / 8 → op.avoids a) :
    (ops.foldl MemOp.run m').loadDyn p (bits.length / 8) (bits.length / 8) = .ok bits := by
  by_cases hw : ∃ k, 3 ≤ k ∧ bits.length = 2 ^ k
  · obtain ⟨k, hk, hl⟩ := hw
    rw [(C120_static k hk bits hl m p).2.1] at h
    rw [hl] at hops ⊢
    rw [(C120_static k hk bits hl _ p).2.2 bits]
    obtain ⟨⟨h0, _, h8⟩, _⟩ := dyn_width hk
    exact C31_roundtrip (.enc (2 ^ k)) bits ⟨by omega, h8⟩ hl m m' p h ops hops
  · obtain ⟨_, e, he⟩ := C120_refused bits (fun k hk hl => hw ⟨k, hk, hl⟩) m p
    rw [he] at h
    cases h

theorem cipherBits_ok : ∀ {bs : List (Byte C)} {x : List C}, cipherBits bs = .ok x → ∃ l : List (List C), bs = l.map .cipher ∧ x = l.flatten
  | [], x, h => by cases h; exact ⟨[], rfl, rfl⟩
  | .plain _ :: _, _, h => by cases h
  | .cipher b :: bs, x, h => by
    unfold cipherBits at h
    cases hr : cipherBits bs with
    | error e => rw [hr] at h; cases h
    | ok r =>
      rw [hr] at h
      cases h
      obtain ⟨l, h1, h2⟩ := cipherBits_ok hr
      exact ⟨b :: l, by rw [h1]; rfl, by rw [h2]; rfl⟩

theorem cipherBits_map : ∀ l : List (List C), cipherBits (l.map Byte.cipher) = .ok l.flatten
  | [] => rfl
  | b :: l => by simp only [List.map_cons, cipherBits, cipherBits_map l, List.flatten_cons]

/-- **C120 (reading).** When reading `n` bytes at `p` as an integer of dynamic width succeeds, `p` is aligned, every byte is encrypted, and the integer consists of the ciphertexts of the bytes, in order (so that a plaintext byte is refused); and it succeeds when moreover all
addresses up to and including `p + n` are mapped. -/
theorem C120_load (m : Mem C) (p al n : Nat) (x : List C) :
    (m.loadDyn p al n = .ok x → al ≠ 0 ∧ p % al = 0 ∧ ∃ l : List (List C), l.length = n ∧ x = l.flatten ∧ ∀ (i : Nat) (h : i < l.length), m.load (p + i) = .ok (.cipher l[i])) ∧
    (al ≠ 0 → p % al = 0 → p + n < 2 ^ 32 → (∀ a, p ≤ a → a ≤ p + n → ∃ b, m.load a = .ok b) → ∀ l : List (List C), l.length = n → (∀ (i : Nat) (h : i < l.length), m.load (p + i) = .ok (.cipher l[i])) →
      m.loadDyn p al n = .ok l.flatten) := by
  constructor
  · intro h
    unfold Mem.loadDyn Mem.readBytes at h
    by_cases h0 : al = 0
    · rw [if_pos h0] at h; cases h
    rw [if_neg h0] at h
    by_cases ha : p % al = 0
    · rw [if_neg (by simpa using ha)] at h
      cases hc : m.checkRange p n with
      | error e => rw [hc] at h; cases h
      | ok u =>
        rw [hc] at h
        simp only at h
        cases hr : m.loadAll p n 0 with
        | error e => rw [hr] at h; cases h
        | ok bs =>
          rw [hr] at h
          obtain ⟨l, rfl, rfl⟩ := cipherBits_ok h
          have hlen := (loadAll_parts p m _ _ hr).1
          rw [List.length_map] at hlen
          refine ⟨h0, ha, l, hlen, rfl, fun i hi => ?_⟩
          have := (loadAll_parts p m n 0 hr).2 i (by simpa using hi)
          simpa using this
    · rw [if_pos ha] at h; cases h
  · intro h0 ha hend hmap l hl hload
    unfold Mem.loadDyn Mem.readBytes
    rw [if_neg h0, if_neg (by simpa using ha)]
    have hc : m.checkRange p n = .ok () := by
      rw [checkRange_ok]
      refine ⟨hend, fun i h1 h2 => ?_⟩
      have := hmap (max p (i * 4096)) (by omega) (by omega)
      rw [load_isOk, pageId_eq (by omega)] at this
      rw [← this]; congr 2; omega
    rw [hc]
    simp only
    have := loadAll_of p m (l.map .cipher) 0 (by intro _; simp; omega) (by intro k hk; simp only [List.getElem_map, Nat.add_zero]; exact hload k (by simpa using hk))
    rw [List.length_map, hl] at this
    rw [this]
    exact cipherBits_map l

/-- non-vacuity: 16 bits written to page 1 and read back; 12 bits are refused; two bytes written one after the other read as one integer of 16 bits -/
def exDynMem : Mem Nat := ⟨fun i => if i = 1 then some freshPage else none, 8192⟩
example : ∃ m', exDynMem.writeDyn 4098 (List.range 16) = (m', .ok ()) ∧ m'.loadDyn 4098 2 2 = .ok (List.range 16) := ⟨_, rfl, rfl⟩
example : ∃ e, exDynMem.writeDyn 4098 (List.range 12) = (exDynMem, .error e) := (C120_refused _ (by
  intro k hk h
  obtain ⟨⟨_, _, h8⟩, _⟩ := dyn_width hk
  rw [← h] at h8
  simp at h8) _ _).2
example : ((exDynMem.writeDyn 4098 (List.range 8)).1.writeDyn 4099 ((List.range 8).map (· + 8))).1.loadDyn 4098 2 2 = .ok (List.range 16) := rfl

end Spf.Props
