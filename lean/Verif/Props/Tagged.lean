import Verif.Model.Tagged
/-
C32 (pointer tags).
-/
namespace Contrie

/-- An address of an object aligned to `2 ^ n`. -/
def Aligned (n : Nat) (a : BitVec 64) : Prop := a.toNat % 2 ^ n = 0

theorem lowBits_bit (n i : Nat) (hi : i < 64) : (lowBits n).getLsbD i = decide (i < n) := by
  rw [lowBits, BitVec.getLsbD_ofNat, Nat.testBit_two_pow_sub_one]
  simp [hi]

theorem Aligned.bit {n : Nat} {a : BitVec 64} (h : Aligned n a) {i : Nat} (hi : i < n) : a.getLsbD i = false := by
  have : (a.toNat % 2 ^ n).testBit i = false := by rw [h]; exact Nat.zero_testBit i
  rw [Nat.testBit_mod_two_pow] at this
  simpa [hi, BitVec.getLsbD] using this

theorem Flags.bits_bit (f : Flags) (i : Nat) (hi : i < 64) :
    f.bits.getLsbD i = ((decide (i = 0) && f.cond) || (decide (i = 1) && f.data)) := by
  have key : ∀ (f0 f1 : Bool) (i : Fin 64), (Flags.bits ⟨f0, f1⟩).getLsbD i.val =
      ((decide (i.val = 0) && f0) || (decide (i.val = 1) && f1)) := by decide
  exact key f.cond f.data ⟨i, hi⟩

section
variable {n : Nat} (hn : 2 ≤ n)
include hn

omit hn in
theorem rawOf_compose {a : BitVec 64} (ha : Aligned n a) (f : Flags) : rawOf n (composeTag n a f.bits) = a := by
  apply BitVec.eq_of_getLsbD_eq
  intro i hi
  simp only [rawOf, composeTag, BitVec.getLsbD_and, BitVec.getLsbD_or, BitVec.getLsbD_not, lowBits_bit n i hi, hi]
  by_cases h : i < n
  · simp [h, ha.bit h]
  · simp [h]

theorem tagOf_compose {a : BitVec 64} (f : Flags) : tagOf n (composeTag n a f.bits) = f.bits := by
  apply BitVec.eq_of_getLsbD_eq
  intro i hi
  simp only [tagOf, composeTag, BitVec.getLsbD_and, BitVec.getLsbD_or, BitVec.getLsbD_not, lowBits_bit n i hi, hi,
    f.bits_bit i hi]
  by_cases h : i < n
  · simp [h]
  · have h0 : i ≠ 0 := by omega
    have h1 : i ≠ 1 := by omega
    simp [h, h0, h1]

omit hn in
theorem fromBits_bits (f : Flags) : Flags.fromBits f.bits = some f := by
  rcases f with ⟨_ | _, _ | _⟩ <;> decide

omit hn in
theorem bits_inj {f g : Flags} (h : f.bits = g.bits) : f = g := by
  have := fromBits_bits f
  rw [h, fromBits_bits] at this
  injection this with this
  exact this.symm

/-- **C32**, on words: for nodes aligned to `2 ^ n`, `n ≥ 2` (what `Raw::with_hasher` asserts), an aligned address and a set of flags
survive being put into one word: the address is read back whatever the flags, the flags are read back whatever the address (so `nf` does not panic),
replacing the flags of a word keeps its address, and two such words are equal exactly if addresses and flags are. -/
theorem C32_address_and_flags (a b : BitVec 64) (ha : Aligned n a) (hb : Aligned n b) (f g : Flags) :
    rawOf n (composeTag n a f.bits) = a ∧
    nf n (composeTag n a f.bits) = some f ∧
    composeTag n (composeTag n a f.bits) g.bits = composeTag n a g.bits ∧
    (isNull n (composeTag n a f.bits) = true ↔ a = 0) ∧
    fetchOr n (composeTag n a f.bits) CONDEMNED = composeTag n a ({ f with cond := true } : Flags).bits ∧
    (composeTag n a f.bits = composeTag n b g.bits ↔ a = b ∧ f = g) := by
  refine ⟨rawOf_compose ha f, ?_, ?_, ?_, ?_, ?_⟩
  · rw [nf, tagOf_compose hn, fromBits_bits]
  · have h1 := rawOf_compose ha f
    rw [rawOf] at h1
    rw [composeTag, h1]
    have h2 : a &&& ~~~ lowBits n = a := by
      have := rawOf_compose ha ⟨false, false⟩
      apply BitVec.eq_of_getLsbD_eq
      intro i hi
      simp only [BitVec.getLsbD_and, BitVec.getLsbD_not, lowBits_bit n i hi, hi]
      by_cases h : i < n
      · simp [h, ha.bit h]
      · simp [h]
    rw [composeTag, h2]
  · simp [isNull, rawOf_compose ha f]
  · apply BitVec.eq_of_getLsbD_eq
    intro i hi
    simp only [fetchOr, composeTag, BitVec.getLsbD_and, BitVec.getLsbD_or, BitVec.getLsbD_not, lowBits_bit n i hi, hi,
      Flags.bits_bit _ i hi]
    have hc : CONDEMNED.getLsbD i = decide (i = 0) := by
      have := Flags.bits_bit ⟨true, false⟩ i hi
      simpa [Flags.bits] using this
    rw [hc]
    by_cases h : i < n
    · by_cases h0 : i = 0
      · subst h0; simp [h]
      · simp [h, h0]
    · have h0 : i ≠ 0 := by omega
      simp [h, h0]
  · constructor
    · intro h
      have h1 := rawOf_compose ha f
      rw [h, rawOf_compose hb g] at h1
      have h2 := tagOf_compose hn (a := a) f
      rw [h, tagOf_compose hn] at h2
      exact ⟨h1.symm, (bits_inj h2).symm⟩
    · rintro ⟨rfl, rfl⟩; rfl

/-- **C32**, for the pointers of the model (`Word`): if the nodes two pointers lead to live at non-zero, aligned addresses, different nodes at
different ones, then the operations of the model on tagged pointers - taking off and setting the condemned flag, reading the flags, testing for null, and the
comparison made by a CAS - are exactly what the machine does with the words. -/
theorem C32_words (addr : Nat → BitVec 64) (w v : Word)
    (hw : ∀ a, w.ptr = some a → Aligned n (addr a) ∧ addr a ≠ 0) (hv : ∀ a, v.ptr = some a → Aligned n (addr a) ∧ addr a ≠ 0)
    (hinj : ∀ a b, w.ptr = some a → v.ptr = some b → addr a = addr b → a = b) :
    (w.pack n addr = v.pack n addr ↔ w = v) ∧
    nf n (w.pack n addr) = some ⟨w.cond, w.data⟩ ∧
    (isNull n (w.pack n addr) = true ↔ w.ptr = none) ∧
    (∀ a, w.ptr = some a → rawOf n (w.pack n addr) = addr a) ∧
    fetchOr n (w.pack n addr) CONDEMNED = w.condemn.pack n addr ∧
    composeTag n (w.pack n addr) (Flags.bits ⟨false, w.data⟩) = w.erase.pack n addr ∧
    Word.null.pack n addr = 0 := by
  have hA : ∀ u : Word, (∀ a, u.ptr = some a → Aligned n (addr a) ∧ addr a ≠ 0) →
      Aligned n (u.addr addr) ∧ (u.addr addr = 0 ↔ u.ptr = none) := by
    intro u hu
    cases h : u.ptr with
    | none => simp [Word.addr, h, Aligned]
    | some a =>
      have := hu a h
      simp only [Word.addr, h, reduceCtorEq, iff_false]; exact this
  obtain ⟨hwa, hwn⟩ := hA w hw
  obtain ⟨hva, hvn⟩ := hA v hv
  have hP : w.addr addr = v.addr addr → w.ptr = v.ptr := by
    intro h
    cases hwp : w.ptr with
    | none => rw [hwn.mpr hwp] at h; exact (hvn.mp h.symm).symm
    | some a =>
      cases hvp : v.ptr with
      | none => rw [hvn.mpr hvp, hwn, hwp] at h; cases h
      | some b =>
        rw [hinj a b hwp hvp (by simpa [Word.addr, hwp, hvp] using h)]
  obtain ⟨w1, w2, w3, w4, w5, w6⟩ := C32_address_and_flags hn _ _ hwa hva ⟨w.cond, w.data⟩ ⟨v.cond, v.data⟩
  refine ⟨?_, w2, ?_, ?_, w5, ?_, ?_⟩
  · rw [Word.pack, Word.pack, w6]
    constructor
    · rintro ⟨h1, h2⟩
      have h3 := hP h1
      rcases w with ⟨p, c, d⟩; rcases v with ⟨p', c', d'⟩
      simp only [Flags.mk.injEq] at h2 h3
      simp [h2, h3]
    · rintro rfl; exact ⟨rfl, rfl⟩
  · rw [Word.pack, w4, hwn]
  · intro a h
    rw [Word.pack, w1, Word.addr, h]
  · exact (C32_address_and_flags hn _ _ hwa hva ⟨w.cond, w.data⟩ ⟨false, w.data⟩).2.2.1
  · simp [Word.pack, Word.null, Word.addr, composeTag, Flags.bits]

end

/-! ### The hypotheses can be met -/

/-- Two nodes, aligned to 16 bytes; the words of a condemned pointer to the first and a data pointer to the second. -/
example : Aligned 4 0x7f00001230#64 ∧ Aligned 4 0x10#64 ∧
    composeTag 4 0x7f00001230#64 (Flags.bits ⟨true, true⟩) = 0x7f00001233#64 := by
  refine ⟨by rw [Aligned]; decide, by rw [Aligned]; decide, by decide⟩

/-- Nodes `a` of 128 bytes one after the other. -/
def exAddr (a : Nat) : BitVec 64 := BitVec.ofNat 64 (0x1000 + 128 * a)

example : ∀ w v : Word, w = ⟨some 3, true, false⟩ → v = ⟨some 700, false, true⟩ →
    (∀ a, w.ptr = some a → Aligned 3 (exAddr a) ∧ exAddr a ≠ 0) ∧ (∀ a, v.ptr = some a → Aligned 3 (exAddr a) ∧ exAddr a ≠ 0) ∧
    (∀ a b, w.ptr = some a → v.ptr = some b → exAddr a = exAddr b → a = b) := by
  rintro w v rfl rfl
  refine ⟨?_, ?_, ?_⟩
  · rintro a h; injection h with h; subst h; constructor <;> simp [Aligned, exAddr]
  · rintro a h; injection h with h; subst h; constructor <;> simp [Aligned, exAddr]
  · rintro a b h1 h2; injection h1 with h1; injection h2 with h2; subst h1 h2; simp [exAddr]

end Contrie
