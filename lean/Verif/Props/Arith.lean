import Verif.Prelude
import Verif.Lemmas.Arith
/-! Property theorems C01, C02. -/
set_option autoImplicit false
namespace Silice

/-- Specification: `k` is the ceiling of the base-2 logarithm of `n`, i.e. the least `k` with `n ≤ 2^k`. -/
def IsCLog2 (n : Nat) (k : Nat) : Prop := n ≤ 2 ^ k ∧ ∀ j, n ≤ 2 ^ j → k ≤ j

/-- C01. For every positive `n`, `clog2 n` is the least exponent whose power of two reaches `n`. -/
theorem C01_clog2_exact (n : Nat) (hn : 0 < n) : ∃ k : Nat, justHigherPow2 n = k ∧ IsCLog2 n k := by
  rw [justHigherPow2_pos n hn]
  have hlo : 2 ^ n.log2 ≤ n := Nat.log2_self_le (by omega)
  have hhi : n < 2 ^ (n.log2 + 1) := Nat.lt_log2_self
  split
  · rename_i h
    refine ⟨n.log2, rfl, by omega, fun j hj => ?_⟩
    have : 2 ^ n.log2 ≤ 2 ^ j := by omega
    exact (Nat.pow_le_pow_iff_right (by omega)).mp this
  · rename_i h
    refine ⟨n.log2 + 1, by simp, by omega, fun j hj => ?_⟩
    have : 2 ^ n.log2 < 2 ^ j := by omega
    have := (Nat.pow_lt_pow_iff_right (by omega)).mp this
    omega

/-- C01 (error side). For `n ≤ 0` the result is `-1`, which is not a width. -/
theorem C01_clog2_nonpos (n : Int) (hn : n ≤ 0) : justHigherPow2 n = -1 := by
  unfold justHigherPow2
  have : n.toNat = 0 := by omega
  rw [this, jhpLoop]; simp

/-- C01. A memory of `size` entries gets an address width that reaches every entry, and no smaller one would. -/
theorem C01_memory_address_reaches_all (size : Nat) (h : 0 < size) :
    ∃ w : Nat, memAddrWidth size = w ∧ (∀ a, a < size → a < 2 ^ w) ∧
      (∀ w', w' < w → ∃ a, a < size ∧ ¬ a < 2 ^ w') := by
  obtain ⟨k, hk, h1, h2⟩ := C01_clog2_exact size h
  refine ⟨k, hk, fun a ha => by omega, fun w' hw' => ⟨2 ^ w', ?_, by omega⟩⟩
  by_contra hc
  have := h2 w' (by omega)
  omega

/-- Finding recorded with C01: a memory with one entry gets an address port of width 0
(`[-1:0]` once printed as a range). -/
theorem C01_memory_of_one_entry_has_no_address_bit : memAddrWidth 1 = 0 := by decide +kernel

/-- Constants inlined by the compiler get a width that holds their value. -/
theorem C01_inlined_constant_fits (i : Nat) (hi : 0 < i) :
    ∃ w : Nat, defineConstWidth i = some (w : Int) ∧ i < 2 ^ w := by
  obtain ⟨k, hk, h1, _⟩ := C01_clog2_exact i hi
  refine ⟨1 + k, ?_, ?_⟩
  · unfold defineConstWidth
    rw [if_neg (by omega), hk]; rfl
  · have : (2:Nat) ^ (1 + k) = 2 * 2 ^ k := by rw [Nat.add_comm, Nat.pow_succ]; omega
    omega

/-- Largest number of states (or call sites) for which `width` stays inside 32-bit `int` shifts. -/
def maxWidthArg : Nat := 2 ^ 30

/-- C02. Binary encoding: the state register is declared with a width that holds every state index, and
it is the least such width (a single-state machine still gets one bit). -/
theorem C02_binary_register_holds_every_state (f : FsmNfo) (hb : f.oneHot = false)
    (h0 : 0 < f.maxState) (hm : f.maxState ≤ maxWidthArg) :
    ∃ w, rootIndexBits f = some w ∧ 0 < w ∧
      (∀ s, s < f.maxState → ∃ c, toFSMState f s = some c ∧ c < 2 ^ w) ∧
      (∀ w', 0 < w' → (∀ s, s < f.maxState → s < 2 ^ w') → w ≤ w') := by
  have hto : ∀ s, toFSMState f s = some s := by intro s; simp [toFSMState, hb]
  by_cases h1 : f.maxState = 1
  · refine ⟨1, ?_, by omega, fun s hs => ⟨s, hto s, by omega⟩, fun w' h _ => h⟩
    simp [rootIndexBits, hb, stateWidth, width, h1]
  · obtain ⟨r, hr, h3, h4⟩ := width_some f.maxState (by omega) hm
    refine ⟨r, ?_, ?_, fun s hs => ⟨s, hto s, by omega⟩, fun w' _ h => ?_⟩
    · simp [rootIndexBits, hb, stateWidth, hr]
    · rcases Nat.eq_zero_or_pos r with h | h
      · subst h; simp at h3; omega
      · exact h
    · apply h4
      have := h (f.maxState - 1) (by omega)
      omega

/-- C02. One-hot encoding: up to 31 states, the register holds every encoded state. -/
theorem C02_onehot_register_holds_every_state_partial (f : FsmNfo) (hb : f.oneHot = true)
    (hm : f.maxState ≤ 31) :
    ∃ w, rootIndexBits f = some w ∧ ∀ s, s < f.maxState → ∃ c, toFSMState f s = some c ∧ c < 2 ^ w := by
  refine ⟨f.maxState, by simp [rootIndexBits, hb], fun s hs => ⟨2 ^ s, ?_, ?_⟩⟩
  · simp [toFSMState, hb]; omega
  · exact Nat.pow_lt_pow_right (by omega) hs

/-- C02. Negation for large one-hot machines: from 32 states on, some reachable state index has no defined
encoding (the compiler shifts a 32-bit `int` by 31 or more). -/
theorem C02_onehot_undefined_from_32_states (f : FsmNfo) (hb : f.oneHot = true) (hm : 32 ≤ f.maxState) :
    ∃ s, s < f.maxState ∧ toFSMState f s = none :=
  ⟨31, by omega, by simp [toFSMState, hb]⟩

/-- C02. Distinct states have distinct encodings (both encodings). -/
theorem C02_encodings_distinct (f : FsmNfo) (s t c : Nat)
    (hs : toFSMState f s = some c) (ht : toFSMState f t = some c) : s = t := by
  unfold toFSMState at hs ht
  split at hs
  · simp_all
  · rename_i h
    rw [if_neg h] at ht
    split at hs <;> simp at hs
    split at ht <;> simp at ht
    have : 2 ^ s = 2 ^ t := by omega
    exact (Nat.pow_right_inj (by omega)).mp this

/-- C02. The caller id register holds every caller id. -/
theorem C02_caller_register_holds_every_id (n : Nat) (h0 : 0 < n) (hm : n ≤ maxWidthArg) :
    ∃ w, callerIdBits n = some w ∧ ∀ id, id < n → id < 2 ^ w := by
  by_cases h1 : n = 1
  · subst h1; exact ⟨1, by decide, fun id h => by omega⟩
  · obtain ⟨r, hr, h3, _⟩ := width_some n (by omega) hm
    exact ⟨r, hr, fun id h => by omega⟩

/-- Beyond `2^30` the width computation leaves the range of `int`. -/
theorem C02_width_undefined_beyond (n : Nat) (hm : maxWidthArg < n) : width n = none := by
  unfold width maxWidthArg at *
  rw [if_neg (by omega), if_neg (by omega)]
  exact widthLoop_none n hm 31 0 rfl

/-! Non-vacuity -/
example : justHigherPow2 5 = 3 ∧ IsCLog2 5 3 := by
  refine ⟨by decide +kernel, by decide, fun j hj => ?_⟩
  by_contra h
  have : (2:Nat) ^ j ≤ 2 ^ 2 := Nat.pow_le_pow_right (by omega) (by omega)
  omega
example : (0:Nat) < 1000 ∧ justHigherPow2 1000 = 10 := by decide +kernel
example : ({ maxState := 5, oneHot := false } : FsmNfo).maxState ≤ maxWidthArg ∧
    rootIndexBits { maxState := 5, oneHot := false } = some 3 := by decide +kernel
example : rootIndexBits { maxState := 5, oneHot := true } = some 5 ∧
    toFSMState { maxState := 5, oneHot := true } 4 = some 16 := by decide +kernel
example : callerIdBits 3 = some 2 := by decide +kernel

end Silice
