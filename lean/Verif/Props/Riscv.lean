import Verif.Lemmas.Riscv

/-!
# C39: addresses of the ports of RISC-V units
-/

set_option autoImplicit false

namespace Silice

/-- **C39, addresses.** In every accepted unit, whatever the size of the memory and the number of ports: there is one address per port;
it is above the memory, aligned, and fits in the address width of the bus once turned into a word address; the word address has the
bit set that marks ports, and among the select bits of all ports exactly the one of this port. -/
theorem C39_address {u : RUnit} (h : Accepted u) :
    u.addrs.length = u.ports.length ∧
    ∀ (k a : Nat), u.addrs[k]? = some a →
      u.mem ≤ a ∧ a % 4 = 0 ∧ a < 2 ^ 31 ∧ ((a / 4 : Nat) : Int) < 2 ^ u.soc.addrW.toNat ∧
      addrBit (a / 4) u.soc.external = true ∧
      ∀ j : Nat, j < u.ports.length → (addrBit (a / 4) j = true ↔ j = k) := by
  obtain ⟨e, F⟩ := accepted_facts h
  refine ⟨F.addrs, fun k a ha => ?_⟩
  have hk : k < u.ports.length := F.addrs ▸ (List.getElem?_eq_some_iff.mp ha).1
  have hke : k < e := by
    have := F.room (by intro hc; rw [hc] at hk; simp at hk)
    omega
  have hle : u.ports.length < e := F.room (by intro hc; rw [hc] at hk; simp at hk)
  have hae := F.addr k a ha
  have hlo : 2 ^ (e + 2) ≤ a := by rw [hae]; exact Nat.left_le_or
  have hdiv : a / 4 = 2 ^ e ||| 2 ^ k := by rw [hae]; exact ioAddr_div e k
  refine ⟨le_trans F.least.1 hlo, ?_, ?_, ?_, ?_, ?_⟩
  · rw [hae]
    apply Nat.eq_of_testBit_eq
    intro j
    rw [show (4 : Nat) = 2 ^ 2 from rfl, Nat.testBit_mod_two_pow, Nat.testBit_or, Nat.testBit_two_pow, Nat.testBit_two_pow,
      Nat.zero_testBit]
    by_cases hj : j < 2
    · have h1 : ¬ e + 2 = j := by omega
      have h2 : ¬ k + 2 = j := by omega
      simp [h1, h2]
    · simp [hj]
  · rw [hae]
    have := F.small
    exact Nat.or_lt_two_pow (Nat.pow_lt_pow_right (by omega) (by omega)) (Nat.pow_lt_pow_right (by omega) (by omega))
  · rw [F.addrW, hdiv]
    have := ioAddr_lt hke
    have e1 : ((e : Int) + 1).toNat = e + 1 := by omega
    rw [e1]
    exact_mod_cast this
  · rw [F.external, hdiv, addrBit_io]
    exact Or.inl rfl
  · intro j hj
    rw [hdiv, addrBit_io]
    constructor
    · rintro (h | h) <;> omega
    · intro h; exact Or.inr h

/-- **C39, memory.** The addresses of the memory never have the bit set that marks ports, reach every word of the memory, and the part
kept for the stack lies within it. -/
theorem C39_memory {u : RUnit} (h : Accepted u) :
    0 < u.stack ∧ u.stack < u.mem ∧
    ∀ a, a < u.mem → addrBit (a / 4) u.soc.external = false ∧ ((a / 4 : Nat) : Int) < u.soc.memsz := by
  obtain ⟨e, F⟩ := accepted_facts h
  obtain ⟨m, hm, hmem⟩ := F.mem
  refine ⟨F.stack.1, F.stack.2.2, fun a ha => ⟨?_, ?_⟩⟩
  · rw [F.external]
    refine addrBit_ram ?_
    have := F.least.1
    rw [pow_add] at this
    omega
  · rw [F.memsz, hmem]
    push_cast
    omega

/-- Bus access to the address of a port. -/
theorem busAt_io {u : RUnit} (h : Accepted u) {k a : Nat} (ha : u.addrs[k]? = some a) (m d : Nat) :
    (busAt u.soc a m d).addr = a / 4 := by
  have := ((C39_address h).2 k a ha).2.2.2.1
  unfold busAt
  simp only
  exact Nat.mod_eq_of_lt (by exact_mod_cast this)

theorem busAt_ram {u : RUnit} (h : Accepted u) {a : Nat} (ha : a < u.mem) (m d : Nat) :
    (busAt u.soc a m d).addr = a / 4 := by
  obtain ⟨e, F⟩ := accepted_facts h
  have := F.least.1
  unfold busAt
  simp only
  refine Nat.mod_eq_of_lt ?_
  rw [F.addrW]
  have e1 : ((e : Int) + 1).toNat = e + 1 := by omega
  rw [e1, pow_add]
  rw [pow_add] at this
  omega

/-- **C39, reads.** Reading the address of an input gives the processor in the next cycle the value of this input in that cycle, alone,
whatever the processor then does. -/
theorem C39_read {u : RUnit} (h : Accepted u) {k a : Nat} (ha : u.addrs[k]? = some a)
    {p : RPort} (hp : u.ports[k]? = some p) (hk : p.kind = .input) (ins ins' : String → Nat) (ram ram' d : Nat) (b' : BusAcc)
    (s : SocSt) :
    (socStep u ins' ram' b' (socStep u ins ram (busAt u.soc a 0 d) s).2).1.rdata = ins' p.name % 2 ^ 32 := by
  obtain ⟨_, H⟩ := C39_address h
  obtain ⟨_, _, _, _, hext, hsel⟩ := H k a ha
  obtain ⟨e, F⟩ := accepted_facts h
  obtain ⟨c, L, hr, _, _⟩ := F.loop
  have hb := busAt_io h ha 0 d
  have hw : (busAt u.soc a 0 d).wmask = 0 := rfl
  simp only [socStep, hb, hw, hext, bne_self_eq_false, Bool.not_false, Bool.and_self, if_true]
  congr 1
  unfold ioReads
  refine ioReads_one ?_ ?_
  · rintro ⟨i, q⟩ hm hbit
    rcases (L.reads i q).mp hm with h0 | ⟨j, hj, hij, _⟩
    · rw [hr] at h0; simp at h0
    · rw [Nat.zero_add] at hij
      subst hij
      have hlt := (List.getElem?_eq_some_iff.mp hj).1
      have := (hsel i hlt).mp hbit
      subst this
      rw [hp, Option.some.injEq] at hj
      rw [hj]
  · exact ⟨(k, p), (L.reads k p).mpr (Or.inr ⟨k, hp, by omega, hk⟩),
      (hsel k (List.getElem?_eq_some_iff.mp hp).1).mpr rfl⟩

/-- An output written by software is in the list of writes, at its index. -/
theorem write_entry {u : RUnit} {e : Nat} (F : UnitFacts u e) (hd : DistinctNames u.ports) {q : RPort}
    (hq : PlainOutput u.ports q) {k : Nat} (hk : u.ports[k]? = some q) :
    (k, q) ∈ u.soc.writes ∧ (∀ w ∈ u.soc.writes, w.2.name = q.name → w = (k, q)) ∧ ∀ t ∈ u.soc.triggers, t.1 ≠ q.name := by
  obtain ⟨c, L, _, hw, ht⟩ := F.loop
  have hnone : accessedBy u.ports q.name = none := by
    cases hc : accessedBy u.ports q.name with
    | none => rfl
    | some x =>
      obtain ⟨h1, h2⟩ := accessedBy_some hc
      obtain ⟨y, hy, rfl⟩ := List.mem_map.mp h2
      exact absurd h1 (hq.2.2 y hy)
  refine ⟨(L.writes k q).mpr (Or.inr ⟨k, hk, by omega, hq.2.1, hnone⟩), ?_, ?_⟩
  · rintro ⟨i, p⟩ hm hn
    rcases (L.writes i p).mp hm with h0 | ⟨j, hj, hij, _⟩
    · rw [hw] at h0; simp at h0
    · obtain ⟨rfl, rfl⟩ := index_of_name hd hj hk hn
      rw [hij, Nat.zero_add]
  · rintro ⟨n, i, b⟩ hm hn
    rcases (L.triggers n i b).mp hm with h0 | ⟨p, _, _, _, x, hx, _⟩
    · rw [ht] at h0; simp at h0
    · simp only at hn
      rw [hn, hnone] at hx
      cases hx

/-- **C39, writes.** Writing to the address of an output gives it the data, cut to its width; all the other outputs written by
software keep their value, and the memory is not written. -/
theorem C39_write {u : RUnit} (h : Accepted u) (hd : DistinctNames u.ports) {k a : Nat} (ha : u.addrs[k]? = some a)
    {p : RPort} (hp : u.ports[k]? = some p) (hpo : PlainOutput u.ports p) (ins : String → Nat) (ram d m : Nat)
    (hm : m % 16 ≠ 0) (s : SocSt) :
    let r := socStep u ins ram (busAt u.soc a m d) s
    r.2.outs p.name = d % 2 ^ 32 % 2 ^ p.width ∧
    (∀ q, PlainOutput u.ports q → q ≠ p → r.2.outs q.name = s.outs q.name) ∧ r.1.ramMask = 0 := by
  obtain ⟨_, H⟩ := C39_address h
  obtain ⟨_, _, _, _, hext, hsel⟩ := H k a ha
  obtain ⟨e, F⟩ := accepted_facts h
  have hb := busAt_io h ha m d
  have hwm : ((busAt u.soc a m d).wmask != 0) = true := by simpa [busAt] using hm
  have hwd : (busAt u.soc a m d).wdata = d % 2 ^ 32 := rfl
  simp only [socStep, hb, hwm, hwd, hext, Bool.and_self, if_true, and_true]
  obtain ⟨h1, h2, h3⟩ := write_entry F hd hpo hp
  refine ⟨?_, fun q hq hqp => ?_⟩
  · refine setOutputs_hit (fun w hw hn => ?_) ⟨(k, p), h1, rfl⟩
    have := h2 w hw hn
    subst this
    exact ⟨rfl, (hsel k (List.getElem?_eq_some_iff.mp hp).1).mpr rfl⟩
  · obtain ⟨j, hj⟩ := List.mem_iff_getElem?.mp hq.1
    obtain ⟨_, g2, g3⟩ := write_entry F hd hq hj
    rw [setOutputs_other, setTriggers_other g3]
    intro w hw hn
    have := g2 w hw hn
    subst this
    simp only
    cases hbit : addrBit (a / 4) (j : Int) with
    | false => rfl
    | true =>
      have := (hsel j (List.getElem?_eq_some_iff.mp hj).1).mp hbit
      subst this
      rw [hp, Option.some.injEq] at hj
      exact absurd hj.symm hqp

/-- **C39, memory accesses.** An access to the memory reaches it with its mask, changes no output written by software, and what is read
comes from the memory in the next cycle. -/
theorem C39_memory_access {u : RUnit} (h : Accepted u) (hd : DistinctNames u.ports) {a : Nat} (ha : a < u.mem)
    (ins ins' : String → Nat) (ram ram' d m : Nat) (b' : BusAcc) (s : SocSt) :
    let r := socStep u ins ram (busAt u.soc a m d) s
    r.1.ramMask = m % 16 ∧ r.1.ramAddr = a / 4 ∧ (∀ q, PlainOutput u.ports q → r.2.outs q.name = s.outs q.name) ∧
    (socStep u ins' ram' b' r.2).1.rdata = ram' := by
  obtain ⟨e, F⟩ := accepted_facts h
  have hext := ((C39_memory h).2.2 a ha).1
  have hb := busAt_ram h ha m d
  have hw : (busAt u.soc a m d).wmask = m % 16 := rfl
  simp only [socStep, hb, hw, hext, Bool.false_and, Bool.false_eq_true, if_false, true_and, and_true]
  intro q hq
  obtain ⟨j, hj⟩ := List.mem_iff_getElem?.mp hq.1
  exact setTriggers_other (write_entry F hd hq hj).2.2

/-- The entry of an output that reports accesses. -/
theorem trigger_entry {u : RUnit} {e : Nat} (F : UnitFacts u e) (hd : DistinctNames u.ports) {p x : RPort}
    (hr : Reports u.ports p x) {k : Nat} (hx : u.ports[k]? = some x) :
    (p.name, k, decide (x.kind = .output)) ∈ u.soc.triggers ∧
    (∀ t ∈ u.soc.triggers, t.1 = p.name → t = (p.name, k, decide (x.kind = .output))) ∧
    ∀ w ∈ u.soc.writes, w.2.name ≠ p.name := by
  obtain ⟨c, L, _, hw, ht⟩ := F.loop
  obtain ⟨hp, hxm, hpk, hn⟩ := hr
  have hacc : accessedBy u.ports p.name = some x.name := by
    rw [hn]; exact accessedBy_on (List.mem_map.mpr ⟨x, hxm, rfl⟩)
  have hkind := accessedKind_of hd hxm (F.kinds x hxm)
  refine ⟨(L.triggers _ _ _).mpr (Or.inr ⟨p, hp, rfl, hpk, x.name, hacc, ioIndex_of hd hx, ?_⟩), ?_, ?_⟩
  · rw [hkind]
    cases hk : x.kind with
    | input => simp
    | output => simp
    | inout => exact absurd hk (F.kinds x hxm)
  · rintro ⟨n, i, b⟩ hm he
    simp only at he
    subst he
    rcases (L.triggers _ i b).mp hm with h0 | ⟨q, _, _, _, y, hy, hi, hb⟩
    · rw [ht] at h0; simp at h0
    · rw [hacc, Option.some.injEq] at hy
      subst hy
      rw [ioIndex_of hd hx, Option.some.injEq] at hi
      subst hi
      rw [hkind] at hb
      cases b with
      | true => simp only [if_true] at hb; simp [hb]
      | false => simp only [Bool.false_eq_true, if_false] at hb; simp [hb]
  · rintro ⟨i, q⟩ hm he
    rcases (L.writes i q).mp hm with h0 | ⟨j, _, _, _, hq⟩
    · rw [hw] at h0; simp at h0
    · simp only at he
      rw [he, hacc] at hq
      cases hq

/-- **C39, access reports on outputs.** The output named after another output is 1 exactly in the cycles where software writes to the
address of the other output, among all accesses to ports and memory. -/
theorem C39_report_write {u : RUnit} (h : Accepted u) (hd : DistinctNames u.ports) {p x : RPort} (hr : Reports u.ports p x)
    (hxo : x.kind = .output) {k : Nat} (hx : u.ports[k]? = some x) (ins : String → Nat) (ram d m : Nat) (s : SocSt) {a : Nat}
    (ha : a < u.mem ∨ a ∈ u.addrs) :
    (socStep u ins ram (busAt u.soc a m d) s).2.outs p.name = if m % 16 ≠ 0 ∧ u.addrs[k]? = some a then 1 else 0 := by
  obtain ⟨e, F⟩ := accepted_facts h
  obtain ⟨h1, h2, h3⟩ := trigger_entry F hd hr hx
  have hstep : (socStep u ins ram (busAt u.soc a m d) s).2.outs p.name =
      if (addrBit (busAt u.soc a m d).addr u.soc.external && (m % 16 != 0)) && addrBit (busAt u.soc a m d).addr k then 1 else 0 := by
    have hset : ∀ iw ir, setTriggers (busAt u.soc a m d).addr s.prevAddr iw ir u.soc.triggers s.outs p.name =
        if iw && addrBit (busAt u.soc a m d).addr k then 1 else 0 := by
      intro iw ir
      rw [setTriggers_hit h2 h1]
      simp [hxo]
    have hw : (busAt u.soc a m d).wmask = m % 16 := rfl
    simp only [socStep, hw]
    generalize hio : (addrBit (busAt u.soc a m d).addr u.soc.external && (m % 16 != 0)) = iw
    cases iw with
    | true =>
      simp only [if_true]
      rw [setOutputs_other fun w hw hn => absurd hn (h3 w hw), hset]
    | false =>
      simp only [Bool.false_eq_true, if_false]
      rw [hset]
  rw [hstep]
  obtain ⟨hlen, H⟩ := C39_address h
  have hkl : k < u.ports.length := (List.getElem?_eq_some_iff.mp hx).1
  rcases ha with ha | ha
  · have hext := ((C39_memory h).2.2 a ha).1
    rw [busAt_ram h ha, hext, if_neg (by simp), if_neg]
    rintro ⟨_, hc⟩
    have := (H k a hc).1
    omega
  · obtain ⟨i, hi⟩ := List.mem_iff_getElem?.mp ha
    obtain ⟨_, _, _, _, hext, hsel⟩ := H i a hi
    rw [busAt_io h hi, hext]
    by_cases hik : k = i
    · subst hik
      rw [(hsel k hkl).mpr rfl]
      by_cases hm : m % 16 = 0 <;> simp [hm, hi]
    · have hf : addrBit (a / 4) (k : Int) = false := by
        cases hc : addrBit (a / 4) (k : Int) with
        | false => rfl
        | true => exact absurd ((hsel k hkl).mp hc) hik
      rw [hf, if_neg (by simp), if_neg]
      rintro ⟨_, hc⟩
      have := ((H k a hc).2.2.2.2.2 k hkl).mpr rfl
      rw [hf] at this
      cases this

/-- **C39, access reports on inputs.** The output named after an input is 1 exactly in the cycle after software reads the address of
the input, i.e. in the cycle where the processor gets the value. -/
theorem C39_report_read {u : RUnit} (h : Accepted u) (hd : DistinctNames u.ports) {p x : RPort} (hr : Reports u.ports p x)
    (hxi : x.kind = .input) {k : Nat} (hx : u.ports[k]? = some x) (ins ins' : String → Nat) (ram ram' d m : Nat) (b' : BusAcc)
    (s : SocSt) {a : Nat} (ha : a < u.mem ∨ a ∈ u.addrs) :
    (socStep u ins' ram' b' (socStep u ins ram (busAt u.soc a m d) s).2).2.outs p.name =
      if m % 16 = 0 ∧ u.addrs[k]? = some a then 1 else 0 := by
  obtain ⟨e, F⟩ := accepted_facts h
  obtain ⟨h1, h2, h3⟩ := trigger_entry F hd hr hx
  have hstep : ∀ s' : SocSt, (socStep u ins' ram' b' s').2.outs p.name =
      if (addrBit s'.prevAddr u.soc.external && !s'.prevRw) && addrBit s'.prevAddr k then 1 else 0 := by
    intro s'
    have hset : ∀ iw ir, setTriggers b'.addr s'.prevAddr iw ir u.soc.triggers s'.outs p.name =
        if ir && addrBit s'.prevAddr k then 1 else 0 := by
      intro iw ir
      rw [setTriggers_hit h2 h1]
      simp [hxi]
    simp only [socStep]
    generalize hio : (addrBit b'.addr u.soc.external && (b'.wmask != 0)) = iw
    cases iw with
    | true =>
      simp only [if_true]
      rw [setOutputs_other fun w hw hn => absurd hn (h3 w hw), hset]
    | false =>
      simp only [Bool.false_eq_true, if_false]
      rw [hset]
  rw [hstep]
  obtain ⟨hlen, H⟩ := C39_address h
  have hkl : k < u.ports.length := (List.getElem?_eq_some_iff.mp hx).1
  have hrw : (socStep u ins ram (busAt u.soc a m d) s).2.prevRw = (m % 16 != 0) := rfl
  have hpa : (socStep u ins ram (busAt u.soc a m d) s).2.prevAddr = (busAt u.soc a m d).addr := rfl
  rw [hrw, hpa]
  rcases ha with ha | ha
  · have hext := ((C39_memory h).2.2 a ha).1
    rw [busAt_ram h ha, hext, if_neg (by simp), if_neg]
    rintro ⟨_, hc⟩
    have := (H k a hc).1
    omega
  · obtain ⟨i, hi⟩ := List.mem_iff_getElem?.mp ha
    obtain ⟨_, _, _, _, hext, hsel⟩ := H i a hi
    rw [busAt_io h hi, hext]
    by_cases hik : k = i
    · subst hik
      rw [(hsel k hkl).mpr rfl]
      by_cases hm : m % 16 = 0 <;> simp [hm, hi]
    · have hf : addrBit (a / 4) (k : Int) = false := by
        cases hc : addrBit (a / 4) (k : Int) with
        | false => rfl
        | true => exact absurd ((hsel k hkl).mp hc) hik
      rw [hf, if_neg (by simp), if_neg]
      rintro ⟨_, hc⟩
      have := ((H k a hc).2.2.2.2.2 k hkl).mpr rfl
      rw [hf] at this
      cases this

/-- **C39, refusals.** For a memory of `4 * m` bytes with `2 ^ (e + 2)` the least power of two that holds it (and at most `2 ^ 30`), the
addresses are refused exactly when there are ports and not fewer than `e`. One port fewer than the bus has room for: with exactly `e`
ports every port would still have its own bit below the one that marks ports. -/
theorem C39_refused {m e : Nat} (hm : 0 < m) (he : justHigherPow2 m = e) (hs : e + 2 < 31) (ports : List RPort) :
    (∃ as, cHeader ((4 * m : Nat) : Int) ports = some (.ok as)) ↔ (ports ≠ [] → ports.length < e) := by
  have hp : periphBit ((4 * m : Nat) : Int) = (e + 2 : Nat) := by
    unfold periphBit
    rw [jhp_four m hm, he]; push_cast; rfl
  have hb : 1 <<< (((e + 2 : Nat) : Int)).toNat = 2 ^ (e + 2) := by rw [Nat.shiftLeft_eq, Nat.one_mul]; rfl
  unfold cHeader
  rw [hp, if_neg (by omega), hb]
  constructor
  · rintro ⟨as, h⟩ hne
    rw [Option.some.injEq] at h
    have := (ioAddresses_spec (e + 2) ports 0 as h).2.1 hne
    omega
  · intro h
    obtain ⟨as, ha⟩ := ioAddresses_total (e + 2) ports 0 (fun hne => by have := h hne; omega)
    exact ⟨as, by rw [← ha]; rfl⟩

/-- What is accepted: no port that is both input and output, and access reports of one bit. -/
theorem C39_supported {u : RUnit} (h : Accepted u) :
    (∀ p ∈ u.ports, p.kind ≠ .inout) ∧ ∀ p x, Reports u.ports p x → p.width = 1 := by
  obtain ⟨e, F⟩ := accepted_facts h
  refine ⟨F.kinds, fun p x hr => ?_⟩
  obtain ⟨c, L, _⟩ := F.loop
  refine L.widths p hr.1 hr.2.2.1 ?_
  rw [hr.2.2.2, accessedBy_on (List.mem_map.mpr ⟨x, hr.2.1, rfl⟩)]
  simp

/-- Memories of more than `2 ^ 30` bytes: the mark of ports is computed by a shift that overflows. -/
theorem C39_counterexample_overflow {m : Nat} (h : 2 ^ 30 < m) (ports : List RPort) : cHeader (m : Int) ports = none := by
  obtain ⟨k, hk, h1, _⟩ := C01_clog2_exact m (by omega)
  unfold cHeader periphBit
  rw [hk]
  have : 31 ≤ k := by
    by_contra hc
    have : 2 ^ k ≤ 2 ^ 30 := Nat.pow_le_pow_right (by omega) (by omega)
    omega
  rw [if_pos (Or.inr (by exact_mod_cast this))]

/-! Concrete cases. -/

/-- Leds, a button, and reports on both. -/
def exSocPorts : List RPort :=
  [⟨"leds", .output, 8⟩, ⟨"button", .input, 1⟩, ⟨"on_leds", .output, 1⟩, ⟨"on_button", .output, 1⟩]

def exUnit : RUnit :=
  ⟨1000, 128, exSocPorts, [1028, 1032, 1040, 1056],
    { addrW := 9, memsz := 250, external := 8, reads := [(1, ⟨"button", .input, 1⟩)], writes := [(0, ⟨"leds", .output, 8⟩)],
      triggers := [("on_leds", 0, true), ("on_button", 1, false)] }⟩

theorem exUnit_accepted : Accepted exUnit := ⟨1000, none, by decide +kernel⟩

example : DistinctNames exUnit.ports := by unfold DistinctNames; decide

example : PlainOutput exUnit.ports ⟨"leds", .output, 8⟩ := ⟨by decide, rfl, by decide⟩

example : Reports exUnit.ports ⟨"on_leds", .output, 1⟩ ⟨"leds", .output, 8⟩ := ⟨by decide, by decide, rfl, by decide⟩

example : Reports exUnit.ports ⟨"on_button", .output, 1⟩ ⟨"button", .input, 1⟩ := ⟨by decide, by decide, rfl, by decide⟩

/-- Sixteen bytes and two ports are refused, one port is accepted. -/
example : synthRiscv 16 (some 4) [⟨"a", .input, 1⟩, ⟨"b", .output, 1⟩] = some (.error .bus) := by decide +kernel

example : synthRiscv 16 (some 4) [⟨"a", .input, 1⟩] = some (.ok ⟨16, 4, [⟨"a", .input, 1⟩], [20],
    { addrW := 3, memsz := 4, external := 2, reads := [(0, ⟨"a", .input, 1⟩)], writes := [], triggers := [] }⟩) := by decide +kernel

example : synthRiscv 1000 none [⟨"leds", .output, 8⟩, ⟨"on_leds", .output, 2⟩] = some (.error .trigger) := by decide +kernel

example : synthRiscv 1001 none exSocPorts = some (.error .memory) := by decide +kernel

example : justHigherPow2 (250 : Nat) = (8 : Nat) := by decide +kernel

end Silice
