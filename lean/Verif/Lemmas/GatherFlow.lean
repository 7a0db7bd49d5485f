import Verif.Lemmas.GatherUnit
import Verif.Lemmas.FsmFlags

/-! Control flow inside the blocks of a sequence of statements. -/

set_option autoImplicit false

namespace Silice

/-- Blocks that follow within the same subroutine. -/
def kids : Act Nat → List Nat
  | .stop | .ret _ | .call _ _ => []
  | .goto n => [n]
  | .ifElse _ i _ _ e _ _ a => [i, e, a]
  | .switch _ cs a => cs.map (·.2) ++ [a]
  | .loop _ i a => [i, a]
  | .wait _ w n => [w, n]

/-- From block `b` control stays among blocks `lo` to `hi - 1`, jumps to `bt`, returns from `s`, or calls a subroutine with return to one of the
blocks. -/
structure Stays (F : Nat → PBlk) (tops : List Nat) (s bt : Option Nat) (lo hi b : Nat) : Prop where
  kid : ∀ n ∈ kids (F b).act, (lo ≤ n ∧ n < hi) ∨ (bt = some n ∧ (F b).act = .goto n)
  ret : ∀ z, (F b).act = .ret z → s = some z
  call : ∀ t r, (F b).act = .call t r → lo ≤ r ∧ r < hi ∧ (F r).isState = true ∧ ∃ z : Nat, tops[z]? = some t

variable {F : Nat → PBlk} {tops : List Nat} {s : Option Nat} {p : Prg} {bt : Option Nat} {c : Nat} {pre : List PIns} {l lo hi : Nat}

theorem Stays.mono {bt' : Option Nat} {lo' hi' b : Nat} (h : Stays F tops s bt lo hi b) (h1 : lo' ≤ lo) (h2 : hi ≤ hi')
    (h3 : ∀ n, bt = some n → (lo' ≤ n ∧ n < hi') ∨ bt' = some n) : Stays F tops s bt' lo' hi' b := by
  refine ⟨fun n hn => ?_, h.ret, fun t r ha => ?_⟩
  · rcases h.kid n hn with e | e
    · exact .inl ⟨by omega, by omega⟩
    · exact (h3 n e.1).imp_right fun h => ⟨h, e.2⟩
  · obtain ⟨a1, a2, a3⟩ := h.call t r ha
    exact ⟨by omega, by omega, a3⟩

theorem Stays.up {lo' hi' b : Nat} (h : Stays F tops s bt lo hi b) (h1 : lo' ≤ lo) (h2 : hi ≤ hi') : Stays F tops s bt lo' hi' b :=
  h.mono h1 h2 fun _ h => .inr h

theorem Stays.simple {b : Nat} {a : Act Nat} (h : (F b).act = a) (h1 : ∀ z, a ≠ .ret z) (h2 : ∀ t r, a ≠ .call t r)
    (h3 : ∀ n ∈ kids a, (lo ≤ n ∧ n < hi) ∨ (bt = some n ∧ a = .goto n)) : Stays F tops s bt lo hi b :=
  ⟨by rw [h]; exact h3, fun z e => absurd (h.symm.trans e) (h1 z), fun t r e => absurd (h.symm.trans e) (h2 t r)⟩

theorem Stays.goto {b n : Nat} (h : (F b).act = .goto n) (h3 : (lo ≤ n ∧ n < hi) ∨ bt = some n) : Stays F tops s bt lo hi b :=
  .simple h (by simp) (by simp) (by
    intro m hm
    simp only [kids, List.mem_singleton] at hm
    subst hm
    exact h3.imp_right fun h => ⟨h, rfl⟩)

theorem Frag.stays (h : Frag F tops s p bt c pre l lo hi) : ∀ b, b = c ∨ (lo ≤ b ∧ b < hi) → b ≠ l → Stays F tops s bt lo hi b := by
  induction h with
  | nil => intro b hb hl; omega
  | instr _ ih => exact ih
  | @step k0 bt c pre l lo hi _ ha _ _ f ih =>
    intro b hb hl
    have := f.range.1
    by_cases e : b = c
    · exact .goto (e ▸ ha) (.inl ⟨le_rfl, by omega⟩)
    · exact (ih b (by omega) hl).up (by omega) le_rfl
  | @block b k bt c pre l lo hi m x h1 ha h3 f1 hm h5 f2 hz ih1 ih2 =>
    intro y hb hl
    have r1 := f1.range
    have r2 := f2.range
    by_cases e : y = c
    · exact .goto (e ▸ ha) (.inl ⟨le_rfl, by omega⟩)
    by_cases e2 : y = m
    · exact .goto (e2 ▸ hm) (.inl ⟨by omega, by omega⟩)
    by_cases e3 : y < x
    · exact (ih1 y (by omega) e2).up (by omega) (by omega)
    · exact (ih2 y (by omega) hl).up (by omega) le_rfl
  | @ifThen q t k bt c pre l lo hi it a h1 ha f1 hm h4 h5 h6 he h8 h9 h10 f2 hz ih1 ih2 =>
    intro y hb hl
    have r1 := f1.range
    have r2 := f2.range
    by_cases e : y = c
    · refine .simple (e ▸ ha) (by simp) (by simp) ?_
      simp only [kids, List.mem_cons, List.not_mem_nil, or_false]
      rintro n (rfl | rfl | rfl) <;> exact .inl ⟨by omega, by omega⟩
    by_cases e2 : y = it
    · exact .goto (e2 ▸ hm) (.inl ⟨by omega, by omega⟩)
    by_cases e4 : y = lo + 1
    · exact .goto (e4 ▸ he) (.inl ⟨by omega, by omega⟩)
    by_cases e3 : y < a
    · exact (ih1 y (by omega) e2).up (by omega) (by omega)
    · exact (ih2 y (by omega) hl).up (by omega) le_rfl
  | @ifElse q t f k bt c pre l lo hi it et m a h1 ha f1 hm h4 h5 f2 he h8 h9 h10 f3 hz ih1 ih2 ih3 =>
    intro y hb hl
    have r1 := f1.range
    have r2 := f2.range
    have r3 := f3.range
    by_cases e : y = c
    · refine .simple (e ▸ ha) (by simp) (by simp) ?_
      simp only [kids, List.mem_cons, List.not_mem_nil, or_false]
      rintro n (rfl | rfl | rfl) <;> exact .inl ⟨by omega, by omega⟩
    by_cases e2 : y = it
    · exact .goto (e2 ▸ hm) (.inl ⟨by omega, by omega⟩)
    by_cases e4 : y = et
    · exact .goto (e4 ▸ he) (.inl ⟨by omega, by omega⟩)
    by_cases e3 : y = lo ∨ (lo + 2 ≤ y ∧ y < m)
    · exact (ih1 y e3 e2).up (by omega) (by omega)
    by_cases e3 : y < a
    · exact (ih2 y (by omega) e4).up (by omega) (by omega)
    · exact (ih3 y (by omega) hl).up (by omega) le_rfl
  | @loop q b k bt c pre l lo hi m x h1 ha h3 h4 hh h6 f1 hm f2 hz ih1 ih2 =>
    intro y hb hl
    have r1 := f1.range
    have r2 := f2.range
    by_cases e : y = c
    · exact .goto (e ▸ ha) (.inl ⟨le_rfl, by omega⟩)
    by_cases e1 : y = lo
    · refine .simple (e1 ▸ hh) (by simp) (by simp) ?_
      simp only [kids, List.mem_cons, List.not_mem_nil, or_false]
      rintro n (rfl | rfl) <;> exact .inl ⟨by omega, by omega⟩
    by_cases e2 : y = m
    · exact .goto (e2 ▸ hm) (.inl ⟨by omega, by omega⟩)
    by_cases e3 : y = lo + 2 ∨ (x ≤ y ∧ y < hi)
    · exact (ih2 y e3 hl).up (by omega) le_rfl
    · refine (ih1 y (by omega) e2).mono (by omega) (by omega) ?_
      rintro n ⟨⟩
      exact .inl ⟨by omega, by omega⟩
  | @brk k0 b0 c pre l lo hi _ ha _ f ih =>
    intro b hb hl
    have := f.range.1
    by_cases e : b = c
    · exact .goto (e ▸ ha) (.inr rfl)
    · exact (ih b (by omega) hl).up (by omega) le_rfl
  | @switch q cs k bt c pre l lo hi x es bb mm h1 ha h3 h4 h5 h6 f1 h7 h8 h9 f2 hz ih1 ih2 =>
    intro y hb hl
    have hm := seq_le (bb := bb) (n := cs.length) (fun j hj => by
      obtain ⟨⟨v, p⟩, hg⟩ := get_of_lt hj
      exact (f1 j v p hg).range.1)
    have r2 := f2.range
    have hx := (hm 0 (by omega)).2
    by_cases e : y = c
    · refine .simple (e ▸ ha) (by simp) (by simp) ?_
      intro n hn
      simp only [kids, List.mem_append, List.mem_singleton, List.mem_map] at hn
      rcases hn with ⟨⟨v, n'⟩, hn, rfl⟩ | rfl
      · obtain ⟨j, hj⟩ := List.mem_iff_getElem?.mp hn
        have hlt := (List.getElem?_eq_some_iff.mp hj).1
        rw [h3] at hlt
        obtain ⟨⟨v', p⟩, hg⟩ := get_of_lt hlt
        rw [h4 j v' p hg] at hj
        cases hj
        have := (f1 j _ _ hg).range.1
        have := hm j (by omega)
        have := hm (j + 1) hlt
        exact .inl ⟨by simp only; omega, by simp only; omega⟩
      · exact .inl ⟨by omega, by omega⟩
    by_cases e3 : lo + 1 ≤ y ∧ y < x
    · obtain ⟨j, hj, g1, g2⟩ := seq_cover (bb := bb) (n := cs.length) (x := y) (by omega) (by omega)
      obtain ⟨⟨v, p⟩, hg⟩ := get_of_lt hj
      have r1 := (f1 j v p hg).range
      have := hm j (by omega)
      have := hm (j + 1) hj
      by_cases e4 : y = mm j
      · exact .goto (e4 ▸ (h7 j v p hg).1) (.inl ⟨by omega, by omega⟩)
      · exact (ih1 j v p hg y (by omega) e4).up (by omega) (by omega)
    · exact (ih2 y (by omega) hl).up (by omega) le_rfl
  | @call z0 give take outs k0 bt c pre l lo hi t0 _ ht ha hs f hz ih =>
    intro b hb hl
    have := f.range.1
    by_cases e : b = c
    · refine ⟨by rw [e, ha]; simp [kids], fun z e' => (by rw [e, ha] at e'; cases e'), fun t r e' => ?_⟩
      rw [e, ha] at e'
      cases e'
      exact ⟨le_rfl, by omega, hs, _, ht⟩
    · exact (ih b (by omega) hl).up (by omega) le_rfl
  | @join inst take outs k bt c pre l lo hi h1 ha h3 h4 hh h6 f hz ih =>
    intro b hb hl
    have := f.range.1
    by_cases e : b = c
    · exact .goto (e ▸ ha) (.inl ⟨le_rfl, by omega⟩)
    by_cases e1 : b = lo
    · refine .simple (e1 ▸ hh) (by simp) (by simp) ?_
      simp only [kids, List.mem_cons, List.not_mem_nil, or_false]
      rintro n (rfl | rfl) <;> exact .inl ⟨by omega, by omega⟩
    · exact (ih b (by omega) hl).up (by omega) le_rfl
  | @ret k0 bt c pre l lo hi z0 _ hs ha _ f ih =>
    intro b hb hl
    have := f.range.1
    by_cases e : b = c
    · refine ⟨by rw [e, ha]; simp [kids], fun z e' => ?_, fun t r e' => by rw [e, ha] at e'; cases e'⟩
      rw [e, ha] at e'
      cases e'
      exact hs
    · exact (ih b (by omega) hl).up (by omega) le_rfl

/-- Edges between blocks that hold no instruction. -/
def EdgeN (F : Nat → PBlk) (b n : Nat) : Prop := (F b).act = .goto n

theorem acc_goto {b n : Nat} (ha : (F b).act = .goto n) (h : Acc (fun n b => EdgeN F b n) n) : Acc (fun n b => EdgeN F b n) b := by
  refine ⟨_, fun m hm => ?_⟩
  have := ha.symm.trans hm
  cases this
  exact h

theorem acc_other {b : Nat} (ha : ∀ n, (F b).act ≠ .goto n) : Acc (fun n b => EdgeN F b n) b :=
  ⟨_, fun m hm => absurd hm (ha m)⟩

/-- Following jumps one comes to the end, to where `break` goes, or to a block that does something else. -/
theorem Frag.acc (h : Frag F tops s p bt c pre l lo hi) (hl : Acc (fun n b => EdgeN F b n) l)
    (hb : ∀ b, bt = some b → Acc (fun n b => EdgeN F b n) b) : ∀ b, b = c ∨ (lo ≤ b ∧ b < hi) → Acc (fun n b => EdgeN F b n) b := by
  induction h with
  | nil => intro b h; rcases h with rfl | h; exact hl; omega
  | instr _ ih => exact ih hl hb
  | @step k0 bt c pre l lo hi _ ha _ _ f ih =>
    have k := ih hl hb
    intro b h
    by_cases e : b = c
    · exact e ▸ acc_goto ha (k _ (.inl rfl))
    · exact k b (by omega)
  | @block b k bt c pre l lo hi m x h1 ha h3 f1 hm h5 f2 hz ih1 ih2 =>
    have k2 := ih2 hl hb
    have k1 := ih1 (acc_goto hm (k2 _ (.inl rfl))) hb
    intro y h
    by_cases e : y = c
    · exact e ▸ acc_goto ha (k1 _ (.inl rfl))
    by_cases e3 : y < x
    · exact k1 y (by omega)
    · exact k2 y (by omega)
  | @ifThen q t k bt c pre l lo hi it a h1 ha f1 hm h4 h5 h6 he h8 h9 h10 f2 hz ih1 ih2 =>
    have k2 := ih2 hl hb
    have k1 := ih1 (acc_goto hm (k2 _ (.inl rfl))) hb
    intro y h
    by_cases e : y = c
    · exact e ▸ acc_other (by rw [ha]; simp)
    by_cases e4 : y = lo + 1
    · exact e4 ▸ acc_goto he (k2 _ (.inl rfl))
    by_cases e3 : y < a
    · exact k1 y (by omega)
    · exact k2 y (by omega)
  | @ifElse q t f k bt c pre l lo hi it et m a h1 ha f1 hm h4 h5 f2 he h8 h9 h10 f3 hz ih1 ih2 ih3 =>
    have k3 := ih3 hl hb
    have k2 := ih2 (acc_goto he (k3 _ (.inl rfl))) hb
    have k1 := ih1 (acc_goto hm (k3 _ (.inl rfl))) hb
    intro y h
    by_cases e : y = c
    · exact e ▸ acc_other (by rw [ha]; simp)
    by_cases e3 : y = lo ∨ (lo + 2 ≤ y ∧ y < m)
    · exact k1 y e3
    by_cases e3 : y < a
    · exact k2 y (by omega)
    · exact k3 y (by omega)
  | @loop q b k bt c pre l lo hi m x h1 ha h3 h4 hh h6 f1 hm f2 hz ih1 ih2 =>
    have k0 : Acc (fun n b => EdgeN F b n) lo := acc_other (by rw [hh]; simp)
    have k2 := ih2 hl hb
    have k1 := ih1 (acc_goto hm k0) (by rintro _ ⟨⟩; exact k2 _ (.inl rfl))
    intro y h
    by_cases e : y = c
    · exact e ▸ acc_goto ha k0
    by_cases e1 : y = lo
    · exact e1 ▸ k0
    by_cases e3 : y = lo + 2 ∨ (x ≤ y ∧ y < hi)
    · exact k2 y e3
    · exact k1 y (by omega)
  | @brk k0 b0 c pre l lo hi _ ha _ f ih =>
    have k := ih hl hb
    intro b h
    by_cases e : b = c
    · exact e ▸ acc_goto ha (hb _ rfl)
    · exact k b (by omega)
  | @switch q cs k bt c pre l lo hi x es bb mm h1 ha h3 h4 h5 h6 f1 h7 h8 h9 f2 hz ih1 ih2 =>
    have k2 := ih2 hl hb
    intro y h
    by_cases e : y = c
    · exact e ▸ acc_other (by rw [ha]; simp)
    by_cases e3 : lo + 1 ≤ y ∧ y < x
    · obtain ⟨j, hj, g1, g2⟩ := seq_cover (bb := bb) (n := cs.length) (x := y) (by omega) (by omega)
      obtain ⟨⟨v, p⟩, hg⟩ := get_of_lt hj
      exact ih1 j v p hg (acc_goto (h7 j v p hg).1 (k2 _ (.inl rfl))) hb y (by omega)
    · exact k2 y (by omega)
  | @call z0 give take outs k0 bt c pre l lo hi t0 _ _ ha _ f hz ih =>
    have k := ih hl hb
    intro b h
    by_cases e : b = c
    · exact e ▸ acc_other (by rw [ha]; simp)
    · exact k b (by omega)
  | @join inst take outs k bt c pre l lo hi h1 ha h3 h4 hh h6 f hz ih =>
    have k := ih hl hb
    have k0 : Acc (fun n b => EdgeN F b n) lo := acc_other (by rw [hh]; simp)
    intro b h
    by_cases e : b = c
    · exact e ▸ acc_goto ha k0
    by_cases e1 : b = lo
    · exact e1 ▸ k0
    · exact k b (by omega)
  | @ret k0 bt c pre l lo hi z0 _ _ ha _ f ih =>
    have k := ih hl hb
    intro b h
    by_cases e : b = c
    · exact e ▸ acc_other (by rw [ha]; simp)
    · exact k b (by omega)

end Silice
