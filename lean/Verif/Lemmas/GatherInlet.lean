import Verif.Lemmas.GatherWF
import Verif.Lemmas.FsmTime
import Verif.Spec.GatherTime

/-! Which blocks lead to which, seen from the statements. -/

set_option autoImplicit false

namespace Silice

/-- Blocks that follow within the same subroutine, calls being passed over. -/
def succs : Act Nat → List Nat
  | .call _ r => [r]
  | a => kids a

theorem succs_call (a : Act Nat) : (∃ t r, a = .call t r ∧ succs a = [r]) ∨ ((∀ t r, a ≠ .call t r) ∧ succs a = kids a) := by
  cases a with
  | call t r => exact .inl ⟨t, r, rfl, rfl⟩
  | _ => exact .inr ⟨by simp, rfl⟩

variable {F : Nat → PBlk} {tops tops' : List Nat} {s : Option Nat} {p : Prg} {bt : Option Nat} {c : Nat} {pre : List PIns} {l lo hi : Nat} {N : Nat}

theorem Frag.next (h : Frag F tops s p bt c pre l lo hi) {y n : Nat} (hy : y = c ∨ (lo ≤ y ∧ y < hi)) (hl : y ≠ l) (hn : n ∈ succs (F y).act) :
    (lo ≤ n ∧ n < hi) ∨ (bt = some n ∧ (F y).act = .goto n) := by
  have st := h.stays y hy hl
  rcases succs_call (F y).act with ⟨t, r, e, e'⟩ | ⟨_, e⟩
  · rw [e', List.mem_singleton] at hn
    subst hn
    obtain ⟨h1, h2, _⟩ := st.call t n e
    exact .inl ⟨h1, h2⟩
  · rw [e] at hn
    exact st.kid n hn

/-- The statements that start in `c`, end in `l` and have blocks `lo` to `hi - 1` are entered through `c` and left through `l` (or `break`) only. -/
structure Inlet (F : Nat → PBlk) (tops : List Nat) (N : Nat) (bt : Option Nat) (c l lo hi : Nat) : Prop where
  lt : c < lo
  le : hi ≤ N
  brk : ∀ b, bt = some b → b < lo
  pred : ∀ y n, y < N → n ∈ succs (F y).act → lo ≤ n → n < hi → y = c ∨ (lo ≤ y ∧ y < hi)
  out : ∀ n, n ∈ succs (F l).act → lo ≤ n → n < hi → False
  top : ∀ t, t ∈ tops → lo ≤ t → t < hi → False

/-- No conditional is followed by block `n`. -/
def NoIf (F : Nat → PBlk) (N n : Nat) : Prop := ∀ y, y < N → ∀ q i u it e v et, (F y).act ≠ .ifElse q i u it e v et n

/-- The blocks with block `n` as successor do no more than go there. -/
theorem noIf_of {n : Nat} (h : ∀ y, y < N → n ∈ succs (F y).act → ∀ q i u it e v et, (F y).act ≠ .ifElse q i u it e v et n) : NoIf F N n := by
  intro y hy q i u it e v et ha
  exact h y hy (by rw [ha]; simp [succs, kids]) q i u it e v et ha

theorem Frag.near (h : Frag F tops' s p bt c pre l lo hi) {lo0 y n : Nat} (hb : ∀ b, bt = some b → b < lo0) (hy : y = c ∨ (lo ≤ y ∧ y < hi))
    (hl : y ≠ l) (hn : n ∈ succs (F y).act) (h0 : lo0 ≤ n) : lo ≤ n ∧ n < hi := by
  rcases h.next hy hl hn with e | e
  · exact e
  · have := hb n e.1
    omega

theorem succs_goto {y n x : Nat} (h : (F y).act = .goto x) (hn : n ∈ succs (F y).act) : n = x := by
  rw [h] at hn
  simpa [succs, kids] using hn

namespace Inlet

theorem step {k : Prg} (I : Inlet F tops N bt c l lo hi) (ha : (F c).act = .goto lo) (f : Frag F tops' s k bt lo [] l (lo + 1) hi) :
    Inlet F tops N bt lo l (lo + 1) hi := by
  have r := f.range
  refine ⟨by omega, I.le, fun b hb => by have := I.brk b hb; omega, fun y n hy hn h1 h2 => ?_, fun n hn h1 h2 => I.out n hn (by omega) h2,
    fun t ht h1 h2 => I.top t ht (by omega) h2⟩
  rcases I.pred y n hy hn (by omega) h2 with e | e
  · subst e
    have := succs_goto ha hn
    omega
  · omega

theorem call {k : Prg} {t : Nat} {is : List PIns} (I : Inlet F tops N bt c l lo hi) (ha : (F c).act = .call t lo)
    (f : Frag F tops' s k bt lo is l (lo + 1) hi) : Inlet F tops N bt lo l (lo + 1) hi := by
  have r := f.range
  refine ⟨by omega, I.le, fun b hb => by have := I.brk b hb; omega, fun y n hy hn h1 h2 => ?_, fun n hn h1 h2 => I.out n hn (by omega) h2,
    fun t ht h1 h2 => I.top t ht (by omega) h2⟩
  rcases I.pred y n hy hn (by omega) h2 with e | e
  · subst e
    rw [ha] at hn
    simp only [succs, List.mem_singleton] at hn
    omega
  · omega

theorem join {k : Prg} {inst : Nat} {is : List PIns} (I : Inlet F tops N bt c l lo hi) (ha : (F c).act = .goto lo)
    (hh : (F lo).act = .wait inst lo (lo + 1)) (f : Frag F tops' s k bt (lo + 1) is l (lo + 2) hi) :
    Inlet F tops N bt (lo + 1) l (lo + 2) hi := by
  have r := f.range
  refine ⟨by omega, I.le, fun b hb => by have := I.brk b hb; omega, fun y n hy hn h1 h2 => ?_, fun n hn h1 h2 => I.out n hn (by omega) h2,
    fun t ht h1 h2 => I.top t ht (by omega) h2⟩
  rcases I.pred y n hy hn (by omega) h2 with e | e
  · subst e
    have := succs_goto ha hn
    omega
  · by_cases e1 : y = lo
    · subst e1
      rw [hh] at hn
      simp [succs, kids] at hn
      omega
    · omega

/-- Nothing leads to the block opened after a `break` or `return`. -/
theorem dead (I : Inlet F tops N bt c lo lo (lo + 1)) {y : Nat} (hy : y < N) (hc : lo ∉ succs (F c).act) : lo ∉ succs (F y).act := by
  intro hn
  rcases I.pred y lo hy hn le_rfl (by omega) with e | e
  · exact hc (e ▸ hn)
  · obtain rfl : y = lo := by omega
    exact I.out _ hn le_rfl (by omega)

theorem block {b k : Prg} {m x : Nat} (I : Inlet F tops N bt c l lo hi) (ha : (F c).act = .goto lo)
    (f1 : Frag F tops' s b bt lo [] m (lo + 1) x) (hm : (F m).act = .goto x) (f2 : Frag F tops' s k bt x [] l (x + 1) hi) :
    Inlet F tops N bt lo m (lo + 1) x ∧ Inlet F tops N bt x l (x + 1) hi ∧ (∀ y, y < N → lo ∈ succs (F y).act → y = c) ∧
      ∀ y, y < N → x ∈ succs (F y).act → y = m := by
  have r1 := f1.range
  have r2 := f2.range
  have hN := I.le
  have key : ∀ y n, y < N → n ∈ succs (F y).act → lo ≤ n → n < hi → (y = c ∧ n = lo) ∨
      ((y = lo ∨ (lo + 1 ≤ y ∧ y < x)) ∧ y ≠ m ∧ lo + 1 ≤ n ∧ n < x) ∨ (y = m ∧ n = x) ∨ ((x ≤ y ∧ y < hi) ∧ x + 1 ≤ n) := by
    intro y n hy hn h1 h2
    by_cases e : y = c
    · subst e
      exact .inl ⟨rfl, succs_goto ha hn⟩
    have hin := (I.pred y n hy hn h1 h2).resolve_left e
    by_cases e2 : y = m
    · subst e2
      exact .inr (.inr (.inl ⟨rfl, succs_goto hm hn⟩))
    by_cases e3 : y < x
    · have := f1.near (lo0 := lo) I.brk (by omega) e2 hn h1
      omega
    by_cases e4 : y = l
    · subst e4
      exact absurd h2 (fun h => I.out n hn h1 h)
    · have := f2.near (lo0 := lo) I.brk (by omega) e4 hn h1
      omega
  refine ⟨⟨by omega, by omega, fun b hb => by have := I.brk b hb; omega, fun y n hy hn h1 h2 => ?_, fun n hn h1 h2 => ?_,
    fun t ht h1 h2 => I.top t ht (by omega) (by omega)⟩, ⟨by omega, I.le, fun b hb => by have := I.brk b hb; omega, fun y n hy hn h1 h2 => ?_,
    fun n hn h1 h2 => I.out n hn (by omega) h2, fun t ht h1 h2 => I.top t ht (by omega) h2⟩, fun y hy hn => ?_, fun y hy hn => ?_⟩
  · have := key y n hy hn (by omega) (by omega)
    omega
  · have := succs_goto hm hn
    omega
  · have := key y n hy hn (by omega) h2
    omega
  · have := key y lo hy hn le_rfl (by omega)
    omega
  · have := key y x hy hn (by omega) (by omega)
    omega

/-- Which block leads to which. -/
theorem ifElse_key {q it et m a : Nat} {u v : Bool} {t e k : Prg} (I : Inlet F tops N bt c l lo hi)
    (ha : (F c).act = .ifElse q lo u it (lo + 1) v et a)
    (f1 : Frag F tops' s t bt lo [] it (lo + 2) m) (hm : (F it).act = .goto a)
    (f2 : Frag F tops' s e bt (lo + 1) [] et m a) (he : (F et).act = .goto a)
    (f3 : Frag F tops' s k bt a [] l (a + 1) hi) :
    ∀ y n, y < N → n ∈ succs (F y).act → lo ≤ n → n < hi → (y = c ∧ (n = lo ∨ n = lo + 1 ∨ n = a)) ∨
      ((y = lo ∨ (lo + 2 ≤ y ∧ y < m)) ∧ y ≠ it ∧ lo + 2 ≤ n ∧ n < m) ∨ (y = it ∧ n = a) ∨
      ((y = lo + 1 ∨ (m ≤ y ∧ y < a)) ∧ y ≠ et ∧ m ≤ n ∧ n < a) ∨ (y = et ∧ n = a) ∨ ((a ≤ y ∧ y < hi) ∧ a + 1 ≤ n) := by
  have r1 := f1.range
  have r2 := f2.range
  have r3 := f3.range
  have hN := I.le
  intro y n hy hn h1 h2
  by_cases e : y = c
  · subst e
    rw [ha] at hn
    simp [succs, kids] at hn
    exact .inl ⟨rfl, hn⟩
  have hin := (I.pred y n hy hn h1 h2).resolve_left e
  by_cases e2 : y = it
  · subst e2
    exact .inr (.inr (.inl ⟨rfl, succs_goto hm hn⟩))
  by_cases e5 : y = et
  · subst e5
    exact .inr (.inr (.inr (.inr (.inl ⟨rfl, succs_goto he hn⟩))))
  by_cases e3 : y = lo ∨ (lo + 2 ≤ y ∧ y < m)
  · have := f1.near (lo0 := lo) I.brk e3 e2 hn h1
    omega
  by_cases e6 : y < a
  · have := f2.near (lo0 := lo) I.brk (by omega) e5 hn h1
    omega
  by_cases e4 : y = l
  · subst e4
    exact absurd h2 (fun h => I.out n hn h1 h)
  · have := f3.near (lo0 := lo) I.brk (by omega) e4 hn h1
    omega

theorem ifElse {q it et m a : Nat} {u v : Bool} {t e k : Prg} (I : Inlet F tops N bt c l lo hi)
    (ha : (F c).act = .ifElse q lo u it (lo + 1) v et a)
    (f1 : Frag F tops' s t bt lo [] it (lo + 2) m) (hm : (F it).act = .goto a)
    (f2 : Frag F tops' s e bt (lo + 1) [] et m a) (he : (F et).act = .goto a)
    (f3 : Frag F tops' s k bt a [] l (a + 1) hi) :
    Inlet F tops N bt lo it (lo + 2) m ∧ Inlet F tops N bt (lo + 1) et m a ∧ Inlet F tops N bt a l (a + 1) hi ∧ NoIf F N lo ∧ NoIf F N (lo + 1) ∧
      ∀ y, y < N → ∀ q i u it e v et, (F y).act = .ifElse q i u it e v et a → y = c := by
  have r1 := f1.range
  have r2 := f2.range
  have r3 := f3.range
  have hN := I.le
  have key := I.ifElse_key ha f1 hm f2 he f3
  refine ⟨⟨by omega, by omega, fun b hb => by have := I.brk b hb; omega, fun y n hy hn h1 h2 => ?_, fun n hn h1 h2 => ?_,
    fun t ht h1 h2 => I.top t ht (by omega) (by omega)⟩, ⟨by omega, by omega, fun b hb => by have := I.brk b hb; omega, fun y n hy hn h1 h2 => ?_,
    fun n hn h1 h2 => ?_, fun t ht h1 h2 => I.top t ht (by omega) (by omega)⟩, ⟨by omega, I.le, fun b hb => by have := I.brk b hb; omega,
    fun y n hy hn h1 h2 => ?_, fun n hn h1 h2 => I.out n hn (by omega) h2, fun t ht h1 h2 => I.top t ht (by omega) h2⟩,
    noIf_of fun y hy hn => ?_, noIf_of fun y hy hn => ?_, fun y hy q i u it' e' v et' ha' => ?_⟩
  · have := key y n hy hn (by omega) (by omega)
    omega
  · have := succs_goto hm hn
    omega
  · have := key y n hy hn (by omega) (by omega)
    omega
  · have := succs_goto he hn
    omega
  · have := key y n hy hn (by omega) h2
    omega
  · have := key y lo hy hn (by omega) (by omega)
    obtain rfl : y = c := by omega
    intro q' i' u' it' e' v' et' h
    rw [ha] at h
    simp only [Act.ifElse.injEq] at h
    omega
  · have := key y (lo + 1) hy hn (by omega) (by omega)
    obtain rfl : y = c := by omega
    intro q' i' u' it' e' v' et' h
    rw [ha] at h
    simp only [Act.ifElse.injEq] at h
    omega
  · have := key y a hy (by rw [ha']; simp [succs, kids]) (by omega) (by omega)
    by_cases e1 : y = it
    · rw [e1, hm] at ha'; cases ha'
    by_cases e2 : y = et
    · rw [e2, he] at ha'; cases ha'
    omega

/-- Which block leads to which. -/
theorem loop_key {q m x : Nat} {b k : Prg} (I : Inlet F tops N bt c l lo hi) (ha : (F c).act = .goto lo) (hh : (F lo).act = .loop q (lo + 1) (lo + 2))
    (f1 : Frag F tops' s b (some (lo + 2)) (lo + 1) [] m (lo + 3) x) (hm : (F m).act = .goto lo)
    (f2 : Frag F tops' s k bt (lo + 2) [] l x hi) :
    ∀ y n, y < N → n ∈ succs (F y).act → lo ≤ n → n < hi → ((y = c ∨ y = m) ∧ n = lo) ∨ (y = lo ∧ (n = lo + 1 ∨ n = lo + 2)) ∨
      ((y = lo + 1 ∨ (lo + 3 ≤ y ∧ y < x)) ∧ y ≠ m ∧ ((lo + 3 ≤ n ∧ n < x) ∨ (n = lo + 2 ∧ (F y).act = .goto n))) ∨
      ((y = lo + 2 ∨ (x ≤ y ∧ y < hi)) ∧ x ≤ n) := by
  have r1 := f1.range
  have r2 := f2.range
  have hN := I.le
  intro y n hy hn h1 h2
  by_cases e : y = c
  · subst e
    exact .inl ⟨.inl rfl, succs_goto ha hn⟩
  have hin := (I.pred y n hy hn h1 h2).resolve_left e
  by_cases e2 : y = m
  · subst e2
    exact .inl ⟨.inr rfl, succs_goto hm hn⟩
  by_cases e1 : y = lo
  · subst e1
    rw [hh] at hn
    simp [succs, kids] at hn
    exact .inr (.inl ⟨rfl, hn⟩)
  by_cases e3 : y = lo + 1 ∨ (lo + 3 ≤ y ∧ y < x)
  · rcases f1.next e3 e2 hn with g1 | ⟨g1, g2⟩
    · exact .inr (.inr (.inl ⟨e3, e2, .inl g1⟩))
    · cases g1
      exact .inr (.inr (.inl ⟨e3, e2, .inr ⟨rfl, g2⟩⟩))
  by_cases e4 : y = l
  · subst e4
    exact absurd h2 (fun h => I.out n hn h1 h)
  · have := f2.near (lo0 := lo) I.brk (by omega) e4 hn h1
    omega

theorem loop {q m x : Nat} {b k : Prg} (I : Inlet F tops N bt c l lo hi) (ha : (F c).act = .goto lo) (hh : (F lo).act = .loop q (lo + 1) (lo + 2))
    (f1 : Frag F tops' s b (some (lo + 2)) (lo + 1) [] m (lo + 3) x) (hm : (F m).act = .goto lo)
    (f2 : Frag F tops' s k bt (lo + 2) [] l x hi) :
    Inlet F tops N (some (lo + 2)) (lo + 1) m (lo + 3) x ∧ Inlet F tops N bt (lo + 2) l x hi ∧ NoIf F N (lo + 1) ∧ NoIf F N (lo + 2) := by
  have r1 := f1.range
  have r2 := f2.range
  have hN := I.le
  have key := I.loop_key ha hh f1 hm f2
  refine ⟨⟨by omega, by omega, fun b hb => by cases hb; omega, fun y n hy hn h1 h2 => ?_, fun n hn h1 h2 => ?_,
    fun t ht h1 h2 => I.top t ht (by omega) (by omega)⟩, ⟨by omega, I.le, fun b hb => by have := I.brk b hb; omega, fun y n hy hn h1 h2 => ?_,
    fun n hn h1 h2 => I.out n hn (by omega) h2, fun t ht h1 h2 => I.top t ht (by omega) h2⟩, noIf_of fun y hy hn => ?_, noIf_of fun y hy hn => ?_⟩
  · have := key y n hy hn (by omega) (by omega)
    omega
  · have := succs_goto hm hn
    omega
  · have := key y n hy hn (by omega) h2
    omega
  · have := key y (lo + 1) hy hn (by omega) (by omega)
    obtain rfl : y = lo := by omega
    rw [hh]; simp
  · rcases key y (lo + 2) hy hn (by omega) (by omega) with h | h | ⟨h1, h2, h3 | ⟨_, h3⟩⟩ | h
    · omega
    · rw [h.1, hh]; simp
    · omega
    · rw [h3]; simp
    · omega

/-- Which block leads to which. -/
theorem switch_key {q x : Nat} {cs : List (Option Nat × Prg)} {k : Prg} {es : List (Option Nat × Nat)} {bb mm : Nat → Nat}
    (I : Inlet F tops N bt c l lo hi) (ha : (F c).act = .switch q es lo) (h3 : es.length = cs.length)
    (h4 : ∀ j v p, cs[j]? = some (v, p) → es[j]? = some (v, bb j)) (h5 : bb 0 = lo + 1) (h6 : bb cs.length = x)
    (f1 : ∀ j v p, cs[j]? = some (v, p) → Frag F tops' s (.block p .nil) bt (bb j) [] (mm j) (bb j + 1) (bb (j + 1)))
    (h7 : ∀ j v p, cs[j]? = some (v, p) → (F (mm j)).act = .goto lo) (f2 : Frag F tops' s k bt lo [] l x hi) :
    ∀ y n, y < N → n ∈ succs (F y).act → lo ≤ n → n < hi → (y = c ∧ (n = lo ∨ ∃ j, j < cs.length ∧ n = bb j)) ∨
      (lo + 1 ≤ y ∧ y < x ∧ n = lo) ∨
      (∃ j, j < cs.length ∧ bb j ≤ y ∧ y < bb (j + 1) ∧ bb j + 1 ≤ n ∧ n < bb (j + 1)) ∨ ((y = lo ∨ (x ≤ y ∧ y < hi)) ∧ x ≤ n) := by
  have hmn := seq_le (bb := bb) (n := cs.length) (fun j hj => by
    obtain ⟨⟨v, p⟩, hg⟩ := get_of_lt hj
    exact (f1 j v p hg).range.1)
  have r2 := f2.range
  have hx := (hmn 0 (by omega)).2
  have hN := I.le
  intro y n hy hn h1 h2
  by_cases e : y = c
  · subst e
    rw [ha] at hn
    simp only [succs, kids, List.mem_append, List.mem_map, List.mem_singleton] at hn
    rcases hn with ⟨⟨v, n'⟩, hn, rfl⟩ | rfl
    · obtain ⟨j, hj⟩ := List.mem_iff_getElem?.mp hn
      have hlt := (List.getElem?_eq_some_iff.mp hj).1
      rw [h3] at hlt
      obtain ⟨⟨v', p⟩, hg⟩ := get_of_lt hlt
      rw [h4 j v' p hg] at hj
      cases hj
      exact .inl ⟨rfl, .inr ⟨j, hlt, rfl⟩⟩
    · exact .inl ⟨rfl, .inl rfl⟩
  have hin := (I.pred y n hy hn h1 h2).resolve_left e
  by_cases e3 : lo + 1 ≤ y ∧ y < x
  · obtain ⟨j, hj, g1, g2⟩ := seq_cover (bb := bb) (n := cs.length) (x := y) (by omega) (by omega)
    obtain ⟨⟨v, p⟩, hg⟩ := get_of_lt hj
    by_cases e4 : y = mm j
    · rw [e4] at hn
      exact .inr (.inl ⟨e3.1, e3.2, succs_goto (h7 j v p hg) hn⟩)
    · have := (f1 j v p hg).near (lo0 := lo) I.brk (by omega) e4 hn h1
      exact .inr (.inr (.inl ⟨j, hj, g1, g2, this⟩))
  by_cases e4 : y = l
  · subst e4
    exact absurd h2 (fun h => I.out n hn h1 h)
  · have := f2.near (lo0 := lo) I.brk (by omega) e4 hn h1
    exact .inr (.inr (.inr ⟨by omega, this.1⟩))

theorem switch {q x : Nat} {cs : List (Option Nat × Prg)} {k : Prg} {es : List (Option Nat × Nat)} {bb mm : Nat → Nat}
    (I : Inlet F tops N bt c l lo hi) (ha : (F c).act = .switch q es lo) (h3 : es.length = cs.length)
    (h4 : ∀ j v p, cs[j]? = some (v, p) → es[j]? = some (v, bb j)) (h5 : bb 0 = lo + 1) (h6 : bb cs.length = x)
    (f1 : ∀ j v p, cs[j]? = some (v, p) → Frag F tops' s (.block p .nil) bt (bb j) [] (mm j) (bb j + 1) (bb (j + 1)))
    (h7 : ∀ j v p, cs[j]? = some (v, p) → (F (mm j)).act = .goto lo) (f2 : Frag F tops' s k bt lo [] l x hi) :
    (∀ j v p, cs[j]? = some (v, p) → Inlet F tops N bt (bb j) (mm j) (bb j + 1) (bb (j + 1)) ∧ NoIf F N (bb j)) ∧ Inlet F tops N bt lo l x hi := by
  have hmn := seq_le (bb := bb) (n := cs.length) (fun j hj => by
    obtain ⟨⟨v, p⟩, hg⟩ := get_of_lt hj
    exact (f1 j v p hg).range.1)
  have r2 := f2.range
  have hx := (hmn 0 (by omega)).2
  have hN := I.le
  -- the cases
  have key := I.switch_key ha h3 h4 h5 h6 f1 h7 f2
  -- cases do not overlap
  have sep : ∀ i j, i ≤ cs.length → j ≤ cs.length → i < j → bb i + 1 ≤ bb j ∧ bb (i + 1) ≤ bb j := by
    intro i j hi hj hij
    have step : ∀ k, k < cs.length → bb k + 1 ≤ bb (k + 1) := fun k hk => by
      obtain ⟨⟨v, p⟩, hg⟩ := get_of_lt hk
      exact (f1 k v p hg).range.1
    have mono : ∀ d, i + 1 + d ≤ cs.length → bb (i + 1) ≤ bb (i + 1 + d) := by
      intro d
      induction d with
      | zero => intro _; exact le_rfl
      | succ d ih =>
        intro hd
        have := ih (by omega)
        have := step (i + 1 + d) (by omega)
        rw [show i + 1 + (d + 1) = i + 1 + d + 1 by omega]
        omega
    have h1 := step i (by omega)
    have h2 := mono (j - (i + 1)) (by omega)
    rw [show i + 1 + (j - (i + 1)) = j by omega] at h2
    exact ⟨by omega, h2⟩
  refine ⟨fun j v p hg => ?_, ⟨by omega, I.le, fun b hb => by have := I.brk b hb; omega, fun y n hy hn h1 h2 => ?_,
    fun n hn h1 h2 => I.out n hn (by omega) h2, fun t ht h1 h2 => I.top t ht (by omega) h2⟩⟩
  · have hj : j < cs.length := (List.getElem?_eq_some_iff.mp hg).1
    have r1 := (f1 j v p hg).range
    have a1 := hmn j (by omega)
    have a2 := hmn (j + 1) hj
    have same : ∀ j' n, j' < cs.length → bb j' + 1 ≤ n → n < bb (j' + 1) → bb j ≤ n → n < bb (j + 1) → j' = j := by
      intro j' n hj' g1 g2 g3 g4
      rcases Nat.lt_trichotomy j' j with h | h | h
      · have := sep j' j (by omega) (by omega) h; omega
      · exact h
      · have := sep j j' (by omega) (by omega) h; omega
    refine ⟨⟨by omega, by omega, fun b hb => by have := I.brk b hb; omega, fun y n hy hn h1 h2 => ?_, fun n hn h1 h2 => ?_,
      fun t ht h1 h2 => I.top t ht (by omega) (by omega)⟩, noIf_of fun y hy hn => ?_⟩
    · rcases key y n hy hn (by omega) (by omega) with ⟨_, h | ⟨j', hj', h⟩⟩ | h | ⟨j', hj', g1, g2, g3, g4⟩ | h
      · omega
      · rcases Nat.lt_trichotomy j' j with h' | h' | h'
        · have := sep j' j (by omega) (by omega) h'; omega
        · subst h'; omega
        · have := sep j j' (by omega) (by omega) h'; omega
      · omega
      · obtain rfl := same j' n hj' g3 g4 (by omega) h2
        omega
      · omega
    · have := succs_goto (h7 j v p hg) hn
      omega
    · intro q' i' u' it' e' v' et' hact
      rcases key y (bb j) hy hn (by omega) (by omega) with ⟨h, _⟩ | h | ⟨j', hj', g1, g2, g3, g4⟩ | h
      · rw [h, ha] at hact; cases hact
      · omega
      · obtain rfl := same j' _ hj' g3 g4 le_rfl (by omega)
        omega
      · omega
  · rcases key y n hy hn (by omega) h2 with ⟨_, h | ⟨j', hj', h⟩⟩ | h | ⟨j', hj', g1, g2, g3, g4⟩ | h
    · omega
    · have := sep j' cs.length (by omega) le_rfl hj'; omega
    · omega
    · have := hmn (j' + 1) hj'; omega
    · omega

end Inlet

/-! ### Blocks after a `break` or `return` -/

/-- The end of statements that do not come to their end is not on the way. -/
theorem Frag.dead (h : Frag F tops' s p bt c pre l lo hi) {D : Nat → Prop}
    (hw : ∀ x, x < N → 0 < x → x ∉ tops → D x → ∃ y, y < N ∧ x ∈ succs (F y).act ∧ ((∃ t r, (F y).act = .call t r) ∨ D y))
    (I : Inlet F tops N bt c l lo hi) (ht : p.tidy = true) (hp : p.canEnd = false) : ¬ D l := by
  induction h with
  | nil => simp [Prg.canEnd] at hp
  | instr _ ih => exact ih I (by rw [Prg.tidy] at ht; exact ht) (by rw [Prg.canEnd] at hp; exact hp)
  | @step k bt c pre l lo hi h1 ha hs h4 f1 ih =>
    exact ih (I.step ha f1) (by rw [Prg.tidy] at ht; exact ht) (by rw [Prg.canEnd] at hp; exact hp)
  | @block b k bt c pre l lo hi m x h1 ha h3 f1 hm h5 f2 hz ih1 ih2 =>
    obtain ⟨I1, I2, _, hx⟩ := I.block ha f1 hm f2
    have r1 := f1.range
    have r2 := f2.range
    have hN := I.le
    rw [Prg.tidy, Bool.and_eq_true, Bool.and_eq_true] at ht
    rw [Prg.canEnd, Bool.and_eq_false_iff] at hp
    by_cases hb : b.canEnd = true
    · exact ih2 I2 ht.1.2 (hp.resolve_left (by rw [hb]; simp))
    · have hb : b.canEnd = false := by simpa using hb
      have hk : k.isNil = true := by simpa [hb] using ht.2
      cases k with
      | nil =>
        cases f2
        intro hD
        obtain ⟨y, hy, hs, hc⟩ := hw _ (by omega) (by omega) (fun h => I.top _ h (by omega) (by omega)) hD
        have := hx y hy hs
        subst this
        rcases hc with ⟨t, r, hc⟩ | hc
        · rw [hm] at hc; cases hc
        · exact ih1 I1 ht.1.1 hb hc
      | _ => simp [Prg.isNil] at hk
  | @ifThen q t k bt c pre l lo hi it a h1 ha f1 hm h4 h5 h6 he h8 h9 h10 f2 hz ih1 ih2 =>
    have r1 := f1.range
    have f0 : Frag F tops' s .nil bt (lo + 1) [] (lo + 1) a a := .nil h6
    rw [Prg.tidy, Bool.and_eq_true] at ht
    exact ih2 (I.ifElse ha f1 hm f0 he f2).2.2.1 ht.2 (by rw [Prg.canEnd] at hp; exact hp)
  | @ifElse q t e0 k bt c pre l lo hi it et m a h1 ha f1 hm h4 h5 f2 he h8 h9 h10 f3 hz ih1 ih2 ih3 =>
    rw [Prg.tidy, Bool.and_eq_true] at ht
    exact ih3 (I.ifElse ha f1 hm f2 he f3).2.2.1 ht.2 (by rw [Prg.canEnd] at hp; exact hp)
  | @loop q b k bt c pre l lo hi m x h1 ha hs h4 hh h6 f1 hm f2 hz ih1 ih2 =>
    rw [Prg.tidy, Bool.and_eq_true] at ht
    exact ih2 (I.loop ha hh f1 hm f2).2.1 ht.2 (by rw [Prg.canEnd] at hp; exact hp)
  | @brk k b c pre l lo hi h1 ha hs f1 ih =>
    rw [Prg.tidy] at ht
    have hb := I.brk b rfl
    cases k with
    | nil =>
      cases f1
      intro hD
      have hN := I.le
      obtain ⟨y, hy, hs, _⟩ := hw _ (by omega) (by have := I.lt; omega) (fun h => I.top _ h le_rfl (by omega)) hD
      exact I.dead hy (by rw [ha]; simp [succs, kids]; omega) hs
    | _ => simp [Prg.isNil] at ht
  | @switch q cs k bt c pre l lo hi x es bb mm h1 ha h3 h4 h5 h6 f1 h7 h8 h9 f2 hz ih1 ih2 =>
    rw [Prg.tidy, Bool.and_eq_true] at ht
    exact ih2 (I.switch ha h3 h4 h5 h6 f1 (fun j v p hg => (h7 j v p hg).1) f2).2 ht.2 (by rw [Prg.canEnd] at hp; exact hp)
  | @call z give take outs k bt c pre l lo hi t h1 ht' ha hs f1 hz ih =>
    exact ih (I.call ha f1) (by rw [Prg.tidy] at ht; exact ht) (by rw [Prg.canEnd] at hp; exact hp)
  | @join inst take outs k bt c pre l lo hi h1 ha hs h4 hh h6 f1 hz ih =>
    exact ih (I.join ha hh f1) (by rw [Prg.tidy] at ht; exact ht) (by rw [Prg.canEnd] at hp; exact hp)
  | @ret k bt c pre l lo hi z h1 hz ha hs f1 ih =>
    rw [Prg.tidy] at ht
    cases k with
    | nil =>
      cases f1
      intro hD
      have hN := I.le
      obtain ⟨y, hy, hs, _⟩ := hw _ (by omega) (by have := I.lt; omega) (fun h => I.top _ h le_rfl (by omega)) hD
      exact I.dead hy (by rw [ha]; simp [succs, kids]) hs
    | _ => simp [Prg.isNil] at ht

/-- The end of statements that come to their end is on the way. -/
theorem Frag.walks {B : Type} {g : Cfg B} {f : Nat → B} (h : Frag F tops' s p bt c pre l lo hi) (O : Over F f N g) (hc : c < N) (hN : hi ≤ N)
    (hcall : ∀ b t r, b < N → (F b).act = .call t r → (∃ z : Nat, tops'[z]? = some t) → Walked g (f b) → Walked g (f r))
    (hp : p.canEnd = true) (hr : Walked g (f c)) : Walked g (f l) := by
  have goto : ∀ {b n : Nat}, b < N → (F b).act = .goto n → Walked g (f b) → Walked g (f n) := fun hb ha hw =>
    .child hw (by simp [Cfg.children, O.goto hb ha])
  induction h with
  | nil => exact hr
  | instr _ ih => exact ih hc hN (by rw [Prg.canEnd] at hp; exact hp) hr
  | @step k bt c pre l lo hi h1 ha hs h4 f1 ih =>
    have r := f1.range
    exact ih (by omega) hN (by rw [Prg.canEnd] at hp; exact hp) (goto hc ha hr)
  | @block b k bt c pre l lo hi m x h1 ha h3 f1 hm h5 f2 hz ih1 ih2 =>
    have r1 := f1.range
    have r2 := f2.range
    rw [Prg.canEnd, Bool.and_eq_true] at hp
    have := ih1 (by omega) (by omega) hp.1 (goto hc ha hr)
    exact ih2 (by omega) hN hp.2 (goto (by omega) hm this)
  | @ifThen q t k bt c pre l lo hi it a h1 ha f1 hm h4 h5 h6 he h8 h9 h10 f2 hz ih1 ih2 =>
    have r1 := f1.range
    have r2 := f2.range
    exact ih2 (by omega) hN (by rw [Prg.canEnd] at hp; exact hp) (.child hr (by simp [Cfg.children, O.ifElse hc ha]))
  | @ifElse q t e0 k bt c pre l lo hi it et m a h1 ha f1 hm h4 h5 f2 he h8 h9 h10 f3 hz ih1 ih2 ih3 =>
    have r1 := f1.range
    have r2 := f2.range
    have r3 := f3.range
    exact ih3 (by omega) hN (by rw [Prg.canEnd] at hp; exact hp) (.child hr (by simp [Cfg.children, O.ifElse hc ha]))
  | @loop q b k bt c pre l lo hi m x h1 ha hs h4 hh h6 f1 hm f2 hz ih1 ih2 =>
    have r1 := f1.range
    have r2 := f2.range
    exact ih2 (by omega) hN (by rw [Prg.canEnd] at hp; exact hp)
      (.child (goto hc ha hr) (by simp [Cfg.children, O.loop (b := lo) (by omega) hh]))
  | brk => simp [Prg.canEnd] at hp
  | @switch q cs k bt c pre l lo hi x es bb mm h1 ha h3 h4 h5 h6 f1 h7 h8 h9 f2 hz ih1 ih2 =>
    have r2 := f2.range
    have hm := seq_le (bb := bb) (n := cs.length) (fun j hj => by
      obtain ⟨⟨v, p⟩, hg⟩ := get_of_lt hj
      exact (f1 j v p hg).range.1)
    have := (hm 0 (by omega)).2
    exact ih2 (by omega) hN (by rw [Prg.canEnd] at hp; exact hp) (.child hr (by simp [Cfg.children, O.switch hc ha]))
  | @call z give take outs k bt c pre l lo hi t h1 ht ha hs f1 hz ih =>
    have r := f1.range
    exact ih (by omega) hN (by rw [Prg.canEnd] at hp; exact hp) (hcall c t lo hc ha ⟨z, ht⟩ hr)
  | @join inst take outs k bt c pre l lo hi h1 ha hs h4 hh h6 f1 hz ih =>
    have r := f1.range
    exact ih (by omega) hN (by rw [Prg.canEnd] at hp; exact hp)
      (.child (goto hc ha hr) (by simp [Cfg.children, O.wait (b := lo) (by omega) hh]))
  | ret => simp [Prg.canEnd] at hp

end Silice
