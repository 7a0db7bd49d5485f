import Verif.Lemmas.GatherAt

/-! Cycles of the graph of a unit are cycles of its statements. -/

set_option autoImplicit false

namespace Silice

/-- Instructions of blocks: possibly a read of results, then plain instructions. -/
def Shape (is : List PIns) : Prop := ∃ ps : List Nat, is = ps.map .plain ∨ ∃ t o, is = .readback t o :: ps.map .plain

theorem Shape.nil : Shape [] := ⟨[], .inl rfl⟩

theorem Shape.read (t : Nat) (o : Bool) : Shape [.readback t o] := ⟨[], .inr ⟨t, o, rfl⟩⟩

theorem Shape.plain {is : List PIns} (h : Shape is) (i : Nat) : Shape (is ++ [.plain i]) := by
  obtain ⟨ps, rfl | ⟨t, o, rfl⟩⟩ := h
  · exact ⟨ps ++ [i], .inl (by simp)⟩
  · exact ⟨ps ++ [i], .inr ⟨t, o, by simp⟩⟩

/-- Blocks are considered empty when they do nothing. -/
theorem Shape.empty {is : List PIns} (h : Shape is) : insEmpty is = (insDids is).isEmpty := by
  obtain ⟨ps, rfl | ⟨t, o, rfl⟩⟩ := h
  · cases ps with
    | nil => rfl
    | cons a ps => cases ps <;> simp [insEmpty, insDids, PIns.dids]
  · cases ps with
    | nil => cases o <;> rfl
    | cons a ps => cases o <;> simp [insEmpty, insDids, PIns.dids]

theorem insDids_append (a b : List PIns) : insDids (a ++ b) = insDids a ++ insDids b := by simp [insDids]

theorem Meaning.all_append {σ : Type} (M : Meaning σ) (a b : List Did) (s : σ) : M.all (a ++ b) s = M.all b (M.all a s) := by
  simp [Meaning.all]

theorem find_aligned {A D : Type} (R : A → D → Prop) (m : Option Nat → Bool) : ∀ (cs : List (Option Nat × A)) (es : List (Option Nat × D)),
    es.length = cs.length → (∀ (j : Nat) v a, cs[j]? = some (v, a) → ∃ d, es[j]? = some (v, d) ∧ R a d) →
    (∃ v a d, cs.find? (fun e => m e.1) = some (v, a) ∧ es.find? (fun e => m e.1) = some (v, d) ∧ R a d) ∨
      (cs.find? (fun e => m e.1) = none ∧ es.find? (fun e => m e.1) = none)
  | [], [], _, _ => .inr ⟨rfl, rfl⟩
  | (v, a) :: cs, (v', d) :: es, hl, h => by
    obtain ⟨d', hd, hr⟩ := h 0 v a rfl
    simp only [List.getElem?_cons_zero, Option.some.injEq, Prod.mk.injEq] at hd
    obtain ⟨rfl, rfl⟩ := hd
    by_cases hm : m v' = true
    · exact .inl ⟨v', a, d, by simp [hm], by simp [hm], hr⟩
    · have := find_aligned R m cs es (by simpa using hl) (fun j v a hj => by simpa using h (j + 1) v a (by simpa using hj))
      simpa [List.find?_cons, hm] using this

theorem pick_aligned {A D : Type} (R : A → D → Prop) (m : Nat → Bool) (cs : List (Option Nat × A)) (es : List (Option Nat × D))
    (hl : es.length = cs.length) (h : ∀ (j : Nat) v a, cs[j]? = some (v, a) → ∃ d, es[j]? = some (v, d) ∧ R a d) :
    (∃ a d, pickCase m cs = some a ∧ pickCase m es = some d ∧ R a d) ∨ (pickCase m cs = none ∧ pickCase m es = none) := by
  unfold pickCase
  rcases find_aligned R (labelMatches m) cs es hl h with ⟨v, a, d, h1, h2, h3⟩ | ⟨h1, h2⟩
  · rw [h1, h2]; exact .inl ⟨a, d, rfl, rfl, h3⟩
  · rw [h1, h2]
    rcases find_aligned R Option.isNone cs es hl h with ⟨v, a, d, h1, h2, h3⟩ | ⟨h1, h2⟩
    · rw [h1, h2]; exact .inl ⟨a, d, rfl, rfl, h3⟩
    · rw [h1, h2]; exact .inr ⟨rfl, rfl⟩

section
variable {u : AlgUnit} {st : PSt} {last n0 l0 lo0 : Nat} {g : Cfg (Fin (last + 1))} {ff ff0 : Fin (last + 1) → Fin (last + 1)}
  {num : Num (Fin (last + 1))}

/-- What remains when the end `l` of a sequence is reached, with the blocks to return to; `e`: the end may be reached. -/
inductive Conts (st : PSt) (last : Nat) (ff0 : Fin (last + 1) → Fin (last + 1)) (g : Cfg (Fin (last + 1))) :
    Option Nat → Option Nat → Bool → List Frame → Nat → List Nat → Prop where
  | halt {e : Bool} {l : Nat} : (st.blk l).act = .goto last → Conts st last ff0 g none none e [] l []
  | after {s bt : Option Nat} {e cut : Bool} {k : Prg} {K : List Frame} {l x l' : Nat} {stk : List Nat} :
      (st.blk l).act = .goto x → x < last + 1 → (st.blk x).noSkip = false → (e = true → Ruled st last ff0 g x cut) →
      At st last s k bt x [] l' → Conts st last ff0 g s bt (e && k.canEnd) K l' stk →
      Conts st last ff0 g s bt e (.after k cut :: K) l stk
  | again {s bt : Option Nat} {e : Bool} {q : Nat} {b k : Prg} {K : List Frame} {h l l' : Nat} {stk : List Nat} :
      (st.blk l).act = .goto h → (∃ m, LoopAt st last ff0 g s q b k bt h m l') → Conts st last ff0 g s bt k.canEnd K l' stk →
      Conts st last ff0 g s (some (h + 2)) e (.again q b k :: K) l stk
  | back {s bt : Option Nat} {e outs : Bool} {z take : Nat} {k : Prg} {K : List Frame} {l r l' : Nat} {stk : List Nat} :
      (st.blk l).act = .ret z → r < last + 1 → (st.blk r).isState = true ∧ (st.blk r).noSkip = false → Walked (st.cfg last) (nm last r) →
      At st last s k bt r [.readback take outs] l' → Conts st last ff0 g s bt k.canEnd K l' stk →
      Conts st last ff0 g (some z) none e (.back take outs k :: K) l (r :: stk)

theorem Conts.weaken {s bt : Option Nat} {e : Bool} {K : List Frame} {l : Nat} {stk : List Nat} (h : Conts st last ff0 g s bt e K l stk) :
    ∀ {e' : Bool}, (e' = true → e = true) → Conts st last ff0 g s bt e' K l stk := by
  induction h with
  | halt h => exact fun _ => .halt h
  | after h1 h2 h3 h4 h5 _ ih =>
    intro e' he
    refine .after h1 h2 h3 (fun h => h4 (he h)) h5 (ih fun h => ?_)
    rw [Bool.and_eq_true] at h ⊢
    exact ⟨he h.1, h.2⟩
  | again h1 h2 h3 => exact fun _ => .again h1 h2 h3
  | back h1 h2 h3 h4 h5 h6 => exact fun _ => .back h1 h2 h3 h4 h5 h6

/-- Where `break` goes. -/
theorem Conts.leave {s bt : Option Nat} {e : Bool} {K : List Frame} {l : Nat} {stk : List Nat} (h : Conts st last ff0 g s bt e K l stk) {b : Nat}
    (hb : bt = some b) : ∃ k K' bt' l', Silice.leave K = some (k, K') ∧ b < last + 1 ∧ (st.blk b).noSkip = false ∧ At st last s k bt' b [] l' ∧
      Conts st last ff0 g s bt' k.canEnd K' l' stk := by
  induction h with
  | halt => cases hb
  | after _ _ _ _ _ _ ih =>
    obtain ⟨k, K', bt', l', h1, h2⟩ := ih hb
    exact ⟨k, K', bt', l', by rw [Silice.leave]; exact h1, h2⟩
  | @again s bt e q b' k K h l l' stk h1 h2 h3 =>
    cases hb
    obtain ⟨m, L⟩ := h2
    exact ⟨k, K, bt, l', rfl, L.lt, L.skip.2, L.rest, h3⟩
  | back => cases hb

/-- Where `return` goes. -/
theorem Conts.unwind {s bt : Option Nat} {e : Bool} {K : List Frame} {l : Nat} {stk : List Nat} (h : Conts st last ff0 g s bt e K l stk) {z : Nat}
    (hz : s = some z) : ∃ take outs k K' s' bt' l' r stk', Silice.unwind K = some (take, outs, k, K') ∧ stk = r :: stk' ∧ r < last + 1 ∧
      ((st.blk r).isState = true ∧ (st.blk r).noSkip = false) ∧ Walked (st.cfg last) (nm last r) ∧ At st last s' k bt' r [.readback take outs] l' ∧
      Conts st last ff0 g s' bt' k.canEnd K' l' stk' := by
  induction h with
  | halt => cases hz
  | after _ _ _ _ _ _ ih =>
    obtain ⟨t, o, k, K', s', bt', l', r, stk', h1, h2⟩ := ih hz
    exact ⟨t, o, k, K', s', bt', l', r, stk', by rw [Silice.unwind]; exact h1, h2⟩
  | again _ _ _ ih =>
    obtain ⟨t, o, k, K', s', bt', l', r, stk', h1, h2⟩ := ih hz
    exact ⟨t, o, k, K', s', bt', l', r, stk', by rw [Silice.unwind]; exact h1, h2⟩
  | back h1 h2 h3 h4 h5 h6 => exact ⟨_, _, _, _, _, _, _, _, _, rfl, rfl, h2, h3, h4, h5, h6⟩

/-- Execution is at the start of block `b`, with the blocks to return to. -/
inductive Match (st : PSt) (last : Nat) (ff0 : Fin (last + 1) → Fin (last + 1)) (g : Cfg (Fin (last + 1))) : Ctl → Nat → List Nat → Prop where
  | run {s bt : Option Nat} {p : Prg} {K : List Frame} {b l : Nat} {stk : List Nat} : At st last s p bt b [] l →
      Conts st last ff0 g s bt p.canEnd K l stk → Match st last ff0 g (.run p K) b stk
  | head {s bt : Option Nat} {q : Nat} {b k : Prg} {K : List Frame} {h m l : Nat} {stk : List Nat} : LoopAt st last ff0 g s q b k bt h m l →
      Conts st last ff0 g s bt k.canEnd K l stk → Match st last ff0 g (.head q b k K) h stk
  | waiting {s bt : Option Nat} {inst take : Nat} {outs : Bool} {k : Prg} {K : List Frame} {w l : Nat} {stk : List Nat} :
      w + 1 < last + 1 → (st.blk w).isState = true → (st.blk w).noSkip = false →
      (st.blk w).ins = [] → (st.blk w).act = .wait inst w (w + 1) → (st.blk (w + 1)).isState = true → (st.blk (w + 1)).noSkip = false →
      At st last s k bt (w + 1) [.readback take outs] l → Conts st last ff0 g s bt k.canEnd K l stk →
      Match st last ff0 g (.waiting inst take outs k K) w stk
  | reading {s bt : Option Nat} {take : Nat} {outs : Bool} {k : Prg} {K : List Frame} {r l : Nat} {stk : List Nat} :
      At st last s k bt r [.readback take outs] l → Conts st last ff0 g s bt k.canEnd K l stk → Match st last ff0 g (.reading take outs k K) r stk

/-- The end of a cycle of the graph and of the statements correspond. -/
inductive Ended (st : PSt) (last : Nat) (ff0 : Fin (last + 1) → Fin (last + 1)) (g : Cfg (Fin (last + 1))) (stk : List Nat) :
    Out (Fin (last + 1)) → Option (Ctl × Bool) → Prop where
  | halt : Ended st last ff0 g stk .halt none
  | jump {n : Nat} {c : Ctl} : n < last + 1 → Walked (st.cfg last) (nm last n) → Match st last ff0 g c n stk →
      Ended st last ff0 g stk (.jump (nm last n)) (some (c, !(st.blk n).noSkip))
  | call {b : Fin (last + 1)} {t r : Nat} {c : Ctl} : t < last + 1 → (st.blk t).isState = true ∧ (st.blk t).noSkip = false → Walked (st.cfg last) (nm last t) →
      Match st last ff0 g c t (r :: stk) → Ended st last ff0 g stk (.call b (nm last t) (nm last r)) (some (c, true))
  | ret {b : Fin (last + 1)} {z r : Nat} {stk' : List Nat} {c : Ctl} : stk = r :: stk' → r < last + 1 → (st.blk r).isState = true ∧ (st.blk r).noSkip = false →
      Walked (st.cfg last) (nm last r) → Match st last ff0 g c r stk' → Ended st last ff0 g stk (.ret b z) (some (c, true))

/-- Events of a sequence of blocks. -/
def events (st : PSt) (last : Nat) (tr : List (Fin (last + 1))) : List Did := tr.flatMap fun b : Fin (last + 1) => insDids (st.blk b).ins

variable {σ : Type} (M : Meaning σ)

/-- Meaning of the blocks of a unit. -/
def unitSem (st : PSt) (last : Nat) (M : Meaning σ) : Sem (Fin (last + 1)) σ := M.sem fun b => (st.blk b).ins

variable (u st last ff0 g) in
/-- The statements do in a cycle what the blocks do, some of which (`done`) is already done. -/
def Fine (c : Ctl) (fl : Bool) (s : σ) (done : List Did) (tr : List (Fin (last + 1))) (s' : σ) (o : Out (Fin (last + 1))) (stk : List Nat) : Prop :=
  ∃ es o', TCycle (u.globals ++ u.locals) M c fl s es s' o' ∧ events st last tr = done ++ es ∧ Ended st last ff0 g stk o o'

variable (u st last ff0 g) in
/-- Cycles through blocks `tr` are cycles of the statements. -/
def SimTr (tr : List (Fin (last + 1))) : Prop := ∀ b fl s s' o c stk, b < last + 1 →
  BCycle (ruled st last ff0 g) (unitSem st last M) (nm last b) fl s tr s' o → Walked (st.cfg last) (nm last b) → Match st last ff0 g c b stk →
  Fine u st last g ff0 M c fl s [] tr s' o stk

theorem exec_nm {b : Nat} (hb : b < last + 1) (s : σ) : (unitSem st last M).exec (nm last b) s = M.all (insDids (st.blk b).ins) s := by
  show M.all (insDids (st.blk ((nm last b : Fin (last + 1)) : Nat)).ins) s = _
  rw [nm_val hb]

theorem events_cons {b : Nat} (hb : b < last + 1) (tr : List (Fin (last + 1))) :
    events st last (nm last b :: tr) = insDids (st.blk b).ins ++ events st last tr := by
  show insDids (st.blk ((nm last b : Fin (last + 1)) : Nat)).ins ++ _ = _
  rw [nm_val hb]
  rfl

variable (C : Comp u st last n0 l0 lo0 g ff ff0 num) {M} {tr : List (Fin (last + 1))} {stk : List Nat}
  {s s' : σ} {o : Out (Fin (last + 1))} {fl : Bool} {b x : Nat} {c c' : Ctl}

include C

/-- Going from block `b` to block `x` without a test. -/
theorem fine_goto {cut : Bool} (hb : b < last + 1) (hx : x < last + 1)
    (H : BCycle (ruled st last ff0 g) (unitSem st last M) (nm last b) fl s tr s' o)
    (IH : ∀ b' tr', tr = b' :: tr' → SimTr u st last g ff0 M tr') (hW : Walked (st.cfg last) (nm last b)) (ha : (st.blk b).act = .goto x)
    (hE : Shape (st.blk b).ins) (hn : (st.blk x).noSkip = false) (hs : Ruled st last ff0 g x cut)
    (hmv : ∀ s, move (u.globals ++ u.locals) M s c = .cutIf cut c') (hM : Match st last ff0 g c' x stk) :
    Fine u st last g ff0 M c (fl && (insDids (st.blk b).ins).isEmpty) (M.all (insDids (st.blk b).ins) s) (insDids (st.blk b).ins) tr s' o stk := by
  have hact : ((ruled st last ff0 g).blk (nm last b)).act = .goto (nm last x) := by rw [C.act hb, ha]; rfl
  have hfr : freshTo (ruled st last ff0 g) (nm last b) (nm last x) fl = (fl && (insDids (st.blk b).ins).isEmpty) := by
    unfold freshTo
    rw [hact, C.empty hb, C.noSkip hx, hn, hE.empty]
    simp
  have hWx := C.goto hb ha hW
  have hgo : ∀ s, go (ruled st last ff0 g) (unitSem st last M) (nm last b) s = .to (nm last x) := by
    intro s; unfold go; rw [hact]
  cases H with
  | out h => rw [hgo] at h; cases h
  | state h h1 h2 =>
    rw [hgo] at h
    cases h
    rw [hfr] at h2
    rw [exec_nm M hb]
    have hc : cut = true := by rw [← hs]; exact h1
    subst hc
    have := Ended.jump (st := st) (last := last) (ff0 := ff0) (g := g) (stk := stk) hx hWx hM
    rw [hn] at this
    exact ⟨[], _, by rw [h2]; exact .cut (hmv _), by rw [events_cons hb]; rfl, this⟩
  | more h h1 h2 =>
    rw [hgo] at h
    cases h
    rw [hfr] at h1 h2
    rw [exec_nm M hb] at h2
    obtain ⟨es, o', t1, t2, t3⟩ := IH _ _ rfl x _ _ _ _ c' stk hx h2 hWx hM
    refine ⟨es, o', ?_, by rw [events_cons hb, t2]; rfl, t3⟩
    cases cut with
    | false => exact .on (hmv _) t1
    | true =>
      have : (fl && (insDids (st.blk b).ins).isEmpty) = true := h1.resolve_left (by rw [hs]; simp)
      rw [this] at t1 ⊢
      exact .merged (hmv _) t1

/-- Going from block `b` to block `x` because of `++:`. -/
theorem fine_step (hb : b < last + 1) (hx : x < last + 1)
    (H : BCycle (ruled st last ff0 g) (unitSem st last M) (nm last b) fl s tr s' o)
    (hW : Walked (st.cfg last) (nm last b)) (ha : (st.blk b).act = .goto x)
    (hn : (st.blk x).noSkip = true) (hs : (st.blk x).isState = true)
    (hmv : ∀ s, move (u.globals ++ u.locals) M s c = .step c') (hM : Match st last ff0 g c' x stk) (fl' : Bool) :
    Fine u st last g ff0 M c fl' (M.all (insDids (st.blk b).ins) s) (insDids (st.blk b).ins) tr s' o stk := by
  have hact : ((ruled st last ff0 g).blk (nm last b)).act = .goto (nm last x) := by rw [C.act hb, ha]; rfl
  have hfr : freshTo (ruled st last ff0 g) (nm last b) (nm last x) fl = false := by
    unfold freshTo
    rw [C.noSkip hx, hn]
    simp
  have hWx := C.goto hb ha hW
  have hgo : ∀ s, go (ruled st last ff0 g) (unitSem st last M) (nm last b) s = .to (nm last x) := by
    intro s; unfold go; rw [hact]
  cases H with
  | out h => rw [hgo] at h; cases h
  | state h h1 h2 =>
    rw [hgo] at h
    cases h
    rw [exec_nm M hb]
    have := Ended.jump (st := st) (last := last) (ff0 := ff0) (g := g) (stk := stk) hx hWx hM
    rw [hn] at this
    exact ⟨[], _, .step (hmv _), by rw [events_cons hb]; rfl, this⟩
  | more h h1 h2 =>
    rw [hgo] at h
    cases h
    have hst : Ruled st last ff0 g x true := C.state hx hs
    rw [hfr] at h1
    rcases h1 with h1 | h1
    · rw [hst] at h1; cases h1
    · cases h1

/-- Going from block `b` to block `x` after a test. -/
theorem fine_test {cut : Bool} (hb : b < last + 1) (hx : x < last + 1)
    (H : BCycle (ruled st last ff0 g) (unitSem st last M) (nm last b) fl s tr s' o)
    (IH : ∀ b' tr', tr = b' :: tr' → SimTr u st last g ff0 M tr')
    (ha : ∀ n, (st.blk b).act ≠ .goto n)
    (hgo : go (ruled st last ff0 g) (unitSem st last M) (nm last b) (M.all (insDids (st.blk b).ins) s) = .to (nm last x))
    (hWx : Walked (st.cfg last) (nm last x))
    (hn : cut = true → (st.blk x).noSkip = false) (hs : Ruled st last ff0 g x cut)
    (hmv : move (u.globals ++ u.locals) M (M.all (insDids (st.blk b).ins) s) c = .jumpIf cut c') (hM : Match st last ff0 g c' x stk) (fl' : Bool) :
    Fine u st last g ff0 M c fl' (M.all (insDids (st.blk b).ins) s) (insDids (st.blk b).ins) tr s' o stk := by
  have hfr : freshTo (ruled st last ff0 g) (nm last b) (nm last x) fl = false := by
    unfold freshTo
    rw [C.act hb]
    cases h : (st.blk b).act with
    | goto n => exact absurd h (ha n)
    | _ => simp [Act.map]
  rw [← exec_nm M hb] at hgo
  cases H with
  | out h => rw [hgo] at h; cases h
  | state h h1 h2 =>
    rw [hgo] at h
    cases h
    rw [exec_nm M hb]
    have hc : cut = true := by rw [← hs]; exact h1
    subst hc
    have := Ended.jump (st := st) (last := last) (ff0 := ff0) (g := g) (stk := stk) hx hWx hM
    rw [hn rfl] at this
    exact ⟨[], _, .jump hmv, by rw [events_cons hb]; rfl, this⟩
  | more h h1 h2 =>
    rw [hgo] at h
    cases h
    rw [hfr] at h1 h2
    rw [exec_nm M hb] at h2
    have hc : cut = false := by
      rw [← hs]
      exact h1.resolve_right (by simp)
    subst hc
    obtain ⟨es, o', t1, t2, t3⟩ := IH _ _ rfl x _ _ _ _ c' stk hx h2 hWx hM
    exact ⟨es, o', .tested hmv t1, by rw [events_cons hb, t2]; rfl, t3⟩

omit C in
/-- Leaving the cycle from block `b`. -/
theorem fine_out {out : Out (Fin (last + 1))} {o' : Option (Ctl × Bool)} (hb : b < last + 1)
    (H : BCycle (ruled st last ff0 g) (unitSem st last M) (nm last b) fl s tr s' o)
    (hgo : ∀ s, go (ruled st last ff0 g) (unitSem st last M) (nm last b) s = .out out) (fl' : Bool)
    (hT : ∀ s, TCycle (u.globals ++ u.locals) M c fl' s [] s o') (hE : Ended st last ff0 g stk out o') :
    Fine u st last g ff0 M c fl' (M.all (insDids (st.blk b).ins) s) (insDids (st.blk b).ins) tr s' o stk := by
  cases H with
  | out h =>
    rw [hgo] at h
    cases h
    rw [exec_nm M hb]
    exact ⟨[], o', hT _, by rw [events_cons hb]; rfl, hE⟩
  | state h => rw [hgo] at h; cases h
  | more h => rw [hgo] at h; cases h

omit C in
theorem fine_did {e : Did} {done : List Did} (hmv : move (u.globals ++ u.locals) M s c = .did e c')
    (h : Fine u st last g ff0 M c' false (M.did e s) (done ++ [e]) tr s' o stk) : Fine u st last g ff0 M c fl s done tr s' o stk := by
  obtain ⟨es, o', h1, h2, h3⟩ := h
  exact ⟨e :: es, o', .did hmv h1, by rw [h2]; simp, h3⟩

omit C in
theorem fine_on {done : List Did} (hmv : move (u.globals ++ u.locals) M s c = .on c')
    (h : Fine u st last g ff0 M c' fl s done tr s' o stk) : Fine u st last g ff0 M c fl s done tr s' o stk := by
  obtain ⟨es, o', h1, h2, h3⟩ := h
  exact ⟨es, o', .on hmv h1, h2, h3⟩

omit C in
theorem go_switch_some {B : Type} {g : Cfg B} {S : Sem B σ} {b a n : B} {q : Nat} {es : List (Option Nat × B)}
    (h : (g.blk b).act = .switch q es a) (hp : pickCase (fun v => S.label q v s) es = some n) : go g S b s = .to n := by
  unfold go; rw [h]; simp only [hp]

omit C in
theorem go_switch_none {B : Type} {g : Cfg B} {S : Sem B σ} {b a : B} {q : Nat} {es : List (Option Nat × B)}
    (h : (g.blk b).act = .switch q es a) (hp : pickCase (fun v => S.label q v s) es = none) : go g S b s = .to a := by
  unfold go; rw [h]; simp only [hp]

/-- A conditional. -/
theorem fine_if {sub bt : Option Nat} {q : Nat} {t e k : Prg} {cut : Bool} {pre : List PIns} {l i it el et a : Nat} {x y : Bool} {K : List Frame}
    (I : IfAt st last ff0 g sub q t e k cut bt b pre l i it el et a x y) (hb : b < last + 1)
    (H : BCycle (ruled st last ff0 g) (unitSem st last M) (nm last b) fl s tr s' o)
    (IH : ∀ b' tr', tr = b' :: tr' → SimTr u st last g ff0 M tr') (hW : Walked (st.cfg last) (nm last b))
    (hC : Conts st last ff0 g sub bt k.canEnd K l stk)
    (hmv : ∀ s, move (u.globals ++ u.locals) M s c = .tested (.run (if M.test q s then t else e) (.after k cut :: K))) (fl' : Bool) :
    Fine u st last g ff0 M c fl' (M.all (insDids pre) s) (insDids pre) tr s' o stk := by
  have act0 := C.P.over0.ifElse hb I.act
  have hw : ∀ n, n = i ∨ n = el → Walked (st.cfg last) (nm last n) := by
    rintro n (rfl | rfl)
    · exact .child hW (by simp only [Cfg.children, act0]; simp)
    · exact .child hW (by simp only [Cfg.children, act0]; simp)
  have hgo : ∀ s, go (ruled st last ff0 g) (unitSem st last M) (nm last b) s = .to (nm last (if M.test q s then i else el)) := by
    intro s
    unfold go
    rw [C.act hb, I.act]
    show Go.to (if M.test q s then nm last i else nm last el) = _
    split_ifs <;> rfl
  rw [← I.ins]
  cases hq : M.test q (M.all (insDids (st.blk b).ins) s) with
  | true =>
    refine fine_test C (x := i) (cut := false) hb I.lt.1 H IH (by rw [I.act]; simp) (by rw [hgo, hq]; rfl) (hw i (.inl rfl)) (by simp) I.si
      (by rw [hmv, hq]; rfl) ?_ fl'
    exact .run I.ti (.after I.ei I.lt.2.2 I.skip (fun h => I.flag hW (.inl h)) I.tk (hC.weaken fun h => by rw [Bool.and_eq_true] at h; exact h.2))
  | false =>
    refine fine_test C (x := el) (cut := false) hb I.lt.2.1 H IH (by rw [I.act]; simp) (by rw [hgo, hq]; rfl) (hw el (.inr rfl)) (by simp) I.se
      (by rw [hmv, hq]; rfl) ?_ fl'
    exact .run I.te (.after I.ee I.lt.2.2 I.skip (fun h => I.flag hW (.inr h)) I.tk (hC.weaken fun h => by rw [Bool.and_eq_true] at h; exact h.2))

/-- The statements that start in block `b`. -/
theorem fine_stm (hb : b < last + 1) (H : BCycle (ruled st last ff0 g) (unitSem st last M) (nm last b) fl s tr s' o)
    (IH : ∀ b' tr', tr = b' :: tr' → SimTr u st last g ff0 M tr') (hW : Walked (st.cfg last) (nm last b)) :
    ∀ (p : Prg) (pre : List PIns) (K : List Frame) (sub bt : Option Nat) (l : Nat), Shape pre → At st last sub p bt b pre l →
      Conts st last ff0 g sub bt p.canEnd K l stk →
      Fine u st last g ff0 M (.run p K) (fl && (insDids pre).isEmpty) (M.all (insDids pre) s) (insDids pre) tr s' o stk
  | .nil, pre, K, sub, bt, l, hS, A, hC => by
    obtain ⟨rfl, hins⟩ := A.nil
    subst hins
    cases hC with
    | halt ha =>
      have hl : last < last + 1 := by omega
      have hact : ((ruled st last ff0 g).blk (nm last l)).act = .goto (nm last last) := by rw [C.act hb, ha]; rfl
      have hgo : ∀ s, go (ruled st last ff0 g) (unitSem st last M) (nm last l) s = .to (nm last last) := by
        intro s; unfold go; rw [hact]
      have hgo' : ∀ s, go (ruled st last ff0 g) (unitSem st last M) (nm last last) s = .out .halt := by
        intro s; unfold go; rw [C.act hl, C.U.stop]; rfl
      have hs := C.plain hl C.U.noIf_last
      rw [C.U.stop] at hs
      have hi : (st.blk last).ins = [] := by rw [C.U.stop]
      cases H with
      | out h => rw [hgo] at h; cases h
      | state h h1 => rw [hgo] at h; cases h; rw [hs] at h1; cases h1
      | more h h1 h2 =>
        rw [hgo] at h
        cases h
        cases h2 with
        | out h =>
          rw [hgo'] at h
          cases h
          rw [exec_nm M hl, exec_nm M hb, hi]
          exact ⟨[], none, .halt rfl, by rw [events_cons hb, events_cons hl, hi]; rfl, .halt⟩
        | state h => rw [hgo'] at h; cases h
        | more h => rw [hgo'] at h; cases h
    | after h1 h2 h3 h4 h5 h6 =>
      exact fine_goto C hb h2 H IH hW h1 hS h3 (h4 rfl) (fun _ => rfl) (.run h5 (by simpa [Prg.canEnd] using h6))
    | again h1 h2 h3 =>
      obtain ⟨m, L⟩ := h2
      have hlt := L.lt
      exact fine_goto C (cut := true) hb (by omega) H IH hW h1 hS L.skip.1 (C.state (by omega) L.state) (fun _ => rfl) (.head L h3)
    | @back s1 bt1 e1 outs z take k1 K1 l1 r l' stk1 h1 h2 h3 h4 h5 h6 =>
      have hgo : ∀ s, go (ruled st last ff0 g) (unitSem st last M) (nm last l) s = .out (.ret (nm last l) z) := by
        intro s; unfold go; rw [C.act hb, h1]; rfl
      exact fine_out hb H hgo _ (fun _ => .jump rfl) (.ret rfl h2 h3 h4 (.reading h5 h6))
  | .instr i k, pre, K, sub, bt, l, hS, A, hC => by
    have := fine_stm hb H IH hW k (pre ++ [.plain i]) K sub bt l (hS.plain i) A.instr (by rw [Prg.canEnd] at hC; exact hC)
    have e : insDids (pre ++ [.plain i]) = insDids pre ++ [.instr i] := by rw [insDids_append]; rfl
    rw [e, M.all_append] at this
    refine fine_did (e := .instr i) rfl ?_
    have e2 : (fl && (insDids pre ++ [Did.instr i]).isEmpty) = false := by simp
    rw [e2] at this
    exact this
  | .step k, pre, K, sub, bt, l, hS, A, hC => by
    obtain ⟨x, hins, ha, hx, h1, h2, A'⟩ := A.step
    subst hins
    exact fine_step C hb hx H hW ha h2 h1 (fun _ => rfl) (.run A' (by rw [Prg.canEnd] at hC; exact hC)) _
  | .block t k, pre, K, sub, bt, l, hS, A, hC => by
    obtain ⟨i, m, x, hins, ha, hi, h1, h2, A1, hm, hx, h3, h4, A2⟩ := A.block C
    subst hins
    exact fine_goto C hb hi H IH hW ha hS h1 h2 (fun _ => rfl) (.run A1 (.after hm hx h3 (fun _ => h4) A2 (by rw [Prg.canEnd] at hC; exact hC)))
  | .ifThen q t k, pre, K, sub, bt, l, hS, A, hC => by
    obtain ⟨i, it, el, et, a, x, y, I⟩ := A.ifThen C
    exact fine_if C I hb H IH hW (by rw [Prg.canEnd] at hC; exact hC) (fun _ => rfl) _
  | .ifElse q t e k, pre, K, sub, bt, l, hS, A, hC => by
    obtain ⟨i, it, el, et, a, x, y, I⟩ := A.ifElse C
    refine fine_if C I hb H IH hW (by rw [Prg.canEnd] at hC; exact hC) (fun s => ?_) _
    simp only [move]
    split_ifs <;> rfl
  | .loop q t k, pre, K, sub, bt, l, hS, A, hC => by
    obtain ⟨h, m, hins, ha, L⟩ := A.loop C
    subst hins
    have hlt := L.lt
    exact fine_goto C (cut := true) hb (by omega) H IH hW ha hS L.skip.1 (C.state (by omega) L.state) (fun _ => rfl)
      (.head L (by rw [Prg.canEnd] at hC; exact hC))
  | .brk k, pre, K, sub, bt, l, hS, A, hC => by
    obtain ⟨x, hbt, hins, ha, hs⟩ := A.brk
    obtain ⟨k', K', bt', l', h1, h2, h3, h4, h5⟩ := hC.leave hbt
    subst hins
    exact fine_goto C (cut := true) hb h2 H IH hW ha hS h3 (C.state h2 hs) (fun s => by simp only [move, h1]; rfl) (.run h4 h5)
  | .switch q cs k, pre, K, sub, bt, l, hS, A, hC => by
    obtain ⟨es, a, bb, mm, hins, ha, hx, hn, hs, hlen, hcase, A'⟩ := A.switch C
    subst hins
    have hC' : Conts st last ff0 g sub bt k.canEnd K l stk := by rw [Prg.canEnd] at hC; exact hC
    have act0 := C.P.over0.switch hb ha
    have act1 : ((ruled st last ff0 g).blk (nm last b)).act = .switch q (es.map fun p => (p.1, nm last p.2)) (nm last a) := by
      rw [C.act hb, ha]; rfl
    rcases pick_aligned (fun p n => ∃ j v, cs[j]? = some (v, p) ∧ n = nm last (bb j))
        (fun v => M.label q v (M.all (insDids (st.blk b).ins) s)) cs (es.map fun p => (p.1, nm last p.2)) (by simpa using hlen)
        (fun j v p hj => ⟨nm last (bb j), by rw [List.getElem?_map, (hcase j v p hj).1]; rfl, j, v, hj, rfl⟩) with
      ⟨p, n, h1, h2, j, v, hj, rfl⟩ | ⟨h1, h2⟩
    · obtain ⟨hes, Ca⟩ := hcase j v p hj
      refine fine_test C (x := bb j) (cut := false) hb Ca.lt H IH (by rw [ha]; simp) (go_switch_some act1 h2) ?_ (by simp) Ca.si
        (by simp only [move, h1]; rfl) (.run Ca.body (.after Ca.leave hx hn (fun _ => hs) A' (hC'.weaken fun h => by
          rw [Bool.and_eq_true] at h; exact h.2))) _
      refine .child hW ?_
      simp only [Cfg.children, act0, List.mem_append, List.mem_map]
      exact .inl ⟨(v, nm last (bb j)), ⟨_, List.mem_of_getElem? hes, rfl⟩, rfl⟩
    · exact fine_test C (x := a) hb hx H IH (by rw [ha]; simp) (go_switch_none act1 h2) (.child hW (by simp only [Cfg.children, act0]; simp)) (fun _ => hn) hs
        (by simp only [move, h1]) (.run A' hC') _
  | .call z give take outs k, pre, K, sub, bt, l, hS, A, hC => by
    obtain ⟨t, r, hins, hz, ha, hr, h1, h2, A'⟩ := A.call
    have e : insDids (st.blk b).ins = insDids pre ++ [.instr give] := by rw [hins, insDids_append]; rfl
    obtain ⟨p, hi, kk, hp, t1, t2, S⟩ := C.U.top hz
    have hpos := C.U.pos
    have act0 := C.P.over0.call hb ha
    have htidy : p.tidy = true := by
      have := C.tidy
      rw [AlgUnit.tidy, Bool.and_eq_true, List.all_eq_true] at this
      exact this.2 p (List.mem_of_getElem? hp)
    have Ap : At st last (some z) p none t [] kk :=
      ⟨st.tops.take z, t + 1, hi, fun y t' hy => by
        have hlt : y < z := by
          have := (List.getElem?_eq_some_iff.mp hy).1
          rw [List.length_take] at this
          omega
        rwa [List.getElem?_take_of_lt hlt] at hy, S.frag, C.U.subInlet hp S (by omega), htidy, by omega⟩
    have hWt : Walked (st.cfg last) (nm last t) := .child hW (by simp only [Cfg.children, act0, List.mem_singleton])
    have hWr := walk_call C.U C.hff0 hb ha hW
    have hgo : ∀ s, go (ruled st last ff0 g) (unitSem st last M) (nm last b) s = .out (.call (nm last b) (nm last t) (nm last r)) := by
      intro s; unfold go; rw [C.act hb, ha]; rfl
    refine fine_did (e := .instr give) rfl ?_
    have := fine_out (u := u) (c := .calling z take outs k K) hb H hgo false (fun s => .jump (by simp only [move, hp]; rfl))
      (Ended.call (by omega) ⟨S.state, S.skip⟩ hWt (.run Ap (.back S.ret hr ⟨h1, h2⟩ hWr A' (by rw [Prg.canEnd] at hC; exact hC))))
    rw [e, M.all_append] at this
    exact this
  | .join inst take outs k, pre, K, sub, bt, l, hS, A, hC => by
    obtain ⟨w, hins, ha, hw, h1, h2, h3, h4, h5, h6, A'⟩ := A.join
    subst hins
    exact fine_goto C (cut := true) hb (by omega) H IH hW ha hS h2 (C.state (by omega) h1) (fun _ => rfl)
      (.waiting hw h1 h2 h3 h4 h5 h6 A' (by rw [Prg.canEnd] at hC; exact hC))
  | .ret k, pre, K, sub, bt, l, hS, A, hC => by
    obtain ⟨z, hz, hins, ha⟩ := A.ret
    obtain ⟨take, outs, k', K', s1, bt', l', r, stk', h1, h2, h3, h4, h5, h6, h7⟩ := hC.unwind hz
    subst hins
    have hgo : ∀ s, go (ruled st last ff0 g) (unitSem st last M) (nm last b) s = .out (.ret (nm last b) z) := by
      intro s; unfold go; rw [C.act hb, ha]; rfl
    exact fine_out hb H hgo _ (fun s => .jump (by simp only [move, h1])) (.ret h2 h3 h4 h5 (.reading h6 h7))

/-- Cycles of the graph are cycles of the statements. -/
theorem sim_cycle : ∀ tr, SimTr u st last g ff0 M tr := by
  intro tr
  induction tr with
  | nil => intro b fl s s' o c stk hb H; cases H
  | cons b' tr ih =>
    intro b fl s s' o c stk hb H hW hM
    have IH : ∀ b'' tr', b' :: tr = b'' :: tr' → SimTr u st last g ff0 M tr' := by
      intro b'' tr' h
      cases h
      exact ih
    cases hM with
    | run A hC =>
      have := fine_stm C hb H IH hW _ [] _ _ _ _ Shape.nil A hC
      simpa [insDids, Meaning.all] using this
    | @head sub bt q t k K _ m l _ L hC =>
      have act0 := C.P.over0.loop hb L.act
      have hgo : ∀ s, go (ruled st last ff0 g) (unitSem st last M) (nm last b) s = .to (if M.test q s then nm last (b + 1) else nm last (b + 2)) := by
        intro s; unfold go; rw [C.act hb, L.act]; rfl
      have e : M.all (insDids (st.blk b).ins) s = s := by rw [L.ins]; rfl
      have hlt := L.lt
      cases hq : M.test q s with
      | true =>
        have := fine_test C (x := b + 1) (cut := false) (c := .head q t k K) hb (by omega) H IH (by rw [L.act]; simp) (by rw [hgo, e, hq]; rfl)
          (.child hW (by simp only [Cfg.children, act0]; simp)) (by simp) L.si (by rw [e]; simp only [move, hq]; rfl)
          (.run L.body (.again L.again ⟨m, L⟩ hC)) fl
        rw [e, L.ins] at this
        exact this
      | false =>
        have := fine_test C (x := b + 2) (c := .head q t k K) hb (by omega) H IH (by rw [L.act]; simp) (by rw [hgo, e, hq]; rfl)
          (.child hW (by simp only [Cfg.children, act0]; simp)) (fun _ => L.skip.2) L.sa (by rw [e]; simp only [move, hq]; rfl)
          (.run L.rest hC) fl
        rw [e, L.ins] at this
        exact this
    | @waiting sub bt inst take outs k K _ l _ h1 h2 h3 h4 h5 h6 h7 A hC =>
      have act0 := C.P.over0.wait hb h5
      have hgo : ∀ s, go (ruled st last ff0 g) (unitSem st last M) (nm last b) s = .to (if M.done inst s then nm last (b + 1) else nm last b) := by
        intro s; unfold go; rw [C.act hb, h5]; rfl
      have e : M.all (insDids (st.blk b).ins) s = s := by rw [h4]; rfl
      cases hq : M.done inst s with
      | true =>
        have := fine_test C (x := b + 1) (cut := true) (c := .waiting inst take outs k K) hb h1 H IH (by rw [h5]; simp) (by rw [hgo, e, hq]; rfl)
          (.child hW (by simp only [Cfg.children, act0]; simp)) (fun _ => h7) (C.state h1 h6) (by rw [e]; simp only [move, hq]; rfl)
          (.reading A hC) fl
        rw [e, h4] at this
        exact this
      | false =>
        have := fine_test C (x := b) (cut := true) (c := .waiting inst take outs k K) hb hb H IH (by rw [h5]; simp) (by rw [hgo, e, hq]; rfl)
          hW (fun _ => h3) (C.state hb h2) (by rw [e]; simp only [move, hq]; rfl)
          (.waiting h1 h2 h3 h4 h5 h6 h7 A hC) fl
        rw [e, h4] at this
        exact this
    | @reading sub bt take outs k K _ l _ A hC =>
      have := fine_stm C hb H IH hW _ _ _ _ _ _ (Shape.read take outs) A hC
      cases outs with
      | true =>
        refine fine_did (e := .take take) (by simp only [move, if_true]; rfl) ?_
        simpa [insDids, PIns.dids, Meaning.all] using this
      | false =>
        refine fine_on (by simp only [move]; rfl) ?_
        simpa [insDids, PIns.dids, Meaning.all] using this

end

end Silice
