import Verif.Spec.ExprWritten
import Verif.Prelude

/-!
Reading back the tokens of an expression.
-/

set_option autoImplicit false

namespace Silice

/-! ### Reading is deterministic -/

theorem nextTok_space (cs : List Char) : nextTok (' ' :: cs) = none := by
  have : longest (' ' :: cs) = "" := by
    unfold longest
    simp [vSymbols]
  have h1 : wordStart ' ' = false := by decide
  have h2 : isDigitC ' ' = false := by decide
  simp [nextTok, this, h1, h2]

theorem Lexes.det {cs : List Char} {t1 t2 : List VTok} (h1 : Lexes cs t1) (h2 : Lexes cs t2) : t1 = t2 := by
  induction h1 generalizing t2 with
  | done =>
    cases h2 with
    | done => rfl
    | tok h _ => simp [nextTok] at h
  | @space cs ts h ih =>
    cases h2 with
    | space h' => exact ih h'
    | tok h' _ => 
      rw [nextTok_space] at h'
      cases h'
  | @tok cs rest t ts h _ ih =>
    cases h2 with
    | done => simp [nextTok] at h
    | space h' =>
      rw [nextTok_space] at h
      cases h
    | tok h' r' =>
      rw [h, Option.some.injEq, Prod.mk.injEq] at h'
      obtain ⟨rfl, rfl⟩ := h'
      rw [ih r']

theorem VRead.det {m : VMode} {ts r1 r2 : List VTok} {t1 t2 : VExpr} (h1 : VRead m ts t1 r1) (h2 : VRead m ts t2 r2) : t1 = t2 ∧ r1 = r2 := by
  induction h1 generalizing t2 r2 with
  | tern _ _ _ i1 i2 i3 =>
    cases h2 with
    | tern b1 b2 b3 =>
      obtain ⟨rfl, e1⟩ := i1 b1
      simp only [List.cons.injEq, true_and] at e1
      subst e1
      obtain ⟨rfl, e1⟩ := i2 b2
      simp only [List.cons.injEq, true_and] at e1
      subst e1
      obtain ⟨rfl, rfl⟩ := i3 b3
      exact ⟨rfl, rfl⟩
    | plain b1 b2 =>
      obtain ⟨rfl, e1⟩ := i1 b1
      exact (b2 ⟨_, e1.symm⟩).elim
    | level b _ _ _ => omega
  | plain _ a2 i1 =>
    cases h2 with
    | tern b1 b2 b3 =>
      obtain ⟨rfl, e1⟩ := i1 b1
      exact (a2 ⟨_, e1⟩).elim
    | plain b1 b2 => exact i1 b1
    | level b _ _ _ => omega
  | level a1 a2 _ _ i1 i2 =>
    cases h2 with
    | tern b1 b2 b3 => omega
    | plain b1 b2 => omega
    | level b1 b2 b3 b4 =>
      obtain ⟨rfl, rfl⟩ := i1 b3
      exact i2 b4
    | _ => omega
  | op a1 _ _ i1 i2 =>
    cases h2 with
    | op b1 b2 b3 =>
      obtain ⟨rfl, rfl⟩ := i1 b2
      exact i2 b3
    | stop b => exact (b ⟨_, _, rfl, a1⟩).elim
  | stop a =>
    cases h2 with
    | op b1 b2 b3 => exact (a ⟨_, _, rfl, b1⟩).elim
    | stop b => exact ⟨rfl, rfl⟩
  | un a1 _ i1 =>
    cases h2 with
    | level b1 b2 b3 b4 => omega
    | un b1 b2 =>
      obtain ⟨rfl, rfl⟩ := i1 b2
      exact ⟨rfl, rfl⟩
    | paren b => exact absurd a1 (by decide)
    | cat _ _ => exact absurd a1 (by decide)
    | rep _ => exact absurd a1 (by decide)
  | @paren ts r a _ i1 =>
    generalize hs : (VTok.sym "(" :: ts) = ts0 at h2
    cases h2 with
    | level b1 b2 b3 b4 => omega
    | un b1 b2 =>
      simp only [List.cons.injEq, VTok.sym.injEq] at hs
      exact absurd (hs.1 ▸ b1) (by decide)
    | paren b =>
      simp only [List.cons.injEq, true_and] at hs
      subst hs
      obtain ⟨rfl, e⟩ := i1 b
      simp only [List.cons.injEq, true_and] at e
      exact ⟨rfl, e⟩
    | _ => simp at hs
  | @cast sg ts r a _ i1 =>
    generalize hw : castWord sg = w at h2
    cases h2 with
    | level b1 b2 b3 b4 => omega
    | @cast sg' _ _ _ b =>
      obtain ⟨rfl, e⟩ := i1 b
      simp only [List.cons.injEq, true_and] at e
      refine ⟨?_, e⟩
      revert hw
      cases sg <;> cases sg' <;> simp [castWord]
    | name b1 b2 _ =>
      subst hw
      cases sg
      · exact (b2 rfl).elim
      · exact (b1 rfl).elim
  | num =>
    cases h2 with
    | level b1 b2 b3 b4 => omega
    | num => exact ⟨rfl, rfl⟩
  | @name w ts r t a1 a2 _ i1 =>
    cases h2 with
    | level b1 b2 b3 b4 => omega
    | @cast sg' _ _ _ b =>
      cases sg'
      · exact (a2 rfl).elim
      · exact (a1 rfl).elim
    | name _ _ b => exact i1 b
  | idx _ _ i1 i2 =>
    cases h2 with
    | idx b1 b2 =>
      obtain ⟨rfl, e⟩ := i1 b1
      simp only [List.cons.injEq, true_and] at e
      subst e
      exact i2 b2
    | sel b1 b2 b3 =>
      obtain ⟨_, e⟩ := i1 b1
      simp at e
    | pdone b => exact (b ⟨_, rfl⟩).elim
  | sel _ _ _ i1 i2 i3 =>
    cases h2 with
    | idx b1 b2 =>
      obtain ⟨_, e⟩ := i1 b1
      simp at e
    | sel b1 b2 b3 =>
      obtain ⟨rfl, e⟩ := i1 b1
      simp only [List.cons.injEq, true_and] at e
      subst e
      obtain ⟨rfl, e⟩ := i2 b2
      simp only [List.cons.injEq, true_and] at e
      subst e
      exact i3 b3
    | pdone b => exact (b ⟨_, rfl⟩).elim
  | pdone a =>
    cases h2 with
    | idx b1 b2 => exact (a ⟨_, rfl⟩).elim
    | sel b1 b2 b3 => exact (a ⟨_, rfl⟩).elim
    | pdone b => exact ⟨rfl, rfl⟩
  | @cat l ts r a1 _ i1 =>
    generalize hs : (VTok.sym "{" :: ts) = ts0 at h2
    cases h2 with
    | level b1 b2 b3 b4 => omega
    | un b1 b2 =>
      simp only [List.cons.injEq, VTok.sym.injEq] at hs
      exact absurd (hs.1 ▸ b1) (by decide)
    | cat _ b =>
      simp only [List.cons.injEq, true_and] at hs
      subst hs
      obtain ⟨rfl, e⟩ := i1 b
      simp only [List.cons.injEq, true_and] at e
      exact ⟨rfl, e⟩
    | rep b =>
      simp only [List.cons.injEq, true_and] at hs
      exact (a1 _ _ hs).elim
    | _ => simp at hs
  | @rep n l ts r _ i1 =>
    generalize hs : (VTok.sym "{" :: .num n :: .sym "{" :: ts) = ts0 at h2
    cases h2 with
    | level b1 b2 b3 b4 => omega
    | un b1 b2 =>
      simp only [List.cons.injEq, VTok.sym.injEq] at hs
      exact absurd (hs.1 ▸ b1) (by decide)
    | cat b _ =>
      simp only [List.cons.injEq, true_and] at hs
      exact (b _ _ hs.symm).elim
    | rep b =>
      simp only [List.cons.injEq, true_and, VTok.num.injEq] at hs
      obtain ⟨rfl, rfl⟩ := hs
      obtain ⟨rfl, e⟩ := i1 b
      simp only [List.cons.injEq, true_and] at e
      exact ⟨rfl, e⟩
    | _ => simp at hs
  | one _ a i1 =>
    cases h2 with
    | one b1 b2 =>
      obtain ⟨rfl, rfl⟩ := i1 b1
      exact ⟨rfl, rfl⟩
    | more b1 b2 =>
      obtain ⟨_, e⟩ := i1 b1
      exact (a ⟨_, e⟩).elim
  | more _ _ i1 i2 =>
    cases h2 with
    | one b1 b2 =>
      obtain ⟨_, e⟩ := i1 b1
      exact (b2 ⟨_, e.symm⟩).elim
    | more b1 b2 =>
      obtain ⟨rfl, e⟩ := i1 b1
      simp only [List.cons.injEq, true_and] at e
      subst e
      obtain ⟨rfl, rfl⟩ := i2 b2
      exact ⟨rfl, rfl⟩

/-! ### The tokens of an expression -/

/-- `$signed(` .. `)` around tokens. -/
def wrapToks (signed : Bool) (ts : List VTok) : List VTok :=
  if signed then .word (castWord true) :: .sym "(" :: ts ++ [.sym ")"] else ts

/-- The tokens one expects to find in the text of an expression. -/
def PExpr.toks (nm : String → Ref) : PExpr → List VTok
  | .name x => match nm x with
    | .plain w => [.word w]
    | .cst sg w => [.word (castWord sg), .sym "(", .word ('`' :: w), .sym ")"]
  | .num ds => [.num ds]
  | .sized neg w b v => (if neg then [.sym "-"] else []) ++ [.num (natToDec w ++ '\'' :: b :: v)]
  | .idx a i => a.toks nm ++ .sym "[" :: i.toks nm ++ [.sym "]"]
  | .sel a i n => a.toks nm ++ .sym "[" :: i.toks nm ++ [.sym "+:", .num n, .sym "]"]
  | .field sg a off w => wrapToks sg (a.toks nm ++ [.sym "[", .num (natToDec off), .sym "+:", .num (natToDec w), .sym "]"])
  | .fieldSel sg a i off n =>
    wrapToks sg (a.toks nm ++ [.sym "[", .sym "(", .sym "("] ++ i.toks nm ++
      [.sym ")", .sym "+", .sym "(", .num (natToDec off), .sym ")", .sym ")", .sym "+:", .num n, .sym "]"])
  | .comb a => a.toks nm
  | .paren e => .sym "(" :: e.toks nm ++ [.sym ")"]
  | .cast sg e => .word (castWord sg) :: .sym "(" :: e.toks nm ++ [.sym ")"]
  | .widthof w => [.sym "(", .num (natToDec w), .sym ")"]
  | .isdone w => [.sym "(", .word w, .sym ")"]
  | .cat l => .sym "{" :: l.toks nm ++ [.sym "}"]
  | .rep n c => .sym "{" :: .num n :: c.toks nm ++ [.sym "}"]
  | .one e => e.toks nm
  | .more e l => e.toks nm ++ .sym "," :: l.toks nm
  | .un o a => .sym o :: a.toks nm
  | .bin o l r => l.toks nm ++ .sym o :: r.toks nm
  | .tern c a b => c.toks nm ++ .sym "?" :: a.toks nm ++ .sym ":" :: b.toks nm

/-! ### Reading back the tokens -/

/-- Nothing that an operand of level `k` would include follows. -/
def Quiet (k : Nat) (ts : List VTok) : Prop := ¬ symAt "[" ts ∧ ∀ j, opAt j ts → j < k

/-- The end of an expression. -/
def Closed0 (ts : List VTok) : Prop := Quiet 1 ts ∧ ¬ symAt "?" ts

theorem Quiet.mono {k j : Nat} {ts : List VTok} (h : Quiet k ts) (hk : k ≤ j) : Quiet j ts := ⟨h.1, fun i hi => lt_of_lt_of_le (h.2 i hi) hk⟩

theorem Quiet.noOp {k : Nat} {ts : List VTok} (h : Quiet k ts) : ¬ opAt k ts := fun ho => absurd (h.2 k ho) (lt_irrefl k)

theorem lookup_pair {α : Type} {o : String} {a : α} {l : List (String × α)} (h : l.lookup o = some a) : (o, a) ∈ l := by
  induction l with
  | nil => cases h
  | cons p l ih =>
    obtain ⟨o', a'⟩ := p
    rw [List.lookup_cons] at h
    split at h
    · rename_i he
      cases h
      rw [beq_iff_eq] at he
      subst he
      exact List.mem_cons_self
    · exact List.mem_cons_of_mem _ (ih h)

theorem gram_levels : ∀ p ∈ gramLevels, vLevel p.1 = some p.2 ∧ 1 ≤ p.2 ∧ p.2 ≤ 10 ∧ p.1 ≠ "[" := by decide +kernel

theorem gramLevel_ok {o : String} {k : Nat} (h : gramLevel o = some k) : vLevel o = some k ∧ 1 ≤ k ∧ k ≤ 10 ∧ o ≠ "[" :=
  gram_levels _ (lookup_pair h)

theorem gramUnary_ok {o : String} (h : o ∈ gramUnary) : o ∈ vUnary := (by decide : ∀ o ∈ gramUnary, o ∈ vUnary) o h

theorem opAt_cons {k : Nat} {o : String} {ts : List VTok} : opAt k (.sym o :: ts) ↔ vLevel o = some k := by
  constructor
  · rintro ⟨o', ts', e, h⟩
    simp only [List.cons.injEq, VTok.sym.injEq] at e
    rw [e.1]; exact h
  · exact fun h => ⟨o, ts, rfl, h⟩

theorem symAt_cons {s o : String} {ts : List VTok} : symAt s (.sym o :: ts) ↔ o = s := by
  constructor
  · rintro ⟨ts', e⟩
    simp only [List.cons.injEq, VTok.sym.injEq] at e
    exact e.1
  · rintro rfl
    exact ⟨ts, rfl⟩

/-- After these symbols, an expression has ended. -/
def closers : List String := [")", "]", "}", ",", ":", "+:"]

theorem Closed0.cons {s : String} (hs : s ∈ closers) (ts : List VTok) : Closed0 (.sym s :: ts) := by
  have h : ∀ s ∈ closers, vLevel s = none ∧ s ≠ "[" ∧ s ≠ "?" := by decide +kernel
  obtain ⟨h1, h2, h3⟩ := h s hs
  refine ⟨⟨fun h => h2 (symAt_cons.mp h), fun j hj => ?_⟩, fun h => h3 (symAt_cons.mp h)⟩
  rw [opAt_cons, h1] at hj
  cases hj

theorem Closed0.nil : Closed0 [] :=
  ⟨⟨fun ⟨_, h⟩ => (by cases h), fun _ ⟨_, _, h, _⟩ => (by cases h)⟩, fun ⟨_, h⟩ => (by cases h)⟩

/-- Reading at a level: the operand, then the operators of the level. -/
def Chain (k : Nat) (ts : List VTok) (v : VExpr) : Prop :=
  ∀ rest t r, Quiet (k + 1) rest → VRead (.ops k v) rest t r → VRead (.e k) (ts ++ rest) t r

theorem Chain.read {k : Nat} {ts rest : List VTok} {v : VExpr} (h : Chain k ts v) (hq : Quiet k rest) : VRead (.e k) (ts ++ rest) v rest :=
  h rest v rest (hq.mono (by omega)) (.stop hq.noOp)

theorem Chain.down {k : Nat} {ts : List VTok} {v : VExpr} (h1 : 1 ≤ k) (hk : k ≤ 10) (h : Chain (k + 1) ts v) : Chain k ts v :=
  fun _ _ _ hq ho => .level h1 (by omega) (h.read hq) ho

theorem Chain.zero {ts rest : List VTok} {v : VExpr} (h : Chain 1 ts v) (hc : Closed0 rest) : VRead (.e 0) (ts ++ rest) v rest :=
  .plain (h.read hc.1) hc.2

/-- Reading an operand. -/
def Unit12 (ts : List VTok) (v : VExpr) : Prop := ∀ rest, ¬ symAt "[" rest → VRead (.e 12) (ts ++ rest) v rest

theorem Unit12.chain {ts : List VTok} {v : VExpr} (h : Unit12 ts v) : Chain 11 ts v :=
  fun rest _ _ hq ho => .level (by omega) (by omega) (h rest hq.1) ho

theorem chain_le {k j : Nat} {ts : List VTok} {v : VExpr} (h1 : 1 ≤ j) (hj : j ≤ k) (hk : k ≤ 11) (h : Chain k ts v) : Chain j ts v := by
  obtain ⟨d, rfl⟩ := Nat.exists_eq_add_of_le hj
  induction d generalizing j with
  | zero => exact h
  | succ d ih => exact (ih (j := j + 1) (by omega) (by omega) (by omega) (by rwa [show j + 1 + d = j + (d + 1) by omega])).down h1 (by omega)

theorem Unit12.zero {ts rest : List VTok} {v : VExpr} (h : Unit12 ts v) (hc : Closed0 rest) : VRead (.e 0) (ts ++ rest) v rest :=
  (chain_le (Nat.le_refl 1) (by omega) (Nat.le_refl 11) h.chain).zero hc

/-- Reading something selections may follow. -/
def Base12 (ts : List VTok) (v : VExpr) : Prop := ∀ rest t r, VRead (.post v) rest t r → VRead (.e 12) (ts ++ rest) t r

theorem Base12.unit {ts : List VTok} {v : VExpr} (h : Base12 ts v) : Unit12 ts v := fun rest hr => h rest v rest (.pdone hr)

theorem unit_num (n : List Char) : Unit12 [.num n] (.num n) := fun _ _ => .num

theorem Unit12.paren {ts : List VTok} {v : VExpr} (h : ∀ rest, Closed0 rest → VRead (.e 0) (ts ++ rest) v rest) :
    Unit12 (.sym "(" :: ts ++ [.sym ")"]) (.paren v) := by
  intro rest _
  rw [List.cons_append, List.cons_append, List.append_assoc]
  exact .paren (h _ (.cons (by decide) _))

theorem Unit12.cast {sg : Bool} {ts : List VTok} {v : VExpr} (h : ∀ rest, Closed0 rest → VRead (.e 0) (ts ++ rest) v rest) :
    Unit12 (.word (castWord sg) :: .sym "(" :: ts ++ [.sym ")"]) (.cast sg v) := by
  intro rest _
  rw [List.cons_append, List.cons_append, List.cons_append, List.cons_append, List.append_assoc]
  exact .cast (h _ (.cons (by decide) _))

theorem Unit12.wrap {sg : Bool} {ts : List VTok} {v : VExpr} (h : Unit12 ts v) : Unit12 (wrapToks sg ts) (wrapSigned sg v) := by
  cases sg
  · exact h
  · exact .cast fun _ hc => h.zero hc

theorem Base12.sel {ta ti tn : List VTok} {a i n : VExpr} (ha : Base12 ta a) (hi : ∀ rest, Closed0 rest → VRead (.e 0) (ti ++ rest) i rest)
    (hn : ∀ rest, Closed0 rest → VRead (.e 0) (tn ++ rest) n rest) : Base12 (ta ++ .sym "[" :: ti ++ .sym "+:" :: tn ++ [.sym "]"]) (.sel a i n) := by
  intro rest t r hp
  simp only [List.append_assoc, List.cons_append, List.nil_append]
  exact ha _ _ _ (.sel (hi _ (.cons (by decide) _)) (hn _ (.cons (by decide) _)) hp)

theorem Base12.idx {ta ti : List VTok} {a i : VExpr} (ha : Base12 ta a) (hi : ∀ rest, Closed0 rest → VRead (.e 0) (ti ++ rest) i rest) :
    Base12 (ta ++ .sym "[" :: ti ++ [.sym "]"]) (.idx a i) := by
  intro rest t r hp
  simp only [List.append_assoc, List.cons_append, List.nil_append]
  exact ha _ _ _ (.idx (hi _ (.cons (by decide) _)) hp)

theorem name_not_cast {w : List Char} (h : NameText w) (sg : Bool) : w ≠ castWord sg := by
  obtain ⟨c, w', rfl, h, _⟩ := h
  intro e
  have : c = '$' := by
    cases sg <;> simp [castWord] at e <;> exact e.1
  subst this
  exact absurd h (by decide)

theorem base_name {w : List Char} (h : NameText w) : Base12 [.word w] (.name w) :=
  fun _ _ _ hp => .name (name_not_cast h true) (name_not_cast h false) hp

theorem no_num_brace {nm : String → Ref} {s : Slot} {p : PExpr} (h : Gram nm s p) :
    ∀ rest, ¬ symAt "{" rest → ¬ ∃ n ts', p.toks nm ++ rest = .num n :: .sym "{" :: ts' := by
  have hs : ∀ (o : String) (ts : List VTok), o ≠ "{" → ¬ symAt "{" (.sym o :: ts) := fun o ts ho h => ho (symAt_cons.mp h)
  induction h with
  | tern _ _ _ ic _ _ =>
    intro rest hr
    simp only [PExpr.toks, List.append_assoc, List.cons_append]
    exact ic _ (hs _ _ (by decide))
  | @bin o k _ _ ho _ _ il _ =>
    intro rest hr
    simp only [PExpr.toks, List.append_assoc, List.cons_append]
    refine il _ (hs _ _ ?_)
    have : ∀ p ∈ gramLevels, p.1 ≠ "{" := by decide +kernel
    exact this _ (lookup_pair ho)
  | pass _ _ ih => exact ih
  | atom _ ih => exact ih
  | access _ ih => exact ih
  | comb _ ih => exact ih
  | one _ ih => exact ih
  | more _ _ ih _ =>
    intro rest hr
    simp only [PExpr.toks, List.append_assoc, List.cons_append]
    exact ih _ (hs _ _ (by decide))
  | idx _ _ ih _ =>
    intro rest hr
    simp only [PExpr.toks, List.append_assoc, List.cons_append]
    exact ih _ (hs _ _ (by decide))
  | sel _ _ _ ih _ =>
    intro rest hr
    simp only [PExpr.toks, List.append_assoc, List.cons_append]
    exact ih _ (hs _ _ (by decide))
  | @field sg _ _ _ _ ih =>
    intro rest hr
    simp only [PExpr.toks]
    cases sg
    · simp only [wrapToks, Bool.false_eq_true, if_false, List.append_assoc, List.cons_append]
      exact ih _ (hs _ _ (by decide))
    · rintro ⟨n, ts', e⟩
      simp [wrapToks] at e
  | @fieldSel sg _ _ _ _ _ _ _ ih _ =>
    intro rest hr
    simp only [PExpr.toks, List.append_assoc, List.cons_append]
    cases sg
    · simp only [wrapToks, Bool.false_eq_true, if_false, List.append_assoc, List.cons_append]
      exact ih _ (hs _ _ (by decide))
    · rintro ⟨n, ts', e⟩
      simp [wrapToks] at e
  | @name x _ =>
    rintro rest hr ⟨n, ts', e⟩
    simp only [PExpr.toks] at e
    cases hn : nm x <;> rw [hn] at e <;> simp at e
  | @base x w hx _ =>
    rintro rest hr ⟨n, ts', e⟩
    simp only [PExpr.toks, hx] at e
    simp at e
  | num _ =>
    rintro rest hr ⟨n, ts', e⟩
    simp only [PExpr.toks, List.cons_append, List.nil_append, List.cons.injEq] at e
    exact hr ⟨_, e.2⟩
  | @sized neg _ _ _ _ _ _ =>
    rintro rest hr ⟨n, ts', e⟩
    cases neg
    · simp only [PExpr.toks, Bool.false_eq_true, if_false, List.cons_append, List.nil_append, List.cons.injEq] at e
      exact hr ⟨_, e.2⟩
    · simp [PExpr.toks] at e
  | un _ _ _ => rintro rest hr ⟨n, ts', e⟩; simp [PExpr.toks] at e
  | paren _ _ => rintro rest hr ⟨n, ts', e⟩; simp [PExpr.toks] at e
  | cast _ _ => rintro rest hr ⟨n, ts', e⟩; simp [PExpr.toks] at e
  | widthof => rintro rest hr ⟨n, ts', e⟩; simp [PExpr.toks] at e
  | isdone _ => rintro rest hr ⟨n, ts', e⟩; simp [PExpr.toks] at e
  | cat _ _ => rintro rest hr ⟨n, ts', e⟩; simp [PExpr.toks] at e
  | rep _ _ _ => rintro rest hr ⟨n, ts', e⟩; simp [PExpr.toks] at e
  | rep' _ _ _ => rintro rest hr ⟨n, ts', e⟩; simp [PExpr.toks] at e

/-- What reading the tokens of a part of an expression gives. -/
def ReadsBack (nm : String → Ref) (p : PExpr) : Slot → Prop
  | .e 0 => (p.isTern = false → Chain 1 (p.toks nm) (p.verilog nm)) ∧ ∀ rest, Closed0 rest → VRead (.e 0) (p.toks nm ++ rest) (p.verilog nm) rest
  | .e (k + 1) => k ≤ 10 → Chain (k + 1) (p.toks nm) (p.verilog nm)
  | .atom => Unit12 (p.toks nm) (p.verilog nm)
  | .base => Base12 (p.toks nm) (p.verilog nm)
  | .list => ∀ rest, symAt "}" rest → VRead .list (p.toks nm ++ rest) (p.verilog nm) rest

theorem reads_back {nm : String → Ref} {s : Slot} {p : PExpr} (h : Gram nm s p) (hc : p.Clear) : ReadsBack nm p s := by
  induction h with
  | tern _ _ _ ic ia ib =>
    obtain ⟨h1, h2, h3, h4⟩ := hc
    refine ⟨fun h => (by cases h), fun rest hr => ?_⟩
    simp only [PExpr.toks, PExpr.verilog, List.append_assoc, List.cons_append]
    have hq : ∀ ts, Quiet 1 (.sym "?" :: ts) := fun ts =>
      ⟨fun h => absurd (symAt_cons.mp h) (by decide), fun j hj => by
        rw [opAt_cons] at hj
        exact absurd hj (by rw [show vLevel "?" = none by decide +kernel]; simp)⟩
    exact .tern (((ic h2).1 h1).read (hq _)) ((ia h3).2 _ (.cons (by decide) _)) (Chain.zero (ib h4 (Nat.zero_le 10)) hr)
  | @bin o k l r ho _ _ il ir =>
    obtain ⟨h1, h2, _⟩ := hc
    obtain ⟨g1, g2, g3, g4⟩ := gramLevel_ok ho
    obtain ⟨k, rfl⟩ : ∃ k', k = k' + 1 := ⟨k - 1, by omega⟩
    intro _ rest t r hq hop
    simp only [PExpr.toks, List.append_assoc, List.cons_append]
    refine il h1 (by omega) _ _ _ ⟨fun h => g4 (symAt_cons.mp h), fun j hj => ?_⟩
      (.op g1 ((ir h2 (by omega)).read hq) hop)
    rw [opAt_cons, g1] at hj
    cases hj
    omega
  | @pass k p hk _ ih =>
    cases k with
    | zero => exact ⟨fun _ => ih hc (by omega), fun rest hr => Chain.zero (ih hc (by omega)) hr⟩
    | succ k => exact fun _ => Chain.down (by omega) (by omega) (ih hc (by omega))
  | un ho _ ih =>
    refine fun _ => Unit12.chain fun rest hr => ?_
    exact .un (gramUnary_ok ho) (ih hc.1 rest hr)
  | atom _ ih => exact fun _ => Unit12.chain (ih hc)
  | @name x hx =>
    simp only [ReadsBack, PExpr.toks, PExpr.verilog]
    cases hn : nm x with
    | plain w => rw [hn] at hx; exact (base_name hx).unit
    | cst sg w =>
      rw [hn] at hx
      refine Unit12.cast (ts := [.word ('`' :: w)]) fun rest hr => Unit12.zero (Base12.unit fun rest t r hp => ?_) hr
      exact .name (by cases sg <;> simp [castWord]) (by simp [castWord]) hp
  | num _ => exact unit_num _
  | @sized neg w b v _ _ _ =>
    cases neg
    · exact unit_num _
    · exact fun rest _ => .un (by decide) .num
  | @base x w hx hw =>
    simp only [ReadsBack, PExpr.toks, PExpr.verilog, hx]
    exact base_name hw
  | idx _ _ ia ii => exact (ia hc.1).idx (ii hc.2).2
  | access _ ih => exact (ih hc).unit
  | @sel a i n _ _ _ ia ii =>
    have := Base12.sel (ia hc.1) (ii hc.2).2 (fun rest hr => (unit_num n).zero hr)
    simp only [ReadsBack, PExpr.toks, PExpr.verilog]
    simp only [List.append_assoc, List.cons_append, List.nil_append] at this ⊢
    exact this.unit
  | @field sg a off w _ ia =>
    have := Base12.sel (ia hc) (fun rest hr => (unit_num (natToDec off)).zero hr) (fun rest hr => (unit_num (natToDec w)).zero hr)
    simp only [ReadsBack, PExpr.toks, PExpr.verilog]
    simp only [List.append_assoc, List.cons_append, List.nil_append] at this ⊢
    exact this.unit.wrap
  | @fieldSel sg a i off n _ _ _ ia ii =>
    have p1 : Unit12 _ _ := Unit12.paren (ii hc.2).2
    have p2 : Unit12 _ _ := Unit12.paren (fun rest hr => (unit_num (natToDec off)).zero hr)
    have p3 : Unit12 _ _ := Unit12.paren (ts := (.sym "(" :: i.toks nm ++ [.sym ")"]) ++ .sym "+" :: (.sym "(" :: [.num (natToDec off)] ++ [.sym ")"]))
      (v := .bin "+" (.paren (i.verilog nm)) (.paren (.num (natToDec off)))) (fun rest hr => by
        have c9 : Chain 9 _ _ := chain_le (by omega) (by omega) (Nat.le_refl 11) p1.chain
        have c10 : Chain 10 _ _ := chain_le (by omega) (by omega) (Nat.le_refl 11) p2.chain
        have b9 : Chain 9 ((.sym "(" :: i.toks nm ++ [.sym ")"]) ++ .sym "+" :: (.sym "(" :: [.num (natToDec off)] ++ [.sym ")"]))
            (.bin "+" (.paren (i.verilog nm)) (.paren (.num (natToDec off)))) := by
          intro rest t r hq hop
          have := c9 (.sym "+" :: ((.sym "(" :: [.num (natToDec off)] ++ [.sym ")"]) ++ rest)) t r
            ⟨fun h => absurd (symAt_cons.mp h) (by decide), fun j hj => by
              rw [opAt_cons, show vLevel "+" = some 9 by decide +kernel] at hj; cases hj; omega⟩
            (.op (by decide +kernel) (c10.read hq) hop)
          simpa only [List.append_assoc, List.cons_append, List.nil_append] using this
        exact (chain_le (Nat.le_refl 1) (by omega) (by omega) b9).zero hr)
    have := Base12.sel (ia hc.1) (fun rest hr => p3.zero hr) (fun rest hr => (unit_num n).zero hr)
    simp only [ReadsBack, PExpr.toks, PExpr.verilog]
    simp only [List.append_assoc, List.cons_append, List.nil_append] at this ⊢
    exact this.unit.wrap
  | comb _ ih => exact (ih hc).unit
  | paren _ ih => exact .paren (ih hc).2
  | cast _ ih => exact .cast (ih hc).2
  | widthof => exact .paren (ts := [_]) fun rest hr => (unit_num _).zero hr
  | isdone hw => exact .paren (ts := [_]) fun rest hr => (base_name hw).unit.zero hr
  | @cat l hl ih =>
    intro rest _
    simp only [PExpr.toks, PExpr.verilog, List.append_assoc, List.cons_append, List.nil_append]
    refine .cat (fun n ts' e => no_num_brace hl _ (fun h => absurd (symAt_cons.mp h) (by decide)) ⟨n, ts', e⟩) (ih hc _ ⟨_, rfl⟩)
  | @rep n l _ hl ih =>
    intro rest _
    simp only [PExpr.toks, PExpr.verilog, List.append_assoc, List.cons_append, List.nil_append]
    exact .rep (ih hc.2 _ ⟨_, rfl⟩)
  | rep' _ _ _ => exact absurd hc.1 (by simp [PExpr.isRep])
  | one _ ih =>
    intro rest hr
    obtain ⟨r', rfl⟩ := hr
    exact .one ((ih hc).2 _ (.cons (by decide) _)) (fun h => absurd (symAt_cons.mp h) (by decide))
  | more _ _ i1 i2 =>
    intro rest hr
    simp only [PExpr.toks, PExpr.verilog, List.append_assoc, List.cons_append]
    exact .more ((i1 hc.1).2 _ (.cons (by decide) _)) (i2 hc.2 _ hr)

end Silice
